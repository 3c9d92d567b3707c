import Verif.Props.CorrelationsScript
import Verif.Props.RdmsFails

/-! # C95: a triplet as counterexample, a singlet as example, and the radial averages -/

namespace GPSKet.Rdms

open Spec

/-- Two electrons with parallel spins on two sites. -/
def parallel : Cfg 2 → ℂ := fun x => if x = ![1, 1] then 1 else 0

/-- A singlet of two electrons on two sites. -/
def valence : Cfg 2 → ℂ := fun x => if x = ![1, 2] ∨ x = ![2, 1] then 1 else 0

theorem expect_parallel (A : Op 2) : expect A parallel = A (occOf ![1, 1]) (occOf ![1, 1]) := by
  have h1 : ∀ x : Cfg 2, x ≠ ![1, 1] → parallel x = 0 := fun x hx => if_neg hx
  have h2 : parallel ![1, 1] = 1 := if_pos rfl
  unfold expect braket normSq
  rw [Finset.sum_eq_single ![1, 1], Finset.sum_eq_single ![1, 1], Finset.sum_eq_single ![1, 1]]
  · simp [h2]
  · intro x _ hx; simp [h1 x hx]
  · simp
  · intro x _ hx; simp [h1 x hx]
  · simp
  · intro x _ hx; simp [h1 x hx]
  · simp

set_option maxRecDepth 100000 in
/-- **C95** is false for other states: for two parallel spins `⟨S^z_0 S^z_1⟩ = 1/4`, but the script's formula gives `1/12`. -/
theorem C95_fails :
    1 / 4 * expect (spinZ2 0 0 * spinZ2 1 1) parallel = 1 / 4 ∧
    correlations (fun p q => expect (exc p q) parallel) (fun p q r s => expect (pairOp p q r s) parallel) 0 1 = 1 / 12 := by
  constructor
  · rw [expect_parallel]
    have : (spinZ2 0 0 * spinZ2 1 1 : Op 2) (occOf ![1, 1]) (occOf ![1, 1]) = 1 := by decide +kernel
    rw [this]; norm_num
  · rw [corr_entries]
    simp only [expect_parallel]
    have h1 : (pairOp 0 0 1 1 : Op 2) (occOf ![1, 1]) (occOf ![1, 1]) = 1 := by decide +kernel
    have h2 : (pairOp 0 1 1 0 : Op 2) (occOf ![1, 1]) (occOf ![1, 1]) = -1 := by decide +kernel
    rw [h1, h2]
    norm_num

theorem valence_singlet : IsSinglet valence := by
  have key : ∀ A : Op 2, (∀ x, A (occOf x) (occOf ![1, 2]) + A (occOf x) (occOf ![2, 1]) = 0) →
      ∀ x, ∑ x', (A (occOf x) (occOf x') : ℂ) * valence x' = 0 := by
    intro A hA x
    have hne : (![1, 2] : Cfg 2) ≠ ![2, 1] := by decide
    rw [← Finset.sum_subset (Finset.subset_univ {![1, 2], ![2, 1]})]
    · rw [Finset.sum_pair hne]
      simp only [valence, true_or, or_true, if_true, mul_one]
      exact_mod_cast hA x
    · intro y _ hy
      have : valence y = 0 := if_neg (by simpa using hy)
      rw [this, mul_zero]
  exact ⟨key _ (by decide +kernel), key _ (by decide +kernel)⟩

/-- The hypotheses of `C95_saved`: the constant amplitudes of one electron of each spin on two sites are a singlet. -/
example : IsSinglet (sectorState (flat 2).logAmp (1, 1)) := by
  have hv : ∀ x : Cfg 2, sectorState (flat 2).logAmp (1, 1) x = if (numElec false x, numElec true x) = (1, 1) then 1 else 0 := by
    intro x
    unfold sectorState
    rw [show (flat 2).logAmp x = 0 from rfl, Complex.exp_zero]
  have key : ∀ A : Op 2, (∀ x, (∑ x', A (occOf x) (occOf x') * if (numElec false x', numElec true x') = (1, 1) then 1 else 0) = 0) →
      ∀ x, ∑ x', (A (occOf x) (occOf x') : ℂ) * sectorState (flat 2).logAmp (1, 1) x' = 0 := by
    intro A hA x
    simp only [hv]
    exact_mod_cast hA x
  exact ⟨key _ (by decide +kernel), key _ (by decide +kernel)⟩

/-! ### Radial averages -/

theorem bulk_eq : bulk6 = {14, 15, 20, 21} := by decide +kernel

/-- **C96**: `radial_correlations` returns, for the distances 0, 1, √2 and 2, the sum of the correlations of a bulk atom with all atoms
at this distance, averaged over the four bulk atoms, for every array of correlations. -/
theorem C96 (corr : Fin 36 → Fin 36 → ℝ) : radial corr = [radialSum corr 0, radialSum corr 1, radialSum corr 2, radialSum corr 4] := by
  have hc : ((bulk6.card : ℕ) : ℝ) = 4 := by
    have : bulk6.card = 4 := by rw [bulk_eq]; decide
    rw [this]; norm_num
  have h4 : ∀ f : Fin 36 → ℝ, (∑ a ∈ bulk6, f a) = f 14 + f 15 + f 20 + f 21 := by
    intro f
    rw [bulk_eq, Finset.sum_insert (by decide), Finset.sum_insert (by decide), Finset.sum_pair (by decide)]; ring
  have sh : ∀ (a : Fin 36) (d : ℤ) (b c e g : Fin 36), (Finset.univ.filter fun x => dist6 a x = d) = {b, c, e, g} →
      b ∉ ({c, e, g} : Finset (Fin 36)) → c ∉ ({e, g} : Finset (Fin 36)) → e ≠ g →
      (∑ x with dist6 a x = d, corr a x) = corr a b + corr a c + corr a e + corr a g := by
    intro a d b c e g h1 h2 h3 h5
    rw [h1, Finset.sum_insert h2, Finset.sum_insert h3, Finset.sum_pair h5]; ring
  have z : ∀ a : Fin 36, (∑ x with dist6 a x = 0, corr a x) = corr a a := by
    intro a
    have : (Finset.univ.filter fun x => dist6 a x = 0) = {a} := by revert a; decide +kernel
    rw [this, Finset.sum_singleton]
  unfold radial shell radialSum
  simp only [hc, h4, z, List.map_cons, List.map_nil, List.sum_cons, List.sum_nil, List.foldl_cons, List.foldl_nil]
  rw [sh 14 1 8 13 20 15 (by decide +kernel) (by decide) (by decide) (by decide),
    sh 15 1 9 14 21 16 (by decide +kernel) (by decide) (by decide) (by decide),
    sh 20 1 14 19 26 21 (by decide +kernel) (by decide) (by decide) (by decide),
    sh 21 1 15 20 27 22 (by decide +kernel) (by decide) (by decide) (by decide),
    sh 14 2 7 19 21 9 (by decide +kernel) (by decide) (by decide) (by decide),
    sh 15 2 8 20 22 10 (by decide +kernel) (by decide) (by decide) (by decide),
    sh 20 2 13 25 27 15 (by decide +kernel) (by decide) (by decide) (by decide),
    sh 21 2 14 26 28 16 (by decide +kernel) (by decide) (by decide) (by decide),
    sh 14 4 2 12 26 16 (by decide +kernel) (by decide) (by decide) (by decide),
    sh 15 4 3 13 27 17 (by decide +kernel) (by decide) (by decide) (by decide),
    sh 20 4 8 18 32 22 (by decide +kernel) (by decide) (by decide) (by decide),
    sh 21 4 9 19 33 23 (by decide +kernel) (by decide) (by decide) (by decide)]
  simp only [show at36 14 = 14 by decide, show at36 15 = 15 by decide, show at36 20 = 20 by decide, show at36 21 = 21 by decide,
    show at36 (14 + -6) = 8 by decide, show at36 (14 + -1) = 13 by decide, show at36 (14 + 6) = 20 by decide, show at36 (14 + 1) = 15 by decide,
    show at36 (15 + -6) = 9 by decide, show at36 (15 + -1) = 14 by decide, show at36 (15 + 6) = 21 by decide, show at36 (15 + 1) = 16 by decide,
    show at36 (20 + -6) = 14 by decide, show at36 (20 + -1) = 19 by decide, show at36 (20 + 6) = 26 by decide, show at36 (20 + 1) = 21 by decide,
    show at36 (21 + -6) = 15 by decide, show at36 (21 + -1) = 20 by decide, show at36 (21 + 6) = 27 by decide, show at36 (21 + 1) = 22 by decide,
    show at36 (14 + -7) = 7 by decide, show at36 (14 + 5) = 19 by decide, show at36 (14 + 7) = 21 by decide, show at36 (14 + -5) = 9 by decide,
    show at36 (15 + -7) = 8 by decide, show at36 (15 + 5) = 20 by decide, show at36 (15 + 7) = 22 by decide, show at36 (15 + -5) = 10 by decide,
    show at36 (20 + -7) = 13 by decide, show at36 (20 + 5) = 25 by decide, show at36 (20 + 7) = 27 by decide, show at36 (20 + -5) = 15 by decide,
    show at36 (21 + -7) = 14 by decide, show at36 (21 + 5) = 26 by decide, show at36 (21 + 7) = 28 by decide, show at36 (21 + -5) = 16 by decide,
    show at36 (14 + -12) = 2 by decide, show at36 (14 + -2) = 12 by decide, show at36 (14 + 12) = 26 by decide, show at36 (14 + 2) = 16 by decide,
    show at36 (15 + -12) = 3 by decide, show at36 (15 + -2) = 13 by decide, show at36 (15 + 12) = 27 by decide, show at36 (15 + 2) = 17 by decide,
    show at36 (20 + -12) = 8 by decide, show at36 (20 + -2) = 18 by decide, show at36 (20 + 12) = 32 by decide, show at36 (20 + 2) = 22 by decide,
    show at36 (21 + -12) = 9 by decide, show at36 (21 + -2) = 19 by decide, show at36 (21 + 12) = 33 by decide, show at36 (21 + 2) = 23 by decide]
  refine List.cons_eq_cons.mpr ⟨by ring, List.cons_eq_cons.mpr ⟨by ring, List.cons_eq_cons.mpr ⟨by ring,
    List.cons_eq_cons.mpr ⟨by ring, rfl⟩⟩⟩⟩

end GPSKet.Rdms
