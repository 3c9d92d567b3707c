import Verif.Spec.ZeroEnergy
import Verif.Model.ZeroEnergy
import Verif.Lemmas.ZeroSampler
import Verif.Lemmas.MarkovPath
import Verif.Lemmas.FloatSelect
import Mathlib.Algebra.BigOperators.Field

/-! # Local energies and their averages for wave functions with zeros -/

namespace GPSKet.ZeroEnergy
open Spec Floats Floats.F ZeroSampler

/-! ## Averages inside the support -/

section
variable {α : Type} [Fintype α] [DecidableEq α] {P q : Matrix α α ℝ} {w : α → ℝ}

omit [DecidableEq α] in
theorem path_restrict (hP : ∀ x y, w x ≠ 0 → w y = 0 → P x y = 0) [Fintype {x // w x ≠ 0}] (n : ℕ) (F : List α → ℝ) (x : {x // w x ≠ 0}) :
    pathExpect (restrict P w) n (fun l => F (l.map Subtype.val)) x = pathExpect P n F x.1 := by
  induction n generalizing F x with
  | zero => rfl
  | succ n ih =>
    unfold pathExpect
    rw [sum_support (w := w) (fun y => P x.1 y * pathExpect P n (fun l => F (y :: l)) y) fun z hz => by rw [hP x.1 z x.2 hz, zero_mul]]
    refine Finset.sum_congr rfl fun y _ => ?_
    have := ih (fun l => F (y.1 :: l)) y
    rw [← this]
    rfl

omit [DecidableEq α] in
theorem mean_restrict [Fintype {x // w x ≠ 0}] (f : α → ℂ) : weightedMean (fun a : {x // w x ≠ 0} => w a.1) (fun a => f a.1) = weightedMean w f := by
  classical
  unfold weightedMean
  rw [sum_support (w := w) w fun z hz => hz]
  congr 1
  have h1 : ∑ z ∈ Finset.univ.filter (fun z => w z ≠ 0), (w z : ℂ) * f z = ∑ z, (w z : ℂ) * f z := by
    refine Finset.sum_subset (Finset.subset_univ _) fun z _ hz => ?_
    have : w z = 0 := by
      by_contra h0
      exact hz (Finset.mem_filter.mpr ⟨Finset.mem_univ z, h0⟩)
    rw [this, Complex.ofReal_zero, zero_mul]
  rw [← h1]
  exact (Finset.sum_subtype (p := fun x => w x ≠ 0) (Finset.univ.filter fun z => w z ≠ 0) (fun x => by simp) fun z => (w z : ℂ) * f z).symm

/-- Averages over the samples of a chain in the support are consistent. -/
theorem consistent_inside (h : Zeros P q w) (hc : ∀ x y, w x ≠ 0 → w y ≠ 0 → Relation.ReflTransGen (fun a b => 0 < q a b ∧ w b ≠ 0) x y)
    {s z : α} (hs : w s ≠ 0) (hz : w z = 0) (hsz : 0 < q s z) {sweep : ℕ} (hsw : 0 < sweep) (f : α → ℂ) : ConsistentInside (P ^ sweep) w f := by
  classical
  have hR : restrict (P ^ sweep) w = restrict P w ^ sweep := by
    ext a b
    rw [h.pow_restrict]
    rfl
  have hcons := Markov.consistent (Markov.pow_kernel h.restrict_kernel sweep)
    (Markov.pow_irreducible (h.restrict_converges hc hs hz hsz) h.pos sweep hsw) (Markov.pow_invariant h.restrict_invariant sweep) h.pos
    fun a : {x // w x ≠ 0} => f a.1
  rw [← hR] at hcons
  obtain ⟨c, hcc⟩ := hcons
  refine ⟨c, fun n hn x hx => ?_⟩
  have herr : ∀ l : List {x // w x ≠ 0}, averageError (fun a : {x // w x ≠ 0} => w a.1) (fun a => f a.1) l = averageError w f (l.map Subtype.val) := by
    intro l
    unfold averageError
    rw [mean_restrict, List.map_map, List.length_map]
    rfl
  have hP : ∀ x y, w x ≠ 0 → w y = 0 → (P ^ sweep) x y = 0 := fun x y hx hy => h.pow_support hx hy sweep
  obtain ⟨h1, h2⟩ := hcc n hn ⟨x, hx⟩
  constructor
  · rw [← path_restrict hP n _ ⟨x, hx⟩]
    simp only [herr] at h1
    exact h1
  · intro ε hε
    have := h2 ε hε
    rw [← path_restrict hP n _ ⟨x, hx⟩]
    refine le_of_eq_of_le ?_ this
    congr 1
    funext l
    unfold Set.indicator
    simp only [Set.mem_ofPred_eq, herr, Pi.one_apply]

end

/-! ## Ratios of amplitudes -/

theorem fin_neg (x : ℝ) : -(fin x) = fin (-x) := rfl

theorem logOf_ne {psi : ℂ} (h : psi ≠ 0) : logOf psi = FC.ofC (Complex.log psi) := by
  have hn : 0 < ‖psi‖ := norm_pos_iff.mpr h
  refine FC.ext ?_ ?_
  · show F.log (fin ‖psi‖) = fin (Complex.log psi).re
    rw [Complex.log_re]
    exact if_pos hn
  · show fin psi.arg = fin (Complex.log psi).im
    rw [Complex.log_im]

theorem logOf_zero : logOf 0 = ⟨ninf, fin 0⟩ := by
  refine FC.ext ?_ ?_
  · show F.log (fin ‖(0 : ℂ)‖) = ninf
    rw [norm_zero]
    exact (if_neg (lt_irrefl 0)).trans (if_pos rfl)
  · show fin (Complex.arg 0) = fin 0
    rw [Complex.arg_zero]

theorem exp_ofC (z : ℂ) : FC.exp (FC.ofC z) = FC.ofC (Complex.exp z) := by
  refine FC.ext ?_ ?_
  · show fin _ = fin _
    rw [Complex.exp_re]
  · show fin _ = fin _
    rw [Complex.exp_im]

/-- The ratio of amplitudes, also if the connected one is zero. -/
theorem floatRatio_eq (a : ℂ) {b : ℂ} (hb : b ≠ 0) : floatRatio (logOf a) (logOf b) = FC.ofC (a / b) := by
  unfold floatRatio
  by_cases ha : a = 0
  · subst ha
    rw [logOf_zero, logOf_ne hb, zero_div]
    have e : (⟨ninf, fin 0⟩ : FC) + -FC.ofC (Complex.log b) = ⟨ninf, fin (0 + -(Complex.log b).im)⟩ := rfl
    rw [e]
    refine FC.ext ?_ ?_
    · show fin (0 * Real.cos _) = fin (0 : ℂ).re
      rw [zero_mul]; rfl
    · show fin (0 * Real.sin _) = fin (0 : ℂ).im
      rw [zero_mul]; rfl
  · rw [logOf_ne ha, logOf_ne hb]
    have e : FC.ofC (Complex.log a) + -FC.ofC (Complex.log b) = FC.ofC (Complex.log a + -Complex.log b) := rfl
    rw [e, exp_ofC, ← sub_eq_add_neg, Complex.exp_sub, Complex.exp_log ha, Complex.exp_log hb]

/-- Both parts are numbers. -/
def Finite (a : FC) : Prop := ∃ z, a = FC.ofC z

theorem fin_of_add {a b : F} {x : ℝ} (h : a + b = fin x) : (∃ y, a = fin y) ∧ ∃ y, b = fin y := by
  cases a <;> cases b <;> first | exact ⟨⟨_, rfl⟩, ⟨_, rfl⟩⟩ | exact absurd h (by intro h; cases h)

theorem timesInf_ne (x y : ℝ) : timesInf x ≠ fin y ∧ -(timesInf x) ≠ fin y := by
  unfold timesInf
  split
  · exact ⟨by rintro ⟨⟩, by rintro ⟨⟩⟩
  · split
    · exact ⟨by rintro ⟨⟩, by rintro ⟨⟩⟩
    · exact ⟨by rintro ⟨⟩, by rintro ⟨⟩⟩

theorem fin_of_mul {a b : F} {x : ℝ} (h : a * b = fin x) : (∃ y, a = fin y) ∧ ∃ y, b = fin y := by
  cases a <;> cases b <;>
    first
      | exact ⟨⟨_, rfl⟩, ⟨_, rfl⟩⟩
      | exact absurd h (by intro h; cases h)
      | exact absurd h (timesInf_ne _ _).1
      | exact absurd h (timesInf_ne _ _).2

theorem finite_iff (a : FC) : Finite a ↔ (∃ x, a.re = fin x) ∧ ∃ y, a.im = fin y := by
  constructor
  · rintro ⟨z, rfl⟩
    exact ⟨⟨_, rfl⟩, ⟨_, rfl⟩⟩
  · rintro ⟨⟨x, hx⟩, ⟨y, hy⟩⟩
    exact ⟨⟨x, y⟩, FC.ext hx hy⟩

theorem finite_of_add {a b : FC} (h : Finite (a + b)) : Finite a ∧ Finite b := by
  rw [finite_iff] at h
  obtain ⟨⟨x, hx⟩, ⟨y, hy⟩⟩ := h
  obtain ⟨h1, h2⟩ := fin_of_add hx
  obtain ⟨h3, h4⟩ := fin_of_add hy
  exact ⟨(finite_iff a).mpr ⟨h1, h3⟩, (finite_iff b).mpr ⟨h2, h4⟩⟩

theorem finite_of_mul {a b : FC} (h : Finite (a * b)) : Finite a ∧ Finite b := by
  rw [finite_iff] at h
  obtain ⟨⟨x, hx⟩, ⟨y, hy⟩⟩ := h
  obtain ⟨h1, h2⟩ := fin_of_add (show a.re * b.re + -(a.im * b.im) = fin x from hx)
  obtain ⟨h3, h4⟩ := fin_of_add (show a.re * b.im + a.im * b.re = fin y from hy)
  obtain ⟨u, hu⟩ := h1
  obtain ⟨v, hv⟩ := h3
  obtain ⟨v', hv'⟩ := h4
  obtain ⟨e1, e2⟩ := fin_of_mul hu
  obtain ⟨_, e3⟩ := fin_of_mul hv
  obtain ⟨e4, _⟩ := fin_of_mul hv'
  exact ⟨(finite_iff a).mpr ⟨e1, e4⟩, (finite_iff b).mpr ⟨e2, e3⟩⟩

theorem finite_of_sum {l : List FC} (h : Finite l.sum) : ∀ a ∈ l, Finite a := by
  induction l with
  | nil => simp
  | cons b l ih =>
    rw [List.sum_cons] at h
    obtain ⟨h1, h2⟩ := finite_of_add h
    intro a ha
    rcases List.mem_cons.mp ha with rfl | ha
    · exact h1
    · exact ih h2 a ha

/-- At a configuration of zero amplitude every ratio is infinite or NaN. -/
theorem floatRatio_zero (a : ℂ) : ¬Finite (floatRatio (logOf a) (logOf 0)) := by
  rw [finite_iff]
  rintro ⟨⟨x, hx⟩, -⟩
  obtain ⟨⟨y, hy⟩, -⟩ := fin_of_mul (show F.exp (logOf a + -logOf 0).re * F.cos (logOf a + -logOf 0).im = fin x from hx)
  have hre : (logOf a + -logOf 0).re = (logOf a).re + pinf := by rw [logOf_zero]; rfl
  rw [hre] at hy
  by_cases ha : a = 0
  · rw [ha, logOf_zero] at hy
    exact absurd hy (by rintro ⟨⟩)
  · rw [logOf_ne ha] at hy
    exact absurd hy (by rintro ⟨⟩)

/-! ## The kernels commute with the embedding of complex numbers into floating-point numbers -/

theorem sum_ofC (l : List ℂ) : (l.map FC.ofC).sum = FC.ofC l.sum := by
  induction l with
  | nil => rfl
  | cons a l ih => rw [List.map_cons, List.sum_cons, List.sum_cons, ih, FC.ofC_add]

theorem sum_map_ofC {ι : Type} (l : List ι) {f : ι → FC} {g : ι → ℂ} (h : ∀ i ∈ l, f i = FC.ofC (g i)) : (l.map f).sum = FC.ofC (l.map g).sum := by
  rw [← sum_ofC, List.map_map]
  congr 1
  exact List.map_congr_left h

variable {L N : ℕ}

section
variable {r : List (Fin L × Fin 4) → ℂ} {R : List (Fin L × Fin 4) → FC} (h : ∀ upd, R upd = FC.ofC (r upd))
include h

theorem hopTerm_ofC (x : Cfg L) (spin_int : Fin 4) (count : ℕ → ℤ) (i a : Fin L) :
    hopTerm FC.ofC R x spin_int count i a = FC.ofC (hopTerm id r x spin_int count i a) := by
  unfold hopTerm
  dsimp only
  split
  · rfl
  · rw [h, FC.ofC_mul]; rfl

theorem hoppingTerm_ofC (edges : List ((Fin L × Fin L) × ℂ)) (x : Cfg L) (spin_int : Fin 4) (count : ℕ → ℤ) :
    hoppingTerm FC.ofC R edges x spin_int count = FC.ofC (hoppingTerm id r edges x spin_int count) := by
  unfold hoppingTerm
  refine sum_map_ofC _ fun e _ => ?_
  rw [hopTerm_ofC h, hopTerm_ofC h, FC.ofC_add, FC.ofC_mul]; rfl

theorem hubbardEnergy_ofC (U : ℂ) (edges : List ((Fin L × Fin L) × ℂ)) (x : Cfg L) :
    hubbardEnergy FC.ofC R U edges x = FC.ofC (hubbardEnergy id r U edges x) := by
  unfold hubbardEnergy
  dsimp only
  rw [hoppingTerm_ofC h, hoppingTerm_ofC h]
  split
  · rfl
  · rfl

theorem one_ofC (x : Cfg L) (d : ℤ) (count : ℕ → ℤ) (i a : Fin L) : one FC.ofC R x d count i a = FC.ofC (one id r x d count i a) := by
  unfold one
  rw [h, FC.ofC_mul]; rfl

theorem same_ofC (x : Cfg L) (d : ℤ) (count : ℕ → ℤ) (i a j b : Fin L) : same FC.ofC R x d count i a j b = FC.ofC (same id r x d count i a j b) := by
  unfold same
  dsimp only
  rw [h, FC.ofC_mul]; rfl

theorem mixed_ofC (x : Cfg L) (uc dc : ℕ → ℤ) (i a j b : Fin L) : mixed FC.ofC R x uc dc i a j b = FC.ofC (mixed id r x uc dc i a j b) := by
  unfold mixed
  rw [h, FC.ofC_mul]; rfl

theorem sameTerms_ofC (eri : Fin L → Fin L → Fin L → Fin L → ℂ) (x : Cfg L) (d : ℤ) (count : ℕ → ℤ) (occ unocc : List (Fin L)) :
    ZeroEnergy.sameTerms FC.ofC R eri x d count occ unocc = FC.ofC (ZeroEnergy.sameTerms id r eri x d count occ unocc) := by
  unfold ZeroEnergy.sameTerms
  refine sum_map_ofC _ fun i _ => sum_map_ofC _ fun a _ => ?_
  rw [← FC.ofC_mul]
  congr 1
  refine sum_map_ofC _ fun j _ => sum_map_ofC _ fun b _ => ?_
  rw [same_ofC h, FC.ofC_mul]; rfl

theorem moleculeEnergy_ofC (n_elecs : ℕ × ℕ) (t : Fin L → Fin L → ℂ) (eri : Fin L → Fin L → Fin L → Fin L → ℂ) (x : Cfg L) :
    moleculeEnergy FC.ofC R n_elecs t eri x = FC.ofC (moleculeEnergy id r n_elecs t eri x) := by
  unfold moleculeEnergy
  dsimp only
  simp only [← FC.ofC_add]
  congr 1
  · congr 1
    · congr 1
      · congr 1
        · congr 1
          refine sum_map_ofC _ fun i _ => sum_map_ofC _ fun a _ => ?_
          rw [one_ofC h, FC.ofC_mul]; rfl
        · refine sum_map_ofC _ fun i _ => sum_map_ofC _ fun a _ => ?_
          rw [one_ofC h, FC.ofC_mul]; rfl
      · exact sameTerms_ofC h _ _ _ _ _ _
    · exact sameTerms_ofC h _ _ _ _ _ _
  · refine sum_map_ofC _ fun i _ => sum_map_ofC _ fun a _ => sum_map_ofC _ fun j _ => sum_map_ofC _ fun b _ => ?_
    rw [mixed_ofC h, FC.ofC_mul]; rfl

theorem sparseOneBody_ofC (x : Cfg L) (spin_int : Fin 4) (d : ℤ) (count : ℕ → ℤ) (s : Sparse1 L ℂ) (i : Fin L) :
    sparseOneBody FC.ofC R x spin_int d count s i = FC.ofC (sparseOneBody id r x spin_int d count s i) := by
  unfold sparseOneBody
  refine sum_map_ofC _ fun e _ => ?_
  rw [one_ofC h, ← FC.ofC_mul]
  congr 1
  split
  · rfl
  · split <;> rfl

theorem sparseSameSpin_ofC (x : Cfg L) (spin_int : Fin 4) (d : ℤ) (count : ℕ → ℤ) (s : Sparse2 L ℂ) (i j : Fin L) :
    sparseSameSpin FC.ofC R x spin_int d count s i j = FC.ofC (sparseSameSpin id r x spin_int d count s i j) := by
  unfold sparseSameSpin
  dsimp only
  refine sum_map_ofC _ fun e _ => ?_
  split
  · rw [h, FC.ofC_mul, FC.ofC_mul]; rfl
  · rfl

theorem sparseBothSpins_ofC (x : Cfg L) (uc dc : ℕ → ℤ) (s : Sparse2 L ℂ) (i j : Fin L) :
    sparseBothSpins FC.ofC R x uc dc s i j = FC.ofC (sparseBothSpins id r x uc dc s i j) := by
  unfold sparseBothSpins
  dsimp only
  refine sum_map_ofC _ fun e _ => ?_
  split
  · rw [h, FC.ofC_mul, FC.ofC_mul]; rfl
  · rfl

theorem sparseEnergy_ofC (n_elecs : ℕ × ℕ) (s1 : Sparse1 L ℂ) (s2 : Sparse2 L ℂ) (x : Cfg L) :
    sparseEnergy FC.ofC R n_elecs s1 s2 x = FC.ofC (sparseEnergy id r n_elecs s1 s2 x) := by
  unfold sparseEnergy
  dsimp only
  simp only [← FC.ofC_add]
  congr 1
  · congr 1
    · congr 1
      · congr 1
        · exact sum_map_ofC _ fun i _ => sparseOneBody_ofC h _ _ _ _ _ _
        · exact sum_map_ofC _ fun i _ => sparseOneBody_ofC h _ _ _ _ _ _
      · exact sum_map_ofC _ fun i _ => sparseSameSpin_ofC h _ _ _ _ _ _ _
    · exact sum_map_ofC _ fun i _ => sparseSameSpin_ofC h _ _ _ _ _ _ _
  · exact sum_map_ofC _ fun i _ => sum_map_ofC _ fun j _ => sparseBothSpins_ofC h _ _ _ _ _ _

end

theorem spinEnergy_ofC {r : List (Fin N × ℤ) → ℂ} {R : List (Fin N × ℤ) → FC} (h : ∀ upd, R upd = FC.ofC (r upd))
    (bonds : List ((Fin N × Fin N) × Matrix (Fin 4) (Fin 4) ℂ)) (x : Fin N → ℤ) :
    spinEnergy FC.ofC R bonds x = FC.ofC (spinEnergy id r bonds x) := by
  unfold spinEnergy
  refine sum_map_ofC _ fun b _ => ?_
  unfold bondEnergy
  dsimp only
  rw [h, FC.ofC_mul, ← FC.ofC_add]
  congr 1
  split <;> rfl

/-! ## The kernels are affine in the ratios -/

/-- Affine functions of the ratios. -/
def Affine {ι : Type} (G : (ι → ℂ) → ℂ) : Prop := ∀ (r s : ι → ℂ) (t : ℂ), G (fun i => t * r i + (1 - t) * s i) = t * G r + (1 - t) * G s

section
variable {ι : Type}

theorem Affine.const (c : ℂ) : Affine fun _ : ι → ℂ => c := fun _ _ _ => by ring
theorem Affine.eval (i : ι) : Affine fun r : ι → ℂ => r i := fun _ _ _ => rfl
theorem Affine.add {G H : (ι → ℂ) → ℂ} (hG : Affine G) (hH : Affine H) : Affine fun r => G r + H r := fun r s t => by
  show G _ + H _ = _
  rw [hG, hH]; ring
theorem Affine.mul_left {G : (ι → ℂ) → ℂ} (c : ℂ) (hG : Affine G) : Affine fun r => c * G r := fun r s t => by
  show c * G _ = _
  rw [hG]; ring
theorem Affine.mul_right {G : (ι → ℂ) → ℂ} (hG : Affine G) (c : ℂ) : Affine fun r => G r * c := fun r s t => by
  show G _ * c = _
  rw [hG]; ring
theorem Affine.sum {κ : Type} (l : List κ) {G : κ → (ι → ℂ) → ℂ} (hG : ∀ k, Affine (G k)) : Affine fun r => (l.map fun k => G k r).sum := by
  induction l with
  | nil => exact Affine.const 0
  | cons k l ih =>
    simp only [List.map_cons, List.sum_cons]
    exact (hG k).add ih
theorem Affine.ite {G H : (ι → ℂ) → ℂ} (p : Prop) [Decidable p] (hG : Affine G) (hH : Affine H) : Affine fun r => if p then G r else H r := by
  by_cases hp : p
  · simp only [if_pos hp]; exact hG
  · simp only [if_neg hp]; exact hH
end

theorem hopTerm_affine (x : Cfg L) (spin_int : Fin 4) (count : ℕ → ℤ) (i a : Fin L) : Affine fun r => hopTerm id r x spin_int count i a :=
  Affine.ite _ (Affine.const _) ((Affine.eval _).mul_left _)

theorem hoppingTerm_affine (edges : List ((Fin L × Fin L) × ℂ)) (x : Cfg L) (spin_int : Fin 4) (count : ℕ → ℤ) :
    Affine fun r => hoppingTerm id r edges x spin_int count :=
  Affine.sum _ fun e => ((hopTerm_affine x spin_int count e.1.1 e.1.2).add (hopTerm_affine x spin_int count e.1.2 e.1.1)).mul_right (-e.2)

theorem hubbardEnergy_affine (U : ℂ) (edges : List ((Fin L × Fin L) × ℂ)) (x : Cfg L) : Affine fun r => hubbardEnergy id r U edges x :=
  Affine.ite _ (((Affine.const _).add (hoppingTerm_affine edges x 1 _)).add (hoppingTerm_affine edges x 2 _)) (Affine.const _)

theorem spinEnergy_affine (bonds : List ((Fin N × Fin N) × Matrix (Fin 4) (Fin 4) ℂ)) (x : Fin N → ℤ) : Affine fun r => spinEnergy id r bonds x :=
  Affine.sum _ fun _ => (Affine.ite _ ((Affine.eval _).mul_left _) (Affine.const _)).add (Affine.const _)

theorem sameTerms_affine (eri : Fin L → Fin L → Fin L → Fin L → ℂ) (x : Cfg L) (d : ℤ) (count : ℕ → ℤ) (occ unocc : List (Fin L)) :
    Affine fun r => ZeroEnergy.sameTerms id r eri x d count occ unocc :=
  Affine.sum _ fun _ => Affine.sum _ fun _ => Affine.mul_left _ <| Affine.sum _ fun _ => Affine.sum _ fun _ =>
    ((Affine.eval _).mul_left _).mul_left _

theorem moleculeEnergy_affine (n_elecs : ℕ × ℕ) (t : Fin L → Fin L → ℂ) (eri : Fin L → Fin L → Fin L → Fin L → ℂ) (x : Cfg L) :
    Affine fun r => moleculeEnergy id r n_elecs t eri x :=
  (((((Affine.const _).add (Affine.sum _ fun _ => Affine.sum _ fun _ => ((Affine.eval _).mul_right _).mul_left _)).add
    (Affine.sum _ fun _ => Affine.sum _ fun _ => ((Affine.eval _).mul_right _).mul_left _)).add (sameTerms_affine eri x 1 _ _ _)).add
    (sameTerms_affine eri x 2 _ _ _)).add
    (Affine.sum _ fun _ => Affine.sum _ fun _ => Affine.sum _ fun _ => Affine.sum _ fun _ => ((Affine.eval _).mul_left _).mul_left _)

theorem sparseOneBody_affine (x : Cfg L) (spin_int : Fin 4) (d : ℤ) (count : ℕ → ℤ) (s : Sparse1 L ℂ) (i : Fin L) :
    Affine fun r => sparseOneBody id r x spin_int d count s i :=
  Affine.sum _ fun _ => Affine.mul_left _ (Affine.ite _ ((Affine.eval _).mul_right _) (Affine.const _))

theorem sparseSameSpin_affine (x : Cfg L) (spin_int : Fin 4) (d : ℤ) (count : ℕ → ℤ) (s : Sparse2 L ℂ) (i j : Fin L) :
    Affine fun r => sparseSameSpin id r x spin_int d count s i j :=
  Affine.sum _ fun _ => Affine.ite _ (((Affine.eval _).mul_left _).mul_right _) (Affine.const _)

theorem sparseBothSpins_affine (x : Cfg L) (uc dc : ℕ → ℤ) (s : Sparse2 L ℂ) (i j : Fin L) :
    Affine fun r => sparseBothSpins id r x uc dc s i j :=
  Affine.sum _ fun _ => Affine.ite _ (((Affine.eval _).mul_left _).mul_right _) (Affine.const _)

theorem sparseEnergy_affine (n_elecs : ℕ × ℕ) (s1 : Sparse1 L ℂ) (s2 : Sparse2 L ℂ) (x : Cfg L) : Affine fun r => sparseEnergy id r n_elecs s1 s2 x := by
  unfold sparseEnergy
  dsimp only
  generalize cumsum (isOcc x 1) = uc
  generalize cumsum (isOcc x 2) = dc
  generalize nonzeroSize (occInds x 1) n_elecs.1 = up
  generalize nonzeroSize (occInds x 2) n_elecs.2 = dn
  have h1 := Affine.sum (G := fun i r => sparseOneBody id r x 1 1 uc s1 i) up fun i => sparseOneBody_affine x 1 1 uc s1 i
  have h2 := Affine.sum (G := fun i r => sparseOneBody id r x 2 2 dc s1 i) dn fun i => sparseOneBody_affine x 2 2 dc s1 i
  have h3 := Affine.sum (G := fun ij r => sparseSameSpin id r x 1 1 uc s2 ij.1 ij.2) (triuPairs up) fun ij => sparseSameSpin_affine x 1 1 uc s2 ij.1 ij.2
  have h4 := Affine.sum (G := fun ij r => sparseSameSpin id r x 2 2 dc s2 ij.1 ij.2) (triuPairs dn) fun ij => sparseSameSpin_affine x 2 2 dc s2 ij.1 ij.2
  have h5 := Affine.sum (G := fun i r => (dn.map fun j => sparseBothSpins id r x uc dc s2 i j).sum) up fun i =>
    Affine.sum (G := fun j r => sparseBothSpins id r x uc dc s2 i j) dn fun j => sparseBothSpins_affine x uc dc s2 i j
  exact (((h1.add h2).add h3).add h4).add h5

/-- An affine function of ratios that is a row of a matrix for states without zeros is so for all states. -/
theorem row_of_affine {C ι : Type} [Fintype C] (G : (ι → ℂ) → ℂ) (hG : Affine G) (row : C → ℂ) (x : C) (conn : ι → C)
    (h : ∀ logpsi : C → ℂ, G (fun i => Complex.exp (logpsi (conn i) - logpsi x)) = localEnergy row logpsi x) (psi : C → ℂ) (hx : psi x ≠ 0) :
    G (fun i => psi (conn i) / psi x) = (∑ y, row y * psi y) / psi x := by
  -- a mixture with the constant state that has no zeros
  set phi : C → ℂ := fun y => psi y / psi x with hphi
  have hphix : phi x = 1 := div_self hx
  set B : ℝ := 1 + ∑ y, ‖phi y - 1‖ with hB
  have hB1 : 1 ≤ B := by
    have : 0 ≤ ∑ y, ‖phi y - 1‖ := Finset.sum_nonneg fun _ _ => norm_nonneg _
    linarith
  have hB0 : (B : ℂ) ≠ 0 := by
    have : B ≠ 0 := by linarith
    exact_mod_cast this
  set t : ℂ := 1 / (B : ℂ) with ht
  have ht0 : t ≠ 0 := one_div_ne_zero hB0
  have hne : ∀ y, t * phi y + (1 - t) * 1 ≠ 0 := by
    intro y h0
    have e : t * (phi y - 1) = -1 := by linear_combination h0
    have e2 : phi y - 1 = -(B : ℂ) := by
      rw [ht] at e
      field_simp at e
      linear_combination e
    have hle : ‖phi y - 1‖ ≤ ∑ y, ‖phi y - 1‖ := Finset.single_le_sum (f := fun y => ‖phi y - 1‖) (fun _ _ => norm_nonneg _) (Finset.mem_univ y)
    rw [e2, norm_neg, Complex.norm_real, Real.norm_of_nonneg (by linarith)] at hle
    linarith
  have key : ∀ chi : C → ℂ, (∀ y, chi y ≠ 0) → chi x = 1 → G (fun i => chi (conn i)) = ∑ y, row y * chi y := by
    intro chi hchi hchix
    have h1 := h fun y => Complex.log (chi y)
    have h2 : (fun i => Complex.exp (Complex.log (chi (conn i)) - Complex.log (chi x))) = fun i => chi (conn i) := by
      funext i
      rw [hchix, Complex.log_one, sub_zero, Complex.exp_log (hchi _)]
    rw [h2] at h1
    rw [h1]
    unfold localEnergy
    refine Finset.sum_congr rfl fun y _ => ?_
    beta_reduce
    rw [Complex.exp_log (hchi y), hchix, Complex.log_one, Complex.exp_zero, div_one]
  have k1 := key (fun y => t * phi y + (1 - t) * 1) hne (by rw [hphix]; ring)
  have k2 := key (fun _ => 1) (fun _ => one_ne_zero) rfl
  have ha := hG (fun i => phi (conn i)) (fun _ => 1) t
  rw [k1, k2] at ha
  have hs : ∑ y, row y * (t * phi y + (1 - t) * 1) = t * ∑ y, row y * phi y + (1 - t) * ∑ y, row y * 1 := by
    rw [Finset.mul_sum, Finset.mul_sum, ← Finset.sum_add_distrib]
    exact Finset.sum_congr rfl fun y _ => by ring
  rw [hs] at ha
  have hb : t * G (fun i => phi (conn i)) = t * ∑ y, row y * phi y := by linear_combination -ha
  have hc := mul_left_cancel₀ ht0 hb
  rw [Finset.sum_div]
  refine hc.trans (Finset.sum_congr rfl fun y _ => ?_)
  rw [hphi]; ring

end GPSKet.ZeroEnergy
