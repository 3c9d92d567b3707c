import Verif.Lemmas.AbInitioSparse
import Verif.Props.AbInitioOnTheFly

/-!
# Properties C16, C17: the sparse ab-initio Hamiltonian

Specification used: `Verif/Spec/Fock.lean` (`abInitioTwice`), `Verif/Spec/Occupation.lean`, `Verif/Spec/Updates.lean`.
-/

namespace GPSKet
open Spec

variable {L : ℕ} {Cache : Type}

/-! ## C17 -/

/-- **C17**, one-electron integrals: the entries between the two range markers of row `i` are exactly the non-zero integrals
`h[i, a]`, each once, with their value, for every matrix of every size. -/
theorem C17_one {K : Type} [Zero K] [DecidableEq K] (h : Fin L → Fin L → K) (i : Fin L) :
    let s := sparse1 h
    let row := slice s.ids s.vals (s.range i.val) (s.range (i.val + 1))
    (∀ a v, (a, v) ∈ row ↔ v = h i a ∧ v ≠ 0) ∧ (row.map Prod.fst).Nodup := by
  dsimp only
  rw [sparse1_slice]
  constructor
  · intro a v
    simp only [List.mem_map, List.mem_filter, List.mem_finRange, true_and, decide_eq_true_eq, Prod.mk.injEq]
    constructor
    · rintro ⟨a', h1, rfl, rfl⟩; exact ⟨rfl, h1⟩
    · rintro ⟨rfl, h1⟩; exact ⟨a, h1, rfl, rfl⟩
  · rw [List.map_map]
    simpa [Function.comp_def] using (List.nodup_finRange L).filter _

/-- **C17**, two-electron integrals: the entries between the two range markers of the pair `(i, j)` are exactly the non-zero
integrals `eri[i, a, j, b]`, each once, with their value, for every tensor of every size. -/
theorem C17_two {K : Type} [Zero K] [DecidableEq K] (e : Fin L → Fin L → Fin L → Fin L → K) (i j : Fin L) :
    let s := sparse2 e
    let row := slice s.ids s.vals (s.range i.val j.val) (s.range i.val (j.val + 1))
    (∀ a b v, ((a, b), v) ∈ row ↔ v = e i a j b ∧ v ≠ 0) ∧ (row.map Prod.fst).Nodup := by
  dsimp only
  rw [sparse2_slice]
  constructor
  · intro a b v
    simp only [List.mem_map, Prod.mk.injEq]
    constructor
    · rintro ⟨ab, h1, rfl, rfl⟩; exact ⟨rfl, (nonzeros2_mem e i j _).mp h1⟩
    · rintro ⟨rfl, h1⟩; exact ⟨(a, b), (nonzeros2_mem e i j _).mpr h1, rfl, rfl⟩
  · rw [List.map_map]
    simpa [Function.comp_def] using nonzeros2_nodup e i j

/-- **C17**: nothing else is stored.  The last marker is the length of both arrays, and the markers of consecutive rows join up, so
that the rows partition the arrays. -/
theorem C17_nothing_else {K : Type} [Zero K] [DecidableEq K] (h : Fin L → Fin L → K) (e : Fin L → Fin L → Fin L → Fin L → K) :
    (sparse1 h).ids.length = (sparse1 h).range L ∧ (sparse1 h).vals.length = (sparse1 h).range L ∧ (sparse1 h).range 0 = 0 ∧
    (∀ k, k + 1 = L → (sparse2 e).ids.length = (sparse2 e).range k L ∧ (sparse2 e).vals.length = (sparse2 e).range k L) ∧
    (∀ k, k + 1 < L → (sparse2 e).range (k + 1) 0 = (sparse2 e).range k L) ∧ (0 < L → (sparse2 e).range 0 0 = 0) := by
  obtain ⟨h1, h2, h3⟩ := sparse1_prefix h L le_rfl
  rw [List.take_of_length_le (by simp)] at h1 h2 h3
  change (sparse1 h).ids = _ at h1
  change (sparse1 h).vals = _ at h2
  change ∀ j ≤ L, (sparse1 h).range j = _ at h3
  have g := inv2_all e L le_rfl
  rw [List.take_of_length_le (by simp)] at g
  change Inv2 e L 0 (sparse2 e) at g
  refine ⟨?_, ?_, ?_, ?_, ?_, ?_⟩
  · rw [h1, h3 L le_rfl, List.length_map]
  · rw [h2, h3 L le_rfl, List.length_map]
  · rw [h3 0 (by omega)]; simp
  · intro k hk
    have hrow := pre2_row e ⟨k, by omega⟩
    simp only [hk] at hrow
    rw [g.ids, g.vals, g.done k L (by omega) le_rfl, hrow]
    simp
  · intro k hk
    have hrow := pre2_row e ⟨k, by omega⟩
    simp only at hrow
    rw [g.done k L (by omega) le_rfl, g.done (k + 1) 0 (by omega) (by omega), hrow]
  · intro hL
    rw [g.done 0 0 hL (by omega)]
    simp [pre2]

/-- a tensor with an empty pair `(0, 0)` and two entries for the pair `(0, 1)` -/
example : let s := sparse2 (fun i a j b : Fin 2 => if i = 0 ∧ j = 1 ∧ a = b then (5 : ℤ) + a.val else 0)
    s.ids = [(0, 0), (1, 1)] ∧ s.vals = [5, 6] ∧ s.range 0 0 = 0 ∧ s.range 0 1 = 0 ∧ s.range 0 2 = 2 ∧ s.range 1 0 = 2 ∧ s.range 1 2 = 2 := by
  decide +kernel

/-! ## C16 -/

/-- **C16**.  For every sample with the electron numbers of the Hilbert space and all integrals with `(pq|rs) = (rs|pq)`, the sparse
on-the-fly local energy is the local energy of the molecular Hamiltonian. -/
theorem C16_local_energy_operator (src : AmpSource L (Fin 4) Cache) (h : Fin L → Fin L → ℂ) (e : Fin L → Fin L → Fin L → Fin L → ℂ)
    (hsym : ∀ p q r s, e p q r s = e r s p q) (x : Cfg L) (hs : src.OkPaddedAt x) :
    sparseLocalEn src (numElec false x, numElec true x) (sparse1 h) (sparse2 e) x =
      localEnergy (fun x' => (1 / 2) * abInitioTwice h e (occOf x) (occOf x')) src.logAmp x := by
  rw [← C14_local_energy_operator src h e hsym x hs]
  have h1 := unoccInds_length x false
  have h2 := unoccInds_length x true
  have g1 := sparseLocalEn_eq src x hs h e hsym (numElec false x, numElec true x) (occInds_length x false) (occInds_length x true)
  have g2 := abLocalEn_eq src (abT h e) e x (numElec false x, numElec true x) rfl rfl (occInds_length x false) (occInds_length x true) (by simp only; omega)
    (by simp only; omega) hs
  have g3 := abRows_apply e x (ratioF src x) two_ne_zero h hsym
  rw [← g2, ← g1] at g3
  exact (mul_left_cancel₀ two_ne_zero g3).symm

/-- **C16**: the sparse and the dense on-the-fly local energies agree. -/
theorem C16_sparse_eq_dense (src : AmpSource L (Fin 4) Cache) (h : Fin L → Fin L → ℂ) (e : Fin L → Fin L → Fin L → Fin L → ℂ)
    (hsym : ∀ p q r s, e p q r s = e r s p q) (x : Cfg L) (hs : src.OkPaddedAt x) :
    sparseLocalEn src (numElec false x, numElec true x) (sparse1 h) (sparse2 e) x =
      abLocalEn src (numElec false x, numElec true x) (abT h e) e x := by
  rw [C16_local_energy_operator src h e hsym x hs, C14_local_energy_operator src h e hsym x hs]

/-- the hypotheses are met by a Coulomb-like tensor, with a value that depends on the configuration -/
example : let e : Fin 2 → Fin 2 → Fin 2 → Fin 2 → ℂ := fun p q r s => if p = q ∧ r = s then 1 else 0
    (∀ p q r s, e p q r s = e r s p q) ∧ (AmpSource.full (Cache := Unit) fun _ : Cfg 2 => (0 : ℂ)).OkPaddedAt ![3, 0] := by
  refine ⟨fun p q r s => ?_, trivial⟩
  simp only [and_comm]

end GPSKet
