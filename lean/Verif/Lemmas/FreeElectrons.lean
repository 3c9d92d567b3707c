import Verif.Spec.FreeElectrons
import Verif.Lemmas.OneBody
import Mathlib.LinearAlgebra.Matrix.Determinant.Basic

/-! # Lemmas for C201: one-body operators and determinants -/

namespace GPSKet.FreeElectrons

open GPSKet GPSKet.Spec Matrix GPSKet.Spec.OneBody GPSKet.Spec.Rotation

section
variable {ι : Type} [Fintype ι] [LinearOrder ι] {K : Type} [Field K]

theorem lifts_smul {A : Matrix (Occ ι) (Occ ι) K} {a : (ι → K) → ι → K} (h : Lifts A a) (c : K) : Lifts (c • A) fun φ => c • a φ := by
  constructor
  · rw [Matrix.smul_mulVec, h.1, smul_zero]
  · intro φ
    rw [Matrix.smul_mul, h.2, smul_add, creOrb_smul, Matrix.mul_smul]

/-- the modes that are occupied, in order -/
theorem exists_order (n : Occ ι) : ∃ e : Fin (Finset.univ.filter fun p => n p = true).card → ι, StrictMono e ∧ ∀ p, n p = true ↔ ∃ i, e i = p := by
  refine ⟨(Finset.univ.filter fun p => n p = true).orderEmbOfFin rfl, OrderEmbedding.strictMono _, fun p => ?_⟩
  have := Finset.range_orderEmbOfFin (Finset.univ.filter fun p => n p = true) rfl
  have h := Set.ext_iff.mp this p
  simp only [Set.mem_range, Finset.coe_filter, Finset.mem_univ, true_and] at h
  exact h.symm

/-- If the orbitals span a space that a one-body operator does not leave, then their determinant is an eigenstate, and the eigenvalue is the
trace in this space. -/
theorem lifts_closed {A : Matrix (Occ ι) (Occ ι) K} {a : (ι → K) → ι → K} (h : Lifts A a) {N : ℕ} (Φ : Fin N → ι → K)
    (B : Matrix (Fin N) (Fin N) K) (hB : ∀ k, a (Φ k) = ∑ l, B l k • Φ l) :
    A *ᵥ slaterState (List.ofFn Φ) = B.trace • slaterState (List.ofFn Φ) := by
  rw [h.slater]
  funext n
  rw [Finset.sum_apply, Pi.smul_apply]
  by_cases hn : (Finset.univ.filter fun p => n p = true).card = N
  · subst hn
    obtain ⟨e, he, hp⟩ := exists_order n
    simp only [slaterState_det _ n e he hp]
    rw [Matrix.trace, Finset.sum_smul]
    refine Finset.sum_congr rfl fun k _ => ?_
    have h1 : (Matrix.of fun i j => Function.update Φ k (a (Φ k)) j (e i)) =
        (Matrix.of fun i j => Φ j (e i)).updateCol k fun i => ∑ l, B l k • (Matrix.of fun i j => Φ j (e i)) i l := by
      ext i j
      rw [Matrix.updateCol_apply, Matrix.of_apply]
      by_cases hj : j = k
      · subst hj
        rw [Function.update_self, if_pos rfl, hB]
        simp
      · rw [Function.update_of_ne hj, if_neg hj, Matrix.of_apply]
    rw [h1, Matrix.det_updateCol_sum, Matrix.diag_apply, smul_eq_mul]
  · have h0 : ∀ Ψ : Fin N → ι → K, slaterState (List.ofFn Ψ) n = 0 := by
      intro Ψ
      by_contra hc
      exact hn (by rw [slaterState_card _ _ hc, List.length_ofFn])
    simp [h0]

end

variable {L : ℕ}

/-- Hopping of all electrons with the matrix `h`. -/
def oneBody (h : Matrix (Fin L) (Fin L) ℂ) : Matrix (Occ (Mode L)) (Occ (Mode L)) ℂ := ∑ i, ∑ j, h i j • toK ℂ (exc i j)

theorem lifts_oneBody (h : Matrix (Fin L) (Fin L) ℂ) :
    Lifts (oneBody h) fun φ m => ∑ j, h (ofLex m).2 j * φ (mode (ofLex m).1 j) := by
  have hl := Lifts.sum (K := ℂ) Finset.univ fun i : Fin L => Lifts.sum (K := ℂ) Finset.univ fun j : Fin L =>
    lifts_smul (Lifts.sum (K := ℂ) Finset.univ fun s : Bool => lifts_hop (K := ℂ) (mode s i) (mode s j)) (h i j)
  have e : oneBody h = ∑ i : Fin L, ∑ j : Fin L, h i j • ∑ s : Bool, toK ℂ (cre (mode s i) * ann (mode s j)) := by
    unfold oneBody exc
    simp only [toK_sum]
  rw [e]
  convert hl using 1
  funext φ m
  obtain ⟨s, i, rfl⟩ : ∃ s i, m = mode s i := ⟨(ofLex m).1, (ofLex m).2, rfl⟩
  simp only [Finset.sum_apply, Pi.smul_apply, smul_eq_mul]
  symm
  refine (Finset.sum_eq_single i (fun k _ hk => ?_) (fun h' => absurd (Finset.mem_univ i) h')).trans ?_
  · refine Finset.sum_eq_zero fun j _ => ?_
    rw [Finset.sum_eq_zero, mul_zero]
    intro t _
    rw [if_neg fun h' => hk (mode_inj.mp h').2.symm]
  · refine Finset.sum_congr rfl fun j _ => ?_
    congr 1
    refine (Finset.sum_eq_single s (fun t _ ht => ?_) (fun h' => absurd (Finset.mem_univ s) h')).trans ?_
    · rw [if_neg fun h' => ht (mode_inj.mp h').1.symm]
    · rw [if_pos rfl]
      rfl

end GPSKet.FreeElectrons
