import Verif.Lemmas.MargLik
import Mathlib.Analysis.Matrix.LDL
import Mathlib.Order.Interval.Finset.Defs

/-! # The Cholesky decomposition exists

So the hypothesis `CholeskySpec` of the theorems on marginal likelihoods is met. -/

namespace GPSKet.MargLik

open Matrix
open scoped ComplexOrder

variable {𝕜 : Type} [RCLike 𝕜]

theorem exists_cholesky {m : Type} [Fintype m] {A : Matrix m m 𝕜} (hA : A.PosDef) : ∃ L, CholeskyOf A (some L) := by
  classical
  let e := Fintype.equivFin m
  let _ : LinearOrder m := LinearOrder.lift' (fun i => (e i : ℕ)) (fun i j h => e.injective (Fin.ext h))
  have _ : WellFoundedLT m := inferInstance
  let _ : LocallyFiniteOrderBot m :=
    ⟨fun a => Finset.univ.filter (· < a), fun a => Finset.univ.filter (· ≤ a), by simp, by simp⟩
  have hlow := LDL.lower_conj_diag hA
  have hu : IsUnit (LDL.lowerInv hA) := by
    have := LDL.lowerInv_eq_gramSchmidtBasis hA
    exact (isUnit_of_invertible (LDL.lowerInv hA))
  have hD : (LDL.diag hA).PosDef := by
    rw [LDL.diag_eq_lowerInv_conj]
    exact hA.mul_mul_conjTranspose_same (vecMul_injective_of_isUnit hu)
  have hd : ∀ i, 0 < LDL.diagEntries hA i := fun i => by
    have := hD.diag_pos (i := i)
    simpa [LDL.diag] using this
  let R : Matrix m m 𝕜 := diagonal fun i => ((Real.sqrt (RCLike.re (LDL.diagEntries hA i)) : ℝ) : 𝕜)
  have hR : R * Rᴴ = LDL.diag hA := by
    rw [diagonal_conjTranspose, diagonal_mul_diagonal, LDL.diag]
    congr 1
    funext i
    have h := RCLike.pos_iff.mp (hd i)
    rw [Pi.star_apply, RCLike.star_def, RCLike.conj_ofReal, ← RCLike.ofReal_mul, Real.mul_self_sqrt h.1.le]
    apply RCLike.ext
    · simp
    · simp [h.2]
  refine ⟨LDL.lower hA * R, ⟨fun i => (e i : ℕ), fun i j h => e.injective (Fin.ext h), ?_⟩, ?_⟩
  · intro i j hij
    have h1 : (LDL.lowerInv hA).BlockTriangular OrderDual.toDual := by
      intro i j hij
      exact LDL.lowerInv_triangular hA hij
    have h2 : (LDL.lowerInv hA)⁻¹.BlockTriangular OrderDual.toDual := by
      have _ : Invertible (LDL.lowerInv hA) := hu.invertible
      exact blockTriangular_inv_of_blockTriangular h1
    rw [mul_diagonal]
    have h3 : LDL.lower hA i j = 0 := by
      have := h2 (i := i) (j := j) hij
      rw [← this, LDL.lower]
    rw [h3, zero_mul]
  · rw [conjTranspose_mul, Matrix.mul_assoc, ← Matrix.mul_assoc R, hR, ← Matrix.mul_assoc]
    exact hlow

/-- Some function meets the specification of `sp.linalg.cholesky`. -/
theorem exists_choleskySpec :
    ∃ chol : {m : Type} → [Fintype m] → Matrix m m 𝕜 → Option (Matrix m m 𝕜), CholeskySpec chol := by
  classical
  refine ⟨fun {m} _ A => if h : A.PosDef then some (exists_cholesky h).choose else none, ?_⟩
  intro m _ A
  show CholeskyOf A (if h : A.PosDef then some (exists_cholesky h).choose else none)
  by_cases h : A.PosDef
  · rw [dif_pos h]
    exact (exists_cholesky h).choose_spec
  · rw [dif_neg h]
    exact h

end GPSKet.MargLik
