import Mathlib.LinearAlgebra.Matrix.SchurComplement
import Mathlib.Analysis.Matrix.PosDef
import Mathlib.Analysis.RCLike.Lemmas

/-! # Changing one diagonal entry of a positive definite matrix -/

namespace GPSKet.RankOne

open Matrix
open scoped ComplexOrder

variable {𝕜 : Type} [RCLike 𝕜] {m : Type} [Fintype m] [DecidableEq m]

theorem inv_diag_real {A : Matrix m m 𝕜} (hA : A.PosDef) (i : m) : A⁻¹ i i = ((RCLike.re (A⁻¹ i i) : ℝ) : 𝕜) ∧ 0 < RCLike.re (A⁻¹ i i) := by
  have h := hA.inv.diag_pos (i := i)
  have h2 := RCLike.pos_iff.mp h
  refine ⟨?_, h2.1⟩
  apply RCLike.ext
  · simp
  · simp [h2.2]

theorem det_change {A : Matrix m m 𝕜} (hA : A.PosDef) (i : m) (s : ℝ) :
    (A + Matrix.single i i (s : 𝕜)).det = A.det * ((1 + s * RCLike.re (A⁻¹ i i) : ℝ) : 𝕜) := by
  have hu : IsUnit A.det := hA.det_pos.ne'.isUnit
  have e : Matrix.single i i (s : 𝕜) = replicateCol Unit (Pi.single i (s : 𝕜)) * replicateRow Unit (Pi.single i (1 : 𝕜)) := by
    ext a b
    simp [Matrix.mul_apply, Matrix.single_apply, Pi.single_apply, replicateCol, replicateRow]
    aesop
  rw [e, det_add_replicateCol_mul_replicateRow hu]
  congr 1
  have : (replicateRow Unit (Pi.single i (1 : 𝕜)) * A⁻¹ * replicateCol Unit (Pi.single i (s : 𝕜))) () () = A⁻¹ i i * s := by
    simp [Matrix.mul_apply, Pi.single_apply, replicateCol, replicateRow]
  rw [det_unique]
  simp only [Matrix.add_apply, one_apply_eq]
  rw [show (default : Unit) = () from rfl, this, (inv_diag_real hA i).1]
  push_cast
  ring

theorem one_add_pos {A : Matrix m m 𝕜} (hA : A.PosDef) (i : m) (s : ℝ) (h' : (A + Matrix.single i i (s : 𝕜)).PosDef) :
    0 < 1 + s * RCLike.re (A⁻¹ i i) := by
  have h1 := h'.det_pos
  rw [det_change hA] at h1
  have h2 := RCLike.pos_iff.mp hA.det_pos
  have h3 := (RCLike.pos_iff.mp h1).1
  rw [mul_comm, RCLike.re_ofReal_mul] at h3
  exact pos_of_mul_pos_left h3 h2.1.le

theorem log_det_change {A : Matrix m m 𝕜} (hA : A.PosDef) (i : m) (s : ℝ) (h' : (A + Matrix.single i i (s : 𝕜)).PosDef) :
    Real.log ‖(A + Matrix.single i i (s : 𝕜)).det‖ = Real.log ‖A.det‖ + Real.log (1 + s * RCLike.re (A⁻¹ i i)) := by
  have hp := one_add_pos hA i s h'
  rw [det_change hA, norm_mul, RCLike.norm_ofReal, abs_of_pos hp, Real.log_mul (norm_ne_zero_iff.mpr hA.det_pos.ne') hp.ne']

theorem inv_change {A : Matrix m m 𝕜} (hA : A.PosDef) (i : m) (s : ℝ) (h' : (A + Matrix.single i i (s : 𝕜)).PosDef) (b : m → 𝕜) :
    (A + Matrix.single i i (s : 𝕜))⁻¹ *ᵥ b
      = A⁻¹ *ᵥ b - ((s : 𝕜) * (A⁻¹ *ᵥ b) i / ((1 + s * RCLike.re (A⁻¹ i i) : ℝ) : 𝕜)) • (A⁻¹ *ᵥ Pi.single i 1) := by
  have hp := one_add_pos hA i s h'
  have hu : IsUnit A.det := hA.det_pos.ne'.isUnit
  have hu' : IsUnit (A + Matrix.single i i (s : 𝕜)).det := h'.det_pos.ne'.isUnit
  have hp' : ((1 + s * RCLike.re (A⁻¹ i i) : ℝ) : 𝕜) ≠ 0 := by exact_mod_cast hp.ne'
  have hE : ∀ v : m → 𝕜, Matrix.single i i (s : 𝕜) *ᵥ v = ((s : 𝕜) * v i) • Pi.single i 1 := by
    intro v
    funext a
    simp [mulVec, dotProduct, Matrix.single_apply, Pi.single_apply]
    by_cases h : a = i
    · subst h; simp
    · simp [h, Ne.symm h]
  set k : 𝕜 := (s : 𝕜) * (A⁻¹ *ᵥ b) i / ((1 + s * RCLike.re (A⁻¹ i i) : ℝ) : 𝕜) with hk
  have hg : (A⁻¹ *ᵥ Pi.single i 1) i = ((RCLike.re (A⁻¹ i i) : ℝ) : 𝕜) := by
    rw [← (inv_diag_real hA i).1]
    simp
  have key : (A + Matrix.single i i (s : 𝕜)) *ᵥ (A⁻¹ *ᵥ b - k • (A⁻¹ *ᵥ Pi.single i 1)) = b := by
    rw [add_mulVec, mulVec_sub, mulVec_smul, mulVec_mulVec, mulVec_mulVec, mul_nonsing_inv _ hu, one_mulVec, one_mulVec, hE,
      Pi.sub_apply, Pi.smul_apply, hg, sub_add, ← sub_smul, sub_eq_self]
    rw [show k - (s : 𝕜) * ((A⁻¹ *ᵥ b) i - k • ((RCLike.re (A⁻¹ i i) : ℝ) : 𝕜))
      = k * ((1 + s * RCLike.re (A⁻¹ i i) : ℝ) : 𝕜) - (s : 𝕜) * (A⁻¹ *ᵥ b) i by push_cast; rw [smul_eq_mul]; ring]
    rw [hk, div_mul_cancel₀ _ hp', sub_self, zero_smul]
  conv_lhs => rw [← key, mulVec_mulVec, nonsing_inv_mul _ hu', one_mulVec]

/-- The quadratic form of the inverse after the change of a diagonal entry. -/
theorem quad_change {A : Matrix m m 𝕜} (hA : A.PosDef) (i : m) (s : ℝ) (h' : (A + Matrix.single i i (s : 𝕜)).PosDef) (b : m → 𝕜) :
    RCLike.re (star b ⬝ᵥ (A + Matrix.single i i (s : 𝕜))⁻¹ *ᵥ b)
      = RCLike.re (star b ⬝ᵥ A⁻¹ *ᵥ b) - s * ‖(A⁻¹ *ᵥ b) i‖ ^ 2 / (1 + s * RCLike.re (A⁻¹ i i)) := by
  have hp := one_add_pos hA i s h'
  have hinv : (A⁻¹)ᴴ = A⁻¹ := hA.inv.isHermitian
  rw [inv_change hA i s h', dotProduct_sub, dotProduct_smul, map_sub]
  congr 1
  have h1 : star b ⬝ᵥ A⁻¹ *ᵥ Pi.single i 1 = star ((A⁻¹ *ᵥ b) i) := by
    rw [dotProduct_mulVec]
    have : star b ᵥ* A⁻¹ = star (A⁻¹ *ᵥ b) := by
      rw [star_mulVec, hinv]
    rw [this, dotProduct_single]
    simp
  rw [h1, smul_eq_mul]
  have h2 : (s : 𝕜) * (A⁻¹ *ᵥ b) i / ((1 + s * RCLike.re (A⁻¹ i i) : ℝ) : 𝕜) * star ((A⁻¹ *ᵥ b) i)
      = ((s * ‖(A⁻¹ *ᵥ b) i‖ ^ 2 / (1 + s * RCLike.re (A⁻¹ i i)) : ℝ) : 𝕜) := by
    have h3 : (A⁻¹ *ᵥ b) i * star ((A⁻¹ *ᵥ b) i) = ((‖(A⁻¹ *ᵥ b) i‖ ^ 2 : ℝ) : 𝕜) := by
      rw [RCLike.star_def, RCLike.mul_conj]
      push_cast
      rfl
    rw [div_mul_eq_mul_div, mul_assoc, h3]
    push_cast
    rfl
  rw [h2, RCLike.ofReal_re]

end GPSKet.RankOne
