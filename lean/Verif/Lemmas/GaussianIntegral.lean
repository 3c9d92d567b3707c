import Mathlib.Analysis.SpecialFunctions.Gaussian.GaussianIntegral
import Mathlib.MeasureTheory.Integral.Pi
import Mathlib.MeasureTheory.Measure.Lebesgue.Basic
import Mathlib.MeasureTheory.Group.Integral
import Mathlib.Analysis.Matrix.Order
import Mathlib.Analysis.CStarAlgebra.Matrix

/-! # The integral of a Gaussian function of several real variables -/

namespace GPSKet.GaussianIntegral

open Matrix MeasureTheory
open scoped MatrixOrder

variable {n : Type} [Fintype n] [DecidableEq n]

theorem exists_factor {M : Matrix n n ℝ} (hM : M.PosDef) : ∃ B : Matrix n n ℝ, M = Bᵀ * B := by
  obtain ⟨B, hB⟩ := CStarAlgebra.nonneg_iff_eq_star_mul_self.mp hM.posSemidef.nonneg
  exact ⟨B, by rw [hB, star_eq_conjTranspose, conjTranspose_eq_transpose_of_trivial]⟩

theorem integral_standard : ∫ v : n → ℝ, Real.exp (-(v ⬝ᵥ v)) = Real.sqrt Real.pi ^ Fintype.card n := by
  have h : ∀ v : n → ℝ, Real.exp (-(v ⬝ᵥ v)) = ∏ i, Real.exp (-1 * v i ^ 2) := by
    intro v
    rw [← Real.exp_sum]
    congr 1
    rw [dotProduct, ← Finset.sum_neg_distrib]
    exact Finset.sum_congr rfl fun i _ => by ring
  simp only [h]
  rw [integral_fintype_prod_volume_eq_pow fun x : ℝ => Real.exp (-1 * x ^ 2), integral_gaussian, div_one]

theorem integral_quadratic {M : Matrix n n ℝ} (hM : M.PosDef) :
    ∫ w : n → ℝ, Real.exp (-(w ⬝ᵥ M *ᵥ w)) = Real.sqrt Real.pi ^ Fintype.card n / Real.sqrt M.det := by
  obtain ⟨B, rfl⟩ := exists_factor hM
  have hdet : B.det ≠ 0 := by
    intro h
    have := hM.det_pos
    rw [det_mul, det_transpose, h] at this
    simp at this
  have hmap := Real.map_matrix_volume_pi_eq_smul_volume_pi hdet
  have hq : ∀ w : n → ℝ, w ⬝ᵥ (Bᵀ * B) *ᵥ w = (toLin' B w) ⬝ᵥ (toLin' B w) := by
    intro w
    rw [toLin'_apply, ← mulVec_mulVec, dotProduct_mulVec, vecMul_transpose]
  simp only [hq]
  have hmeas : AEMeasurable (toLin' B) (volume : Measure (n → ℝ)) :=
    ((toLin' B).continuous_of_finiteDimensional).aemeasurable
  have h1 : ∫ w : n → ℝ, Real.exp (-(toLin' B w ⬝ᵥ toLin' B w))
      = ∫ v, Real.exp (-(v ⬝ᵥ v)) ∂(Measure.map (toLin' B) volume) := by
    rw [integral_map hmeas]
    apply Continuous.aestronglyMeasurable
    unfold dotProduct
    fun_prop
  rw [h1, hmap, integral_smul_measure, integral_standard, ENNReal.toReal_ofReal (abs_nonneg _), det_mul, det_transpose,
    Real.sqrt_mul_self_eq_abs, abs_inv, smul_eq_mul]
  field_simp

/-- `∫ exp(-wᵀMw + 2bᵀw) dw = π^(n/2) det(M)^(-1/2) exp(bᵀM⁻¹b)` -/
theorem integral_quadratic_linear {M : Matrix n n ℝ} (hM : M.PosDef) (b : n → ℝ) :
    ∫ w : n → ℝ, Real.exp (-(w ⬝ᵥ M *ᵥ w) + 2 * (b ⬝ᵥ w))
      = Real.sqrt Real.pi ^ Fintype.card n / Real.sqrt M.det * Real.exp (b ⬝ᵥ M⁻¹ *ᵥ b) := by
  have hu : IsUnit M.det := hM.det_pos.ne'.isUnit
  have hs : Mᵀ = M := by
    have := hM.isHermitian.eq
    rwa [conjTranspose_eq_transpose_of_trivial] at this
  set m := M⁻¹ *ᵥ b with hm
  have hMm : M *ᵥ m = b := by rw [hm, mulVec_mulVec, mul_nonsing_inv _ hu, one_mulVec]
  have hsym : ∀ x y : n → ℝ, x ⬝ᵥ M *ᵥ y = y ⬝ᵥ M *ᵥ x := by
    intro x y
    rw [dotProduct_mulVec, ← mulVec_transpose, hs, dotProduct_comm]
  have hsq : ∀ w : n → ℝ, -((w + m) ⬝ᵥ M *ᵥ (w + m)) + 2 * (b ⬝ᵥ (w + m)) = -(w ⬝ᵥ M *ᵥ w) + b ⬝ᵥ m := by
    intro w
    rw [mulVec_add, dotProduct_add, add_dotProduct, add_dotProduct, hMm, hsym m w, hMm, dotProduct_add, dotProduct_comm w b,
      dotProduct_comm m b]
    ring
  rw [← integral_add_right_eq_self _ m]
  simp only [hsq, Real.exp_add]
  rw [integral_mul_const, integral_quadratic hM]

end GPSKet.GaussianIntegral
