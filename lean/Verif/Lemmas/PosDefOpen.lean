import Verif.Lemmas.MargLik
import Verif.Lemmas.Cholesky

/-! # A positive definite matrix stays positive definite under small symmetric changes -/

namespace GPSKet.MargLik

open Matrix

variable {m : Type} [Fintype m] [DecidableEq m]

theorem posDef_near_one (M : Matrix m m ℝ) (hM : M.IsHermitian) (t : ℝ) (ht : |t| * ∑ i, ∑ j, |M i j| < 1) : (1 + t • M).PosDef := by
  refine PosDef.of_dotProduct_mulVec_pos (isHermitian_one.add (by
    rw [IsHermitian, conjTranspose_smul, hM]
    simp)) fun x hx => ?_
  have hx0 : 0 < ∑ k, x k ^ 2 := by
    obtain ⟨k, hk⟩ := Function.ne_iff.mp hx
    exact Finset.sum_pos' (fun k _ => sq_nonneg _) ⟨k, Finset.mem_univ k, by have : x k ≠ 0 := hk; positivity⟩
  have hxk : ∀ k, x k ^ 2 ≤ ∑ k, x k ^ 2 := fun k => Finset.single_le_sum (fun k _ => sq_nonneg (x k)) (Finset.mem_univ k)
  have h1 : star x ⬝ᵥ ((1 + t • M) *ᵥ x) = ∑ k, x k ^ 2 + t * ∑ i, ∑ j, x i * (M i j * x j) := by
    rw [add_mulVec, one_mulVec, dotProduct_add, smul_mulVec, dotProduct_smul]
    congr 1
    · simp [dotProduct, sq]
    · simp [dotProduct, mulVec, Finset.mul_sum]
  have h2 : |∑ i, ∑ j, x i * (M i j * x j)| ≤ (∑ i, ∑ j, |M i j|) * ∑ k, x k ^ 2 := by
    rw [Finset.sum_mul]
    refine (Finset.abs_sum_le_sum_abs _ _).trans (Finset.sum_le_sum fun i _ => ?_)
    rw [Finset.sum_mul]
    refine (Finset.abs_sum_le_sum_abs _ _).trans (Finset.sum_le_sum fun j _ => ?_)
    have h3 : |x i * x j| ≤ ∑ k, x k ^ 2 := by
      rw [abs_le]
      constructor <;> nlinarith [hxk i, hxk j, sq_nonneg (x i - x j), sq_nonneg (x i + x j)]
    rw [show x i * (M i j * x j) = M i j * (x i * x j) by ring, abs_mul]
    exact mul_le_mul_of_nonneg_left h3 (abs_nonneg _)
  rw [h1]
  have h4 : |t * ∑ i, ∑ j, x i * (M i j * x j)| < ∑ k, x k ^ 2 := by
    rw [abs_mul]
    calc |t| * |∑ i, ∑ j, x i * (M i j * x j)| ≤ |t| * ((∑ i, ∑ j, |M i j|) * ∑ k, x k ^ 2) :=
          mul_le_mul_of_nonneg_left h2 (abs_nonneg _)
      _ = (|t| * ∑ i, ∑ j, |M i j|) * ∑ k, x k ^ 2 := by ring
      _ < 1 * ∑ k, x k ^ 2 := mul_lt_mul_of_pos_right ht hx0
      _ = _ := one_mul _
  have := (abs_lt.mp h4).1
  linarith

theorem posDef_eventually (A H : Matrix m m ℝ) (hA : A.PosDef) (hH : H.IsHermitian) (t0 : ℝ) :
    ∀ᶠ t in nhds t0, (A + (t - t0) • H).PosDef := by
  obtain ⟨chol, hchol⟩ := exists_choleskySpec (𝕜 := ℝ)
  obtain ⟨L, -, hL⟩ := exists_chol hA (hchol A)
  have hdet : IsUnit L.det := (chol_det hA hL.2).isUnit
  set M := L⁻¹ * H * (L⁻¹)ᴴ with hM
  have hMh : M.IsHermitian := isHermitian_mul_mul_conjTranspose _ hH
  have hev : ∀ᶠ t in nhds t0, |t - t0| * ∑ i, ∑ j, |M i j| < 1 := by
    have hc : ContinuousAt (fun t => |t - t0| * ∑ i, ∑ j, |M i j|) t0 := by fun_prop
    refine hc.eventually (gt_mem_nhds ?_)
    simp
  filter_upwards [hev] with t ht
  have h1 := posDef_near_one M hMh (t - t0) ht
  have h2 : A + (t - t0) • H = L * (1 + (t - t0) • M) * Lᴴ := by
    rw [mul_add, add_mul, mul_one, hL.2, Matrix.mul_smul, Matrix.smul_mul, hM]
    congr 2
    rw [← Matrix.mul_assoc, ← Matrix.mul_assoc, Matrix.mul_nonsing_inv _ hdet, Matrix.one_mul, Matrix.mul_assoc, conjTranspose_nonsing_inv,
      Matrix.nonsing_inv_mul _ (by rw [det_conjTranspose]; exact hdet.star), Matrix.mul_one]
  rw [h2]
  refine h1.mul_mul_conjTranspose_same ?_
  exact vecMul_injective_of_isUnit ((isUnit_iff_isUnit_det L).mpr hdet)

end GPSKet.MargLik
