import Verif.Model.MargLik
import Verif.Lemmas.SupervisedFit
import Mathlib.LinearAlgebra.Matrix.Block

/-! # Lemmas on the marginal likelihood of a supervised fit -/

namespace GPSKet.MargLik

open Matrix GPSKet.SupervisedFit
open scoped ComplexOrder

section Chol

variable {𝕜 : Type} [RCLike 𝕜] {m : Type} [Fintype m] [DecidableEq m]

theorem chol_inv {A L : Matrix m m 𝕜} (h : L * Lᴴ = A) : (L⁻¹)ᴴ * L⁻¹ = A⁻¹ := by
  rw [← h, Matrix.mul_inv_rev, conjTranspose_nonsing_inv]

theorem det_ne_zero_of_posDef {A : Matrix m m 𝕜} (hA : A.PosDef) : A.det ≠ 0 := hA.det_pos.ne'

theorem chol_det {A L : Matrix m m 𝕜} (hA : A.PosDef) (h : L * Lᴴ = A) : L.det ≠ 0 := by
  intro h0
  apply det_ne_zero_of_posDef hA
  rw [← h, det_mul, h0, zero_mul]

theorem chol_prod {A L : Matrix m m 𝕜} (hA : A.PosDef) (h : CholeskyOf A (some L)) : ∏ i, ‖L⁻¹ i i‖ = ‖L⁻¹.det‖ := by
  obtain ⟨⟨pos, hinj, htri⟩, hL⟩ := h
  let _ : LinearOrder m := LinearOrder.lift' pos hinj
  have hdet : IsUnit L.det := (chol_det hA hL).isUnit
  have _ : Invertible L := (isUnit_iff_isUnit_det L |>.mpr hdet).invertible
  have h1 : L.BlockTriangular OrderDual.toDual := by
    intro i j hij
    exact htri i j hij
  have h2 := blockTriangular_inv_of_blockTriangular h1
  have h3 := det_of_isLowerTriangular L⁻¹ h2
  have h4 : L⁻¹.det = ∏ i, L⁻¹ i i := by
    convert h3
  rw [h4, norm_prod]

variable {chol : {m : Type} → [Fintype m] → Matrix m m 𝕜 → Option (Matrix m m 𝕜)}
variable {pinvh : {m : Type} → [Fintype m] → Matrix m m 𝕜 → Matrix m m 𝕜}

theorem exists_chol {A : Matrix m m 𝕜} (hA : A.PosDef) (hc : CholeskyOf A (chol A)) :
    ∃ L, chol A = some L ∧ CholeskyOf A (some L) := by
  cases h : chol A with
  | none => rw [h] at hc; exact absurd hA hc
  | some L => rw [h] at hc; exact ⟨L, rfl, hc⟩

theorem matSinv_eq {A : Matrix m m 𝕜} (hA : A.PosDef) (hc : CholeskyOf A (chol A)) : matSinv chol pinvh A = A⁻¹ := by
  obtain ⟨L, h, hL⟩ := exists_chol hA hc
  unfold matSinv
  simp only [h]
  convert chol_inv hL.2

theorem diagSinv_eq {A : Matrix m m 𝕜} (hA : A.PosDef) (hc : CholeskyOf A (chol A)) (f : m) :
    diagSinv chol pinvh A f = RCLike.re (A⁻¹ f f) := by
  obtain ⟨L, h, hL⟩ := exists_chol hA hc
  unfold diagSinv
  simp only [h]
  rw [← chol_inv hL.2]
  simp only [mul_apply, conjTranspose_apply, map_sum]
  apply Finset.sum_congr rfl
  intro i _
  rw [RCLike.star_def, RCLike.conj_mul]
  norm_cast
  congr!

theorem logDetSinv_eq {A : Matrix m m 𝕜} (hA : A.PosDef) (hc : CholeskyOf A (chol A)) :
    logDetSinv chol pinvh false A = -Real.log ‖A.det‖ := by
  obtain ⟨L, h, hL⟩ := exists_chol hA hc
  have h1 := chol_prod hA hL
  have hdet := chol_det hA hL.2
  have hinv : L⁻¹.det ≠ 0 := by
    rw [det_nonsing_inv, Ring.inverse_eq_inv']
    exact inv_ne_zero hdet
  unfold logDetSinv
  simp only [h, Bool.false_eq_true, if_false]
  have h2 : ∀ i, ‖L⁻¹ i i‖ ≠ 0 := by
    intro i h0
    apply hinv
    rw [← norm_eq_zero, ← h1]
    exact Finset.prod_eq_zero (Finset.mem_univ i) h0
  have h3 : ‖A.det‖ = ‖L.det‖ ^ 2 := by
    rw [← hL.2, det_mul, det_conjTranspose, norm_mul, norm_star, sq]
  have h4 : ‖L⁻¹.det‖ = ‖L.det‖⁻¹ := by
    rw [det_nonsing_inv, Ring.inverse_eq_inv', norm_inv]
  have h5 : (∑ i, Real.log ‖L⁻¹ i i‖) = -Real.log ‖L.det‖ := by
    rw [← Real.log_prod fun i _ => h2 i, h1, h4, Real.log_inv]
  have h6 : (2 : ℝ) * ∑ i, Real.log ‖L⁻¹ i i‖ = -Real.log ‖A.det‖ := by
    rw [h5, h3, Real.log_pow]
    push_cast
    ring
  rw [← h6]
  congr!

theorem logDetSinv_half {A : Matrix m m 𝕜} (hA : A.PosDef) (hc : CholeskyOf A (chol A)) :
    logDetSinv chol pinvh true A = 1 / 2 * (-Real.log ‖A.det‖ - Fintype.card m * Real.log 2) := by
  rw [← logDetSinv_eq (pinvh := pinvh) hA hc]
  obtain ⟨L, h, hL⟩ := exists_chol hA hc
  have h1 := chol_prod hA hL
  have hdet := chol_det hA hL.2
  have hinv : L⁻¹.det ≠ 0 := by
    rw [det_nonsing_inv, Ring.inverse_eq_inv']
    exact inv_ne_zero hdet
  have h2 : ∀ i, ‖L⁻¹ i i‖ ≠ 0 := by
    intro i h0
    apply hinv
    rw [← norm_eq_zero, ← h1]
    exact Finset.prod_eq_zero (Finset.mem_univ i) h0
  unfold logDetSinv
  simp only [h, Bool.false_eq_true, if_false, if_true]
  have h3 : (∑ i, Real.log (1 / 2 * ‖L⁻¹ i i‖ ^ 2)) = 2 * (∑ i, Real.log ‖L⁻¹ i i‖) - Fintype.card m * Real.log 2 := by
    have : ∀ i, Real.log (1 / 2 * ‖L⁻¹ i i‖ ^ 2) = 2 * Real.log ‖L⁻¹ i i‖ - Real.log 2 := by
      intro i
      rw [Real.log_mul (by norm_num) (pow_ne_zero _ (h2 i)), Real.log_pow, one_div, Real.log_inv]
      push_cast
      ring
    simp only [this, Finset.sum_sub_distrib, ← Finset.mul_sum, Finset.sum_const, Finset.card_univ, nsmul_eq_mul]
  congr 1
  convert h3 using 1 <;> congr!

end Chol

variable {𝕜 : Type} [RCLike 𝕜] {ι n : Type} [Fintype ι] [Fintype n] [DecidableEq n]

/-- The columns of the active features. -/
def cols (K : Matrix ι n 𝕜) (P : n → Prop) : Matrix ι {f // P f} 𝕜 := K.submatrix id Subtype.val

theorem block_gram (K : Matrix ι n 𝕜) (S : ι → ℝ) (P : n → Prop) : block (gram K S) P = gram (cols K P) S := by
  ext f g
  simp [block, gram, cols, Matrix.mul_apply]

theorem rhs_cols (K : Matrix ι n 𝕜) (y : ι → 𝕜) (P : n → Prop) : (fun f : {f // P f} => rhs K y f) = rhs (cols K P) y := by
  funext f
  simp [rhs, cols, Matrix.mulVec, dotProduct]

theorem block_regularised (half : Bool) (beta : ℝ) (KtK : Matrix n n 𝕜) (alpha : n → ℝ) (P : n → Prop) :
    block (regularised half beta KtK alpha) P = (beta : 𝕜) • block KtK P
      + diagonal fun f : {f // P f} => ((if half then alpha f / 2 else alpha f : ℝ) : 𝕜) := by
  ext f g
  simp only [block, regularised, submatrix_apply, Matrix.add_apply, diagonal_apply, Subtype.ext_iff, Matrix.smul_apply]

theorem weights_active (pinvh : {m : Type} → [Fintype m] → Matrix m m 𝕜 → Matrix m m 𝕜) (half : Bool) (beta : ℝ)
    (KtK : Matrix n n 𝕜) (y : n → 𝕜) (alpha : n → ℝ) [DecidableEq {f // Active KtK alpha f}]
    [Fintype {f // Active KtK alpha f}]
    (hpos : (block (regularised half beta KtK alpha) (Active KtK alpha)).PosDef) :
    (fun f : {f // Active KtK alpha f} => weights pinvh half beta KtK y alpha f)
      = (beta : 𝕜) • ((block (regularised half beta KtK alpha) (Active KtK alpha))⁻¹ *ᵥ fun g : {f // Active KtK alpha f} => y g) := by
  funext f
  unfold weights
  simp only [Subtype.coe_eta, dif_pos f.2]
  rw [if_pos hpos]
  simp only [Pi.smul_apply, smul_eq_mul]
  congr!

theorem re_quad (A : Matrix n n 𝕜) (hA : A.det ≠ 0) (beta : ℝ) (y : n → 𝕜) :
    RCLike.re (star ((beta : 𝕜) • (A⁻¹ *ᵥ y)) ⬝ᵥ A *ᵥ ((beta : 𝕜) • (A⁻¹ *ᵥ y)))
      = beta ^ 2 * RCLike.re (star y ⬝ᵥ A⁻¹ *ᵥ y) := by
  rw [mulVec_smul, mulVec_mulVec, mul_nonsing_inv _ hA.isUnit, one_mulVec, star_smul, smul_dotProduct, dotProduct_smul, smul_eq_mul,
    smul_eq_mul, RCLike.star_def, RCLike.conj_ofReal, ← mul_assoc, ← sq]
  rw [← RCLike.ofReal_pow, RCLike.re_ofReal_mul]
  congr 1
  rw [← RCLike.conj_re, ← RCLike.star_def, ← star_dotProduct_star, star_star, dotProduct_comm]

/-- The hypothesis on `sp.linalg.cholesky` in all theorems: it returns a factor, or raises for a matrix that is not positive definite. -/
def CholeskySpec (chol : {m : Type} → [Fintype m] → Matrix m m 𝕜 → Option (Matrix m m 𝕜)) : Prop :=
  ∀ {m : Type} [Fintype m] (A : Matrix m m 𝕜), CholeskyOf A (chol A)

section Closed

variable {chol : {m : Type} → [Fintype m] → Matrix m m 𝕜 → Option (Matrix m m 𝕜)}
variable (pinvh : {m : Type} → [Fintype m] → Matrix m m 𝕜 → Matrix m m 𝕜)

open Classical in
theorem evidence_eq (hchol : CholeskySpec chol) (cplx : Bool) (beta : ℝ) (KtK : Matrix n n 𝕜) (y : n → 𝕜) (alpha : n → ℝ)
    (ha : ∀ f, 0 < alpha f) (d : ℝ) (P : n → Prop) (hP : Active KtK alpha = P)
    (hpos : (block (regularised false beta KtK alpha) P).PosDef) :
    evidence chol pinvh cplx false beta KtK y alpha d
      = (if cplx then 1 else 1 / 2) * (d - Real.log ‖(block (regularised false beta KtK alpha) P).det‖
          + (∑ f : {f // P f}, Real.log (alpha f))
          + beta ^ 2 * RCLike.re (star (fun f : {f // P f} => y f) ⬝ᵥ
              (block (regularised false beta KtK alpha) P)⁻¹ *ᵥ fun f : {f // P f} => y f)) := by
  subst hP
  have hw := weights_active pinvh false beta KtK y alpha hpos
  unfold evidence
  simp only [hw]
  rw [re_quad _ (det_ne_zero_of_posDef hpos), logDetSinv_eq hpos (hchol _)]
  simp only [ha, if_true, Bool.false_eq_true, if_false]
  cases cplx
  · simp only [Bool.false_eq_true, if_false]
    ring
  · simp only [if_true]
    ring

open Classical in
theorem evidence_half (hchol : CholeskySpec chol) (beta : ℝ) (KtK : Matrix n n 𝕜) (y : n → 𝕜) (alpha : n → ℝ)
    (ha : ∀ f, 0 < alpha f) (d : ℝ) (P : n → Prop) (hP : Active KtK alpha = P)
    (hpos : (block (regularised true beta KtK alpha) P).PosDef) :
    evidence chol pinvh true true beta KtK y alpha d
      = d - 1 / 2 * Real.log ‖(block (regularised true beta KtK alpha) P).det‖
          + 1 / 2 * (∑ f : {f // P f}, Real.log (alpha f / 2))
          + beta ^ 2 * RCLike.re (star (fun f : {f // P f} => y f) ⬝ᵥ
              (block (regularised true beta KtK alpha) P)⁻¹ *ᵥ fun f : {f // P f} => y f) := by
  subst hP
  have hw := weights_active pinvh true beta KtK y alpha hpos
  unfold evidence
  simp only [hw]
  rw [re_quad _ (det_ne_zero_of_posDef hpos), logDetSinv_half hpos (hchol _)]
  simp only [ha, if_true]
  have : ∀ f : {f // Active KtK alpha f}, Real.log (alpha f / 2) = Real.log (alpha f) - Real.log 2 := fun f =>
    Real.log_div (ha f).ne' two_ne_zero
  simp only [this, Finset.sum_sub_distrib, Finset.sum_const, Finset.card_univ, nsmul_eq_mul]
  ring

end Closed

end GPSKet.MargLik
