import Verif.Model.OptAlpha
import Verif.Props.MargLikNoiseLog

/-! # The quantities of `opt_alpha_beta` -/

namespace GPSKet.OptAlpha

open Matrix GPSKet.SupervisedFit GPSKet.MargLik
open scoped ComplexOrder

variable {𝕜 : Type} [RCLike 𝕜] {ι n : Type} [Fintype ι] [Fintype n] [DecidableEq n]

theorem clip_pos {a : ℝ} (h : 0 < a) : 0 < clip a := by
  unfold clip
  rw [max_eq_left h.le]
  exact lt_min h (by norm_num)

theorem clip_le (a : ℝ) : clip a ≤ 1e10 := min_le_right _ _

theorem clipQuot_pos {g w2 : ℝ} (hg : 0 < g) (hw : 0 ≤ w2) : 0 < clipQuot g w2 := by
  unfold clipQuot
  split_ifs with h
  · norm_num
  · exact clip_pos (div_pos hg (lt_of_le_of_ne hw (Ne.symm h)))

theorem clipQuot_le (g w2 : ℝ) : clipQuot g w2 ≤ 1e10 := by
  unfold clipQuot
  split_ifs
  · exact le_refl _
  · norm_num
  · exact clip_le _

theorem sign_sub_eq (x y z : ℝ) (h1 : y < x ↔ 0 < z) (h2 : x < y ↔ z < 0) : SignType.sign (x - y) = SignType.sign z := by
  rcases lt_trichotomy z 0 with h | h | h
  · rw [sign_neg h, sign_neg (sub_neg.mpr (h2.mpr h))]
  · have e : x = y := le_antisymm (not_lt.mp fun h' => (h1.mp h').ne' h) (not_lt.mp fun h' => (h2.mp h').ne h)
    rw [h, e, sub_self]
  · rw [sign_pos h, sign_pos (sub_pos.mpr (h1.mpr h))]

/-- The clipped quotient lies on the same side of `a` as the quotient. -/
theorem sign_clipQuot {g w2 a : ℝ} (hg : 0 < g) (hw : 0 ≤ w2) (ha : 0 < a) (ha' : a < 1e10) :
    SignType.sign (clipQuot g w2 - a) = SignType.sign (g - a * w2) := by
  rcases hw.eq_or_lt with h | h
  · subst h
    simp only [clipQuot, if_true, hg, mul_zero, sub_zero]
    rw [sign_pos hg, sign_pos (by linarith)]
  · have hq : 0 < g / w2 := div_pos hg h
    have e : clipQuot g w2 = min (g / w2) 1e10 := by
      unfold clipQuot clip
      rw [if_neg h.ne', max_eq_left hq.le]
    apply sign_sub_eq
    · rw [e, lt_min_iff, lt_div_iff₀ h, sub_pos]
      exact and_iff_left ha'
    · rw [e, min_lt_iff, div_lt_iff₀ h, sub_neg]
      exact or_iff_left (not_lt.mpr ha'.le)

/-! ## The well-determinedness of a feature -/

/-- The precisions on the diagonal of the matrix of the normal equations. -/
noncomputable def diagAlpha (half : Bool) (alpha : n → ℝ) (f : n) : ℝ := if half then alpha f / 2 else alpha f

theorem diagAlpha_pos (half : Bool) {alpha : n → ℝ} {f : n} (h : 0 < alpha f) : 0 < diagAlpha half alpha f := by
  cases half
  · exact h
  · exact half_pos h

theorem quad_diagonal {m : Type} [Fintype m] [DecidableEq m] (a : m → ℝ) (x : m → 𝕜) :
    RCLike.re (star x ⬝ᵥ diagonal (fun i => (a i : 𝕜)) *ᵥ x) = ∑ i, a i * ‖x i‖ ^ 2 := by
  rw [dotProduct, map_sum]
  refine Finset.sum_congr rfl fun i _ => ?_
  rw [mulVec_diagonal, Pi.star_apply, RCLike.star_def, mul_left_comm, RCLike.conj_mul, RCLike.re_ofReal_mul, ← RCLike.ofReal_pow,
    RCLike.ofReal_re]

/-- A positive definite sum of a semidefinite matrix and a diagonal one: the product of a diagonal entry and the corresponding entry of
the inverse is less than 1 if the diagonal entry of the semidefinite matrix is positive. -/
theorem diag_mul_inv_lt {m : Type} [Fintype m] [DecidableEq m] (G : Matrix m m 𝕜) (hG : G.PosSemidef) (a : m → ℝ) (ha : ∀ i, 0 < a i)
    (f : m) (hf : 0 < RCLike.re (G f f)) :
    a f * RCLike.re ((G + diagonal fun i => (a i : 𝕜))⁻¹ f f) < 1 := by
  set A := G + diagonal fun i => (a i : 𝕜) with hA
  have hpos : A.PosDef := Matrix.PosDef.posSemidef_add hG (Matrix.PosDef.diagonal fun i => RCLike.ofReal_pos.mpr (ha i))
  have hu : IsUnit A.det := hpos.det_pos.ne'.isUnit
  obtain ⟨hgr, hg0⟩ := RankOne.inv_diag_real hpos f
  set g := RCLike.re (A⁻¹ f f) with hg
  set x : m → 𝕜 := A⁻¹ *ᵥ Pi.single f 1 with hx
  have hxf : x f = (g : 𝕜) := by rw [hx, mulVec_single_one]; exact hgr
  have hAx : A *ᵥ x = Pi.single f 1 := by rw [hx, mulVec_mulVec, mul_nonsing_inv _ hu, one_mulVec]
  have h1 : RCLike.re (star x ⬝ᵥ A *ᵥ x) = g := by
    rw [hAx, dotProduct_single, mul_one, Pi.star_apply, hxf, RCLike.star_def, RCLike.conj_ofReal, RCLike.ofReal_re]
  have h2 : RCLike.re (star x ⬝ᵥ A *ᵥ x) = RCLike.re (star x ⬝ᵥ G *ᵥ x) + ∑ i, a i * ‖x i‖ ^ 2 := by
    rw [hA, add_mulVec, dotProduct_add, map_add, quad_diagonal]
  have hGx : 0 ≤ RCLike.re (star x ⬝ᵥ G *ᵥ x) := hG.re_dotProduct_nonneg x
  have hsum : ∑ i, a i * ‖x i‖ ^ 2 = a f * g ^ 2 + ∑ i ∈ Finset.univ.erase f, a i * ‖x i‖ ^ 2 := by
    rw [← Finset.add_sum_erase _ _ (Finset.mem_univ f), hxf, RCLike.norm_ofReal, sq_abs]
  have hrest : 0 ≤ ∑ i ∈ Finset.univ.erase f, a i * ‖x i‖ ^ 2 :=
    Finset.sum_nonneg fun i _ => mul_nonneg (ha i).le (sq_nonneg _)
  have hne : RCLike.re (star x ⬝ᵥ G *ᵥ x) + ∑ i ∈ Finset.univ.erase f, a i * ‖x i‖ ^ 2 ≠ 0 := by
    intro h0
    have hr0 : ∑ i ∈ Finset.univ.erase f, a i * ‖x i‖ ^ 2 = 0 := by linarith
    have hG0 : RCLike.re (star x ⬝ᵥ G *ᵥ x) = 0 := by linarith
    rw [Finset.sum_eq_zero_iff_of_nonneg fun i _ => mul_nonneg (ha i).le (sq_nonneg _)] at hr0
    have hx0 : x = Pi.single f (g : 𝕜) := by
      funext i
      by_cases h : i = f
      · subst h; rw [Pi.single_eq_same, hxf]
      · rw [Pi.single_eq_of_ne h]
        have := hr0 i (Finset.mem_erase.mpr ⟨h, Finset.mem_univ _⟩)
        rcases mul_eq_zero.mp this with h' | h'
        · exact absurd h' (ha i).ne'
        · exact norm_eq_zero.mp (pow_eq_zero_iff two_ne_zero |>.mp h')
    rw [hx0, mulVec_single, ← Pi.single_star, single_dotProduct] at hG0
    simp only [Pi.smul_apply, MulOpposite.smul_eq_mul_unop, MulOpposite.unop_op, RCLike.star_def, RCLike.conj_ofReal, col_apply] at hG0
    rw [RCLike.re_ofReal_mul, mul_comm (G f f), RCLike.re_ofReal_mul] at hG0
    have := mul_pos hg0 (mul_pos hg0 hf)
    linarith
  have hpos' := lt_of_le_of_ne (add_nonneg hGx hrest) (Ne.symm hne)
  have h3 : a f * g ^ 2 < g := by
    have := h1.symm.trans h2
    rw [hsum] at this
    linarith
  have h4 : a f * g * g < 1 * g := by rw [one_mul]; nlinarith
  exact lt_of_mul_lt_mul_right h4 hg0.le

section Gamma

variable {chol : {m : Type} → [Fintype m] → Matrix m m 𝕜 → Option (Matrix m m 𝕜)}
variable (pinvh : {m : Type} → [Fintype m] → Matrix m m 𝕜 → Matrix m m 𝕜)

theorem diag_re_pos (KtK : Matrix n n 𝕜) (hK : KtK.PosSemidef) (f : n) (h : Valid KtK f) : 0 < RCLike.re (KtK f f) := by
  have h1 := RCLike.nonneg_iff.mp (hK.diag_nonneg (i := f))
  rcases h1.1.eq_or_lt with h2 | h2
  · exfalso
    have : KtK f f = 0 := RCLike.ext (by simpa using h2.symm) (by simpa using h1.2)
    unfold Valid at h
    rw [this, norm_zero] at h
    norm_num at h
  · exact h2

open Classical in
/-- The well-determinedness `gamma` of a feature that takes part lies strictly between 0 and 1. -/
theorem gamma_bounds (hchol : CholeskySpec chol) (half : Bool) (beta : ℝ) (hb : 0 < beta) (KtK : Matrix n n 𝕜) (hK : KtK.PosSemidef)
    (alpha : n → ℝ) (ha : ∀ f, 0 < alpha f) (f : {f // Active KtK alpha f}) :
    0 < gamma chol pinvh half beta KtK alpha f ∧ gamma chol pinvh half beta KtK alpha f < 1 := by
  have hpos := posDef_block half beta hb.le KtK hK alpha ha (Active KtK alpha)
  have hd := diagSinv_eq (pinvh := pinvh) hpos (hchol _) f
  have hg : gamma chol pinvh half beta KtK alpha f = 1 - diagAlpha half alpha f
      * RCLike.re ((block (regularised half beta KtK alpha) (Active KtK alpha))⁻¹ f f) := by
    unfold gamma
    simp only [hd]
    cases half
    · simp [diagAlpha]
    · simp only [diagAlpha, if_true]; ring
  have h0 := (RankOne.inv_diag_real hpos f).2
  rw [hg]
  have hG : ((beta : 𝕜) • block KtK (Active KtK alpha)).PosSemidef := (hK.submatrix _).smul (RCLike.ofReal_nonneg.mpr hb.le)
  have h1 := diag_mul_inv_lt _ hG (fun f : {f // Active KtK alpha f} => diagAlpha half alpha f) (fun f => diagAlpha_pos half (ha f)) f (by
    rw [Matrix.smul_apply, smul_eq_mul, RCLike.re_ofReal_mul]
    exact mul_pos hb (diag_re_pos KtK hK f f.2.2))
  have e : block (regularised half beta KtK alpha) (Active KtK alpha)
      = (beta : 𝕜) • block KtK (Active KtK alpha) + diagonal fun f : {f // Active KtK alpha f} => (diagAlpha half alpha f : 𝕜) :=
    block_regularised half beta KtK alpha _
  rw [← e] at h1
  have h2 := mul_pos (diagAlpha_pos half (ha f)) h0
  constructor
  · linarith
  · linarith

open Classical in
theorem gamma_sum_pos (hchol : CholeskySpec chol) (half : Bool) (beta : ℝ) (hb : 0 < beta) (KtK : Matrix n n 𝕜) (hK : KtK.PosSemidef)
    (alpha : n → ℝ) (ha : ∀ f, 0 < alpha f) (hex : ∃ f, Active KtK alpha f) : 0 < ∑ f, gamma chol pinvh half beta KtK alpha f := by
  obtain ⟨f, hf⟩ := hex
  exact Finset.sum_pos (fun f _ => (gamma_bounds pinvh hchol half beta hb KtK hK alpha ha f).1) ⟨⟨f, hf⟩, Finset.mem_univ _⟩

theorem re_star_mul (z : 𝕜) : RCLike.re (star z * z) = ‖z‖ ^ 2 := by
  rw [RCLike.star_def, RCLike.conj_mul, ← RCLike.ofReal_pow, RCLike.ofReal_re]

theorem re_star_dot (w : n → 𝕜) : RCLike.re (star w ⬝ᵥ w) = ∑ f, ‖w f‖ ^ 2 := by
  rw [dotProduct, map_sum]
  exact Finset.sum_congr rfl fun f _ => re_star_mul _

open Classical in
theorem newAlpha_rvm (hchol : CholeskySpec chol) (half : Bool) (beta : ℝ) (hb : 0 < beta) (KtK : Matrix n n 𝕜) (hK : KtK.PosSemidef)
    (y : n → 𝕜) (alpha : n → ℝ) (ha : ∀ f, 0 < alpha f) (f : n) :
    newAlpha chol pinvh half true beta KtK y alpha f
      = if h : Active KtK alpha f then clipQuot (gamma chol pinvh half beta KtK alpha ⟨f, h⟩) (‖weights pinvh half beta KtK y alpha f‖ ^ 2)
        else clip (alpha f) := by
  have hpos := posDef_block half beta hb.le KtK hK alpha ha (Active KtK alpha)
  obtain ⟨L, hL, -⟩ := exists_chol hpos (hchol _)
  unfold newAlpha
  simp only [hL, if_true, re_star_mul]

open Classical in
theorem newAlpha_shared (hchol : CholeskySpec chol) (half : Bool) (beta : ℝ) (hb : 0 < beta) (KtK : Matrix n n 𝕜) (hK : KtK.PosSemidef)
    (y : n → 𝕜) (alpha : n → ℝ) (ha : ∀ f, 0 < alpha f) (f : n) :
    newAlpha chol pinvh half false beta KtK y alpha f
      = clipQuot (∑ f, gamma chol pinvh half beta KtK alpha f) (∑ f, ‖weights pinvh half beta KtK y alpha f‖ ^ 2) := by
  have hpos := posDef_block half beta hb.le KtK hK alpha ha (Active KtK alpha)
  obtain ⟨L, hL, -⟩ := exists_chol hpos (hchol _)
  unfold newAlpha
  simp only [hL, Bool.false_eq_true, if_false, re_star_dot]

/-- The new precisions are positive and at most the cutoff. -/
theorem newAlpha_bounds (hchol : CholeskySpec chol) (half rvm : Bool) (beta : ℝ) (hb : 0 < beta) (KtK : Matrix n n 𝕜)
    (hK : KtK.PosSemidef) (y : n → 𝕜) (alpha : n → ℝ) (ha : ∀ f, 0 < alpha f) (hex : ∃ f, Active KtK alpha f) (f : n) :
    0 < newAlpha chol pinvh half rvm beta KtK y alpha f ∧ newAlpha chol pinvh half rvm beta KtK y alpha f ≤ 1e10 := by
  cases rvm
  · rw [newAlpha_shared pinvh hchol half beta hb KtK hK y alpha ha]
    exact ⟨clipQuot_pos (gamma_sum_pos pinvh hchol half beta hb KtK hK alpha ha hex) (Finset.sum_nonneg fun _ _ => sq_nonneg _),
      clipQuot_le _ _⟩
  · rw [newAlpha_rvm pinvh hchol half beta hb KtK hK y alpha ha]
    split_ifs with h
    · exact ⟨clipQuot_pos (gamma_bounds pinvh hchol half beta hb KtK hK alpha ha ⟨f, h⟩).1 (sq_nonneg _), clipQuot_le _ _⟩
    · exact ⟨clip_pos (ha f), clip_le _⟩

open Classical in
/-- The reported derivative in terms of `gamma`. -/
theorem alphaDer_gamma (cplx half : Bool) (hh : half = true → cplx = true) (beta : ℝ) (KtK : Matrix n n 𝕜)
    (y : n → 𝕜) (alpha : n → ℝ) (f : n) (ha : 0 < alpha f) (hf : Active KtK alpha f) :
    alphaDer chol pinvh cplx half beta KtK y alpha f
      = (if half || !cplx then 1 / 2 else 1) * (1 / alpha f) *
        (gamma chol pinvh half beta KtK alpha ⟨f, hf⟩ - alpha f * ‖weights pinvh half beta KtK y alpha f‖ ^ 2) := by
  unfold alphaDer gamma
  simp only [dif_pos hf, re_star_mul]
  cases half
  · cases cplx
    · simp only [Bool.false_eq_true, if_false, Bool.not_false, Bool.or_true, if_true]
      field_simp
      ring
    · simp only [Bool.false_eq_true, if_false, Bool.not_true, Bool.or_false]
      field_simp
      ring
  · simp only [Bool.true_or, if_true]
    field_simp
    ring

end Gamma

end GPSKet.OptAlpha
