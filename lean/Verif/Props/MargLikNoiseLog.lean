import Verif.Props.MargLikNoise

/-! # C84: the reported derivative of the evidence of a log-space fit with respect to the noise -/

namespace GPSKet.MargLik

open Matrix GPSKet.SupervisedFit
open scoped ComplexOrder

variable {𝕜 : Type} [RCLike 𝕜] {ι n : Type} [Fintype ι] [Fintype n] [DecidableEq n]

theorem residual_sq {κ : Type} [Fintype κ] (K : Matrix ι κ 𝕜) (data : ι → 𝕜) (x : κ → 𝕜) :
    ∑ i, ‖data i - (K *ᵥ x) i‖ ^ 2
      = (∑ i, ‖data i‖ ^ 2) - 2 * RCLike.re (star x ⬝ᵥ rhs K data) + RCLike.re (star x ⬝ᵥ gram K (fun _ => 1) *ᵥ x) := by
  have h1 : star x ⬝ᵥ rhs K data = ∑ i, star ((K *ᵥ x) i) * data i := by
    rw [rhs, dotProduct_mulVec, ← star_mulVec, dotProduct]
    rfl
  have h2 : star x ⬝ᵥ gram K (fun _ => 1) *ᵥ x = ∑ i, star ((K *ᵥ x) i) * (K *ᵥ x) i := by
    have e : gram K (fun _ => 1) = Kᴴ * K := by
      unfold gram
      congr 1
      ext i f
      simp
    rw [e, ← mulVec_mulVec, dotProduct_mulVec, ← star_mulVec, dotProduct]
    rfl
  rw [h1, h2, map_sum, map_sum, Finset.mul_sum, ← Finset.sum_sub_distrib, ← Finset.sum_add_distrib]
  refine Finset.sum_congr rfl fun i _ => ?_
  have h3 := norm_sq_add (𝕜 := 𝕜) (data i) (-(K *ᵥ x) i)
  rw [norm_neg, ← sub_eq_add_neg] at h3
  rw [h3, star_neg, neg_mul, map_neg]
  have h4 : RCLike.re (star ((K *ᵥ x) i) * (K *ᵥ x) i) = ‖(K *ᵥ x) i‖ ^ 2 := by
    rw [RCLike.star_def, RCLike.conj_mul, ← RCLike.ofReal_pow, RCLike.ofReal_re]
  rw [h4]
  ring

section Main

variable {chol : {m : Type} → [Fintype m] → Matrix m m 𝕜 → Option (Matrix m m 𝕜)}
variable (pinvh : {m : Type} → [Fintype m] → Matrix m m 𝕜 → Matrix m m 𝕜)

/-- C84: without weightings, and if the current parameters are the weights of the present fit (so that `predict` returns the present
prediction), the reported derivative is the derivative of `log_marg_lik` times the fourth power of the noise. -/
theorem C84_partial (hchol : CholeskySpec chol) (cplx : Bool) (noise : ℝ) (hn : 0 < noise) (K : Matrix ι n 𝕜) (data pred : ι → 𝕜)
    (alpha : n → ℝ) (ha : ∀ f, 0 < alpha f)
    (hpred : ∀ i, pred i = ∑ f, K i f * weights pinvh false (1 / noise) (gram K fun _ => 1) (rhs K data) alpha f) :
    HasDerivAt (fun t => logSpaceLogMargLik chol pinvh cplx t K none data alpha)
      (logSpaceNoiseDer chol pinvh cplx noise K none data pred alpha / noise ^ 4) noise := by
  classical
  set P := Active (gram K fun _ => 1) alpha with hPdef
  have hP : ∀ f, P f ↔ alpha f < 1e10 ∧ 1e-10 < Spec.occurrence K (fun _ => 1) f := by
    intro f
    rw [hPdef, active_eq K _ fun _ => zero_le_one]
  set C := cols K P with hC
  let At : ℝ → Matrix {f // P f} {f // P f} 𝕜 := fun t => gram C (fun _ => 1 / t * 1) + diagonal fun f : {f // P f} => (alpha f : 𝕜)
  let bt : ℝ → {f // P f} → 𝕜 := fun t => rhs C fun i => ((1 / t * 1 : ℝ) : 𝕜) * data i
  have hApos : ∀ t, 0 < t → (At t).PosDef := by
    intro t ht
    have h := posDef_block false (1 / t) (one_div_pos.mpr ht).le _ (gram_posSemidef K (fun _ => 1) fun _ => zero_le_one) alpha ha P
    rw [block_eq] at h
    exact h
  have hSder : HasDerivAt (fun t : ℝ => 1 / t * 1) (-(1 / noise ^ 2)) noise := by
    have := hasDerivAt_inv hn.ne'
    simp only [one_div, mul_one]
    exact this
  have hSc : HasDerivAt (fun t : ℝ => ((1 / t * 1 : ℝ) : 𝕜)) ((-(1 / noise ^ 2) : ℝ) : 𝕜) noise :=
    (RCLike.ofRealCLM (K := 𝕜)).hasFDerivAt.comp_hasDerivAt noise hSder
  have hAder : ∀ i j, HasDerivAt (fun t => At t i j) (gram C (fun _ => -(1 / noise ^ 2)) i j) noise := by
    intro i j
    simp only [At, Matrix.add_apply, gram, Matrix.mul_apply, of_apply]
    exact (HasDerivAt.fun_sum fun k _ => (hSc.mul_const (C k j)).const_mul (Cᴴ i k)).add_const _
  have hbder : ∀ i, HasDerivAt (fun t => bt t i) (rhs C (fun i => ((-(1 / noise ^ 2) : ℝ) : 𝕜) * data i) i) noise := by
    intro i
    simp only [bt, rhs, mulVec, dotProduct]
    exact HasDerivAt.fun_sum fun k _ => (hSc.mul_const (data k)).const_mul (Cᴴ i k)
  have hev : ∀ᶠ t in nhds noise, (At t).PosDef := by
    filter_upwards [eventually_gt_nhds hn] with t ht using hApos t ht
  have h1 := MatrixDeriv.hasDerivAt_log_det At _ noise hAder hev
  have h2 := MatrixDeriv.hasDerivAt_quad At _ bt _ noise hAder hbder hev
  have hsq : RCLike.re (∑ i, star (data i) * data i) = ∑ i, ‖data i‖ ^ 2 := by
    rw [map_sum]
    refine Finset.sum_congr rfl fun i _ => ?_
    rw [RCLike.star_def, RCLike.conj_mul, ← RCLike.ofReal_pow, RCLike.ofReal_re]
  have h3 : HasDerivAt (fun t => logDataTerm cplx t none data)
      (-((Fintype.card ι : ℝ) / noise) + (∑ i, ‖data i‖ ^ 2) / noise ^ 2) noise := by
    unfold logDataTerm
    simp only [dataCount, hsq]
    have e1 := (((hasDerivAt_id noise).const_mul (normConst cplx)).log (mul_pos (normConst_pos cplx) hn).ne').const_mul
      (Fintype.card ι : ℝ)
    have e2 := (hasDerivAt_inv hn.ne').const_mul (∑ i, ‖data i‖ ^ 2)
    have e3 := e1.neg.sub e2
    refine (e3.congr_of_eventuallyEq (Filter.Eventually.of_forall fun t => ?_)).congr_deriv ?_
    · simp only [Pi.sub_apply, Pi.neg_apply, div_eq_mul_inv]
      rfl
    · have := (normConst_pos cplx).ne'
      simp only [id]
      field_simp
      ring
  have h4 := (((h3.sub h1).add_const (∑ f : {f // P f}, Real.log (alpha f))).add h2).const_mul (if cplx then 1 else 1 / 2 : ℝ)
  refine (h4.congr_of_eventuallyEq ?_).congr_deriv ?_
  · filter_upwards [eventually_gt_nhds hn] with t ht
    have := evidence_closed pinvh hchol cplx (1 / t) (one_div_pos.mpr ht) K (fun _ => 1) (fun _ => zero_le_one) data alpha ha
      (logDataTerm cplx t none data) P hP
    exact this
  · -- the closed forms agree
    set A := At noise with hA
    set x := A⁻¹ *ᵥ bt noise with hx
    have hu : IsUnit A.det := (hApos noise hn).det_pos.ne'.isUnit
    have hblock : block (regularised false (1 / noise) (gram K fun _ => 1) alpha) P = A := block_eq (1 / noise) K (fun _ => 1) alpha P
    have hG : gram C (fun _ => -(1 / noise ^ 2)) = ((-(1 / noise ^ 2) : ℝ) : 𝕜) • gram C fun _ => 1 := by
      rw [gram_scale]
      simp only [mul_one]
    have hAG : A = ((1 / noise : ℝ) : 𝕜) • gram C (fun _ => 1) + diagonal fun f : {f // P f} => (alpha f : 𝕜) := by
      rw [gram_scale]
    have hnn : ((noise : ℝ) : 𝕜) ≠ 0 := RCLike.ofReal_ne_zero.mpr hn.ne'
    have hGA : gram C (fun _ => 1) = ((noise : ℝ) : 𝕜) • (A - diagonal fun f : {f // P f} => (alpha f : 𝕜)) := by
      rw [hAG, add_sub_cancel_right, smul_smul, ← RCLike.ofReal_mul, mul_one_div_cancel hn.ne', RCLike.ofReal_one, one_smul]
    have htrace : RCLike.re (A⁻¹ * gram C fun _ => 1).trace
        = noise * ∑ f : {f // P f}, (1 - alpha f * RCLike.re (A⁻¹ f f)) := by
      rw [hGA, Matrix.mul_smul, trace_smul, smul_eq_mul, RCLike.re_ofReal_mul, Matrix.mul_sub, nonsing_inv_mul _ hu, trace_sub,
        map_sub, trace, trace, map_sum, map_sum, ← Finset.sum_sub_distrib]
      congr 1
      refine Finset.sum_congr rfl fun f _ => ?_
      rw [diag_apply, diag_apply, one_apply_eq, mul_diagonal, RCLike.one_re, mul_comm, RCLike.re_ofReal_mul]
    have hpred' : ∀ i, pred i = (C *ᵥ x) i := by
      intro i
      rw [hpred i]
      have hw := weights_active pinvh false (1 / noise) (gram K fun _ => 1) (rhs K data) alpha (by rw [hblock]; exact hApos noise hn)
      have hw0 : ∀ f, ¬ P f → weights pinvh false (1 / noise) (gram K fun _ => 1) (rhs K data) alpha f = 0 := by
        intro f hf
        exact dif_neg hf
      have hwx : (fun f : {f // P f} => weights pinvh false (1 / noise) (gram K fun _ => 1) (rhs K data) alpha f) = x := by
        rw [hw, hblock, rhs_cols, ← mulVec_smul, rhs_scale, hx]
        simp only [bt, mul_one, hC]
        rfl
      have hsplit : ∑ f, K i f * weights pinvh false (1 / noise) (gram K fun _ => 1) (rhs K data) alpha f
          = ∑ f : {f // P f}, K i f * weights pinvh false (1 / noise) (gram K fun _ => 1) (rhs K data) alpha f := by
        rw [← Finset.sum_subtype (Finset.univ.filter P) (by simp)
          (fun f => K i f * weights pinvh false (1 / noise) (gram K fun _ => 1) (rhs K data) alpha f)]
        rw [Finset.sum_filter]
        refine Finset.sum_congr rfl fun f _ => ?_
        split_ifs with hf
        · rfl
        · rw [hw0 f hf, mul_zero]
      rw [hsplit, mulVec, dotProduct]
      refine Finset.sum_congr rfl fun f _ => ?_
      rw [← congrFun hwx f]
      rfl
    have hres := residual_sq C data x
    have hdiag : ∀ f : {f // P f}, diagSinv chol pinvh A f = RCLike.re (A⁻¹ f f) := fun f => diagSinv_eq (hApos noise hn) (hchol _) f
    have e1 : RCLike.re (A⁻¹ * gram C fun _ => -(1 / noise ^ 2)).trace = -(1 / noise ^ 2) * RCLike.re (A⁻¹ * gram C fun _ => 1).trace := by
      rw [hG, Matrix.mul_smul, trace_smul, smul_eq_mul, RCLike.re_ofReal_mul]
    have e2 : RCLike.re (star x ⬝ᵥ rhs C fun i => ((-(1 / noise ^ 2) : ℝ) : 𝕜) * data i)
        = -(1 / noise ^ 2) * RCLike.re (star x ⬝ᵥ rhs C data) := by
      rw [← rhs_scale, dotProduct_smul, smul_eq_mul, RCLike.re_ofReal_mul]
    have e3 : RCLike.re (star x ⬝ᵥ (gram C fun _ => -(1 / noise ^ 2)) *ᵥ x)
        = -(1 / noise ^ 2) * RCLike.re (star x ⬝ᵥ (gram C fun _ => 1) *ᵥ x) := by
      rw [hG, smul_mulVec, dotProduct_smul, smul_eq_mul, RCLike.re_ofReal_mul]
    have e4 : logSpaceNoiseDer chol pinvh cplx noise K none data pred alpha
        = -(noise ^ 2) * ((if cplx then 1 else 1 / 2) * (-(∑ f : {f // P f}, (1 - alpha f * RCLike.re (A⁻¹ f f))) * noise
            + (Fintype.card ι : ℝ) * noise - ∑ i, ‖data i - (C *ᵥ x) i‖ ^ 2)) := by
      have hl : logSpaceNoiseDer chol pinvh cplx noise K none data pred alpha
          = -(noise ^ 2) * (if cplx then
            -(∑ f : {f // P f}, (1 - alpha f * diagSinv chol pinvh (block (regularised false (1 / noise) (gram K fun _ => 1) alpha) P) f))
              * noise + (Fintype.card ι : ℝ) * noise - ∑ i, 1 * ‖data i - pred i‖ ^ 2 else
            (-(∑ f : {f // P f}, (1 - alpha f * diagSinv chol pinvh (block (regularised false (1 / noise) (gram K fun _ => 1) alpha) P) f))
              * noise + (Fintype.card ι : ℝ) * noise - ∑ i, 1 * ‖data i - pred i‖ ^ 2) * (1 / 2)) := rfl
      rw [hl]
      simp only [hblock, hdiag, hpred', one_mul]
      cases cplx
      · simp only [Bool.false_eq_true, if_false]
        ring
      · simp only [if_true]
        ring
    rw [e4, e1, e2, e3, htrace, hres]
    field_simp
    ring

/-- C84 is false already without features: one datum with the value 0 and noise 2. -/
theorem C84_fails (hchol : CholeskySpec chol) :
    ∃ (K : Matrix Unit Unit 𝕜) (data pred : Unit → 𝕜),
      ¬ HasDerivAt (fun t => logSpaceLogMargLik chol pinvh false t K none data fun _ => 1)
        (logSpaceNoiseDer chol pinvh false 2 K none data pred fun _ => 1) 2 := by
  refine ⟨0, 0, 0, fun h => ?_⟩
  have h1 := C84_partial (𝕜 := 𝕜) (ι := Unit) (n := Unit) pinvh hchol false 2 two_pos 0 0 0 (fun _ => 1) (fun _ => one_pos) (by simp)
  have h2 := h.unique h1
  classical
  have hact : ∀ f : Unit, ¬ Active (gram (0 : Matrix Unit Unit 𝕜) (logWeights none)) (fun _ => 1) f := by
    intro f hf
    have := hf.2
    simp [Valid, gram] at this
    norm_num at this
  have : IsEmpty {f : Unit // Active (gram (0 : Matrix Unit Unit 𝕜) (logWeights none)) (fun _ => 1) f} := ⟨fun f => hact f.1 f.2⟩
  have h3 : logSpaceNoiseDer chol pinvh false 2 (0 : Matrix Unit Unit 𝕜) none 0 0 (fun _ => 1) = -4 := by
    simp [logSpaceNoiseDer, dataCount]
    norm_num
  rw [h3] at h2
  norm_num at h2

/-- The hypotheses of `C84_partial` hold for one datum, one feature and the prediction of the fit, where the feature takes part. -/
example : ∃ chol : {m : Type} → [Fintype m] → Matrix m m ℝ → Option (Matrix m m ℝ), CholeskySpec chol ∧
    ∃ pred : Unit → ℝ,
      HasDerivAt (fun t => logSpaceLogMargLik (fun {_} => chol) (fun A => A) false t (1 : Matrix Unit Unit ℝ) none (fun _ => 3) fun _ => 2)
        (logSpaceNoiseDer (fun {_} => chol) (fun A => A) false (1 / 2) (1 : Matrix Unit Unit ℝ) none (fun _ => 3) pred (fun _ => 2)
          / (1 / 2) ^ 4) (1 / 2) ∧ Active (gram (1 : Matrix Unit Unit ℝ) fun _ => 1) (fun _ => 2) () := by
  obtain ⟨chol, hchol⟩ := exists_choleskySpec (𝕜 := ℝ)
  refine ⟨chol, hchol, _, C84_partial (fun A => A) hchol false (1 / 2) (by norm_num) 1 (fun _ => 3) _ (fun _ => 2) (by simp)
    (fun i => rfl), ?_⟩
  constructor
  · norm_num
  · simp [Valid, gram]
    norm_num

end Main

end GPSKet.MargLik
