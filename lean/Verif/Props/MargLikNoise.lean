import Verif.Props.MargLikAlpha
import Verif.Lemmas.MatrixDeriv
import Mathlib.Analysis.SpecialFunctions.Sqrt

/-! # C83: the reported derivative of the evidence with respect to the noise -/

namespace GPSKet.MargLik

open Matrix GPSKet.SupervisedFit
open scoped ComplexOrder

variable {𝕜 : Type} [RCLike 𝕜] {ι n : Type} [Fintype ι] [Fintype n] [DecidableEq n]

/-- The estimate of the noise makes sense for all data: nonzero amplitudes (predictions) and positive reweightings.  The estimate of
the noise from the predictions ignores the reweightings but its derivative does not (`C83_reweighted_fails`), so that they are
restricted to 1 there. -/
def GoodMode : NoiseMode ι → Prop
  | .target => True
  | .reweighted r => ∀ i, 0 < r i
  | .iterative pred => ∀ i, pred i ≠ 0
  | .iterativeReweighted pred r => ∀ i, pred i ≠ 0 ∧ r i = 1

theorem noiseWeight_pos (noise : ℝ) (hn : 0 < noise) (mode : NoiseMode ι) (amps : ι → 𝕜) (h0 : ∀ i, amps i ≠ 0)
    (hm : GoodMode mode) (i : ι) : 0 < noiseWeight noise mode amps i := by
  have h := C74_weights noise hn amps i
  cases mode with
  | target => exact h.1 (h0 i)
  | reweighted r => exact h.2.2.1 r (hm i) (h0 i)
  | iterative pred => exact h.2.2.2 pred (hm i)
  | iterativeReweighted pred r => exact h.2.2.2 pred (hm i).1

theorem hasDerivAt_log_weight (noise a : ℝ) (hn : 0 < noise) (ha : 0 < a) :
    HasDerivAt (fun t => 1 / Real.log (1 + t / a)) (-((1 / Real.log (1 + noise / a)) ^ 2 * (1 / (a * (1 + noise / a))))) noise := by
  have hq : 0 < noise / a := div_pos hn ha
  have hl : 0 < Real.log (1 + noise / a) := Real.log_pos (by linarith)
  have h1 : HasDerivAt (fun t : ℝ => 1 + t / a) (1 / a) noise := ((hasDerivAt_id noise).div_const a).const_add 1
  have h2 := h1.log (by linarith : (1 : ℝ) + noise / a ≠ 0)
  have h3 := h2.inv hl.ne'
  refine (h3.congr_of_eventuallyEq (Filter.Eventually.of_forall fun t => one_div _)).congr_deriv ?_
  have : (1 : ℝ) + noise / a ≠ 0 := by linarith
  field_simp

theorem hasDerivAt_iter_weight (noise a : ℝ) (hn : 0 < noise) (ha : 0 < a) :
    HasDerivAt (fun t => 1 / (Real.log (1 + Real.sqrt (4 * t / a + 1)) + Real.log 0.5))
      (-((1 / (Real.log (1 + Real.sqrt (4 * noise / a + 1)) + Real.log 0.5)) ^ 2
        * (1 / (Real.sqrt (4 * noise / a + 1) + 1) * 2 / (a * Real.sqrt (4 * noise / a + 1))))) noise := by
  have hq : 0 < 4 * noise / a := by positivity
  set r := Real.sqrt (4 * noise / a + 1) with hr
  have hr1 : 1 < r := by
    rw [hr, Real.lt_sqrt zero_le_one]
    linarith
  have hl : 0 < Real.log (1 + r) + Real.log 0.5 := by
    rw [← Real.log_mul (by linarith) (by norm_num)]
    apply Real.log_pos
    linarith
  have h1 : HasDerivAt (fun t : ℝ => 4 * t / a + 1) (4 / a) noise := by
    have := (((hasDerivAt_id noise).const_mul 4).div_const a).add_const 1
    simpa using this
  have h2 := h1.sqrt (by positivity : 4 * noise / a + 1 ≠ 0)
  have h3 := (h2.const_add 1).log (by rw [← hr]; linarith)
  have h4 := (h3.add_const (Real.log 0.5)).inv (by rw [← hr]; exact hl.ne')
  refine (h4.congr_of_eventuallyEq (Filter.Eventually.of_forall fun t => one_div _)).congr_deriv ?_
  rw [← hr]
  have hr0 : r ≠ 0 := by linarith
  have hr2 : 1 + r ≠ 0 := by linarith
  have hr3 : r + 1 ≠ 0 := by linarith
  have := hl.ne'
  field_simp
  ring

/-- `del_S` is the derivative of the variance: the derivative of the precision. -/
theorem hasDerivAt_noiseWeight (noise : ℝ) (hn : 0 < noise) (mode : NoiseMode ι) (amps : ι → 𝕜) (h0 : ∀ i, amps i ≠ 0)
    (hm : GoodMode mode) (i : ι) :
    HasDerivAt (fun t => noiseWeight t mode amps i) (-(noiseWeight noise mode amps i ^ 2 * delS noise mode amps i)) noise := by
  have hev : ∀ᶠ t in nhds noise, t ≠ 0 := by
    filter_upwards [eventually_gt_nhds hn] with t ht using ht.ne'
  have ha : 0 < ‖amps i‖ ^ 2 := by have := norm_pos_iff.mpr (h0 i); positivity
  cases mode with
  | target =>
    have h := hasDerivAt_log_weight noise (‖amps i‖ ^ 2) hn ha
    have e : noiseWeight noise .target amps i = 1 / Real.log (1 + noise / ‖amps i‖ ^ 2) := by
      simp [noiseWeight, hn.ne', h0 i]
    rw [e]
    refine h.congr_of_eventuallyEq ?_
    filter_upwards [hev] with t ht
    simp [noiseWeight, ht, h0 i]
  | reweighted r =>
    have h := hasDerivAt_log_weight noise (‖amps i‖ ^ 2 / r i) hn (div_pos ha (hm i))
    have e : noiseWeight noise (.reweighted r) amps i = 1 / Real.log (1 + noise / (‖amps i‖ ^ 2 / r i)) := by
      simp [noiseWeight, hn.ne', h0 i]
    rw [e]
    refine h.congr_of_eventuallyEq ?_
    filter_upwards [hev] with t ht
    simp [noiseWeight, ht, h0 i]
  | iterative pred =>
    have hp : 0 < ‖pred i‖ ^ 2 := by have := norm_pos_iff.mpr (hm i); positivity
    have h := hasDerivAt_iter_weight noise (‖pred i‖ ^ 2) hn hp
    have e : noiseWeight noise (.iterative pred) amps i
        = 1 / (Real.log (1 + Real.sqrt (4 * noise / ‖pred i‖ ^ 2 + 1)) + Real.log 0.5) := by
      simp [noiseWeight, hn.ne']
    rw [e]
    refine h.congr_of_eventuallyEq ?_
    filter_upwards [hev] with t ht
    simp [noiseWeight, ht]
  | iterativeReweighted pred r =>
    have hp : 0 < ‖pred i‖ ^ 2 := by have := norm_pos_iff.mpr (hm i).1; positivity
    have h := hasDerivAt_iter_weight noise (‖pred i‖ ^ 2) hn hp
    have e : noiseWeight noise (.iterativeReweighted pred r) amps i
        = 1 / (Real.log (1 + Real.sqrt (4 * noise / ‖pred i‖ ^ 2 + 1)) + Real.log 0.5) := by
      simp [noiseWeight, hn.ne']
    have e2 : delS noise (.iterativeReweighted pred r) amps i
        = 1 / (Real.sqrt (4 * noise / ‖pred i‖ ^ 2 + 1) + 1) * 2 / (‖pred i‖ ^ 2 * Real.sqrt (4 * noise / ‖pred i‖ ^ 2 + 1)) := by
      simp only [delS, (hm i).2, div_one]
    rw [e, e2]
    refine h.congr_of_eventuallyEq ?_
    filter_upwards [hev] with t ht
    simp [noiseWeight, ht]

theorem delS_pos (noise : ℝ) (hn : 0 < noise) (mode : NoiseMode ι) (amps : ι → 𝕜) (h0 : ∀ i, amps i ≠ 0)
    (hm : GoodMode mode) (i : ι) : 0 < delS noise mode amps i := by
  have ha : 0 < ‖amps i‖ := norm_pos_iff.mpr (h0 i)
  cases mode with
  | target => simp only [delS]; positivity
  | reweighted r => have hr : 0 < r i := hm i; simp only [delS]; positivity
  | iterative pred => have hr : 0 < ‖pred i‖ := norm_pos_iff.mpr (hm i); simp only [delS]; positivity
  | iterativeReweighted pred r =>
    have hr : 0 < ‖pred i‖ := norm_pos_iff.mpr (hm i).1
    simp only [delS, (hm i).2]
    positivity

/-- The weightings are positive. -/
def GoodWeightings (weightings : Option (ι → ℝ)) : Prop := ∀ v, weightings = some v → ∀ i, 0 < v i

theorem expWeights_pos (noise : ℝ) (hn : 0 < noise) (mode : NoiseMode ι) (weightings : Option (ι → ℝ)) (hv : GoodWeightings weightings)
    (amps : ι → 𝕜) (h0 : ∀ i, amps i ≠ 0) (hm : GoodMode mode) (i : ι) : 0 < expWeights noise mode weightings amps i := by
  have h := noiseWeight_pos noise hn mode amps h0 hm i
  cases weightings with
  | none => exact h
  | some v => exact mul_pos h (hv v rfl i)

/-- `Delta_S` is the derivative of the precisions. -/
theorem hasDerivAt_expWeights (noise : ℝ) (hn : 0 < noise) (mode : NoiseMode ι) (weightings : Option (ι → ℝ))
    (hv : GoodWeightings weightings) (amps : ι → 𝕜) (h0 : ∀ i, amps i ≠ 0) (hm : GoodMode mode) (i : ι) :
    HasDerivAt (fun t => expWeights t mode weightings amps i) (deltaS noise mode weightings amps i) noise := by
  have h := hasDerivAt_noiseWeight noise hn mode amps h0 hm i
  cases weightings with
  | none => exact h
  | some v =>
    have hvi : v i ≠ 0 := (hv v rfl i).ne'
    refine (h.mul_const (v i)).congr_deriv ?_
    simp only [deltaS, expWeights]
    field_simp

theorem deltaS_neg (noise : ℝ) (hn : 0 < noise) (mode : NoiseMode ι) (weightings : Option (ι → ℝ)) (hv : GoodWeightings weightings)
    (amps : ι → 𝕜) (h0 : ∀ i, amps i ≠ 0) (hm : GoodMode mode) (i : ι) : deltaS noise mode weightings amps i < 0 := by
  have h1 := expWeights_pos noise hn mode weightings hv amps h0 hm i
  have h2 := delS_pos noise hn mode amps h0 hm i
  cases weightings with
  | none =>
    simp only [deltaS]
    have := mul_pos (pow_pos h1 2) h2
    linarith
  | some v =>
    simp only [deltaS]
    exact div_neg_of_neg_of_pos (neg_neg_of_pos (mul_pos (pow_pos h1 2) h2)) (hv v rfl i)

/-- The data-dependent part of the evidence as a function of the noise. -/
theorem expDataTerm_eq (cplx : Bool) (weightings : Option (ι → ℝ)) (hv : GoodWeightings weightings) (noise : ℝ) (mode : NoiseMode ι)
    (amps data : ι → 𝕜) (h0 : ∀ i, amps i ≠ 0) :
    let S := expWeights noise mode weightings amps
    expDataTerm cplx weightings S amps data
      = some (-(∑ i, (weightings.elim 1 fun v => v i) * Real.log (normConst cplx / noiseWeight noise mode amps i))
          - ∑ i, S i * ‖data i‖ ^ 2) := by
  intro S
  have hsq : ∀ i, RCLike.re (star (data i) * ((S i : 𝕜) * data i)) = S i * ‖data i‖ ^ 2 := fun i => by
    rw [mul_left_comm, RCLike.star_def, RCLike.conj_mul, ← RCLike.ofReal_pow, RCLike.re_ofReal_mul, RCLike.ofReal_re]
  cases weightings with
  | none => simp only [expDataTerm, h0, if_false, hsq, Option.elim, one_mul]; rfl
  | some v =>
    simp only [expDataTerm, h0, exists_false, if_false, hsq, Option.elim]
    congr 4
    funext i
    show v i * Real.log (_ / (noiseWeight noise mode amps i * v i / v i)) = _
    rw [mul_div_cancel_right₀ _ (hv v rfl i).ne']

theorem normConst_pos (cplx : Bool) : 0 < normConst cplx := by
  cases cplx
  · exact Real.two_pi_pos
  · exact Real.pi_pos

/-- Its derivative. -/
theorem hasDerivAt_dataTerm (cplx : Bool) (weightings : Option (ι → ℝ)) (hv : GoodWeightings weightings) (noise : ℝ) (hn : 0 < noise)
    (mode : NoiseMode ι) (amps data : ι → 𝕜) (h0 : ∀ i, amps i ≠ 0) (hm : GoodMode mode) :
    HasDerivAt (fun t => -(∑ i, (weightings.elim 1 fun v => v i) * Real.log (normConst cplx / noiseWeight t mode amps i))
          - ∑ i, expWeights t mode weightings amps i * ‖data i‖ ^ 2)
      (-(∑ i, expWeights noise mode weightings amps i * delS noise mode amps i)
        - ∑ i, deltaS noise mode weightings amps i * ‖data i‖ ^ 2) noise := by
  refine HasDerivAt.sub ?_ (HasDerivAt.fun_sum fun i _ => (hasDerivAt_expWeights noise hn mode weightings hv amps h0 hm i).mul_const _)
  refine HasDerivAt.neg (HasDerivAt.fun_sum fun i _ => ?_)
  have hpos := noiseWeight_pos noise hn mode amps h0 hm i
  have h1 := hasDerivAt_noiseWeight noise hn mode amps h0 hm i
  have h2 := ((h1.inv hpos.ne').const_mul (normConst cplx)).log (mul_pos (normConst_pos cplx) (inv_pos.mpr hpos)).ne'
  have h3 := h2.const_mul (weightings.elim 1 fun v => v i)
  refine (h3.congr_of_eventuallyEq (Filter.Eventually.of_forall fun t => ?_)).congr_deriv ?_
  · simp only [div_eq_mul_inv, Pi.inv_apply]
  have hc := (normConst_pos cplx).ne'
  have hp := hpos.ne'
  cases weightings with
  | none => simp only [Option.elim, expWeights, Pi.inv_apply]; field_simp
  | some v => simp only [Option.elim, expWeights, Pi.inv_apply]; field_simp

section Main

variable {chol : {m : Type} → [Fintype m] → Matrix m m 𝕜 → Option (Matrix m m 𝕜)}
variable (pinvh : {m : Type} → [Fintype m] → Matrix m m 𝕜 → Matrix m m 𝕜)

theorem sum_conj_eq {κ : Type} [Fintype κ] (K : Matrix ι κ 𝕜) (D : ι → ℝ) (data : ι → 𝕜) (x : κ → 𝕜) :
    RCLike.re (∑ i, star (data i) * ((D i : 𝕜) * (K *ᵥ x) i)) = RCLike.re (star x ⬝ᵥ rhs K fun i => (D i : 𝕜) * data i) := by
  have h : star x ⬝ᵥ rhs K (fun i => (D i : 𝕜) * data i) = star (∑ i, star (data i) * ((D i : 𝕜) * (K *ᵥ x) i)) := by
    rw [rhs, dotProduct_mulVec, ← star_mulVec, star_sum, dotProduct]
    refine Finset.sum_congr rfl fun i _ => ?_
    simp only [Pi.star_apply, star_mul', star_star, RCLike.star_def, RCLike.conj_ofReal, RingHomCompTriple.comp_apply, RingHom.id_apply]
    ring
  rw [h, RCLike.star_def, RCLike.conj_re]

open Classical in
/-- `log_marg_lik_noise_der` in closed form. -/
theorem expNoiseDer_eq (hchol : CholeskySpec chol) (cplx : Bool) (noise : ℝ) (mode : NoiseMode ι) (K : Matrix ι n 𝕜)
    (weightings : Option (ι → ℝ)) (amps data : ι → 𝕜) (h0 : ∀ i, amps i ≠ 0) (alpha : n → ℝ) (ha : ∀ f, 0 < alpha f)
    (S D : ι → ℝ) (hS : S = expWeights noise mode weightings amps) (hD : D = deltaS noise mode weightings amps)
    (hS0 : ∀ i, 0 ≤ S i) (P : n → Prop) (hP : Active (gram K S) alpha = P) :
    let A := gram (cols K P) (fun i => 1 * S i) + diagonal fun f : {f // P f} => (alpha f : 𝕜)
    let x := A⁻¹ *ᵥ rhs (cols K P) fun i => ((1 * S i : ℝ) : 𝕜) * data i
    expNoiseDer chol pinvh cplx noise mode K weightings amps data alpha
      = (if cplx then 1 else 1 / 2) * (RCLike.re (A⁻¹ * gram (cols K P) D).trace
        + (-(∑ i, S i * delS noise mode amps i) - ∑ i, D i * ‖data i‖ ^ 2)
        + (2 * RCLike.re (star x ⬝ᵥ rhs (cols K P) fun i => (D i : 𝕜) * data i) - RCLike.re (star x ⬝ᵥ gram (cols K P) D *ᵥ x))) := by
  subst hP
  subst hS
  subst hD
  intro A x
  have hA : block (regularised false 1 (gram K (expWeights noise mode weightings amps)) alpha) (Active (gram K (expWeights noise mode weightings amps)) alpha) = A := block_eq 1 K (expWeights noise mode weightings amps) alpha (Active (gram K (expWeights noise mode weightings amps)) alpha)
  have hpos : A.PosDef := by
    rw [← hA]
    exact posDef_block false 1 zero_le_one _ (gram_posSemidef K (expWeights noise mode weightings amps) hS0) alpha ha _
  have hw : (fun f : {f // Active (gram K (expWeights noise mode weightings amps)) alpha f} =>
      weights pinvh false 1 (gram K (expWeights noise mode weightings amps)) (rhs K (multiplicator (expWeights noise mode weightings amps) amps data)) alpha f) = x := by
    rw [weights_active pinvh false 1 (gram K (expWeights noise mode weightings amps)) _ alpha (by rw [hA]; exact hpos), hA, RCLike.ofReal_one, one_smul, rhs_cols,
      multiplicator_eq (expWeights noise mode weightings amps) amps data h0]
    simp only [x, one_mul]
  have hsq : ∀ i, star (data i) * ((deltaS noise mode weightings amps i : 𝕜) * data i) = ((deltaS noise mode weightings amps i * ‖data i‖ ^ 2 : ℝ) : 𝕜) := fun i => by
    rw [mul_left_comm, RCLike.star_def, RCLike.conj_mul]
    push_cast
    rfl
  have htr : RCLike.re (gram (cols K (Active (gram K (expWeights noise mode weightings amps)) alpha)) (deltaS noise mode weightings amps) * A⁻¹).trace
      = RCLike.re (A⁻¹ * gram (cols K (Active (gram K (expWeights noise mode weightings amps)) alpha)) (deltaS noise mode weightings amps)).trace := by rw [trace_mul_comm]
  unfold expNoiseDer
  simp only [hw, hA, matSinv_eq hpos (hchol A), block_gram, hsq]
  rw [← htr, ← sum_conj_eq (cols K (Active (gram K (expWeights noise mode weightings amps)) alpha)) (deltaS noise mode weightings amps) data x]
  have key : RCLike.re ((gram (cols K (Active (gram K (expWeights noise mode weightings amps)) alpha)) (deltaS noise mode weightings amps) * A⁻¹).trace - ∑ i, ((expWeights noise mode weightings amps i * delS noise mode amps i : ℝ) : 𝕜)
        - ∑ i, ((deltaS noise mode weightings amps i * ‖data i‖ ^ 2 : ℝ) : 𝕜) - star x ⬝ᵥ gram (cols K (Active (gram K (expWeights noise mode weightings amps)) alpha)) (deltaS noise mode weightings amps) *ᵥ x
        + 2 * ∑ i, star (data i) * ((deltaS noise mode weightings amps i : 𝕜) * (cols K (Active (gram K (expWeights noise mode weightings amps)) alpha) *ᵥ x) i))
      = RCLike.re (gram (cols K (Active (gram K (expWeights noise mode weightings amps)) alpha)) (deltaS noise mode weightings amps) * A⁻¹).trace
        + (-(∑ i, expWeights noise mode weightings amps i * delS noise mode amps i) - ∑ i, deltaS noise mode weightings amps i * ‖data i‖ ^ 2)
        + (2 * RCLike.re (∑ i, star (data i) * ((deltaS noise mode weightings amps i : 𝕜) * (cols K (Active (gram K (expWeights noise mode weightings amps)) alpha) *ᵥ x) i))
          - RCLike.re (star x ⬝ᵥ gram (cols K (Active (gram K (expWeights noise mode weightings amps)) alpha)) (deltaS noise mode weightings amps) *ᵥ x)) := by
    have h2 : ∀ z : 𝕜, RCLike.re (2 * z) = 2 * RCLike.re z := fun z => by
      have := RCLike.re_ofReal_mul (K := 𝕜) 2 z
      simpa using this
    rw [map_add, map_sub, map_sub, map_sub, h2, ← RCLike.ofReal_sum, ← RCLike.ofReal_sum, RCLike.ofReal_re, RCLike.ofReal_re]
    ring
  cases cplx
  · simp only [Bool.false_eq_true, if_false]
    rw [← key]
    rfl
  · simp only [if_true, one_mul]
    rw [← key]
    rfl

theorem continuous_occurrence (K : Matrix ι n 𝕜) (f : n) (S : ℝ → ι → ℝ) (t : ℝ) (h : ∀ i, ContinuousAt (fun s => S s i) t) :
    ContinuousAt (fun s => Spec.occurrence K (S s) f) t := by
  unfold Spec.occurrence
  exact tendsto_finsetSum _ fun i _ => (h i).mul continuousAt_const

theorem eventually_same (F : ℝ → ℝ) (t c : ℝ) (h : ContinuousAt F t) (hne : F t ≠ c) : ∀ᶠ s in nhds t, (c < F s ↔ c < F t) := by
  rcases lt_or_gt_of_ne hne with hlt | hgt
  · filter_upwards [h.eventually (gt_mem_nhds hlt)] with s hs
    exact iff_of_false (not_lt.mpr hs.le) (not_lt.mpr hlt.le)
  · filter_upwards [h.eventually (lt_mem_nhds hgt)] with s hs
    exact iff_of_true hs hgt

open Classical in
/-- The derivative of the evidence with respect to the noise, in closed form. -/
theorem hasDerivAt_noise (hchol : CholeskySpec chol) (cplx : Bool) (noise : ℝ) (hn : 0 < noise) (mode : NoiseMode ι)
    (hm : GoodMode mode) (K : Matrix ι n 𝕜) (weightings : Option (ι → ℝ)) (hv : GoodWeightings weightings) (amps data : ι → 𝕜)
    (h0 : ∀ i, amps i ≠ 0) (alpha : n → ℝ) (ha : ∀ f, 0 < alpha f) (S D : ι → ℝ)
    (hS : S = expWeights noise mode weightings amps) (hD : D = deltaS noise mode weightings amps)
    (hne : ∀ f, Spec.occurrence K S f ≠ 1e-10) (P : n → Prop) (hP : Active (gram K S) alpha = P) :
    let A := gram (cols K P) (fun i => 1 * S i) + diagonal fun f : {f // P f} => (alpha f : 𝕜)
    let x := A⁻¹ *ᵥ rhs (cols K P) fun i => ((1 * S i : ℝ) : 𝕜) * data i
    ∃ L : ℝ → ℝ, (∀ t, 0 < t → expLogMargLik chol pinvh cplx t mode K weightings amps data alpha = some (L t)) ∧
      HasDerivAt L ((if cplx then 1 else 1 / 2) * (-RCLike.re (A⁻¹ * gram (cols K P) D).trace
        + (-(∑ i, S i * delS noise mode amps i) - ∑ i, D i * ‖data i‖ ^ 2)
        + (2 * RCLike.re (star x ⬝ᵥ rhs (cols K P) fun i => (D i : 𝕜) * data i) - RCLike.re (star x ⬝ᵥ gram (cols K P) D *ᵥ x)))) noise := by
  intro A x
  have hSpos : ∀ t, 0 < t → ∀ i, 0 < expWeights t mode weightings amps i := fun t ht i =>
    expWeights_pos t ht mode weightings hv amps h0 hm i
  have hSder : ∀ i, HasDerivAt (fun t => expWeights t mode weightings amps i) (D i) noise := fun i => by
    rw [hD]; exact hasDerivAt_expWeights noise hn mode weightings hv amps h0 hm i
  let dt : ℝ → ℝ := fun t => -(∑ i, (weightings.elim 1 fun v => v i) * Real.log (normConst cplx / noiseWeight t mode amps i))
          - ∑ i, expWeights t mode weightings amps i * ‖data i‖ ^ 2
  refine ⟨fun t => evidence chol pinvh cplx false 1 (gram K (expWeights t mode weightings amps))
    (rhs K fun i => (expWeights t mode weightings amps i : 𝕜) * data i) alpha (dt t), ?_, ?_⟩
  · intro t ht
    unfold expLogMargLik
    have := expDataTerm_eq cplx weightings hv t mode amps data h0
    simp only at this ⊢
    rw [this, Option.map_some, multiplicator_eq _ _ _ h0]
  · let At : ℝ → Matrix {f // P f} {f // P f} 𝕜 := fun t =>
      gram (cols K P) (fun i => 1 * expWeights t mode weightings amps i) + diagonal fun f : {f // P f} => (alpha f : 𝕜)
    let bt : ℝ → {f // P f} → 𝕜 := fun t => rhs (cols K P) fun i => ((1 * expWeights t mode weightings amps i : ℝ) : 𝕜) * data i
    have hAt : At noise = A := by simp only [At, A, hS]
    have hbt : bt noise = rhs (cols K P) fun i => ((1 * S i : ℝ) : 𝕜) * data i := by simp only [bt, hS]
    have hP' : ∀ f, P f ↔ alpha f < 1e10 ∧ 1e-10 < Spec.occurrence K S f := by
      intro f
      rw [← hP, active_eq K S (fun i => by rw [hS]; exact (hSpos noise hn i).le)]
    have hev : ∀ᶠ t in nhds noise, ∀ f, P f ↔ alpha f < 1e10 ∧ 1e-10 < Spec.occurrence K (expWeights t mode weightings amps) f := by
      rw [Filter.eventually_all]
      intro f
      have hc := continuous_occurrence K f (fun t => expWeights t mode weightings amps) noise fun i => (hSder i).continuousAt
      have h1 := eventually_same _ noise 1e-10 hc (by have := hne f; rw [hS] at this; exact this)
      filter_upwards [h1] with t ht
      rw [ht, hP' f, hS]
    have hSc : ∀ i, HasDerivAt (fun t => ((1 * expWeights t mode weightings amps i : ℝ) : 𝕜)) (D i : 𝕜) noise := fun i => by
      have := (RCLike.ofRealCLM (K := 𝕜)).hasFDerivAt.comp_hasDerivAt noise (hSder i)
      simp only [one_mul]
      exact this
    have hAder : ∀ i j, HasDerivAt (fun t => At t i j) (gram (cols K P) D i j) noise := by
      intro i j
      simp only [At, Matrix.add_apply, gram, Matrix.mul_apply, of_apply]
      exact (HasDerivAt.fun_sum fun k _ => ((hSc k).mul_const (cols K P k j)).const_mul ((cols K P)ᴴ i k)).add_const _
    have hbder : ∀ i, HasDerivAt (fun t => bt t i) (rhs (cols K P) (fun i => (D i : 𝕜) * data i) i) noise := by
      intro i
      simp only [bt, rhs, mulVec, dotProduct]
      exact HasDerivAt.fun_sum fun k _ => ((hSc k).mul_const (data k)).const_mul ((cols K P)ᴴ i k)
    have hApos : ∀ᶠ t in nhds noise, (At t).PosDef := by
      filter_upwards [eventually_gt_nhds hn] with t ht
      have h := posDef_block false 1 zero_le_one _ (gram_posSemidef K _ fun i => (hSpos t ht i).le) alpha ha P
      rw [block_eq] at h
      exact h
    have h1 := MatrixDeriv.hasDerivAt_log_det At _ noise hAder hApos
    have h2 := MatrixDeriv.hasDerivAt_quad At _ bt _ noise hAder hbder hApos
    have h3 := hasDerivAt_dataTerm cplx weightings hv noise hn mode amps data h0 hm
    have h4 := (((h3.sub h1).add_const (∑ f : {f // P f}, Real.log (alpha f))).add h2).const_mul (if cplx then 1 else 1 / 2 : ℝ)
    refine (h4.congr_of_eventuallyEq ?_).congr_deriv ?_
    · filter_upwards [hev, eventually_gt_nhds hn] with t ht ht0
      exact evidence_closed pinvh hchol cplx 1 one_pos K _ (fun i => (hSpos t ht0 i).le) data alpha ha (dt t) P ht
    · rw [hAt, hbt, ← hS, ← hD]
      ring

/-- The trace in the reported derivative is negative as soon as a feature takes part. -/
theorem trace_neg {κ : Type} [Fintype κ] [DecidableEq κ] {A : Matrix κ κ 𝕜} (hA : A.PosDef) (K : Matrix ι κ 𝕜) (D : ι → ℝ) (hD : ∀ i, D i < 0)
    (i : ι) (f : κ) (hK : K i f ≠ 0) : RCLike.re (A⁻¹ * gram K D).trace < 0 := by
  have h1 : (A⁻¹ * gram K D).trace = ∑ i, (D i : 𝕜) * (K.row i ⬝ᵥ A⁻¹ *ᵥ star (K.row i)) := by
    have e : A⁻¹ * gram K D = (A⁻¹ * Kᴴ) * Matrix.of (fun i f => (D i : 𝕜) * K i f) := by
      rw [gram, Matrix.mul_assoc]
    rw [e, trace_mul_comm, trace]
    refine Finset.sum_congr rfl fun i _ => ?_
    simp only [diag_apply, Matrix.mul_apply, of_apply, dotProduct, mulVec, Finset.mul_sum, row, Pi.star_apply, conjTranspose_apply]
    refine Finset.sum_congr rfl fun f _ => Finset.sum_congr rfl fun g _ => ?_
    ring
  have h2 : ∀ i, 0 ≤ RCLike.re (K.row i ⬝ᵥ A⁻¹ *ᵥ star (K.row i)) := fun i => by
    have := hA.inv.posSemidef.re_dotProduct_nonneg (star (K.row i))
    rwa [star_star] at this
  have h3 : 0 < RCLike.re (K.row i ⬝ᵥ A⁻¹ *ᵥ star (K.row i)) := by
    have hne : star (K.row i) ≠ 0 := by
      intro h
      apply hK
      have := congrFun h f
      simpa using this
    have := hA.inv.re_dotProduct_pos hne
    rwa [star_star] at this
  rw [h1, map_sum]
  refine Finset.sum_neg' (fun j _ => ?_) ⟨i, Finset.mem_univ i, ?_⟩
  · rw [RCLike.re_ofReal_mul]
    exact mul_nonpos_of_nonpos_of_nonneg (hD j).le (h2 j)
  · rw [RCLike.re_ofReal_mul]
    exact mul_neg_of_neg_of_pos (hD i) h3

open Classical in
/-- C83, the exact difference: the derivative of `log_marg_lik` with respect to the noise is the reported one minus twice the
(for real parameters: minus the) trace of the inverse of the matrix of the normal equations times the derivative of this
matrix.  `P` are the features that take part. -/
theorem C83_difference_partial (hchol : CholeskySpec chol) (cplx : Bool) (noise : ℝ) (hn : 0 < noise) (mode : NoiseMode ι)
    (hm : GoodMode mode) (K : Matrix ι n 𝕜) (weightings : Option (ι → ℝ)) (hv : GoodWeightings weightings) (amps data : ι → 𝕜)
    (h0 : ∀ i, amps i ≠ 0) (alpha : n → ℝ) (ha : ∀ f, 0 < alpha f) (S D : ι → ℝ)
    (hS : S = expWeights noise mode weightings amps) (hD : D = deltaS noise mode weightings amps)
    (hne : ∀ f, Spec.occurrence K S f ≠ 1e-10) (P : n → Prop)
    (hP : ∀ f, P f ↔ alpha f < 1e10 ∧ 1e-10 < Spec.occurrence K S f) :
    let A := gram (cols K P) S + diagonal fun f : {f // P f} => (alpha f : 𝕜)
    ∃ L : ℝ → ℝ, (∀ t, 0 < t → expLogMargLik chol pinvh cplx t mode K weightings amps data alpha = some (L t)) ∧
      HasDerivAt L (expNoiseDer chol pinvh cplx noise mode K weightings amps data alpha
        - (if cplx then 2 else 1) * RCLike.re (A⁻¹ * gram (cols K P) D).trace) noise := by
  intro A
  have hS0 : ∀ i, 0 ≤ S i := fun i => by rw [hS]; exact (expWeights_pos noise hn mode weightings hv amps h0 hm i).le
  have hact : Active (gram K S) alpha = P := (active_eq K S hS0 alpha).trans (funext fun f => propext (hP f).symm)
  obtain ⟨L, h1, h2⟩ := hasDerivAt_noise pinvh hchol cplx noise hn mode hm K weightings hv amps data h0 alpha ha S D hS hD hne P hact
  refine ⟨L, h1, h2.congr_deriv ?_⟩
  have h3 := expNoiseDer_eq pinvh hchol cplx noise mode K weightings amps data h0 alpha ha S D hS hD hS0 P hact
  rw [h3]
  simp only [one_mul, A]
  cases cplx
  · simp only [Bool.false_eq_true, if_false]
    ring
  · simp only [if_true]
    ring

open Classical in
/-- C83 holds if no feature takes part. -/
theorem C83_partial (hchol : CholeskySpec chol) (cplx : Bool) (noise : ℝ) (hn : 0 < noise) (mode : NoiseMode ι)
    (hm : GoodMode mode) (K : Matrix ι n 𝕜) (weightings : Option (ι → ℝ)) (hv : GoodWeightings weightings) (amps data : ι → 𝕜)
    (h0 : ∀ i, amps i ≠ 0) (alpha : n → ℝ) (ha : ∀ f, 0 < alpha f) (S : ι → ℝ)
    (hS : S = expWeights noise mode weightings amps) (hne : ∀ f, Spec.occurrence K S f ≠ 1e-10)
    (hnone : ∀ f, alpha f < 1e10 → ¬ 1e-10 < Spec.occurrence K S f) :
    ∃ L : ℝ → ℝ, (∀ t, 0 < t → expLogMargLik chol pinvh cplx t mode K weightings amps data alpha = some (L t)) ∧
      HasDerivAt L (expNoiseDer chol pinvh cplx noise mode K weightings amps data alpha) noise := by
  obtain ⟨L, h1, h2⟩ := C83_difference_partial pinvh hchol cplx noise hn mode hm K weightings hv amps data h0 alpha ha S _ hS rfl hne
    (fun _ => False) (fun f => ⟨False.elim, fun h => hnone f h.1 h.2⟩)
  refine ⟨L, h1, h2.congr_deriv ?_⟩
  have : IsEmpty {f : n // (fun _ => False) f} := ⟨fun f => f.2⟩
  simp [trace]

open Classical in
/-- C83 is false whenever a feature takes part: the reported derivative is strictly smaller than the derivative of `log_marg_lik`. -/
theorem C83_fails (hchol : CholeskySpec chol) (cplx : Bool) (noise : ℝ) (hn : 0 < noise) (mode : NoiseMode ι)
    (hm : GoodMode mode) (K : Matrix ι n 𝕜) (weightings : Option (ι → ℝ)) (hv : GoodWeightings weightings) (amps data : ι → 𝕜)
    (h0 : ∀ i, amps i ≠ 0) (alpha : n → ℝ) (ha : ∀ f, 0 < alpha f) (S : ι → ℝ)
    (hS : S = expWeights noise mode weightings amps) (hne : ∀ f, Spec.occurrence K S f ≠ 1e-10)
    (f : n) (h1 : alpha f < 1e10) (h2 : 1e-10 < Spec.occurrence K S f) :
    ∃ (L : ℝ → ℝ) (der : ℝ), (∀ t, 0 < t → expLogMargLik chol pinvh cplx t mode K weightings amps data alpha = some (L t)) ∧
      HasDerivAt L der noise ∧ expNoiseDer chol pinvh cplx noise mode K weightings amps data alpha < der := by
  obtain ⟨P, hP⟩ : ∃ P : n → Prop, ∀ f, P f ↔ alpha f < 1e10 ∧ 1e-10 < Spec.occurrence K S f := ⟨_, fun f => Iff.rfl⟩
  obtain ⟨L, h3, h4⟩ := C83_difference_partial pinvh hchol cplx noise hn mode hm K weightings hv amps data h0 alpha ha S _ hS rfl hne P hP
  refine ⟨L, _, h3, h4, ?_⟩
  have hS0 : ∀ i, 0 ≤ S i := fun i => by rw [hS]; exact (expWeights_pos noise hn mode weightings hv amps h0 hm i).le
  have hA : (gram (cols K P) S + diagonal fun f : {f // P f} => (alpha f : 𝕜)).PosDef := by
    have h := posDef_block false 1 zero_le_one _ (gram_posSemidef K S hS0) alpha ha P
    rw [block_eq] at h
    simpa only [one_mul] using h
  have hex : ∃ i, K i f ≠ 0 := by
    by_contra hno
    push Not at hno
    have : Spec.occurrence K S f = 0 := by simp [Spec.occurrence, hno]
    rw [this] at h2
    norm_num at h2
  obtain ⟨i, hi⟩ := hex
  have htr := trace_neg hA (cols K P) (deltaS noise mode weightings amps)
    (fun i => deltaS_neg noise hn mode weightings hv amps h0 hm i) i ⟨f, (hP f).mpr ⟨h1, h2⟩⟩ hi
  have hk : (0 : ℝ) < if cplx then 2 else 1 := by cases cplx <;> norm_num
  have := mul_neg_of_pos_of_neg hk htr
  linarith

end Main

/-- The hypotheses of `C83_fails` are met: one datum, one feature. -/
example : ∃ chol : {m : Type} → [Fintype m] → Matrix m m ℝ → Option (Matrix m m ℝ), CholeskySpec (fun {_} => chol) ∧
    ∃ (L : ℝ → ℝ) (der : ℝ),
      (∀ t, 0 < t → expLogMargLik (fun {_} => chol) (fun A => A) false t .target (1 : Matrix Unit Unit ℝ) none (fun _ => 1) (fun _ => 0)
        (fun _ => 1) = some (L t)) ∧
      HasDerivAt L der 1 ∧
      expNoiseDer (fun {_} => chol) (fun A => A) false 1 .target (1 : Matrix Unit Unit ℝ) none (fun _ => 1) (fun _ => 0) (fun _ => 1)
        < der := by
  obtain ⟨chol, hchol⟩ := exists_choleskySpec (𝕜 := ℝ)
  refine ⟨chol, hchol, ?_⟩
  have hl : 0 < Real.log 2 := Real.log_pos (by norm_num)
  have hl1 : Real.log 2 < 1 := by
    have := Real.log_lt_sub_one_of_pos (x := 2) (by norm_num) (by norm_num)
    linarith
  have h1 : 1 < 1 / Real.log 2 := by
    rw [lt_div_iff₀ hl]
    linarith
  have hocc : Spec.occurrence (1 : Matrix Unit Unit ℝ) (expWeights 1 .target none fun _ : Unit => (1 : ℝ)) () = 1 / Real.log 2 := by
    simp [Spec.occurrence, expWeights, noiseWeight]
    norm_num
  refine C83_fails (fun A => A) hchol false 1 one_pos .target trivial 1 none (by simp [GoodWeightings]) (fun _ => 1) (fun _ => 0) (by simp)
    (fun _ => 1) (by simp) _ rfl ?_ () (by norm_num) ?_
  · intro f
    rw [hocc]
    intro h
    rw [h] at h1
    norm_num at h1
  · rw [hocc]
    norm_num at h1 ⊢
    linarith

end GPSKet.MargLik
