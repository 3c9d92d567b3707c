import Verif.Props.MargLikNoiseLog

/-! # C83 and C84: the derivatives with respect to the noise with `complex_expand`, weightings, and both options for the noise -/

namespace GPSKet.MargLik

open Matrix GPSKet.SupervisedFit
open scoped ComplexOrder

variable {𝕜 : Type} [RCLike 𝕜] {ι n : Type} [Fintype ι] [Fintype n] [DecidableEq n]

theorem posDef_gram_diag {κ : Type} [Fintype κ] [DecidableEq κ] (C : Matrix ι κ 𝕜) (S : ι → ℝ) (hS : ∀ i, 0 ≤ S i) (a : κ → ℝ)
    (ha : ∀ f, 0 < a f) : (gram C S + diagonal fun f => (a f : 𝕜)).PosDef := by
  refine PosDef.posSemidef_add (gram_posSemidef C S hS) ?_
  exact PosDef.diagonal fun f => RCLike.ofReal_pos.mpr (ha f)

/-- The derivatives of the two parts of the evidence that depend on the features, as the precisions of the data change. -/
theorem hasDerivAt_parts {κ : Type} [Fintype κ] [DecidableEq κ] (C : Matrix ι κ 𝕜) (S : ℝ → ι → ℝ) (D : ι → ℝ) (t₀ : ℝ)
    (hder : ∀ i, HasDerivAt (fun t => S t i) (D i) t₀) (hS : ∀ᶠ t in nhds t₀, ∀ i, 0 ≤ S t i) (data : ι → 𝕜) (a : κ → ℝ)
    (ha : ∀ f, 0 < a f) :
    let A : ℝ → Matrix κ κ 𝕜 := fun t => gram C (S t) + diagonal fun f => (a f : 𝕜)
    let b : ℝ → κ → 𝕜 := fun t => rhs C fun i => (S t i : 𝕜) * data i
    let x := (A t₀)⁻¹ *ᵥ b t₀
    HasDerivAt (fun t => Real.log ‖(A t).det‖) (RCLike.re ((A t₀)⁻¹ * gram C D).trace) t₀ ∧
    HasDerivAt (fun t => RCLike.re (star (b t) ⬝ᵥ (A t)⁻¹ *ᵥ b t))
      (2 * RCLike.re (star x ⬝ᵥ rhs C fun i => (D i : 𝕜) * data i) - RCLike.re (star x ⬝ᵥ gram C D *ᵥ x)) t₀ := by
  intro A b x
  have hSc : ∀ i, HasDerivAt (fun t => ((S t i : ℝ) : 𝕜)) (D i : 𝕜) t₀ := fun i =>
    (RCLike.ofRealCLM (K := 𝕜)).hasFDerivAt.comp_hasDerivAt t₀ (hder i)
  have hAder : ∀ i j, HasDerivAt (fun t => A t i j) (gram C D i j) t₀ := by
    intro i j
    simp only [A, Matrix.add_apply, gram, Matrix.mul_apply, of_apply]
    exact (HasDerivAt.fun_sum fun k _ => ((hSc k).mul_const (C k j)).const_mul (Cᴴ i k)).add_const _
  have hbder : ∀ i, HasDerivAt (fun t => b t i) (rhs C (fun i => (D i : 𝕜) * data i) i) t₀ := by
    intro i
    simp only [b, rhs, mulVec, dotProduct]
    exact HasDerivAt.fun_sum fun k _ => ((hSc k).mul_const (data k)).const_mul (Cᴴ i k)
  have hApos : ∀ᶠ t in nhds t₀, (A t).PosDef := by
    filter_upwards [hS] with t ht using posDef_gram_diag C (S t) ht a ha
  exact ⟨MatrixDeriv.hasDerivAt_log_det A _ t₀ hAder hApos, MatrixDeriv.hasDerivAt_quad A _ b _ t₀ hAder hbder hApos⟩

/-- The weighted squares of the residuals. -/
theorem residual_sq_weighted {κ : Type} [Fintype κ] (K : Matrix ι κ 𝕜) (S : ι → ℝ) (data : ι → 𝕜) (x : κ → 𝕜) :
    ∑ i, S i * ‖data i - (K *ᵥ x) i‖ ^ 2
      = (∑ i, S i * ‖data i‖ ^ 2) - 2 * RCLike.re (star x ⬝ᵥ rhs K fun i => (S i : 𝕜) * data i)
        + RCLike.re (star x ⬝ᵥ gram K S *ᵥ x) := by
  have h1 : star x ⬝ᵥ rhs K (fun i => (S i : 𝕜) * data i) = ∑ i, star ((K *ᵥ x) i) * ((S i : 𝕜) * data i) := by
    rw [rhs, dotProduct_mulVec, ← star_mulVec, dotProduct]
    rfl
  have h2 : star x ⬝ᵥ gram K S *ᵥ x = ∑ i, star ((K *ᵥ x) i) * ((S i : 𝕜) * (K *ᵥ x) i) := by
    rw [gram, ← mulVec_mulVec, dotProduct_mulVec, ← star_mulVec, dotProduct]
    refine Finset.sum_congr rfl fun i _ => ?_
    simp only [Pi.star_apply, mulVec, dotProduct, of_apply, Finset.mul_sum, mul_assoc]
  rw [h1, h2, map_sum, map_sum, Finset.mul_sum, ← Finset.sum_sub_distrib, ← Finset.sum_add_distrib]
  refine Finset.sum_congr rfl fun i _ => ?_
  have h3 := norm_sq_add (𝕜 := 𝕜) (data i) (-(K *ᵥ x) i)
  rw [norm_neg, ← sub_eq_add_neg] at h3
  have h4 : RCLike.re (star ((K *ᵥ x) i) * ((S i : 𝕜) * (K *ᵥ x) i)) = S i * ‖(K *ᵥ x) i‖ ^ 2 := by
    rw [mul_left_comm, RCLike.re_ofReal_mul, RCLike.star_def, RCLike.conj_mul, ← RCLike.ofReal_pow, RCLike.ofReal_re]
  have h5 : RCLike.re (star ((K *ᵥ x) i) * ((S i : 𝕜) * data i)) = S i * RCLike.re (star ((K *ᵥ x) i) * data i) := by
    rw [mul_left_comm, RCLike.re_ofReal_mul]
  rw [h4, h5, h3, star_neg, neg_mul, map_neg]
  ring

section Expand

variable {chol : {m : Type} → [Fintype m] → Matrix m m ℝ → Option (Matrix m m ℝ)}
variable (pinvh : {m : Type} → [Fintype m] → Matrix m m ℝ → Matrix m m ℝ)

omit [Fintype ι] in
theorem expandVec_mul (S : ι → ℝ) (y : ι → ℂ) :
    expandVec (fun i => (S i : ℂ) * y i) = fun i => (Sum.elim S S : ι ⊕ ι → ℝ) i * expandVec y i := by
  funext i
  rcases i with i | i <;> simp [expandVec]

open Classical in
/-- The matrix of the normal equations with `complex_expand`. -/
theorem block_half (beta : ℝ) (K : Matrix ι n ℂ) (S : ι → ℝ) (alpha : n ⊕ n → ℝ) (P : n ⊕ n → Prop) :
    block (regularised true beta (expandMat (gram K S)) alpha) P
      = gram (cols (realify K) P) (fun i => beta * (Sum.elim S S : ι ⊕ ι → ℝ) i) + diagonal fun f : {f // P f} => alpha f / 2 := by
  rw [block_regularised, expand_gram, block_gram, gram_scale]
  simp

open Classical in
/-- `evidence` with `complex_expand` in closed form. -/
theorem evidence_half_closed (hchol : CholeskySpec chol) (beta : ℝ) (hb : 0 < beta) (K : Matrix ι n ℂ) (S : ι → ℝ)
    (hS : ∀ i, 0 ≤ S i) (y : ι → ℂ) (alpha : n ⊕ n → ℝ) (ha : ∀ f, 0 < alpha f) (d : ℝ) (P : n ⊕ n → Prop)
    (hP : ∀ f, P f ↔ alpha f < 1e10 ∧ 1e-10 < Spec.occurrence K S (Sum.elim id id f)) :
    let A := gram (cols (realify K) P) (fun i => beta * (Sum.elim S S : ι ⊕ ι → ℝ) i) + diagonal fun f : {f // P f} => alpha f / 2
    let b := rhs (cols (realify K) P) fun i => beta * (Sum.elim S S : ι ⊕ ι → ℝ) i * expandVec y i
    evidence chol pinvh true true beta (expandMat (gram K S)) (expandVec (rhs K fun i => (S i : ℂ) * y i)) alpha d
      = d - 1 / 2 * Real.log ‖A.det‖ + 1 / 2 * (∑ f : {f // P f}, Real.log (alpha f / 2)) + RCLike.re (star b ⬝ᵥ A⁻¹ *ᵥ b) := by
  intro A b
  have hact : Active (expandMat (gram K S)) alpha = P :=
    (active_expand K S hS alpha).trans (funext fun f => propext (hP f).symm)
  have hpos : (block (regularised true beta (expandMat (gram K S)) alpha) P).PosDef :=
    posDef_block true beta hb.le _ (posSemidef_expand K S hS) alpha ha P
  rw [evidence_half pinvh hchol beta (expandMat (gram K S)) _ alpha ha d P hact hpos, sq_quad, block_half, expand_rhs, expandVec_mul,
    rhs_cols, rhs_scale]
  have hbe : rhs (cols (realify K) P) (fun i => (beta : ℝ) * ((Sum.elim S S : ι ⊕ ι → ℝ) i * expandVec y i)) = b := by
    show _ = rhs (cols (realify K) P) _
    congr 1
    funext i
    ring
  have hbe' := hbe
  simp only [RCLike.ofReal_real_eq_id, id] at hbe' ⊢
  rw [hbe']

theorem sum_realify (f : ι → ℝ) (D : ι → ℝ) (y : ι → ℂ) (h : ∀ i, f i = D i * ‖y i‖ ^ 2) :
    ∑ i, f i = ∑ i, (Sum.elim D D : ι ⊕ ι → ℝ) i * ‖expandVec y i‖ ^ 2 := by
  rw [Fintype.sum_sum_type, ← Finset.sum_add_distrib]
  refine Finset.sum_congr rfl fun i _ => ?_
  rw [h, ← Complex.normSq_eq_norm_sq, Complex.normSq_apply]
  simp only [expandVec, Sum.elim_inl, Sum.elim_inr, Real.norm_eq_abs, sq_abs]
  ring

open Classical Evidence in
theorem cross_expand (K : Matrix ι n ℂ) (D : ι → ℝ) (data : ι → ℂ) (P : n ⊕ n → Prop) (w : {f // P f} → ℝ) :
    (∑ i, star (data i) * ((D i : ℂ) * ((cols (twice K) P) *ᵥ fun f => ((w f : ℝ) : ℂ)) i)).re
      = w ⬝ᵥ rhs (cols (realify K) P) fun i => (Sum.elim D D : ι ⊕ ι → ℝ) i * expandVec data i := by
  have h := sum_conj_eq (𝕜 := ℂ) (cols (twice K) P) D data fun f => ((w f : ℝ) : ℂ)
  have h' : (∑ i, star (data i) * ((D i : ℂ) * ((cols (twice K) P) *ᵥ fun f => ((w f : ℝ) : ℂ)) i)).re
      = (star (fun f => ((w f : ℝ) : ℂ)) ⬝ᵥ rhs (cols (twice K) P) fun i => (D i : ℂ) * data i).re := h
  rw [h', ← rhs_cols, ← rhs_cols, dotProduct, dotProduct, Complex.re_sum]
  refine Finset.sum_congr rfl fun f _ => ?_
  have e := congrFun (rhsRe_twice K fun i => (D i : ℂ) * data i) f.1
  have e2 := congrFun (expand_rhs K fun i => (D i : ℂ) * data i) f.1
  rw [expandVec_mul] at e2
  rw [← e2, ← e]
  simp

open Classical in
/-- `log_marg_lik_noise_der` with `complex_expand` in closed form. -/
theorem expNoiseDerExpand_eq (hchol : CholeskySpec chol) (noise : ℝ) (mode : NoiseMode ι) (K : Matrix ι n ℂ)
    (weightings : Option (ι → ℝ)) (amps data : ι → ℂ) (h0 : ∀ i, amps i ≠ 0) (alpha : n ⊕ n → ℝ) (ha : ∀ f, 0 < alpha f)
    (S D : ι → ℝ) (hS : S = expWeights noise mode weightings amps) (hD : D = deltaS noise mode weightings amps)
    (hS0 : ∀ i, 0 ≤ S i) (P : n ⊕ n → Prop) (hP : Active (expandMat (gram K S)) alpha = P) :
    let C := cols (realify K) P
    let A := gram C (Sum.elim S S : ι ⊕ ι → ℝ) + diagonal fun f : {f // P f} => alpha f / 2
    let x := A⁻¹ *ᵥ rhs C fun i => (Sum.elim S S : ι ⊕ ι → ℝ) i * expandVec data i
    expNoiseDerExpand chol pinvh noise mode K weightings amps data alpha
      = 1 / 2 * (A⁻¹ * gram C (Sum.elim D D : ι ⊕ ι → ℝ)).trace
        + (-(∑ i, S i * delS noise mode amps i) - ∑ i, D i * ‖data i‖ ^ 2)
        + (2 * (x ⬝ᵥ rhs C fun i => (Sum.elim D D : ι ⊕ ι → ℝ) i * expandVec data i)
            - x ⬝ᵥ gram C (Sum.elim D D : ι ⊕ ι → ℝ) *ᵥ x) := by
  subst hP
  subst hS
  subst hD
  set S := expWeights noise mode weightings amps with hS
  set D := deltaS noise mode weightings amps with hD
  set P := Active (expandMat (gram K S)) alpha with hP
  intro C A x
  have hA : block (regularised true 1 (expandMat (gram K S)) alpha) P = A := by
    rw [block_half]
    simp only [one_mul]
    rfl
  have hpos : A.PosDef := by
    rw [← hA]
    exact posDef_block true 1 zero_le_one _ (posSemidef_expand K S hS0) alpha ha P
  have hw : (fun f : {f // P f} =>
      weights pinvh true 1 (expandMat (gram K S)) (expandVec (rhs K (multiplicator S amps data))) alpha f) = x := by
    have h := weights_active pinvh true 1 (expandMat (gram K S)) (expandVec (rhs K (multiplicator S amps data))) alpha
      (by rw [hA]; exact hpos)
    have hmu : multiplicator S amps data = fun i => ((S i : ℝ) : ℂ) * data i := multiplicator_eq S amps data h0
    rw [h, hA, hmu, expand_rhs, expandVec_mul, rhs_cols, RCLike.ofReal_one, one_smul]
  have hsq : ∀ i, star (data i) * ((D i : ℂ) * data i) = ((D i * ‖data i‖ ^ 2 : ℝ) : ℂ) := fun i => by
    rw [mul_left_comm, Complex.star_def, Complex.conj_mul']
    push_cast
    rfl
  have hder : block (expandMat (gram K D)) P = gram C (Sum.elim D D : ι ⊕ ι → ℝ) := by
    rw [expand_gram, block_gram]
  have hK : (fun i (f : {f // P f}) => Sum.elim (K i) (fun f => Complex.I * K i f) f.1 : Matrix ι {f // P f} ℂ)
      = cols (Evidence.twice K) P := rfl
  have hcross := cross_expand K D data P x
  have hl : expNoiseDerExpand chol pinvh noise mode K weightings amps data alpha
      = ((((block (expandMat (gram K D)) P * matSinv chol pinvh (block (regularised true 1 (expandMat (gram K S)) alpha) P)).trace
            * (1 / 2) : ℝ) : ℂ) - ∑ i, ((S i * delS noise mode amps i : ℝ) : ℂ) - ∑ i, star (data i) * ((D i : ℂ) * data i)
          - ((star (fun f : {f // P f} =>
              weights pinvh true 1 (expandMat (gram K S)) (expandVec (rhs K (multiplicator S amps data))) alpha f)
              ⬝ᵥ block (expandMat (gram K D)) P *ᵥ (fun f : {f // P f} =>
              weights pinvh true 1 (expandMat (gram K S)) (expandVec (rhs K (multiplicator S amps data))) alpha f) : ℝ) : ℂ)
          + 2 * ∑ i, star (data i) * ((D i : ℂ) * (cols (Evidence.twice K) P *ᵥ fun f => (((fun f : {f // P f} =>
              weights pinvh true 1 (expandMat (gram K S)) (expandVec (rhs K (multiplicator S amps data))) alpha f) f : ℝ) : ℂ)) i)).re :=
    rfl
  have hw' : ∀ f : {f // P f},
      weights pinvh true 1 (expandMat (gram K S)) (expandVec (rhs K (multiplicator S amps data))) alpha f = x f := fun f => congrFun hw f
  rw [hl]
  simp only [hw', hA, hder, matSinv_eq hpos (hchol A), hsq]
  have h2 : ∀ z : ℂ, (2 * z).re = 2 * z.re := fun z => by simp
  rw [Complex.add_re, Complex.sub_re, Complex.sub_re, Complex.sub_re, h2, hcross, Complex.ofReal_re, Complex.ofReal_re,
    ← Complex.ofReal_sum, ← Complex.ofReal_sum, Complex.ofReal_re, Complex.ofReal_re, trace_mul_comm, star_trivial]
  ring

open Classical in
/-- C83, the exact difference with `complex_expand`: the derivative of `log_marg_lik` with respect to the noise is the reported one
minus the trace of the inverse of the matrix of the (real) normal equations times the derivative of this matrix. -/
theorem C83_expand_difference_partial (hchol : CholeskySpec chol) (noise : ℝ) (hn : 0 < noise) (mode : NoiseMode ι)
    (hm : GoodMode mode) (K : Matrix ι n ℂ) (weightings : Option (ι → ℝ)) (hv : GoodWeightings weightings) (amps data : ι → ℂ)
    (h0 : ∀ i, amps i ≠ 0) (alpha : n ⊕ n → ℝ) (ha : ∀ f, 0 < alpha f) (S D : ι → ℝ)
    (hS : S = expWeights noise mode weightings amps) (hD : D = deltaS noise mode weightings amps)
    (hne : ∀ f, Spec.occurrence K S f ≠ 1e-10) (P : n ⊕ n → Prop)
    (hP : ∀ f, P f ↔ alpha f < 1e10 ∧ 1e-10 < Spec.occurrence K S (Sum.elim id id f)) :
    let C := cols (realify K) P
    let A := gram C (Sum.elim S S : ι ⊕ ι → ℝ) + diagonal fun f : {f // P f} => alpha f / 2
    ∃ L : ℝ → ℝ, (∀ t, 0 < t → expLogMargLikExpand chol pinvh t mode K weightings amps data alpha = some (L t)) ∧
      HasDerivAt L (expNoiseDerExpand chol pinvh noise mode K weightings amps data alpha
        - (A⁻¹ * gram C (Sum.elim D D : ι ⊕ ι → ℝ)).trace) noise := by
  intro C A
  have hSpos : ∀ t, 0 < t → ∀ i, 0 < expWeights t mode weightings amps i := fun t ht i =>
    expWeights_pos t ht mode weightings hv amps h0 hm i
  have hS0 : ∀ i, 0 ≤ S i := fun i => by rw [hS]; exact (hSpos noise hn i).le
  have hact : Active (expandMat (gram K S)) alpha = P :=
    (active_expand K S hS0 alpha).trans (funext fun f => propext (hP f).symm)
  have hSder : ∀ i, HasDerivAt (fun t => expWeights t mode weightings amps i) (D i) noise := fun i => by
    rw [hD]; exact hasDerivAt_expWeights noise hn mode weightings hv amps h0 hm i
  let dt : ℝ → ℝ := fun t => -(∑ i, (weightings.elim 1 fun v => v i) * Real.log (normConst true / noiseWeight t mode amps i))
          - ∑ i, expWeights t mode weightings amps i * ‖data i‖ ^ 2
  refine ⟨fun t => evidence chol pinvh true true 1 (expandMat (gram K (expWeights t mode weightings amps)))
    (expandVec (rhs K fun i => (expWeights t mode weightings amps i : ℂ) * data i)) alpha (dt t), ?_, ?_⟩
  · intro t ht
    unfold expLogMargLikExpand
    have := expDataTerm_eq true weightings hv t mode amps data h0
    simp only at this ⊢
    rw [this, Option.map_some, multiplicator_eq _ _ _ h0]
    rfl
  · let St : ℝ → ι ⊕ ι → ℝ := fun t i =>
      1 * (Sum.elim (expWeights t mode weightings amps) (expWeights t mode weightings amps) : ι ⊕ ι → ℝ) i
    have hStder : ∀ i, HasDerivAt (fun t => St t i) ((Sum.elim D D : ι ⊕ ι → ℝ) i) noise := by
      rintro (i | i)
      · exact ((hSder i).const_mul 1).congr_deriv (one_mul _)
      · exact ((hSder i).const_mul 1).congr_deriv (one_mul _)
    have hStpos : ∀ᶠ t in nhds noise, ∀ i, 0 ≤ St t i := by
      filter_upwards [eventually_gt_nhds hn] with t ht
      rintro (i | i)
      · simpa [St] using (hSpos t ht i).le
      · simpa [St] using (hSpos t ht i).le
    obtain ⟨h1, h2⟩ := hasDerivAt_parts (𝕜 := ℝ) C St _ noise hStder hStpos (expandVec data) (fun f : {f // P f} => alpha f / 2)
      (fun f => half_pos (ha f))
    have h3 := hasDerivAt_dataTerm true weightings hv noise hn mode amps data h0 hm
    have h4 := ((h3.sub (h1.const_mul (1 / 2))).add_const (1 / 2 * ∑ f : {f // P f}, Real.log (alpha f / 2))).add h2
    have hev : ∀ᶠ t in nhds noise, ∀ f, P f ↔ alpha f < 1e10 ∧
        1e-10 < Spec.occurrence K (expWeights t mode weightings amps) (Sum.elim id id f) := by
      rw [Filter.eventually_all]
      intro f
      have hc := continuous_occurrence K (Sum.elim id id f) (fun t => expWeights t mode weightings amps) noise
        fun i => (hSder i).continuousAt
      have h1 := eventually_same _ noise 1e-10 hc (by have := hne (Sum.elim id id f); rw [hS] at this; exact this)
      filter_upwards [h1] with t ht
      rw [ht, hP f, hS]
    refine (h4.congr_of_eventuallyEq ?_).congr_deriv ?_
    · filter_upwards [hev, eventually_gt_nhds hn] with t ht ht0
      exact evidence_half_closed pinvh hchol 1 one_pos K _ (fun i => (hSpos t ht0 i).le) data alpha ha (dt t) P ht
    · have hSt : St noise = (Sum.elim S S : ι ⊕ ι → ℝ) := by
        funext i
        simp only [St, one_mul, hS]
      rw [expNoiseDerExpand_eq pinvh hchol noise mode K weightings amps data h0 alpha ha S D hS hD hS0 P hact]
      dsimp only
      rw [hSt]
      simp only [RCLike.re_to_real, star_trivial, RCLike.ofReal_real_eq_id, id, A, C, ← hS, ← hD]
      ring

open Classical in
/-- C83 with `complex_expand` is false whenever a feature takes part. -/
theorem C83_expand_fails (hchol : CholeskySpec chol) (noise : ℝ) (hn : 0 < noise) (mode : NoiseMode ι)
    (hm : GoodMode mode) (K : Matrix ι n ℂ) (weightings : Option (ι → ℝ)) (hv : GoodWeightings weightings) (amps data : ι → ℂ)
    (h0 : ∀ i, amps i ≠ 0) (alpha : n ⊕ n → ℝ) (ha : ∀ f, 0 < alpha f) (S : ι → ℝ)
    (hS : S = expWeights noise mode weightings amps) (hne : ∀ f, Spec.occurrence K S f ≠ 1e-10)
    (f : n ⊕ n) (h1 : alpha f < 1e10) (h2 : 1e-10 < Spec.occurrence K S (Sum.elim id id f)) :
    ∃ (L : ℝ → ℝ) (der : ℝ), (∀ t, 0 < t → expLogMargLikExpand chol pinvh t mode K weightings amps data alpha = some (L t)) ∧
      HasDerivAt L der noise ∧ expNoiseDerExpand chol pinvh noise mode K weightings amps data alpha < der := by
  obtain ⟨P, hP⟩ : ∃ P : n ⊕ n → Prop, ∀ f, P f ↔ alpha f < 1e10 ∧ 1e-10 < Spec.occurrence K S (Sum.elim id id f) :=
    ⟨_, fun f => Iff.rfl⟩
  obtain ⟨L, h3, h4⟩ := C83_expand_difference_partial pinvh hchol noise hn mode hm K weightings hv amps data h0 alpha ha S _ hS rfl
    hne P hP
  refine ⟨L, _, h3, h4, ?_⟩
  have hS0 : ∀ i, 0 ≤ (Sum.elim S S : ι ⊕ ι → ℝ) i := by
    rintro (i | i) <;> · simp only [Sum.elim_inl, Sum.elim_inr, hS]; exact (expWeights_pos noise hn mode weightings hv amps h0 hm i).le
  have hA := posDef_gram_diag (𝕜 := ℝ) (cols (realify K) P) (Sum.elim S S) hS0 (fun f : {f // P f} => alpha f / 2)
    fun f => half_pos (ha f)
  have hD : ∀ i, (Sum.elim (deltaS noise mode weightings amps) (deltaS noise mode weightings amps) : ι ⊕ ι → ℝ) i < 0 := by
    rintro (i | i) <;> exact deltaS_neg noise hn mode weightings hv amps h0 hm i
  have hex : ∃ i, realify K i f ≠ 0 := by
    by_contra hno
    push Not at hno
    have hz : Spec.occurrence (realify K) (Sum.elim S S) f = 0 := by simp [Spec.occurrence, hno]
    have he : Spec.occurrence (realify K) (Sum.elim S S) f = Spec.occurrence K S (Sum.elim id id f) := by
      rcases f with f | f
      · exact (occurrence_realify K S f).1
      · exact (occurrence_realify K S f).2
    rw [← he, hz] at h2
    norm_num at h2
  obtain ⟨i, hi⟩ := hex
  have htr := trace_neg (𝕜 := ℝ) hA (cols (realify K) P) _ hD i ⟨f, (hP f).mpr ⟨h1, h2⟩⟩ hi
  have htr' : ((gram (cols (realify K) P) (Sum.elim S S : ι ⊕ ι → ℝ) + diagonal fun f : {f // P f} => alpha f / 2)⁻¹
      * gram (cols (realify K) P) (Sum.elim (deltaS noise mode weightings amps) (deltaS noise mode weightings amps) : ι ⊕ ι → ℝ)).trace
        < 0 := htr
  linarith

end Expand

section LogSpace

/-- The derivatives of the two parts of the evidence of a log-space fit that depend on the features. -/
theorem hasDerivAt_log_parts {κ : Type} [Fintype κ] [DecidableEq κ] (C : Matrix ι κ 𝕜) (w : ι → ℝ) (hw : ∀ i, 0 ≤ w i)
    (data : ι → 𝕜) (a : κ → ℝ) (ha : ∀ f, 0 < a f) (noise : ℝ) (hn : 0 < noise) :
    let A : ℝ → Matrix κ κ 𝕜 := fun t => gram C (fun i => 1 / t * w i) + diagonal fun f => (a f : 𝕜)
    let b : ℝ → κ → 𝕜 := fun t => rhs C fun i => ((1 / t * w i : ℝ) : 𝕜) * data i
    let x := (A noise)⁻¹ *ᵥ b noise
    HasDerivAt (fun t => Real.log ‖(A t).det‖) (-(∑ f, (1 - a f * RCLike.re ((A noise)⁻¹ f f))) / noise) noise ∧
    HasDerivAt (fun t => RCLike.re (star (b t) ⬝ᵥ (A t)⁻¹ *ᵥ b t))
      ((∑ i, w i * ‖data i - (C *ᵥ x) i‖ ^ 2 - ∑ i, w i * ‖data i‖ ^ 2) / noise ^ 2) noise := by
  intro A b x
  have hder : ∀ i, HasDerivAt (fun t : ℝ => 1 / t * w i) (-(1 / noise ^ 2) * w i) noise := fun i => by
    have := (hasDerivAt_inv hn.ne').mul_const (w i)
    simpa only [one_div] using this
  have hS : ∀ᶠ t in nhds noise, ∀ i, 0 ≤ 1 / t * w i := by
    filter_upwards [eventually_gt_nhds hn] with t ht i
    exact mul_nonneg (one_div_pos.mpr ht).le (hw i)
  obtain ⟨h1, h2⟩ := hasDerivAt_parts C (fun t i => 1 / t * w i) _ noise hder hS data a ha
  have hG : gram C (fun i => -(1 / noise ^ 2) * w i) = ((-(1 / noise ^ 2) : ℝ) : 𝕜) • gram C w := (gram_scale C w _).symm
  have hpos : (A noise).PosDef := posDef_gram_diag C _ (hS.self_of_nhds) a ha
  have hu : IsUnit (A noise).det := hpos.det_pos.ne'.isUnit
  refine ⟨h1.congr_deriv ?_, h2.congr_deriv ?_⟩
  · have hAG : A noise = ((1 / noise : ℝ) : 𝕜) • gram C w + diagonal fun f => (a f : 𝕜) := by
      rw [gram_scale]
    have hGA : gram C w = ((noise : ℝ) : 𝕜) • (A noise - diagonal fun f => (a f : 𝕜)) := by
      rw [hAG, add_sub_cancel_right, smul_smul, ← RCLike.ofReal_mul, mul_one_div_cancel hn.ne', RCLike.ofReal_one, one_smul]
    have htrace : RCLike.re ((A noise)⁻¹ * gram C w).trace = noise * ∑ f, (1 - a f * RCLike.re ((A noise)⁻¹ f f)) := by
      rw [hGA, Matrix.mul_smul, trace_smul, smul_eq_mul, RCLike.re_ofReal_mul, Matrix.mul_sub, nonsing_inv_mul _ hu, trace_sub,
        map_sub, trace, trace, map_sum, map_sum, ← Finset.sum_sub_distrib]
      congr 1
      refine Finset.sum_congr rfl fun f _ => ?_
      rw [diag_apply, diag_apply, one_apply_eq, mul_diagonal, RCLike.one_re, mul_comm, RCLike.re_ofReal_mul]
    rw [hG, Matrix.mul_smul, trace_smul, smul_eq_mul, RCLike.re_ofReal_mul]
    have : RCLike.re ((gram C (fun i => 1 / noise * w i) + diagonal fun f => (a f : 𝕜))⁻¹ * gram C w).trace
        = noise * ∑ f, (1 - a f * RCLike.re ((A noise)⁻¹ f f)) := htrace
    dsimp only
    rw [this]
    field_simp
  · rw [residual_sq_weighted C w data x]
    have e1 : (rhs C fun i => ((-(1 / noise ^ 2) * w i : ℝ) : 𝕜) * data i)
        = ((-(1 / noise ^ 2) : ℝ) : 𝕜) • rhs C fun i => (w i : 𝕜) * data i := by
      rw [rhs_scale]
      congr 1
      funext i
      push_cast
      ring
    rw [hG, e1]
    show 2 * RCLike.re (star x ⬝ᵥ (((-(1 / noise ^ 2) : ℝ) : 𝕜) • rhs C fun i => (w i : 𝕜) * data i))
      - RCLike.re (star x ⬝ᵥ (((-(1 / noise ^ 2) : ℝ) : 𝕜) • gram C w) *ᵥ x) = _
    rw [smul_mulVec, dotProduct_smul, dotProduct_smul, smul_eq_mul, smul_eq_mul, RCLike.re_ofReal_mul, RCLike.re_ofReal_mul]
    field_simp
    ring

/-- The derivative of the part of the evidence of a log-space fit that depends on the data only. -/
theorem hasDerivAt_logDataTerm (cplx : Bool) (noise : ℝ) (hn : 0 < noise) (weightings : Option (ι → ℝ)) (data : ι → 𝕜) :
    HasDerivAt (fun t => logDataTerm cplx t weightings data)
      (-(dataCount weightings / noise) + (∑ i, ‖data i‖ ^ 2) / noise ^ 2) noise := by
  have hsq : RCLike.re (∑ i, star (data i) * data i) = ∑ i, ‖data i‖ ^ 2 := by
    rw [map_sum]
    refine Finset.sum_congr rfl fun i _ => ?_
    rw [RCLike.star_def, RCLike.conj_mul, ← RCLike.ofReal_pow, RCLike.ofReal_re]
  unfold logDataTerm
  simp only [hsq]
  have e1 := (((hasDerivAt_id noise).const_mul (normConst cplx)).log (mul_pos (normConst_pos cplx) hn).ne').const_mul
    (dataCount weightings)
  have e2 := (hasDerivAt_inv hn.ne').const_mul (∑ i, ‖data i‖ ^ 2)
  have e3 := e1.neg.sub e2
  refine (e3.congr_of_eventuallyEq (Filter.Eventually.of_forall fun t => ?_)).congr_deriv ?_
  · simp only [Pi.sub_apply, Pi.neg_apply, div_eq_mul_inv]
    rfl
  · have := (normConst_pos cplx).ne'
    simp only [id]
    field_simp
    ring

/-- Sums over the features that take part. -/
theorem sum_active {R : Type} [CommSemiring R] (P : n → Prop) [Fintype {f // P f}] (k w : n → R) (h : ∀ f, ¬ P f → w f = 0) :
    ∑ f, k f * w f = ∑ f : {f // P f}, k f * w f := by
  classical
  rw [← Finset.sum_subtype (Finset.univ.filter P) (by simp) (fun f => k f * w f), Finset.sum_filter]
  refine Finset.sum_congr rfl fun f _ => ?_
  split_ifs with hf
  · rfl
  · rw [h f hf, mul_zero]

section Plain

variable {chol : {m : Type} → [Fintype m] → Matrix m m 𝕜 → Option (Matrix m m 𝕜)}
variable (pinvh : {m : Type} → [Fintype m] → Matrix m m 𝕜 → Matrix m m 𝕜)

/-- C84 with weightings: if the current parameters are the weights of the present fit, the derivative of `log_marg_lik` is the reported
one divided by the fourth power of the noise, plus a contribution of the squares of the data, which `log_marg_lik` does not weight. -/
theorem C84_weighted_partial (hchol : CholeskySpec chol) (cplx : Bool) (noise : ℝ) (hn : 0 < noise) (K : Matrix ι n 𝕜)
    (weightings : Option (ι → ℝ)) (hv : ∀ v, weightings = some v → ∀ i, 0 ≤ v i) (data pred : ι → 𝕜)
    (alpha : n → ℝ) (ha : ∀ f, 0 < alpha f) (w : ι → ℝ) (hw : w = weightings.elim (fun _ => 1) id)
    (hpred : ∀ i, pred i = ∑ f, K i f *
      weights pinvh false (1 / noise) (gram K w) (rhs K fun i => (w i : 𝕜) * data i) alpha f) :
    HasDerivAt (fun t => logSpaceLogMargLik chol pinvh cplx t K weightings data alpha)
      (logSpaceNoiseDer chol pinvh cplx noise K weightings data pred alpha / noise ^ 4
        + (if cplx then 1 else 1 / 2) * ((∑ i, (1 - w i) * ‖data i‖ ^ 2) / noise ^ 2)) noise := by
  classical
  have hlw : logWeights weightings = w := by
    rw [hw]
    cases weightings <;> rfl
  clear hw
  subst hlw
  set w := logWeights weightings with hlw
  have hw0 : ∀ i, 0 ≤ w i := logWeights_nonneg weightings hv
  set P := Active (gram K w) alpha with hPdef
  have hP : ∀ f, P f ↔ alpha f < 1e10 ∧ 1e-10 < Spec.occurrence K w f := by
    intro f
    rw [hPdef, active_eq K _ hw0]
  obtain ⟨h1, h2⟩ := hasDerivAt_log_parts (cols K P) w hw0 data (fun f : {f // P f} => alpha f) (fun f => ha f) noise hn
  have h3 := hasDerivAt_logDataTerm cplx noise hn weightings data
  have h4 := (((h3.sub h1).add_const (∑ f : {f // P f}, Real.log (alpha f))).add h2).const_mul (if cplx then 1 else 1 / 2 : ℝ)
  refine (h4.congr_of_eventuallyEq ?_).congr_deriv ?_
  · filter_upwards [eventually_gt_nhds hn] with t ht
    have := evidence_closed pinvh hchol cplx (1 / t) (one_div_pos.mpr ht) K w hw0 data alpha ha
      (logDataTerm cplx t weightings data) P hP
    exact this
  · set A := gram (cols K P) (fun i => 1 / noise * w i) + diagonal fun f : {f // P f} => (alpha f : 𝕜) with hA
    have hApos : A.PosDef := posDef_gram_diag _ _ (fun i => mul_nonneg (one_div_pos.mpr hn).le (hw0 i)) _ fun f => ha f
    have hblock : block (regularised false (1 / noise) (gram K w) alpha) P = A := block_eq (1 / noise) K w alpha P
    set x := A⁻¹ *ᵥ rhs (cols K P) fun i => ((1 / noise * w i : ℝ) : 𝕜) * data i with hx
    have hpred' : ∀ i, pred i = (cols K P *ᵥ x) i := by
      intro i
      have hwa := weights_active pinvh false (1 / noise) (gram K w) (rhs K fun i => (w i : 𝕜) * data i) alpha
        (by rw [hblock]; exact hApos)
      have hwx : (fun f : {f // P f} => weights pinvh false (1 / noise) (gram K w) (rhs K fun i => (w i : 𝕜) * data i) alpha f) = x := by
        rw [hwa, hblock, rhs_cols, ← mulVec_smul, rhs_scale, hx]
        congr 2
        funext i
        push_cast
        ring
      rw [hpred i, sum_active P (K i) (weights pinvh false (1 / noise) (gram K w) (rhs K fun i => (w i : 𝕜) * data i) alpha)
        fun f hf => dif_neg hf, mulVec, dotProduct]
      refine Finset.sum_congr rfl fun f _ => ?_
      rw [← congrFun hwx f]
      rfl
    have e4 : logSpaceNoiseDer chol pinvh cplx noise K weightings data pred alpha
        = -(noise ^ 2) * ((if cplx then 1 else 1 / 2) * (-(∑ f : {f // P f}, (1 - alpha f * RCLike.re (A⁻¹ f f))) * noise
            + dataCount weightings * noise - ∑ i, w i * ‖data i - (cols K P *ᵥ x) i‖ ^ 2)) := by
      have hdiag : ∀ f : {f // P f}, diagSinv chol pinvh A f = RCLike.re (A⁻¹ f f) := fun f => diagSinv_eq hApos (hchol _) f
      have hl : logSpaceNoiseDer chol pinvh cplx noise K weightings data pred alpha
          = -(noise ^ 2) * (if cplx then
            -(∑ f : {f // P f}, (1 - alpha f * diagSinv chol pinvh (block (regularised false (1 / noise) (gram K w) alpha) P) f))
              * noise + dataCount weightings * noise - ∑ i, w i * ‖data i - pred i‖ ^ 2 else
            (-(∑ f : {f // P f}, (1 - alpha f * diagSinv chol pinvh (block (regularised false (1 / noise) (gram K w) alpha) P) f))
              * noise + dataCount weightings * noise - ∑ i, w i * ‖data i - pred i‖ ^ 2) * (1 / 2)) := rfl
      rw [hl]
      simp only [hblock, hdiag, hpred']
      cases cplx
      · simp only [Bool.false_eq_true, if_false]
        ring
      · simp only [if_true]
        ring
    have hsum : ∑ i, (1 - w i) * ‖data i‖ ^ 2 = ∑ i, ‖data i‖ ^ 2 - ∑ i, w i * ‖data i‖ ^ 2 := by
      rw [← Finset.sum_sub_distrib]
      exact Finset.sum_congr rfl fun i _ => by ring
    dsimp only
    rw [← hA, e4, hsum]
    field_simp
    ring

end Plain

section Expanded

variable {chol : {m : Type} → [Fintype m] → Matrix m m ℝ → Option (Matrix m m ℝ)}
variable (pinvh : {m : Type} → [Fintype m] → Matrix m m ℝ → Matrix m m ℝ)

omit [Fintype ι] [DecidableEq n] in
theorem realify_mulVec (K : Matrix ι n ℂ) (w : n ⊕ n → ℝ) :
    realify K *ᵥ w = expandVec fun i => ∑ f, K i f * ((w (Sum.inl f) : ℂ) + Complex.I * (w (Sum.inr f) : ℂ)) := by
  funext i
  rcases i with i | i
  · simp [realify, expandVec, mulVec, dotProduct, Fintype.sum_sum_type, Complex.re_sum, Finset.sum_sub_distrib]
    ring
  · simp [realify, expandVec, mulVec, dotProduct, Fintype.sum_sum_type, Complex.im_sum, Finset.sum_add_distrib]
    ring

/-- C84 with `complex_expand` (and weightings): if the current parameters are the weights of the present fit, the derivative of
`log_marg_lik` is the reported one divided by the fourth power of the noise, plus a contribution of the squares of the data, which
`log_marg_lik` does not weight. -/
theorem C84_expand_partial (hchol : CholeskySpec chol) (noise : ℝ) (hn : 0 < noise) (K : Matrix ι n ℂ)
    (weightings : Option (ι → ℝ)) (hv : ∀ v, weightings = some v → ∀ i, 0 ≤ v i) (data pred : ι → ℂ)
    (alpha : n ⊕ n → ℝ) (ha : ∀ f, 0 < alpha f) (w : ι → ℝ) (hw : w = weightings.elim (fun _ => 1) id) (new : n ⊕ n → ℝ)
    (hnew : new = weights pinvh true (1 / noise) (expandMat (gram K w)) (expandVec (rhs K fun i => (w i : ℂ) * data i)) alpha)
    (hpred : ∀ i, pred i = ∑ f, K i f * ((new (Sum.inl f) : ℂ) + Complex.I * (new (Sum.inr f) : ℂ))) :
    HasDerivAt (fun t => logSpaceLogMargLikExpand chol pinvh t K weightings data alpha)
      (logSpaceNoiseDerExpand chol pinvh noise K weightings data pred alpha / noise ^ 4
        + (∑ i, (1 - w i) * ‖data i‖ ^ 2) / noise ^ 2) noise := by
  classical
  have hlw : logWeights weightings = w := by
    rw [hw]
    cases weightings <;> rfl
  clear hw
  subst hlw
  set w := logWeights weightings with hlw
  have hw0 : ∀ i, 0 ≤ w i := logWeights_nonneg weightings hv
  set P := Active (expandMat (gram K w)) alpha with hPdef
  have hP : ∀ f, P f ↔ alpha f < 1e10 ∧ 1e-10 < Spec.occurrence K w (Sum.elim id id f) := by
    intro f
    rw [hPdef, active_expand K _ hw0]
  have hw2 : ∀ i, 0 ≤ (Sum.elim w w : ι ⊕ ι → ℝ) i := by rintro (i | i) <;> exact hw0 i
  obtain ⟨h1, h2⟩ := hasDerivAt_log_parts (𝕜 := ℝ) (cols (realify K) P) (Sum.elim w w : ι ⊕ ι → ℝ) hw2 (expandVec data)
    (fun f : {f // P f} => alpha f / 2) (fun f => half_pos (ha f)) noise hn
  have h3 := hasDerivAt_logDataTerm true noise hn weightings data
  have h4 := ((h3.sub (h1.const_mul (1 / 2))).add_const (1 / 2 * ∑ f : {f // P f}, Real.log (alpha f / 2))).add h2
  refine (h4.congr_of_eventuallyEq ?_).congr_deriv ?_
  · filter_upwards [eventually_gt_nhds hn] with t ht
    exact evidence_half_closed pinvh hchol (1 / t) (one_div_pos.mpr ht) K w hw0 data alpha ha (logDataTerm true t weightings data) P hP
  · set A := gram (cols (realify K) P) (fun i => 1 / noise * (Sum.elim w w : ι ⊕ ι → ℝ) i)
      + diagonal fun f : {f // P f} => alpha f / 2 with hA
    have hApos : A.PosDef := posDef_gram_diag (𝕜 := ℝ) _ _ (fun i => mul_nonneg (one_div_pos.mpr hn).le (hw2 i)) _
      fun f => half_pos (ha f)
    have hblock : block (regularised true (1 / noise) (expandMat (gram K w)) alpha) P = A := block_half (1 / noise) K w alpha P
    set x := A⁻¹ *ᵥ rhs (cols (realify K) P) fun i => 1 / noise * (Sum.elim w w : ι ⊕ ι → ℝ) i * expandVec data i with hx
    have hwx : (fun f : {f // P f} => new f) = x := by
      rw [hnew, weights_active pinvh true (1 / noise) _ _ alpha (by rw [hblock]; exact hApos), hblock, expand_rhs, expandVec_mul, rhs_cols,
        ← mulVec_smul, rhs_scale, hx]
      congr 2
      funext i
      simp only [RCLike.ofReal_real_eq_id, id]
      ring
    have hpred' : expandVec pred = cols (realify K) P *ᵥ x := by
      have hp : pred = fun i => ∑ f, K i f * ((new (Sum.inl f) : ℂ) + Complex.I * (new (Sum.inr f) : ℂ)) := funext hpred
      rw [hp, ← realify_mulVec]
      funext i
      rw [mulVec, dotProduct, sum_active P (realify K i) new fun f hf => by rw [hnew]; exact dif_neg hf, mulVec, dotProduct]
      refine Finset.sum_congr rfl fun f _ => ?_
      rw [← congrFun hwx f]
      rfl
    have hres : ∑ i, w i * ‖data i - pred i‖ ^ 2
        = ∑ i, (Sum.elim w w : ι ⊕ ι → ℝ) i * ‖expandVec data i - (cols (realify K) P *ᵥ x) i‖ ^ 2 := by
      rw [sum_realify _ w (fun i => data i - pred i) fun i => rfl, ← hpred']
      refine Finset.sum_congr rfl fun i _ => ?_
      rcases i with i | i <;> simp [expandVec]
    have hdata : ∑ i, w i * ‖data i‖ ^ 2 = ∑ i, (Sum.elim w w : ι ⊕ ι → ℝ) i * ‖expandVec data i‖ ^ 2 :=
      sum_realify _ w data fun i => rfl
    have e4 : logSpaceNoiseDerExpand chol pinvh noise K weightings data pred alpha
        = -(noise ^ 2) * (-(∑ f : {f // P f}, (1 - alpha f / 2 * A⁻¹ f f)) * noise * (1 / 2)
            + dataCount weightings * noise - ∑ i, w i * ‖data i - pred i‖ ^ 2) := by
      have hdiag : ∀ f : {f // P f}, diagSinv chol pinvh A f = A⁻¹ f f := fun f => diagSinv_eq hApos (hchol _) f
      have hl : logSpaceNoiseDerExpand chol pinvh noise K weightings data pred alpha
          = -(noise ^ 2) * (-(∑ f : {f // P f}, (1 - alpha f * (diagSinv chol pinvh
              (block (regularised true (1 / noise) (expandMat (gram K w)) alpha) P) f * (1 / 2)))) * noise * (1 / 2)
              + dataCount weightings * noise - ∑ i, w i * ‖data i - pred i‖ ^ 2) := rfl
      rw [hl]
      simp only [hblock, hdiag]
      congr 6
      refine Finset.sum_congr rfl fun f _ => ?_
      ring
    have hsum : ∑ i, (1 - w i) * ‖data i‖ ^ 2 = ∑ i, ‖data i‖ ^ 2 - ∑ i, w i * ‖data i‖ ^ 2 := by
      rw [← Finset.sum_sub_distrib]
      exact Finset.sum_congr rfl fun i _ => by ring
    dsimp only
    simp only [RCLike.re_to_real, RCLike.ofReal_real_eq_id, id]
    rw [← hA, ← hx, e4, hsum, hdata, hres]
    field_simp
    ring

end Expanded

end LogSpace

section Reweighted

variable {chol : {m : Type} → [Fintype m] → Matrix m m 𝕜 → Option (Matrix m m 𝕜)}
variable (pinvh : {m : Type} → [Fintype m] → Matrix m m 𝕜 → Matrix m m 𝕜)

/-- C83 is false for `iterative_noise_est` with a `noise_reweighting` already without features: the estimate of the noise of the
log-amplitudes from the predictions ignores the reweighting, its derivative does not.  (One datum with the amplitude and prediction 1,
noise 2 and the reweighting 3: the derivative of the variance is taken to be 1/5 instead of 1/6.) -/
theorem C83_reweighted_fails (hchol : CholeskySpec chol) :
    ∃ (L : ℝ → ℝ) (der : ℝ),
      (∀ t, 0 < t → expLogMargLik chol pinvh true t (.iterativeReweighted (fun _ : Unit => 1) fun _ => 3) (0 : Matrix Unit Unit 𝕜) none
        (fun _ => 1) (fun _ => 0) (fun _ => 1) = some (L t)) ∧
      HasDerivAt L der 2 ∧
      expNoiseDer chol pinvh true 2 (.iterativeReweighted (fun _ : Unit => 1) fun _ => 3) (0 : Matrix Unit Unit 𝕜) none
        (fun _ => 1) (fun _ => 0) (fun _ => 1) ≠ der := by
  classical
  have hocc : ∀ (S : Unit → ℝ) (f : Unit), Spec.occurrence (0 : Matrix Unit Unit 𝕜) S f = 0 := by
    intro S f
    simp [Spec.occurrence]
  obtain ⟨L, h1, h2⟩ := C83_partial (𝕜 := 𝕜) pinvh hchol true 2 two_pos (.iterative fun _ : Unit => 1) (fun _ => one_ne_zero)
    (0 : Matrix Unit Unit 𝕜) none (by simp [GoodWeightings]) (fun _ => 1) (fun _ => 0) (by simp) (fun _ => 1) (by simp) _ rfl
    (fun f => by rw [hocc]; norm_num) (fun f _ => by rw [hocc]; norm_num)
  refine ⟨L, _, h1, h2, ?_⟩
  set S := expWeights 2 (.iterative fun _ : Unit => (1 : ℂ)) none (fun _ : Unit => (1 : 𝕜)) with hS
  have hSpos : ∀ i, 0 < S i := expWeights_pos 2 two_pos (.iterative fun _ : Unit => 1) none (by simp [GoodWeightings]) (fun _ => (1 : 𝕜))
    (by simp) fun _ => one_ne_zero
  have hact : Active (gram (0 : Matrix Unit Unit 𝕜) S) (fun _ => 1) = fun _ => False := by
    rw [active_eq _ _ fun i => (hSpos i).le]
    funext f
    rw [hocc]
    norm_num
  have hempty : IsEmpty {f : Unit // (fun _ : Unit => False) f} := ⟨fun f => f.2⟩
  have e1 := expNoiseDer_eq (𝕜 := 𝕜) pinvh hchol true 2 (.iterative fun _ : Unit => 1) (0 : Matrix Unit Unit 𝕜) none (fun _ => 1)
    (fun _ => 0) (by simp) (fun _ => 1) (by simp) S _ hS rfl (fun i => (hSpos i).le) _ hact
  have e2 := expNoiseDer_eq (𝕜 := 𝕜) pinvh hchol true 2 (.iterativeReweighted (fun _ : Unit => 1) fun _ => 3) (0 : Matrix Unit Unit 𝕜) none
    (fun _ => 1) (fun _ => 0) (by simp) (fun _ => 1) (by simp) S _ rfl rfl (fun i => (hSpos i).le) _ hact
  have s1 : Real.sqrt (4 * 2 / (1 : ℝ) + 1) = 3 := by
    rw [show (4 * 2 / (1 : ℝ) + 1) = 3 ^ 2 by norm_num]
    exact Real.sqrt_sq (by norm_num)
  have s2 : Real.sqrt (4 * 2 / (1 / 3 : ℝ) + 1) = 5 := by
    rw [show (4 * 2 / (1 / 3 : ℝ) + 1) = 5 ^ 2 by norm_num]
    exact Real.sqrt_sq (by norm_num)
  have d1 : delS 2 (.iterative fun _ : Unit => (1 : ℂ)) (fun _ : Unit => (1 : 𝕜)) () = 1 / 6 := by
    simp only [delS, norm_one, one_pow, s1]
    norm_num
  have d2 : delS 2 (.iterativeReweighted (fun _ : Unit => (1 : ℂ)) fun _ => 3) (fun _ : Unit => (1 : 𝕜)) () = 1 / 5 := by
    simp only [delS, norm_one, one_pow, s2]
    norm_num
  rw [e1, e2]
  simp only [trace, Finset.univ_eq_empty, Finset.sum_empty, dotProduct, map_zero, norm_zero, Finset.univ_unique, Finset.sum_singleton,
    PUnit.default_eq_unit, d1, d2]
  have := hSpos ()
  intro h
  norm_num at h
  linarith

end Reweighted

/-- The hypotheses of `C84_weighted_partial` hold for one datum of the weight 3 and a feature that takes part. -/
example : ∃ chol : {m : Type} → [Fintype m] → Matrix m m ℝ → Option (Matrix m m ℝ), CholeskySpec (fun {_} => chol) ∧
    ∃ pred : Unit → ℝ,
      HasDerivAt (fun t => logSpaceLogMargLik (fun {_} => chol) (fun A => A) false t (1 : Matrix Unit Unit ℝ) (some fun _ => 3)
          (fun _ => 5) fun _ => 2)
        (logSpaceNoiseDer (fun {_} => chol) (fun A => A) false (1 / 2) (1 : Matrix Unit Unit ℝ) (some fun _ => 3) (fun _ => 5) pred
          (fun _ => 2) / (1 / 2) ^ 4 + 1 / 2 * ((∑ _i : Unit, (1 - 3) * ‖(5 : ℝ)‖ ^ 2) / (1 / 2) ^ 2)) (1 / 2) ∧
      Active (gram (1 : Matrix Unit Unit ℝ) fun _ => 3) (fun _ => 2) () := by
  obtain ⟨chol, hchol⟩ := exists_choleskySpec (𝕜 := ℝ)
  refine ⟨chol, hchol, _, C84_weighted_partial (fun A => A) hchol false (1 / 2) (by norm_num) 1 (some fun _ => 3)
    (by rintro v ⟨⟩ i; norm_num) (fun _ => 5) _ (fun _ => 2) (by simp) (fun _ => 3) rfl (fun i => rfl), ?_⟩
  constructor
  · norm_num
  · simp [Valid, gram]
    norm_num

/-- The hypotheses of `C84_expand_partial` and `C83_expand_fails` hold for one datum and a complex feature of which both parts take part. -/
example : ∃ chol : {m : Type} → [Fintype m] → Matrix m m ℝ → Option (Matrix m m ℝ), CholeskySpec (fun {_} => chol) ∧
    (∃ pred : Unit → ℂ,
      HasDerivAt (fun t => logSpaceLogMargLikExpand (fun {_} => chol) (fun A => A) t (1 : Matrix Unit Unit ℂ) none (fun _ => Complex.I)
          fun _ => 2)
        (logSpaceNoiseDerExpand (fun {_} => chol) (fun A => A) (1 / 2) (1 : Matrix Unit Unit ℂ) none (fun _ => Complex.I) pred
          (fun _ => 2) / (1 / 2) ^ 4 + (∑ _i : Unit, (1 - 1) * ‖Complex.I‖ ^ 2) / (1 / 2) ^ 2) (1 / 2)) ∧
    ∃ (L : ℝ → ℝ) (der : ℝ),
      (∀ t, 0 < t → expLogMargLikExpand (fun {_} => chol) (fun A => A) t .target (1 : Matrix Unit Unit ℂ) none (fun _ => 1)
        (fun _ => Complex.I) (fun _ => 1) = some (L t)) ∧
      HasDerivAt L der 1 ∧
      expNoiseDerExpand (fun {_} => chol) (fun A => A) 1 .target (1 : Matrix Unit Unit ℂ) none (fun _ => 1) (fun _ => Complex.I)
        (fun _ => 1) < der := by
  obtain ⟨chol, hchol⟩ := exists_choleskySpec (𝕜 := ℝ)
  refine ⟨chol, hchol, ⟨_, C84_expand_partial (fun A => A) hchol (1 / 2) (by norm_num) 1 none (by simp) (fun _ => Complex.I) _
    (fun _ => 2) (by simp) (fun _ => 1) rfl _ rfl (fun i => rfl)⟩, ?_⟩
  have hl : 0 < Real.log 2 := Real.log_pos (by norm_num)
  have hl1 : Real.log 2 < 1 := by
    have := Real.log_lt_sub_one_of_pos (x := 2) (by norm_num) (by norm_num)
    linarith
  have h1 : 1 < 1 / Real.log 2 := by
    rw [lt_div_iff₀ hl]
    linarith
  have hocc : Spec.occurrence (1 : Matrix Unit Unit ℂ) (expWeights 1 .target none fun _ : Unit => (1 : ℂ)) () = 1 / Real.log 2 := by
    simp [Spec.occurrence, expWeights, noiseWeight]
    norm_num
  refine C83_expand_fails (fun A => A) hchol 1 one_pos .target trivial 1 none (by simp [GoodWeightings]) (fun _ => 1)
    (fun _ => Complex.I) (by simp) (fun _ => 1) (by simp) _ rfl ?_ (Sum.inr ()) (by norm_num) ?_
  · intro f
    rw [hocc]
    intro h
    rw [h] at h1
    norm_num at h1
  · show _ < Spec.occurrence (1 : Matrix Unit Unit ℂ) (expWeights 1 .target none fun _ : Unit => (1 : ℂ)) ()
    rw [hocc]
    norm_num at h1 ⊢
    linarith

end GPSKet.MargLik
