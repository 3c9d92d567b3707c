import Verif.Lemmas.OptAlpha

/-!
# C85 and C86: the optimisation of the precisions and of the noise

One iteration moves every precision in the direction in which the evidence increases, so that the values at which the iteration stops
are the stationary points of the evidence (C85).  All values stay positive (C86).
-/

namespace GPSKet.OptAlpha

open Matrix GPSKet.SupervisedFit GPSKet.MargLik
open scoped ComplexOrder

variable {𝕜 : Type} [RCLike 𝕜] {ι n : Type} [Fintype ι] [Fintype n] [DecidableEq n]

section General

variable {chol : {m : Type} → [Fintype m] → Matrix m m 𝕜 → Option (Matrix m m 𝕜)}
variable (pinvh : {m : Type} → [Fintype m] → Matrix m m 𝕜 → Matrix m m 𝕜)

/-! ## Separate precisions (`rvm = True`) -/

theorem sign_rvm (hchol : CholeskySpec chol) (cplx half : Bool) (hh : half = true → cplx = true) (beta : ℝ) (hb : 0 < beta)
    (KtK : Matrix n n 𝕜) (hK : KtK.PosSemidef) (y : n → 𝕜) (alpha : n → ℝ) (ha : ∀ f, 0 < alpha f) (f : n) (hf : Active KtK alpha f) :
    SignType.sign (newAlpha chol pinvh half true beta KtK y alpha f - alpha f)
      = SignType.sign (alphaDer chol pinvh cplx half beta KtK y alpha f) := by
  rw [newAlpha_rvm pinvh hchol half beta hb KtK hK y alpha ha, dif_pos hf,
    sign_clipQuot (gamma_bounds pinvh hchol half beta hb KtK hK alpha ha ⟨f, hf⟩).1 (sq_nonneg _) (ha f) hf.1,
    alphaDer_gamma pinvh cplx half hh beta KtK y alpha f (ha f) hf, sign_mul]
  have : 0 < (if half || !cplx then 1 / 2 else 1 : ℝ) * (1 / alpha f) :=
    mul_pos (by split_ifs <;> norm_num) (one_div_pos.mpr (ha f))
  rw [sign_pos this, one_mul]

/-! ## A shared precision (`rvm = False`) -/

theorem active_shared (KtK : Matrix n n 𝕜) (t : ℝ) (ht : t < 1e10) : Active KtK (fun _ => t) = Valid KtK := by
  funext f
  exact propext ⟨fun h => h.2, fun h => ⟨ht, h⟩⟩

open Classical in
theorem hasDerivAt_shared (hchol : CholeskySpec chol) (cplx : Bool) (beta : ℝ) (hb : 0 < beta) (KtK : Matrix n n 𝕜)
    (hK : KtK.PosSemidef) (y : n → 𝕜) (a : ℝ) (ha : 0 < a) (ha' : a < 1e10) (d : ℝ) :
    HasDerivAt (fun t => evidence chol pinvh cplx false beta KtK y (fun _ => t) d)
      (∑ f : {f // Active KtK (fun _ => a) f}, alphaDer chol pinvh cplx false beta KtK y (fun _ => a) f) a := by
  obtain ⟨P, hPdef⟩ : ∃ P, P = Valid KtK := ⟨_, rfl⟩
  have hP : ∀ t < 1e10, Active KtK (fun _ => t) = P := fun t ht => by rw [hPdef, active_shared KtK t ht]
  let At : ℝ → Matrix {f // P f} {f // P f} 𝕜 := fun t => block (regularised false beta KtK fun _ => t) P
  have hpos : ∀ t, 0 < t → (At t).PosDef := fun t ht => posDef_block false beta hb.le KtK hK _ (fun _ => ht) P
  have hAder : ∀ i j, HasDerivAt (fun t => At t i j) ((1 : Matrix {f // P f} {f // P f} 𝕜) i j) a := by
    intro i j
    simp only [At, block_regularised, Matrix.add_apply, Bool.false_eq_true, if_false, diagonal_apply, one_apply]
    refine HasDerivAt.const_add _ ?_
    split_ifs
    · have h := (RCLike.ofRealCLM (K := 𝕜)).hasFDerivAt.comp_hasDerivAt a (hasDerivAt_id a)
      exact h.congr_deriv (by simp)
    · exact hasDerivAt_const _ _
  have hev : ∀ᶠ t in nhds a, (At t).PosDef := by
    filter_upwards [eventually_gt_nhds ha] with t ht using hpos t ht
  have h1 := MatrixDeriv.hasDerivAt_log_det At _ a hAder hev
  have h2 := MatrixDeriv.hasDerivAt_quad At _ (fun _ (f : {f // P f}) => y f) (fun _ => 0) a hAder (fun i => hasDerivAt_const _ _) hev
  have h3 : HasDerivAt (fun t : ℝ => ∑ _f : {f // P f}, Real.log t) (∑ _f : {f // P f}, a⁻¹) a :=
    HasDerivAt.fun_sum fun _ _ => Real.hasDerivAt_log ha.ne'
  have h4 := (((h1.const_sub d).add h3).add (h2.const_mul (beta ^ 2))).const_mul (if cplx then 1 else 1 / 2 : ℝ)
  refine (h4.congr_of_eventuallyEq ?_).congr_deriv ?_
  · filter_upwards [eventually_gt_nhds ha, eventually_lt_nhds ha'] with t ht ht'
    exact evidence_eq pinvh hchol cplx beta KtK y _ (fun _ => ht) d P (hP t ht') (hpos t ht)
  · have hPa := hP a ha'
    subst hPa
    have hp := hpos a ha
    have hw := weights_active pinvh false beta KtK y (fun _ => a) hp
    have hd : ∀ f : {f // Active KtK (fun _ => a) f}, alphaDer chol pinvh cplx false beta KtK y (fun _ => a) f
        = (if cplx then 1 else 1 / 2) * (-RCLike.re ((At a)⁻¹ f f) + a⁻¹
            - beta ^ 2 * ‖((At a)⁻¹ *ᵥ fun g : {f // Active KtK (fun _ => a) f} => y g) f‖ ^ 2) := by
      intro f
      obtain ⟨e1, e2⟩ := active_values pinvh hchol false beta hb.le KtK hK y (fun _ => a) (fun _ => ha) f.1 f.2
      unfold alphaDer
      simp only [dif_pos f.2, Bool.false_eq_true, if_false, Bool.false_or, Bool.not_eq_true', re_star_mul]
      rw [e1, e2]
      cases cplx
      · simp only [Bool.false_eq_true, if_false, if_true]
        rw [one_div a]
        ring
      · simp only [Bool.true_eq_false, if_false, if_true]
        rw [one_div a]
        ring
    simp only [hd]
    rw [← Finset.mul_sum]
    congr 1
    rw [Finset.sum_sub_distrib, Finset.sum_add_distrib, Finset.sum_neg_distrib, ← Finset.mul_sum, mul_one, one_mulVec, trace, map_sum,
      ← re_star_dot]
    simp only [diag_apply, dotProduct_zero', map_zero, mul_zero]
    ring

open Classical in
theorem hasDerivAt_shared_half (hchol : CholeskySpec chol) (beta : ℝ) (hb : 0 < beta) (KtK : Matrix n n 𝕜)
    (hK : KtK.PosSemidef) (y : n → 𝕜) (a : ℝ) (ha : 0 < a) (ha' : a < 1e10) (d : ℝ) :
    HasDerivAt (fun t => evidence chol pinvh true true beta KtK y (fun _ => t) d)
      (∑ f : {f // Active KtK (fun _ => a) f}, alphaDer chol pinvh true true beta KtK y (fun _ => a) f) a := by
  obtain ⟨P, hPdef⟩ : ∃ P, P = Valid KtK := ⟨_, rfl⟩
  have hP : ∀ t < 1e10, Active KtK (fun _ => t) = P := fun t ht => by rw [hPdef, active_shared KtK t ht]
  let At : ℝ → Matrix {f // P f} {f // P f} 𝕜 := fun t => block (regularised true beta KtK fun _ => t) P
  have hpos : ∀ t, 0 < t → (At t).PosDef := fun t ht => posDef_block true beta hb.le KtK hK _ (fun _ => ht) P
  have hAder : ∀ i j, HasDerivAt (fun t => At t i j) ((((1 / 2 : ℝ) : 𝕜) • (1 : Matrix {f // P f} {f // P f} 𝕜)) i j) a := by
    intro i j
    simp only [At, block_regularised, Matrix.add_apply, if_true, diagonal_apply, one_apply, Matrix.smul_apply, smul_eq_mul]
    refine HasDerivAt.const_add _ ?_
    split_ifs
    · rw [mul_one]
      exact (RCLike.ofRealCLM (K := 𝕜)).hasFDerivAt.comp_hasDerivAt a ((hasDerivAt_id a).div_const 2)
    · rw [mul_zero]
      exact hasDerivAt_const _ _
  have hev : ∀ᶠ t in nhds a, (At t).PosDef := by
    filter_upwards [eventually_gt_nhds ha] with t ht using hpos t ht
  have h1 := MatrixDeriv.hasDerivAt_log_det At _ a hAder hev
  have h2 := MatrixDeriv.hasDerivAt_quad At _ (fun _ (f : {f // P f}) => y f) (fun _ => 0) a hAder (fun i => hasDerivAt_const _ _) hev
  have h3 : HasDerivAt (fun t : ℝ => ∑ _f : {f // P f}, Real.log (t / 2)) (∑ _f : {f // P f}, a⁻¹) a := by
    refine HasDerivAt.fun_sum fun _ _ => ?_
    refine (((hasDerivAt_id a).div_const 2).log (half_pos ha).ne').congr_deriv ?_
    simp only [id]
    field_simp
  have h4 := ((((h1.const_mul (1 / 2)).const_sub d).add (h3.const_mul (1 / 2))).add (h2.const_mul (beta ^ 2)))
  refine (h4.congr_of_eventuallyEq ?_).congr_deriv ?_
  · filter_upwards [eventually_gt_nhds ha, eventually_lt_nhds ha'] with t ht ht'
    exact evidence_half pinvh hchol beta KtK y _ (fun _ => ht) d P (hP t ht') (hpos t ht)
  · have hPa := hP a ha'
    subst hPa
    have hp := hpos a ha
    have hd : ∀ f : {f // Active KtK (fun _ => a) f}, alphaDer chol pinvh true true beta KtK y (fun _ => a) f
        = 1 / 2 * (-(1 / 2 * RCLike.re ((At a)⁻¹ f f)) + a⁻¹
            - beta ^ 2 * ‖((At a)⁻¹ *ᵥ fun g : {f // Active KtK (fun _ => a) f} => y g) f‖ ^ 2) := by
      intro f
      obtain ⟨e1, e2⟩ := active_values pinvh hchol true beta hb.le KtK hK y (fun _ => a) (fun _ => ha) f.1 f.2
      unfold alphaDer
      simp only [dif_pos f.2, if_true, Bool.true_or, re_star_mul]
      rw [e1, e2, one_div a]
      ring
    simp only [hd]
    rw [← Finset.mul_sum, Finset.sum_sub_distrib, Finset.sum_add_distrib, Finset.sum_neg_distrib, ← Finset.mul_sum, ← Finset.mul_sum,
      Matrix.mul_smul, trace_smul, smul_mulVec, dotProduct_smul, smul_eq_mul, smul_eq_mul, RCLike.re_ofReal_mul, RCLike.re_ofReal_mul,
      mul_one, one_mulVec, trace, map_sum, ← re_star_dot]
    simp only [diag_apply, dotProduct_zero', map_zero, mul_zero]
    ring

open Classical in
theorem sign_shared (hchol : CholeskySpec chol) (cplx half : Bool) (hh : half = true → cplx = true) (beta : ℝ) (hb : 0 < beta)
    (KtK : Matrix n n 𝕜) (hK : KtK.PosSemidef) (y : n → 𝕜) (a : ℝ) (ha : 0 < a) (ha' : a < 1e10)
    (hex : ∃ f, Active KtK (fun _ => a) f) (g : n) :
    SignType.sign (newAlpha chol pinvh half false beta KtK y (fun _ => a) g - a)
      = SignType.sign (∑ f : {f // Active KtK (fun _ => a) f}, alphaDer chol pinvh cplx half beta KtK y (fun _ => a) f) := by
  rw [newAlpha_shared pinvh hchol half beta hb KtK hK y _ (fun _ => ha),
    sign_clipQuot (gamma_sum_pos pinvh hchol half beta hb KtK hK _ (fun _ => ha) hex) (Finset.sum_nonneg fun _ _ => sq_nonneg _) ha ha']
  have e : ∀ f : {f // Active KtK (fun _ => a) f}, alphaDer chol pinvh cplx half beta KtK y (fun _ => a) f = _ := fun f =>
    alphaDer_gamma pinvh cplx half hh beta KtK y (fun _ => a) f ha f.2
  simp only [e]
  rw [← Finset.mul_sum, sign_mul]
  have : 0 < (if half || !cplx then 1 / 2 else 1 : ℝ) * (1 / a) :=
    mul_pos (by split_ifs <;> norm_num) (one_div_pos.mpr ha)
  rw [sign_pos this, one_mul, Finset.sum_sub_distrib, ← Finset.mul_sum]
  congr 3
  refine (Finset.sum_subset_zero_on_sdiff (s₁ := (Finset.univ.filter (Active KtK fun _ => a))) (Finset.subset_univ _) ?_ fun _ _ => rfl).symm.trans ?_
  · intro f hf
    have : ¬ Active KtK (fun _ => a) f := by simpa using hf
    have h0 : weights pinvh half beta KtK y (fun _ => a) f = 0 := dif_neg this
    rw [h0, norm_zero]
    norm_num
  · exact Finset.sum_subtype _ (by simp) _

/-! ## The loop -/

/-- One iteration without the noise. -/
theorem opt_one (half rvm : Bool) (N : ℝ) (e : (n → 𝕜) → Option ℝ) (KtK : Matrix n n 𝕜) (y : n → 𝕜) (alpha : n → ℝ) (beta : ℝ)
    (hex : ∃ f, Active KtK alpha f) :
    ∃ b, optAlphaBeta chol pinvh half rvm true false N e KtK y 1 alpha beta
      = some (⟨newAlpha chol pinvh half rvm beta KtK y alpha, beta, alpha, beta⟩, b) := by
  unfold optAlphaBeta
  simp only [if_pos hex, if_true, Bool.false_eq_true, if_false, Option.bind_eq_bind, Option.bind_some]
  by_cases h : Converged true false alpha (newAlpha chol pinvh half rvm beta KtK y alpha) beta beta
  · exact ⟨true, if_pos h⟩
  · exact ⟨false, if_neg h⟩

end General

section Claims

variable {chol : {m : Type} → [Fintype m] → Matrix m m 𝕜 → Option (Matrix m m 𝕜)}
variable (pinvh : {m : Type} → [Fintype m] → Matrix m m 𝕜 → Matrix m m 𝕜)

/-- C85, separate precisions, log-amplitudes: one iteration raises the precision of a feature if the evidence increases with it, lowers
it if the evidence decreases with it and leaves it alone if the derivative is zero. -/
theorem C85_logspace_rvm (hchol : CholeskySpec chol) (cplx : Bool) (noise : ℝ) (hn : 0 < noise)
    (K : Matrix ι n 𝕜) (weightings : Option (ι → ℝ)) (hv : ∀ v, weightings = some v → ∀ i, 0 ≤ v i) (data : ι → 𝕜) (alpha : n → ℝ)
    (ha : ∀ f, 0 < alpha f) (f : n) (h1 : alpha f < 1e10)
    (h2 : 1e-10 < Spec.occurrence K (fun i => (weightings.elim 1 fun v => v i)) f) :
    ∃ (st : State n) (b : Bool) (D : ℝ), logSpaceOpt chol pinvh true true false K weightings data 1 alpha noise = some (st, b) ∧
      HasDerivAt (fun t => logSpaceLogMargLik chol pinvh cplx noise K weightings data (Function.update alpha f t)) D (alpha f) ∧
      SignType.sign (st.alpha f - alpha f) = SignType.sign D := by
  have hS := logWeights_nonneg weightings hv
  have hd := C82_logspace_partial hchol pinvh cplx noise hn K weightings hv data alpha ha f h1 h2
  have e : (fun i => (weightings.elim 1 fun v => v i)) = logWeights weightings := by cases weightings <;> rfl
  rw [e] at h2
  have hact := active_of K _ hS alpha f h1 h2
  obtain ⟨b, hb⟩ := opt_one (chol := chol) pinvh false true (dataCount weightings) (squaredError K weightings data)
    (gram K (logWeights weightings)) (rhs K fun i => (logWeights weightings i : 𝕜) * data i) alpha (1 / noise) ⟨f, hact⟩
  exact ⟨_, b, _, hb, hd, sign_rvm pinvh hchol cplx false (by simp) _ (one_div_pos.mpr hn) _ (gram_posSemidef K _ hS) _ alpha ha f hact⟩

/-- C85, separate precisions, exponentials. -/
theorem C85_exp_rvm (hchol : CholeskySpec chol) (cplx : Bool) (noise : ℝ) (mode : NoiseMode ι)
    (K : Matrix ι n 𝕜) (weightings : Option (ι → ℝ)) (amps data : ι → 𝕜) (alpha : n → ℝ) (ha : ∀ f, 0 < alpha f)
    (S : ι → ℝ) (hSdef : S = expWeights noise mode weightings amps) (hS : ∀ i, 0 ≤ S i)
    (l : ℝ) (hl : expLogMargLik chol pinvh cplx noise mode K weightings amps data alpha = some l)
    (f : n) (h1 : alpha f < 1e10) (h2 : 1e-10 < Spec.occurrence K S f) :
    ∃ (st : State n) (b : Bool) (L : ℝ → ℝ) (D : ℝ), expOpt chol pinvh true noise mode K weightings amps data 1 alpha = some (st, b) ∧
      (∀ t, expLogMargLik chol pinvh cplx noise mode K weightings amps data (Function.update alpha f t) = some (L t)) ∧
      HasDerivAt L D (alpha f) ∧ SignType.sign (st.alpha f - alpha f) = SignType.sign D := by
  obtain ⟨L, hL, hd⟩ := C82_exp_partial hchol pinvh cplx noise mode K weightings amps data alpha ha S hSdef hS l hl f h1 h2
  subst hSdef
  have hact := active_of K _ hS alpha f h1 h2
  obtain ⟨b, hb⟩ := opt_one (chol := chol) pinvh false true 0 (fun _ => none) (gram K (expWeights noise mode weightings amps)) (rhs K (multiplicator (expWeights noise mode weightings amps) amps data)) alpha 1
    ⟨f, hact⟩
  refine ⟨_, b, L, _, hb, hL, hd, ?_⟩
  · exact sign_rvm pinvh hchol cplx false (by simp) 1 one_pos _ (gram_posSemidef K _ hS) _ alpha ha f hact

open Classical in
/-- C85, one precision for all features, log-amplitudes: the same with the derivative of the evidence with respect to the common value. -/
theorem C85_logspace_shared (hchol : CholeskySpec chol) (cplx : Bool) (noise : ℝ) (hn : 0 < noise)
    (K : Matrix ι n 𝕜) (weightings : Option (ι → ℝ)) (hv : ∀ v, weightings = some v → ∀ i, 0 ≤ v i) (data : ι → 𝕜) (a : ℝ)
    (ha : 0 < a) (ha' : a < 1e10) (f : n) (h2 : 1e-10 < Spec.occurrence K (fun i => (weightings.elim 1 fun v => v i)) f) :
    ∃ (st : State n) (b : Bool) (D : ℝ), logSpaceOpt chol pinvh false true false K weightings data 1 (fun _ => a) noise = some (st, b) ∧
      HasDerivAt (fun t => logSpaceLogMargLik chol pinvh cplx noise K weightings data fun _ => t) D a ∧
      ∀ g, SignType.sign (st.alpha g - a) = SignType.sign D := by
  have hS := logWeights_nonneg weightings hv
  have e : (fun i => (weightings.elim 1 fun v => v i)) = logWeights weightings := by cases weightings <;> rfl
  rw [e] at h2
  have hact := active_of K _ hS (fun _ => a) f ha' h2
  obtain ⟨b, hb⟩ := opt_one (chol := chol) pinvh false false (dataCount weightings) (squaredError K weightings data)
    (gram K (logWeights weightings)) (rhs K fun i => (logWeights weightings i : 𝕜) * data i) (fun _ => a) (1 / noise) ⟨f, hact⟩
  exact ⟨_, b, _, hb, hasDerivAt_shared pinvh hchol cplx _ (one_div_pos.mpr hn) _ (gram_posSemidef K _ hS) _ a ha ha' _,
    fun g => sign_shared pinvh hchol cplx false (by simp) _ (one_div_pos.mpr hn) _ (gram_posSemidef K _ hS) _ a ha ha' ⟨f, hact⟩ g⟩

open Classical in
/-- C85, one precision for all features, exponentials. -/
theorem C85_exp_shared (hchol : CholeskySpec chol) (cplx : Bool) (noise : ℝ) (mode : NoiseMode ι)
    (K : Matrix ι n 𝕜) (weightings : Option (ι → ℝ)) (amps data : ι → 𝕜) (a : ℝ) (ha : 0 < a) (ha' : a < 1e10)
    (S : ι → ℝ) (hSdef : S = expWeights noise mode weightings amps) (hS : ∀ i, 0 ≤ S i)
    (l : ℝ) (hl : expLogMargLik chol pinvh cplx noise mode K weightings amps data (fun _ => a) = some l)
    (f : n) (h2 : 1e-10 < Spec.occurrence K S f) :
    ∃ (st : State n) (b : Bool) (L : ℝ → ℝ) (D : ℝ),
      expOpt chol pinvh false noise mode K weightings amps data 1 (fun _ => a) = some (st, b) ∧
      (∀ t, expLogMargLik chol pinvh cplx noise mode K weightings amps data (fun _ => t) = some (L t)) ∧
      HasDerivAt L D a ∧ ∀ g, SignType.sign (st.alpha g - a) = SignType.sign D := by
  subst hSdef
  have hact := active_of K _ hS (fun _ => a) f ha' h2
  obtain ⟨b, hb⟩ := opt_one (chol := chol) pinvh false false 0 (fun _ => none) (gram K (expWeights noise mode weightings amps)) (rhs K (multiplicator (expWeights noise mode weightings amps) amps data)) (fun _ => a) 1
    ⟨f, hact⟩
  unfold expLogMargLik at hl ⊢
  obtain ⟨d, hd⟩ := map_some_of _ (fun t => evidence chol pinvh cplx false 1 (gram K (expWeights noise mode weightings amps)) (rhs K (multiplicator (expWeights noise mode weightings amps) amps data)) fun _ => t)
    l a hl
  refine ⟨_, b, _, _, hb, hd, hasDerivAt_shared pinvh hchol cplx 1 one_pos _ (gram_posSemidef K _ hS) _ a ha ha' d,
    fun g => sign_shared pinvh hchol cplx false (by simp) 1 one_pos _ (gram_posSemidef K _ hS) _ a ha ha' ⟨f, hact⟩ g⟩

end Claims

section Expand

variable {chol : {m : Type} → [Fintype m] → Matrix m m ℝ → Option (Matrix m m ℝ)}
variable (pinvh : {m : Type} → [Fintype m] → Matrix m m ℝ → Matrix m m ℝ)

/-- C85, separate precisions, exponentials with `complex_expand`. -/
theorem C85_exp_expand_rvm (hchol : CholeskySpec chol) (noise : ℝ) (mode : NoiseMode ι)
    (K : Matrix ι n ℂ) (weightings : Option (ι → ℝ)) (amps data : ι → ℂ) (alpha : n ⊕ n → ℝ) (ha : ∀ f, 0 < alpha f)
    (S : ι → ℝ) (hSdef : S = expWeights noise mode weightings amps) (hS : ∀ i, 0 ≤ S i)
    (l : ℝ) (hl : expLogMargLikExpand chol pinvh noise mode K weightings amps data alpha = some l)
    (f : n ⊕ n) (h1 : alpha f < 1e10) (h2 : 1e-10 < Spec.occurrence K S (Sum.elim id id f)) :
    ∃ (st : State (n ⊕ n)) (b : Bool) (L : ℝ → ℝ) (D : ℝ),
      expOptExpand chol pinvh true noise mode K weightings amps data 1 alpha = some (st, b) ∧
      (∀ t, expLogMargLikExpand chol pinvh noise mode K weightings amps data (Function.update alpha f t) = some (L t)) ∧
      HasDerivAt L D (alpha f) ∧ SignType.sign (st.alpha f - alpha f) = SignType.sign D := by
  obtain ⟨L, hL, hd⟩ := C82_expand_partial hchol pinvh noise mode K weightings amps data alpha ha S hSdef hS l hl f h1 h2
  subst hSdef
  have hact : Active (expandMat (gram K (expWeights noise mode weightings amps))) alpha f := by
    rw [active_expand K _ hS]
    exact ⟨h1, h2⟩
  obtain ⟨b, hb⟩ := opt_one (chol := chol) pinvh true true 0 (fun _ => none) (expandMat (gram K (expWeights noise mode weightings amps)))
    (expandVec (rhs K (multiplicator (expWeights noise mode weightings amps) amps data))) alpha 1 ⟨f, hact⟩
  exact ⟨_, b, L, _, hb, hL, hd,
    sign_rvm pinvh hchol true true (fun _ => rfl) 1 one_pos _ (posSemidef_expand K _ hS) _ alpha ha f hact⟩

open Classical in
/-- C85, one precision for all features, exponentials with `complex_expand`. -/
theorem C85_exp_expand_shared (hchol : CholeskySpec chol) (noise : ℝ) (mode : NoiseMode ι)
    (K : Matrix ι n ℂ) (weightings : Option (ι → ℝ)) (amps data : ι → ℂ) (a : ℝ) (ha : 0 < a) (ha' : a < 1e10)
    (S : ι → ℝ) (hSdef : S = expWeights noise mode weightings amps) (hS : ∀ i, 0 ≤ S i)
    (l : ℝ) (hl : expLogMargLikExpand chol pinvh noise mode K weightings amps data (fun _ => a) = some l)
    (f : n ⊕ n) (h2 : 1e-10 < Spec.occurrence K S (Sum.elim id id f)) :
    ∃ (st : State (n ⊕ n)) (b : Bool) (L : ℝ → ℝ) (D : ℝ),
      expOptExpand chol pinvh false noise mode K weightings amps data 1 (fun _ => a) = some (st, b) ∧
      (∀ t, expLogMargLikExpand chol pinvh noise mode K weightings amps data (fun _ => t) = some (L t)) ∧
      HasDerivAt L D a ∧ ∀ g, SignType.sign (st.alpha g - a) = SignType.sign D := by
  subst hSdef
  have hact : Active (expandMat (gram K (expWeights noise mode weightings amps))) (fun _ => a) f := by
    rw [active_expand K _ hS]
    exact ⟨ha', h2⟩
  obtain ⟨b, hb⟩ := opt_one (chol := chol) pinvh true false 0 (fun _ => none) (expandMat (gram K (expWeights noise mode weightings amps)))
    (expandVec (rhs K (multiplicator (expWeights noise mode weightings amps) amps data))) (fun _ => a) 1 ⟨f, hact⟩
  unfold expLogMargLikExpand at hl ⊢
  obtain ⟨d, hd⟩ := map_some_of _ (fun t => evidence chol pinvh true true 1 (expandMat (gram K (expWeights noise mode weightings amps)))
    (expandVec (rhs K (multiplicator (expWeights noise mode weightings amps) amps data))) fun _ => t) l a hl
  exact ⟨_, b, _, _, hb, hd, hasDerivAt_shared_half pinvh hchol 1 one_pos _ (posSemidef_expand K _ hS) _ a ha ha' d,
    fun g => sign_shared pinvh hchol true true (fun _ => rfl) 1 one_pos _ (posSemidef_expand K _ hS) _ a ha ha' ⟨f, hact⟩ g⟩

/-- C85, separate precisions, log-amplitudes with `complex_expand`. -/
theorem C85_logspace_expand_rvm (hchol : CholeskySpec chol) (noise : ℝ) (hn : 0 < noise)
    (K : Matrix ι n ℂ) (weightings : Option (ι → ℝ)) (hv : ∀ v, weightings = some v → ∀ i, 0 ≤ v i) (data : ι → ℂ)
    (alpha : n ⊕ n → ℝ) (ha : ∀ f, 0 < alpha f) (f : n ⊕ n) (h1 : alpha f < 1e10)
    (h2 : 1e-10 < Spec.occurrence K (fun i => (weightings.elim 1 fun v => v i)) (Sum.elim id id f)) :
    ∃ (st : State (n ⊕ n)) (b : Bool) (D : ℝ), logSpaceOptExpand chol pinvh true true false K weightings data 1 alpha noise = some (st, b) ∧
      HasDerivAt (fun t => logSpaceLogMargLikExpand chol pinvh noise K weightings data (Function.update alpha f t)) D (alpha f) ∧
      SignType.sign (st.alpha f - alpha f) = SignType.sign D := by
  have hS := logWeights_nonneg weightings hv
  have hd := C82_logspace_expand_partial hchol pinvh noise hn K weightings hv data alpha ha f h1 h2
  have e : (fun i => (weightings.elim 1 fun v => v i)) = logWeights weightings := by cases weightings <;> rfl
  rw [e] at h2
  have hact : Active (expandMat (gram K (logWeights weightings))) alpha f := by
    rw [active_expand K _ hS]
    exact ⟨h1, h2⟩
  obtain ⟨b, hb⟩ := opt_one (chol := chol) pinvh true true (dataCount weightings) (squaredErrorExpand K weightings data)
    (expandMat (gram K (logWeights weightings))) (expandVec (rhs K fun i => (logWeights weightings i : ℂ) * data i)) alpha (1 / noise)
    ⟨f, hact⟩
  exact ⟨_, b, _, hb, hd, sign_rvm pinvh hchol true true (fun _ => rfl) _ (one_div_pos.mpr hn) _ (posSemidef_expand K _ hS) _ alpha ha f hact⟩

open Classical in
/-- C85, one precision for all features, log-amplitudes with `complex_expand`. -/
theorem C85_logspace_expand_shared (hchol : CholeskySpec chol) (noise : ℝ) (hn : 0 < noise)
    (K : Matrix ι n ℂ) (weightings : Option (ι → ℝ)) (hv : ∀ v, weightings = some v → ∀ i, 0 ≤ v i) (data : ι → ℂ) (a : ℝ)
    (ha : 0 < a) (ha' : a < 1e10) (f : n ⊕ n)
    (h2 : 1e-10 < Spec.occurrence K (fun i => (weightings.elim 1 fun v => v i)) (Sum.elim id id f)) :
    ∃ (st : State (n ⊕ n)) (b : Bool) (D : ℝ),
      logSpaceOptExpand chol pinvh false true false K weightings data 1 (fun _ => a) noise = some (st, b) ∧
      HasDerivAt (fun t => logSpaceLogMargLikExpand chol pinvh noise K weightings data fun _ => t) D a ∧
      ∀ g, SignType.sign (st.alpha g - a) = SignType.sign D := by
  have hS := logWeights_nonneg weightings hv
  have e : (fun i => (weightings.elim 1 fun v => v i)) = logWeights weightings := by cases weightings <;> rfl
  rw [e] at h2
  have hact : Active (expandMat (gram K (logWeights weightings))) (fun _ => a) f := by
    rw [active_expand K _ hS]
    exact ⟨ha', h2⟩
  obtain ⟨b, hb⟩ := opt_one (chol := chol) pinvh true false (dataCount weightings) (squaredErrorExpand K weightings data)
    (expandMat (gram K (logWeights weightings))) (expandVec (rhs K fun i => (logWeights weightings i : ℂ) * data i)) (fun _ => a) (1 / noise)
    ⟨f, hact⟩
  exact ⟨_, b, _, hb, hasDerivAt_shared_half pinvh hchol _ (one_div_pos.mpr hn) _ (posSemidef_expand K _ hS) _ a ha ha' _,
    fun g => sign_shared pinvh hchol true true (fun _ => rfl) _ (one_div_pos.mpr hn) _ (posSemidef_expand K _ hS) _ a ha ha' ⟨f, hact⟩ g⟩

end Expand

/-- The hypotheses of C85 hold for one datum and one feature. -/
example : ∃ chol : {m : Type} → [Fintype m] → Matrix m m ℝ → Option (Matrix m m ℝ), CholeskySpec chol ∧
    ∃ (st : State Unit) (b : Bool) (D : ℝ),
      logSpaceOpt (fun {_} => chol) (fun A => A) true true false (1 : Matrix Unit Unit ℝ) none (fun _ => 3) 1 (fun _ => 2) (1 / 10) = some (st, b) ∧
      HasDerivAt (fun t => logSpaceLogMargLik (fun {_} => chol) (fun A => A) false (1 / 10) (1 : Matrix Unit Unit ℝ) none (fun _ => 3)
        (Function.update (fun _ => 2) () t)) D 2 ∧
      SignType.sign (st.alpha () - 2) = SignType.sign D := by
  obtain ⟨chol, hchol⟩ := exists_choleskySpec (𝕜 := ℝ)
  refine ⟨chol, hchol, C85_logspace_rvm (fun A => A) hchol false (1 / 10) (by norm_num) 1 none (by simp) (fun _ => 3) (fun _ => 2) (by simp)
    () (by norm_num) ?_⟩
  simp [Spec.occurrence]
  norm_num

end GPSKet.OptAlpha
