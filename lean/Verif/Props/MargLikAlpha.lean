import Verif.Props.MargLik
import Verif.Lemmas.RankOne
import Mathlib.Analysis.SpecialFunctions.Log.Deriv
import Mathlib.Analysis.Calculus.Deriv.Inv

/-! # C82: `log_marg_lik_alpha_der` is the derivative of `log_marg_lik` -/

namespace GPSKet.MargLik

open Matrix GPSKet.SupervisedFit
open scoped ComplexOrder

variable {𝕜 : Type} [RCLike 𝕜] {ι n : Type} [Fintype ι] [Fintype n] [DecidableEq n]

theorem active_update (KtK : Matrix n n 𝕜) (alpha : n → ℝ) (f : n) (hf : Active KtK alpha f) (t : ℝ) (ht : t < 1e10) :
    Active KtK (Function.update alpha f t) = Active KtK alpha := by
  funext g
  by_cases h : g = f
  · subst h
    simp only [Active, Function.update_self, eq_iff_iff]
    exact iff_of_true ⟨ht, hf.2⟩ hf
  · simp [Active, Function.update_of_ne h]

open Classical in
theorem regularised_update (half : Bool) (beta : ℝ) (KtK : Matrix n n 𝕜) (alpha : n → ℝ) (f : n) (s : ℝ) (P : n → Prop) (hf : P f) :
    block (regularised half beta KtK (Function.update alpha f (alpha f + s))) P
      = block (regularised half beta KtK alpha) P
        + Matrix.single ⟨f, hf⟩ ⟨f, hf⟩ (((if half then s / 2 else s : ℝ)) : 𝕜) := by
  rw [block_regularised, block_regularised, add_assoc]
  congr 1
  ext a b
  simp only [Matrix.add_apply, diagonal_apply, Matrix.single_apply]
  by_cases hab : a = b
  · subst hab
    by_cases haf : a = ⟨f, hf⟩
    · subst haf
      cases half <;> simp [add_div]
    · have h1 : (a : n) ≠ f := fun h => haf (Subtype.ext h)
      have h2 : ¬ (⟨f, hf⟩ = a) := fun h => haf h.symm
      simp [Function.update_of_ne h1, h2]
  · have : ¬ ((⟨f, hf⟩ : {f // P f}) = a ∧ (⟨f, hf⟩ : {f // P f}) = b) := fun h => hab (h.1.symm.trans h.2)
    simp [hab, this]

theorem sum_log_update (alpha : n → ℝ) (P : n → Prop) [Fintype {f // P f}] (f : n) (hf : P f) (t : ℝ) (F : ℝ → ℝ) :
    ∑ g : {f // P f}, F (Function.update alpha f t g) = (∑ g : {f // P f}, F (alpha g)) + (F t - F (alpha f)) := by
  classical
  rw [← Finset.add_sum_erase _ _ (Finset.mem_univ (⟨f, hf⟩ : {f // P f})),
    ← Finset.add_sum_erase _ (fun g : {f // P f} => F (alpha g)) (Finset.mem_univ (⟨f, hf⟩ : {f // P f}))]
  have : ∀ g ∈ Finset.univ.erase (⟨f, hf⟩ : {f // P f}), F (Function.update alpha f t g) = F (alpha g) := by
    intro g hg
    have h1 : (g : n) ≠ f := fun h => (Finset.mem_erase.mp hg).1 (Subtype.ext h)
    rw [Function.update_of_ne h1]
  rw [Finset.sum_congr rfl this]
  simp only [Function.update_self]
  ring

section Change

variable {chol : {m : Type} → [Fintype m] → Matrix m m 𝕜 → Option (Matrix m m 𝕜)}
variable (pinvh : {m : Type} → [Fintype m] → Matrix m m 𝕜 → Matrix m m 𝕜)

open Classical in
theorem posDef_block (half : Bool) (beta : ℝ) (hb : 0 ≤ beta) (KtK : Matrix n n 𝕜) (hK : KtK.PosSemidef) (alpha : n → ℝ)
    (ha : ∀ f, 0 < alpha f) (P : n → Prop) : (block (regularised half beta KtK alpha) P).PosDef := by
  have h1 : ((beta : 𝕜) • block KtK P).PosSemidef := (hK.submatrix _).smul (RCLike.ofReal_nonneg.mpr hb)
  rw [block_regularised]
  refine Matrix.PosDef.posSemidef_add h1 (Matrix.PosDef.diagonal fun f => RCLike.ofReal_pos.mpr ?_)
  cases half
  · exact ha f
  · exact half_pos (ha f)

open Classical in
/-- The weight of a feature and the diagonal of the inverse that the code computes, for an active feature. -/
theorem active_values (hchol : CholeskySpec chol) (half : Bool) (beta : ℝ) (hb : 0 ≤ beta) (KtK : Matrix n n 𝕜) (hK : KtK.PosSemidef)
    (y : n → 𝕜) (alpha : n → ℝ) (ha : ∀ f, 0 < alpha f) (f : n) (hf : Active KtK alpha f) :
    let A := block (regularised half beta KtK alpha) (Active KtK alpha)
    diagSinv chol pinvh A ⟨f, hf⟩ = RCLike.re (A⁻¹ ⟨f, hf⟩ ⟨f, hf⟩) ∧
    ‖weights pinvh half beta KtK y alpha f‖ ^ 2
      = beta ^ 2 * ‖(A⁻¹ *ᵥ fun g : {f // Active KtK alpha f} => y g) ⟨f, hf⟩‖ ^ 2 := by
  intro A
  have hpos := posDef_block half beta hb KtK hK alpha ha (Active KtK alpha)
  refine ⟨diagSinv_eq hpos (hchol _) _, ?_⟩
  have := congrFun (weights_active pinvh half beta KtK y alpha hpos) ⟨f, hf⟩
  simp only [Pi.smul_apply, smul_eq_mul] at this
  rw [this, norm_mul, mul_pow, RCLike.norm_ofReal, sq_abs]

open Classical in
/-- The exact change of the evidence with one precision. -/
theorem evidence_change (hchol : CholeskySpec chol) (cplx : Bool) (beta : ℝ) (hb : 0 ≤ beta) (KtK : Matrix n n 𝕜)
    (hK : KtK.PosSemidef) (y : n → 𝕜) (alpha : n → ℝ) (ha : ∀ f, 0 < alpha f) (d : ℝ) (f : n) (hf : Active KtK alpha f)
    (s : ℝ) (hs : 0 < alpha f + s) (hs' : alpha f + s < 1e10) :
    let g := diagSinv chol pinvh (block (regularised false beta KtK alpha) (Active KtK alpha)) ⟨f, hf⟩
    let w := weights pinvh false beta KtK y alpha f
    0 < 1 + s * g ∧
    evidence chol pinvh cplx false beta KtK y (Function.update alpha f (alpha f + s)) d
      = evidence chol pinvh cplx false beta KtK y alpha d
        + (if cplx then 1 else 1 / 2) * (Real.log (alpha f + s) - Real.log (alpha f) - Real.log (1 + s * g)
            - s * ‖w‖ ^ 2 / (1 + s * g)) := by
  intro g w
  have ha' : ∀ g, 0 < Function.update alpha f (alpha f + s) g := by
    intro g
    by_cases h : g = f
    · subst h; rwa [Function.update_self]
    · rw [Function.update_of_ne h]; exact ha g
  have hact := active_update KtK alpha f hf _ hs'
  have hval := active_values pinvh hchol false beta hb KtK hK y alpha ha f hf
  have hpos := posDef_block false beta hb KtK hK alpha ha (Active KtK alpha)
  have hpos' := posDef_block false beta hb KtK hK _ ha' (Active KtK alpha)
  rw [evidence_eq pinvh hchol cplx beta KtK y _ ha' d _ hact hpos', evidence_eq pinvh hchol cplx beta KtK y _ ha d _ rfl hpos]
  have hreg := regularised_update false beta KtK alpha f s (Active KtK alpha) hf
  simp only [Bool.false_eq_true, if_false] at hreg
  rw [hreg] at hpos' ⊢
  have hg : g = RCLike.re ((block (regularised false beta KtK alpha) (Active KtK alpha))⁻¹ ⟨f, hf⟩ ⟨f, hf⟩) := hval.1
  refine ⟨by rw [hg]; exact RankOne.one_add_pos hpos _ s hpos', ?_⟩
  rw [RankOne.log_det_change hpos _ s hpos', RankOne.quad_change hpos _ s hpos', sum_log_update alpha _ f hf _ Real.log, ← hg]
  have hw : ‖w‖ ^ 2 = _ := hval.2
  rw [hw]
  ring

open Classical in
/-- The exact change of the evidence with one precision, with `complex_expand`. -/
theorem evidence_change_half (hchol : CholeskySpec chol) (beta : ℝ) (hb : 0 ≤ beta) (KtK : Matrix n n 𝕜)
    (hK : KtK.PosSemidef) (y : n → 𝕜) (alpha : n → ℝ) (ha : ∀ f, 0 < alpha f) (d : ℝ) (f : n) (hf : Active KtK alpha f)
    (s : ℝ) (hs : 0 < alpha f + s) (hs' : alpha f + s < 1e10) :
    let g := diagSinv chol pinvh (block (regularised true beta KtK alpha) (Active KtK alpha)) ⟨f, hf⟩
    let w := weights pinvh true beta KtK y alpha f
    0 < 1 + s / 2 * g ∧
    evidence chol pinvh true true beta KtK y (Function.update alpha f (alpha f + s)) d
      = evidence chol pinvh true true beta KtK y alpha d
        + (1 / 2 * (Real.log (alpha f + s) - Real.log (alpha f) - Real.log (1 + s / 2 * g)) - s / 2 * ‖w‖ ^ 2 / (1 + s / 2 * g)) := by
  intro g w
  have ha' : ∀ g, 0 < Function.update alpha f (alpha f + s) g := by
    intro g
    by_cases h : g = f
    · subst h; rwa [Function.update_self]
    · rw [Function.update_of_ne h]; exact ha g
  have hact := active_update KtK alpha f hf _ hs'
  have hval := active_values pinvh hchol true beta hb KtK hK y alpha ha f hf
  have hpos := posDef_block true beta hb KtK hK alpha ha (Active KtK alpha)
  have hpos' := posDef_block true beta hb KtK hK _ ha' (Active KtK alpha)
  rw [evidence_half pinvh hchol beta KtK y _ ha' d _ hact hpos', evidence_half pinvh hchol beta KtK y _ ha d _ rfl hpos]
  have hreg := regularised_update true beta KtK alpha f s (Active KtK alpha) hf
  simp only [if_true] at hreg
  rw [hreg] at hpos' ⊢
  have hg : g = RCLike.re ((block (regularised true beta KtK alpha) (Active KtK alpha))⁻¹ ⟨f, hf⟩ ⟨f, hf⟩) := hval.1
  refine ⟨by rw [hg]; exact RankOne.one_add_pos hpos _ (s / 2) hpos', ?_⟩
  rw [RankOne.log_det_change hpos _ (s / 2) hpos', RankOne.quad_change hpos _ (s / 2) hpos',
    sum_log_update alpha _ f hf _ (fun x => Real.log (x / 2)), ← hg]
  have hw : ‖w‖ ^ 2 = _ := hval.2
  rw [hw, Real.log_div hs.ne' two_ne_zero, Real.log_div (ha f).ne' two_ne_zero]
  ring

end Change

/-! ## The derivative -/

theorem hasDerivAt_change (a g w2 : ℝ) (ha : 0 < a) :
    HasDerivAt (fun t => Real.log t - Real.log a - Real.log (1 + (t - a) * g) - (t - a) * w2 / (1 + (t - a) * g)) (1 / a - g - w2) a := by
  have h0 : HasDerivAt (fun t : ℝ => t - a) 1 a := (hasDerivAt_id a).sub_const a
  have h1 : HasDerivAt (fun t : ℝ => 1 + (t - a) * g) g a := by
    simpa using (h0.mul_const g).const_add 1
  have e1 : (1 : ℝ) + (a - a) * g ≠ 0 := by simp
  have h2 := h1.log e1
  have h3 := (h0.mul_const w2).div h1 e1
  have h4 := (((Real.hasDerivAt_log ha.ne').sub_const (Real.log a)).sub h2).sub h3
  refine h4.congr_deriv ?_
  simp

/-- A function that near `a` changes like the evidence has the derivative of the model. -/
theorem hasDerivAt_of_change (F : ℝ → ℝ) (a top g w2 k : ℝ) (ha : 0 < a) (htop : a < top)
    (h : ∀ s, 0 < a + s → a + s < top → F (a + s) = F a + k * (Real.log (a + s) - Real.log a - Real.log (1 + s * g) - s * w2 / (1 + s * g))) :
    HasDerivAt F (k * (1 / a - g - w2)) a := by
  have h1 := ((hasDerivAt_change a g w2 ha).const_mul k).const_add (F a)
  refine h1.congr_of_eventuallyEq ?_
  filter_upwards [eventually_gt_nhds ha, eventually_lt_nhds htop] with t ht ht'
  have := h (t - a) (by linarith) (by linarith)
  rw [show a + (t - a) = t by ring] at this
  exact this

section Der

variable {chol : {m : Type} → [Fintype m] → Matrix m m 𝕜 → Option (Matrix m m 𝕜)}
variable (pinvh : {m : Type} → [Fintype m] → Matrix m m 𝕜 → Matrix m m 𝕜)

theorem hasDerivAt_evidence (hchol : CholeskySpec chol) (cplx : Bool) (beta : ℝ) (hb : 0 ≤ beta) (KtK : Matrix n n 𝕜)
    (hK : KtK.PosSemidef) (y : n → 𝕜) (alpha : n → ℝ) (ha : ∀ f, 0 < alpha f) (d : ℝ) (f : n) (hf : Active KtK alpha f) :
    HasDerivAt (fun t => evidence chol pinvh cplx false beta KtK y (Function.update alpha f t) d)
      (alphaDer chol pinvh cplx false beta KtK y alpha f) (alpha f) := by
  classical
  have h := hasDerivAt_of_change (fun t => evidence chol pinvh cplx false beta KtK y (Function.update alpha f t) d) (alpha f) 1e10
    (diagSinv chol pinvh (block (regularised false beta KtK alpha) (Active KtK alpha)) ⟨f, hf⟩)
    (‖weights pinvh false beta KtK y alpha f‖ ^ 2) (if cplx then 1 else 1 / 2) (ha f) hf.1 (by
      intro s hs hs'
      have := (evidence_change pinvh hchol cplx beta hb KtK hK y alpha ha d f hf s hs hs').2
      simp only [Function.update_eq_self]
      exact this)
  refine h.congr_deriv ?_
  unfold alphaDer
  simp only [dif_pos hf, Bool.false_eq_true, if_false, Bool.false_or, Bool.not_eq_true']
  rw [RCLike.star_def, RCLike.conj_mul, ← RCLike.ofReal_pow, RCLike.ofReal_re]
  cases cplx
  · simp only [Bool.false_eq_true, if_false, if_true]
    ring
  · simp only [Bool.true_eq_false, if_false, if_true]
    ring

theorem hasDerivAt_evidence_half (hchol : CholeskySpec chol) (beta : ℝ) (hb : 0 ≤ beta) (KtK : Matrix n n 𝕜)
    (hK : KtK.PosSemidef) (y : n → 𝕜) (alpha : n → ℝ) (ha : ∀ f, 0 < alpha f) (d : ℝ) (f : n) (hf : Active KtK alpha f) :
    HasDerivAt (fun t => evidence chol pinvh true true beta KtK y (Function.update alpha f t) d)
      (alphaDer chol pinvh true true beta KtK y alpha f) (alpha f) := by
  classical
  have h := hasDerivAt_of_change (fun t => evidence chol pinvh true true beta KtK y (Function.update alpha f t) d) (alpha f) 1e10
    (diagSinv chol pinvh (block (regularised true beta KtK alpha) (Active KtK alpha)) ⟨f, hf⟩ / 2)
    (‖weights pinvh true beta KtK y alpha f‖ ^ 2) (1 / 2) (ha f) hf.1 (by
      intro s hs hs'
      have := (evidence_change_half pinvh hchol beta hb KtK hK y alpha ha d f hf s hs hs').2
      simp only [Function.update_eq_self]
      rw [this]
      congr 1
      ring_nf)
  refine h.congr_deriv ?_
  unfold alphaDer
  simp only [dif_pos hf, if_true, Bool.true_or]
  rw [RCLike.star_def, RCLike.conj_mul, ← RCLike.ofReal_pow, RCLike.ofReal_re]
  ring

end Der

theorem active_of (K : Matrix ι n 𝕜) (S : ι → ℝ) (hS : ∀ i, 0 ≤ S i) (alpha : n → ℝ) (f : n) (h1 : alpha f < 1e10)
    (h2 : 1e-10 < Spec.occurrence K S f) : Active (gram K S) alpha f := by
  rw [active_eq K S hS]
  exact ⟨h1, h2⟩

theorem posSemidef_expand (K : Matrix ι n ℂ) (S : ι → ℝ) (hS : ∀ i, 0 ≤ S i) : (expandMat (gram K S)).PosSemidef := by
  rw [expand_gram]
  apply gram_posSemidef
  rintro (i | i)
  · exact hS i
  · exact hS i

theorem map_some_of (o : Option ℝ) (F : ℝ → ℝ → ℝ) (l t0 : ℝ) (h : o.map (F t0) = some l) : ∃ d, ∀ t, o.map (F t) = some (F t d) := by
  cases o with
  | none => simp at h
  | some d => exact ⟨d, fun t => rfl⟩

/-- C82 for the learner of exponentials: whenever `log_marg_lik` returns a value, it does so for all values of the precision of
the feature `f`, and `log_marg_lik_alpha_der` is the derivative with respect to this precision, if the feature occurs in the data (with
weight above 1e-10) and its precision is below the cutoff.  Real and complex parameters, with and without weightings, all estimates of
the noise, zero amplitudes included. -/
theorem C82_exp_partial {chol : {m : Type} → [Fintype m] → Matrix m m 𝕜 → Option (Matrix m m 𝕜)} (hchol : CholeskySpec chol)
    (pinvh : {m : Type} → [Fintype m] → Matrix m m 𝕜 → Matrix m m 𝕜) (cplx : Bool) (noise : ℝ) (mode : NoiseMode ι)
    (K : Matrix ι n 𝕜) (weightings : Option (ι → ℝ)) (amps data : ι → 𝕜) (alpha : n → ℝ) (ha : ∀ f, 0 < alpha f)
    (S : ι → ℝ) (hSdef : S = expWeights noise mode weightings amps) (hS : ∀ i, 0 ≤ S i)
    (l : ℝ) (hl : expLogMargLik chol pinvh cplx noise mode K weightings amps data alpha = some l)
    (f : n) (h1 : alpha f < 1e10) (h2 : 1e-10 < Spec.occurrence K S f) :
    ∃ L : ℝ → ℝ, (∀ t, expLogMargLik chol pinvh cplx noise mode K weightings amps data (Function.update alpha f t) = some (L t)) ∧
      HasDerivAt L (expAlphaDer chol pinvh cplx noise mode K weightings amps data alpha f) (alpha f) := by
  unfold expLogMargLik at hl ⊢
  unfold expAlphaDer
  simp only [← hSdef] at hl ⊢
  have hl' : (expDataTerm cplx weightings S amps data).map
      ((fun t => evidence chol pinvh cplx false 1 (gram K S) (rhs K (multiplicator S amps data)) (Function.update alpha f t)) (alpha f))
        = some l := by
    simp only [Function.update_eq_self]
    exact hl
  obtain ⟨d, hd⟩ := map_some_of _ (fun t => evidence chol pinvh cplx false 1 (gram K S) (rhs K (multiplicator S amps data))
    (Function.update alpha f t)) l (alpha f) hl'
  exact ⟨_, hd, hasDerivAt_evidence pinvh hchol cplx 1 zero_le_one _ (gram_posSemidef K S hS) _ alpha ha d f
    (active_of K S hS alpha f h1 h2)⟩

/-- C82 for the learner of exponentials with `complex_expand`. -/
theorem C82_expand_partial {chol : {m : Type} → [Fintype m] → Matrix m m ℝ → Option (Matrix m m ℝ)} (hchol : CholeskySpec chol)
    (pinvh : {m : Type} → [Fintype m] → Matrix m m ℝ → Matrix m m ℝ) (noise : ℝ) (mode : NoiseMode ι)
    (K : Matrix ι n ℂ) (weightings : Option (ι → ℝ)) (amps data : ι → ℂ) (alpha : n ⊕ n → ℝ) (ha : ∀ f, 0 < alpha f)
    (S : ι → ℝ) (hSdef : S = expWeights noise mode weightings amps) (hS : ∀ i, 0 ≤ S i)
    (l : ℝ) (hl : expLogMargLikExpand chol pinvh noise mode K weightings amps data alpha = some l)
    (f : n ⊕ n) (h1 : alpha f < 1e10) (h2 : 1e-10 < Spec.occurrence K S (Sum.elim id id f)) :
    ∃ L : ℝ → ℝ, (∀ t, expLogMargLikExpand chol pinvh noise mode K weightings amps data (Function.update alpha f t) = some (L t)) ∧
      HasDerivAt L (expAlphaDerExpand chol pinvh noise mode K weightings amps data alpha f) (alpha f) := by
  unfold expLogMargLikExpand at hl ⊢
  unfold expAlphaDerExpand
  simp only [← hSdef] at hl ⊢
  have hl' : (expDataTerm true weightings S amps data).map
      ((fun t => evidence chol pinvh true true 1 (expandMat (gram K S)) (expandVec (rhs K (multiplicator S amps data)))
        (Function.update alpha f t)) (alpha f)) = some l := by
    simp only [Function.update_eq_self]
    exact hl
  obtain ⟨d, hd⟩ := map_some_of _ (fun t => evidence chol pinvh true true 1 (expandMat (gram K S))
    (expandVec (rhs K (multiplicator S amps data))) (Function.update alpha f t)) l (alpha f) hl'
  have hact : Active (expandMat (gram K S)) alpha f := by
    rw [active_expand K S hS]
    exact ⟨h1, h2⟩
  exact ⟨_, hd, hasDerivAt_evidence_half pinvh hchol 1 zero_le_one _ (posSemidef_expand K S hS) _ alpha ha d f hact⟩

theorem logWeights_nonneg (weightings : Option (ι → ℝ)) (hv : ∀ v, weightings = some v → ∀ i, 0 ≤ v i) (i : ι) :
    0 ≤ logWeights weightings i := by
  cases weightings with
  | none => exact zero_le_one
  | some v => exact hv v rfl i

/-- C82 for the learner of log-amplitudes, with and without nonnegative weightings; real and complex parameters. -/
theorem C82_logspace_partial {chol : {m : Type} → [Fintype m] → Matrix m m 𝕜 → Option (Matrix m m 𝕜)} (hchol : CholeskySpec chol)
    (pinvh : {m : Type} → [Fintype m] → Matrix m m 𝕜 → Matrix m m 𝕜) (cplx : Bool) (noise : ℝ) (hn : 0 < noise)
    (K : Matrix ι n 𝕜) (weightings : Option (ι → ℝ)) (hv : ∀ v, weightings = some v → ∀ i, 0 ≤ v i) (data : ι → 𝕜) (alpha : n → ℝ)
    (ha : ∀ f, 0 < alpha f) (f : n) (h1 : alpha f < 1e10)
    (h2 : 1e-10 < Spec.occurrence K (fun i => (weightings.elim 1 fun v => v i)) f) :
    HasDerivAt (fun t => logSpaceLogMargLik chol pinvh cplx noise K weightings data (Function.update alpha f t))
      (logSpaceAlphaDer chol pinvh cplx noise K weightings data alpha f) (alpha f) := by
  have hS := logWeights_nonneg weightings hv
  have e : (fun i => (weightings.elim 1 fun v => v i)) = logWeights weightings := by cases weightings <;> rfl
  rw [e] at h2
  exact hasDerivAt_evidence pinvh hchol cplx (1 / noise) (one_div_pos.mpr hn).le _ (gram_posSemidef K _ hS) _ alpha ha _ f
    (active_of K _ hS alpha f h1 h2)

/-- C82 for the learner of log-amplitudes with `complex_expand`. -/
theorem C82_logspace_expand_partial {chol : {m : Type} → [Fintype m] → Matrix m m ℝ → Option (Matrix m m ℝ)}
    (hchol : CholeskySpec chol) (pinvh : {m : Type} → [Fintype m] → Matrix m m ℝ → Matrix m m ℝ) (noise : ℝ) (hn : 0 < noise)
    (K : Matrix ι n ℂ) (weightings : Option (ι → ℝ)) (hv : ∀ v, weightings = some v → ∀ i, 0 ≤ v i) (data : ι → ℂ)
    (alpha : n ⊕ n → ℝ) (ha : ∀ f, 0 < alpha f) (f : n ⊕ n) (h1 : alpha f < 1e10)
    (h2 : 1e-10 < Spec.occurrence K (fun i => (weightings.elim 1 fun v => v i)) (Sum.elim id id f)) :
    HasDerivAt (fun t => logSpaceLogMargLikExpand chol pinvh noise K weightings data (Function.update alpha f t))
      (logSpaceAlphaDerExpand chol pinvh noise K weightings data alpha f) (alpha f) := by
  have hS := logWeights_nonneg weightings hv
  have e : (fun i => (weightings.elim 1 fun v => v i)) = logWeights weightings := by cases weightings <;> rfl
  rw [e] at h2
  have hact : Active (expandMat (gram K (logWeights weightings))) alpha f := by
    rw [active_expand K _ hS]
    exact ⟨h1, h2⟩
  exact hasDerivAt_evidence_half pinvh hchol (1 / noise) (one_div_pos.mpr hn).le _ (posSemidef_expand K _ hS) _ alpha ha _ f hact

open Classical in
/-- `evidence` for given active features. -/
noncomputable def evidenceOn (chol : {m : Type} → [Fintype m] → Matrix m m 𝕜 → Option (Matrix m m 𝕜))
    (pinvh : {m : Type} → [Fintype m] → Matrix m m 𝕜 → Matrix m m 𝕜) (cplx half : Bool) (beta : ℝ) (KtK : Matrix n n 𝕜) (y : n → 𝕜)
    (alpha : n → ℝ) (d : ℝ) (P : n → Prop) : ℝ :=
  let A := block (regularised half beta KtK alpha) P
  let inv := if A.PosDef then A⁻¹ else pinvh A
  let w : {f // P f} → 𝕜 := fun f => if h : P f then (beta : 𝕜) * (inv *ᵥ fun g : {f // P f} => y g) ⟨f, h⟩ else 0
  let logAlpha : ℝ := ∑ f : {f // P f}, if 0 < alpha f then Real.log (alpha f) else 0
  let total := d + logDetSinv chol pinvh half A + (if half then 1 / 2 * logAlpha else logAlpha)
    + RCLike.re (star w ⬝ᵥ A *ᵥ w)
  if cplx then total else 1 / 2 * total

theorem evidence_on (chol : {m : Type} → [Fintype m] → Matrix m m 𝕜 → Option (Matrix m m 𝕜))
    (pinvh : {m : Type} → [Fintype m] → Matrix m m 𝕜 → Matrix m m 𝕜) (cplx half : Bool) (beta : ℝ) (KtK : Matrix n n 𝕜) (y : n → 𝕜)
    (alpha : n → ℝ) (d : ℝ) (P : n → Prop) (hP : Active KtK alpha = P) :
    evidence chol pinvh cplx half beta KtK y alpha d = evidenceOn chol pinvh cplx half beta KtK y alpha d P := by
  subst hP
  rfl

/-- The evidence does not depend on the precision of a feature that does not occur. -/
theorem evidence_absent (chol : {m : Type} → [Fintype m] → Matrix m m 𝕜 → Option (Matrix m m 𝕜))
    (pinvh : {m : Type} → [Fintype m] → Matrix m m 𝕜 → Matrix m m 𝕜) (cplx : Bool) (beta : ℝ) (KtK : Matrix n n 𝕜) (y : n → 𝕜)
    (alpha : n → ℝ) (d : ℝ) (f : n) (hf : ¬ Valid KtK f) (t : ℝ) :
    evidence chol pinvh cplx false beta KtK y (Function.update alpha f t) d = evidence chol pinvh cplx false beta KtK y alpha d := by
  classical
  have hne : ∀ g : {g // Active KtK alpha g}, (g : n) ≠ f := fun g h => hf (h ▸ g.2.2)
  have hact : Active KtK (Function.update alpha f t) = Active KtK alpha := by
    funext g
    by_cases h : g = f
    · subst h
      simp only [Active, eq_iff_iff]
      exact iff_of_false (fun h => hf h.2) (fun h => hf h.2)
    · simp [Active, Function.update_of_ne h]
  have hreg : block (regularised false beta KtK (Function.update alpha f t)) (Active KtK alpha)
      = block (regularised false beta KtK alpha) (Active KtK alpha) := by
    rw [block_regularised, block_regularised]
    congr 2
    funext g
    rw [Function.update_of_ne (hne g)]
  rw [evidence_on chol pinvh cplx false beta KtK y _ d _ hact, evidence_on chol pinvh cplx false beta KtK y _ d _ rfl]
  unfold evidenceOn
  simp only [hreg, Function.update_of_ne (hne _)]

/-- C82 is false for features that do not occur in the data: `log_marg_lik` does not depend on their precision, but
`log_marg_lik_alpha_der` is not zero. -/
theorem C82_absent_fails (chol : {m : Type} → [Fintype m] → Matrix m m 𝕜 → Option (Matrix m m 𝕜))
    (pinvh : {m : Type} → [Fintype m] → Matrix m m 𝕜 → Matrix m m 𝕜) (cplx : Bool) (noise : ℝ) (K : Matrix ι n 𝕜)
    (data : ι → 𝕜) (alpha : n → ℝ) (f : n) (ha : 0 < alpha f) (hK : ∀ i, K i f = 0) :
    HasDerivAt (fun t => logSpaceLogMargLik chol pinvh cplx noise K none data (Function.update alpha f t)) 0 (alpha f) ∧
    logSpaceAlphaDer chol pinvh cplx noise K none data alpha f ≠ 0 := by
  classical
  have hv : ¬ Valid (gram K (logWeights none)) f := by
    rw [valid_iff K _ (logWeights_nonneg none (by simp))]
    simp [Spec.occurrence, hK]
    norm_num
  have hact : ¬ Active (gram K (logWeights none)) alpha f := fun h => hv h.2
  constructor
  · unfold logSpaceLogMargLik
    simp only [evidence_absent chol pinvh cplx _ _ _ alpha _ f hv]
    exact hasDerivAt_const _ _
  · unfold logSpaceAlphaDer alphaDer weights
    simp only [dif_neg hact, Bool.false_eq_true, if_false, star_zero, zero_mul, map_zero, sub_zero, zero_add]
    split
    · positivity
    · positivity

section Witness

/-- C82 applies: real parameters, two data, two features, with weightings. -/
example : ∃ chol : {m : Type} → [Fintype m] → Matrix m m ℝ → Option (Matrix m m ℝ), CholeskySpec (fun {_} => chol) ∧
    HasDerivAt (fun t => logSpaceLogMargLik (fun {_} => chol) (fun A => A) false 1 !![1, 2; 0, 1] (some ![1, 3]) ![0, 3]
      (Function.update (fun _ => 1) 0 t))
      (logSpaceAlphaDer (fun {_} => chol) (fun A => A) false 1 !![1, 2; 0, 1] (some ![1, 3]) ![0, 3] (fun _ => 1) 0) 1 := by
  obtain ⟨chol, hchol⟩ := exists_choleskySpec (𝕜 := ℝ)
  refine ⟨chol, hchol, ?_⟩
  refine C82_logspace_partial hchol (fun A => A) false 1 one_pos !![1, 2; 0, 1] (some ![1, 3]) ?_ ![0, 3] (fun _ => 1)
    (fun _ => one_pos) 0 (by norm_num) ?_
  · rintro v hv i
    obtain rfl := Option.some.inj hv
    fin_cases i <;> simp
  · simp [Spec.occurrence, Fin.sum_univ_two]
    norm_num

end Witness

end GPSKet.MargLik
