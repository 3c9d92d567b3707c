import Verif.Model.GenLin
import Verif.Model.SupervisedAlpha
import Mathlib.Analysis.InnerProductSpace.Calculus
import Mathlib.Analysis.Complex.RealDeriv
import Mathlib.Analysis.SpecialFunctions.ExpDeriv
import Mathlib.Analysis.Calculus.Deriv.Star
import Mathlib.Data.Complex.BigOperators
import Mathlib.Tactic.NormNum

/-!
# C57, C72, C73: prior means, resets and steps of the supervised fits; inputs of the caller; derivatives of the generalised linear model
-/

namespace GPSKet.GenLin

variable {𝕜 : Type} [Field 𝕜] {n : Type}

/-! ## C57: the Newton step and the prior mean -/

/-- What holds: with a minimiser, and without optimisation of the precisions, a fit step gives the parameters `prior + result` on the
active features, where `result` is what the minimiser returns when started at the current parameters minus the prior mean.  Features
that do not occur keep their parameters. -/
theorem C57_minimise_partial (valid : n → Bool) (active : ℕ → n → Bool) (newton : ℕ → (n → 𝕜) → (n → 𝕜))
    (g : (n → 𝕜) → (n → 𝕜)) (prior old : n → 𝕜) :
    let new := fitStep valid active newton ⟨id, some g⟩ 0 prior old
    (∀ f, valid f = true → active 0 f = true → new f = prior f + g (fun f => old f - prior f) f) ∧
    (∀ f, valid f = false → new f = old f) := by
  refine ⟨?_, ?_⟩
  · intro f hv ha
    simp [fitStep, updated, fitWeights, setup, hv, ha, add_comm]
  · intro f hv
    simp [fitStep, updated, hv]

/-- C57 fails: without a minimiser and without least-squares steps, a fit step of the generalised linear model does not change the
parameters of any active feature, whatever the Newton step is. -/
theorem C57_newton_fails (valid : n → Bool) (active : ℕ → n → Bool) (newton : ℕ → (n → 𝕜) → (n → 𝕜)) (prior old : n → 𝕜)
    (f : n) (h : valid f = true → active 0 f = true) :
    fitStep valid active newton ⟨id, none⟩ 0 prior old f = old f := by
  cases hv : valid f
  · simp [fitStep, updated, hv]
  · simp [fitStep, updated, fitWeights, setup, hv, h hv]

/-- C57 fails: as soon as the optimisation of the precisions evaluates the model again (`k + 1` times), all weights are zero, and the
parameters of all features that occur in the data are the prior mean: whatever the data, the minimiser and the Newton steps, the
result of the fit is lost. -/
theorem C57_reevaluation_fails (valid : n → Bool) (active : ℕ → n → Bool) (newton : ℕ → (n → 𝕜) → (n → 𝕜)) (o : Options 𝕜 n)
    (k : ℕ) (prior old : n → 𝕜) (f : n) (hv : valid f = true) :
    fitStep valid active newton o (k + 1) prior old f = prior f := by
  simp [fitStep, updated, fitWeights, setup, hv]

/-- C57 fails: the growing relevance-vector fit subtracts the contribution of the prior mean from the data but does not add the
prior mean to the parameters. -/
theorem C57_growing_fails (valid : n → Bool) (w old prior : n → 𝕜) (f : n) (hv : valid f = true) (hp : prior f ≠ 0) :
    growingStep valid w old f = w f ∧ growingStep valid w old f ≠ prior f + w f := by
  have : growingStep valid w old f = w f := by simp [growingStep, updated, hv]
  refine ⟨this, ?_⟩
  rw [this]
  intro h
  apply hp
  have : prior f + w f - w f = 0 := by rw [← h, sub_self]
  simpa using this

/-- Without a prior mean the growing fit is right. -/
theorem C57_growing_zero (valid : n → Bool) (w old : n → 𝕜) (f : n) :
    growingStep valid w old f = if valid f then 0 + w f else old f := by
  cases hv : valid f <;> simp [growingStep, updated, hv]

/-! ## C72: arrays of the caller -/

/-- C72: the fit uses the weightings `w |prefactor|^2`, so that the weighted squared errors of the amplitudes divided by the prefactor
are those of the amplitudes. -/
theorem C72_weightings {ι : Type} (prefactor : ι → ℂ) (hp : ∀ i, prefactor i ≠ 0) (w : Option (ι → ℝ)) (y p : ι → ℂ) (i : ι) :
    (setupWeightings prefactor w).1 i * ‖y i / prefactor i - p i‖ ^ 2
      = (w.getD fun _ => 1) i * ‖y i - prefactor i * p i‖ ^ 2 := by
  have h : ‖y i - prefactor i * p i‖ = ‖prefactor i‖ * ‖y i / prefactor i - p i‖ := by
    rw [← norm_mul, mul_sub, mul_div_cancel₀ _ (hp i)]
  rw [h, mul_pow]
  cases w <;> simp [setupWeightings] <;> ring

/-- C72 holds for a zero prior mean (prefactor 1): the caller's array of weightings is unchanged. -/
theorem C72_partial {ι : Type} (w : Option (ι → ℝ)) : (setupWeightings (fun _ => 1) w).2 = w := by
  cases w <;> simp [setupWeightings]

/-- C72 fails: if a prefactor has modulus other than 1 at a data point of nonzero weight, the fit step changes the caller's array of
weightings, and so the problem that the next fit step with this array solves. -/
theorem C72_fails {ι : Type} (prefactor : ι → ℂ) (w : ι → ℝ) (i : ι) (hw : w i ≠ 0) (hp : ‖prefactor i‖ ≠ 1) :
    (setupWeightings prefactor (some w)).2 ≠ some w := by
  intro h
  have h1 : (fun i => w i * ‖prefactor i‖ ^ 2) = w := Option.some.inj h
  have h2 := congrFun h1 i
  have h3 : ‖prefactor i‖ ^ 2 = 1 := by
    have : w i * ‖prefactor i‖ ^ 2 = w i * 1 := by rw [h2, mul_one]
    exact mul_left_cancel₀ hw this
  apply hp
  have h4 : (‖prefactor i‖ - 1) * (‖prefactor i‖ + 1) = 0 := by ring_nf; rw [h3]; ring
  rcases mul_eq_zero.mp h4 with h5 | h5
  · linarith
  · have := norm_nonneg (prefactor i)
    linarith

/-- The hypotheses of `C72_fails` hold for the prior mean `log 2` of a single feature 1. -/
example : ∃ (prefactor : Fin 1 → ℂ) (w : Fin 1 → ℝ), w 0 ≠ 0 ∧ ‖prefactor 0‖ ≠ 1 ∧
    prefactor = fun _ => Complex.exp (Real.log 2 : ℝ) := by
  refine ⟨fun _ => Complex.exp (Real.log 2 : ℝ), fun _ => 1, one_ne_zero, ?_, rfl⟩
  rw [← Complex.ofReal_exp, Real.exp_log (by norm_num)]
  norm_num

/-! ## C73: gradient and Hessian of the generalised linear model -/

variable {ι : Type} [Fintype ι] [Fintype n] [DecidableEq n]

/-- The weights with the one of feature `f` moved by `t`. -/
def move (w : n → ℝ) (f : n) (t : ℝ) : n → ℝ := Function.update w f (w f + t)

omit [Fintype n] in
theorem move_zero (w : n → ℝ) (f : n) : move w f 0 = w := by
  simp [move]

theorem exponent_line (K : ι → n → ℂ) (w : n → ℝ) (f : n) (i : ι) (t : ℝ) :
    (∑ g, K i g * (move w f t g : ℂ)) = (∑ g, K i g * (w g : ℂ)) + (t : ℂ) * K i f := by
  have : ∀ g, K i g * (move w f t g : ℂ) = K i g * (w g : ℂ) + (if g = f then (t : ℂ) * K i f else 0) := by
    intro g
    by_cases h : g = f
    · subst h
      simp [move]
      ring
    · simp [h, move]
  simp only [this, Finset.sum_add_distrib, Finset.sum_ite_eq', Finset.mem_univ, if_true]

theorem pred_deriv (K : ι → n → ℂ) (w : n → ℝ) (f : n) (i : ι) :
    HasDerivAt (fun t : ℝ => Complex.exp (∑ g, K i g * (move w f t g : ℂ)))
      (Complex.exp (∑ g, K i g * (w g : ℂ)) * K i f) 0 := by
  simp only [exponent_line]
  have h1 : HasDerivAt (fun t : ℝ => (t : ℂ) * K i f) (1 * K i f) 0 := (Complex.ofRealCLM.hasDerivAt (x := 0)).mul_const _
  have h2 := (h1.const_add (∑ g, K i g * (w g : ℂ))).cexp
  simpa using h2

/-- C73: along the coordinate of an active feature, the gradient handed to minimisers and line searches is the derivative of the
loss. -/
theorem C73_grad_partial (beta : ℝ) (K : ι → n → ℂ) (S : ι → ℝ) (data : ι → ℂ) (c : n → ℝ) (active : n → Bool) (w : n → ℝ)
    (f : n) (hf : active f = true) :
    HasDerivAt (fun t : ℝ => loss beta K S data c active (move w f t)) (grad beta K S data c w f) 0 := by
  have h1 : ∀ i, HasDerivAt (fun t : ℝ => S i * ‖data i - Complex.exp (∑ g, K i g * (move w f t g : ℂ))‖ ^ 2)
      (S i * (2 * -((starRingEnd ℂ) (data i - Complex.exp (∑ g, K i g * (w g : ℂ)))
        * (Complex.exp (∑ g, K i g * (w g : ℂ)) * K i f)).re)) 0 := by
    intro i
    have h := (((pred_deriv K w f i).const_sub (data i)).norm_sq).const_mul (S i)
    refine h.congr_deriv ?_
    rw [Complex.inner, move_zero, ← Complex.neg_re]
    congr 3
    ring
  have h2 := HasDerivAt.fun_sum (fun i (_ : i ∈ Finset.univ) => h1 i)
  have h3 : HasDerivAt (fun t : ℝ => ∑ g, (if active g then c g * |move w f t g| ^ 2 else 0)) (2 * (c f * w f)) 0 := by
    have h4 : ∀ g, HasDerivAt (fun t : ℝ => if active g then c g * |move w f t g| ^ 2 else 0)
        (if g = f then 2 * (c f * w f) else 0) 0 := by
      intro g
      by_cases hg : g = f
      · subst hg
        simp only [hf, if_true, sq_abs, move, Function.update_self]
        have h5 : HasDerivAt (fun t : ℝ => w g + t) 1 0 := (hasDerivAt_id (0 : ℝ)).const_add _
        refine ((h5.pow 2).const_mul (c g)).congr_deriv ?_
        simp
        ring
      · simp only [if_neg hg, move, Function.update_of_ne hg]
        exact hasDerivAt_const _ _
    have h5 := HasDerivAt.fun_sum (fun g (_ : g ∈ Finset.univ) => h4 g)
    simpa using h5
  have h6 := ((h2.const_mul beta).add h3).div_const 2
  refine h6.congr_deriv ?_
  unfold grad
  have e : ((beta : ℂ) * -(∑ i, K i f * ((S i : ℂ) * Complex.exp (∑ f, K i f * (w f : ℂ))
      * (starRingEnd ℂ) (data i - Complex.exp (∑ f, K i f * (w f : ℂ)))))).re
      = beta * ∑ i, S i * -((starRingEnd ℂ) (data i - Complex.exp (∑ g, K i g * (w g : ℂ)))
        * (Complex.exp (∑ g, K i g * (w g : ℂ)) * K i f)).re := by
    rw [Complex.re_ofReal_mul, Complex.neg_re, Complex.re_sum, ← Finset.sum_neg_distrib]
    congr 1
    apply Finset.sum_congr rfl
    intro i _
    rw [mul_neg, ← Complex.re_ofReal_mul]
    congr 2
    ring
  simp only [e, mul_left_comm _ (2 : ℝ) _, ← Finset.mul_sum]
  ring

/-- C73: the Hessian is the derivative of the gradient, for all features. -/
theorem C73_hessian (beta : ℝ) (K : ι → n → ℂ) (S : ι → ℝ) (data : ι → ℂ) (c : n → ℝ) (w : n → ℝ) (f g : n) :
    HasDerivAt (fun t : ℝ => grad beta K S data c (move w g t) f) (hessian beta K S data c w f g) 0 := by
  have h1 : ∀ i, HasDerivAt (fun t : ℝ => K i f * ((S i : ℂ) * Complex.exp (∑ f, K i f * (move w g t f : ℂ))
      * (starRingEnd ℂ) (data i - Complex.exp (∑ f, K i f * (move w g t f : ℂ)))))
      (K i f * ((S i : ℂ) * (Complex.exp (∑ f, K i f * (w f : ℂ)) * K i g)
        * (starRingEnd ℂ) (data i - Complex.exp (∑ f, K i f * (w f : ℂ)))
        + (S i : ℂ) * Complex.exp (∑ f, K i f * (w f : ℂ))
        * (starRingEnd ℂ) (-(Complex.exp (∑ f, K i f * (w f : ℂ)) * K i g)))) 0 := by
    intro i
    have hp := pred_deriv K w g i
    have hc : HasDerivAt (fun t : ℝ => (starRingEnd ℂ) (data i - Complex.exp (∑ f, K i f * (move w g t f : ℂ))))
        ((starRingEnd ℂ) (-(Complex.exp (∑ f, K i f * (w f : ℂ)) * K i g))) 0 := (hp.const_sub (data i)).star
    have := ((hp.const_mul (S i : ℂ)).mul hc).const_mul (K i f)
    refine this.congr_deriv ?_
    simp only [move_zero]
  have h2 := ((HasDerivAt.fun_sum (fun i (_ : i ∈ Finset.univ) => h1 i)).neg).const_mul (beta : ℂ)
  have h3 := Complex.reCLM.hasFDerivAt.comp_hasDerivAt (0 : ℝ) h2
  have h4 : HasDerivAt (fun t : ℝ => c f * move w g t f) (if f = g then c f else 0) 0 := by
    by_cases hfg : f = g
    · subst hfg
      simp only [move, Function.update_self, if_true]
      have h5 : HasDerivAt (fun t : ℝ => w f + t) 1 0 := (hasDerivAt_id (0 : ℝ)).const_add _
      exact (h5.const_mul (c f)).congr_deriv (mul_one _)
    · simp only [if_neg hfg, move, Function.update_of_ne hfg]
      exact hasDerivAt_const _ _
  refine (h3.add h4).congr_deriv ?_
  unfold hessian
  rw [Complex.add_re]
  congr 1
  · rw [Complex.reCLM_apply]
    congr 2
    rw [← Finset.sum_neg_distrib, ← Finset.sum_neg_distrib, ← Finset.sum_add_distrib]
    apply Finset.sum_congr rfl
    intro i _
    rw [map_neg, map_mul]
    ring
  · split <;> simp

/-- C73 fails for features that are not active: the loss does not contain their penalty but the gradient does. -/
theorem C73_fails : ∃ (K : Fin 1 → Fin 1 → ℂ) (w : Fin 1 → ℝ),
    ¬ HasDerivAt (fun t : ℝ => loss 1 K (fun _ => 1) (fun _ => 1) (fun _ => 1e10) (fun _ => false) (move w 0 t))
      (grad 1 K (fun _ => 1) (fun _ => 1) (fun _ => 1e10) w 0) 0 := by
  refine ⟨fun _ _ => 0, fun _ => 1, ?_⟩
  intro h
  have h1 : (fun t : ℝ => loss 1 (fun (_ : Fin 1) (_ : Fin 1) => (0 : ℂ)) (fun _ => 1) (fun _ => 1) (fun _ => 1e10) (fun _ => false)
      (move (fun _ => 1) 0 t)) = fun _ => 0 := by
    funext t
    simp [loss]
  rw [h1] at h
  have h2 := h.unique (hasDerivAt_const _ _)
  simp [grad] at h2
  norm_num at h2

end GPSKet.GenLin
