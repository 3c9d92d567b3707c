import Verif.Model.GenLinFit
import Verif.Spec.GenLin
import Verif.Props.MargLikAlpha
import Verif.Props.GenLin

/-! # C90, C91: the initial fits of the generalised linear model -/

namespace GPSKet.GenLinFit

open Matrix GPSKet.SupervisedFit GPSKet.MargLik

variable {ι n : Type} [Fintype ι] [Fintype n] [DecidableEq n]
variable (lstsq : {m : Type} → [Fintype m] → Matrix m m ℝ → (m → ℝ) → m → ℝ)

open Classical in
/-- The solution, with zero for the features that do not take part. -/
noncomputable def masked (act : n → Prop) (w : n → ℝ) : n → ℝ := fun f => if act f then w f else 0

open Classical in
theorem solve_eq (act : n → Prop) (A : Matrix n n ℝ) (hA : (block A act).PosDef) (y w : n → ℝ) (f : n) (hf : act f) :
    (A *ᵥ masked act (solveInto lstsq act A y w)) f = y f := by
  have h1 : block A act *ᵥ (fun g : {f // act f} => solveInto lstsq act A y w g) = fun g : {f // act f} => y g := by
    have : (fun g : {f // act f} => solveInto lstsq act A y w g) = (block A act)⁻¹ *ᵥ fun g : {f // act f} => y g := by
      funext g
      unfold solveInto
      simp only [dif_pos g.2, if_pos hA]
    rw [this, Matrix.mulVec_mulVec, Matrix.mul_nonsing_inv _ ((Matrix.isUnit_iff_isUnit_det _).mp hA.isUnit), Matrix.one_mulVec]
  have h2 := congrFun h1 ⟨f, hf⟩
  rw [← h2]
  show ∑ g, A f g * masked act (solveInto lstsq act A y w) g = ∑ g : {f // act f}, A f g.1 * solveInto lstsq act A y w g.1
  rw [← Finset.sum_subtype (Finset.univ.filter act) (by simp) (fun g => A f g * solveInto lstsq act A y w g), Finset.sum_filter]
  refine Finset.sum_congr rfl fun g _ => ?_
  by_cases hg : act g
  · rw [masked, if_pos hg, if_pos hg]
  · rw [masked, if_neg hg, if_neg hg, mul_zero]

theorem reg_eq (K : Matrix ι n ℝ) (S : ι → ℝ) (alpha : n → ℝ) : gram K S + Matrix.diagonal alpha = regularised false 1 (gram K S) alpha := by
  simp [regularised]

/-- The normal equations of the initial fits. -/
theorem normal (act : n → Prop) (K : Matrix ι n ℝ) (S : ι → ℝ) (hS : ∀ i, 0 ≤ S i) (alpha : n → ℝ) (ha : ∀ f, 0 < alpha f) (y w : n → ℝ)
    (f : n) (hf : act f) :
    (gram K S *ᵥ masked act (solveInto lstsq act (gram K S + Matrix.diagonal alpha) y w)) f
      + alpha f * masked act (solveInto lstsq act (gram K S + Matrix.diagonal alpha) y w) f = y f := by
  have hpos : (block (gram K S + Matrix.diagonal alpha) act).PosDef := by
    rw [reg_eq]
    exact posDef_block false 1 zero_le_one _ (gram_posSemidef K S hS) alpha ha act
  rw [← solve_eq lstsq act _ hpos y w f hf]
  rw [Matrix.add_mulVec, Pi.add_apply, Matrix.mulVec_diagonal]

/-- The masked solution is the unique minimiser of the quadratic form. -/
theorem solve_min (act : n → Prop) (K : Matrix ι n ℝ) (S : ι → ℝ) (hS : ∀ i, 0 ≤ S i) (m : ι → ℝ) (alpha : n → ℝ) (ha : ∀ f, 0 < alpha f)
    (w v : n → ℝ) (hv : ∀ f, ¬ act f → v f = 0)
    (hne : v ≠ masked act (solveInto lstsq act (gram K S + Matrix.diagonal alpha) (rhs K m) w)) :
    quad 1 K S m alpha (masked act (solveInto lstsq act (gram K S + Matrix.diagonal alpha) (rhs K m) w)) < quad 1 K S m alpha v := by
  have hn := normal lstsq act K S hS alpha ha (rhs K m) w
  generalize hu : masked act (solveInto lstsq act (gram K S + Matrix.diagonal alpha) (rhs K m) w) = u at hn hne
  have hu0 : ∀ f, ¬ act f → u f = 0 := fun f hf => by rw [← hu]; exact if_neg hf
  have key := quad_add 1 K S m alpha u (v - u)
  have hz : (∑ f, star ((v - u) f) * (((1 : ℝ) : ℝ) * (gram K S *ᵥ u) f + alpha f * u f - ((1 : ℝ) : ℝ) * rhs K m f)) = 0 := by
    refine Finset.sum_eq_zero fun f _ => ?_
    by_cases hf : act f
    · rw [one_mul, one_mul, hn f hf, sub_self, mul_zero]
    · rw [Pi.sub_apply, hv f hf, hu0 f hf, sub_zero, star_zero, zero_mul]
  simp only [RCLike.ofReal_real_eq_id, id] at key
  rw [hz, map_zero, mul_zero, add_zero, add_sub_cancel] at key
  have h1 : 0 ≤ (1 : ℝ) * ∑ i, S i * ‖(K *ᵥ (v - u)) i‖ ^ 2 :=
    mul_nonneg zero_le_one (Finset.sum_nonneg fun i _ => mul_nonneg (hS i) (sq_nonneg _))
  obtain ⟨f, hf⟩ : ∃ f, (v - u) f ≠ 0 := by
    by_contra h
    push Not at h
    exact hne (funext fun f => sub_eq_zero.mp (h f))
  have h2 : 0 < ∑ f, alpha f * ‖(v - u) f‖ ^ 2 :=
    Finset.sum_pos' (fun f _ => mul_nonneg (ha f).le (sq_nonneg _)) ⟨f, Finset.mem_univ f, mul_pos (ha f) (pow_pos (norm_pos_iff.mpr hf) 2)⟩
  linarith

/-- The features that take part in the fit. -/
def TakesPart (K : Matrix ι n ℝ) (alpha : n → ℝ) (f : n) : Prop := 1e-10 < ∑ i, |K i f| ∧ alpha f < 1e10

theorem valid_cast (K : Matrix ι n ℝ) (f : n) : Valid (cast K) f ↔ 1e-10 < ∑ i, |K i f| := by
  unfold Valid cast
  simp only [Complex.norm_real, Real.norm_eq_abs]

theorem active_cast (K : Matrix ι n ℝ) (alpha : n → ℝ) (f : n) : Active (cast K) alpha f ↔ TakesPart K alpha f := by
  rw [Active, valid_cast, and_comm]
  rfl

open Classical in
/-- The parameters after a fit step. -/
theorem fitStep_eq (newton : ℕ → (n → ℝ) → (n → ℝ)) (noise : ℝ) (K : Matrix ι n ℝ) (weightings : Option (ι → ℝ)) (amps : ι → ℝ)
    (alpha : n → ℝ) (logInit : Bool) (irls : ℕ) (prior old : n → ℝ) (f : n) :
    let pf := fun i => Real.exp (∑ f, prior f * K i f)
    let v := fun i => (weightings.getD fun _ => 1) i * pf i ^ 2
    let w := (irlsStep lstsq noise K v (fun i => amps i / pf i) alpha)^[irls]
      (if logInit then logFitInit lstsq noise K v (fun i => amps i / pf i) alpha (fun f => old f - prior f) else fun f => old f - prior f)
    fitStep lstsq newton noise K weightings amps alpha logInit irls prior old f
      = if 1e-10 < ∑ i, |K i f| then prior f + masked (Active (cast K) alpha) w f else old f := by
  intro pf v w
  have hv : (GenLin.setupWeightings (fun i => ((pf i : ℝ) : ℂ)) weightings).1 = v := by
    funext i
    show _ = (weightings.getD fun _ => 1) i * pf i ^ 2
    cases weightings <;> simp [GenLin.setupWeightings]
  have hstep : fitStep lstsq newton noise K weightings amps alpha logInit irls prior old f
      = (if Valid (cast K) f then masked (Active (cast K) alpha) w f else old f - prior f) + prior f := by
    unfold fitStep
    simp only
    rw [show (GenLin.setupWeightings (fun i => ((Real.exp (∑ f, prior f * K i f) : ℝ) : ℂ)) weightings).1 = v from hv]
    simp only [GenLin.fitStep, GenLin.updated, GenLin.fitWeights, GenLin.setup, decide_eq_true_eq]
    rfl
  rw [hstep]
  by_cases h : 1e-10 < ∑ i, |K i f|
  · rw [if_pos ((valid_cast K f).mpr h), if_pos h, add_comm]
  · rw [if_neg (fun h' => h ((valid_cast K f).mp h')), if_neg h, sub_add_cancel]

/-- From the minimiser of the quadratic form to the fit step. -/
theorem best_of (K : Matrix ι n ℝ) (S : ι → ℝ) (hS : ∀ i, 0 ≤ S i) (y : ι → ℝ) (alpha : n → ℝ) (ha : ∀ f, 0 < alpha f)
    (prior w new best theta : n → ℝ)
    (hnew : ∀ f, 1e-10 < ∑ i, |K i f| → new f = prior f + masked (Active (cast K) alpha)
      (solveInto lstsq (Active (cast K) alpha) (gram K S + Matrix.diagonal alpha) (rhs K fun i => S i * fitData K y prior i) w) f)
    (h1 : ∀ f, TakesPart K alpha f → best f = new f) (h2 : ∀ f, ¬ TakesPart K alpha f → best f = prior f)
    (h3 : ∀ f, ¬ TakesPart K alpha f → theta f = prior f) (hne : theta ≠ best) :
    Spec.ridgeLoss 1 K S y alpha prior best < Spec.ridgeLoss 1 K S y alpha prior theta := by
  set u := masked (Active (cast K) alpha)
      (solveInto lstsq (Active (cast K) alpha) (gram K S + Matrix.diagonal alpha) (rhs K fun i => S i * fitData K y prior i) w) with hu
  have hbest : best = prior + u := by
    funext f
    by_cases hf : TakesPart K alpha f
    · rw [h1 f hf, hnew f hf.1, Pi.add_apply]
    · rw [h2 f hf, Pi.add_apply, hu, masked, if_neg fun h => hf ((active_cast K alpha f).mp h), add_zero]
  have htheta : theta = prior + (theta - prior) := by rw [add_sub_cancel]
  have hm := solve_min lstsq (Active (cast K) alpha) K S hS (fun i => S i * fitData K y prior i) alpha ha w (theta - prior)
    (fun f hf => by rw [active_cast] at hf; rw [Pi.sub_apply, h3 f hf, sub_self])
    (fun h => hne (by rw [htheta, h, hbest]))
  rw [htheta, hbest, loss_prior, loss_prior, loss_eq_quad, loss_eq_quad]
  simp only [RCLike.ofReal_real_eq_id, id]
  linarith

/-- C90 (real parameters, positive amplitudes): a fit step of the generalised linear model with `log_fit_init` and no further
options leaves the parameters of features that do not occur; sets those with a precision of at least 1e10 to the prior mean; and gives the
others the values that are the unique minimiser of the squared errors of the log-amplitudes, weighted by the inverse variance of the
log-amplitudes relative to the prior mean, plus the penalty. -/
theorem C90 (newton : ℕ → (n → ℝ) → (n → ℝ)) (noise : ℝ) (hn : 0 < noise) (K : Matrix ι n ℝ) (weightings : Option (ι → ℝ))
    (hv : ∀ i, 0 ≤ (weightings.getD fun _ => 1) i) (amps : ι → ℝ) (hamps : ∀ i, 0 < amps i) (alpha : n → ℝ) (ha : ∀ f, 0 < alpha f)
    (prior old : n → ℝ) (p S : ι → ℝ) (hp : ∀ i, p i = Spec.predicted K prior i)
    (hS : ∀ i, S i = (weightings.getD fun _ => 1) i * p i ^ 2 / Real.log (1 + noise / (amps i / p i) ^ 2)) :
    let new := fitStep lstsq newton noise K weightings amps alpha true 0 prior old
    let takesPart := fun f => 1e-10 < ∑ i, |K i f| ∧ alpha f < 1e10
    (∀ f, ¬ 1e-10 < ∑ i, |K i f| → new f = old f) ∧
    (∀ f, 1e-10 < ∑ i, |K i f| → ¬ alpha f < 1e10 → new f = prior f) ∧
    ∀ best : n → ℝ, (∀ f, takesPart f → best f = new f) → (∀ f, ¬ takesPart f → best f = prior f) →
      ∀ theta : n → ℝ, (∀ f, ¬ takesPart f → theta f = prior f) → theta ≠ best →
        Spec.ridgeLoss 1 K S (fun i => Real.log (amps i)) alpha prior best
          < Spec.ridgeLoss 1 K S (fun i => Real.log (amps i)) alpha prior theta := by
  intro new takesPart
  have hpf : (fun i => Real.exp (∑ f, prior f * K i f)) = p := by
    funext i
    rw [hp]
    unfold Spec.predicted
    exact congrArg Real.exp (Finset.sum_congr rfl fun f _ => mul_comm _ _)
  have hp0 : ∀ i, 0 < p i := fun i => by rw [← hpf]; exact Real.exp_pos _
  have hlogp : ∀ i, Real.log (p i) = ∑ f, prior f * K i f := fun i => by rw [← hpf]; exact Real.log_exp _
  have hS0 : ∀ i, 0 ≤ S i := by
    intro i
    rw [hS]
    refine div_nonneg (mul_nonneg (hv i) (sq_nonneg _)) (Real.log_nonneg ?_)
    have := div_pos hn (pow_pos (div_pos (hamps i) (hp0 i)) 2)
    linarith
  have heq : logFitInit lstsq noise K (fun i => (weightings.getD fun _ => 1) i * p i ^ 2) (fun i => amps i / p i) alpha
      (fun f => old f - prior f) = solveInto lstsq (Active (cast K) alpha) (gram K S + Matrix.diagonal alpha)
        (rhs K fun i => S i * fitData K (fun i => Real.log (amps i)) prior i) (fun f => old f - prior f) := by
    unfold logFitInit
    have e1 : ∀ i, (if noise = 0 then 1 else 1 / Real.log (1 + noise / |amps i / p i| ^ 2)) *
        ((weightings.getD fun _ => 1) i * p i ^ 2) = S i := by
      intro i
      rw [if_neg hn.ne', hS, sq_abs]
      ring
    have e2 : ∀ i, Real.log (amps i / p i) = fitData K (fun i => Real.log (amps i)) prior i := by
      intro i
      rw [Real.log_div (hamps i).ne' (hp0 i).ne', hlogp]
      rfl
    simp only [e1, e2]
  have hstep : ∀ f, new f = if 1e-10 < ∑ i, |K i f| then prior f + masked (Active (cast K) alpha)
      (solveInto lstsq (Active (cast K) alpha) (gram K S + Matrix.diagonal alpha)
        (rhs K fun i => S i * fitData K (fun i => Real.log (amps i)) prior i) (fun f => old f - prior f)) f else old f := by
    intro f
    have h := fitStep_eq lstsq newton noise K weightings amps alpha true 0 prior old f
    simp only [Function.iterate_zero, id, if_true] at h
    simp only [show ∀ i, Real.exp (∑ f, prior f * K i f) = p i from fun i => congrFun hpf i] at h
    rw [heq] at h
    exact h
  refine ⟨fun f hf => by rw [hstep, if_neg hf], fun f hf hna => ?_, fun best h1 h2 theta h3 hne => ?_⟩
  · rw [hstep, if_pos hf, masked, if_neg (fun h => hna h.1), add_zero]
  · exact best_of lstsq K S hS0 _ alpha ha prior _ new best theta (fun f hf => by rw [hstep, if_pos hf]) h1 h2 h3 hne

example : ∃ (noise : ℝ) (K : Matrix (Fin 2) (Fin 1) ℝ) (amps : Fin 2 → ℝ) (alpha prior old : Fin 1 → ℝ),
    0 < noise ∧ (∀ i, 0 < amps i) ∧ (∀ f, 0 < alpha f) ∧ prior ≠ old ∧ ∀ f, 1e-10 < ∑ i, |K i f| ∧ alpha f < 1e10 := by
  refine ⟨1, fun _ _ => 1, fun _ => 2, fun _ => 1, fun _ => 0, fun _ => 1, one_pos, fun _ => two_pos, fun _ => one_pos, ?_, fun f => ?_⟩
  · intro h
    exact zero_ne_one (congrFun h 0)
  · norm_num

omit [DecidableEq n] in
theorem valid_expanded (K : Matrix ι n ℂ) (f : n) :
    (Valid (fun i => Sum.elim (K i) fun f => Complex.I * K i f) (Sum.inl f) ↔ 1e-10 < ∑ i, ‖K i f‖) ∧
    (Valid (fun i => Sum.elim (K i) fun f => Complex.I * K i f) (Sum.inr f) ↔ 1e-10 < ∑ i, ‖K i f‖) := by
  unfold Valid
  constructor
  · rfl
  · simp only [Sum.elim_inr, norm_mul, Complex.norm_I, one_mul]

/-- C90 for complex parameters: real and imaginary parts have their own precisions, halved, and the log-amplitudes are those whose
imaginary parts are within `pi` of those of the prior mean; the rest is as in `C90`. -/
theorem C90_complex (newton : ℕ → (n ⊕ n → ℝ) → (n ⊕ n → ℝ)) (noise : ℝ) (hn : 0 < noise) (K : Matrix ι n ℂ) (weightings : Option (ι → ℝ))
    (hv : ∀ i, 0 ≤ (weightings.getD fun _ => 1) i) (amps logAmps : ι → ℂ) (alpha : n ⊕ n → ℝ) (ha : ∀ f, 0 < alpha f)
    (prior : n → ℝ) (old : n → ℂ) (p : ι → ℂ) (S : ι → ℝ) (hp : ∀ i, p i = ∑ f, K i f * prior f)
    (hlog : ∀ i, Complex.exp (logAmps i) = amps i) (him : ∀ i, -Real.pi < (logAmps i - p i).im ∧ (logAmps i - p i).im ≤ Real.pi)
    (hS : ∀ i, S i = (weightings.getD fun _ => 1) i * ‖Complex.exp (p i)‖ ^ 2
      / Real.log (1 + noise / ‖amps i / Complex.exp (p i)‖ ^ 2)) :
    let new := fitStepComplex lstsq newton noise K weightings amps alpha prior old
    let occurs := fun f => 1e-10 < ∑ i, ‖K i f‖
    let loss := Spec.ridgeLossSplit 1 K S logAmps (fun f => alpha (Sum.inl f) / 2) (fun f => alpha (Sum.inr f) / 2) prior
    (∀ f, ¬ occurs f → new f = old f) ∧
    (∀ f, occurs f → ¬ alpha (Sum.inl f) < 1e10 → (new f).re = prior f) ∧
    (∀ f, occurs f → ¬ alpha (Sum.inr f) < 1e10 → (new f).im = 0) ∧
    ∀ best : n → ℂ,
      (∀ f, (occurs f ∧ alpha (Sum.inl f) < 1e10) → (best f).re = (new f).re) →
      (∀ f, ¬ (occurs f ∧ alpha (Sum.inl f) < 1e10) → (best f).re = prior f) →
      (∀ f, (occurs f ∧ alpha (Sum.inr f) < 1e10) → (best f).im = (new f).im) →
      (∀ f, ¬ (occurs f ∧ alpha (Sum.inr f) < 1e10) → (best f).im = 0) →
      ∀ theta : n → ℂ, (∀ f, ¬ (occurs f ∧ alpha (Sum.inl f) < 1e10) → (theta f).re = prior f) →
        (∀ f, ¬ (occurs f ∧ alpha (Sum.inr f) < 1e10) → (theta f).im = 0) → theta ≠ best → loss best < loss theta := by
  classical
  intro new occurs loss
  have hpf : ∀ i, Complex.exp (∑ f, (prior f : ℂ) * K i f) = Complex.exp (p i) := by
    intro i
    rw [hp]
    exact congrArg Complex.exp (Finset.sum_congr rfl fun f _ => mul_comm _ _)
  have hS0 : ∀ i, 0 ≤ S i := by
    intro i
    rw [hS]
    refine div_nonneg (mul_nonneg (hv i) (sq_nonneg _)) (Real.log_nonneg ?_)
    have : 0 ≤ noise / ‖amps i / Complex.exp (p i)‖ ^ 2 := div_nonneg hn.le (sq_nonneg _)
    linarith
  have hS2 : ∀ i, 0 ≤ Sum.elim S S i := by rintro (i | i) <;> exact hS0 i
  set data := fitData K logAmps fun f => (prior f : ℂ) with hdata
  have hlogdata : ∀ i, Complex.log (amps i / Complex.exp (p i)) = data i := by
    intro i
    rw [← hlog, ← Complex.exp_sub, Complex.log_exp (him i).1 (him i).2, hdata, fitData, hp]
    congr 1
    exact Finset.sum_congr rfl fun f _ => mul_comm _ _
  have hv1 : ∀ i, (GenLin.setupWeightings (fun i => Complex.exp (p i)) weightings).1 i
      = (weightings.getD fun _ => 1) i * ‖Complex.exp (p i)‖ ^ 2 := by
    intro i
    cases weightings <;> rfl
  have hSeq : ∀ i, (if noise = 0 then 1 else 1 / Real.log (1 + noise / ‖amps i / Complex.exp (p i)‖ ^ 2))
      * (GenLin.setupWeightings (fun i => Complex.exp (p i)) weightings).1 i = S i := by
    intro i
    rw [if_neg hn.ne', hv1, hS]
    ring
  set E : ι → n ⊕ n → ℂ := fun i => Sum.elim (K i) fun f => Complex.I * K i f with hE
  have hvl : ∀ f, Valid E (Sum.inl f) ↔ occurs f := fun f => (valid_expanded K f).1
  have hvr : ∀ f, Valid E (Sum.inr f) ↔ occurs f := fun f => (valid_expanded K f).2
  have hal : ∀ f, Active E alpha (Sum.inl f) ↔ (occurs f ∧ alpha (Sum.inl f) < 1e10) := by
    intro f; rw [Active, hvl, and_comm]
  have har : ∀ f, Active E alpha (Sum.inr f) ↔ (occurs f ∧ alpha (Sum.inr f) < 1e10) := by
    intro f; rw [Active, hvr, and_comm]
  set m : ι ⊕ ι → ℝ := fun i => Sum.elim S S i * expandVec data i with hm
  have hexp : (expandVec fun i => (S i : ℂ) * data i) = m := by
    funext i
    rcases i with i | i <;> simp [expandVec, hm]
  set oldW : n ⊕ n → ℝ := Sum.elim (fun f => (old f - prior f).re) (fun f => (old f - prior f).im) with holdW
  set w := masked (Active E alpha) (solveInto lstsq (Active E alpha)
    (gram (𝕜 := ℝ) (realify K) (Sum.elim S S) + Matrix.diagonal fun f => alpha f / 2) (rhs (realify K) m) oldW) with hw
  have hw0 : ∀ f, ¬ Active E alpha f → w f = 0 := fun f hf => if_neg hf
  have hnew : ∀ f, new f = if occurs f then ((prior f + w (Sum.inl f) : ℝ) : ℂ) + Complex.I * (w (Sum.inr f) : ℂ) else old f := by
    intro f
    have h1 : new f = (((if occurs f then w (Sum.inl f) else oldW (Sum.inl f)) + prior f : ℝ) : ℂ)
        + Complex.I * ((if occurs f then w (Sum.inr f) else oldW (Sum.inr f) : ℝ) : ℂ) := by
      show fitStepComplex _ _ _ _ _ _ _ _ _ f = _
      unfold fitStepComplex
      simp only [hpf, hSeq, hlogdata, expand_gram, expand_rhs, hexp, ← hE, ← holdW]
      simp only [GenLin.fitStep, GenLin.updated, GenLin.fitWeights, GenLin.setup, decide_eq_true_eq, hvl, hvr, sub_zero, add_zero]
      rfl
    rw [h1]
    by_cases h : occurs f
    · simp only [if_pos h]
      rw [add_comm (w _)]
    · simp only [if_neg h, holdW, Sum.elim_inl, Sum.elim_inr]
      apply Complex.ext <;> simp
  refine ⟨?_, ?_, ?_, ?_⟩
  · intro f hf
    rw [hnew, if_neg hf]
  · intro f hf hna
    rw [hnew, if_pos hf, hw0 (Sum.inl f) (fun h => hna h.1)]
    simp
  · intro f hf hna
    rw [hnew, if_pos hf, hw0 (Sum.inr f) (fun h => hna h.1)]
    simp
  · intro best h1 h2 h3 h4 theta h5 h6 hne
    have hbest : best = fun f => ((prior f + w (Sum.inl f) : ℝ) : ℂ) + Complex.I * (w (Sum.inr f) : ℂ) := by
      funext f
      apply Complex.ext
      · by_cases hf : occurs f ∧ alpha (Sum.inl f) < 1e10
        · rw [h1 f hf, hnew, if_pos hf.1]
        · rw [h2 f hf, hw0 _ (fun h => hf ((hal f).mp h))]
          simp
      · by_cases hf : occurs f ∧ alpha (Sum.inr f) < 1e10
        · rw [h3 f hf, hnew, if_pos hf.1]
        · rw [h4 f hf, hw0 _ (fun h => hf ((har f).mp h))]
          simp
    set v : n ⊕ n → ℝ := Sum.elim (fun f => (theta f).re - prior f) (fun f => (theta f).im) with hvdef
    have htheta : theta = fun f => ((prior f + v (Sum.inl f) : ℝ) : ℂ) + Complex.I * (v (Sum.inr f) : ℂ) := by
      funext f
      apply Complex.ext <;> simp [hvdef]
    have hv0 : ∀ f, ¬ Active E alpha f → v f = 0 := by
      rintro (f | f) hf
      · rw [hal] at hf; simp [hvdef, h5 f hf]
      · rw [har] at hf; simp [hvdef, h6 f hf]
    have hmin := solve_min lstsq (Active E alpha) (realify K) (Sum.elim S S) hS2 m (fun f => alpha f / 2)
      (fun f => by have := ha f; positivity) oldW v hv0 (fun h => hne (by rw [htheta, hbest, h]))
    have hL : ∀ u : n ⊕ n → ℝ, loss (fun f => ((prior f + u (Sum.inl f) : ℝ) : ℂ) + Complex.I * (u (Sum.inr f) : ℂ))
        = quad (𝕜 := ℝ) 1 (realify K) (Sum.elim S S) m (fun f => alpha f / 2) u
          + 1 * ∑ i, Sum.elim S S i * ‖expandVec data i‖ ^ 2 := by
      intro u
      have := loss_split 1 K S logAmps (fun f => alpha f / 2) prior u
      rw [← hdata, loss_eq_quad] at this
      exact this
    rw [htheta, hbest, hL, hL]
    linarith

/-- Amplitude `-2` (with logarithm `log 2 + i pi`), one feature, prior mean 0. -/
example : Complex.exp (Real.log 2 + Real.pi * Complex.I) = -2 ∧
    -Real.pi < ((Real.log 2 : ℂ) + Real.pi * Complex.I - (1 : ℂ) * (0 : ℝ)).im ∧
    ((Real.log 2 : ℂ) + Real.pi * Complex.I - (1 : ℂ) * (0 : ℝ)).im ≤ Real.pi := by
  have h : ((Real.log 2 : ℂ) + Real.pi * Complex.I - (1 : ℂ) * (0 : ℝ)).im = Real.pi := by
    rw [Complex.sub_im, Complex.add_im, Complex.ofReal_im]
    simp
  rw [h]
  refine ⟨?_, by linarith [Real.pi_pos], le_rfl⟩
  rw [Complex.exp_add, Complex.exp_pi_mul_I, ← Complex.ofReal_exp, Real.exp_log two_pos]
  norm_num

/-! ## Iteratively reweighted least squares -/

/-- The masked solution is the only vector of the active features that satisfies the equations. -/
theorem solve_unique (act : n → Prop) (A : Matrix n n ℝ) (hA : (block A act).PosDef) (y w u : n → ℝ) (hu : ∀ f, ¬ act f → u f = 0)
    (h : ∀ f, act f → (A *ᵥ u) f = y f) : masked act (solveInto lstsq act A y w) = u := by
  classical
  funext f
  by_cases hf : act f
  · have h1 : block A act *ᵥ (fun g : {f // act f} => u g) = fun g : {f // act f} => y g := by
      funext g
      rw [← h g.1 g.2]
      show ∑ k : {f // act f}, A g.1 k.1 * u k.1 = ∑ k, A g.1 k * u k
      rw [← Finset.sum_subtype (Finset.univ.filter act) (by simp) (fun k => A g.1 k * u k), Finset.sum_filter]
      refine Finset.sum_congr rfl fun k _ => ?_
      by_cases hk : act k
      · rw [if_pos hk]
      · rw [if_neg hk, hu k hk, mul_zero]
    rw [masked, if_pos hf]
    unfold solveInto
    simp only [dif_pos hf, if_pos hA]
    rw [← h1, Matrix.mulVec_mulVec, Matrix.nonsing_inv_mul _ ((Matrix.isUnit_iff_isUnit_det _).mp hA.isUnit), Matrix.one_mulVec]
  · rw [masked, if_neg hf, hu f hf]

/-- The weights of the linearised problem. -/
noncomputable def irlsWeights (noise : ℝ) (K : Matrix ι n ℝ) (v : ι → ℝ) (old : n → ℝ) (i : ι) : ℝ := v i * Spec.predicted K old i ^ 2 / noise

/-- The data of the linearised problem. -/
noncomputable def irlsData (K : Matrix ι n ℝ) (amps : ι → ℝ) (old : n → ℝ) (i : ι) : ℝ :=
  (K *ᵥ old) i + (amps i / Spec.predicted K old i - 1)

theorem predicted_pos (K : Matrix ι n ℝ) (theta : n → ℝ) (i : ι) : 0 < Spec.predicted K theta i := Real.exp_pos _

/-- One reweighted least-squares step solves the linearised problem. -/
theorem irlsStep_eq (noise : ℝ) (K : Matrix ι n ℝ) (v amps : ι → ℝ) (alpha prior old : n → ℝ) :
    irlsStep lstsq noise K (fun i => v i * Real.exp (∑ f, prior f * K i f) ^ 2) (fun i => amps i / Real.exp (∑ f, prior f * K i f)) alpha
      (fun f => old f - prior f)
      = solveInto lstsq (Active (cast K) alpha) (gram K (irlsWeights noise K v old) + Matrix.diagonal alpha)
        (rhs K fun i => irlsWeights noise K v old i * fitData K (irlsData K amps old) prior i) (fun f => old f - prior f) := by
  have hpred : ∀ i, Real.exp ((K *ᵥ fun f => old f - prior f) i) * Real.exp (∑ f, prior f * K i f) = Spec.predicted K old i := by
    intro i
    rw [← Real.exp_add]
    unfold Spec.predicted
    congr 1
    show ∑ f, K i f * (old f - prior f) + ∑ f, prior f * K i f = ∑ f, K i f * old f
    rw [← Finset.sum_add_distrib]
    exact Finset.sum_congr rfl fun f _ => by ring
  have e1 : ∀ i, v i * Real.exp (∑ f, prior f * K i f) ^ 2 * |Real.exp ((K *ᵥ fun f => old f - prior f) i)| ^ 2 / noise
      = irlsWeights noise K v old i := by
    intro i
    rw [irlsWeights, ← hpred, sq_abs]
    ring
  have e2 : ∀ i, Real.log (Real.exp ((K *ᵥ fun f => old f - prior f) i))
      + (amps i / Real.exp (∑ f, prior f * K i f) - Real.exp ((K *ᵥ fun f => old f - prior f) i)) / Real.exp ((K *ᵥ fun f => old f - prior f) i)
      = fitData K (irlsData K amps old) prior i := by
    intro i
    rw [Real.log_exp]
    have h1 : (K *ᵥ fun f => old f - prior f) i = (K *ᵥ old) i - ∑ f, prior f * K i f := by
      show ∑ f, K i f * (old f - prior f) = ∑ f, K i f * old f - ∑ f, prior f * K i f
      rw [← Finset.sum_sub_distrib]
      exact Finset.sum_congr rfl fun f _ => by ring
    unfold fitData irlsData
    rw [← hpred, sub_div, div_self (Real.exp_pos _).ne', div_div, mul_comm (Real.exp (∑ f, prior f * K i f)), h1]
    ring
  unfold irlsStep
  simp only [e1, e2]

/-- The loss of the linearised problem. -/
theorem linearised_eq (noise : ℝ) (K : Matrix ι n ℝ) (v amps : ι → ℝ) (alpha prior old theta : n → ℝ) :
    Spec.ridgeLoss 1 K (irlsWeights noise K v old) (irlsData K amps old) alpha prior theta
      = Spec.linearisedLoss (1 / noise) K v amps alpha prior old theta := by
  unfold Spec.ridgeLoss Spec.linearisedLoss
  congr 1
  · rw [one_mul, Finset.mul_sum]
    refine Finset.sum_congr rfl fun i _ => ?_
    have hp := (predicted_pos K old i).ne'
    have h1 : ∑ f, K i f * (theta f - old f) = (K *ᵥ theta) i - (K *ᵥ old) i := by
      show _ = ∑ f, K i f * theta f - ∑ f, K i f * old f
      rw [← Finset.sum_sub_distrib]
      exact Finset.sum_congr rfl fun f _ => by ring
    rw [h1, irlsWeights, irlsData]
    simp only [Real.norm_eq_abs, sq_abs]
    have h2 : (∑ f, K i f * theta f) = (K *ᵥ theta) i := rfl
    rw [h2]
    generalize (K *ᵥ theta) i = a
    generalize (K *ᵥ old) i = b
    generalize Spec.predicted K old i = p at hp
    have h3 : b + (amps i / p - 1) - a = (amps i - p * (1 + (a - b))) / p := by
      field_simp
      ring
    rw [h3, div_pow]
    field_simp
  · simp only [Real.norm_eq_abs, sq_abs]

/-- C91 (real parameters): a fit step of the generalised linear model with one step of reweighted least squares and no other options
leaves the parameters of features that do not occur; sets those with a precision of at least 1e10 to the prior mean; and gives the others
the values that are the unique minimiser of the loss with the predicted amplitudes replaced by their first-order expansion. -/
theorem C91 (newton : ℕ → (n → ℝ) → (n → ℝ)) (noise : ℝ) (hn : 0 < noise) (K : Matrix ι n ℝ) (weightings : Option (ι → ℝ))
    (hv : ∀ i, 0 ≤ (weightings.getD fun _ => 1) i) (amps : ι → ℝ) (alpha : n → ℝ) (ha : ∀ f, 0 < alpha f) (prior old : n → ℝ) :
    let new := fitStep lstsq newton noise K weightings amps alpha false 1 prior old
    let takesPart := fun f => 1e-10 < ∑ i, |K i f| ∧ alpha f < 1e10
    let loss := Spec.linearisedLoss (1 / noise) K (weightings.getD fun _ => 1) amps alpha prior old
    (∀ f, ¬ 1e-10 < ∑ i, |K i f| → new f = old f) ∧
    (∀ f, 1e-10 < ∑ i, |K i f| → ¬ alpha f < 1e10 → new f = prior f) ∧
    ∀ best : n → ℝ, (∀ f, takesPart f → best f = new f) → (∀ f, ¬ takesPart f → best f = prior f) →
      ∀ theta : n → ℝ, (∀ f, ¬ takesPart f → theta f = prior f) → theta ≠ best → loss best < loss theta := by
  intro new takesPart loss
  have hS0 : ∀ i, 0 ≤ irlsWeights noise K (weightings.getD fun _ => 1) old i := fun i =>
    div_nonneg (mul_nonneg (hv i) (sq_nonneg _)) hn.le
  have hstep : ∀ f, new f = if 1e-10 < ∑ i, |K i f| then prior f + masked (Active (cast K) alpha)
      (solveInto lstsq (Active (cast K) alpha) (gram K (irlsWeights noise K (weightings.getD fun _ => 1) old) + Matrix.diagonal alpha)
        (rhs K fun i => irlsWeights noise K (weightings.getD fun _ => 1) old i * fitData K (irlsData K amps old) prior i)
        (fun f => old f - prior f)) f else old f := by
    intro f
    have h := fitStep_eq lstsq newton noise K weightings amps alpha false 1 prior old f
    simp only [Function.iterate_one, Bool.false_eq_true, if_false] at h
    rw [irlsStep_eq] at h
    convert h
  refine ⟨fun f hf => by rw [hstep, if_neg hf], fun f hf hna => ?_, fun best h1 h2 theta h3 hne => ?_⟩
  · rw [hstep, if_pos hf, masked, if_neg (fun h => hna h.1), add_zero]
  · have := best_of lstsq K _ hS0 _ alpha ha prior _ new best theta (fun f hf => by rw [hstep, if_pos hf]) h1 h2 h3 hne
    rw [linearised_eq, linearised_eq] at this
    exact this

/-- The derivative of the loss along one parameter. -/
theorem ampLoss_deriv (beta : ℝ) (K : Matrix ι n ℝ) (v amps : ι → ℝ) (c prior old : n → ℝ) (f : n) :
    HasDerivAt (fun t => Spec.ampLoss beta K v amps c prior (Function.update old f (old f + t)))
      (2 * (c f * (old f - prior f) - beta * ∑ i, v i * K i f * Spec.predicted K old i * (amps i - Spec.predicted K old i))) 0 := by
  have hsum : ∀ i t, ∑ g, K i g * Function.update old f (old f + t) g = ∑ g, K i g * old g + K i f * t := by
    intro i t
    have : ∀ g, K i g * Function.update old f (old f + t) g = K i g * old g + if g = f then K i f * t else 0 := by
      intro g
      by_cases h : g = f
      · subst h
        simp
        ring
      · simp [h]
    simp only [this, Finset.sum_add_distrib, Finset.sum_ite_eq', Finset.mem_univ, if_true]
  have hpred : ∀ i, HasDerivAt (fun t => Spec.predicted K (Function.update old f (old f + t)) i) (Spec.predicted K old i * K i f) 0 := by
    intro i
    have h1 : HasDerivAt (fun t : ℝ => ∑ g, K i g * old g + K i f * t) (K i f) 0 := by
      simpa using ((hasDerivAt_id (0 : ℝ)).const_mul (K i f)).const_add (∑ g, K i g * old g)
    have h2 := h1.exp
    have h3 : (fun t => Spec.predicted K (Function.update old f (old f + t)) i) = fun t => Real.exp (∑ g, K i g * old g + K i f * t) := by
      funext t
      unfold Spec.predicted
      rw [hsum]
    rw [h3]
    simpa [Spec.predicted] using h2
  have hval : ∀ i, Spec.predicted K (Function.update old f (old f + 0)) i = Spec.predicted K old i := by
    intro i
    rw [add_zero, Function.update_eq_self]
  have hdata : HasDerivAt (fun t => beta * ∑ i, v i * (amps i - Spec.predicted K (Function.update old f (old f + t)) i) ^ 2)
      (beta * ∑ i, v i * (2 * (amps i - Spec.predicted K old i) * -(Spec.predicted K old i * K i f))) 0 := by
    refine HasDerivAt.const_mul _ (HasDerivAt.fun_sum fun i _ => HasDerivAt.const_mul _ ?_)
    have h := ((hpred i).const_sub (amps i)).fun_pow 2
    rw [hval] at h
    simpa using h
  have hpen : HasDerivAt (fun t => ∑ g, c g * (Function.update old f (old f + t) g - prior g) ^ 2) (2 * (c f * (old f - prior f))) 0 := by
    have h1 : ∀ t, ∑ g, c g * (Function.update old f (old f + t) g - prior g) ^ 2
        = ∑ g, c g * (old g - prior g) ^ 2 + (c f * (old f + t - prior f) ^ 2 - c f * (old f - prior f) ^ 2) := by
      intro t
      have : ∀ g, c g * (Function.update old f (old f + t) g - prior g) ^ 2
          = c g * (old g - prior g) ^ 2 + if g = f then (c f * (old f + t - prior f) ^ 2 - c f * (old f - prior f) ^ 2) else 0 := by
        intro g
        by_cases h : g = f
        · subst h
          simp
        · simp [h]
      simp only [this, Finset.sum_add_distrib, Finset.sum_ite_eq', Finset.mem_univ, if_true]
    simp only [h1]
    have h2 : HasDerivAt (fun t : ℝ => c f * (old f + t - prior f) ^ 2) (c f * (2 * (old f + 0 - prior f) * 1)) 0 := by
      have := ((((hasDerivAt_id (0 : ℝ)).const_add (old f)).sub_const (prior f)).fun_pow 2).const_mul (c f)
      simpa using this
    have h3 := (h2.sub_const (c f * (old f - prior f) ^ 2)).const_add (∑ g, c g * (old g - prior g) ^ 2)
    rw [show 2 * (c f * (old f - prior f)) = c f * (2 * (old f + 0 - prior f) * 1) by ring]
    exact h3
  have hfin := hdata.add hpen
  have hv : 2 * (c f * (old f - prior f) - beta * ∑ i, v i * K i f * Spec.predicted K old i * (amps i - Spec.predicted K old i))
      = beta * ∑ i, v i * (2 * (amps i - Spec.predicted K old i) * -(Spec.predicted K old i * K i f)) + 2 * (c f * (old f - prior f)) := by
    rw [Finset.mul_sum, Finset.mul_sum, mul_sub, Finset.mul_sum, sub_eq_neg_add, ← Finset.sum_neg_distrib]
    congr 1
    exact Finset.sum_congr rfl fun i _ => by ring
  rw [hv]
  exact hfin

/-- C91, fixed points: provided parameters that do not take part are at the prior mean or belong to a feature that is zero on the data,
a step of reweighted least squares leaves all parameters unchanged exactly if they are a stationary point of the loss in the parameters
that take part. -/
theorem C91_fixed (newton : ℕ → (n → ℝ) → (n → ℝ)) (noise : ℝ) (hn : 0 < noise) (K : Matrix ι n ℝ) (weightings : Option (ι → ℝ))
    (hv : ∀ i, 0 ≤ (weightings.getD fun _ => 1) i) (amps : ι → ℝ) (alpha : n → ℝ) (ha : ∀ f, 0 < alpha f) (prior old : n → ℝ)
    (hold : ∀ f, ¬ (1e-10 < ∑ i, |K i f| ∧ alpha f < 1e10) → old f = prior f ∨ ∀ i, K i f = 0) :
    fitStep lstsq newton noise K weightings amps alpha false 1 prior old = old ↔
      ∀ f, 1e-10 < ∑ i, |K i f| ∧ alpha f < 1e10 →
        HasDerivAt (fun t => Spec.ampLoss (1 / noise) K (weightings.getD fun _ => 1) amps alpha prior
          (Function.update old f (old f + t))) 0 0 := by
  classical
  set v := weightings.getD fun _ => 1 with hvdef
  set S := irlsWeights noise K v old with hSdef
  set act := Active (cast K) alpha with hact
  set y := rhs K fun i => S i * fitData K (irlsData K amps old) prior i with hy
  set A := gram K S + Matrix.diagonal alpha with hA
  have hS0 : ∀ i, 0 ≤ S i := fun i => div_nonneg (mul_nonneg (hv i) (sq_nonneg _)) hn.le
  have hpos : (block A act).PosDef := by
    rw [hA, reg_eq]
    exact posDef_block false 1 zero_le_one _ (gram_posSemidef K S hS0) alpha ha act
  have hstep : ∀ f, fitStep lstsq newton noise K weightings amps alpha false 1 prior old f
      = if 1e-10 < ∑ i, |K i f| then prior f + masked act (solveInto lstsq act A y (fun f => old f - prior f)) f else old f := by
    intro f
    have h := fitStep_eq lstsq newton noise K weightings amps alpha false 1 prior old f
    simp only [Function.iterate_one, Bool.false_eq_true, if_false] at h
    rw [irlsStep_eq] at h
    convert h
  set u : n → ℝ := masked act (fun f => old f - prior f) with hu
  have hKu : ∀ i, (K *ᵥ u) i = (K *ᵥ fun f => old f - prior f) i := by
    intro i
    refine Finset.sum_congr rfl fun f _ => ?_
    show K i f * u f = K i f * (old f - prior f)
    by_cases hf : act f
    · rw [hu, masked, if_pos hf]
    · rcases hold f (fun h => hf ((active_cast K alpha f).mpr h)) with h | h
      · rw [hu, masked, if_neg hf, h, sub_self]
      · rw [h i, zero_mul, zero_mul]
  have hfix : fitStep lstsq newton noise K weightings amps alpha false 1 prior old = old
      ↔ masked act (solveInto lstsq act A y (fun f => old f - prior f)) = u := by
    constructor
    · intro h
      funext f
      by_cases hf : act f
      · have h1 := congrFun h f
        rw [hstep, if_pos ((active_cast K alpha f).mp hf).1] at h1
        rw [hu, masked, masked, if_pos hf, if_pos hf]
        rw [masked, if_pos hf] at h1
        linarith
      · rw [hu, masked, masked, if_neg hf, if_neg hf]
    · intro h
      funext f
      rw [hstep, h]
      by_cases hval : 1e-10 < ∑ i, |K i f|
      · rw [if_pos hval]
        by_cases hf : act f
        · rw [hu, masked, if_pos hf, add_sub_cancel]
        · rw [hu, masked, if_neg hf, add_zero]
          rcases hold f (fun h => hf ((active_cast K alpha f).mpr h)) with h' | h'
          · exact h'.symm
          · simp only [h', abs_zero, Finset.sum_const_zero] at hval
            norm_num at hval
      · rw [if_neg hval]
  have heqs : (masked act (solveInto lstsq act A y (fun f => old f - prior f)) = u) ↔ ∀ f, act f → (A *ᵥ u) f = y f := by
    constructor
    · intro h f hf
      rw [← h]
      exact solve_eq lstsq act A hpos y _ f hf
    · intro h
      exact solve_unique lstsq act A hpos y _ u (fun f hf => if_neg hf) h
  have hgrad : ∀ f, act f → ((A *ᵥ u) f = y f ↔
      2 * (alpha f * (old f - prior f) - 1 / noise * ∑ i, v i * K i f * Spec.predicted K old i * (amps i - Spec.predicted K old i)) = 0) := by
    intro f hf
    have h1 : (A *ᵥ u) f = ∑ i, K i f * (S i * (K *ᵥ u) i) + alpha f * (old f - prior f) := by
      rw [hA, Matrix.add_mulVec, Pi.add_apply, Matrix.mulVec_diagonal, gram_mulVec]
      have e : u f = old f - prior f := by rw [hu, masked, if_pos hf]
      rw [e]
      congr 1
    have h2 : y f = ∑ i, K i f * (S i * fitData K (irlsData K amps old) prior i) := by
      rw [hy]
      refine Finset.sum_congr rfl fun i _ => ?_
      simp
    have h3 : ∀ i, fitData K (irlsData K amps old) prior i - (K *ᵥ u) i = amps i / Spec.predicted K old i - 1 := by
      intro i
      rw [hKu]
      show (K *ᵥ old) i + (amps i / Spec.predicted K old i - 1) - ∑ f, prior f * K i f - ∑ f, K i f * (old f - prior f) = _
      have : ∑ f, K i f * (old f - prior f) = (K *ᵥ old) i - ∑ f, prior f * K i f := by
        show _ = ∑ f, K i f * old f - ∑ f, prior f * K i f
        rw [← Finset.sum_sub_distrib]
        exact Finset.sum_congr rfl fun f _ => by ring
      rw [this]
      ring
    have h4 : y f - (A *ᵥ u) f = 1 / noise * ∑ i, v i * K i f * Spec.predicted K old i * (amps i - Spec.predicted K old i)
        - alpha f * (old f - prior f) := by
      rw [h1, h2, ← sub_sub, ← Finset.sum_sub_distrib, Finset.mul_sum]
      congr 1
      refine Finset.sum_congr rfl fun i _ => ?_
      rw [← mul_sub, ← mul_sub, h3, hSdef, irlsWeights]
      have hp := (predicted_pos K old i).ne'
      field_simp
    constructor
    · intro h
      rw [h, sub_self] at h4
      linarith
    · intro h
      linarith
  rw [hfix, heqs]
  refine forall_congr' fun f => ?_
  rw [hact, active_cast]
  refine imp_congr_right fun hf => ?_
  rw [hgrad f ((active_cast K alpha f).mpr hf)]
  have hd := ampLoss_deriv (1 / noise) K v amps alpha prior old f
  constructor
  · intro h
    rw [h] at hd
    exact hd
  · intro h
    exact hd.unique h

/-- C91, several steps: provided parameters of occurring features with a precision of at least 1e10 are at the prior mean, `k + 1` steps
of reweighted least squares in one fit (with or without the initial fit) are the same as a fit with `k` steps followed by a fit with one
step. -/
theorem C91_steps (newton : ℕ → (n → ℝ) → (n → ℝ)) (noise : ℝ) (K : Matrix ι n ℝ) (weightings : Option (ι → ℝ)) (amps : ι → ℝ)
    (alpha prior old : n → ℝ) (hold : ∀ f, 1e-10 < ∑ i, |K i f| → ¬ alpha f < 1e10 → old f = prior f) (init : Bool) (k : ℕ) :
    fitStep lstsq newton noise K weightings amps alpha init (k + 1) prior old
      = fitStep lstsq newton noise K weightings amps alpha false 1 prior
          (fitStep lstsq newton noise K weightings amps alpha init k prior old) := by
  classical
  have hkeep : ∀ (A : Matrix n n ℝ) (y w : n → ℝ) f, ¬ Active (cast K) alpha f → solveInto lstsq (Active (cast K) alpha) A y w f = w f := by
    intro A y w f hf
    unfold solveInto
    simp only [dif_neg hf]
  have hiter : ∀ (v d : ι → ℝ) (w : n → ℝ) f, ¬ Active (cast K) alpha f → ∀ k, (irlsStep lstsq noise K v d alpha)^[k] w f = w f := by
    intro v d w f hf k
    induction k with
    | zero => rfl
    | succ k ih => rw [Function.iterate_succ_apply', irlsStep, hkeep _ _ _ f hf, ih]
  have hinit : ∀ (v d : ι → ℝ) (w : n → ℝ) f, ¬ Active (cast K) alpha f →
      (if init then logFitInit lstsq noise K v d alpha w else w) f = w f := by
    intro v d w f hf
    cases init
    · rfl
    · exact hkeep _ _ _ f hf
  have hk := fitStep_eq lstsq newton noise K weightings amps alpha init k prior old
  have hk1 := fitStep_eq lstsq newton noise K weightings amps alpha init (k + 1) prior old
  simp only at hk hk1
  set pf := fun i => Real.exp (∑ f, prior f * K i f)
  set v := fun i => (weightings.getD fun _ => 1) i * pf i ^ 2
  set d := fun i => amps i / pf i
  set w0 := if init then logFitInit lstsq noise K v d alpha (fun f => old f - prior f) else fun f => old f - prior f with hw0
  have hin : ∀ f, ¬ Active (cast K) alpha f → (irlsStep lstsq noise K v d alpha)^[k] w0 f = old f - prior f := by
    intro f hf
    rw [hiter v d w0 f hf k, hw0, hinit v d _ f hf]
  have hmid : (fun f => fitStep lstsq newton noise K weightings amps alpha init k prior old f - prior f)
      = (irlsStep lstsq noise K v d alpha)^[k] w0 := by
    funext f
    rw [hk]
    by_cases hf : Active (cast K) alpha f
    · rw [if_pos ((active_cast K alpha f).mp hf).1, masked, if_pos hf, add_sub_cancel_left]
    · rw [hin f hf]
      by_cases hval : 1e-10 < ∑ i, |K i f|
      · rw [if_pos hval, masked, if_neg hf, hold f hval (fun h => hf ((active_cast K alpha f).mpr ⟨hval, h⟩))]
        ring
      · rw [if_neg hval]
  have h1 := fitStep_eq lstsq newton noise K weightings amps alpha false 1 prior
    (fitStep lstsq newton noise K weightings amps alpha init k prior old)
  simp only [Bool.false_eq_true, if_false, Function.iterate_one] at h1
  funext f
  rw [hk1, h1, hmid, Function.iterate_succ_apply']
  by_cases hval : 1e-10 < ∑ i, |K i f|
  · rw [if_pos hval, if_pos hval]
  · rw [if_neg hval, if_neg hval, hk, if_neg hval]

end GPSKet.GenLinFit
