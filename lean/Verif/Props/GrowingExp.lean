import Verif.Props.GrowingFails

/-! # C88, C89: the growing relevance vector machine, learner of exponentials; features that hardly occur -/

namespace GPSKet.GrowingRVM

open Matrix GPSKet.SupervisedFit GPSKet.MargLik GPSKet.OptAlpha
open scoped ComplexOrder

variable {ι n : Type} [Fintype ι] [Fintype n] [DecidableEq n]
variable {chol : {m : Type} → [Fintype m] → Matrix m m ℝ → Option (Matrix m m ℝ)}
variable (pinvh : {m : Type} → [Fintype m] → Matrix m m ℝ → Matrix m m ℝ)

/-- C88, second part, for the learner of exponentials with real parameters: if two features are part of the model, an iteration is at
least as good as every change of one precision, to a number or to infinity. -/
theorem C88_exp_best_partial (hchol : CholeskySpec chol) {argmax : (n → WithBot ℝ) → n} (hmax : IsArgmax argmax) (first : n) (noise : ℝ)
    (mode : NoiseMode ι) (K : Matrix ι n ℝ) (weightings : Option (ι → ℝ)) (amps data : ι → ℝ) (S : ι → ℝ)
    (hSdef : S = expWeights noise mode weightings amps) (hS : ∀ i, 0 ≤ S i)
    (hfeat : ∀ f, 1e-10 < Spec.occurrence K S f ∨ ∀ i, K i f = 0)
    (alpha : n → WithTop ℝ) (ha : ∀ f, 0 < alpha f) (k : ℕ)
    (hcut : ∀ f, expGrowing chol pinvh argmax first noise mode K weightings amps data (k + 1) alpha f = ⊤ ∨
      expGrowing chol pinvh argmax first noise mode K weightings amps data (k + 1) alpha f < ((1e10 : ℝ) : WithTop ℝ))
    (htwo : ∃ f1 f2, f1 ≠ f2 ∧ ∀ f, f = f1 ∨ f = f2 →
      expGrowing chol pinvh argmax first noise mode K weightings amps data k alpha f < ((1e10 : ℝ) : WithTop ℝ) ∧
      1e-10 < Spec.occurrence K S f)
    (g : n) (t : WithTop ℝ) (ht : 0 < t)
    (l : ℝ) (hl : expLogMargLik chol pinvh false noise mode K weightings amps data
      (fun f => finite (Function.update (expGrowing chol pinvh argmax first noise mode K weightings amps data k alpha) g t f)) = some l) :
    ∃ l', expLogMargLik chol pinvh false noise mode K weightings amps data
      (fun f => finite (expGrowing chol pinvh argmax first noise mode K weightings amps data (k + 1) alpha f)) = some l' ∧ l ≤ l' := by
  subst hSdef
  have hfeat' := features_of K _ hS (multiplicator (expWeights noise mode weightings amps) amps data) hfeat
  have hK := gram_posSemidef K _ hS
  have hp := growing_pos pinvh hchol argmax first 1 one_pos _ hK _ hfeat' alpha ha k
  have hc : BelowCutoff (expGrowing chol pinvh argmax first noise mode K weightings amps data (k + 1) alpha) := hcut
  have hsucc : expGrowing chol pinvh argmax first noise mode K weightings amps data (k + 1) alpha
      = updatePrecisions chol pinvh argmax false 1 (gram K (expWeights noise mode weightings amps))
          (rhs K (multiplicator (expWeights noise mode weightings amps) amps data))
          (growingPrecisions chol pinvh argmax first false 1 (gram K (expWeights noise mode weightings amps))
            (rhs K (multiplicator (expWeights noise mode weightings amps) amps data)) k alpha) :=
    growing_succ pinvh argmax first false _ _ _ k alpha
  rw [hsucc] at hc ⊢
  unfold expLogMargLik at hl ⊢
  simp only at hl ⊢
  obtain ⟨d, hd, hd'⟩ := Option.map_eq_some_iff.mp hl
  refine ⟨_, by rw [hd]; rfl, ?_⟩
  rw [← hd']
  refine step_best pinvh hchol hmax 1 one_pos _ hK _ hfeat' _ hp _ hc ?_ g t ht
  obtain ⟨f1, f2, hne, h⟩ := htwo
  have hact : ∀ f, f = f1 ∨ f = f2 → Active (gram K (expWeights noise mode weightings amps)) (fun f => finite (growingPrecisions chol pinvh
      argmax first false 1 (gram K (expWeights noise mode weightings amps))
      (rhs K (multiplicator (expWeights noise mode weightings amps) amps data)) k alpha f)) f := by
    intro f hf
    refine ⟨?_, (valid_iff K _ hS f).mpr (h f hf).2⟩
    have h1 : growingPrecisions chol pinvh argmax first false 1 (gram K (expWeights noise mode weightings amps))
      (rhs K (multiplicator (expWeights noise mode weightings amps) amps data)) k alpha f < _ := (h f hf).1
    show finite (growingPrecisions chol pinvh argmax first false 1 (gram K (expWeights noise mode weightings amps))
      (rhs K (multiplicator (expWeights noise mode weightings amps) amps data)) k alpha f) < 1e10
    generalize growingPrecisions chol pinvh argmax first false 1 (gram K (expWeights noise mode weightings amps))
      (rhs K (multiplicator (expWeights noise mode weightings amps) amps data)) k alpha f = a at h1
    induction a using WithTop.recTopCoe with
    | top => exact absurd h1 not_top_lt
    | coe a => exact WithTop.coe_lt_coe.mp h1
  exact ⟨f1, f2, hne, hact f1 (Or.inl rfl), hact f2 (Or.inr rfl)⟩

/-- C89 for the learner of exponentials with real or complex parameters, for all estimates of the noise. -/
theorem C89_exp_partial {𝕜 : Type} [RCLike 𝕜] {chol : {m : Type} → [Fintype m] → Matrix m m 𝕜 → Option (Matrix m m 𝕜)}
    (pinvh : {m : Type} → [Fintype m] → Matrix m m 𝕜 → Matrix m m 𝕜) (hchol : CholeskySpec chol) {argmax : (n → WithBot ℝ) → n} (hmax : IsArgmax argmax) (first : n)
    (cplx : Bool) (noise : ℝ) (mode : NoiseMode ι) (K : Matrix ι n 𝕜) (weightings : Option (ι → ℝ)) (amps data : ι → 𝕜) (S : ι → ℝ)
    (hSdef : S = expWeights noise mode weightings amps) (hS : ∀ i, 0 ≤ S i) (hfeat : ∀ f, 2 ^ (-23 : ℤ) ≤ Spec.occurrence K S f)
    (alpha : n → WithTop ℝ) (ha : ∀ f, ((1e10 : ℝ) : WithTop ℝ) ≤ alpha f)
    (hcut : ∀ f, expGrowing chol pinvh argmax first noise mode K weightings amps data 0 alpha f = ⊤ ∨
      expGrowing chol pinvh argmax first noise mode K weightings amps data 0 alpha f < ((1e10 : ℝ) : WithTop ℝ))
    (himp : ∃ (g : n) (t : WithTop ℝ) (l l' : ℝ), 0 < t ∧
      expLogMargLik chol pinvh cplx noise mode K weightings amps data (fun f => finite (alpha f)) = some l ∧
      expLogMargLik chol pinvh cplx noise mode K weightings amps data (fun f => finite (Function.update alpha g t f)) = some l' ∧ l < l')
    (g : n) (t : WithTop ℝ) (ht : 0 < t)
    (l : ℝ) (hl : expLogMargLik chol pinvh cplx noise mode K weightings amps data
      (fun f => finite (Function.update alpha g t f)) = some l) :
    ∃ l', expLogMargLik chol pinvh cplx noise mode K weightings amps data
      (fun f => finite (expGrowing chol pinvh argmax first noise mode K weightings amps data 0 alpha f)) = some l' ∧ l ≤ l' := by
  subst hSdef
  have hK := gram_posSemidef K _ hS
  have hval : ∀ f, 2 ^ (-23 : ℤ) ≤ ‖gram K (expWeights noise mode weightings amps) f f‖ := by
    intro f
    have h0 : 0 ≤ Spec.occurrence K (expWeights noise mode weightings amps) f :=
      Finset.sum_nonneg fun i _ => mul_nonneg (hS i) (sq_nonneg _)
    rw [gram_diag, RCLike.norm_ofReal, abs_of_nonneg h0]
    exact hfeat f
  have hpos : Positive alpha := fun f => lt_of_lt_of_le (by
    have : (0 : ℝ) < 1e10 := by norm_num
    exact_mod_cast this) (ha f)
  obtain ⟨g0, t0, l0, l0', ht0, h0, h0', hlt⟩ := himp
  unfold expLogMargLik at hl h0 h0' ⊢
  simp only at hl h0 h0' ⊢
  obtain ⟨d, hd, hd'⟩ := Option.map_eq_some_iff.mp hl
  rw [hd, Option.map_some, Option.some_inj] at h0 h0'
  refine ⟨_, by rw [hd]; rfl, ?_⟩
  rw [← hd']
  refine initial_best pinvh hchol hmax first cplx 1 one_pos _ hK _ hval alpha hpos ?_ _ hcut ⟨g0, t0, ht0, by rw [h0, h0']; exact hlt⟩ g t ht
  intro f hf
  have h1 : finite (alpha f) < 1e10 := hf.1
  have h2 := ha f
  generalize alpha f = b at h1 h2
  induction b using WithTop.recTopCoe with
  | top => exact lt_irrefl _ h1
  | coe b => exact absurd h1 (not_lt.mpr (WithTop.coe_le_coe.mp h2))

/-! ## Features that hardly occur, `complex_expand` -/

/-- The best precision of one feature with the data 3 is better than none. -/
theorem best_pos : 0 < part 1 9 (1 / 8) := by
  have hb := part_best 1 9 one_pos (by norm_num)
  rw [show (1 : ℝ) ^ 2 / (9 - 1) = 1 / 8 by norm_num] at hb
  rw [hb, best, if_pos (by norm_num)]
  have : Real.log (1 / 9) = -Real.log 9 := by rw [one_div, Real.log_inv]
  rw [this]
  have := Real.log_lt_sub_one_of_pos (show (0 : ℝ) < 9 by norm_num) (by norm_num)
  linarith

open Classical in
theorem evidence_update_invalid (cplx half : Bool) (beta : ℝ) (KtK : Matrix n n ℝ) (y : n → ℝ) (alpha : n → ℝ) (d : ℝ) (f : n)
    (hf : ¬ Valid KtK f) (t : ℝ) :
    evidence chol pinvh cplx half beta KtK y (Function.update alpha f t) d = evidence chol pinvh cplx half beta KtK y alpha d := by
  have hf' : ¬ Active KtK alpha f := fun h => hf h.2
  have hact : Active KtK (Function.update alpha f t) = Active KtK alpha := by
    funext g
    by_cases h : g = f
    · subst h
      exact propext (iff_of_false (fun h => hf h.2) hf')
    · simp [Active, Function.update_of_ne h]
  have hreg := block_other half beta KtK alpha f t (Active KtK alpha) hf'
  have hne : ∀ g : {g // Active KtK alpha g}, (g : n) ≠ f := fun g h => hf' (h ▸ g.2)
  rw [evidence_on chol pinvh cplx half beta KtK y _ d _ hact, evidence_on chol pinvh cplx half beta KtK y _ d _ rfl]
  unfold evidenceOn
  simp only [hreg, Function.update_of_ne (hne _)]

/-- Two features of which the first does not occur in the data. -/
def halfMatrix : Matrix (Fin 2) (Fin 2) ℝ := Matrix.diagonal fun i => if i = 0 then 0 else 1

theorem halfMatrix_gram : gram halfMatrix (logWeights none) = halfMatrix := by
  ext i j
  fin_cases i <;> fin_cases j <;> simp [gram, halfMatrix, Matrix.mul_apply, logWeights]

theorem halfMatrix_rhs : rhs halfMatrix (fun i => (RCLike.ofReal (logWeights none i) : ℝ) * witnessData i)
    = fun i => if i = 0 then 0 else 3 := by
  funext i
  fin_cases i <;> simp [rhs, halfMatrix, logWeights, witnessData, mulVec, dotProduct]

theorem halfMatrix_posSemidef : halfMatrix.PosSemidef := by
  rw [← halfMatrix_gram]
  exact gram_posSemidef _ _ fun i => by simp [logWeights]

/-- C89 is false if a feature hardly occurs in the data (weight below 2⁻²³): `fit_step_growing_RVM` then takes the feature 0
(supervised_qgps.py:1036-1037).  Here this is the very feature that does not occur, so that log_marg_lik is not improved, although the
other feature improves it. -/
theorem C89_small_fails (hchol : CholeskySpec chol) (argmax : (Fin 2 → WithBot ℝ) → Fin 2) :
    logSpaceLogMargLik chol pinvh false 1 halfMatrix none witnessData
        (fun f => finite (logSpaceGrowing chol pinvh argmax 0 1 halfMatrix none witnessData 0 (fun _ => ⊤) f))
      = logSpaceLogMargLik chol pinvh false 1 halfMatrix none witnessData (fun _ => finite ⊤) ∧
    logSpaceLogMargLik chol pinvh false 1 halfMatrix none witnessData
        (fun f => finite (logSpaceGrowing chol pinvh argmax 0 1 halfMatrix none witnessData 0 (fun _ => ⊤) f))
      < logSpaceLogMargLik chol pinvh false 1 halfMatrix none witnessData
        (fun f => finite (Function.update (fun _ => (⊤ : WithTop ℝ)) 1 ((1 / 8 : ℝ) : WithTop ℝ) f)) := by
  have hK := halfMatrix_posSemidef
  have htop : finite ⊤ = 1e10 := rfl
  have hno : ∀ f, ¬ Active halfMatrix (fun _ => finite ⊤) f := fun f h => lt_irrefl _ h.1
  have h00 : halfMatrix 0 0 = 0 := by simp [halfMatrix]
  have h11 : halfMatrix 1 1 = 1 := by simp [halfMatrix]
  have hp : ∀ _ : Fin 2, (0 : ℝ) < finite ⊤ := fun _ => by rw [htop]; norm_num
  have hstep : logSpaceGrowing chol pinvh argmax 0 1 halfMatrix none witnessData 0 (fun _ => ⊤)
      = Function.update (fun _ => ⊤) 0 (((2 : ℝ) ^ (-23 : ℤ) : ℝ) : WithTop ℝ) := by
    unfold logSpaceGrowing growingPrecisions
    rw [halfMatrix_gram, Function.iterate_zero, id]
    unfold initialPrecisions
    rw [if_neg (not_exists.mpr hno), if_pos ⟨0, by rw [h00, norm_zero]; positivity⟩]
  have hsame : ∀ d, evidence chol pinvh false false 1 halfMatrix (fun i => if i = 0 then 0 else 3)
      (Function.update (fun _ => finite ⊤) 0 ((2 : ℝ) ^ (-23 : ℤ))) d
      = evidence chol pinvh false false 1 halfMatrix (fun i => if i = 0 then 0 else 3) (fun _ => finite ⊤) d := by
    intro d
    refine evidence_update_invalid pinvh false false 1 halfMatrix _ _ d 0 ?_ _
    rw [Valid, h00, norm_zero]
    norm_num
  rw [hstep, finite_update, finite_update]
  unfold logSpaceLogMargLik
  rw [halfMatrix_gram, halfMatrix_rhs, one_div_one]
  have hfin : finite (((2 : ℝ) ^ (-23 : ℤ) : ℝ) : WithTop ℝ) = (2 : ℝ) ^ (-23 : ℤ) := rfl
  rw [hfin, hsame]
  refine ⟨rfl, ?_⟩
  have hv : Valid halfMatrix 1 := by
    rw [Valid, h11, norm_one]
    norm_num
  have h8 : finite ((1 / 8 : ℝ) : WithTop ℝ) = 1 / 8 := rfl
  obtain ⟨h1, h2⟩ := empty_quantities pinvh hchol 1 zero_le_one _ hK (fun i : Fin 2 => if i = 0 then (0 : ℝ) else 3) _ hp hno 1
  rw [h8, evidence_feature pinvh hchol false 1 one_pos _ hK _ (fun _ => finite ⊤) hp _ 1 hv _ (by norm_num),
    evidence_current pinvh hchol false 1 one_pos _ hK _ (fun _ => finite ⊤) hp _ 1 hv, if_neg (hno 1), h1, h2,
    if_pos (show (1 / 8 : ℝ) < 1e10 by norm_num)]
  have e : part (1 * RCLike.re (halfMatrix 1 1)) (‖(RCLike.ofReal (1 : ℝ) : ℝ) * (if (1 : Fin 2) = 0 then (0 : ℝ) else 3)‖ ^ 2) (1 / 8) = part 1 9 (1 / 8) := by
    rw [h11]
    congr 1 <;> norm_num
  refine lt_of_lt_of_eq ?_ (congrArg (fun x => _ + (if false = true then (1 : ℝ) else 1 / 2) * x) e.symm)
  have := best_pos
  simp only [Bool.false_eq_true, if_false, mul_zero, add_zero]
  linarith

/-- C89 is false with `complex_expand`: the precision is not the best one.  One complex feature and the data 3: the precision of the real
part is set to 1/4, the one of the largest marginal likelihood is 2/17. -/
theorem C89_expand_fails (hchol : CholeskySpec chol) {argmax : (Unit ⊕ Unit → WithBot ℝ) → Unit ⊕ Unit} (hmax : IsArgmax argmax)
    (first : Unit ⊕ Unit) :
    logSpaceLogMargLikExpand chol pinvh 1 (1 : Matrix Unit Unit ℂ) none (fun _ => 3)
        (fun f => finite (logSpaceGrowingExpand chol pinvh argmax first 1 (1 : Matrix Unit Unit ℂ) none (fun _ => 3) 0 (fun _ => ⊤) f))
      < logSpaceLogMargLikExpand chol pinvh 1 (1 : Matrix Unit Unit ℂ) none (fun _ => 3)
        (fun f => finite (Function.update (fun _ => (⊤ : WithTop ℝ)) (Sum.inl ()) ((2 / 17 : ℝ) : WithTop ℝ) f)) := by
  have hK : (1 : Matrix (Unit ⊕ Unit) (Unit ⊕ Unit) ℝ).PosSemidef := Matrix.PosSemidef.one
  have hm : expandVec (rhs (1 : Matrix Unit Unit ℂ) fun i : Unit => ((logWeights none i : ℝ) : ℂ) * 3) = Sum.elim (fun _ => 3) fun _ => 0 := by
    rw [rhs_one]
    funext i
    rcases i with i | i <;> simp [logWeights, expandVec]
  have htop : finite ⊤ = 1e10 := rfl
  have hno : ∀ f, ¬ Active (1 : Matrix (Unit ⊕ Unit) (Unit ⊕ Unit) ℝ) (fun _ => finite ⊤) f := fun f h => lt_irrefl _ h.1
  have hp : ∀ _ : Unit ⊕ Unit, (0 : ℝ) < finite ⊤ := fun _ => by rw [htop]; norm_num
  obtain ⟨y, hy⟩ : ∃ y : Unit ⊕ Unit → ℝ, y = Sum.elim (fun _ => 3) fun _ => 0 := ⟨_, rfl⟩
  have hind : argmax (fun f => ((‖y f‖ ^ 2 / RCLike.re ((1 : Matrix (Unit ⊕ Unit) (Unit ⊕ Unit) ℝ) f f) : ℝ) : WithBot ℝ)) = Sum.inl () := by
    have h := hmax (fun f => ((‖y f‖ ^ 2 / RCLike.re ((1 : Matrix (Unit ⊕ Unit) (Unit ⊕ Unit) ℝ) f f) : ℝ) : WithBot ℝ)) (Sum.inl ())
    generalize argmax (fun f => ((‖y f‖ ^ 2 / RCLike.re ((1 : Matrix (Unit ⊕ Unit) (Unit ⊕ Unit) ℝ) f f) : ℝ) : WithBot ℝ)) = i at h ⊢
    rcases i with i | i
    · rfl
    · exfalso
      have h' := WithBot.coe_le_coe.mp h
      rw [hy, Matrix.one_apply_eq, Matrix.one_apply_eq] at h'
      norm_num at h'
  have hstep : logSpaceGrowingExpand chol pinvh argmax first 1 (1 : Matrix Unit Unit ℂ) none (fun _ => 3) 0 (fun _ => ⊤)
      = Function.update (fun _ => ⊤) (Sum.inl ()) ((1 / 4 : ℝ) : WithTop ℝ) := by
    unfold logSpaceGrowingExpand growingPrecisions
    rw [gram_one, hm, expandMat_one, one_div_one, Function.iterate_zero, id, ← hy]
    unfold initialPrecisions
    rw [if_neg (not_exists.mpr hno), if_neg]
    swap
    · rintro ⟨f, h⟩
      rw [Matrix.one_apply_eq, norm_one] at h
      norm_num at h
    simp only
    rw [hind]
    have e : ‖y (Sum.inl ())‖ ^ 2 / RCLike.re ((1 : Matrix (Unit ⊕ Unit) (Unit ⊕ Unit) ℝ) (Sum.inl ()) (Sum.inl ())) = 9 := by
      rw [hy, Matrix.one_apply_eq]
      norm_num
    have e1 : RCLike.re ((1 : Matrix (Unit ⊕ Unit) (Unit ⊕ Unit) ℝ) (Sum.inl ()) (Sum.inl ())) = 1 := by rw [Matrix.one_apply_eq]; rfl
    rw [e, e1, if_neg (by norm_num), if_pos (by norm_num)]
    norm_num
  have hv : Valid (1 : Matrix (Unit ⊕ Unit) (Unit ⊕ Unit) ℝ) (Sum.inl ()) := by
    rw [Valid, Matrix.one_apply_eq, norm_one]
    norm_num
  have h2 := orthogonal_quantities pinvh hchol true y (fun _ => finite ⊤) hp (Sum.inl ())
  have hE : ∀ (t d : ℝ), 0 < t → t < 1e10 → evidence chol pinvh true true 1 (1 : Matrix (Unit ⊕ Unit) (Unit ⊕ Unit) ℝ) y
      (Function.update (fun _ => finite ⊤) (Sum.inl ()) t) d
      = evidence chol pinvh true true 1 (1 : Matrix (Unit ⊕ Unit) (Unit ⊕ Unit) ℝ) y (without (fun _ => finite ⊤) (Sum.inl ())) d
        + 1 / 2 * part 1 18 (t / 2) := by
    intro t d ht htc
    have h := evidence_add_half pinvh hchol 1 zero_le_one _ hK y (without (fun _ => finite ⊤) (Sum.inl ()))
      (without_pos hp _) d (Sum.inl ()) (without_not_active _ _ _) hv t ht htc
    rw [update_without, h2.1, h2.2] at h
    rw [h, hy]
    norm_num
  rw [hstep, finite_update, finite_update]
  unfold logSpaceLogMargLikExpand
  rw [gram_one, hm, expandMat_one, one_div_one, ← hy]
  have h4 : finite ((1 / 4 : ℝ) : WithTop ℝ) = 1 / 4 := rfl
  have h17 : finite ((2 / 17 : ℝ) : WithTop ℝ) = 2 / 17 := rfl
  rw [h4, h17, hE _ _ (by norm_num) (by norm_num), hE _ _ (by norm_num) (by norm_num), part, part]
  have hl : Real.log 2 < 1 := by
    rw [Real.log_lt_iff_lt_exp (by norm_num)]
    have := Real.add_one_lt_exp (one_ne_zero : (1 : ℝ) ≠ 0)
    linarith
  have e1 : Real.log (1 / 4 / 2) = -Real.log 8 := by rw [← Real.log_inv]; norm_num
  have e2 : Real.log (1 / 4 / 2 + 1) = Real.log 9 - Real.log 8 := by rw [← Real.log_div (by norm_num) (by norm_num)]; norm_num
  have e3 : Real.log (2 / 17 / 2) = -Real.log 17 := by rw [← Real.log_inv]; norm_num
  have e4 : Real.log (2 / 17 / 2 + 1) = Real.log 2 + Real.log 9 - Real.log 17 := by
    rw [← Real.log_mul (by norm_num) (by norm_num), ← Real.log_div (by norm_num) (by norm_num)]; norm_num
  rw [e1, e2, e3, e4]
  norm_num
  linarith

/-! ## The hypotheses are satisfiable -/

theorem witness_weights (amps : Fin 2 → ℝ) : expWeights 0 .target none amps = logWeights none := by
  funext i
  simp [expWeights, noiseWeight, logWeights]

theorem witness_exp (argmax : (Fin 2 → WithBot ℝ) → Fin 2) (k : ℕ) (alpha : Fin 2 → WithTop ℝ) :
    expGrowing chol pinvh argmax 0 0 .target (1 : Matrix (Fin 2) (Fin 2) ℝ) none (fun _ => 1) witnessData k alpha
      = logSpaceGrowing chol pinvh argmax 0 1 (1 : Matrix (Fin 2) (Fin 2) ℝ) none witnessData k alpha := by
  unfold expGrowing logSpaceGrowing
  simp only
  rw [witness_weights, one_div_one]
  congr 2
  funext i
  simp [multiplicator]

/-- `C88_exp_partial` and `C88_exp_best_partial`: the hypotheses hold for every number of iterations from precisions 1. -/
example (hchol : CholeskySpec chol) (argmax : (Fin 2 → WithBot ℝ) → Fin 2) (k : ℕ) :
    (∀ i, 0 ≤ expWeights 0 .target none (fun _ : Fin 2 => (1 : ℝ)) i) ∧
    (∀ f, 1e-10 < Spec.occurrence (1 : Matrix (Fin 2) (Fin 2) ℝ) (expWeights 0 .target none fun _ => (1 : ℝ)) f ∨
      ∀ i, (1 : Matrix (Fin 2) (Fin 2) ℝ) i f = 0) ∧
    (∀ f, expGrowing chol pinvh argmax 0 0 .target (1 : Matrix (Fin 2) (Fin 2) ℝ) none (fun _ => 1) witnessData (k + 1)
      (fun _ => ((1 : ℝ) : WithTop ℝ)) f = ⊤ ∨ expGrowing chol pinvh argmax 0 0 .target (1 : Matrix (Fin 2) (Fin 2) ℝ) none (fun _ => 1)
        witnessData (k + 1) (fun _ => ((1 : ℝ) : WithTop ℝ)) f < ((1e10 : ℝ) : WithTop ℝ)) ∧
    (∃ f1 f2 : Fin 2, f1 ≠ f2 ∧ ∀ f, f = f1 ∨ f = f2 →
      expGrowing chol pinvh argmax 0 0 .target (1 : Matrix (Fin 2) (Fin 2) ℝ) none (fun _ => 1) witnessData k
        (fun _ => ((1 : ℝ) : WithTop ℝ)) f < ((1e10 : ℝ) : WithTop ℝ) ∧
      1e-10 < Spec.occurrence (1 : Matrix (Fin 2) (Fin 2) ℝ) (expWeights 0 .target none fun _ => (1 : ℝ)) f) ∧
    ∀ alpha, ∃ l, expLogMargLik chol pinvh false 0 .target (1 : Matrix (Fin 2) (Fin 2) ℝ) none (fun _ => 1) witnessData alpha = some l := by
  have hocc : ∀ f, 1e-10 < Spec.occurrence (1 : Matrix (Fin 2) (Fin 2) ℝ) (expWeights 0 .target none fun _ => (1 : ℝ)) f :=
    fun f => by
      have h := witness_occurrence f
      rw [witness_weights]
      exact lt_of_lt_of_eq (by norm_num) h.symm
  refine ⟨fun i => by rw [witness_weights]; simp [logWeights], fun f => Or.inl (hocc f), fun f => Or.inr ?_, ⟨0, 1, by decide,
    fun f _ => ⟨?_, hocc f⟩⟩, fun alpha => ⟨_, rfl⟩⟩
  · obtain ⟨t, -, h, e⟩ := witness_iterations pinvh hchol argmax (k + 1) f
    rw [witness_exp, e]
    exact coe_lt_cutoff h
  · obtain ⟨t, -, h, e⟩ := witness_iterations pinvh hchol argmax k f
    rw [witness_exp, e]
    exact coe_lt_cutoff h

/-- `C89_exp_partial`: no feature is part of the model, and one improves the marginal likelihood. -/
example (hchol : CholeskySpec chol) :
    ∃ (g : Fin 2) (t : WithTop ℝ) (l l' : ℝ), 0 < t ∧
      expLogMargLik chol pinvh false 0 .target (1 : Matrix (Fin 2) (Fin 2) ℝ) none (fun _ => 1) witnessData (fun _ => finite ⊤) = some l ∧
      expLogMargLik chol pinvh false 0 .target (1 : Matrix (Fin 2) (Fin 2) ℝ) none (fun _ => 1) witnessData
        (fun f => finite (Function.update (fun _ => (⊤ : WithTop ℝ)) g t f)) = some l' ∧ l < l' := by
  refine ⟨1, ((1 / 8 : ℝ) : WithTop ℝ), _, _, by exact_mod_cast (show (0 : ℝ) < 1 / 8 by norm_num), rfl, rfl, ?_⟩
  have hm : rhs (1 : Matrix (Fin 2) (Fin 2) ℝ) (multiplicator (logWeights none) (fun _ => 1) witnessData) = witnessData := by
    rw [rhs_one]
    funext i
    simp [multiplicator, logWeights]
  simp only
  rw [witness_weights, gram_one, hm, finite_update]
  have hK : (1 : Matrix (Fin 2) (Fin 2) ℝ).PosSemidef := Matrix.PosSemidef.one
  have htop : finite ⊤ = 1e10 := rfl
  have hno : ∀ f, ¬ Active (1 : Matrix (Fin 2) (Fin 2) ℝ) (fun _ => finite ⊤) f := fun f h => lt_irrefl _ h.1
  have hv : Valid (1 : Matrix (Fin 2) (Fin 2) ℝ) 1 := by
    rw [Valid, Matrix.one_apply_eq, norm_one]
    norm_num
  have hp : ∀ _ : Fin 2, (0 : ℝ) < finite ⊤ := fun _ => by rw [htop]; norm_num
  have h8 : finite ((1 / 8 : ℝ) : WithTop ℝ) = 1 / 8 := rfl
  obtain ⟨h1, h2⟩ := empty_quantities pinvh hchol 1 zero_le_one _ hK witnessData _ hp hno 1
  rw [h8, evidence_feature pinvh hchol false 1 one_pos _ hK _ (fun _ => finite ⊤) hp _ 1 hv _ (by norm_num),
    evidence_current pinvh hchol false 1 one_pos _ hK _ (fun _ => finite ⊤) hp _ 1 hv, if_neg (hno 1), h1, h2,
    if_pos (show (1 / 8 : ℝ) < 1e10 by norm_num)]
  have e : part (1 * RCLike.re ((1 : Matrix (Fin 2) (Fin 2) ℝ) 1 1)) (‖(RCLike.ofReal (1 : ℝ) : ℝ) * witnessData 1‖ ^ 2) (1 / 8)
      = part 1 9 (1 / 8) := by
    rw [Matrix.one_apply_eq, one_mul, RCLike.ofReal_one, one_mul]
    congr 1
    unfold witnessData
    norm_num
  rw [e]
  have := best_pos
  simp only [Bool.false_eq_true, if_false, mul_zero, add_zero]
  linarith

end GPSKet.GrowingRVM
