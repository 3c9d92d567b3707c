import Verif.Model.AfterSetup

/-!
# C199: predictions from the weights of a fit

`prediction_after_setup` is meant to give the predictions of the model that a fit results in.  The predictions of the model are, as in
C54/C56, the sums of feature times parameter (plus the bias), or their exponentials.
-/

namespace GPSKet.AfterSetup

open Matrix GPSKet.SupervisedFit

variable {𝕜 : Type} [RCLike 𝕜] {ι n : Type} [Fintype ι] [Fintype n] [DecidableEq n]

namespace Spec

/-- The log-amplitude of datum `i` for a model with the parameters `eps` at the reference sites. -/
def logAmplitude (K : ι → n → 𝕜) (eps : n → 𝕜) (i : ι) : 𝕜 := ∑ f, K i f * eps f

end Spec

/-- All features either matter in the fit or are zero on all data. -/
def Covered (valid : n → Prop) (K : ι → n → 𝕜) : Prop := ∀ f, valid f ∨ ∀ i, K i f = 0

omit [Fintype ι] [DecidableEq n] in
theorem sum_new (valid : n → Prop) [DecidablePred valid] (K : ι → n → 𝕜) (hK : Covered valid K) (w old prior : n → 𝕜) (i : ι) :
    ∑ f, K i f * ((if valid f then w f else old f - prior f) + prior f) = ∑ f, K i f * w f + ∑ f, prior f * K i f := by
  rw [← Finset.sum_add_distrib]
  refine Finset.sum_congr rfl fun f _ => ?_
  rcases hK f with h | h
  · rw [if_pos h]; ring
  · rw [h i]; ring

/-- What the predictions from the weights of a fit in log space are: those of the new parameters without the contribution of the prior
mean. -/
theorem C199_log (pinvh : {m : Type} → [Fintype m] → Matrix m m 𝕜 → Matrix m m 𝕜) (beta : ℝ) (K : Matrix ι n 𝕜) (S : ι → ℝ)
    (logAmps : ι → 𝕜) (alpha : n → ℝ) (prior old : n → 𝕜) (hK : Covered (Valid (gram K S)) K) :
    ∃ p, logSpace K (logSpaceWeights pinvh beta K S logAmps alpha prior) = some p ∧ ∀ i,
      Spec.logAmplitude K (logSpaceStep pinvh beta K S logAmps alpha prior old) i = p i + ∑ f, prior f * K i f := by
  classical
  refine ⟨_, rfl, fun i => ?_⟩
  have := sum_new (Valid (gram K S)) K hK
    (weights pinvh false beta (gram K S) (rhs K fun i => (S i : 𝕜) * fitData K logAmps prior i) alpha) old prior i
  simp only [Spec.logAmplitude, logSpaceStep, updated, mulVec, dotProduct]
  convert this

/-- Without a prior mean the predictions from the weights are the predictions of the new parameters. -/
theorem C199_log_partial (pinvh : {m : Type} → [Fintype m] → Matrix m m 𝕜 → Matrix m m 𝕜) (beta : ℝ) (K : Matrix ι n 𝕜) (S : ι → ℝ)
    (logAmps : ι → 𝕜) (alpha : n → ℝ) (old : n → 𝕜) (hK : Covered (Valid (gram K S)) K) :
    logSpace K (logSpaceWeights pinvh beta K S logAmps alpha fun _ => 0)
      = some fun i => Spec.logAmplitude K (logSpaceStep pinvh beta K S logAmps alpha (fun _ => 0) old) i := by
  obtain ⟨p, hp, h⟩ := C199_log pinvh beta K S logAmps alpha (fun _ => 0) old hK
  rw [hp]
  congr 1
  funext i
  simp [h i]

/-- With a prior mean they are wrong for every datum to which the prior mean contributes, for every fit. -/
theorem C199_log_prior_fails (pinvh : {m : Type} → [Fintype m] → Matrix m m 𝕜 → Matrix m m 𝕜) (beta : ℝ) (K : Matrix ι n 𝕜) (S : ι → ℝ)
    (logAmps : ι → 𝕜) (alpha : n → ℝ) (prior old : n → 𝕜) (hK : Covered (Valid (gram K S)) K) (p : ι → 𝕜)
    (hp : logSpace K (logSpaceWeights pinvh beta K S logAmps alpha prior) = some p) (i : ι) :
    p i = Spec.logAmplitude K (logSpaceStep pinvh beta K S logAmps alpha prior old) i ↔ ∑ f, prior f * K i f = 0 := by
  obtain ⟨p', hp', h⟩ := C199_log pinvh beta K S logAmps alpha prior old hK
  rw [hp, Option.some.injEq] at hp'
  subst hp'
  rw [h i, left_eq_add]

/-- The deviations from the data of the fit, from which the prior mean has been removed as well, are those of the new parameters from the
log-amplitudes. -/
theorem C199_log_residuals (pinvh : {m : Type} → [Fintype m] → Matrix m m 𝕜 → Matrix m m 𝕜) (beta : ℝ) (K : Matrix ι n 𝕜) (S : ι → ℝ)
    (logAmps : ι → 𝕜) (alpha : n → ℝ) (prior old : n → 𝕜) (hK : Covered (Valid (gram K S)) K) (p : ι → 𝕜)
    (hp : logSpace K (logSpaceWeights pinvh beta K S logAmps alpha prior) = some p) (i : ι) :
    fitData K logAmps prior i - p i
      = logAmps i - Spec.logAmplitude K (logSpaceStep pinvh beta K S logAmps alpha prior old) i := by
  obtain ⟨p', hp', h⟩ := C199_log pinvh beta K S logAmps alpha prior old hK
  rw [hp, Option.some.injEq] at hp'
  subst hp'
  rw [h i, fitData]
  ring

/-- The same with a bias. -/
theorem C199_bias (pinvh : {m : Type} → [Fintype m] → Matrix m m 𝕜 → Matrix m m 𝕜) (beta : ℝ) (K : Matrix ι n 𝕜) (S : ι → ℝ)
    (logAmps : ι → 𝕜) (alpha : n ⊕ Unit → ℝ) (prior old : n → 𝕜) (oldBias : 𝕜)
    (hK : Covered (fun f => Valid (gram (withOnes K) S) (Sum.inl f)) K) :
    ∃ p, logSpace (withOnes K) (logSpaceWeightsBias pinvh beta K S logAmps alpha prior) = some p ∧ ∀ i,
      Spec.logAmplitude K (logSpaceStepBias pinvh beta K S logAmps alpha prior old oldBias).1 i
          + (logSpaceStepBias pinvh beta K S logAmps alpha prior old oldBias).2
        = p i + ∑ f, prior f * K i f := by
  classical
  refine ⟨_, rfl, fun i => ?_⟩
  have := sum_new (fun f => Valid (gram (withOnes K) S) (Sum.inl f)) K hK
    (fun f => weights pinvh false beta (gram (withOnes K) S) (rhs (withOnes K) fun i => (S i : 𝕜) * fitData K logAmps prior i) alpha
      (Sum.inl f)) old prior i
  have e : Spec.logAmplitude K (logSpaceStepBias pinvh beta K S logAmps alpha prior old oldBias).1 i
      = ∑ f, K i f * weights pinvh false beta (gram (withOnes K) S) (rhs (withOnes K) fun i => (S i : 𝕜) * fitData K logAmps prior i) alpha
          (Sum.inl f) + ∑ f, prior f * K i f := by
    rw [← this]
    simp only [Spec.logAmplitude, logSpaceStepBias, updated, Sum.elim_inl]
    refine Finset.sum_congr rfl fun f _ => ?_
    congr 2
  rw [e]
  have e2 : (withOnes K *ᵥ weights pinvh false beta (gram (withOnes K) S)
        (rhs (withOnes K) fun i => (S i : 𝕜) * fitData K logAmps prior i) alpha) i
      = ∑ f, K i f * weights pinvh false beta (gram (withOnes K) S) (rhs (withOnes K) fun i => (S i : 𝕜) * fitData K logAmps prior i) alpha
          (Sum.inl f) + (logSpaceStepBias pinvh beta K S logAmps alpha prior old oldBias).2 := by
    simp only [mulVec, dotProduct, Fintype.sum_sum_type, withOnes, fromCols_apply_inl, fromCols_apply_inr, of_apply, one_mul,
      Finset.univ_unique, Finset.sum_singleton, logSpaceStepBias]
    try rfl
  rw [e2]
  ring

/-- Without a prior mean and with a bias: the predictions from the weights are the predictions of the new model. -/
theorem C199_bias_partial (pinvh : {m : Type} → [Fintype m] → Matrix m m 𝕜 → Matrix m m 𝕜) (beta : ℝ) (K : Matrix ι n 𝕜) (S : ι → ℝ)
    (logAmps : ι → 𝕜) (alpha : n ⊕ Unit → ℝ) (old : n → 𝕜) (oldBias : 𝕜)
    (hK : Covered (fun f => Valid (gram (withOnes K) S) (Sum.inl f)) K) :
    logSpace (withOnes K) (logSpaceWeightsBias pinvh beta K S logAmps alpha fun _ => 0)
      = some fun i => Spec.logAmplitude K (logSpaceStepBias pinvh beta K S logAmps alpha (fun _ => 0) old oldBias).1 i
          + (logSpaceStepBias pinvh beta K S logAmps alpha (fun _ => 0) old oldBias).2 := by
  obtain ⟨p, hp, h⟩ := C199_bias pinvh beta K S logAmps alpha (fun _ => 0) old oldBias hK
  rw [hp]
  congr 1
  funext i
  simp [h i]

/-- A data set of two configurations with two features, each of which occurs in the data. -/
def exK : Matrix (Fin 2) (Fin 2) ℝ := !![2, 0; 1, 3]

theorem exCovered : Covered (Valid (gram exK fun _ => 1)) exK := by
  intro f
  refine Or.inl ?_
  fin_cases f <;> simp [Valid, gram, exK, mul_apply, Fin.sum_univ_two] <;> norm_num

/-- The hypotheses of the theorems on fits in log space are met, and with the prior mean 1 the predictions from the weights differ from
those of the new parameters on all data. -/
example (pinvh : {m : Type} → [Fintype m] → Matrix m m ℝ → Matrix m m ℝ) (logAmps : Fin 2 → ℝ) (old : Fin 2 → ℝ) :
    logSpace exK (logSpaceWeights pinvh 10 exK (fun _ => 1) logAmps (fun _ => 1) fun _ => 1)
      ≠ some (Spec.logAmplitude exK (logSpaceStep pinvh 10 exK (fun _ => 1) logAmps (fun _ => 1) (fun _ => 1) old)) := by
  intro h
  have := (C199_log_prior_fails pinvh 10 exK (fun _ => 1) logAmps (fun _ => 1) (fun _ => 1) old exCovered _ h 0).1 rfl
  norm_num [exK, Fin.sum_univ_two] at this

example : Covered (fun f => Valid (gram (withOnes exK) fun _ => 1) (Sum.inl f)) exK := by
  intro f
  refine Or.inl ?_
  fin_cases f <;> simp [Valid, gram, withOnes, exK, mul_apply, Fin.sum_univ_two] <;> norm_num

/-- With `complex_expand` and complex parameters a log-space learner cannot give predictions from its weights: whatever the data, the
method raises an exception. -/
theorem C199_expand_fails [Nonempty n] (pinvh : {m : Type} → [Fintype m] → Matrix m m ℝ → Matrix m m ℝ) (beta : ℝ) (K : Matrix ι n ℂ)
    (S : ι → ℝ) (logAmps : ι → ℂ) (alpha : n ⊕ n → ℝ) (prior : n → ℝ) :
    logSpace K (logSpaceWeightsExpand pinvh beta K S logAmps alpha prior) = none :=
  if_neg (not_isEmpty_of_nonempty n)

/-! ## Generalised linear model -/

omit [Fintype ι] [DecidableEq n] in
/-- `QGPSGenLinMod` with real parameters, for all options and any number of evaluations in the optimisation of precisions and noise: the
predictions of the new parameters are those from the weights times the amplitudes of the prior mean. -/
theorem C199_genlin (valid : n → Bool) (active : ℕ → n → Bool) (newton : ℕ → (n → ℝ) → (n → ℝ)) (o : GenLin.Options ℝ n) (k : ℕ)
    (K : Matrix ι n ℝ) (prior old : n → ℝ) (hK : Covered (fun f => valid f = true) K) (i : ι) :
    Real.exp (Spec.logAmplitude K (GenLin.fitStep valid active newton o k prior old) i)
      = genLin K (GenLin.fitWeights active (fun f => old f - prior f) newton o k) i * Real.exp (∑ f, prior f * K i f) := by
  rw [genLin, ← Real.exp_add]
  congr 1
  exact sum_new (fun f => valid f = true) K hK (GenLin.fitWeights active (fun f => old f - prior f) newton o k) old prior i

omit [Fintype ι] [DecidableEq n] in
/-- Without a prior mean they are the same. -/
theorem C199_genlin_partial (valid : n → Bool) (active : ℕ → n → Bool) (newton : ℕ → (n → ℝ) → (n → ℝ)) (o : GenLin.Options ℝ n) (k : ℕ)
    (K : Matrix ι n ℝ) (old : n → ℝ) (hK : Covered (fun f => valid f = true) K) (i : ι) :
    genLin K (GenLin.fitWeights active old newton o k) i
      = Real.exp (Spec.logAmplitude K (GenLin.fitStep valid active newton o k (fun _ => 0) old) i) := by
  rw [C199_genlin valid active newton o k K (fun _ => 0) old hK i]
  simp

omit [Fintype ι] [DecidableEq n] in
/-- With a prior mean they are wrong for every datum to which it contributes. -/
theorem C199_genlin_prior_fails (valid : n → Bool) (active : ℕ → n → Bool) (newton : ℕ → (n → ℝ) → (n → ℝ)) (o : GenLin.Options ℝ n)
    (k : ℕ) (K : Matrix ι n ℝ) (prior old : n → ℝ) (hK : Covered (fun f => valid f = true) K) (i : ι) :
    genLin K (GenLin.fitWeights active (fun f => old f - prior f) newton o k) i
        = Real.exp (Spec.logAmplitude K (GenLin.fitStep valid active newton o k prior old) i)
      ↔ ∑ f, prior f * K i f = 0 := by
  rw [C199_genlin valid active newton o k K prior old hK i]
  refine (left_eq_mul₀ ?_).trans (Real.exp_eq_one_iff _)
  exact (Real.exp_pos _).ne'

omit [Fintype ι] [DecidableEq n] in
/-- `QGPSGenLinMod` with complex parameters, for the weights `w` of any fit: as for real parameters. -/
theorem C199_genlin_complex (valid : n ⊕ n → Bool) (K : Matrix ι n ℂ) (w : n ⊕ n → ℝ) (prior : n → ℝ) (old : n → ℂ)
    (hK : ∀ f, (valid (Sum.inl f) = true ∧ valid (Sum.inr f) = true) ∨ ∀ i, K i f = 0) (i : ι) :
    Complex.exp (Spec.logAmplitude K (updatedComplex valid w old prior) i)
      = genLinComplex K w i * Complex.exp (∑ f, (prior f : ℂ) * K i f) := by
  rw [genLinComplex, ← Complex.exp_add]
  congr 1
  rw [Fintype.sum_sum_type, ← Finset.sum_add_distrib, ← Finset.sum_add_distrib]
  refine Finset.sum_congr rfl fun f _ => ?_
  simp only [GenLinFit.expandK, Sum.elim_inl, Sum.elim_inr, updatedComplex]
  rcases hK f with ⟨h1, h2⟩ | h
  · rw [if_pos h1, if_pos h2]
    push_cast
    ring
  · rw [h i]
    ring

omit [Fintype ι] [DecidableEq n] in
/-- Without a prior mean they are the same. -/
theorem C199_genlin_complex_partial (valid : n ⊕ n → Bool) (K : Matrix ι n ℂ) (w : n ⊕ n → ℝ) (old : n → ℂ)
    (hK : ∀ f, (valid (Sum.inl f) = true ∧ valid (Sum.inr f) = true) ∨ ∀ i, K i f = 0) (i : ι) :
    genLinComplex K w i = Complex.exp (Spec.logAmplitude K (updatedComplex valid w old fun _ => 0) i) := by
  rw [C199_genlin_complex valid K w (fun _ => 0) old hK i]
  simp

/-- The whole step of the generalised linear model for complex parameters with `log_fit_init` (C90) ends with this update. -/
theorem C199_genlin_complex_step (lstsq : {m : Type} → [Fintype m] → Matrix m m ℝ → (m → ℝ) → m → ℝ)
    (newton : ℕ → (n ⊕ n → ℝ) → (n ⊕ n → ℝ)) (noise : ℝ) (K : Matrix ι n ℂ) (weightings : Option (ι → ℝ)) (amps : ι → ℂ)
    (alpha : n ⊕ n → ℝ) (prior : n → ℝ) (old : n → ℂ)
    (hK : ∀ f, (GenLinFit.Valid (GenLinFit.expandK fun i f => K i f) (Sum.inl f)) ∨ ∀ i, K i f = 0) (i : ι) :
    Complex.exp (Spec.logAmplitude K (GenLinFit.fitStepComplex lstsq newton noise K weightings amps alpha prior old) i)
      = genLinComplex K (genLinWeightsComplex lstsq newton noise K weightings amps alpha prior old) i
        * Complex.exp (∑ f, (prior f : ℂ) * K i f) := by
  classical
  have hv : ∀ f, GenLinFit.Valid (GenLinFit.expandK fun i f => K i f) (Sum.inl f)
      → GenLinFit.Valid (GenLinFit.expandK fun i f => K i f) (Sum.inr f) := by
    intro f h
    unfold GenLinFit.Valid GenLinFit.expandK at h ⊢
    simpa using h
  have hK' : ∀ f, (decide (GenLinFit.Valid (GenLinFit.expandK fun i f => K i f) (Sum.inl f)) = true
      ∧ decide (GenLinFit.Valid (GenLinFit.expandK fun i f => K i f) (Sum.inr f)) = true) ∨ ∀ i, K i f = 0 := fun f =>
    (hK f).imp (fun h => ⟨decide_eq_true h, decide_eq_true (hv f h)⟩) id
  rw [← C199_genlin_complex (fun g => decide (GenLinFit.Valid (GenLinFit.expandK fun i f => K i f) g)) K _ prior old hK' i]
  congr 2
  funext f
  simp only [GenLinFit.fitStepComplex, GenLin.fitStep, GenLin.updated, updatedComplex, sub_zero, add_zero, decide_eq_true_eq]
  rfl

/-- The hypotheses are met by the same data. -/
example : ∀ f : Fin 2, (GenLinFit.Valid (GenLinFit.expandK fun i f => ((exK i f : ℝ) : ℂ)) (Sum.inl f)) ∨ ∀ i : Fin 2, ((exK i f : ℝ) : ℂ) = 0 := by
  intro f
  refine Or.inl ?_
  fin_cases f <;> simp [GenLinFit.Valid, GenLinFit.expandK, exK, Fin.sum_univ_two] <;> norm_num

end GPSKet.AfterSetup
