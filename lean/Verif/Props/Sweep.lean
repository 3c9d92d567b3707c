import Verif.Lemmas.Sweep

/-!
# C167: sweeps of fit steps never increase the penalised error

A program fits a qGPS to data by fit steps at one set of reference sites after the other.  The theorems are about a learner after any
history, and about any sequence of fit steps, predictions and assignments of reference sites from there on (`SweepOp`).  `hweight` says
that no parameter that takes part in a fit step has a weight in the data that is positive but not above 1e-10; `hprior` that parameters
with a precision at the cut-off 1e10 are at the prior mean, where fit steps put them.
-/

namespace GPSKet.SupervisedSweep

open GPSKet.Supervised GPSKet.SupervisedFit

variable {D M L N : ℕ}

theorem includeBias_run (ops : List (Op D M L)) (hp : Heap D M L × Ref D M L) :
    (Ref.run hp ops).2.includeBias = hp.2.includeBias := by
  induction ops generalizing hp with
  | nil => rfl
  | cons o os ih =>
    refine (ih (Ref.step hp o)).trans ?_
    cases o <;> rfl

/-- A learner after any history agrees with a learner without caches. -/
theorem agree_of_run (first : Fin L) (h0 : Heap D M L) (eps0 : Eps D M L) (b : Bool) (ops0 : List (Op D M L))
    (hclean : Clean first (h0, Learner.init eps0 b) ops0) (h : Heap D M L) (s : Learner D M L)
    (hrun : run first (h0, Learner.init eps0 b) ops0 = some (h, s)) :
    Agree (h, s) (h, ⟨s.eps, b, s.bias⟩) := by
  obtain ⟨⟨h', s'⟩, h1, h2, h3, h4, h5, h6⟩ := run_agree first ops0 (h0, Learner.init eps0 b) (h0, ⟨eps0, b, 0⟩)
    ⟨rfl, rfl, rfl, rfl, fun sp hsp => by cases hsp⟩ hclean
  rw [hrun] at h1
  cases h1
  exact ⟨rfl, rfl, h4.trans (includeBias_run ops0 _), rfl, h6⟩

theorem paramWeight_eq (data : Fin N → List (Fin L → Fin D)) (S : Fin N → ℝ) (eps : Eps D M L) (refs : Refs M L) (f : Fin (M * D)) :
    Spec.occurrence (fun i f => feat eps refs (data i) f) S f
      = Spec.paramWeight data S eps (refs (finProdFinEquiv.symm f).1) (finProdFinEquiv.symm f).1 (finProdFinEquiv.symm f).2 := rfl

theorem entry_eq_zero {ι n 𝕜 : Type} [RCLike 𝕜] [Fintype ι] (K : ι → n → 𝕜) (S : ι → ℝ) (hS : ∀ i, 0 ≤ S i) (f : n)
    (h : Spec.occurrence K S f = 0) (i : ι) (hi : S i ≠ 0) : K i f = 0 := by
  have h1 := (Finset.sum_eq_zero_iff_of_nonneg (fun i _ => mul_nonneg (hS i) (sq_nonneg ‖K i f‖))).mp h i (Finset.mem_univ i)
  rcases mul_eq_zero.mp h1 with h2 | h2
  · exact absurd h2 hi
  · simpa using h2

/-- One log-space step, for any features. -/
theorem logSpaceStep_descends {ι n 𝕜 : Type} [RCLike 𝕜] [Fintype ι] [Fintype n] [DecidableEq n]
    (pinvh : {m : Type} → [Fintype m] → Matrix m m 𝕜 → Matrix m m 𝕜) (beta : ℝ) (hb : 0 < beta)
    (K : Matrix ι n 𝕜) (S : ι → ℝ) (hS : ∀ i, 0 ≤ S i) (y : ι → 𝕜) (alpha : n → ℝ) (ha : ∀ f, 0 < alpha f) (prior old : n → 𝕜)
    (hweight : ∀ f, Spec.occurrence K S f = 0 ∨ 1e-10 < Spec.occurrence K S f)
    (hprior : ∀ f, ¬ alpha f < 1e10 → old f = prior f) :
    let new := logSpaceStep pinvh beta K S y alpha prior old
    (∀ f, ¬ alpha f < 1e10 → new f = prior f) ∧
    (new = old ∨ (∑ i, beta * (S i * ‖y i - ∑ f, K i f * new f‖ ^ 2)) + ∑ f, alpha f * ‖new f - prior f‖ ^ 2
      < (∑ i, beta * (S i * ‖y i - ∑ f, K i f * old f‖ ^ 2)) + ∑ f, alpha f * ‖old f - prior f‖ ^ 2) := by
  intro new
  obtain ⟨c1, c2, c3⟩ := C56 pinvh beta hb K S hS y alpha ha prior old
  constructor
  · intro f hf
    by_cases ho : 1e-10 < Spec.occurrence K S f
    · exact c2 f ho hf
    · exact (c1 f ho).trans (hprior f hf)
  refine block_step K (fun i z => beta * (S i * ‖y i - z‖ ^ 2)) (fun f z => alpha f * ‖z - prior f‖ ^ 2)
    (fun f => ¬ 1e-10 < Spec.occurrence K S f) (fun f => 1e-10 < Spec.occurrence K S f ∧ alpha f < 1e10) new old prior
    ?_ (fun f hf => not_not.mpr hf.1) c1 ?_ ?_
  · intro i
    by_cases hi : S i = 0
    · right
      intro a b
      simp [hi]
    · left
      intro f hf
      exact entry_eq_zero K S hS f ((hweight f).resolve_right hf) i hi
  · intro f hf hz
    have hz' := not_not.mp hz
    have ha' : ¬ alpha f < 1e10 := fun h => hf ⟨hz', h⟩
    exact ⟨c2 f hz' ha', hprior f ha'⟩
  · intro best h1 h2 t h3 hne
    have := c3 best h1 h2 t h3 hne
    unfold Spec.ridgeLoss at this
    rw [Finset.mul_sum, Finset.mul_sum] at this
    exact this

/-- C167 for log-space fits of complex parameters: a sequence of fit steps with fixed precisions and noise, at any reference sites and
in any order, mixed with predictions, never increases the sum of the weighted squared errors of the log-amplitudes, divided by the
noise, and of the squared deviations of all parameters from the prior mean, multiplied by their precisions.  Either the
parameters are unchanged, or it is lower. -/
theorem C167_log (pinvh : {m : Type} → [Fintype m] → Matrix m m ℂ → Matrix m m ℂ) (beta : ℝ) (hb : 0 < beta)
    (S : Fin N → ℝ) (hS : ∀ i, 0 ≤ S i) (y : Fin N → ℂ) (alphaMat : Fin L → Fin (M * D) → ℝ) (ha : ∀ j f, 0 < alphaMat j f) (prior : ℂ)
    (first : Fin L) (h0 : Heap D M L) (eps0 : Eps D M L) (ops0 : List (Op D M L))
    (hclean : Clean first (h0, Learner.init eps0 false) ops0) (h : Heap D M L) (s : Learner D M L)
    (hrun : run first (h0, Learner.init eps0 false) ops0 = some (h, s))
    (data : Fin N → List (Fin L → Fin D)) (sweep : List (Op D M L))
    (hops : ∀ op ∈ sweep, SweepOp h data (logFit pinvh beta S y alphaMat prior) op)
    (hprior : ∀ d w j, ¬ alphaMat j (finProdFinEquiv (w, d)) < 1e10 → s.eps d w j = prior)
    (hweight : ∀ front a r fit back, sweep = front ++ .fitStep a r fit :: back → ∀ s', run first (h, s) front = some (h, s') →
      ∀ w d, Spec.paramWeight data S s'.eps (h.deref r w) w d = 0 ∨ 1e-10 < Spec.paramWeight data S s'.eps (h.deref r w) w d) :
    let objective := fun eps => Spec.penalisedError data (fun i z => beta * (S i * ‖y i - z‖ ^ 2))
      (fun d w j z => alphaMat j (finProdFinEquiv (w, d)) * ‖z - prior‖ ^ 2) eps 0
    ∃ s', run first (h, s) sweep = some (h, s') ∧ (s'.eps = s.eps ∨ objective s'.eps < objective s.eps) := by
  intro objective
  obtain ⟨s', e1, -, e3⟩ := sweep_run first h data (logFit pinvh beta S y alphaMat prior) false
    (fun eps _ => ∀ d w j, ¬ alphaMat j (finProdFinEquiv (w, d)) < 1e10 → eps d w j = prior) (fun eps _ => objective eps)
    (fun eps refs => ∀ w d, Spec.paramWeight data S eps (refs w) w d = 0 ∨ 1e-10 < Spec.paramWeight data S eps (refs w) w d)
    (by
      intro eps bias refs hinv hw
      have hstep := logSpaceStep_descends pinvh beta hb (fun i f => feat eps refs (data i) f) S hS y (refAlpha alphaMat refs)
        (fun f => ha _ _) (fun _ => prior) (refWeights eps refs)
        (fun f => hw (finProdFinEquiv.symm f).1 (finProdFinEquiv.symm f).2)
        (fun f hf => hinv _ _ _ (by
          rw [Prod.mk.eta, Equiv.apply_symm_apply]
          exact hf))
      simp only [logFit, asMatrix_features]
      constructor
      · intro d w j hj
        unfold writeRefWeights
        by_cases hjr : j = refs w
        · rw [if_pos hjr]
          refine hstep.1 _ ?_
          unfold refAlpha
          rw [Equiv.symm_apply_apply, ← hjr]
          exact hj
        · rw [if_neg hjr]
          exact hinv d w j hj
      · rcases hstep.2 with hs | hs
        · left
          rw [hs, write_refWeights]
          exact ⟨rfl, rfl⟩
        · right
          have e := penalisedError_write data (fun i z => beta * (S i * ‖y i - z‖ ^ 2))
            (fun d w j z => alphaMat j (finProdFinEquiv (w, d)) * ‖z - prior‖ ^ 2) eps 0 refs
          have e2 := e (refWeights eps refs)
          rw [write_refWeights] at e2
          show objective _ < objective _
          simp only [objective]
          rw [e, e2]
          simp only [add_zero, Prod.mk.eta, Equiv.apply_symm_apply]
          exact add_lt_add_left hs _)
    sweep hops s ⟨s.eps, false, s.bias⟩ (agree_of_run first h0 eps0 false ops0 hclean h s hrun) rfl hprior hweight
  exact ⟨s', e1, e3.imp_left And.left⟩

/-- C167 for exponential fits: the same for `QGPSLearningExp` with a positive noise, where the error of a target amplitude zero is the
real part of the predicted log-amplitude, and the squared error of another is divided by `log(1 + noise/|amp|^2)`. -/
theorem C167_exp (pinvh : {m : Type} → [Fintype m] → Matrix m m ℂ → Matrix m m ℂ) (noise : ℝ) (hn : 0 < noise)
    (weightings : Fin N → ℝ) (hwt : ∀ i, 0 ≤ weightings i) (amps logAmps : Fin N → ℂ)
    (alphaMat : Fin L → Fin (M * D) → ℝ) (ha : ∀ j f, 0 < alphaMat j f) (prior : ℂ)
    (S : Fin N → ℝ) (hS0 : ∀ i, amps i = 0 → S i = 0)
    (hS1 : ∀ i, amps i ≠ 0 → S i = weightings i / Real.log (1 + noise / ‖amps i‖ ^ 2))
    (first : Fin L) (h0 : Heap D M L) (eps0 : Eps D M L) (ops0 : List (Op D M L))
    (hclean : Clean first (h0, Learner.init eps0 false) ops0) (h : Heap D M L) (s : Learner D M L)
    (hrun : run first (h0, Learner.init eps0 false) ops0 = some (h, s))
    (data : Fin N → List (Fin L → Fin D)) (sweep : List (Op D M L))
    (hops : ∀ op ∈ sweep, SweepOp h data (expFit pinvh noise weightings amps logAmps alphaMat prior) op)
    (hprior : ∀ d w j, ¬ alphaMat j (finProdFinEquiv (w, d)) < 1e10 → s.eps d w j = prior)
    (hweight : ∀ front a r fit back, sweep = front ++ .fitStep a r fit :: back → ∀ s', run first (h, s) front = some (h, s') →
      ∀ w d, Spec.paramWeight data S s'.eps (h.deref r w) w d = 0 ∨ 1e-10 < Spec.paramWeight data S s'.eps (h.deref r w) w d) :
    let objective := fun eps => Spec.penalisedError data
      (fun i z => open Classical in if amps i = 0 then z.re else S i * ‖logAmps i - z‖ ^ 2)
      (fun d w j z => alphaMat j (finProdFinEquiv (w, d)) * ‖z - prior‖ ^ 2) eps 0
    ∃ s', run first (h, s) sweep = some (h, s') ∧ (s'.eps = s.eps ∨ objective s'.eps < objective s.eps) := by
  classical
  intro objective
  have hS : ∀ i, 0 ≤ S i := by
    intro i
    by_cases hi : amps i = 0
    · rw [hS0 i hi]
    · rw [hS1 i hi]
      refine div_nonneg (hwt i) (Real.log_nonneg ?_)
      have : 0 ≤ noise / ‖amps i‖ ^ 2 := by positivity
      linarith
  obtain ⟨s', e1, -, e3⟩ := sweep_run first h data (expFit pinvh noise weightings amps logAmps alphaMat prior) false
    (fun eps _ => ∀ d w j, ¬ alphaMat j (finProdFinEquiv (w, d)) < 1e10 → eps d w j = prior) (fun eps _ => objective eps)
    (fun eps refs => ∀ w d, Spec.paramWeight data S eps (refs w) w d = 0 ∨ 1e-10 < Spec.paramWeight data S eps (refs w) w d)
    (by
      intro eps bias refs hinv hw
      obtain ⟨c1, c2, c3⟩ := C74 pinvh noise hn (fun i f => feat eps refs (data i) f) weightings hwt amps logAmps
        (refAlpha alphaMat refs) (fun f => ha _ _) (fun _ => prior) (refWeights eps refs) S hS0 hS1
      have hold : ∀ f, ¬ refAlpha alphaMat refs f < 1e10 → refWeights eps refs f = prior := fun f hf => hinv _ _ _ (by
          rw [Prod.mk.eta, Equiv.apply_symm_apply]
          exact hf)
      simp only [expFit, asMatrix_features]
      set new := expStep pinvh noise .target (fun i f => feat eps refs (data i) f) weightings amps logAmps
        (refAlpha alphaMat refs) (fun _ => prior) (refWeights eps refs) with hnew
      have hcut : ∀ f, ¬ refAlpha alphaMat refs f < 1e10 → new f = prior := by
        intro f hf
        by_cases ho : 1e-10 < Spec.occurrence (fun i f => feat eps refs (data i) f) S f
        · exact c2 f ho hf
        · exact (c1 f ho).trans (hold f hf)
      constructor
      · intro d w j hj
        unfold writeRefWeights
        by_cases hjr : j = refs w
        · rw [if_pos hjr]
          refine hcut _ ?_
          unfold refAlpha
          rw [Equiv.symm_apply_apply, ← hjr]
          exact hj
        · rw [if_neg hjr]
          exact hinv d w j hj
      · have hstep := block_step (fun i f => feat eps refs (data i) f)
          (fun i z => if amps i = 0 then z.re else S i * ‖logAmps i - z‖ ^ 2)
          (fun f z => refAlpha alphaMat refs f * ‖z - prior‖ ^ 2)
          (fun f => ¬ 1e-10 < Spec.occurrence (fun i f => feat eps refs (data i) f) S f)
          (fun f => 1e-10 < Spec.occurrence (fun i f => feat eps refs (data i) f) S f ∧ refAlpha alphaMat refs f < 1e10) new
          (refWeights eps refs) (fun _ => prior)
          (by
            intro i
            by_cases hi : S i = 0
            · right
              intro a b
              by_cases hz : amps i = 0
              · simp [hz]
              · simp [hz, hi]
            · left
              intro f hf
              exact entry_eq_zero (fun i f => feat eps refs (data i) f) S hS f
                ((hw (finProdFinEquiv.symm f).1 (finProdFinEquiv.symm f).2).resolve_right hf) i hi)
          (fun f hf => not_not.mpr hf.1) c1
          (fun f hf hz => by
            have hz' := not_not.mp hz
            have ha' : ¬ refAlpha alphaMat refs f < 1e10 := fun h => hf ⟨hz', h⟩
            exact ⟨c2 f hz' ha', hold f ha'⟩)
          (fun best h1 h2 t h3 hne => by
            have := c3 best h1 h2 t h3 hne
            unfold Spec.logLossWithZeros at this
            have hre : ∀ z : ℂ, RCLike.re z = z.re := fun _ => rfl
            simp only [hre] at this
            convert this using 4)
        rcases hstep with hs | hs
        · left
          rw [hs, write_refWeights]
          exact ⟨rfl, rfl⟩
        · right
          have e := penalisedError_write data (fun i z => if amps i = 0 then z.re else S i * ‖logAmps i - z‖ ^ 2)
            (fun d w j z => alphaMat j (finProdFinEquiv (w, d)) * ‖z - prior‖ ^ 2) eps 0 refs
          have e2 := e (refWeights eps refs)
          rw [write_refWeights] at e2
          show objective _ < objective _
          simp only [objective]
          rw [e, e2]
          simp only [add_zero, Prod.mk.eta, Equiv.apply_symm_apply]
          exact add_lt_add_left hs _)
    sweep hops s ⟨s.eps, false, s.bias⟩ (agree_of_run first h0 eps0 false ops0 hclean h s hrun) rfl hprior hweight
  exact ⟨s', e1, e3.imp_left And.left⟩

/-- Features of real parameters are real. -/
theorem feat_real (eps : Eps D M L) (hreal : ∀ d w j, (eps d w j).im = 0) (refs : Refs M L) (row : List (Fin L → Fin D))
    (f : Fin (M * D)) : (feat eps refs row f).im = 0 := by
  rw [← Complex.conj_eq_iff_im]
  unfold feat Spec.feature
  rw [map_list_sum, List.map_map]
  congr 1
  apply List.map_congr_left
  intro x _
  rw [Function.comp_apply, apply_ite (starRingEnd ℂ), map_prod, map_zero]
  simp only [Complex.conj_eq_iff_im.mpr (hreal _ _ _)]

/-- C167 for log-space fits of real parameters. -/
theorem C167_log_real (pinvh : {m : Type} → [Fintype m] → Matrix m m ℝ → Matrix m m ℝ) (beta : ℝ) (hb : 0 < beta)
    (S : Fin N → ℝ) (hS : ∀ i, 0 ≤ S i) (y : Fin N → ℝ) (alphaMat : Fin L → Fin (M * D) → ℝ) (ha : ∀ j f, 0 < alphaMat j f) (prior : ℝ)
    (first : Fin L) (h0 : Heap D M L) (eps0 : Eps D M L) (ops0 : List (Op D M L))
    (hclean : Clean first (h0, Learner.init eps0 false) ops0) (h : Heap D M L) (s : Learner D M L)
    (hrun : run first (h0, Learner.init eps0 false) ops0 = some (h, s)) (hreal : ∀ d w j, (s.eps d w j).im = 0)
    (data : Fin N → List (Fin L → Fin D)) (sweep : List (Op D M L))
    (hops : ∀ op ∈ sweep, SweepOp h data (logFitReal pinvh beta S y alphaMat prior) op)
    (hprior : ∀ d w j, ¬ alphaMat j (finProdFinEquiv (w, d)) < 1e10 → s.eps d w j = prior)
    (hweight : ∀ front a r fit back, sweep = front ++ .fitStep a r fit :: back → ∀ s', run first (h, s) front = some (h, s') →
      ∀ w d, Spec.paramWeight data S s'.eps (h.deref r w) w d = 0 ∨ 1e-10 < Spec.paramWeight data S s'.eps (h.deref r w) w d) :
    let objective := fun eps => Spec.penalisedError data (fun i z => beta * (S i * ‖y i - z‖ ^ 2))
      (fun d w j z => alphaMat j (finProdFinEquiv (w, d)) * ‖z - prior‖ ^ 2) eps 0
    ∃ s', run first (h, s) sweep = some (h, s') ∧ (∀ d w j, (s'.eps d w j).im = 0) ∧
      (s'.eps = s.eps ∨ objective s'.eps < objective s.eps) := by
  intro objective
  obtain ⟨s', e1, e2, e3⟩ := sweep_run first h data (logFitReal pinvh beta S y alphaMat prior) false
    (fun eps _ => (∀ d w j, (eps d w j).im = 0) ∧ ∀ d w j, ¬ alphaMat j (finProdFinEquiv (w, d)) < 1e10 → eps d w j = prior)
    (fun eps _ => objective eps)
    (fun eps refs => ∀ w d, Spec.paramWeight data S eps (refs w) w d = 0 ∨ 1e-10 < Spec.paramWeight data S eps (refs w) w d)
    (by
      intro eps bias refs hinv hw
      have hK : ∀ i f, feat eps refs (data i) f = (((feat eps refs (data i) f).re : ℝ) : ℂ) := fun i f =>
        Complex.ext rfl (by rw [Complex.ofReal_im]; exact feat_real eps hinv.1 refs (data i) f)
      have hold : ∀ f, refWeights eps refs f = (((refWeights eps refs f).re : ℝ) : ℂ) := fun f =>
        Complex.ext rfl (by rw [Complex.ofReal_im]; exact hinv.1 _ _ _)
      have hocc : ∀ f, Spec.occurrence (fun i f => (feat eps refs (data i) f).re) S f
          = Spec.occurrence (fun i f => feat eps refs (data i) f) S f := by
        intro f
        unfold Spec.occurrence
        apply Finset.sum_congr rfl
        intro i _
        dsimp only
        conv_rhs => rw [hK i f]
        rw [Complex.norm_real]
      have hstep := logSpaceStep_descends pinvh beta hb (fun i f => (feat eps refs (data i) f).re) S hS y (refAlpha alphaMat refs)
        (fun f => ha _ _) (fun _ => prior) (fun f => (refWeights eps refs f).re)
        (fun f => by rw [hocc]; exact hw (finProdFinEquiv.symm f).1 (finProdFinEquiv.symm f).2)
        (fun f hf => by
          have := hinv.2 (finProdFinEquiv.symm f).2 (finProdFinEquiv.symm f).1 (refs (finProdFinEquiv.symm f).1) (by
            rw [Prod.mk.eta, Equiv.apply_symm_apply]
            exact hf)
          show (eps _ _ _).re = prior
          rw [this, Complex.ofReal_re])
      simp only [logFitReal, asMatrix_features]
      set new := logSpaceStep pinvh beta (fun i f => (feat eps refs (data i) f).re) S y (refAlpha alphaMat refs)
        (fun _ => prior) (fun f => (refWeights eps refs f).re) with hnew
      refine ⟨⟨?_, ?_⟩, ?_⟩
      · intro d w j
        unfold writeRefWeights
        by_cases hjr : j = refs w
        · rw [if_pos hjr, Complex.ofReal_im]
        · rw [if_neg hjr]
          exact hinv.1 d w j
      · intro d w j hj
        unfold writeRefWeights
        by_cases hjr : j = refs w
        · rw [if_pos hjr]
          refine congrArg Complex.ofReal (hstep.1 _ ?_)
          unfold refAlpha
          rw [Equiv.symm_apply_apply, ← hjr]
          exact hj
        · rw [if_neg hjr]
          exact hinv.2 d w j hj
      · have e := penalisedError_write data (fun i z => beta * (S i * ‖y i - z‖ ^ 2))
          (fun d w j z => alphaMat j (finProdFinEquiv (w, d)) * ‖z - prior‖ ^ 2) eps 0 refs
        have cast : ∀ v : Fin (M * D) → ℝ, (∑ i, beta * (S i * ‖(y i : ℂ) - ∑ f, feat eps refs (data i) f * (v f : ℂ)‖ ^ 2))
              + ∑ f, refAlpha alphaMat refs f * ‖(v f : ℂ) - prior‖ ^ 2
            = (∑ i, beta * (S i * ‖y i - ∑ f, (feat eps refs (data i) f).re * v f‖ ^ 2))
              + ∑ f, refAlpha alphaMat refs f * ‖v f - prior‖ ^ 2 := by
          intro v
          congr 1
          · apply Finset.sum_congr rfl
            intro i _
            have : (y i : ℂ) - ∑ f, feat eps refs (data i) f * (v f : ℂ)
                = ((y i - ∑ f, (feat eps refs (data i) f).re * v f : ℝ) : ℂ) := by
              push_cast
              congr 1
              apply Finset.sum_congr rfl
              intro f _
              rw [← hK i f]
            rw [this, Complex.norm_real]
          · apply Finset.sum_congr rfl
            intro f _
            rw [← Complex.ofReal_sub, Complex.norm_real]
        rcases hstep.2 with hs | hs
        · left
          have : (fun f => ((new f : ℝ) : ℂ)) = refWeights eps refs := by
            funext f
            rw [hs, ← hold f]
          rw [this, write_refWeights]
          exact ⟨rfl, rfl⟩
        · right
          have e2 := e (refWeights eps refs)
          rw [write_refWeights] at e2
          show objective _ < objective _
          simp only [objective]
          rw [e, e2]
          simp only [add_zero, Prod.mk.eta, Equiv.apply_symm_apply]
          apply add_lt_add_left
          have e3 := cast (fun f => (refWeights eps refs f).re)
          simp only [← hold] at e3
          exact (cast new).trans_lt (hs.trans_eq e3.symm))
    sweep hops s ⟨s.eps, false, s.bias⟩ (agree_of_run first h0 eps0 false ops0 hclean h s hrun) rfl ⟨hreal, hprior⟩ hweight
  exact ⟨s', e1, e2.1, e3.imp_left And.left⟩

/-- C167 for log-space fits with a bias, whose precision is below the cut-off: the penalty of the bias is part of the objective.
The total weight of the data must exceed 1e-10. -/
theorem C167_log_bias (pinvh : {m : Type} → [Fintype m] → Matrix m m ℂ → Matrix m m ℂ) (beta : ℝ) (hb : 0 < beta)
    (S : Fin N → ℝ) (hS : ∀ i, 0 ≤ S i) (htotal : 1e-10 < ∑ i, S i) (y : Fin N → ℂ) (alphaMat : Fin L → Fin (M * D) → ℝ)
    (ha : ∀ j f, 0 < alphaMat j f) (alphaBias : ℝ) (hab : 0 < alphaBias) (hab' : alphaBias < 1e10) (prior : ℂ)
    (first : Fin L) (h0 : Heap D M L) (eps0 : Eps D M L) (ops0 : List (Op D M L))
    (hclean : Clean first (h0, Learner.init eps0 true) ops0) (h : Heap D M L) (s : Learner D M L)
    (hrun : run first (h0, Learner.init eps0 true) ops0 = some (h, s))
    (data : Fin N → List (Fin L → Fin D)) (sweep : List (Op D M L))
    (hops : ∀ op ∈ sweep, SweepOp h data (logFitBias pinvh beta S y alphaMat alphaBias prior) op)
    (hprior : ∀ d w j, ¬ alphaMat j (finProdFinEquiv (w, d)) < 1e10 → s.eps d w j = prior)
    (hweight : ∀ front a r fit back, sweep = front ++ .fitStep a r fit :: back → ∀ s', run first (h, s) front = some (h, s') →
      ∀ w d, Spec.paramWeight data S s'.eps (h.deref r w) w d = 0 ∨ 1e-10 < Spec.paramWeight data S s'.eps (h.deref r w) w d) :
    let objective := fun eps bias => Spec.penalisedError data (fun i z => beta * (S i * ‖y i - z‖ ^ 2))
      (fun d w j z => alphaMat j (finProdFinEquiv (w, d)) * ‖z - prior‖ ^ 2) eps bias + alphaBias * ‖bias‖ ^ 2
    ∃ s', run first (h, s) sweep = some (h, s') ∧
      ((s'.eps = s.eps ∧ s'.bias = s.bias) ∨ objective s'.eps s'.bias < objective s.eps s.bias) := by
  intro objective
  obtain ⟨s', e1, -, e3⟩ := sweep_run first h data (logFitBias pinvh beta S y alphaMat alphaBias prior) true
    (fun eps _ => ∀ d w j, ¬ alphaMat j (finProdFinEquiv (w, d)) < 1e10 → eps d w j = prior) objective
    (fun eps refs => ∀ w d, Spec.paramWeight data S eps (refs w) w d = 0 ∨ 1e-10 < Spec.paramWeight data S eps (refs w) w d)
    (by
      intro eps bias refs hinv hw
      have hstep := logSpaceStep_descends pinvh beta hb (withOnes fun i f => feat eps refs (data i) f) S hS y
        (Sum.elim (refAlpha alphaMat refs) fun _ => alphaBias)
        (fun f => by rcases f with f | f; exacts [ha _ _, hab]) (Sum.elim (fun _ => prior) fun _ => 0)
        (Sum.elim (refWeights eps refs) fun _ => bias)
        (fun f => by
          rcases f with f | f
          · exact hw (finProdFinEquiv.symm f).1 (finProdFinEquiv.symm f).2
          · right
            have : Spec.occurrence (withOnes fun i f => feat eps refs (data i) f) S (Sum.inr f) = ∑ i, S i := by
              simp [Spec.occurrence, withOnes]
            rw [this]
            exact htotal)
        (fun f hf => by
          rcases f with f | f
          · exact hinv _ _ _ (by
              rw [Prod.mk.eta, Equiv.apply_symm_apply]
              exact hf)
          · exact absurd hab' hf)
      simp only [logFitBias, asMatrix_features]
      rw [C56_bias pinvh beta (fun i f => feat eps refs (data i) f) S hS htotal]
      set new := logSpaceStep pinvh beta (withOnes fun i f => feat eps refs (data i) f) S y
        (Sum.elim (refAlpha alphaMat refs) fun _ => alphaBias) (Sum.elim (fun _ => prior) fun _ => 0)
        (Sum.elim (refWeights eps refs) fun _ => bias) with hnew
      constructor
      · intro d w j hj
        unfold writeRefWeights
        by_cases hjr : j = refs w
        · rw [if_pos hjr]
          refine hstep.1 (Sum.inl _) ?_
          show ¬ refAlpha alphaMat refs _ < 1e10
          unfold refAlpha
          rw [Equiv.symm_apply_apply, ← hjr]
          exact hj
        · rw [if_neg hjr]
          exact hinv d w j hj
      · rcases hstep.2 with hs | hs
        · left
          constructor
          · have : (fun f => new (Sum.inl f)) = refWeights eps refs := by
              funext f
              rw [hs]
              rfl
            rw [this, write_refWeights]
          · rw [if_pos trivial, hs]
            rfl
        · right
          have e := fun b => penalisedError_write data (fun i z => beta * (S i * ‖y i - z‖ ^ 2))
            (fun d w j z => alphaMat j (finProdFinEquiv (w, d)) * ‖z - prior‖ ^ 2) eps b refs
          have e2 := e bias (refWeights eps refs)
          rw [write_refWeights] at e2
          rw [if_pos trivial]
          simp only [objective]
          rw [e, e2]
          simp only [Prod.mk.eta, Equiv.apply_symm_apply]
          simp only [Fintype.sum_sum_type, withOnes, Sum.elim_inl, Sum.elim_inr, one_mul, sub_zero, Finset.univ_unique,
            Finset.sum_singleton] at hs
          simp only [refAlpha] at hs
          have hu : (default : Unit) = () := rfl
          rw [hu] at hs
          linarith)
    sweep hops s ⟨s.eps, true, s.bias⟩ (agree_of_run first h0 eps0 true ops0 hclean h s hrun) rfl hprior hweight
  exact ⟨s', e1, e3⟩

/-- The complex vector with given real and imaginary parts. -/
def toComplex {n : Type} (t : n ⊕ n → ℝ) : n → ℂ := fun f => ⟨t (Sum.inl f), t (Sum.inr f)⟩

/-- One log-space step with separate precisions of real and imaginary parts, for any features. -/
theorem logSpaceStepExpand_descends {ι n : Type} [Fintype ι] [Fintype n] [DecidableEq n]
    (pinvh : {m : Type} → [Fintype m] → Matrix m m ℝ → Matrix m m ℝ) (beta : ℝ) (hb : 0 < beta)
    (K : Matrix ι n ℂ) (S : ι → ℝ) (hS : ∀ i, 0 ≤ S i) (y : ι → ℂ) (alpha : n ⊕ n → ℝ) (ha : ∀ f, 0 < alpha f) (prior : n → ℝ)
    (old : n → ℂ) (hweight : ∀ f, Spec.occurrence K S f = 0 ∨ 1e-10 < Spec.occurrence K S f)
    (hre : ∀ f, ¬ alpha (Sum.inl f) < 1e10 → (old f).re = prior f) (him : ∀ f, ¬ alpha (Sum.inr f) < 1e10 → (old f).im = 0) :
    let new := logSpaceStepExpand pinvh beta K S y alpha prior old
    let obj := fun t : n → ℂ => (∑ i, beta * (S i * ‖y i - ∑ f, K i f * t f‖ ^ 2))
      + ∑ f, (alpha (Sum.inl f) / 2 * ((t f).re - prior f) ^ 2 + alpha (Sum.inr f) / 2 * (t f).im ^ 2)
    (∀ f, ¬ alpha (Sum.inl f) < 1e10 → (new f).re = prior f) ∧ (∀ f, ¬ alpha (Sum.inr f) < 1e10 → (new f).im = 0) ∧
    (new = old ∨ obj new < obj old) := by
  classical
  intro new obj
  obtain ⟨c1, c2, c3, c4⟩ := C56_expand pinvh beta hb K S hS y alpha ha prior old
  have hnre : ∀ f, ¬ alpha (Sum.inl f) < 1e10 → (new f).re = prior f := by
    intro f hf
    by_cases ho : 1e-10 < Spec.occurrence K S f
    · exact c2 f ho hf
    · rw [← hre f hf]; exact congrArg Complex.re (c1 f ho)
  have hnim : ∀ f, ¬ alpha (Sum.inr f) < 1e10 → (new f).im = 0 := by
    intro f hf
    by_cases ho : 1e-10 < Spec.occurrence K S f
    · exact c3 f ho hf
    · rw [← him f hf]; exact congrArg Complex.im (c1 f ho)
  refine ⟨hnre, hnim, ?_⟩
  have hadd : ∀ i, (∀ f, (¬ 1e-10 < Spec.occurrence K S f) → K i f = 0) ∨
      ∀ a b : ℂ, (fun i z => beta * (S i * ‖y i - z‖ ^ 2)) i (a + b)
        = (fun i z => beta * (S i * ‖y i - z‖ ^ 2)) i a + (fun i z => beta * (S i * ‖y i - z‖ ^ 2)) i b := by
    intro i
    by_cases hi : S i = 0
    · right
      intro a b
      simp [hi]
    · left
      intro f hf
      exact entry_eq_zero K S hS f ((hweight f).resolve_right hf) i hi
  have hsep := separates K (fun i z => beta * (S i * ‖y i - z‖ ^ 2))
    (fun f z => alpha (Sum.inl f) / 2 * (z.re - prior f) ^ 2 + alpha (Sum.inr f) / 2 * z.im ^ 2)
    (fun f => ¬ 1e-10 < Spec.occurrence K S f) (fun f => (prior f : ℂ)) hadd
  have htc : ∀ t : n ⊕ n → ℝ, toComplex (fun x : n ⊕ n => if ¬ 1e-10 < Spec.occurrence K S (Sum.elim id id x)
      then Sum.elim prior (fun _ => (0 : ℝ)) x else t x)
      = fun f => if ¬ 1e-10 < Spec.occurrence K S f then (prior f : ℂ) else toComplex t f := by
    intro t
    funext f
    by_cases ho : ¬ 1e-10 < Spec.occurrence K S f
    · rw [if_pos ho]
      exact Complex.ext (if_pos ho) (if_pos ho)
    · rw [if_neg ho]
      exact Complex.ext (if_neg ho) (if_neg ho)
  have hround : ∀ z : n → ℂ, toComplex (Sum.elim (fun f => (z f).re) fun f => (z f).im) = z := fun z => rfl
  have key := block_descent (fun t : n ⊕ n → ℝ => obj (toComplex t)) (fun t : n ⊕ n → ℝ =>
      (∑ i, if ∀ f, (¬ 1e-10 < Spec.occurrence K S f) → K i f = 0 then 0
        else beta * (S i * ‖y i - ∑ f, if ¬ 1e-10 < Spec.occurrence K S f then K i f * (toComplex t f - (prior f : ℂ)) else 0‖ ^ 2))
      + ∑ f, if ¬ 1e-10 < Spec.occurrence K S f then
        (alpha (Sum.inl f) / 2 * ((toComplex t f).re - prior f) ^ 2 + alpha (Sum.inr f) / 2 * (toComplex t f).im ^ 2)
          - (alpha (Sum.inl f) / 2 * ((prior f : ℂ).re - prior f) ^ 2 + alpha (Sum.inr f) / 2 * (prior f : ℂ).im ^ 2) else 0)
    (fun x => ¬ 1e-10 < Spec.occurrence K S (Sum.elim id id x))
    (fun x => 1e-10 < Spec.occurrence K S (Sum.elim id id x) ∧ alpha x < 1e10)
    (Sum.elim (fun f => (new f).re) fun f => (new f).im) (Sum.elim (fun f => (old f).re) fun f => (old f).im)
    (Sum.elim prior fun _ => 0)
    (by
      intro t
      beta_reduce
      rw [htc]
      have h := hsep (toComplex t)
      simp only [obj]
      convert h)
    (by
      intro t t' h
      have hh : ∀ f, (¬ 1e-10 < Spec.occurrence K S f) → toComplex t f = toComplex t' f := by
        intro f hf
        unfold toComplex
        rw [h (Sum.inl f) hf, h (Sum.inr f) hf]
      have e1 : ∀ i, (∑ f, if ¬ 1e-10 < Spec.occurrence K S f then K i f * (toComplex t f - (prior f : ℂ)) else 0)
          = ∑ f, if ¬ 1e-10 < Spec.occurrence K S f then K i f * (toComplex t' f - (prior f : ℂ)) else 0 := by
        intro i
        apply Finset.sum_congr rfl
        intro f _
        by_cases hz : ¬ 1e-10 < Spec.occurrence K S f
        · rw [if_pos hz, if_pos hz, hh f hz]
        · rw [if_neg hz, if_neg hz]
      beta_reduce
      simp only [e1]
      congr 1
      apply Finset.sum_congr rfl
      intro f _
      by_cases hz : ¬ 1e-10 < Spec.occurrence K S f
      · rw [if_pos hz, if_pos hz, hh f hz]
      · rw [if_neg hz, if_neg hz])
    (fun x hx => not_not.mpr hx.1)
    (by
      rintro (f | f) hf
      · exact congrArg Complex.re (c1 f hf)
      · exact congrArg Complex.im (c1 f hf))
    (by
      rintro (f | f) hf hz
      · have ha' : ¬ alpha (Sum.inl f) < 1e10 := fun h => hf ⟨not_not.mp hz, h⟩
        exact ⟨hnre f ha', hre f ha'⟩
      · have ha' : ¬ alpha (Sum.inr f) < 1e10 := fun h => hf ⟨not_not.mp hz, h⟩
        exact ⟨hnim f ha', him f ha'⟩)
    (by
      intro best h1 h2 t h3 hne
      have := c4 (toComplex best) (fun f hf => h1 (Sum.inl f) hf) (fun f hf => h2 (Sum.inl f) hf)
        (fun f hf => h1 (Sum.inr f) hf) (fun f hf => h2 (Sum.inr f) hf) (toComplex t) (fun f hf => h3 (Sum.inl f) hf)
        (fun f hf => h3 (Sum.inr f) hf) (fun h => hne (by
          funext x
          rcases x with f | f
          · exact congrArg Complex.re (congrFun h f)
          · exact congrArg Complex.im (congrFun h f)))
      unfold Spec.ridgeLossSplit at this
      rw [Finset.mul_sum, Finset.mul_sum] at this
      exact this)
  rcases key with h | h
  · left
    rw [← hround new, ← hround old, h]
  · right
    exact h

/-- C167 for log-space fits with `complex_expand`: the penalties of the real and the imaginary parts are half their precisions. -/
theorem C167_log_expand (pinvh : {m : Type} → [Fintype m] → Matrix m m ℝ → Matrix m m ℝ) (beta : ℝ) (hb : 0 < beta)
    (S : Fin N → ℝ) (hS : ∀ i, 0 ≤ S i) (y : Fin N → ℂ) (alphaRe alphaIm : Fin L → Fin (M * D) → ℝ)
    (ha : ∀ j f, 0 < alphaRe j f) (ha' : ∀ j f, 0 < alphaIm j f) (prior : ℝ)
    (first : Fin L) (h0 : Heap D M L) (eps0 : Eps D M L) (ops0 : List (Op D M L))
    (hclean : Clean first (h0, Learner.init eps0 false) ops0) (h : Heap D M L) (s : Learner D M L)
    (hrun : run first (h0, Learner.init eps0 false) ops0 = some (h, s))
    (data : Fin N → List (Fin L → Fin D)) (sweep : List (Op D M L))
    (hops : ∀ op ∈ sweep, SweepOp h data (logFitExpand pinvh beta S y alphaRe alphaIm prior) op)
    (hprior : ∀ d w j, (¬ alphaRe j (finProdFinEquiv (w, d)) < 1e10 → (s.eps d w j).re = prior) ∧
      (¬ alphaIm j (finProdFinEquiv (w, d)) < 1e10 → (s.eps d w j).im = 0))
    (hweight : ∀ front a r fit back, sweep = front ++ .fitStep a r fit :: back → ∀ s', run first (h, s) front = some (h, s') →
      ∀ w d, Spec.paramWeight data S s'.eps (h.deref r w) w d = 0 ∨ 1e-10 < Spec.paramWeight data S s'.eps (h.deref r w) w d) :
    let objective := fun eps => Spec.penalisedError data (fun i z => beta * (S i * ‖y i - z‖ ^ 2))
      (fun d w j z => alphaRe j (finProdFinEquiv (w, d)) / 2 * (z.re - prior) ^ 2
        + alphaIm j (finProdFinEquiv (w, d)) / 2 * z.im ^ 2) eps 0
    ∃ s', run first (h, s) sweep = some (h, s') ∧ (s'.eps = s.eps ∨ objective s'.eps < objective s.eps) := by
  intro objective
  obtain ⟨s', e1, -, e3⟩ := sweep_run first h data (logFitExpand pinvh beta S y alphaRe alphaIm prior) false
    (fun eps _ => ∀ d w j, (¬ alphaRe j (finProdFinEquiv (w, d)) < 1e10 → (eps d w j).re = prior) ∧
      (¬ alphaIm j (finProdFinEquiv (w, d)) < 1e10 → (eps d w j).im = 0)) (fun eps _ => objective eps)
    (fun eps refs => ∀ w d, Spec.paramWeight data S eps (refs w) w d = 0 ∨ 1e-10 < Spec.paramWeight data S eps (refs w) w d)
    (by
      intro eps bias refs hinv hw
      obtain ⟨st1, st2, st3⟩ := logSpaceStepExpand_descends pinvh beta hb (fun i f => feat eps refs (data i) f) S hS y
        (Sum.elim (refAlpha alphaRe refs) (refAlpha alphaIm refs))
        (fun f => by rcases f with f | f; exacts [ha _ _, ha' _ _]) (fun _ => prior) (refWeights eps refs)
        (fun f => hw (finProdFinEquiv.symm f).1 (finProdFinEquiv.symm f).2)
        (fun f hf => (hinv _ _ _).1 (by
          rw [Prod.mk.eta, Equiv.apply_symm_apply]
          exact hf))
        (fun f hf => (hinv _ _ _).2 (by
          rw [Prod.mk.eta, Equiv.apply_symm_apply]
          exact hf))
      simp only [logFitExpand, asMatrix_features]
      constructor
      · intro d w j
        unfold writeRefWeights
        by_cases hjr : j = refs w
        · rw [if_pos hjr]
          constructor
          · intro hj
            refine st1 _ ?_
            show ¬ refAlpha alphaRe refs _ < 1e10
            unfold refAlpha
            rw [Equiv.symm_apply_apply, ← hjr]
            exact hj
          · intro hj
            refine st2 _ ?_
            show ¬ refAlpha alphaIm refs _ < 1e10
            unfold refAlpha
            rw [Equiv.symm_apply_apply, ← hjr]
            exact hj
        · rw [if_neg hjr]
          exact hinv d w j
      · rcases st3 with hs | hs
        · left
          rw [hs, write_refWeights]
          exact ⟨rfl, rfl⟩
        · right
          have e := penalisedError_write data (fun i z => beta * (S i * ‖y i - z‖ ^ 2))
            (fun d w j z => alphaRe j (finProdFinEquiv (w, d)) / 2 * (z.re - prior) ^ 2
              + alphaIm j (finProdFinEquiv (w, d)) / 2 * z.im ^ 2) eps 0 refs
          have e2 := e (refWeights eps refs)
          rw [write_refWeights] at e2
          show objective _ < objective _
          simp only [objective]
          rw [e, e2]
          simp only [add_zero, Prod.mk.eta, Equiv.apply_symm_apply]
          exact add_lt_add_left hs _)
    sweep hops s ⟨s.eps, false, s.bias⟩ (agree_of_run first h0 eps0 false ops0 hclean h s hrun) rfl hprior hweight
  exact ⟨s', e1, e3.imp_left And.left⟩

/-- The condition on the weights is needed.  One datum, two parameters with features 1 and 1e-5, precisions 1e-12: the second
parameter, of weight 1e-10, is ignored by the fit but keeps its value, and the step raises the error of a perfect fit from 0 to almost 1. -/
theorem C167_small_fails (pinvh : {m : Type} → [Fintype m] → Matrix m m ℝ → Matrix m m ℝ) :
    let K : Matrix (Fin 1) (Fin 2) ℝ := fun _ => ![1, 1e-5]
    let old : Fin 2 → ℝ := ![0, 1e5]
    let new := logSpaceStep pinvh 1 K (fun _ => 1) (fun _ => 1) (fun _ => 1e-12) (fun _ => 0) old
    Spec.ridgeLoss 1 K (fun _ => 1) (fun _ => 1) (fun _ => 1e-12) (fun _ => 0) old < 1 / 10 ∧
    1 / 2 < Spec.ridgeLoss 1 K (fun _ => 1) (fun _ => 1) (fun _ => 1e-12) (fun _ => 0) new := by
  intro K old new
  obtain ⟨c1, c2, c3⟩ := C56 pinvh 1 one_pos K (fun _ => 1) (fun _ => zero_le_one) (fun _ => 1) (fun _ => 1e-12)
    (fun _ => by norm_num) (fun _ => 0) old
  have o0 : Spec.occurrence K (fun _ => 1) 0 = 1 := by simp [Spec.occurrence, K]
  have o1 : Spec.occurrence K (fun _ => 1) 1 = 1e-10 := by simp [Spec.occurrence, K]; norm_num
  have n1 : new 1 = 1e5 := by
    have := c1 1 (by rw [o1]; norm_num)
    exact this.trans (by simp [old])
  have hbest := c3 ![new 0, 0]
    (by
      intro f hf
      fin_cases f
      · rfl
      · exact absurd hf.1 (by
          show ¬ 1e-10 < Spec.occurrence K (fun _ => 1) 1
          rw [o1]
          norm_num))
    (by
      intro f hf
      fin_cases f
      · exact absurd ⟨(by show (1e-10 : ℝ) < Spec.occurrence K (fun _ => 1) 0; rw [o0]; norm_num), by norm_num⟩ hf
      · rfl)
    ![1, 0]
    (by
      intro f hf
      fin_cases f
      · exact absurd ⟨(by show (1e-10 : ℝ) < Spec.occurrence K (fun _ => 1) 0; rw [o0]; norm_num), by norm_num⟩ hf
      · rfl)
  have hclose : (1 - new 0) ^ 2 ≤ 1e-12 := by
    by_cases he : (![1, 0] : Fin 2 → ℝ) = ![new 0, 0]
    · have := congrFun he 0
      have h0 : (1 : ℝ) = new 0 := this
      rw [← h0]; norm_num
    · have := hbest he
      simp [Spec.ridgeLoss, K, Fin.sum_univ_two] at this
      have h2 : 0 ≤ new 0 ^ 2 := sq_nonneg _
      norm_num at this ⊢
      nlinarith
  constructor
  · simp [Spec.ridgeLoss, K, old, Fin.sum_univ_two]
    norm_num
  · have hn : new = ![new 0, 1e5] := by
      funext f
      fin_cases f
      · rfl
      · exact n1
    rw [hn]
    simp [Spec.ridgeLoss, K, Fin.sum_univ_two]
    have h2 : 0 ≤ new 0 ^ 2 := sq_nonneg _
    norm_num
    nlinarith [sq_nonneg (new 0 - 1)]

/-- The hypotheses of `C167_log` are met by a learner with two sites, and one fit step followed by a prediction: one datum, with
log-amplitude 5, all parameters 1. -/
example (pinvh : {m : Type} → [Fintype m] → Matrix m m ℂ → Matrix m m ℂ) :
    let h : Heap 2 1 2 := ⟨fun _ => [[fun _ => 0]], fun _ _ => 0⟩
    let fit := logFit (N := 1) (D := 2) (M := 1) (L := 2) pinvh 1 (fun _ => 1) (fun _ => 5) (fun _ _ => 1) 0
    let objective := fun eps => Spec.penalisedError (D := 2) (M := 1) (L := 2) (fun _ : Fin 1 => [fun _ => 0])
      (fun _ z => 1 * (1 * ‖5 - z‖ ^ 2)) (fun _ _ _ z => 1 * ‖z - 0‖ ^ 2) eps 0
    ∃ s', run 0 (h, Learner.init (fun _ _ _ => 1) false) [.fitStep 0 (.own 0) (fit fun _ => 0), .predict 0] = some (h, s') ∧
      (s'.eps = (fun _ _ _ => 1) ∨ objective s'.eps < objective fun _ _ _ => 1) := by
  intro h fit objective
  refine C167_log pinvh 1 one_pos (fun _ => 1) (fun _ => zero_le_one) (fun _ => 5) (fun _ _ => 1) (fun _ _ => one_pos) 0 0 h
    (fun _ _ _ => 1) [] trivial h _ rfl (fun _ : Fin 1 => [fun _ => 0]) _ ?_ ?_ ?_
  · intro op hop
    rcases List.mem_cons.mp hop with e | hop
    · subst e
      exact ⟨by simp [h], rfl⟩
    · rcases List.mem_cons.mp hop with e | hop
      · subst e
        trivial
      · exact absurd hop List.not_mem_nil
  · intro d w j hj
    exact absurd (by norm_num) hj
  · intro front a r ft back hsplit s' hrun w d
    rcases front with _ | ⟨o, front⟩
    · have hs : s' = Learner.init (fun _ _ _ => 1) false := (Prod.mk.inj (Option.some.inj hrun)).2.symm
      subst hs
      have hf : Spec.paramWeight (fun _ : Fin 1 => [fun _ => (0 : Fin 2)]) (fun _ => 1) (fun _ (_ : Fin 1) (_ : Fin 2) => 1)
          (h.deref r w) w d = if (0 : Fin 2) = d then 1 else 0 := by
        unfold Spec.paramWeight Spec.feature
        by_cases hd : (0 : Fin 2) = d
        · simp [hd]
        · simp [hd]
      show Spec.paramWeight _ _ (fun _ _ _ => 1) _ _ _ = 0 ∨ _ < Spec.paramWeight _ _ (fun _ _ _ => 1) _ _ _
      rw [hf]
      by_cases hd : (0 : Fin 2) = d
      · right
        rw [if_pos hd]
        norm_num
      · left
        rw [if_neg hd]
    · exfalso
      rw [List.cons_append, List.cons.injEq] at hsplit
      rcases front with _ | ⟨o2, front⟩
      · simp at hsplit
      · simp at hsplit

end GPSKet.SupervisedSweep
