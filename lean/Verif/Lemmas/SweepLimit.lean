import Verif.Props.Sweep
import Mathlib.Analysis.InnerProductSpace.Basic

/-! # Lemmas for C182: how much a fit step lowers the objective -/

namespace GPSKet.SupervisedSweep

open GPSKet.Supervised GPSKet.SupervisedFit

/-- The new parameters of a log-space step are not worse than any others with the same values where the step keeps them. -/
theorem logSpaceStep_minimises {ι n 𝕜 : Type} [RCLike 𝕜] [Fintype ι] [Fintype n] [DecidableEq n]
    (pinvh : {m : Type} → [Fintype m] → Matrix m m 𝕜 → Matrix m m 𝕜) (beta : ℝ) (hb : 0 < beta)
    (K : Matrix ι n 𝕜) (S : ι → ℝ) (hS : ∀ i, 0 ≤ S i) (y : ι → 𝕜) (alpha : n → ℝ) (ha : ∀ f, 0 < alpha f) (prior old : n → 𝕜)
    (hweight : ∀ f, Spec.occurrence K S f = 0 ∨ 1e-10 < Spec.occurrence K S f) (v : n → 𝕜)
    (hkeep : ∀ f, ¬ 1e-10 < Spec.occurrence K S f → v f = old f)
    (hcut : ∀ f, 1e-10 < Spec.occurrence K S f → ¬ alpha f < 1e10 → v f = prior f) :
    let new := logSpaceStep pinvh beta K S y alpha prior old
    (∑ i, beta * (S i * ‖y i - ∑ f, K i f * new f‖ ^ 2)) + ∑ f, alpha f * ‖new f - prior f‖ ^ 2
      ≤ (∑ i, beta * (S i * ‖y i - ∑ f, K i f * v f‖ ^ 2)) + ∑ f, alpha f * ‖v f - prior f‖ ^ 2 := by
  intro new
  obtain ⟨c1, c2, c3⟩ := C56 pinvh beta hb K S hS y alpha ha prior old
  have key := block_step K (fun i z => beta * (S i * ‖y i - z‖ ^ 2)) (fun f z => alpha f * ‖z - prior f‖ ^ 2)
    (fun f => ¬ 1e-10 < Spec.occurrence K S f) (fun f => 1e-10 < Spec.occurrence K S f ∧ alpha f < 1e10) new v prior
    (by
      intro i
      by_cases hi : S i = 0
      · right
        intro a b
        simp [hi]
      · left
        intro f hf
        exact entry_eq_zero K S hS f ((hweight f).resolve_right hf) i hi)
    (fun f hf => not_not.mpr hf.1) (fun f hf => (c1 f hf).trans (hkeep f hf).symm)
    (by
      intro f hf hz
      have hz' := not_not.mp hz
      have ha' : ¬ alpha f < 1e10 := fun h => hf ⟨hz', h⟩
      exact ⟨c2 f hz' ha', hcut f hz' ha'⟩)
    (by
      intro best h1 h2 t h3 hne
      have := c3 best h1 h2 t h3 hne
      unfold Spec.ridgeLoss at this
      rw [Finset.mul_sum, Finset.mul_sum] at this
      exact this)
  rcases key with h | h
  · rw [h]
  · exact h.le

/-- The square of the norm at the middle of two points. -/
theorem norm_middle {𝕜 : Type} [RCLike 𝕜] (a b : 𝕜) : ‖(a + b) / 2‖ ^ 2 = ‖a‖ ^ 2 / 2 + ‖b‖ ^ 2 / 2 - ‖a - b‖ ^ 2 / 4 := by
  have h := parallelogram_law_with_norm 𝕜 a b
  rw [norm_div, RCLike.norm_ofNat, div_pow]
  nlinarith [h]

/-- A log-space step lowers the objective by at least half the penalty of the change. -/
theorem logSpaceStep_decrease {ι n 𝕜 : Type} [RCLike 𝕜] [Fintype ι] [Fintype n] [DecidableEq n]
    (pinvh : {m : Type} → [Fintype m] → Matrix m m 𝕜 → Matrix m m 𝕜) (beta : ℝ) (hb : 0 < beta)
    (K : Matrix ι n 𝕜) (S : ι → ℝ) (hS : ∀ i, 0 ≤ S i) (y : ι → 𝕜) (alpha : n → ℝ) (ha : ∀ f, 0 < alpha f) (prior old : n → 𝕜)
    (hweight : ∀ f, Spec.occurrence K S f = 0 ∨ 1e-10 < Spec.occurrence K S f)
    (hprior : ∀ f, ¬ alpha f < 1e10 → old f = prior f) :
    let new := logSpaceStep pinvh beta K S y alpha prior old
    (∑ i, beta * (S i * ‖y i - ∑ f, K i f * new f‖ ^ 2)) + ∑ f, alpha f * ‖new f - prior f‖ ^ 2
        + (∑ f, alpha f * ‖new f - old f‖ ^ 2) / 2
      ≤ (∑ i, beta * (S i * ‖y i - ∑ f, K i f * old f‖ ^ 2)) + ∑ f, alpha f * ‖old f - prior f‖ ^ 2 := by
  intro new
  obtain ⟨c1, c2, -⟩ := C56 pinvh beta hb K S hS y alpha ha prior old
  have hmid := logSpaceStep_minimises pinvh beta hb K S hS y alpha ha prior old hweight (fun f => (new f + old f) / 2)
    (fun f hf => by
      have : new f = old f := c1 f hf
      rw [this]; ring)
    (fun f ho hf => by
      have h1 : new f = prior f := c2 f ho hf
      rw [h1, hprior f hf]; ring)
  have e1 : ∀ i, ‖y i - ∑ f, K i f * ((new f + old f) / 2)‖ ^ 2
      ≤ ‖y i - ∑ f, K i f * new f‖ ^ 2 / 2 + ‖y i - ∑ f, K i f * old f‖ ^ 2 / 2 := by
    intro i
    have : y i - ∑ f, K i f * ((new f + old f) / 2) = ((y i - ∑ f, K i f * new f) + (y i - ∑ f, K i f * old f)) / 2 := by
      have : ∑ f, K i f * ((new f + old f) / 2) = (∑ f, K i f * new f + ∑ f, K i f * old f) / 2 := by
        rw [← Finset.sum_add_distrib, div_eq_mul_inv, Finset.sum_mul]
        exact Finset.sum_congr rfl fun f _ => by ring
      rw [this]; ring
    rw [this, norm_middle]
    have := sq_nonneg ‖(y i - ∑ f, K i f * new f) - (y i - ∑ f, K i f * old f)‖
    linarith
  have e2 : ∀ f, ‖(new f + old f) / 2 - prior f‖ ^ 2
      = ‖new f - prior f‖ ^ 2 / 2 + ‖old f - prior f‖ ^ 2 / 2 - ‖new f - old f‖ ^ 2 / 4 := by
    intro f
    have : (new f + old f) / 2 - prior f = ((new f - prior f) + (old f - prior f)) / 2 := by ring
    rw [this, norm_middle, sub_sub_sub_cancel_right]
  have s1 : ∑ i, beta * (S i * ‖y i - ∑ f, K i f * ((new f + old f) / 2)‖ ^ 2)
      ≤ (∑ i, beta * (S i * ‖y i - ∑ f, K i f * new f‖ ^ 2)) / 2 + (∑ i, beta * (S i * ‖y i - ∑ f, K i f * old f‖ ^ 2)) / 2 := by
    rw [Finset.sum_div, Finset.sum_div, ← Finset.sum_add_distrib]
    refine Finset.sum_le_sum fun i _ => ?_
    have := mul_le_mul_of_nonneg_left (mul_le_mul_of_nonneg_left (e1 i) (hS i)) hb.le
    linarith
  have s2 : ∑ f, alpha f * ‖(new f + old f) / 2 - prior f‖ ^ 2
      = (∑ f, alpha f * ‖new f - prior f‖ ^ 2) / 2 + (∑ f, alpha f * ‖old f - prior f‖ ^ 2) / 2
        - (∑ f, alpha f * ‖new f - old f‖ ^ 2) / 4 := by
    rw [Finset.sum_div, Finset.sum_div, Finset.sum_div, ← Finset.sum_add_distrib, ← Finset.sum_sub_distrib]
    refine Finset.sum_congr rfl fun f _ => ?_
    rw [e2]; ring
  have hmid' : (∑ i, beta * (S i * ‖y i - ∑ f, K i f * new f‖ ^ 2)) + ∑ f, alpha f * ‖new f - prior f‖ ^ 2
      ≤ (∑ i, beta * (S i * ‖y i - ∑ f, K i f * ((new f + old f) / 2)‖ ^ 2)) + ∑ f, alpha f * ‖(new f + old f) / 2 - prior f‖ ^ 2 := hmid
  linarith

variable {D M L N : ℕ}

/-- The objective of log-space fits (that of C167). -/
noncomputable abbrev logObjective (beta : ℝ) (S : Fin N → ℝ) (y : Fin N → ℂ) (alphaMat : Fin L → Fin (M * D) → ℝ) (prior : ℂ)
    (data : Fin N → List (Fin L → Fin D)) (eps : Eps D M L) : ℝ :=
  Spec.penalisedError data (fun i z => beta * (S i * ‖y i - z‖ ^ 2))
    (fun d w j z => alphaMat j (finProdFinEquiv (w, d)) * ‖z - prior‖ ^ 2) eps 0

/-- The parameters after a fit step at the reference sites `refs`. -/
noncomputable def fitted (pinvh : {m : Type} → [Fintype m] → Matrix m m ℂ → Matrix m m ℂ) (beta : ℝ) (S : Fin N → ℝ) (y : Fin N → ℂ)
    (alphaMat : Fin L → Fin (M * D) → ℝ) (prior : ℂ) (data : Fin N → List (Fin L → Fin D)) (eps : Eps D M L) (refs : Refs M L) : Eps D M L :=
  writeRefWeights eps refs (logSpaceStep pinvh beta (fun i f => feat eps refs (data i) f) S y (refAlpha alphaMat refs) (fun _ => prior)
    (refWeights eps refs))

section Step
variable (pinvh : {m : Type} → [Fintype m] → Matrix m m ℂ → Matrix m m ℂ) (beta : ℝ) (hb : 0 < beta)
    (S : Fin N → ℝ) (hS : ∀ i, 0 ≤ S i) (y : Fin N → ℂ) (alphaMat : Fin L → Fin (M * D) → ℝ) (ha : ∀ j f, 0 < alphaMat j f) (prior : ℂ)
    (data : Fin N → List (Fin L → Fin D)) (eps : Eps D M L) (refs : Refs M L)
    (hw : ∀ w d, Spec.paramWeight data S eps (refs w) w d = 0 ∨ 1e-10 < Spec.paramWeight data S eps (refs w) w d)
include hb hS ha hw

theorem fitted_minimises (eps' : Eps D M L) (hoff : ∀ d w j, j ≠ refs w → eps' d w j = eps d w j)
    (hkeep : ∀ d w, ¬ 1e-10 < Spec.paramWeight data S eps (refs w) w d → eps' d w (refs w) = eps d w (refs w))
    (hcut : ∀ d w j, ¬ alphaMat j (finProdFinEquiv (w, d)) < 1e10 → eps' d w j = prior) :
    logObjective beta S y alphaMat prior data (fitted pinvh beta S y alphaMat prior data eps refs)
      ≤ logObjective beta S y alphaMat prior data eps' := by
  have hstep := logSpaceStep_minimises pinvh beta hb (fun i f => feat eps refs (data i) f) S hS y (refAlpha alphaMat refs)
    (fun f => ha _ _) (fun _ => prior) (refWeights eps refs)
    (fun f => hw (finProdFinEquiv.symm f).1 (finProdFinEquiv.symm f).2) (refWeights eps' refs)
    (fun f hf => hkeep _ _ hf)
    (fun f _ hf => hcut _ _ _ (by rw [Prod.mk.eta, Equiv.apply_symm_apply]; exact hf))
  have e := penalisedError_write data (fun i z => beta * (S i * ‖y i - z‖ ^ 2))
    (fun d w j z => alphaMat j (finProdFinEquiv (w, d)) * ‖z - prior‖ ^ 2) eps 0 refs
  have e' : eps' = writeRefWeights eps refs (refWeights eps' refs) := by
    funext d w j
    unfold writeRefWeights refWeights
    by_cases h : j = refs w
    · simp [h]
    · rw [if_neg h]; exact hoff d w j h
  unfold logObjective fitted
  rw [e']
  rw [e, e]
  simp only [add_zero, Prod.mk.eta, Equiv.apply_symm_apply]
  exact add_le_add_left hstep _

theorem fitted_decrease (hprior : ∀ d w j, ¬ alphaMat j (finProdFinEquiv (w, d)) < 1e10 → eps d w j = prior) :
    logObjective beta S y alphaMat prior data (fitted pinvh beta S y alphaMat prior data eps refs)
      + (∑ w, ∑ d, ∑ j, alphaMat j (finProdFinEquiv (w, d)) * ‖fitted pinvh beta S y alphaMat prior data eps refs d w j - eps d w j‖ ^ 2) / 2
      ≤ logObjective beta S y alphaMat prior data eps := by
  have hstep := logSpaceStep_decrease pinvh beta hb (fun i f => feat eps refs (data i) f) S hS y (refAlpha alphaMat refs)
    (fun f => ha _ _) (fun _ => prior) (refWeights eps refs)
    (fun f => hw (finProdFinEquiv.symm f).1 (finProdFinEquiv.symm f).2)
    (fun f hf => hprior _ _ _ (by rw [Prod.mk.eta, Equiv.apply_symm_apply]; exact hf))
  have e := penalisedError_write data (fun i z => beta * (S i * ‖y i - z‖ ^ 2))
    (fun d w j z => alphaMat j (finProdFinEquiv (w, d)) * ‖z - prior‖ ^ 2) eps 0 refs
  have e2 := e (refWeights eps refs)
  rw [write_refWeights] at e2
  have e3 := penalty_write eps refs (logSpaceStep pinvh beta (fun i f => feat eps refs (data i) f) S y (refAlpha alphaMat refs) (fun _ => prior)
    (refWeights eps refs)) (fun d w j z => alphaMat j (finProdFinEquiv (w, d)) * ‖z - eps d w j‖ ^ 2)
  have e4 : (∑ w : Fin M, ∑ d : Fin D, ∑ j : Fin L, if j = refs w then (0 : ℝ) else alphaMat j (finProdFinEquiv (w, d)) * ‖eps d w j - eps d w j‖ ^ 2) = 0 := by
    simp
  rw [e4, add_zero] at e3
  unfold logObjective fitted
  rw [e3, e, e2]
  simp only [add_zero, Prod.mk.eta, Equiv.apply_symm_apply]
  have := add_le_add_left hstep (∑ w, ∑ d, ∑ j, if j = refs w then 0 else alphaMat j (finProdFinEquiv (w, d)) * ‖eps d w j - prior‖ ^ 2)
  refine le_trans (le_of_eq ?_) this
  unfold refWeights refAlpha
  ring

theorem fitted_prior (hprior : ∀ d w j, ¬ alphaMat j (finProdFinEquiv (w, d)) < 1e10 → eps d w j = prior) (d : Fin D) (w : Fin M) (j : Fin L)
    (hj : ¬ alphaMat j (finProdFinEquiv (w, d)) < 1e10) : fitted pinvh beta S y alphaMat prior data eps refs d w j = prior := by
  have hstep := logSpaceStep_descends pinvh beta hb (fun i f => feat eps refs (data i) f) S hS y (refAlpha alphaMat refs)
    (fun f => ha _ _) (fun _ => prior) (refWeights eps refs)
    (fun f => hw (finProdFinEquiv.symm f).1 (finProdFinEquiv.symm f).2)
    (fun f hf => hprior _ _ _ (by rw [Prod.mk.eta, Equiv.apply_symm_apply]; exact hf))
  unfold fitted writeRefWeights
  by_cases hjr : j = refs w
  · rw [if_pos hjr]
    refine hstep.1 _ ?_
    unfold refAlpha
    rw [Equiv.symm_apply_apply, ← hjr]
    exact hj
  · rw [if_neg hjr]
    exact hprior d w j hj

end Step

/-- Runs of two lists of calls. -/
theorem run_append (first : Fin L) (l l' : List (Op D M L)) (hs : Heap D M L × Learner D M L) :
    run first hs (l ++ l') = (run first hs l).bind fun hs' => run first hs' l' := by
  induction l generalizing hs with
  | nil => rfl
  | cons o os ih =>
    show (step first hs o).bind _ = ((step first hs o).bind _).bind _
    cases step first hs o with
    | none => rfl
    | some hs' => exact ih hs'

/-- The log-amplitude depends continuously on the parameters. -/
theorem continuous_qgpsLog (row : List (Fin L → Fin D)) : Continuous fun eps : Eps D M L => Spec.qgpsLog eps 0 row := by
  unfold Spec.qgpsLog
  refine Continuous.add ?_ continuous_const
  induction row with
  | nil => exact continuous_const
  | cons x xs ih =>
    simp only [List.map_cons, List.sum_cons]
    exact Continuous.add (by fun_prop) ih

theorem continuous_logObjective (beta : ℝ) (S : Fin N → ℝ) (y : Fin N → ℂ) (alphaMat : Fin L → Fin (M * D) → ℝ) (prior : ℂ)
    (data : Fin N → List (Fin L → Fin D)) : Continuous (logObjective (D := D) (M := M) beta S y alphaMat prior data) := by
  unfold logObjective Spec.penalisedError
  refine Continuous.add (continuous_finsetSum _ fun i _ => ?_) (by fun_prop)
  have := continuous_qgpsLog (D := D) (M := M) (data i)
  fun_prop

theorem logObjective_nonneg {beta : ℝ} (hb : 0 < beta) {S : Fin N → ℝ} (hS : ∀ i, 0 ≤ S i) (y : Fin N → ℂ) {alphaMat : Fin L → Fin (M * D) → ℝ}
    (ha : ∀ j f, 0 < alphaMat j f) (prior : ℂ) (data : Fin N → List (Fin L → Fin D)) (eps : Eps D M L) (d : Fin D) (w : Fin M) (j : Fin L) :
    alphaMat j (finProdFinEquiv (w, d)) * ‖eps d w j - prior‖ ^ 2 ≤ logObjective beta S y alphaMat prior data eps := by
  unfold logObjective Spec.penalisedError
  have hp : ∀ w d j, 0 ≤ alphaMat j (finProdFinEquiv (w, d)) * ‖eps d w j - prior‖ ^ 2 := fun w d j => mul_nonneg (ha _ _).le (sq_nonneg _)
  have h1 : 0 ≤ ∑ i, beta * (S i * ‖y i - Spec.qgpsLog eps 0 (data i)‖ ^ 2) :=
    Finset.sum_nonneg fun i _ => mul_nonneg hb.le (mul_nonneg (hS i) (sq_nonneg _))
  have h2 : alphaMat j (finProdFinEquiv (w, d)) * ‖eps d w j - prior‖ ^ 2 ≤ ∑ j, alphaMat j (finProdFinEquiv (w, d)) * ‖eps d w j - prior‖ ^ 2 :=
    Finset.single_le_sum (f := fun j => alphaMat j (finProdFinEquiv (w, d)) * ‖eps d w j - prior‖ ^ 2) (fun j _ => hp w d j) (Finset.mem_univ j)
  have h3 := Finset.single_le_sum (f := fun d => ∑ j, alphaMat j (finProdFinEquiv (w, d)) * ‖eps d w j - prior‖ ^ 2)
    (fun d _ => Finset.sum_nonneg fun j _ => hp w d j) (Finset.mem_univ d)
  have h4 := Finset.single_le_sum (f := fun w => ∑ d, ∑ j, alphaMat j (finProdFinEquiv (w, d)) * ‖eps d w j - prior‖ ^ 2)
    (fun w _ => Finset.sum_nonneg fun d _ => Finset.sum_nonneg fun j _ => hp w d j) (Finset.mem_univ w)
  linarith

end GPSKet.SupervisedSweep
