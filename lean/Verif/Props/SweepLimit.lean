import Verif.Lemmas.SweepLimit
import Mathlib.Topology.MetricSpace.Sequences
import Mathlib.Topology.Algebra.InfiniteSum.Order
import Mathlib.Analysis.Normed.Group.InfiniteSum
import Mathlib.Tactic.FinCases

/-!
# C182: sweeps of supervised fits run on towards a point that no further fit step improves

An unbounded history of log-space fit steps (`QGPSLogSpaceFit`, supervised_qgps.py:1230-1260) of complex parameters without bias for one
data set, between predictions and assignments of reference sites: the setting of C167.  C167 says that no step makes the objective worse;
here we say where the parameters go.
-/

namespace GPSKet.SupervisedSweep

open GPSKet.Supervised GPSKet.SupervisedFit Filter Topology

variable {D M L N : ℕ}

/-- `st t` is the learner after the first `t` calls of `ops`. -/
def Trajectory (first : Fin L) (h : Heap D M L) (s : Learner D M L) (ops : ℕ → Op D M L) (st : ℕ → Learner D M L) : Prop :=
  ∀ t, run first (h, s) ((List.range t).map ops) = some (h, st t)

theorem trajectory_agree (first : Fin L) (h : Heap D M L) (data : Fin N → List (Fin L → Fin D))
    (fitOf : Refs M L → List (Features D M) → Features D M → ℂ → Features D M × ℂ) (ops : ℕ → Op D M L)
    (hops : ∀ t, SweepOp h data fitOf (ops t)) (s : Learner D M L) (p : Ref D M L) (ha : Agree (h, s) (h, p)) (t : ℕ) :
    ∃ s' p', run first (h, s) ((List.range t).map ops) = some (h, s') ∧ Agree (h, s') (h, p') ∧ p'.includeBias = p.includeBias ∧
      ∃ s1, step first (h, s') (ops t) = some (h, s1) ∧ s1.eps = (Ref.step (h, p') (ops t)).2.eps := by
  have one : ∀ t s' p', Agree (h, s') (h, p') →
      ∃ s1, step first (h, s') (ops t) = some (h, s1) ∧ Agree (h, s1) (h, (Ref.step (h, p') (ops t)).2) := by
    intro t s' p' ha'
    have ho := hops t
    have hclean : Clean first (h, s') [ops t] := by
      refine ⟨?_, fun _ _ => trivial⟩
      cases hh : ops t <;> first | trivial | (rw [hh] at ho; exact absurd ho id)
    obtain ⟨⟨h1, s1⟩, e1, ha1⟩ := step_agree first (h, s') (h, p') ha' (ops t) hclean
    have hh : (Ref.step (h, p') (ops t)).1 = h := by
      cases hh : ops t <;> first | rfl | (rw [hh] at ho; exact absurd ho id)
    have hh1 : h1 = h := ha1.1.trans hh
    subst hh1
    exact ⟨s1, e1, rfl, ha1.2⟩
  have all : ∃ s' p', run first (h, s) ((List.range t).map ops) = some (h, s') ∧ Agree (h, s') (h, p') ∧
      p'.includeBias = p.includeBias := by
    induction t with
    | zero => exact ⟨s, p, rfl, ha, rfl⟩
    | succ t ih =>
      obtain ⟨s', p', e, a, b⟩ := ih
      obtain ⟨s1, e1, a1⟩ := one t s' p' a
      refine ⟨s1, _, ?_, a1, ?_⟩
      · rw [List.range_succ, List.map_append, run_append, e]
        show (step first (h, s') (ops t)).bind _ = _
        rw [e1]; rfl
      · rw [← b]; cases ops t <;> rfl
  obtain ⟨s', p', e, a, b⟩ := all
  obtain ⟨s1, e1, a1⟩ := one t s' p' a
  exact ⟨s', p', e, a, b, s1, e1, a1.2.1⟩

/-- C182: none of the calls fails. -/
theorem C182_exists (first : Fin L) (h0 : Heap D M L) (eps0 : Eps D M L) (ops0 : List (Op D M L))
    (hclean : Clean first (h0, Learner.init eps0 false) ops0) (h : Heap D M L) (s : Learner D M L)
    (hrun : run first (h0, Learner.init eps0 false) ops0 = some (h, s)) (data : Fin N → List (Fin L → Fin D))
    (fitOf : Refs M L → List (Features D M) → Features D M → ℂ → Features D M × ℂ) (ops : ℕ → Op D M L)
    (hops : ∀ t, SweepOp h data fitOf (ops t)) : ∃ st, Trajectory first h s ops st := by
  choose st p e r using trajectory_agree first h data fitOf ops hops s ⟨s.eps, false, s.bias⟩
    (agree_of_run first h0 eps0 false ops0 hclean h s hrun)
  exact ⟨st, e⟩

section Run
variable (pinvh : {m : Type} → [Fintype m] → Matrix m m ℂ → Matrix m m ℂ) (beta : ℝ) (hb : 0 < beta)
    (S : Fin N → ℝ) (hS : ∀ i, 0 ≤ S i) (y : Fin N → ℂ) (alphaMat : Fin L → Fin (M * D) → ℝ) (ha : ∀ j f, 0 < alphaMat j f) (prior : ℂ)
    (first : Fin L) (h0 : Heap D M L) (eps0 : Eps D M L) (ops0 : List (Op D M L))
    (hclean : Clean first (h0, Learner.init eps0 false) ops0) (h : Heap D M L) (s : Learner D M L)
    (hrun : run first (h0, Learner.init eps0 false) ops0 = some (h, s))
    (data : Fin N → List (Fin L → Fin D)) (ops : ℕ → Op D M L)
    (hops : ∀ t, SweepOp h data (logFit pinvh beta S y alphaMat prior) (ops t))
    (st : ℕ → Learner D M L) (hst : Trajectory first h s ops st)

include hclean hrun hops hst

theorem trajectory_step (t : ℕ) :
    (∀ a r fit, ops t = .fitStep a r fit → (st (t + 1)).eps = fitted pinvh beta S y alphaMat prior data (st t).eps (h.deref r)) ∧
      ((∀ a r fit, ops t ≠ .fitStep a r fit) → (st (t + 1)).eps = (st t).eps) := by
  obtain ⟨s', p', e, a, b, s1, e1, c⟩ := trajectory_agree first h data (logFit pinvh beta S y alphaMat prior) ops hops s ⟨s.eps, false, s.bias⟩
    (agree_of_run first h0 eps0 false ops0 hclean h s hrun) t
  have hs' : s' = st t := by
    have := hst t
    rw [e] at this
    exact (Prod.mk.inj (Option.some.inj this)).2
  have hs1 : s1 = st (t + 1) := by
    have := hst (t + 1)
    rw [List.range_succ, List.map_append, run_append, e] at this
    have h2 : (step first (h, s') (ops t)).bind (fun hs => run first hs []) = some (h, st (t + 1)) := this
    rw [e1] at h2
    exact (Prod.mk.inj (Option.some.inj h2)).2
  subst hs' hs1
  have hpe : (st t).eps = p'.eps := a.2.1
  have ho := hops t
  constructor
  · intro ad r fit hop
    rw [c, hpe, hop]
    rw [hop] at ho
    have hfit : fit = logFit pinvh beta S y alphaMat prior (h.deref r) := ho.2
    have hdata : h.confs ad = List.ofFn data := ho.1
    simp only [Ref.step, hfit, hdata]
    have hm := asMatrix_features data p'.eps (h.deref r)
    unfold fitted logFit
    rw [← hm]
    rfl
  · intro hno
    rw [c, hpe]
    cases hop : ops t with
    | predict a => rfl
    | setRefs r => rfl
    | fitStep a r fit => exact absurd hop (hno a r fit)
    | assignEps e => rw [hop] at ho; exact absurd ho id
    | writeConfs a c => rw [hop] at ho; exact absurd ho id
    | writeRefs a c => rw [hop] at ho; exact absurd ho id
    | pokeEps e => rw [hop] at ho; exact absurd ho id

include hb hS ha
variable (hprior : ∀ d w j, ¬ alphaMat j (finProdFinEquiv (w, d)) < 1e10 → s.eps d w j = prior)
include hprior

theorem trajectory_prior (T : ℕ) (hweight : ∀ t < T, ∀ a r fit, ops t = .fitStep a r fit → ∀ w d,
      Spec.paramWeight data S (st t).eps (h.deref r w) w d = 0 ∨ 1e-10 < Spec.paramWeight data S (st t).eps (h.deref r w) w d)
    (t : ℕ) (ht : t ≤ T) : ∀ d w j, ¬ alphaMat j (finProdFinEquiv (w, d)) < 1e10 → (st t).eps d w j = prior := by
  induction t with
  | zero =>
    rw [show st 0 = s from (Prod.mk.inj (Option.some.inj (hst 0))).2.symm]
    exact hprior
  | succ t ih =>
    have ih := ih (Nat.le_of_succ_le ht)
    obtain ⟨h1, h2⟩ := trajectory_step pinvh beta S y alphaMat prior first h0 eps0 ops0 hclean h s hrun data ops hops st hst t
    by_cases hf : ∃ a r fit, ops t = .fitStep a r fit
    · obtain ⟨a, r, fit, hf⟩ := hf
      rw [h1 a r fit hf]
      exact fitted_prior pinvh beta hb S hS y alphaMat ha prior data _ _ (hweight t ht a r fit hf) ih
    · rw [h2 fun a r fit e => hf ⟨a, r, fit, e⟩]
      exact ih

theorem trajectory_decrease (T : ℕ) (hweight : ∀ t < T, ∀ a r fit, ops t = .fitStep a r fit → ∀ w d,
      Spec.paramWeight data S (st t).eps (h.deref r w) w d = 0 ∨ 1e-10 < Spec.paramWeight data S (st t).eps (h.deref r w) w d)
    (t : ℕ) (ht : t < T) :
    logObjective beta S y alphaMat prior data (st (t + 1)).eps
      + (∑ w, ∑ d, ∑ j, alphaMat j (finProdFinEquiv (w, d)) * ‖(st (t + 1)).eps d w j - (st t).eps d w j‖ ^ 2) / 2
      ≤ logObjective beta S y alphaMat prior data (st t).eps := by
  obtain ⟨h1, h2⟩ := trajectory_step pinvh beta S y alphaMat prior first h0 eps0 ops0 hclean h s hrun data ops hops st hst t
  by_cases hf : ∃ a r fit, ops t = .fitStep a r fit
  · obtain ⟨a, r, fit, hf⟩ := hf
    rw [h1 a r fit hf]
    exact fitted_decrease pinvh beta hb S hS y alphaMat ha prior data _ _ (hweight t ht a r fit hf)
      (trajectory_prior pinvh beta hb S hS y alphaMat ha prior first h0 eps0 ops0 hclean h s hrun data ops hops st hst hprior T hweight t ht.le)
  · rw [h2 fun a r fit e => hf ⟨a, r, fit, e⟩]
    simp

theorem trajectory_sum (T : ℕ) (hweight : ∀ t < T, ∀ a r fit, ops t = .fitStep a r fit → ∀ w d,
      Spec.paramWeight data S (st t).eps (h.deref r w) w d = 0 ∨ 1e-10 < Spec.paramWeight data S (st t).eps (h.deref r w) w d) :
    logObjective beta S y alphaMat prior data (st T).eps
      + (∑ t ∈ Finset.range T, ∑ w, ∑ d, ∑ j, alphaMat j (finProdFinEquiv (w, d)) * ‖(st (t + 1)).eps d w j - (st t).eps d w j‖ ^ 2) / 2
      ≤ logObjective beta S y alphaMat prior data s.eps := by
  have key : ∀ n, n ≤ T → logObjective beta S y alphaMat prior data (st n).eps
      + (∑ t ∈ Finset.range n, ∑ w, ∑ d, ∑ j, alphaMat j (finProdFinEquiv (w, d)) * ‖(st (t + 1)).eps d w j - (st t).eps d w j‖ ^ 2) / 2
      ≤ logObjective beta S y alphaMat prior data s.eps := by
    intro n
    induction n with
    | zero =>
      intro _
      rw [show st 0 = s from (Prod.mk.inj (Option.some.inj (hst 0))).2.symm]
      simp
    | succ n ih =>
      intro hn
      have h1 := ih (Nat.le_of_succ_le hn)
      have h2 := trajectory_decrease pinvh beta hb S hS y alphaMat ha prior first h0 eps0 ops0 hclean h s hrun data ops hops st hst hprior T
        hweight n hn
      rw [Finset.sum_range_succ]
      linarith
  exact key T le_rfl

variable (hweight : ∀ t a r fit, ops t = .fitStep a r fit → ∀ w d,
      Spec.paramWeight data S (st t).eps (h.deref r w) w d = 0 ∨ 1e-10 < Spec.paramWeight data S (st t).eps (h.deref r w) w d)
include hweight

/-- C182: the squared changes of the parameters, weighted by their precisions and summed over the whole history, stay below twice the
initial objective. -/
theorem C182_changes (T : ℕ) :
    ∑ t ∈ Finset.range T, ∑ w, ∑ d, ∑ j, alphaMat j (finProdFinEquiv (w, d)) * ‖(st (t + 1)).eps d w j - (st t).eps d w j‖ ^ 2
      ≤ 2 * Spec.penalisedError data (fun i z => beta * (S i * ‖y i - z‖ ^ 2))
        (fun d w j z => alphaMat j (finProdFinEquiv (w, d)) * ‖z - prior‖ ^ 2) s.eps 0 := by
  have h1 := trajectory_sum pinvh beta hb S hS y alphaMat ha prior first h0 eps0 ops0 hclean h s hrun data ops hops st hst hprior T
    (fun t _ => hweight t)
  have h2 : 0 ≤ logObjective beta S y alphaMat prior data (st T).eps := by
    unfold logObjective Spec.penalisedError
    refine add_nonneg (Finset.sum_nonneg fun i _ => mul_nonneg hb.le (mul_nonneg (hS i) (sq_nonneg _))) ?_
    exact Finset.sum_nonneg fun w _ => Finset.sum_nonneg fun d _ => Finset.sum_nonneg fun j _ => mul_nonneg (ha _ _).le (sq_nonneg _)
  have h3 : logObjective beta S y alphaMat prior data s.eps = Spec.penalisedError data (fun i z => beta * (S i * ‖y i - z‖ ^ 2))
        (fun d w j z => alphaMat j (finProdFinEquiv (w, d)) * ‖z - prior‖ ^ 2) s.eps 0 := rfl
  rw [← h3]
  linarith

/-- C182: no parameter moves further from its prior mean than the initial objective allows. -/
theorem C182_bounded (t : ℕ) (d : Fin D) (w : Fin M) (j : Fin L) :
    alphaMat j (finProdFinEquiv (w, d)) * ‖(st t).eps d w j - prior‖ ^ 2
      ≤ Spec.penalisedError data (fun i z => beta * (S i * ‖y i - z‖ ^ 2))
        (fun d w j z => alphaMat j (finProdFinEquiv (w, d)) * ‖z - prior‖ ^ 2) s.eps 0 := by
  have h1 := trajectory_sum pinvh beta hb S hS y alphaMat ha prior first h0 eps0 ops0 hclean h s hrun data ops hops st hst hprior t
    (fun t _ => hweight t)
  have h2 := logObjective_nonneg hb hS y ha prior data (st t).eps d w j
  have h3 : 0 ≤ ∑ t ∈ Finset.range t, ∑ w, ∑ d, ∑ j, alphaMat j (finProdFinEquiv (w, d)) * ‖(st (t + 1)).eps d w j - (st t).eps d w j‖ ^ 2 :=
    Finset.sum_nonneg fun _ _ => Finset.sum_nonneg fun w _ => Finset.sum_nonneg fun d _ => Finset.sum_nonneg fun j _ =>
      mul_nonneg (ha _ _).le (sq_nonneg _)
  exact h2.trans (le_trans (by linarith) h1)

/-- C182: the changes of the parameters tend to zero. -/
theorem C182_settles (d : Fin D) (w : Fin M) (j : Fin L) :
    Tendsto (fun t => (st (t + 1)).eps d w j - (st t).eps d w j) atTop (𝓝 0) := by
  have hsum : Summable fun t => alphaMat j (finProdFinEquiv (w, d)) * ‖(st (t + 1)).eps d w j - (st t).eps d w j‖ ^ 2 := by
    refine summable_of_sum_range_le (c := 2 * logObjective beta S y alphaMat prior data s.eps)
      (fun t => mul_nonneg (ha _ _).le (sq_nonneg _)) fun T => ?_
    refine le_trans (Finset.sum_le_sum fun t _ => ?_)
      (C182_changes pinvh beta hb S hS y alphaMat ha prior first h0 eps0 ops0 hclean h s hrun data ops hops st hst hprior hweight T)
    have hp : ∀ w d j, 0 ≤ alphaMat j (finProdFinEquiv (w, d)) * ‖(st (t + 1)).eps d w j - (st t).eps d w j‖ ^ 2 :=
      fun w d j => mul_nonneg (ha _ _).le (sq_nonneg _)
    refine le_trans (Finset.single_le_sum (f := fun j => alphaMat j (finProdFinEquiv (w, d)) * ‖(st (t + 1)).eps d w j - (st t).eps d w j‖ ^ 2)
      (fun j _ => hp w d j) (Finset.mem_univ j)) ?_
    refine le_trans (Finset.single_le_sum (f := fun d => ∑ j, alphaMat j (finProdFinEquiv (w, d)) * ‖(st (t + 1)).eps d w j - (st t).eps d w j‖ ^ 2)
      (fun d _ => Finset.sum_nonneg fun j _ => hp w d j) (Finset.mem_univ d)) ?_
    exact Finset.single_le_sum (f := fun w => ∑ d, ∑ j, alphaMat j (finProdFinEquiv (w, d)) * ‖(st (t + 1)).eps d w j - (st t).eps d w j‖ ^ 2)
      (fun w _ => Finset.sum_nonneg fun d _ => Finset.sum_nonneg fun j _ => hp w d j) (Finset.mem_univ w)
  have h0' := hsum.tendsto_atTop_zero
  have hal := ha j (finProdFinEquiv (w, d))
  have h1 : Tendsto (fun t => ‖(st (t + 1)).eps d w j - (st t).eps d w j‖ ^ 2) atTop (𝓝 0) := by
    have := h0'.const_mul (alphaMat j (finProdFinEquiv (w, d)))⁻¹
    simp only [mul_zero, inv_mul_cancel_left₀ hal.ne'] at this
    exact this
  have h2 := h1.sqrt
  simp only [Real.sqrt_zero, Real.sqrt_sq (norm_nonneg _)] at h2
  exact tendsto_zero_iff_norm_tendsto_zero.mpr h2

/-- C182: the parameters accumulate somewhere. -/
theorem C182_accumulates : ∃ theta : Eps D M L, ∃ phi : ℕ → ℕ, StrictMono phi ∧ Tendsto (fun k => (st (phi k)).eps) atTop (𝓝 theta) := by
  set R : ℝ := logObjective beta S y alphaMat prior data s.eps with hR
  have hbd : ∀ t, (st t).eps ∈ {e : Eps D M L | ∀ d w j, ‖e d w j - prior‖ ^ 2 ≤ R / alphaMat j (finProdFinEquiv (w, d))} := by
    intro t d w j
    rw [le_div_iff₀ (ha _ _), mul_comm]
    exact C182_bounded pinvh beta hb S hS y alphaMat ha prior first h0 eps0 ops0 hclean h s hrun data ops hops st hst hprior hweight t d w j
  have hcompact : IsCompact (Set.univ.pi fun d : Fin D => Set.univ.pi fun w : Fin M => Set.univ.pi fun j : Fin L =>
      Metric.closedBall prior (Real.sqrt (R / alphaMat j (finProdFinEquiv (w, d))))) :=
    isCompact_univ_pi fun d => isCompact_univ_pi fun w => isCompact_univ_pi fun j => isCompact_closedBall _ _
  obtain ⟨theta, -, phi, h1, h2⟩ := hcompact.tendsto_subseq (x := fun t => (st t).eps) (fun t => by
    intro d _ w _ j _
    rw [Metric.mem_closedBall, dist_eq_norm]
    exact Real.le_sqrt_of_sq_le (hbd t d w j))
  exact ⟨theta, phi, h1, h2⟩

/-- C182: where the parameters accumulate, no fit step that comes back again and again can improve on them.  The reference sites `rho`
come back within every `P` calls; a parameter at them counts if its precision is below the cutoff and its weight in the data exceeds the
threshold whenever such a step is taken.  Then the objective at the accumulation point is not above the objective of any parameters that
differ from it in those. -/
theorem C182_stationary (theta : Eps D M L) (phi : ℕ → ℕ) (hphi : StrictMono phi)
    (hlim : Tendsto (fun k => (st (phi k)).eps) atTop (𝓝 theta)) (rho : Refs M L) (P : ℕ)
    (hrec : ∀ t, ∃ t', t ≤ t' ∧ t' < t + P ∧ ∃ a r fit, ops t' = .fitStep a r fit ∧ h.deref r = rho) (other : Eps D M L)
    (hother : ∀ d w j, (j = rho w ∧ alphaMat j (finProdFinEquiv (w, d)) < 1e10 ∧
        ∀ t a r fit, ops t = .fitStep a r fit → h.deref r = rho → 1e-10 < Spec.paramWeight data S (st t).eps j w d) ∨
      other d w j = theta d w j) :
    Spec.penalisedError data (fun i z => beta * (S i * ‖y i - z‖ ^ 2))
        (fun d w j z => alphaMat j (finProdFinEquiv (w, d)) * ‖z - prior‖ ^ 2) theta 0
      ≤ Spec.penalisedError data (fun i z => beta * (S i * ‖y i - z‖ ^ 2))
        (fun d w j z => alphaMat j (finProdFinEquiv (w, d)) * ‖z - prior‖ ^ 2) other 0 := by
  classical
  set Q : Fin D → Fin M → Fin L → Prop := fun d w j => j = rho w ∧ alphaMat j (finProdFinEquiv (w, d)) < 1e10 ∧
        ∀ t a r fit, ops t = .fitStep a r fit → h.deref r = rho → 1e-10 < Spec.paramWeight data S (st t).eps j w d with hQ
  have hshift : ∀ i : ℕ, Tendsto (fun k => (st (phi k + i)).eps) atTop (𝓝 theta) := by
    intro i
    induction i with
    | zero => exact hlim
    | succ i ih =>
      rw [tendsto_pi_nhds]; intro d
      rw [tendsto_pi_nhds]; intro w
      rw [tendsto_pi_nhds]; intro j
      have h1 : Tendsto (fun k => (st (phi k + i)).eps d w j) atTop (𝓝 (theta d w j)) :=
        tendsto_pi_nhds.mp (tendsto_pi_nhds.mp (tendsto_pi_nhds.mp ih d) w) j
      have h2 := (C182_settles pinvh beta hb S hS y alphaMat ha prior first h0 eps0 ops0 hclean h s hrun data ops hops st hst hprior hweight
        d w j).comp (show Tendsto (fun k => phi k + i) atTop atTop from
          tendsto_atTop_mono (fun k => Nat.le_add_right _ _) hphi.tendsto_atTop)
      have h3 := h2.add h1
      simp only [zero_add] at h3
      refine h3.congr fun k => ?_
      simp only [Function.comp_apply]
      exact sub_add_cancel _ _
  choose tau ht1 ht2 ad rr ff hop hrho using fun k => hrec (phi k)
  have hnear : ∀ g : ℕ → ℕ, (∀ k, phi k ≤ g k ∧ g k < phi k + (P + 1)) → Tendsto (fun k => (st (g k)).eps) atTop (𝓝 theta) := by
    intro g hg
    rw [tendsto_def]
    intro U hU
    have hall : ∀ᶠ k in atTop, ∀ i ∈ Finset.range (P + 1), (st (phi k + i)).eps ∈ U :=
      (Filter.eventually_all_finset _).mpr fun i _ => (hshift i).eventually hU
    filter_upwards [hall] with k hk
    have := hk (g k - phi k) (Finset.mem_range.mpr (by have := hg k; omega))
    rw [Nat.add_sub_cancel' (hg k).1] at this
    exact this
  have ha1 := hnear tau fun k => ⟨ht1 k, by have := ht2 k; omega⟩
  have ha2 := hnear (fun k => tau k + 1) fun k => ⟨(ht1 k).trans (Nat.le_succ _), by have := ht2 k; omega⟩
  set v : ℕ → Eps D M L := fun k d w j => if Q d w j then other d w j else (st (tau k)).eps d w j with hv
  have hvlim : Tendsto v atTop (𝓝 other) := by
    rw [tendsto_pi_nhds]; intro d
    rw [tendsto_pi_nhds]; intro w
    rw [tendsto_pi_nhds]; intro j
    simp only [hv]
    by_cases hq : Q d w j
    · simp only [if_pos hq]
      exact tendsto_const_nhds
    · simp only [if_neg hq]
      rw [(hother d w j).resolve_left hq]
      exact tendsto_pi_nhds.mp (tendsto_pi_nhds.mp (tendsto_pi_nhds.mp ha1 d) w) j
  have hcont := continuous_logObjective (D := D) (M := M) beta S y alphaMat prior data
  have hle : ∀ k, logObjective beta S y alphaMat prior data (st (tau k + 1)).eps ≤ logObjective beta S y alphaMat prior data (v k) := by
    intro k
    have hpr := trajectory_prior pinvh beta hb S hS y alphaMat ha prior first h0 eps0 ops0 hclean h s hrun data ops hops st hst hprior (tau k)
      (fun t _ => hweight t) (tau k) le_rfl
    rw [(trajectory_step pinvh beta S y alphaMat prior first h0 eps0 ops0 hclean h s hrun data ops hops st hst (tau k)).1 _ _ _ (hop k)]
    refine fitted_minimises pinvh beta hb S hS y alphaMat ha prior data _ _ (hweight _ _ _ _ (hop k)) (v k) ?_ ?_ ?_
    · intro d w j hj
      rw [hrho k] at hj
      simp only [hv]
      rw [if_neg fun hq => hj hq.1]
    · intro d w hw
      simp only [hv]
      rw [if_neg fun hq => hw (hq.2.2 _ _ _ _ (hop k) (hrho k))]
    · intro d w j hj
      simp only [hv]
      rw [if_neg fun hq => hj hq.2.1]
      exact hpr d w j hj
  exact le_of_tendsto_of_tendsto' ((hcont.tendsto theta).comp ha2) ((hcont.tendsto other).comp hvlim) hle

/-- C182: the objective never rises, and tends to its value at any point where the parameters accumulate. -/
theorem C182_objective (theta : Eps D M L) (phi : ℕ → ℕ) (hphi : StrictMono phi)
    (hlim : Tendsto (fun k => (st (phi k)).eps) atTop (𝓝 theta)) :
    let objective := fun eps => Spec.penalisedError data (fun i z => beta * (S i * ‖y i - z‖ ^ 2))
        (fun d w j z => alphaMat j (finProdFinEquiv (w, d)) * ‖z - prior‖ ^ 2) eps 0
    Antitone (fun t => objective (st t).eps) ∧ Tendsto (fun t => objective (st t).eps) atTop (𝓝 (objective theta)) := by
  intro objective
  have hanti : Antitone (fun t => objective (st t).eps) := by
    refine antitone_nat_of_succ_le fun t => ?_
    have h1 := trajectory_decrease pinvh beta hb S hS y alphaMat ha prior first h0 eps0 ops0 hclean h s hrun data ops hops st hst hprior (t + 1)
      (fun t _ => hweight t) t (Nat.lt_succ_self t)
    have h3 : 0 ≤ ∑ w, ∑ d, ∑ j, alphaMat j (finProdFinEquiv (w, d)) * ‖(st (t + 1)).eps d w j - (st t).eps d w j‖ ^ 2 :=
      Finset.sum_nonneg fun w _ => Finset.sum_nonneg fun d _ => Finset.sum_nonneg fun j _ => mul_nonneg (ha _ _).le (sq_nonneg _)
    exact le_trans (by linarith) h1
  refine ⟨hanti, ?_⟩
  have hsub := ((continuous_logObjective (D := D) (M := M) beta S y alphaMat prior data).tendsto theta).comp hlim
  exact (tendsto_iff_tendsto_subseq_of_antitone hanti hphi.tendsto_atTop).mpr hsub

end Run

/-- The weights of the example below: one configuration, two sites, one support index. -/
theorem example_weight (eps : Eps 2 1 2) (j : Fin 2) (d : Fin 2) :
    Spec.paramWeight (fun _ : Fin 1 => [fun _ => (0 : Fin 2)]) (fun _ => 1) eps j 0 d
      = if d = 0 then ‖eps 0 0 (1 - j)‖ ^ 2 else 0 := by
  have e0 : (Finset.univ : Finset (Fin 2)).erase 0 = {1} := by decide
  have e1 : (Finset.univ : Finset (Fin 2)).erase 1 = {0} := by decide
  unfold Spec.paramWeight Spec.feature
  fin_cases j <;> fin_cases d <;> simp [e0, e1]

/-- A sweep that fits at site 0 and site 1 in turn, from parameters 1 at local state 0 and 0 at local state 1, meets the hypotheses: it
accumulates at parameters that no change of one of the two parameters at local state 0 improves. -/
example (pinvh : {m : Type} → [Fintype m] → Matrix m m ℂ → Matrix m m ℂ) :
    let h : Heap 2 1 2 := ⟨fun _ => [[fun _ => 0]], fun _ _ => 0⟩
    let fit := logFit (N := 1) (D := 2) (M := 1) (L := 2) pinvh 1 (fun _ => 1) (fun _ => 5) (fun _ _ => 1) 0
    let start : Eps 2 1 2 := fun d _ _ => if d = 0 then 1 else 0
    let ops : ℕ → Op 2 1 2 := fun t => if t % 2 = 0 then .fitStep 0 (.own 0) (fit fun _ => 0) else .fitStep 0 (.own 1) (fit fun _ => 1)
    let objective := fun eps => Spec.penalisedError (D := 2) (M := 1) (L := 2) (fun _ : Fin 1 => [fun _ => 0])
      (fun _ z => 1 * (1 * ‖5 - z‖ ^ 2)) (fun _ _ _ z => 1 * ‖z - 0‖ ^ 2) eps 0
    ∃ st theta, Trajectory 0 h (Learner.init start false) ops st ∧
      (∃ phi : ℕ → ℕ, StrictMono phi ∧ Tendsto (fun k => (st (phi k)).eps) atTop (𝓝 theta)) ∧
      ∀ (site : Fin 2) (other : Eps 2 1 2), (∀ d w j, d ≠ 0 ∨ j ≠ site → other d w j = theta d w j) → objective theta ≤ objective other := by
  intro h fit start ops objective
  have hops : ∀ t, SweepOp h (fun _ : Fin 1 => [fun _ => (0 : Fin 2)]) fit (ops t) := by
    intro t
    simp only [ops]
    split_ifs
    · exact ⟨by simp [h], rfl⟩
    · exact ⟨by simp [h], rfl⟩
  obtain ⟨st, hst⟩ := C182_exists 0 h start [] trivial h _ rfl (fun _ : Fin 1 => [fun _ => (0 : Fin 2)]) fit ops hops
  have hpr : ∀ (d : Fin 2) (w : Fin 1) (j : Fin 2), ¬ ((fun (_ : Fin 2) (_ : Fin (1 * 2)) => (1 : ℝ)) j (finProdFinEquiv (w, d)) < 1e10) →
      (Learner.init start false).eps d w j = 0 := fun d w j hj => absurd (by norm_num) hj
  have big : ∀ t (j : Fin 2), (1e-10 : ℝ) < ‖(st t).eps 0 0 j‖ ^ 2 := by
    intro t
    induction t using Nat.strong_induction_on with
    | _ t ih =>
      have hsum := trajectory_sum pinvh 1 one_pos (fun _ => 1) (fun _ => zero_le_one) (fun _ => 5) (fun _ _ => 1) (fun _ _ => one_pos) 0 0 h
        start [] trivial h _ rfl (fun _ : Fin 1 => [fun _ => (0 : Fin 2)]) ops hops st hst hpr t (by
          intro t' ht' a r ft _ w d
          rw [Subsingleton.elim w 0, example_weight]
          by_cases hd : d = 0
          · right; rw [if_pos hd]; exact ih t' ht' _
          · left; rw [if_neg hd])
      have hpos : 0 ≤ ∑ t ∈ Finset.range t, ∑ w : Fin 1, ∑ d : Fin 2, ∑ j : Fin 2,
          (1 : ℝ) * ‖(st (t + 1)).eps d w j - (st t).eps d w j‖ ^ 2 :=
        Finset.sum_nonneg fun _ _ => Finset.sum_nonneg fun w _ => Finset.sum_nonneg fun d _ => Finset.sum_nonneg fun j _ =>
          mul_nonneg one_pos.le (sq_nonneg _)
      have hobj : ∀ eps : Eps 2 1 2, logObjective 1 (fun _ : Fin 1 => 1) (fun _ => 5) (fun _ _ => 1) 0 (fun _ => [fun _ => (0 : Fin 2)]) eps
          = ‖5 - eps 0 0 0 * eps 0 0 1‖ ^ 2 + (‖eps 0 0 0‖ ^ 2 + ‖eps 0 0 1‖ ^ 2 + (‖eps 1 0 0‖ ^ 2 + ‖eps 1 0 1‖ ^ 2)) := by
        intro eps
        simp [logObjective, Spec.penalisedError, Spec.qgpsLog, Fin.sum_univ_two, Fin.prod_univ_two]
      have hstart : logObjective 1 (fun _ : Fin 1 => 1) (fun _ => 5) (fun _ _ => 1) 0 (fun _ => [fun _ => (0 : Fin 2)]) start = 18 := by
        rw [hobj]
        simp only [start]
        norm_num
      have hle : logObjective 1 (fun _ : Fin 1 => 1) (fun _ => 5) (fun _ _ => 1) 0 (fun _ => [fun _ => (0 : Fin 2)]) (st t).eps ≤ 18 := by
        rw [← hstart]
        refine le_trans ?_ hsum
        linarith
      rw [hobj] at hle
      set a := (st t).eps 0 0 0
      set b := (st t).eps 0 0 1
      have hc := sq_nonneg ‖(st t).eps 1 0 0‖
      have hd := sq_nonneg ‖(st t).eps 1 0 1‖
      have htri : 5 - ‖a‖ * ‖b‖ ≤ ‖5 - a * b‖ := by
        have := norm_sub_norm_le (5 : ℂ) (a * b)
        rw [norm_mul] at this
        simpa using this
      have hna := norm_nonneg a
      have hnb := norm_nonneg b
      have key : ∀ p q : ℝ, 0 ≤ p → 0 ≤ q → q ^ 2 ≤ 1e-10 → 5 - p * q ≤ ‖5 - a * b‖ → ‖5 - a * b‖ ^ 2 + p ^ 2 ≤ 18 → False := by
        intro p q hp hq h1 h2 h3
        have hq' : q ≤ 1e-5 := by
          by_contra hcon
          push Not at hcon
          have : (1e-5 : ℝ) * 1e-5 < q * q := mul_lt_mul'' hcon hcon (by norm_num) (by norm_num)
          norm_num at this h1
          nlinarith
        have hp' : p ≤ 5 := by nlinarith [sq_nonneg ‖5 - a * b‖]
        have hpq : p * q ≤ 5 * 1e-5 := mul_le_mul hp' hq' hq (by norm_num)
        have h49 : (4.9 : ℝ) ≤ ‖5 - a * b‖ := by
          refine le_trans ?_ h2
          norm_num at hpq ⊢
          linarith
        nlinarith [sq_nonneg p]
      intro j
      fin_cases j
      · show (1e-10 : ℝ) < ‖a‖ ^ 2
        by_contra hcon
        push Not at hcon
        exact key ‖b‖ ‖a‖ hnb hna hcon (by rw [mul_comm]; exact htri) (by nlinarith [sq_nonneg ‖a‖])
      · show (1e-10 : ℝ) < ‖b‖ ^ 2
        by_contra hcon
        push Not at hcon
        exact key ‖a‖ ‖b‖ hna hnb hcon htri (by nlinarith [sq_nonneg ‖b‖])
  have hweight : ∀ t a r ft, ops t = .fitStep a r ft → ∀ (w : Fin 1) (d : Fin 2),
      Spec.paramWeight (fun _ : Fin 1 => [fun _ => (0 : Fin 2)]) (fun _ => 1) (st t).eps (h.deref r w) w d = 0 ∨
        1e-10 < Spec.paramWeight (fun _ : Fin 1 => [fun _ => (0 : Fin 2)]) (fun _ => 1) (st t).eps (h.deref r w) w d := by
    intro t a r ft _ w d
    rw [Subsingleton.elim w 0, example_weight]
    by_cases hd : d = 0
    · right; rw [if_pos hd]; exact big t _
    · left; rw [if_neg hd]
  obtain ⟨theta, phi, hphi, hlim⟩ := C182_accumulates pinvh 1 one_pos (fun _ => 1) (fun _ => zero_le_one) (fun _ => 5) (fun _ _ => 1)
    (fun _ _ => one_pos) 0 0 h start [] trivial h _ rfl (fun _ : Fin 1 => [fun _ => (0 : Fin 2)]) ops hops st hst hpr hweight
  refine ⟨st, theta, hst, ⟨phi, hphi, hlim⟩, ?_⟩
  intro site other hoth
  refine C182_stationary pinvh 1 one_pos (fun _ => 1) (fun _ => zero_le_one) (fun _ => 5) (fun _ _ => 1)
    (fun _ _ => one_pos) 0 0 h start [] trivial h _ rfl (fun _ : Fin 1 => [fun _ => (0 : Fin 2)]) ops hops st hst hpr hweight theta phi hphi hlim
    (fun _ => site) 2 ?_ other ?_
  · intro t
    have : ∃ t', t ≤ t' ∧ t' < t + 2 ∧ t' % 2 = site.val := by
      have := site.isLt
      by_cases ht : t % 2 = site.val
      · exact ⟨t, le_rfl, by omega, ht⟩
      · exact ⟨t + 1, by omega, by omega, by omega⟩
    obtain ⟨t', h1, h2, h3⟩ := this
    refine ⟨t', h1, h2, ?_⟩
    simp only [ops]
    fin_cases site
    · rw [if_pos h3]
      exact ⟨_, _, _, rfl, rfl⟩
    · rw [if_neg (by rw [h3]; decide)]
      exact ⟨_, _, _, rfl, rfl⟩
  · intro d w j
    by_cases hq : d = 0 ∧ j = site
    · left
      refine ⟨hq.2, by norm_num, ?_⟩
      intro t a r ft _ _
      rw [Subsingleton.elim w 0, example_weight, if_pos hq.1]
      exact big t _
    · right
      exact hoth d w j (by tauto)

end GPSKet.SupervisedSweep
