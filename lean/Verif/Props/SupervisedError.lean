import Verif.Model.SupervisedError
import Verif.Props.SupervisedCache
import Mathlib.Analysis.Real.Pi.Bounds

/-!
# C189: the errors that the supervised learners report
-/

namespace GPSKet.SupervisedError

open GPSKet.Supervised

variable {D M L R : ℕ}

/-- A datum: the symmetry images of a configuration, a target and a weighting. -/
abbrev Datum (D L : ℕ) := List (Fin L → Fin D) × ℂ × ℝ

/-- The process has got to its state by calls that overwrite no array a learner holds, and it passes these data (if no weightings are
passed, they are one). -/
structure Holds (first : Fin L) (p : Proc D M L) (data : List (Datum D L)) : Prop where
  reached : ∃ h eps b ops, Clean first (h, Learner.init eps b) ops ∧ run first (h, Learner.init eps b) ops = some (p.heap, p.learner)
  nonempty : data ≠ []
  confs : p.heap.confs p.addr = data.map fun e => e.1
  targets : p.targets = data.map fun e => e.2.1
  weightings : p.weightings = some (data.map fun e => e.2.2) ∨ (p.weightings = none ∧ ∀ e ∈ data, e.2.2 = 1)

/-- The predicted amplitude (or log-amplitude) of a datum: the exponential of the sum over symmetry images and support of the product over
all sites (or this sum itself). -/
noncomputable def value (kind : Kind) (s : Learner D M L) (row : List (Fin L → Fin D)) : ℂ :=
  match kind with
  | .exp => Complex.exp ((row.map fun x => ∑ w, ∏ j, s.eps (x j) w j).sum + if s.includeBias then s.bias else 0)
  | .logSpace => (row.map fun x => ∑ w, ∏ j, s.eps (x j) w j).sum + if s.includeBias then s.bias else 0

theorem value_congr (kind : Kind) {s s' : Learner D M L} (h : s.eps = s'.eps ∧ s.includeBias = s'.includeBias ∧ s.bias = s'.bias)
    (row : List (Fin L → Fin D)) : value kind s row = value kind s' row := by
  unfold value
  rw [h.1, h.2.1, h.2.2]

theorem value_ne_zero (s : Learner D M L) (row : List (Fin L → Fin D)) : value .exp s row ≠ 0 := Complex.exp_ne_zero _

/-- The same parameters, and predictions for all data sets are what they were. -/
def SameModel (first : Fin L) (h : Heap D M L) (s s' : Learner D M L) : Prop :=
  s'.eps = s.eps ∧ s'.bias = s.bias ∧ s'.includeBias = s.includeBias ∧
    ∀ addr, (s'.predictLog h first addr).map Prod.snd = (s.predictLog h first addr).map Prod.snd

theorem Holds.cacheValid {first : Fin L} {p : Proc D M L} {data : List (Datum D L)} (hp : Holds first p data) : CacheValid p.heap p.learner := by
  obtain ⟨h, eps, b, ops, hc, hrun⟩ := hp.reached
  obtain ⟨⟨h', s⟩, h1, h2, h3, h4, h5, h6⟩ := run_agree first ops (h, Learner.init eps b) (h, ⟨eps, b, 0⟩)
    ⟨rfl, rfl, rfl, rfl, fun sp hsp => by cases hsp⟩ hc
  rw [hrun] at h1
  cases h1
  exact h6

theorem Holds.predict {first : Fin L} {p : Proc D M L} {data : List (Datum D L)} (hp : Holds first p data) (kind : Kind) :
    ∃ s', predict kind p.heap p.learner first p.addr = some (s', data.map fun e => value kind p.learner e.1) ∧
      SameModel first p.heap p.learner s' := by
  obtain ⟨s', e1, e2, e3, e4, e5⟩ := predictLog_spec p.heap p.learner hp.cacheValid first p.addr
  have hne : p.heap.confs p.addr ≠ [] := by rw [hp.confs]; simpa using hp.nonempty
  refine ⟨s', ?_, e3, e4, e5, fun addr => ?_⟩
  · unfold SupervisedError.predict
    rw [if_neg hne]
    cases kind with
    | exp =>
      unfold Learner.predictExp
      rw [e1, hp.confs]
      simp [value, Spec.qgpsLog, Function.comp_def]
    | logSpace =>
      rw [e1, hp.confs]
      simp [value, Spec.qgpsLog, Function.comp_def]
  · obtain ⟨t, f1, -⟩ := predictLog_spec p.heap p.learner hp.cacheValid first addr
    obtain ⟨t', f2, -⟩ := predictLog_spec p.heap s' e2 first addr
    rw [f1, f2, e3, e4, e5]
    rfl

theorem weigh_sum {data : List (Datum D L)} {w : Option (List ℝ)} (hw : w = some (data.map fun e => e.2.2) ∨ (w = none ∧ ∀ e ∈ data, e.2.2 = 1))
    (f : Datum D L → ℝ) : (weigh (data.map f) w).sum = (data.map fun e => e.2.2 * f e).sum := by
  rcases hw with rfl | ⟨rfl, h⟩
  · simp [weigh, List.zipWith_map, mul_comm]
  · unfold weigh
    refine congrArg List.sum (List.map_congr_left fun e he => ?_)
    rw [h e he, one_mul]

theorem allreduce_eq {f : Fin R → Option (Learner D M L × ℝ)} {s : Fin R → Learner D M L} {v : Fin R → ℝ} (h : ∀ r, f r = some (s r, v r)) :
    allreduce f = some (s, ∑ r, v r) := by
  unfold allreduce
  rw [dif_pos fun r => by rw [h]; rfl]
  simp only [h, Option.get_some]

/-- **C189**, amplitudes: `squared_error` returns the weighted sum over the data of all processes of the squared distances between prediction
and target, and changes neither parameters nor later predictions. -/
theorem C189_squared_error (kind : Kind) (first : Fin L) (procs : Fin R → Proc D M L) (data : Fin R → List (Datum D L))
    (hp : ∀ r, Holds first (procs r) (data r)) :
    ∃ s', allreduce (fun r => (procs r).squaredError kind first) =
        some (s', ∑ r, ((data r).map fun e => e.2.2 * ‖value kind (procs r).learner e.1 - e.2.1‖ ^ 2).sum) ∧
      ∀ r, SameModel first (procs r).heap (procs r).learner (s' r) := by
  choose s' h1 h2 using fun r => (hp r).predict kind
  have hr : ∀ r, (procs r).squaredError kind first =
      some (s' r, ((data r).map fun e => e.2.2 * ‖value kind (procs r).learner e.1 - e.2.1‖ ^ 2).sum) := by
    intro r
    unfold Proc.squaredError
    rw [h1, (hp r).targets, Option.map_some, List.zipWith_map, List.zipWith_self, weigh_sum (hp r).weightings]
  exact ⟨s', allreduce_eq hr, h2⟩

/-- A process without data fails in `predict`, and then no process gets a result. -/
theorem C189_empty_fails (kind : Kind) (first : Fin L) (procs : Fin R → Proc D M L) (r : Fin R)
    (h : (procs r).heap.confs (procs r).addr = []) : allreduce (fun r => (procs r).squaredError kind first) = none := by
  unfold allreduce
  rw [dif_neg]
  intro hall
  have := hall r
  beta_reduce at this
  unfold Proc.squaredError predict at this
  rw [if_pos h] at this
  simp at this

theorem flat_sum {A : Type} (data : Fin R → List A) (f : A → ℝ) :
    ∑ r, ((data r).map f).sum = (((List.finRange R).flatMap data).map f).sum := by
  rw [List.map_flatMap, List.flatMap_def, List.sum_flatten, List.map_map, ← List.sum_ofFn, List.ofFn_eq_map]
  rfl

/-- **C189**: the result does not depend on how the data are distributed over processes, nor on their order. -/
theorem C189_distribution {R' : ℕ} (kind : Kind) (first : Fin L) (procs : Fin R → Proc D M L) (data : Fin R → List (Datum D L))
    (hp : ∀ r, Holds first (procs r) (data r)) (procs' : Fin R' → Proc D M L) (data' : Fin R' → List (Datum D L))
    (hp' : ∀ r, Holds first (procs' r) (data' r))
    (eps : Fin D → Fin M → Fin L → ℂ) (b : Bool) (bias : ℂ)
    (he : ∀ r, (procs r).learner.eps = eps ∧ (procs r).learner.includeBias = b ∧ (procs r).learner.bias = bias)
    (he' : ∀ r, (procs' r).learner.eps = eps ∧ (procs' r).learner.includeBias = b ∧ (procs' r).learner.bias = bias)
    (hperm : ((List.finRange R).flatMap data).Perm ((List.finRange R').flatMap data')) :
    (allreduce fun r => (procs r).squaredError kind first).map Prod.snd =
      (allreduce fun r => (procs' r).squaredError kind first).map Prod.snd := by
  obtain ⟨s, h1, -⟩ := C189_squared_error kind first procs data hp
  obtain ⟨s', h1', -⟩ := C189_squared_error kind first procs' data' hp'
  let ref : Learner D M L := { Learner.init eps b with bias := bias }
  have hv : ∀ r row, value kind (procs r).learner row = value kind ref row := by
    exact fun r row => value_congr kind (he r) row
  have hv' : ∀ r row, value kind (procs' r).learner row = value kind ref row := by
    exact fun r row => value_congr kind (he' r) row
  rw [h1, h1']
  simp only [hv, hv', Option.map_some]
  rw [flat_sum, flat_sum]
  exact congrArg some ((hperm.map _).sum_eq)

theorem weighted_zero (data : Fin R → List (Datum D L)) (f : (r : Fin R) → Datum D L → ℝ) (hw : ∀ r, ∀ e ∈ data r, 0 ≤ e.2.2)
    (hf : ∀ r e, 0 ≤ f r e) : ∑ r, ((data r).map fun e => e.2.2 * f r e).sum = 0 ↔ ∀ r, ∀ e ∈ data r, 0 < e.2.2 → f r e = 0 := by
  have hnn : ∀ r, ∀ y ∈ (data r).map (fun e => e.2.2 * f r e), 0 ≤ y := by
    intro r y hy
    obtain ⟨e, he, rfl⟩ := List.mem_map.mp hy
    exact mul_nonneg (hw r e he) (hf r e)
  rw [Finset.sum_eq_zero_iff_of_nonneg fun r _ => List.sum_nonneg (hnn r)]
  refine ⟨fun h r e he hpos => ?_, fun h r _ => ?_⟩
  · have := List.all_zero_of_le_zero_le_of_sum_eq_zero (hnn r) (h r (Finset.mem_univ r)) (List.mem_map.mpr ⟨e, he, rfl⟩)
    exact (mul_eq_zero.mp this).resolve_left hpos.ne'
  · refine List.sum_eq_zero fun y hy => ?_
    obtain ⟨e, he, rfl⟩ := List.mem_map.mp hy
    rcases (hw r e he).lt_or_eq with hpos | h0
    · rw [h r e he hpos, mul_zero]
    · rw [← h0, zero_mul]

/-- **C189**: for weightings that are not negative, the error is zero exactly if all data of positive weighting are reproduced. -/
theorem C189_zero (kind : Kind) (first : Fin L) (procs : Fin R → Proc D M L) (data : Fin R → List (Datum D L))
    (hp : ∀ r, Holds first (procs r) (data r)) (hw : ∀ r, ∀ e ∈ data r, 0 ≤ e.2.2) :
    (allreduce fun r => (procs r).squaredError kind first).map Prod.snd = some 0 ↔
      ∀ r, ∀ e ∈ data r, 0 < e.2.2 → value kind (procs r).learner e.1 = e.2.1 := by
  obtain ⟨s, h1, -⟩ := C189_squared_error kind first procs data hp
  rw [h1, Option.map_some, Option.some.injEq,
    weighted_zero data (fun r e => ‖value kind (procs r).learner e.1 - e.2.1‖ ^ 2) hw fun r e => sq_nonneg _]
  refine forall_congr' fun r => forall_congr' fun e => forall_congr' fun _ => forall_congr' fun _ => ?_
  rw [pow_eq_zero_iff two_ne_zero, norm_eq_zero, sub_eq_zero]

/-! ## Log-amplitudes -/

theorem npLog_map {A : Type} (l : List A) (f : A → ℂ) (h : ∀ e ∈ l, f e ≠ 0) : npLog (l.map f) = some (l.map fun e => Complex.log (f e)) := by
  unfold npLog
  rw [if_neg]
  · rw [List.map_map]; rfl
  · intro h0
    obtain ⟨e, he, h1⟩ := List.mem_map.mp h0
    exact h e he h1

/-- `squared_error_log_space` of a model of amplitudes, for targets that are not zero, in terms of principal logarithms. -/
theorem log_value (first : Fin L) (procs : Fin R → Proc D M L) (data : Fin R → List (Datum D L)) (hp : ∀ r, Holds first (procs r) (data r))
    (ht : ∀ r, ∀ e ∈ data r, e.2.1 ≠ 0) :
    ∃ s', allreduce (fun r => (procs r).squaredErrorLog .exp first) =
        some (s', ∑ r, ((data r).map fun e => e.2.2 * ‖Complex.log (value .exp (procs r).learner e.1) - Complex.log e.2.1‖ ^ 2).sum) ∧
      ∀ r, SameModel first (procs r).heap (procs r).learner (s' r) := by
  choose s' h1 h2 using fun r => (hp r).predict .exp
  have hr : ∀ r, (procs r).squaredErrorLog .exp first =
      some (s' r, ((data r).map fun e => e.2.2 * ‖Complex.log (value .exp (procs r).learner e.1) - Complex.log e.2.1‖ ^ 2).sum) := by
    intro r
    unfold Proc.squaredErrorLog
    rw [h1, (hp r).targets]
    simp only [Option.bind_eq_bind, Option.bind_some]
    rw [npLog_map (data r) (fun e => value .exp (procs r).learner e.1) fun e _ => value_ne_zero _ _, npLog_map _ _ (ht r)]
    simp only [Option.bind_some]
    rw [List.zipWith_map, List.zipWith_self, weigh_sum (hp r).weightings]
    rfl
  exact ⟨s', allreduce_eq hr, h2⟩

/-- **C189**, log-amplitudes: for targets that are not zero and weightings that are not negative, the error is zero exactly if all data of
positive weighting are reproduced. -/
theorem C189_log_zero (first : Fin L) (procs : Fin R → Proc D M L) (data : Fin R → List (Datum D L)) (hp : ∀ r, Holds first (procs r) (data r))
    (ht : ∀ r, ∀ e ∈ data r, e.2.1 ≠ 0) (hw : ∀ r, ∀ e ∈ data r, 0 ≤ e.2.2) :
    (allreduce fun r => (procs r).squaredErrorLog .exp first).map Prod.snd = some 0 ↔
      ∀ r, ∀ e ∈ data r, 0 < e.2.2 → value .exp (procs r).learner e.1 = e.2.1 := by
  obtain ⟨s, h1, -⟩ := log_value first procs data hp ht
  rw [h1, Option.map_some, Option.some.injEq, weighted_zero data
    (fun r e => ‖Complex.log (value .exp (procs r).learner e.1) - Complex.log e.2.1‖ ^ 2) hw fun r e => sq_nonneg _]
  refine forall_congr' fun r => forall_congr' fun e => forall_congr' fun he => forall_congr' fun _ => ?_
  rw [pow_eq_zero_iff two_ne_zero, norm_eq_zero, sub_eq_zero]
  refine ⟨fun h => ?_, fun h => by rw [h]⟩
  have := congrArg Complex.exp h
  rwa [Complex.exp_log (value_ne_zero _ _), Complex.exp_log (ht r e he)] at this

theorem log_sq (a t : ℂ) (ha : a ≠ 0) (ht : t ≠ 0) (h : |Complex.arg a - Complex.arg t| < Real.pi) :
    ‖Complex.log a - Complex.log t‖ = ‖Complex.log (a / t)‖ := by
  have he : Complex.exp (Complex.log a - Complex.log t) = a / t := by
    rw [Complex.exp_sub, Complex.exp_log ha, Complex.exp_log ht]
  rw [abs_lt] at h
  rw [← he, Complex.log_exp]
  · rw [Complex.sub_im, Complex.log_im, Complex.log_im]; exact h.1
  · rw [Complex.sub_im, Complex.log_im, Complex.log_im]; exact h.2.le

/-- **C189**, log-amplitudes, for phases of prediction and target that differ by less than π as numbers in (-π, π]: the error is the weighted
sum of the squared logarithms of the ratios.  Missing: other phases, see `C189_log_fails`. -/
theorem C189_log_partial (first : Fin L) (procs : Fin R → Proc D M L) (data : Fin R → List (Datum D L)) (hp : ∀ r, Holds first (procs r) (data r))
    (ht : ∀ r, ∀ e ∈ data r, e.2.1 ≠ 0)
    (ha : ∀ r, ∀ e ∈ data r, |Complex.arg (value .exp (procs r).learner e.1) - Complex.arg e.2.1| < Real.pi) :
    ∃ s', allreduce (fun r => (procs r).squaredErrorLog .exp first) =
        some (s', ∑ r, ((data r).map fun e => e.2.2 * ‖Complex.log (value .exp (procs r).learner e.1 / e.2.1)‖ ^ 2).sum) ∧
      ∀ r, SameModel first (procs r).heap (procs r).learner (s' r) := by
  obtain ⟨s', h1, h2⟩ := log_value first procs data hp ht
  refine ⟨s', ?_, h2⟩
  rw [h1]
  congr 2
  refine Finset.sum_congr rfl fun r _ => congrArg List.sum (List.map_congr_left fun e he => ?_)
  rw [log_sq _ _ (value_ne_zero _ _) (ht r e he) (ha r e he)]

/-! ## Phases next to the branch cut -/

/-- One site with one local state and one parameter. -/
noncomputable def exProc (p t : ℂ) (w : Option (List ℝ)) : Proc 1 1 1 :=
  ⟨⟨fun _ => [[fun _ => 0]], fun _ _ => 0⟩, Learner.init (fun _ _ _ => p) false, 0, [t], w⟩

theorem exProc_holds (p t : ℂ) : Holds 0 (exProc p t none) [([fun _ => 0], t, 1)] where
  reached := ⟨_, _, _, [], trivial, rfl⟩
  nonempty := by simp
  confs := rfl
  targets := rfl
  weightings := .inr ⟨rfl, by simp⟩

theorem exProc_value (kind : Kind) (p t : ℂ) : value kind (exProc p t none).learner [fun _ => 0] =
    match kind with | .exp => Complex.exp p | .logSpace => p := by
  cases kind <;> simp [value, exProc, Learner.init]

/-- **C189 fails** next to the branch cut of the logarithm: predictions as close as one likes to the target, relatively, have an error of more
than 9. -/
theorem C189_log_fails (ε : ℝ) (hε : 0 < ε) : ∃ p t : ℂ, t ≠ 0 ∧ ‖value .exp (exProc p t none).learner [fun _ => 0] / t - 1‖ < ε ∧
    ∃ err, (allreduce fun _ : Fin 1 => (exProc p t none).squaredErrorLog .exp 0).map Prod.snd = some err ∧ 9 < err := by
  have hcont : Filter.Tendsto (fun δ : ℝ => ‖Complex.exp ((-Real.pi + δ : ℝ) * Complex.I) / (-1) - 1‖) (nhds 0) (nhds 0) := by
    have : Continuous fun δ : ℝ => ‖Complex.exp ((-Real.pi + δ : ℝ) * Complex.I) / (-1) - 1‖ := by fun_prop
    have h := this.tendsto 0
    have h0 : Complex.exp (((-Real.pi + 0 : ℝ) : ℂ) * Complex.I) = -1 := by
      rw [add_zero, Complex.ofReal_neg, neg_mul, Complex.exp_neg, Complex.exp_pi_mul_I]; norm_num
    simpa [h0] using h
  obtain ⟨δ, ⟨hδ, hpos⟩, hlt⟩ : ∃ δ : ℝ, (‖Complex.exp ((-Real.pi + δ : ℝ) * Complex.I) / (-1) - 1‖ < ε ∧ 0 < δ) ∧ δ < 1 := by
    obtain ⟨s, hs, hball⟩ := Metric.eventually_nhds_iff.mp (hcont.eventually (gt_mem_nhds hε))
    refine ⟨min (s / 2) (1 / 2), ⟨hball ?_, lt_min (by linarith) (by norm_num)⟩, lt_of_le_of_lt (min_le_right _ _) (by norm_num)⟩
    rw [Real.dist_eq, sub_zero, abs_of_pos (lt_min (by linarith) (by norm_num))]
    exact lt_of_le_of_lt (min_le_left _ _) (by linarith)
  set p : ℂ := ((-Real.pi + δ : ℝ) : ℂ) * Complex.I with hp
  obtain ⟨s', h1, -⟩ := log_value 0 (fun _ : Fin 1 => exProc p (-1) none) (fun _ => [([fun _ => 0], -1, 1)])
    (fun _ => exProc_holds p (-1)) (by simp)
  refine ⟨p, -1, by norm_num, ?_, _, by rw [h1]; rfl, ?_⟩
  · rw [exProc_value]
    exact hδ
  · have him : p.im = -Real.pi + δ := by simp [hp]
    have hlog : Complex.log (Complex.exp p) = p := Complex.log_exp (by rw [him]; linarith) (by rw [him]; linarith [Real.pi_gt_three])
    have hm1 : Complex.log (-1) = (Real.pi : ℂ) * Complex.I := Complex.log_neg_one
    have hd : p - (Real.pi : ℂ) * Complex.I = ((-2 * Real.pi + δ : ℝ) : ℂ) * Complex.I := by
      rw [hp]; push_cast; ring
    simp only [List.map_cons, List.map_nil, exProc_value, hlog, hm1, hd]
    rw [norm_mul, Complex.norm_I, mul_one, Complex.norm_real, Real.norm_eq_abs, sq_abs]
    simp
    nlinarith [Real.pi_gt_three]

/-- **C189 fails** for `QGPSLogSpaceFit`, whose predictions are log-amplitudes already: `squared_error_log_space` takes their logarithms.  For a
prediction 1 and the target 4 (log-amplitudes) it does not return 9, and neither for the target `exp 4` (amplitude). -/
theorem C189_logSpace_fails (t : ℂ) (ht : t = 4 ∨ t = Complex.exp 4) :
    (allreduce fun _ : Fin 1 => (exProc 1 t none).squaredErrorLog .logSpace 0).map Prod.snd ≠ some (‖(1 : ℂ) - 4‖ ^ 2) := by
  obtain ⟨s', h1, -⟩ := (exProc_holds 1 t).predict .logSpace
  have ht0 : t ≠ 0 := by
    rcases ht with rfl | rfl
    · norm_num
    · exact Complex.exp_ne_zero _
  have hr : (exProc 1 t none).squaredErrorLog .logSpace 0 = some (s', ‖Complex.log t‖ ^ 2) := by
    unfold Proc.squaredErrorLog
    rw [h1, (exProc_holds 1 t).targets]
    simp only [Option.bind_eq_bind, Option.bind_some]
    rw [npLog_map _ _ (by intro e he; rw [List.mem_singleton.mp he, exProc_value]; norm_num), npLog_map _ _ (by simpa using ht0)]
    simp only [Option.bind_some, List.map_cons, List.map_nil, exProc_value]
    simp [weigh, exProc]
  rw [allreduce_eq fun _ => hr]
  intro h
  simp at h
  rcases ht with rfl | rfl
  · have h4 : ‖Complex.log 4‖ < 3 := by
      have : Complex.log 4 = ((Real.log 4 : ℝ) : ℂ) := by
        rw [Complex.ofReal_log (by norm_num)]; norm_num
      rw [this, Complex.norm_real, Real.norm_eq_abs, abs_of_pos (Real.log_pos (by norm_num))]
      have := Real.log_lt_sub_one_of_pos (by norm_num : (0 : ℝ) < 4) (by norm_num)
      linarith
    have h5 : ‖(1 : ℂ) - 4‖ = 3 := by norm_num
    rw [h5] at h
    nlinarith [norm_nonneg (Complex.log 4)]
  · have : Complex.log (Complex.exp 4) = 4 := Complex.log_exp (by simp [Real.pi_pos]) (by simp [Real.pi_pos.le])
    rw [this] at h
    norm_num at h

/-- The hypotheses are met: two processes with one datum each, predictions `exp 0` and targets 1 and 2 with no weightings. -/
example : ∃ s', allreduce (fun r : Fin 2 => (exProc 0 (if r = 0 then 1 else 2) none).squaredError .exp 0) = some (s', 1) := by
  obtain ⟨s', h, -⟩ := C189_squared_error .exp 0 (fun r : Fin 2 => exProc 0 (if r = 0 then 1 else 2) none)
    (fun r => [([fun _ => 0], if r = 0 then 1 else 2, 1)]) fun r => exProc_holds _ _
  refine ⟨s', h.trans (congrArg (fun v : ℝ => some (s', v)) ?_)⟩
  simp only [exProc_value, List.map_cons, List.map_nil, Fin.sum_univ_two]
  norm_num

end GPSKet.SupervisedError
