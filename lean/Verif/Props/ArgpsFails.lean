import Verif.Props.ArgpsUninterrupted

/-!
C98, C99 and C100 fail for the training script of ARGPS when a process is killed: the continued optimisation
differs from the uninterrupted one (the sampler is not part of the checkpoint), rows of `metrics.csv` are
repeated or its header is missing, and the configuration can be lost.
-/

namespace GPSKet.ArgpsRun

open Workdir TrainingSpec

/-- An optimisation whose variable is the sum of the samples, with the samples 0, 1, 2, .... -/
def sumFresh (_ : Config Unit) : Driver Nat Unit Unit × Nat := (⟨0, (), (), 0⟩, 0)

/-- One step of it. -/
def sumUpdate : Update Nat Unit Unit Nat Unit := fun v _ _ _ s => (v + s, (), (), s + 1, ())

/-- Two steps with a checkpoint after each. -/
def twoSteps : Config Unit := ⟨2, 1, none, some 7, ()⟩

/-- Two steps with a checkpoint only at the end. -/
def twoStepsEnd : Config Unit := ⟨2, 0, none, some 7, ()⟩

/-- A process that does `n` operations. -/
def ops {V O E S T R : Type} (fresh : Config R → Driver V O E × S) (u : Update V O E S T) (k : Disk V O E T R)
    (p : Proc V O E S T R) : Nat → Disk V O E T R × Proc V O E S T R
  | 0 => (k, p)
  | n + 1 => exec fresh u (ops fresh u k p n).1 (ops fresh u k p n).2

theorem reach_ops {V O E S T R : Type} {fresh : Config R → Driver V O E × S} {u : Update V O E S T} {c₀ : Config R}
    {m : Nat} {k : Disk V O E T R} {p : Proc V O E S T R} (h : Reach fresh u c₀ m k (some p)) (n : Nat) :
    Reach fresh u c₀ m (ops fresh u k p n).1 (some (ops fresh u k p n).2) := by
  induction n with
  | zero => exact h
  | succ n ih => exact ih.run

/-- The directory after the first checkpoint. -/
def disk1 : Disk Nat Unit Unit Unit Unit :=
  ⟨some (some twoSteps), [(1, (0, (), (), 1))], some [.header, .row 1 ()]⟩

/-- The directory at the end of the second process. -/
def disk2 : Disk Nat Unit Unit Unit Unit :=
  ⟨some (some twoSteps), [(1, (0, (), (), 1)), (2, (0, (), (), 2))], some [.header, .row 1 (), .row 2 ()]⟩

theorem reach1 : Reach sumFresh sumUpdate twoSteps 1 disk1 none := by
  have h := reach_ops (Reach.start (fresh := sumFresh) (u := sumUpdate) (c₀ := twoSteps) (some twoSteps) 0
    Reach.empty (Or.inr rfl)) 8
  exact h.kill

theorem reach2 : Reach sumFresh sumUpdate twoSteps 1 disk2 (some (.finished twoSteps ⟨0, (), (), 2⟩)) := by
  have h := reach_ops (Reach.start none 0 reach1 (Or.inl rfl)) 8
  exact h

/-- A history with a kill that comes to its end: `C97_finished`, `C97_checkpoints`, `C99_complete` and
`C99_partial` speak about it. -/
example : ∃ s, Trained sumUpdate (Start sumFresh twoSteps) (Sampler sumFresh twoSteps) 2 0 () () s :=
  (C97_finished (fun _ => rfl) reach2).1

example : ∃ k' c d, Runs sumFresh sumUpdate disk1 (.boot (some twoSteps) 3) k' (.finished c d) :=
  C97_completes (fun _ => rfl) reach1 3

/-- **C98 fails**: two steps with a kill after the first checkpoint give another result than two steps
without interruption, with the same seed: the second process draws the samples of the first one again. -/
theorem C98_fails : ¬ ∀ (fresh : Config Unit → Driver Nat Unit Unit × Nat) (u : Update Nat Unit Unit Nat Unit)
    (c₀ : Config Unit) (n : Nat) (k : Disk Nat Unit Unit Unit Unit) (c : Config Unit) (d : Driver Nat Unit Unit),
    (∀ c, (fresh c).1.count = 0) → (∃ seed, c₀.seed = some seed) → Reach fresh u c₀ n k (some (.finished c d)) →
    ∃ s, uninterrupted u (fresh c₀).1.vars (fresh c₀).1.opt (fresh c₀).1.ema (fresh c₀).2 c₀.steps
      = (d.vars, d.opt, d.ema, s) := by
  intro h
  obtain ⟨s, hs⟩ := h sumFresh sumUpdate twoSteps 1 _ _ _ (fun _ => rfl) ⟨7, rfl⟩ reach2
  have := congrArg Prod.fst hs
  simp [uninterrupted, sumUpdate, sumFresh, twoSteps] at this

/-- The hypotheses of `C98_partial` are met by an optimisation that does not look at the samples. -/
example : ∃ s, uninterrupted (fun v _ _ n _ => (v + n, (), (), 0, ()) : Update Nat Unit Unit Nat Unit)
    0 () () 0 2 = (1, (), (), s) := ⟨0, rfl⟩

theorem reach_plain : Reach sumFresh sumUpdate twoSteps 0 ⟨some (some twoSteps),
    [(1, (0, (), (), 1)), (2, (1, (), (), 2))], some [.header, .row 1 (), .row 2 ()]⟩
    (some (.finished twoSteps ⟨1, (), (), 2⟩)) :=
  reach_ops (Reach.start (fresh := sumFresh) (u := sumUpdate) (c₀ := twoSteps) (some twoSteps) 0
    Reach.empty (Or.inr rfl)) 12

/-- `C98_not_killed` and `C99_not_killed` speak about this history. -/
example : ∃ v o e s₀ s, Start sumFresh twoSteps v o e s₀ ∧ uninterrupted sumUpdate v o e s₀ 2 = (1, (), (), s) :=
  C98_not_killed (fun _ => rfl) reach_plain

/-- The directory when the first process is killed after its first row, without a checkpoint. -/
def diskRow : Disk Nat Unit Unit Unit Unit := ⟨some (some twoStepsEnd), [], some [.header, .row 1 ()]⟩

theorem reachRow : Reach sumFresh sumUpdate twoStepsEnd 1 diskRow none :=
  (reach_ops (Reach.start (fresh := sumFresh) (u := sumUpdate) (c₀ := twoStepsEnd) (some twoStepsEnd) 0
    Reach.empty (Or.inr rfl)) 7).kill

theorem reachTwice : Reach sumFresh sumUpdate twoStepsEnd 1 ⟨some (some twoStepsEnd), [(2, (1, (), (), 2))],
    some [.header, .row 1 (), .row 1 (), .row 2 ()]⟩ (some (.finished twoStepsEnd ⟨1, (), (), 2⟩)) :=
  reach_ops (Reach.start none 0 reachRow (Or.inl rfl)) 11

/-- The directory when the first process is killed between the creation of `metrics.csv` and its header. -/
def diskOpen : Disk Nat Unit Unit Unit Unit := ⟨some (some twoStepsEnd), [], some []⟩

theorem reachOpen : Reach sumFresh sumUpdate twoStepsEnd 1 diskOpen none :=
  (reach_ops (Reach.start (fresh := sumFresh) (u := sumUpdate) (c₀ := twoStepsEnd) (some twoStepsEnd) 0
    Reach.empty (Or.inr rfl)) 4).kill

theorem reachHeadless : Reach sumFresh sumUpdate twoStepsEnd 1 ⟨some (some twoStepsEnd), [(2, (1, (), (), 2))],
    some [.row 1 (), .row 2 ()]⟩ (some (.finished twoStepsEnd ⟨1, (), (), 2⟩)) :=
  reach_ops (Reach.start none 0 reachOpen (Or.inl rfl)) 11

/-- **C99 fails** for the rows: a process killed after a row and before the next checkpoint leaves a row
that the next process writes again. -/
theorem C99_rows_fails : ¬ ∀ (fresh : Config Unit → Driver Nat Unit Unit × Nat) (u : Update Nat Unit Unit Nat Unit)
    (c₀ : Config Unit) (n : Nat) (k : Disk Nat Unit Unit Unit Unit) (c : Config Unit) (d : Driver Nat Unit Unit),
    (∀ c, (fresh c).1.count = 0) → Reach fresh u c₀ n k (some (.finished c d)) →
    ∃ rs : List (Nat × Unit), (k.metrics = some (rs.map (fun r => .row r.1 r.2)) ∨
      k.metrics = some (.header :: rs.map (fun r => .row r.1 r.2))) ∧ rs.map Prod.fst = List.range' 1 c₀.steps := by
  intro h
  obtain ⟨rs, hrs, hr⟩ := h _ _ _ _ _ _ _ (fun _ => rfl) reachTwice
  have hlen : rs.length = 2 := by
    have := congrArg List.length hr
    simpa [twoStepsEnd] using this
  rcases hrs with hrs | hrs
  · have := congrArg List.length (Option.some.inj hrs)
    simp [hlen] at this
  · have := congrArg List.length (Option.some.inj hrs)
    simp [hlen] at this

/-- **C99 fails** for the header: a process killed after the creation of `metrics.csv` and before its header
leaves an empty file, to which the next processes append their rows. -/
theorem C99_header_fails : ¬ ∀ (fresh : Config Unit → Driver Nat Unit Unit × Nat) (u : Update Nat Unit Unit Nat Unit)
    (c₀ : Config Unit) (n : Nat) (k : Disk Nat Unit Unit Unit Unit) (c : Config Unit) (d : Driver Nat Unit Unit),
    (∀ c, (fresh c).1.count = 0) → Reach fresh u c₀ n k (some (.finished c d)) →
    ∃ ls, k.metrics = some (.header :: ls) := by
  intro h
  obtain ⟨ls, hls⟩ := h _ _ _ _ _ _ _ (fun _ => rfl) reachHeadless
  simp at hls

/-- **C100 fails**: a process killed while `config.yaml` is being written leaves it empty, and the next
process, started without a configuration, ends with an exception. -/
theorem C100_fails : ¬ ∀ (fresh : Config Unit → Driver Nat Unit Unit × Nat) (u : Update Nat Unit Unit Nat Unit)
    (c₀ : Config Unit) (n : Nat) (k : Disk Nat Unit Unit Unit Unit) (drawn : Nat),
    (∀ c, (fresh c).1.count = 0) → Reach fresh u c₀ n k none → k.config ≠ none →
    (exec fresh u k (.boot none drawn)).2 ≠ .raised := by
  intro h
  have hr : Reach sumFresh sumUpdate twoSteps 2 { disk1 with config := some none } none :=
    (reach_ops (Reach.start none 0 reach1 (Or.inl rfl)) 1).kill
  exact h _ _ _ _ _ 0 (fun _ => rfl) hr (by simp) rfl

end GPSKet.ArgpsRun
