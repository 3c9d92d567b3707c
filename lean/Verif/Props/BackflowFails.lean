import Verif.Props.BackflowUninterrupted
import Verif.Props.BackflowBest
import Verif.Props.BackflowLineage
import Mathlib.Order.Nat

/-!
C101, C102 and C103 fail for the training script for backflow states: steps are missing, the best parameters
are not those whose energy was recorded and can be lost, and the running average is lost in a restart.
-/

namespace GPSKet.BackflowRun

open Workdir TrainingSpec
open ArgpsRun (IsConfig Start Sampler)

variable {V O E S T R X : Type}

/-- A process that does `n` operations: the statistics compared, the directory and the process. -/
def ops [LinearOrder X] (P : Setup V O E S T R X) (k : Disk V O T R X) (p : Proc V O E S T R X) :
    Nat → List T × Disk V O T R X × Proc V O E S T R X
  | 0 => ([], k, p)
  | n + 1 =>
    let r := ops P k p n
    (r.1 ++ compares r.2.2, exec P r.2.1 r.2.2)

theorem reach_ops [LinearOrder X] {P : Setup V O E S T R X} {c₀ : Config R} {m : Nat} {seen : List T}
    {k : Disk V O T R X} {p : Proc V O E S T R X} (h : Reach P c₀ m seen k (some p)) (n : Nat) :
    Reach P c₀ m (seen ++ (ops P k p n).1) (ops P k p n).2.1 (some (ops P k p n).2.2) := by
  induction n with
  | zero => simpa [ops] using h
  | succ n ih =>
    have := ih.run
    rw [List.append_assoc] at this
    exact this

/-- An optimisation whose variable counts down from 10 (never below zero), whose running average counts up,
and whose energy is the variable. -/
def toy : Setup Nat Unit Nat Unit (Nat × Nat) Unit Nat where
  fresh _ := (⟨10, (), 0, 0⟩, ())
  train v _ e _ _ := (v - 1 - e, (), e + 1, (), (v, v))
  finish v _ e _ _ := (v - 1, (), e, (), (v, v))
  newOpt _ := ()
  energy t := t.1
  variance t := t.2

/-- A configuration with `n` steps, a checkpoint after each, and `m` steps of descent finishing. -/
def steps (n : Nat) (m : Option Nat) : Config Unit := ⟨n, 1, m, some 7, ()⟩

theorem toy_start (c : Config Unit) : Reach toy c 0 [] ⟨none, [], none, none⟩ (some (.boot (some c) 0)) :=
  Reach.start (some c) 0 Reach.empty (Or.inr rfl)

/-- One training step asked for: none is done. -/
theorem reach_none : Reach toy (steps 1 none) 0 [] ⟨some (some (steps 1 none)), [], some [.header], none⟩
    (some (.finished (steps 1 none) ⟨10, (), 0, 0⟩)) :=
  reach_ops (toy_start (steps 1 none)) 7

/-- The directory when the first process is killed after its first checkpoint. -/
def killed (c : Config Unit) : Disk Nat Unit (Nat × Nat) Unit Nat :=
  ⟨some (some c), [(1, (9, (), 1))], some [.header, .row 1 (10, 10)], some (some (10, 10, 9))⟩

theorem reach_killed (n : Nat) (m : Option Nat) :
    Reach toy (steps (n + 2) m) 1 [(10, 10)] (killed (steps (n + 2) m)) none := by
  have h := reach_ops (toy_start (steps (n + 2) m)) 11
  have e : ops toy ⟨none, [], none, none⟩ (.boot (some (steps (n + 2) m)) 0) 11 = ([(10, 10)],
      killed (steps (n + 2) m), .loop ⟨steps (n + 2) m, 1, false, some (10, 10)⟩ 1 2 ⟨9, (), 1, 1⟩ ()) := by
    simp [ops, exec, steps, killed, toy, readConfig, resolve, restore, latest, advance, better, saveCheckpoint,
      serialize, compares]
  rw [e] at h
  exact h.kill

/-- Two training steps with a kill after the first: the second process does none. -/
theorem reach_last : Reach toy (steps 2 none) 1 [(10, 10)] (killed (steps 2 none))
    (some (.finished (steps 2 none) ⟨9, (), 0, 1⟩)) :=
  reach_ops (Reach.start none 0 (reach_killed 0 none) (Or.inl rfl)) 6

/-- **C101 fails**: with `total_steps = 1`, or when the script is started again with one training step left,
that step is not done.  (The first run here is never killed.) -/
theorem C101_fails : ¬ ∀ (P : Setup Nat Unit Nat Unit (Nat × Nat) Unit Nat) (c₀ : Config Unit) (n : Nat)
    (seen : List (Nat × Nat)) (k : Disk Nat Unit (Nat × Nat) Unit Nat) (c : Config Unit) (d : Driver Nat Unit Nat),
    (∀ c, (P.fresh c).1.count = 0) → Reach P c₀ n seen k (some (.finished c d)) →
    d.count = c₀.steps + c₀.finishing.getD 0 := fun h => by
  have := h _ _ _ _ _ _ _ (fun _ => rfl) reach_none
  simp [steps] at this

/-- The same with at least two steps, after a kill. -/
theorem C101_restart_fails : ¬ ∀ (P : Setup Nat Unit Nat Unit (Nat × Nat) Unit Nat) (c₀ : Config Unit) (n : Nat)
    (seen : List (Nat × Nat)) (k : Disk Nat Unit (Nat × Nat) Unit Nat) (c : Config Unit) (d : Driver Nat Unit Nat),
    (∀ c, (P.fresh c).1.count = 0) → 2 ≤ c₀.steps → Reach P c₀ n seen k (some (.finished c d)) →
    d.count = c₀.steps + c₀.finishing.getD 0 := fun h => by
  have := h _ _ _ _ _ _ _ (fun _ => rfl) (by simp [steps]) reach_last
  simp [steps] at this

/-- Two training steps and two of descent finishing, with a kill after the third step. -/
theorem reach_third : Reach toy (steps 2 (some 2)) 1 [(10, 10), (9, 9), (7, 7)]
    ⟨some (some (steps 2 (some 2))), [(1, (9, (), 1)), (2, (7, (), 2)), (3, (6, (), 3))],
      some [.header, .row 1 (10, 10), .row 2 (9, 9), .row 3 (7, 7)], some (some (7, 7, 6))⟩ none :=
  (reach_ops (toy_start (steps 2 (some 2))) 23).kill

/-- The second process does not do the fourth step either: `C101_partial` cannot be improved. -/
theorem reach_third_end : Reach toy (steps 2 (some 2)) 1 [(10, 10), (9, 9), (7, 7)]
    ⟨some (some (steps 2 (some 2))), [(1, (9, (), 1)), (2, (7, (), 2)), (3, (6, (), 3))],
      some [.header, .row 1 (10, 10), .row 2 (9, 9), .row 3 (7, 7)], some (some (7, 7, 6))⟩
    (some (.finished (steps 2 (some 2)) ⟨6, (), 0, 3⟩)) :=
  reach_ops (Reach.start none 0 reach_third (Or.inl rfl)) 6

/-- All four steps without a kill: `C101_not_killed` speaks about this history. -/
theorem reach_all : Reach toy (steps 2 (some 2)) 0 [(10, 10), (9, 9), (7, 7), (6, 6)]
    ⟨some (some (steps 2 (some 2))), [(1, (9, (), 1)), (2, (7, (), 2)), (3, (6, (), 3)), (4, (5, (), 4))],
      some [.header, .row 1 (10, 10), .row 2 (9, 9), .row 3 (7, 7), .row 4 (6, 6)], some (some (6, 6, 5))⟩
    (some (.finished (steps 2 (some 2)) ⟨5, (), 2, 4⟩)) :=
  reach_ops (toy_start (steps 2 (some 2))) 30

example : ∃ v o e s₀, Start toy.fresh (steps 2 (some 2)) v o e s₀ ∧
    (twoPhases toy.train toy.finish toy.newOpt (v, o, e, s₀) 2 2).1 = 5 :=
  (C101_not_killed (fun _ => rfl) (by simp [steps]) reach_all).2.1

/-- `C102_partial` speaks about this history. -/
example : ∀ t ∈ [(10, 10), (9, 9), (7, 7), (6, 6)], ¬ ((t : Nat × Nat).1 < 6 ∧ t.2 < 6) :=
  (C102_partial reach_all rfl).2.1

/-- **C102 fails** for the parameters: although the energy in the statistics of every step is that of the
parameters before it, the file does not hold parameters with the energy recorded beside them: it holds those
after the step. -/
theorem C102_parameters_fails : ¬ ∀ (P : Setup Nat Unit Nat Unit (Nat × Nat) Unit Nat) (energyOf : Nat → Nat)
    (c₀ : Config Unit) (n : Nat) (seen : List (Nat × Nat)) (k : Disk Nat Unit (Nat × Nat) Unit Nat) (c : Config Unit)
    (d : Driver Nat Unit Nat) (e v q : Nat),
    (∀ c, (P.fresh c).1.count = 0) →
    (∀ v o e m s, P.energy (P.train v o e m s).2.2.2.2 = energyOf v ∧ P.energy (P.finish v o e m s).2.2.2.2 = energyOf v) →
    Reach P c₀ n seen k (some (.finished c d)) → k.best = some (some (e, v, q)) → energyOf q = e := fun h => by
  have := h toy id _ _ _ _ _ _ 6 6 5 (fun _ => rfl) (fun _ _ _ _ _ => ⟨rfl, rfl⟩) reach_all rfl
  simp at this

/-- An optimisation in which the energy falls and the variance rises. -/
def tradeOff : Setup Nat Unit Nat Unit (Nat × Nat) Unit Nat where
  fresh _ := (⟨10, (), 0, 0⟩, ())
  train v _ e _ _ := (v - 1, (), e, (), (v, 20 - v))
  finish v _ e _ _ := (v - 1, (), e, (), (v, 20 - v))
  newOpt _ := ()
  energy t := t.1
  variance t := t.2

theorem reach_trade : Reach tradeOff (steps 2 none) 0 [(10, 10), (9, 11)]
    ⟨some (some (steps 2 none)), [(1, (9, (), 1)), (2, (8, (), 2))], some [.header, .row 1 (10, 10), .row 2 (9, 11)],
      some (some (10, 10, 9))⟩ (some (.finished (steps 2 none) ⟨8, (), 0, 2⟩)) :=
  reach_ops (Reach.start (some (steps 2 none)) 0 Reach.empty (Or.inr rfl)) 17

/-- **C102 fails** for the energy: the energy in the file is not the lowest one seen. -/
theorem C102_energy_fails : ¬ ∀ (P : Setup Nat Unit Nat Unit (Nat × Nat) Unit Nat)
    (c₀ : Config Unit) (n : Nat) (seen : List (Nat × Nat)) (k : Disk Nat Unit (Nat × Nat) Unit Nat) (c : Config Unit)
    (d : Driver Nat Unit Nat) (e v q : Nat), (∀ c, (P.fresh c).1.count = 0) →
    Reach P c₀ n seen k (some (.finished c d)) → k.best = some (some (e, v, q)) → ∀ t ∈ seen, e ≤ P.energy t := fun h => by
  have := h tradeOff _ _ _ _ _ _ 10 10 9 (fun _ => rfl) reach_trade rfl (9, 11) (by simp)
  simp [tradeOff] at this

/-- The directory when a process is killed while it writes its second best parameters. -/
theorem reach_torn : Reach toy (steps 3 none) 1 [(10, 10), (9, 9)]
    ⟨some (some (steps 3 none)), [(1, (9, (), 1))], some [.header, .row 1 (10, 10), .row 2 (9, 9)], some none⟩ none :=
  (reach_ops (toy_start (steps 3 none)) 14).kill

/-- **C102 fails** for kills: a process killed while it writes `best_params.mpack` leaves it empty, and the
script can then not be continued: it ends with an exception before its first step. -/
theorem C102_torn_fails : ¬ ∀ (P : Setup Nat Unit Nat Unit (Nat × Nat) Unit Nat)
    (c₀ : Config Unit) (n : Nat) (seen : List (Nat × Nat)) (k : Disk Nat Unit (Nat × Nat) Unit Nat) (m : Nat),
    (∀ c, (P.fresh c).1.count = 0) → Reach P c₀ n seen k none → (ops P k (.boot (some c₀) 0) m).2.2 ≠ .raised := fun h =>
  h toy (steps 3 none) _ _ _ 6 (fun _ => rfl) reach_torn rfl

/-- Three training steps with a kill after the first. -/
theorem reach_ema : Reach toy (steps 3 none) 1 [(10, 10), (9, 9), (8, 8)]
    ⟨some (some (steps 3 none)), [(1, (9, (), 1)), (2, (8, (), 2)), (3, (6, (), 3))],
      some [.header, .row 1 (10, 10), .row 2 (9, 9), .row 3 (8, 8)], some (some (8, 8, 6))⟩
    (some (.finished (steps 3 none) ⟨6, (), 2, 3⟩)) :=
  reach_ops (Reach.start none 0 (reach_killed 1 none) (Or.inl rfl)) 18

/-- **C103 fails** with a running average: even when the samples have no influence, the checkpoint of the
third step is not the result of three steps, because the restart set the average back to its initial value. -/
theorem C103_fails : ¬ ∀ (P : Setup Nat Unit Nat Unit (Nat × Nat) Unit Nat)
    (c₀ : Config Unit) (n : Nat) (seen : List (Nat × Nat)) (k : Disk Nat Unit (Nat × Nat) Unit Nat)
    (p : Option (Proc Nat Unit Nat Unit (Nat × Nat) Unit Nat)) (l v count : Nat), (∀ c, (P.fresh c).1.count = 0) →
    c₀.finishing = none → Reach P c₀ n seen k p → (l, (v, (), count)) ∈ k.ckpts →
    ∃ e s, Trained P.train (Start P.fresh c₀) (Sampler P.fresh c₀) l v () e s := fun h => by
  obtain ⟨e, s, hs⟩ := h toy (steps 3 none) _ _ _ _ 3 6 3 (fun _ => rfl) rfl reach_ema (by simp)
  have key : ∀ m v o e s, Trained toy.train (Start toy.fresh (steps 3 none)) (Sampler toy.fresh (steps 3 none)) m v o e s →
      e = m ∧ (m = 0 → v = 10) ∧ (m = 1 → v = 9) ∧ (m = 2 → v = 7) ∧ (m = 3 → v = 4) := by
    intro m v o e s ht
    induction ht with
    | start h =>
      obtain ⟨seed, -, h⟩ := h
      simp only [toy, Prod.mk.injEq, Driver.mk.injEq] at h
      omega
    | step _ hu ih =>
      simp only [toy, Prod.mk.injEq] at hu
      omega
    | sampler _ _ ih => exact ih
  have := key _ _ _ _ _ hs
  omega

/-- An optimisation without a running average: `C103_partial` speaks about it. -/
def plain : Setup Nat Unit Unit Unit (Nat × Nat) Unit Nat where
  fresh _ := (⟨10, (), (), 0⟩, ())
  train v _ _ _ _ := (v - 1, (), (), (), (v, v))
  finish v _ _ _ _ := (v - 1, (), (), (), (v, v))
  newOpt _ := ()
  energy t := t.1
  variance t := t.2

example : ∃ e s, Trained plain.train (Start plain.fresh (steps 3 none)) (Sampler plain.fresh (steps 3 none)) 1 9 () e s :=
  (C103_partial (P := plain) (l := 1) (v := 9) (o := ()) (count := 1) (fun _ => rfl) rfl
    ((reach_ops (Reach.start (some (steps 3 none)) 0 Reach.empty (Or.inr rfl)) 11).kill) (by simp [ops, exec, steps, plain,
      readConfig, resolve, restore, latest, advance, better, saveCheckpoint, serialize])).2

end GPSKet.BackflowRun
