import Verif.Model.Workdir
import Mathlib.Order.Defs.LinearOrder

/-!
Model of the training script for backflow states, `scripts/cpd-backflow/cpd_backflow/vmc.py`, as a program
that can be killed at any point and started again on the same work directory.  The evaluation at the end
(lines 262-308) is not modelled.
-/

namespace GPSKet.BackflowRun

open Workdir

variable {V O E S T R X : Type}

/-- `serialize_VMC`, which is registered for all three drivers: variables, optimiser state and step count.
`scripts/cpd-backflow/cpd_backflow/vmc.py` lines 40-46 and 83-95. -/
def serialize (d : Driver V O E) : V × O × Nat := (d.vars, d.opt, d.count)

/-- `deserialize_VMC`: these three are overwritten in the driver that was just built.
`scripts/cpd-backflow/cpd_backflow/vmc.py` lines 49-62. -/
def deserialize (d : Driver V O E) (sd : V × O × Nat) : Driver V O E :=
  { d with vars := sd.1, opt := sd.2.1, count := sd.2.2 }

/-- `restore_checkpoint(checkpoints_dir, vmc)`.  `scripts/cpd-backflow/cpd_backflow/vmc.py` lines 139-140. -/
def restore (d : Driver V O E) (cs : List (Nat × (V × O × Nat))) : Driver V O E :=
  match latest cs with
  | none => d
  | some sd => deserialize d sd.2

/-- The work directory: `config.yaml`, the checkpoints, `metrics.csv` and `best_params.mpack` (energy,
variance and parameters; `some none` is the empty file). -/
structure Disk (V O T R X : Type) where
  config : Option (Option (Config R))
  ckpts : List (Nat × (V × O × Nat))
  metrics : Option (List (Line T))
  best : Option (Option (X × X × V))

/-- What does not change in the body of a loop: the configuration, `initial_step`, whether this is the loop of
descent finishing, and the lowest energy and variance so far (`none` is infinity). -/
structure Frame (R X : Type) where
  c : Config R
  init : Nat
  finishing : Bool
  best : Option (X × X)

/-- Points of the program between two operations on files. -/
inductive Proc (V O E S T R X : Type) where
  | boot (arg : Option (Config R)) (drawn : Nat)
  | configOpen (c : Config R)
  | restoring (c : Config R)
  | logging (c : Config R) (d : Driver V O E) (s : S)
  | logOpen (c : Config R) (d : Driver V O E) (s : S)
  /-- At line 152, before the training loop. -/
  | training (c : Config R) (d : Driver V O E) (s : S)
  /-- At the head of a loop: the variable `step` is `step`, and `next` is the next value of its range. -/
  | loop (f : Frame R X) (step next : Nat) (d : Driver V O E) (s : S)
  /-- After `vmc.advance()`. -/
  | advanced (f : Frame R X) (step : Nat) (d : Driver V O E) (s : S) (t : T)
  /-- The row is written. -/
  | logged (f : Frame R X) (step : Nat) (d : Driver V O E) (s : S) (t : T)
  /-- `best_params.mpack` is open and empty; `f.best` is what will be written, with the parameters. -/
  | bestOpen (f : Frame R X) (step : Nat) (d : Driver V O E) (s : S) (e v : X)
  /-- Before the checkpoint. -/
  | bestDone (f : Frame R X) (step : Nat) (d : Driver V O E) (s : S)
  /-- At line 205, before descent finishing. -/
  | descent (c : Config R) (init step : Nat) (d : Driver V O E) (s : S)
  | finished (c : Config R) (d : Driver V O E)
  | raised

/-- `config.total_steps + config.descent_finishing.total_steps`. -/
def total (c : Config R) : Nat := c.steps + c.finishing.getD 0

/-- `energy < best_energy and variance < best_variance`, with infinity for `none`.
`scripts/cpd-backflow/cpd_backflow/vmc.py` lines 159-160 and 179. -/
def better [LinearOrder X] (e v : X) : Option (X × X) → Bool
  | none => true
  | some b => e < b.1 && v < b.2

/-- What the program is given: how the driver and the sampler are built from the resolved configuration,
the steps with the optimiser of the training loop and with that of descent finishing, the initial state of the
latter (the setter of `optimizer` in NetKet makes a new state), and energy and variance of the statistics. -/
structure Setup (V O E S T R X : Type) where
  fresh : Config R → Driver V O E × S
  train : Update V O E S T
  finish : Update V O E S T
  newOpt : V → O
  energy : T → X
  variance : T → X

/-- The program up to its next operation on files.  `scripts/cpd-backflow/cpd_backflow/vmc.py` lines 102-260. -/
def exec [LinearOrder X] (P : Setup V O E S T R X) (k : Disk V O T R X) :
    Proc V O E S T R X → Disk V O T R X × Proc V O E S T R X
  | .boot arg drawn =>
    match readConfig arg k.config with
    | none => (k, .raised)
    | some c => ({ k with config := some none }, .configOpen (resolve c drawn))
  | .configOpen c => ({ k with config := some (some c) }, .restoring c)
  | .restoring c => (k, .logging c (restore (P.fresh c).1 k.ckpts) (P.fresh c).2)
  | .logging c d s =>
    match k.metrics with
    | none => ({ k with metrics := some [] }, .logOpen c d s)
    | some _ => (k, .training c d s)
  | .logOpen c d s => ({ k with metrics := some [.header] }, .training c d s)
  | .training c d s =>
    if d.count + 1 < c.steps then
      match k.best with
      | some none => (k, .raised)
      | some (some b) => (k, .loop ⟨c, d.count + 1, false, some (b.1, b.2.1)⟩ (d.count + 1) (d.count + 1) d s)
      | none => (k, .loop ⟨c, d.count + 1, false, none⟩ (d.count + 1) (d.count + 1) d s)
    else (k, .descent c (d.count + 1) (d.count + 1) d s)
  | .loop f step next d s =>
    if next ≤ (if f.finishing then total f.c else f.c.steps) then
      let r := advance (if f.finishing then P.finish else P.train) d s
      (k, .advanced f next r.1 r.2.1 r.2.2)
    else if f.finishing then (k, .finished f.c d)
    else (k, .descent f.c f.init step d s)
  | .advanced f step d s t => ({ k with metrics := some (k.metrics.getD [] ++ [.row step t]) }, .logged f step d s t)
  | .logged f step d s t =>
    if better (P.energy t) (P.variance t) f.best then
      ({ k with best := some none },
        .bestOpen { f with best := some (P.energy t, P.variance t) } step d s (P.energy t) (P.variance t))
    else (k, .bestDone f step d s)
  | .bestOpen f step d s e v => ({ k with best := some (some (e, v, d.vars)) }, .bestDone f step d s)
  | .bestDone f step d s =>
    if f.finishing = true ∨ (f.c.every ≠ 0 ∧ step % f.c.every = 0) ∨ step = f.c.steps then
      match saveCheckpoint k.ckpts step (serialize d) with
      | none => (k, .raised)
      | some cs => ({ k with ckpts := cs }, .loop f step (step + 1) d s)
    else (k, .loop f step (step + 1) d s)
  | .descent c init step d s =>
    if c.finishing ≠ none ∧ init < total c then
      let d' := { d with opt := P.newOpt d.vars }
      match k.best with
      | some none => (k, .raised)
      | some (some b) => (k, .loop ⟨c, init, true, some (b.1, b.2.1)⟩ step (step + 1) d' s)
      | none => (k, .loop ⟨c, init, true, none⟩ step (step + 1) d' s)
    else (k, .finished c d)
  | .finished c d => (k, .finished c d)
  | .raised => (k, .raised)

/-- The statistics that the program is about to compare with the best ones. -/
def compares : Proc V O E S T R X → List T
  | .logged _ _ _ _ t => [t]
  | _ => []

/-- The histories of a work directory, as for the script of ARGPS.  `kills` counts the processes killed before
`main` returned, `seen` lists the statistics that were compared with the best ones. -/
inductive Reach [LinearOrder X] (P : Setup V O E S T R X) (c₀ : Config R) :
    Nat → List T → Disk V O T R X → Option (Proc V O E S T R X) → Prop
  | empty : Reach P c₀ 0 [] ⟨none, [], none, none⟩ none
  | start {n l k} (arg : Option (Config R)) (drawn : Nat) : Reach P c₀ n l k none →
      (arg = none ∨ arg = some c₀) → Reach P c₀ n l k (some (.boot arg drawn))
  | run {n l k p} : Reach P c₀ n l k (some p) →
      Reach P c₀ n (l ++ compares p) (exec P k p).1 (some (exec P k p).2)
  | kill {n l k p} : Reach P c₀ n l k (some p) → Reach P c₀ (n + 1) l k none
  | exit {n l k c d} : Reach P c₀ n l k (some (.finished c d)) → Reach P c₀ n l k none

end GPSKet.BackflowRun
