import Verif.Model.Workdir

/-!
Model of the training script of ARGPS, `scripts/ARGPS/argps/vmc.py`, as a program that can be killed at any
point and started again on the same work directory.
-/

namespace GPSKet.ArgpsRun

open Workdir

variable {V O E S T R : Type}

/-- `serialize_VMC`: variables, optimiser state, running average and step count.
`scripts/ARGPS/argps/vmc.py` lines 35-42. -/
def serialize (d : Driver V O E) : V × O × E × Nat := (d.vars, d.opt, d.ema, d.count)

/-- `deserialize_VMC`: all four are overwritten in the driver that was just built.
`scripts/ARGPS/argps/vmc.py` lines 45-61. -/
def deserialize (d : Driver V O E) (sd : V × O × E × Nat) : Driver V O E :=
  { d with vars := sd.1, opt := sd.2.1, count := sd.2.2.2, ema := sd.2.2.1 }

/-- `restore_checkpoint(checkpoints_dir, vmc)`: the latest checkpoint, or the driver as it is if there is
none.  `scripts/ARGPS/argps/vmc.py` lines 119-120. -/
def restore (d : Driver V O E) (cs : List (Nat × (V × O × E × Nat))) : Driver V O E :=
  match latest cs with
  | none => d
  | some sd => deserialize d sd.2

/-- The work directory: `config.yaml`, the checkpoints and `metrics.csv`. -/
structure Disk (V O E T R : Type) where
  config : Option (Option (Config R))
  ckpts : List (Nat × (V × O × E × Nat))
  metrics : Option (List (Line T))

/-- Points of the program between two operations on files. -/
inductive Proc (V O E S T R : Type) where
  /-- The process has started; `drawn` is the seed that `resolve` will draw. -/
  | boot (arg : Option (Config R)) (drawn : Nat)
  /-- `config.yaml` is open and empty. -/
  | configOpen (c : Config R)
  /-- The configuration is saved; next the driver is built and the checkpoint restored. -/
  | restoring (c : Config R)
  /-- Before the constructor of `CSVLogger`. -/
  | logging (c : Config R) (d : Driver V O E) (s : S)
  /-- `metrics.csv` is open and empty. -/
  | logOpen (c : Config R) (d : Driver V O E) (s : S)
  /-- At the condition of the loop. -/
  | loop (c : Config R) (step : Nat) (d : Driver V O E) (s : S)
  /-- After `vmc.advance()`. -/
  | advanced (c : Config R) (step : Nat) (d : Driver V O E) (s : S) (t : T)
  /-- The row is written. -/
  | logged (c : Config R) (step : Nat) (d : Driver V O E) (s : S)
  /-- `main` has returned. -/
  | finished (c : Config R) (d : Driver V O E)
  /-- An exception ended the process. -/
  | raised

/-- The program up to its next operation on files.  `fresh` builds the driver and the sampler from the
resolved configuration.  `scripts/ARGPS/argps/vmc.py` lines 73-181. -/
def exec (fresh : Config R → Driver V O E × S) (u : Update V O E S T) (k : Disk V O E T R) :
    Proc V O E S T R → Disk V O E T R × Proc V O E S T R
  | .boot arg drawn =>
    match readConfig arg k.config with
    | none => (k, .raised)
    | some c => ({ k with config := some none }, .configOpen (resolve c drawn))
  | .configOpen c => ({ k with config := some (some c) }, .restoring c)
  | .restoring c => (k, .logging c (restore (fresh c).1 k.ckpts) (fresh c).2)
  | .logging c d s =>
    match k.metrics with
    | none => ({ k with metrics := some [] }, .logOpen c d s)
    | some _ => (k, .loop c (d.count + 1) d s)
  | .logOpen c d s => ({ k with metrics := some [.header] }, .loop c (d.count + 1) d s)
  | .loop c step d s =>
    if step ≤ c.steps then
      let r := advance u d s
      (k, .advanced c step r.1 r.2.1 r.2.2)
    else (k, .finished c d)
  | .advanced c step d s t => ({ k with metrics := some (k.metrics.getD [] ++ [.row step t]) }, .logged c step d s)
  | .logged c step d s =>
    if (c.every ≠ 0 ∧ step % c.every = 0) ∨ step = c.steps then
      match saveCheckpoint k.ckpts step (serialize d) with
      | none => (k, .raised)
      | some cs => ({ k with ckpts := cs }, .loop c (step + 1) d s)
    else (k, .loop c (step + 1) d s)
  | .finished c d => (k, .finished c d)
  | .raised => (k, .raised)

/-- The histories of a work directory: starting from an empty one, processes are started one after the
other, with the configuration `c₀` on the command line or without one; each does any number of operations
and is then killed or has ended.  `kills` counts the processes killed before `main` returned. -/
inductive Reach (fresh : Config R → Driver V O E × S) (u : Update V O E S T) (c₀ : Config R) :
    Nat → Disk V O E T R → Option (Proc V O E S T R) → Prop
  | empty : Reach fresh u c₀ 0 ⟨none, [], none⟩ none
  | start {n k} (arg : Option (Config R)) (drawn : Nat) : Reach fresh u c₀ n k none →
      (arg = none ∨ arg = some c₀) → Reach fresh u c₀ n k (some (.boot arg drawn))
  | run {n k p} : Reach fresh u c₀ n k (some p) →
      Reach fresh u c₀ n (exec fresh u k p).1 (some (exec fresh u k p).2)
  | kill {n k p} : Reach fresh u c₀ n k (some p) → Reach fresh u c₀ (n + 1) k none
  | exit {n k c d} : Reach fresh u c₀ n k (some (.finished c d)) → Reach fresh u c₀ n k none

end GPSKet.ArgpsRun
