import Verif.Spec.SharedFiles

/-!
# The files of the training scripts on several processes

`scripts/cpd-backflow/cpd_backflow/vmc.py` and `scripts/ARGPS/argps/vmc.py` as lists of actions of each process on the work directory.  What the root
writes in a step (new best parameters, a checkpoint) is given with the step; it is computed from quantities that are the same on all
processes.

Simplifications: `metrics.csv`, which only the root uses, is left out; the file of a new checkpoint appears at once (flax writes it under another
name first); the calls between saving the configuration and restoring the checkpoint (broadcasts of the system, the keys and so on) are a
list; a step of the driver is a single reduction.
-/

namespace GPSKet.SharedFiles

variable {C P B : Type}

/-- The work directory: `config.yaml` and `best_params.mpack` (`some none` when truncated) and the latest checkpoint. -/
structure Dir (C P B : Type) where
  config : Option (Option C)
  ckpt : Option P
  best : Option (Option B)

/-- What a process sees. -/
inductive Seen (C P B : Type) where
  | config (c : Option (Option C))
  | ckpt (c : Option P)
  | oldBest (b : Option (Option B))
  | best (b : Option (Option B))
  | written
  deriving DecidableEq

/-- What the root writes in a step: `save_best_params` if the step is the best so far, and `save_checkpoint` (cpd-backflow vmc.py:178-183,
199-202, 236-241, 257-260; ARGPS vmc.py:169-177). -/
structure StepFiles (P B : Type) where
  best : Option B
  ckpt : Option P

/-- `read_config` (cpd-backflow utils.py:19-30, called in vmc.py:106-107; ARGPS utils.py:17-28, called in vmc.py:77-78). -/
def readConfig : Act (Dir C P B) (Seen C P B) := .file fun k => (k, .config k.config)

/-- `save_config` (cpd-backflow utils.py:10-16, ARGPS utils.py:8-14): the file is truncated, then written. -/
def saveConfig (c : C) : List (Act (Dir C P B) (Seen C P B)) :=
  [.file fun k => ({ k with config := some none }, .written), .file fun k => ({ k with config := some (some c) }, .written)]

/-- `restore_checkpoint` (cpd-backflow vmc.py:138-140, ARGPS vmc.py:118-120), on every process. -/
def restoreCheckpoint : Act (Dir C P B) (Seen C P B) := .file fun k => (k, .ckpt k.ckpt)

/-- `save_best_params` (cpd-backflow utils.py:114-120): the file is truncated, then written. -/
def saveBest (b : B) : List (Act (Dir C P B) (Seen C P B)) :=
  [.file fun k => ({ k with best := some none }, .written), .file fun k => ({ k with best := some (some b) }, .written)]

/-- `save_checkpoint` (cpd-backflow vmc.py:201, 259; ARGPS vmc.py:174-176). -/
def saveCheckpoint (c : P) : Act (Dir C P B) (Seen C P B) := .file fun k => ({ k with ckpt := some c }, .written)

/-- What the root writes after a step (cpd-backflow vmc.py:178-183, 199-202). -/
def stepWrites (s : StepFiles P B) : List (Act (Dir C P B) (Seen C P B)) :=
  s.best.elim [] saveBest ++ s.ckpt.elim [] fun c => [saveCheckpoint c]

/-- A step of the training loops (cpd-backflow vmc.py:161-202, 219-260, ARGPS vmc.py:137-177): `vmc.advance()` on every process, then the files on the root. -/
def trainStep (rank : ℕ) (s : StepFiles P B) : List (Act (Dir C P B) (Seen C P B)) :=
  .call true :: if rank = 0 then stepWrites s else []

/-- A training loop: the root looks at the best parameters (cpd-backflow vmc.py:153-160, 211-217), then the steps (cpd-backflow vmc.py:161-202, 219-260). -/
def trainLoop (rank : ℕ) (steps : List (StepFiles P B)) : List (Act (Dir C P B) (Seen C P B)) :=
  (if rank = 0 then [.file fun k => (k, .oldBest k.best)] else []) ++ steps.flatMap (trainStep rank)

/-- The part before the checkpoint is restored (cpd-backflow vmc.py:102-136, ARGPS vmc.py:73-116): the configuration is read if none is `given`; `resolve`
broadcasts the seed (configs/common.py:38-47); the root saves the configuration `c`; then the calls `setup`. -/
def prologue (given : Bool) (c : C) (setup : List Bool) (rank : ℕ) : List (Act (Dir C P B) (Seen C P B)) :=
  (if given then [] else [readConfig]) ++ [.call false] ++ (if rank = 0 then saveConfig c else []) ++ setup.map .call

/-- The evaluation (cpd-backflow vmc.py:262-308): every process reads the best parameters and makes `evals` steps. -/
def evaluation (evals : ℕ) : List (Act (Dir C P B) (Seen C P B)) :=
  (.file fun k => (k, .best k.best)) :: List.replicate evals (.call true)

/-- `main` (cpd-backflow vmc.py:98-310; ARGPS vmc.py:69-180, with a single loop, whose look at the best parameters changes nothing, and no evaluation): the prologue, the checkpoint, the
training loops (the loop proper and the descent finishing, where they are run) and, if configured, the evaluation. -/
def main (given : Bool) (c : C) (setup : List Bool) (loops : List (List (StepFiles P B))) (evaluate : Bool) (evals : ℕ) (rank : ℕ) :
    List (Act (Dir C P B) (Seen C P B)) :=
  prologue given c setup rank ++ restoreCheckpoint :: (loops.flatMap (trainLoop rank) ++ if evaluate then evaluation evals else [])

end GPSKet.SharedFiles
