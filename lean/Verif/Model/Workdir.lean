/-!
Model of the files that the training scripts keep in their work directory and of the driver that they
checkpoint (`scripts/ARGPS/argps/utils.py`, `scripts/cpd-backflow/cpd_backflow/utils.py` and the first
part of the two `vmc.py`).

Simplifications made throughout:
* only rank 0 of MPI writes files; the other ranks do the same optimisation and are not modelled;
* opening a file for writing truncates it at once, its new content reaches the disk when it is closed,
  and a row appended to a file is written completely or not at all;
* `flax.training.checkpoints.save_checkpoint` writes a temporary file and renames it: it is atomic.
-/

namespace GPSKet.Workdir

/-- The configuration, as far as the training loops read it: the numbers of steps, the period of
checkpoints (0 for `None`), the seed of the variational state and everything else (`rest`: system, model,
sampler, optimiser).  `scripts/ARGPS/argps/configs/common.py` lines 9-35,
`scripts/cpd-backflow/cpd_backflow/configs/common.py` lines 9-36. -/
structure Config (R : Type) where
  /-- `config.max_steps` (ARGPS) or `config.total_steps` (cpd-backflow). -/
  steps : Nat
  /-- `config.checkpoint_every`; zero stands for `None` or 0. -/
  every : Nat
  /-- `config.descent_finishing.total_steps`; `none` for an empty `descent_finishing` (cpd-backflow). -/
  finishing : Option Nat
  /-- `config.variational_state.seed`. -/
  seed : Option Nat
  /-- The remaining entries. -/
  rest : R

/-- `resolve`: a seed that is not given is drawn at random (`drawn`).  `scripts/ARGPS/argps/configs/common.py`
lines 38-48; `scripts/cpd-backflow/cpd_backflow/configs/common.py` lines 39-49.  Resolving the molecule is
not modelled. -/
def resolve {R : Type} (c : Config R) (drawn : Nat) : Config R :=
  { c with seed := some (c.seed.getD drawn) }

/-- A line of a file written by `CSVLogger`: the header, or the row of a step with its statistics.
`utils.py` lines 31-45 (ARGPS), 33-47 (cpd-backflow). -/
inductive Line (T : Type) where
  | header
  | row (step : Nat) (stats : T)

/-- The configuration that a new process reads: the one given on the command line or else the one in
`config.yaml` (`none`: there is no such file; `some none`: the file is empty).  With neither, the process
ends with an exception: `resolve` reads `config.variational_state` of `None` or of an empty `ConfigDict`.
`vmc.py` lines 73-79 (ARGPS), 102-108 (cpd-backflow); `read_config`. -/
def readConfig {R : Type} (arg : Option (Config R)) (file : Option (Option (Config R))) : Option (Config R) :=
  arg <|> file.join

/-- The driver: variables of the state, state of the optimiser, running average of the squared gradients
(`_ema`) and number of steps done.  `nk.driver.VMC` with the preconditioner `SRRMSProp` in ARGPS,
`VMC_SRRMSProp` in cpd-backflow. -/
structure Driver (V O E : Type) where
  vars : V
  opt : O
  ema : E
  count : Nat

/-- What the drivers compute in one step, before the step counter is increased: new variables, optimiser
state, average and state of the sampler, and the statistics of the energy, which are those of the variables
*before* the step.  The number of steps done enters through learning-rate schedules and through the bias
correction of the average.  (`AbstractVariationalDriver.iter` of NetKet: `_forward_and_backward`, then
`_step_count += 1`, then `update_parameters`.) -/
abbrev Update (V O E S T : Type) := V → O → E → Nat → S → V × O × E × S × T

/-- `vmc.advance()`. -/
def advance {V O E S T : Type} (u : Update V O E S T) (d : Driver V O E) (s : S) : Driver V O E × S × T :=
  let r := u d.vars d.opt d.ema d.count s
  (⟨r.1, r.2.1, r.2.2.1, d.count + 1⟩, r.2.2.2.1, r.2.2.2.2)

/-- The checkpoint with the largest label, which `restore_checkpoint` reads. -/
def latest {α : Type} (cs : List (Nat × α)) : Option (Nat × α) :=
  cs.foldl (fun b c => match b with
    | none => some c
    | some b => if b.1 < c.1 then some c else some b) none

/-- `save_checkpoint(dir, vmc, step, keep_every_n_steps=...)`: an exception if there is already a checkpoint
with this label or a later one.  The removal of older checkpoints is not modelled (`restore_checkpoint`
does not read them): the list may contain more checkpoints than the directory. -/
def saveCheckpoint {α : Type} (cs : List (Nat × α)) (step : Nat) (a : α) : Option (List (Nat × α)) :=
  if cs.any (fun c => step ≤ c.1) then none else some (cs ++ [(step, a)])

end GPSKet.Workdir
