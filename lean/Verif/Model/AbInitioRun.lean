import Mathlib.Order.Defs.LinearOrder
import Mathlib.Logic.Function.Basic

/-!
Model of the optimisation loops of `scripts/GPS_for_ab_initio/H2O.py`, `H50_1D.py` and `H4x4x4.py`, as
programs that can be killed between any two operations on files and started again in the same directory.

Simplifications:
* only rank 0 of MPI writes files; the other ranks receive its variables and are not modelled;
* opening a file for writing truncates it at once, its new content reaches the disk when it is closed
  (`pickle.dump(x, open(...))` closes the file at the end of the statement), and the row appended to
  `out.txt` is written completely or not at all;
* the energies, variances and matrices computed in a step are arbitrary functions of the parameters and of the
  state of the sampler; variances are ordered linearly (no NaN), and a variance read back from `out.txt`
  is the one that was written;
* plain gradient descent (`nk.optimizer.Sgd`) has no state of its own.
-/

namespace GPSKet.AbInitioRun

variable {P S V T D : Type}

/-- The constants of the scripts: `max_count` (200 in `H2O.py` line 329, 100 in `H50_1D.py` line 146, 250 in
`H4x4x4.py` line 271) and `min_global_count` (1000 in `H4x4x4.py` line 232; the other scripts have none). -/
structure Rules where
  maxCount : Nat
  minGlobal : Option Nat

/-- What one pass through the loop computes: `gs.energy.variance`, the other entries of the row, the density
matrix (`H4x4x4.py` only), the parameters after `gs.update_parameters(dp)` and the state of the sampler. -/
structure Eval (P S V T D : Type) where
  var : V
  stats : T
  rdm : D
  next : P
  sampler : S

/-- The files: `out.txt` (`none`: absent), `parameters.pickle`, `best_pars.pickle` (`none`: absent,
`some none`: truncated) and `oneBRDM_{}.npy`. -/
structure Disk (P V T D : Type) where
  out : Option (List (V × T))
  pars : Option (Option P)
  best : Option (Option P)
  rdms : Nat → Option (Option D)

/-- An empty directory. -/
def Disk.empty : Disk P V T D := ⟨none, none, none, fun _ => none⟩

/-- One step of `np.argmin` and of the minimum that it belongs to: the first smallest value wins. -/
def better [LinearOrder V] (st : Nat × Option (Nat × V)) (v : V) : Nat × Option (Nat × V) :=
  (st.1 + 1, match st.2 with
    | none => some (st.1, v)
    | some (b, w) => if v < w then some (st.1, v) else some (b, w))

/-- `best_var_arg = np.argmin(...)` and `best_var`: place and value of the smallest variance.
`H2O.py` lines 307-308. -/
def argmin [LinearOrder V] (l : List V) : Option (Nat × V) := (l.foldl better (0, none)).2

/-- The values `best_var`, `count` and `global_count` with which a process continues: `none` stands for an
exception.  `np.genfromtxt` returns an array of shape `(0,)` for an empty file, of shape `(4,)` for a file with
one row — `out_prev[:, 3]` then raises an `IndexError` — and of shape `(n, 4)` otherwise.
`H2O.py` lines 305-312, `H50_1D.py` lines 122-129, `H4x4x4.py` lines 238-251. -/
def resume [LinearOrder V] (r : Rules) (rows : List V) : Option (Option V × Nat × Nat) :=
  match rows with
  | [] => some (none, 0, 0)
  | [_] => none
  | rows =>
    match argmin rows with
    | none => none
    | some (b, w) =>
      match r.minGlobal with
      | none => some (some w, rows.length - b, rows.length)
      | some m => if b < m then some (some w, rows.length - b, rows.length) else some (none, 0, rows.length)

/-- Points of the programs between two operations on files.  `best` is `best_var`, `count` is `count`,
`g` is `global_count`. -/
inductive Proc (P S V : Type) where
  /-- Everything is set up; `θ` are newly initialised parameters. -/
  | boot (θ : P) (s : S)
  /-- A new calculation: `best_pars.pickle` is open and empty. -/
  | newBest (θ : P) (s : S)
  /-- Before `out.txt` is created. -/
  | newOut (θ : P) (s : S)
  /-- At the condition of the loop. -/
  | loop (θ : P) (s : S) (best : Option V) (count g : Nat)
  /-- `parameters.pickle` is open and empty. -/
  | saving (θ : P) (s : S) (best : Option V) (count g : Nat)
  /-- The parameters are saved; next the energy is evaluated. -/
  | evaluate (θ : P) (s : S) (best : Option V) (count g : Nat)
  /-- An improvement: `best_pars.pickle` is open and empty. -/
  | improving (θ : P) (s : S) (g : Nat)
  /-- `best_var` and `count` are updated. -/
  | decided (θ : P) (s : S) (best : Option V) (count g : Nat)
  /-- `oneBRDM_{}.npy` is open and empty (`H4x4x4.py`). -/
  | rdmOpen (θ : P) (s : S) (best : Option V) (count g : Nat)
  /-- Before the row is written. -/
  | logging (θ : P) (s : S) (best : Option V) (count g : Nat)
  /-- The loop is left. -/
  | finished
  /-- An exception ended the process. -/
  | raised

/-- `if global_count < min_global_count: best_var = None`.  `H4x4x4.py` lines 291-292. -/
def reset (r : Rules) (g : Nat) (best : Option V) : Option V :=
  match r.minGlobal with
  | none => best
  | some m => if g < m then none else best

/-- The program up to its next operation on files; `u` evaluates parameters with a state of the sampler.
`H2O.py` lines 301-371, `H50_1D.py` lines 118-188, `H4x4x4.py` lines 234-318. -/
def exec [LinearOrder V] (r : Rules) (u : P → S → Eval P S V T D) (k : Disk P V T D) :
    Proc P S V → Disk P V T D × Proc P S V
  | .boot θ s =>
    match k.out with
    | none => ({ k with best := some none }, .newBest θ s)
    | some rows =>
      match k.pars with
      | some (some θ') =>
        match resume r (rows.map Prod.fst) with
        | none => (k, .raised)
        | some (b, c, g) => (k, .loop θ' s b c g)
      | _ => (k, .raised)
  | .newBest θ s => ({ k with best := some (some θ) }, .newOut θ s)
  | .newOut θ s => ({ k with out := some [] }, .loop θ s none 0 0)
  | .loop θ s b c g =>
    if c < r.maxCount then ({ k with pars := some none }, .saving θ s b c g) else (k, .finished)
  | .saving θ s b c g => ({ k with pars := some (some θ) }, .evaluate θ s b c g)
  | .evaluate θ s b c g =>
    match b with
    | none => (k, .decided θ s (some (u θ s).var) 0 g)
    | some w =>
      if (u θ s).var < w then ({ k with best := some none }, .improving θ s g)
      else (k, .decided θ s (some w) (c + 1) g)
  | .improving θ s g => ({ k with best := some (some θ) }, .decided θ s (some (u θ s).var) 0 g)
  | .decided θ s b c g =>
    match r.minGlobal with
    | none => (k, .logging θ s (reset r g b) c g)
    | some _ => ({ k with rdms := Function.update k.rdms g (some none) }, .rdmOpen θ s (reset r g b) c g)
  | .rdmOpen θ s b c g =>
    ({ k with rdms := Function.update k.rdms g (some (some (u θ s).rdm)) }, .logging θ s b c g)
  | .logging θ s b c g =>
    ({ k with out := some (k.out.getD [] ++ [((u θ s).var, (u θ s).stats)]) },
      .loop (if c < r.maxCount then (u θ s).next else θ) (u θ s).sampler b c (g + 1))
  | .finished => (k, .finished)
  | .raised => (k, .raised)

/-- The evaluations done in the next operation (a record for the theorems; the program does not keep it). -/
def evaluates : Proc P S V → List (P × S)
  | .evaluate θ s _ _ _ => [(θ, s)]
  | _ => []

/-- The evaluations whose rows are written in the next operation (a record for the theorems). -/
def logs : Proc P S V → List (P × S)
  | .logging θ s _ _ _ => [(θ, s)]
  | _ => []

/-- The histories of a directory: starting from an empty one, processes are started one after the other with
newly initialised parameters; each does any number of operations and is then killed, at a point that `Killed`
allows, or has ended.  `n` counts the processes started, `es` lists the evaluations done, `ls` those whose rows
were written. -/
inductive Reach [LinearOrder V] (r : Rules) (u : P → S → Eval P S V T D) (Init : P → Prop)
    (Killed : Proc P S V → Prop) :
    Nat → List (P × S) → List (P × S) → Disk P V T D → Option (Proc P S V) → Prop
  | empty : Reach r u Init Killed 0 [] [] Disk.empty none
  | start {n es ls k} (θ : P) (s : S) : Reach r u Init Killed n es ls k none → Init θ →
      Reach r u Init Killed (n + 1) es ls k (some (.boot θ s))
  | run {n es ls k p} : Reach r u Init Killed n es ls k (some p) →
      Reach r u Init Killed n (es ++ evaluates p) (ls ++ logs p) (exec r u k p).1 (some (exec r u k p).2)
  | kill {n es ls k p} : Reach r u Init Killed n es ls k (some p) → Killed p →
      Reach r u Init Killed n es ls k none
  | exit {n es ls k p} : Reach r u Init Killed n es ls k (some p) → (p = .finished ∨ p = .raised) →
      Reach r u Init Killed n es ls k none

end GPSKet.AbInitioRun
