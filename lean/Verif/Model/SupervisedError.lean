import Verif.Model.Supervised
import Mathlib.Analysis.SpecialFunctions.Complex.Log

/-!
# Model of `squared_error` and `squared_error_log_space` of `GPSKet/supervised/supervised_qgps.py`

Several processes, each with its own learner and its own part of the data.  Amplitudes are complex arrays (for real arrays `np.log` of a
negative number is not a number).
-/

namespace GPSKet.SupervisedError

open GPSKet.Supervised

variable {D M L : ℕ}

/-- The classes with a method `predict`: `QGPSLearningExp` (and `QGPSGenLinMod`) predict amplitudes (supervised_qgps.py:539-558),
`QGPSLogSpaceFit` predicts log-amplitudes (supervised_qgps.py:1090-1107). -/
inductive Kind
  | exp
  | logSpace

/-- `predict` (supervised_qgps.py:539-558, 1090-1107): fails for an empty data set. -/
noncomputable def predict (kind : Kind) (h : Heap D M L) (s : Learner D M L) (first : Fin L) (addr : ℕ) : Option (Learner D M L × List ℂ) :=
  if h.confs addr = [] then none else
  match kind with
  | .exp => s.predictExp h first addr
  | .logSpace => s.predictLog h first addr

/-- `errors *= weightings` if there are weightings (supervised_qgps.py:461-462, 467-468). -/
def weigh (errors : List ℝ) : Option (List ℝ) → List ℝ
  | none => errors
  | some w => List.zipWith (fun e w => e * w) errors w

/-- What a process holds and passes: its memory, its learner, the address of its data set, its target amplitudes and weightings. -/
structure Proc (D M L : ℕ) where
  heap : Heap D M L
  learner : Learner D M L
  addr : ℕ
  targets : List ℂ
  weightings : Option (List ℝ)

/-- The contribution of a process to `squared_error` (supervised_qgps.py:459-463), and its learner afterwards. -/
noncomputable def Proc.squaredError (kind : Kind) (first : Fin L) (p : Proc D M L) : Option (Learner D M L × ℝ) :=
  (predict kind p.heap p.learner first p.addr).map fun r =>
    (r.1, (weigh (List.zipWith (fun a t => ‖a - t‖ ^ 2) r.2 p.targets) p.weightings).sum)

/-- `np.log` of a complex array; `none` if an entry is not finite. -/
noncomputable def npLog (l : List ℂ) : Option (List ℂ) :=
  open Classical in if 0 ∈ l then none else some (l.map Complex.log)

/-- The contribution of a process to `squared_error_log_space` (supervised_qgps.py:465-469); `none` stands for an exception or a result that
is not finite. -/
noncomputable def Proc.squaredErrorLog (kind : Kind) (first : Fin L) (p : Proc D M L) : Option (Learner D M L × ℝ) := do
  let (s, pred) ← predict kind p.heap p.learner first p.addr
  let a ← npLog pred
  let t ← npLog p.targets
  return (s, (weigh (List.zipWith (fun a t => ‖a - t‖ ^ 2) a t) p.weightings).sum)

/-- `_MPI_comm.allreduce(np.sum(errors))` (supervised_qgps.py:463, 469): there is a result once all processes have contributed. -/
noncomputable def allreduce {R : ℕ} (f : Fin R → Option (Learner D M L × ℝ)) : Option ((Fin R → Learner D M L) × ℝ) :=
  if h : ∀ r, (f r).isSome then some (fun r => ((f r).get (h r)).1, ∑ r, ((f r).get (h r)).2) else none

end GPSKet.SupervisedError
