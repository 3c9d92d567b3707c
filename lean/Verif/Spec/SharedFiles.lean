import Mathlib.Data.Nat.Notation
import Mathlib.Logic.Relation
import Mathlib.Logic.Function.Basic
import Mathlib.Data.List.Basic

/-!
# Processes that share a directory

Several processes run lists of actions: collective calls, and operations on files in a directory that they share.  The processes proceed in
any order.  A process leaves a reduction (`barrier`) only after all processes have entered it; it leaves a broadcast when the root
(process 0) has entered it.  The `j`-th calls of all processes belong together.
-/

namespace GPSKet.SharedFiles

/-- An action: a call (of a reduction, or else of a broadcast from the root), or an operation that may change the directory `K` and lets
the process see a value. -/
inductive Act (K V : Type) where
  | call (barrier : Bool)
  | file (f : K → K × V)

variable {n : ℕ} {K V : Type}

/-- Whether an action is a call. -/
def Act.isCall : Act K V → Bool
  | .call _ => true
  | .file _ => false

/-- The number of calls among the first `p` actions. -/
def callsBefore (l : List (Act K V)) (p : ℕ) : ℕ := ((l.take p).filter Act.isCall).length

/-- The state: the directory, the number of completed actions of each process, whether it is inside a call, and what it has seen. -/
structure State (n : ℕ) (K V : Type) where
  disk : K
  pos : Fin (n + 1) → ℕ
  inside : Fin (n + 1) → Bool
  seen : Fin (n + 1) → List V

/-- The number of calls that a process has entered. -/
def entered (acts : Fin (n + 1) → List (Act K V)) (m : State n K V) (r : Fin (n + 1)) : ℕ :=
  callsBefore (acts r) (m.pos r) + if m.inside r then 1 else 0

/-- The beginning. -/
def start (k : K) : State n K V := ⟨k, fun _ => 0, fun _ => false, fun _ => []⟩

/-- A step of one process. -/
inductive Step (acts : Fin (n + 1) → List (Act K V)) : State n K V → State n K V → Prop where
  | enter (m : State n K V) (r : Fin (n + 1)) (b : Bool) (ha : (acts r)[m.pos r]? = some (.call b)) (hi : m.inside r = false) :
      Step acts m { m with inside := Function.update m.inside r true }
  | leave (m : State n K V) (r : Fin (n + 1)) (b : Bool) (ha : (acts r)[m.pos r]? = some (.call b)) (hi : m.inside r = true)
      (hs : ∀ s, (b = true ∨ s = 0) → callsBefore (acts r) (m.pos r) + 1 ≤ entered acts m s) :
      Step acts m { m with inside := Function.update m.inside r false, pos := Function.update m.pos r (m.pos r + 1) }
  | file (m : State n K V) (r : Fin (n + 1)) (f : K → K × V) (ha : (acts r)[m.pos r]? = some (.file f)) (hi : m.inside r = false) :
      Step acts m
        { m with
          disk := (f m.disk).1
          pos := Function.update m.pos r (m.pos r + 1)
          seen := Function.update m.seen r (m.seen r ++ [(f m.disk).2]) }

/-- The states that can be reached, in any order of the processes. -/
def Reachable (acts : Fin (n + 1) → List (Act K V)) (k : K) (m : State n K V) : Prop :=
  Relation.ReflTransGen (Step acts) (start k) m

end GPSKet.SharedFiles
