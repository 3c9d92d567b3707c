import Mathlib.Data.Nat.Notation
import Mathlib.Logic.Relation
import Mathlib.Logic.Function.Basic

/-!
# Parallel programs with collective operations

What a run on several MPI processes is: every rank runs a program that computes by itself and calls collective operations.  A call has
an entry and a return.  The ranks proceed in any order.  A call may return as soon as the contributions have arrived from which its
result is computed (a broadcast as soon as the root has entered it, a reduction when all ranks have); an implementation of MPI may
also keep it until all ranks have entered.  The `i`-th calls of all ranks belong together; they must be of the same kind.
-/

namespace GPSKet.Parallel

/-- The kinds of collective operations. -/
inductive Coll where
  | bcast | scatter | gather | allgather | sum | mean | max | barrier
  deriving DecidableEq

/-- The program of a rank, which has an array (or another object) of type `V` in each call and ends with a result or an exception. -/
inductive Prog (V A : Type) where
  | done (a : A)
  | raise
  | call (c : Coll) (x : V) (k : V → Prog V A)

variable {n : ℕ} {V A B : Type}

/-- The operations on the contributions: how a reduction (or a gathering) combines them and how a scattered object is split. -/
structure Ops (n : ℕ) (V : Type) where
  combine : Coll → (Fin (n + 1) → V) → V
  split : V → Fin (n + 1) → V

/-- What rank `r` gets; the root is rank 0.  The ranks other than the root keep their own array in a gathering. -/
def result (ops : Ops n V) (c : Coll) (xs : Fin (n + 1) → V) (r : Fin (n + 1)) : V :=
  match c with
  | .bcast => xs 0
  | .scatter => ops.split (xs 0) r
  | .gather => if r = 0 then ops.combine .gather xs else xs r
  | c => ops.combine c xs

/-- Whether rank `r` needs the contribution of rank `s`. -/
def Needs (c : Coll) (r s : Fin (n + 1)) : Prop :=
  match c with
  | .bcast => s = 0
  | .scatter => s = 0
  | .gather => r = 0 ∨ s = r
  | _ => True

/-- The state of a parallel run: what is left of each program, the calls that each rank has entered so far, and the number of calls that it has
returned from. -/
structure State (n : ℕ) (V A : Type) where
  prog : Fin (n + 1) → Prog V A
  entered : Fin (n + 1) → List (Coll × V)
  returned : Fin (n + 1) → ℕ

/-- The beginning. -/
def start (ps : Fin (n + 1) → Prog V A) : State n V A := ⟨ps, fun _ => [], fun _ => 0⟩

/-- A step of one rank; `late` is true for an implementation that keeps calls until all ranks have entered. -/
inductive Step (ops : Ops n V) (late : Bool) : State n V A → State n V A → Prop where
  | enter (m : State n V A) (r : Fin (n + 1)) (c : Coll) (x : V) (k : V → Prog V A) (hp : m.prog r = .call c x k)
      (hr : (m.entered r).length = m.returned r) :
      Step ops late m { m with entered := Function.update m.entered r (m.entered r ++ [(c, x)]) }
  | leave (m : State n V A) (r : Fin (n + 1)) (c : Coll) (x : V) (k : V → Prog V A) (xs : Fin (n + 1) → V) (hp : m.prog r = .call c x k)
      (hr : (m.entered r).length = m.returned r + 1)
      (hs : ∀ s, (late = true ∨ Needs c r s) → (m.entered s)[m.returned r]? = some (c, xs s)) :
      Step ops late m
        { m with
          prog := Function.update m.prog r (k (result ops c xs r))
          returned := Function.update m.returned r (m.returned r + 1) }

/-- The states that can be reached, in any order of the ranks, with calls that return as early as possible. -/
def Reachable (ops : Ops n V) (ps : Fin (n + 1) → Prog V A) (m : State n V A) : Prop :=
  Relation.ReflTransGen (Step ops false) (start ps) m

/-- A rank has ended. -/
def Ended (p : Prog V A) : Prop := (∃ a, p = .done a) ∨ p = .raise

/-- **No rank waits for ever**: as long as a rank has not ended there is a step, even if all calls return late; a run cannot go on for ever
either, and at the end either all ranks have raised an exception (`none`) or all have results, as described by `post`. -/
def Safe (ops : Ops n V) (ps : Fin (n + 1) → Prog V A) (post : Option (Fin (n + 1) → A) → Prop) : Prop :=
  (∀ m, Reachable ops ps m → (∀ r, Ended (m.prog r)) ∨ ∃ m', Step ops true m m') ∧
  (∃ N, ∀ m, Reachable ops ps m → ∀ r, m.returned r ≤ N) ∧
  (∀ m, Reachable ops ps m → (∀ r, Ended (m.prog r)) →
    ((∀ r, m.prog r = .raise) ∧ post none) ∨ ∃ a, (∀ r, m.prog r = .done (a r)) ∧ post (some a))

/-- All ranks have the same result. -/
def Same (a : Option (Fin (n + 1) → A)) : Prop := ∃ u, a = some fun _ => u

/-- **Rank `r` waits for ever**, whatever the order and however early calls return. -/
def Hangs (ops : Ops n V) (ps : Fin (n + 1) → Prog V A) (r : Fin (n + 1)) : Prop :=
  ∀ m, Reachable ops ps m → ¬ Ended (m.prog r)

/-- First one program, then another that may use its result. -/
def Prog.bind : Prog V A → (A → Prog V B) → Prog V B
  | .done a, f => f a
  | .raise, _ => .raise
  | .call c x k, f => .call c x fun v => (k v).bind f

/-- A single call. -/
def Prog.coll (c : Coll) (x : V) : Prog V V := .call c x .done

instance : Monad (Prog V) where
  pure := .done
  bind := Prog.bind

end GPSKet.Parallel
