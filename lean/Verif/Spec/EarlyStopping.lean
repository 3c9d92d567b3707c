import Mathlib.Order.Defs.LinearOrder

/-!
Specification of early stopping: where the smallest of the values seen so far is, when training is over,
and which parameters are reached by a number of steps.
-/

namespace GPSKet.EarlyStopping

variable {V P S : Type}

/-- `l` has its smallest value at `b`, and at no earlier place. -/
def IsFirstMin [LE V] [LT V] (l : List V) (b : Nat) : Prop :=
  ∃ v, l[b]? = some v ∧ (∀ w ∈ l, v ≤ w) ∧ ∀ (i : Nat) (w : V), i < b → l[i]? = some w → v < w

/-- The last `patience` values of `l` have not improved on the smallest value before them. -/
def Exhausted [LE V] [LT V] (patience : Nat) (l : List V) : Prop :=
  ∃ b, IsFirstMin l b ∧ b + 1 + patience ≤ l.length

/-- The parameters and sampler of an uninterrupted optimisation: `step` does one step. -/
def traj (step : P → S → P × S) (θ : P) (s : S) : Nat → P × S
  | 0 => (θ, s)
  | n + 1 => step (traj step θ s n).1 (traj step θ s n).2

/-- `θ` is reached from some initial parameters by `n` steps, whatever the sampler was at each. -/
inductive Trained (step : P → S → P × S) (Init : P → Prop) : Nat → P → Prop
  | start {θ} : Init θ → Trained step Init 0 θ
  | step {n θ} (s : S) : Trained step Init n θ → Trained step Init (n + 1) (step θ s).1

end GPSKet.EarlyStopping
