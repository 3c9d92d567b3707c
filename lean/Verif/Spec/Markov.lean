import Mathlib.Data.Matrix.Mul
import Mathlib.Data.Real.Basic
import Mathlib.Topology.MetricSpace.Basic
import Mathlib.Topology.Instances.Real.Lemmas

/-! # Specification: finite Markov chains -/

namespace GPSKet.Spec

variable {α : Type} [Fintype α]

/-- `P x y` is the probability to be at `y` one step after being at `x`. -/
structure IsKernel (P : Matrix α α ℝ) : Prop where
  nonneg : ∀ x y, 0 ≤ P x y
  sum : ∀ x, ∑ y, P x y = 1

/-- The weights `w` do not change under a step of the chain. -/
def Invariant (P : Matrix α α ℝ) (w : α → ℝ) : Prop := ∀ y, ∑ x, w x * P x y = w y

/-- In some number of steps every state is reached from every state with positive probability. -/
def Irreducible [DecidableEq α] (P : Matrix α α ℝ) : Prop := ∀ x y, ∃ n, 0 < (P ^ n) x y

/-- Wherever it is started, the law of the chain tends to the normalised weights. -/
def Converges [DecidableEq α] (P : Matrix α α ℝ) (w : α → ℝ) : Prop :=
  ∀ x y, Filter.Tendsto (fun n => (P ^ n) x y) Filter.atTop (nhds (w y / ∑ z, w z))

end GPSKet.Spec
