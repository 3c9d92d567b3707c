import Verif.Spec.Markov

/-! # Specification: convergence of a Markov chain from a given start -/

namespace GPSKet.Spec

variable {α : Type} [Fintype α] [DecidableEq α]

/-- Started at `x`, the law of the chain tends to the normalised weights. -/
def ConvergesFrom (P : Matrix α α ℝ) (w : α → ℝ) (x : α) : Prop :=
  ∀ y, Filter.Tendsto (fun n => (P ^ n) x y) Filter.atTop (nhds (w y / ∑ z, w z))

/-- Started at `x`, the chain stays there for ever. -/
def Frozen (P : Matrix α α ℝ) (x : α) : Prop := ∀ n, (P ^ n) x x = 1

end GPSKet.Spec
