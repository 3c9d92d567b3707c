import Verif.Spec.MarkovPath

/-! # Specification: averages along a Markov chain from a given start -/

namespace GPSKet.Spec

variable {α : Type} [Fintype α]

/-- Started at any configuration of positive weight, the average of `f` over `n` states has a mean squared error of at most `c / n`, and an error of at least `ε` with a probability of
at most `c / (n ε²)`. -/
def ConsistentInside (P : Matrix α α ℝ) (w : α → ℝ) (f : α → ℂ) : Prop :=
  ∃ c : ℝ, ∀ n : ℕ, 0 < n → ∀ x, w x ≠ 0 →
    pathExpect P n (fun l => averageError w f l ^ 2) x ≤ c / n ∧
    ∀ ε : ℝ, 0 < ε → pathExpect P n (Set.indicator {l | ε ≤ averageError w f l} 1) x ≤ c / (n * ε ^ 2)

end GPSKet.Spec
