import Verif.Spec.Markov
import Mathlib.Analysis.Complex.Norm
import Mathlib.Algebra.Notation.Indicator

/-! # Specification: averages along a Markov chain -/

namespace GPSKet.Spec

variable {α : Type} [Fintype α]

/-- The expected value of a function of the next `n` states of the chain that is at `x`; the list holds them in order. -/
def pathExpect (P : Matrix α α ℝ) : ℕ → (List α → ℝ) → α → ℝ
  | 0, F, _ => F []
  | n + 1, F, x => ∑ y, P x y * pathExpect P n (fun l => F (y :: l)) y

/-- The average of `f` with respect to weights. -/
noncomputable def weightedMean (w : α → ℝ) (f : α → ℂ) : ℂ := (∑ x, (w x : ℂ) * f x) / ((∑ x, w x : ℝ) : ℂ)

/-- The error of the average of `f` over a list of states, as an estimate of its weighted mean. -/
noncomputable def averageError (w : α → ℝ) (f : α → ℂ) (l : List α) : ℝ := ‖(l.map f).sum / (l.length : ℂ) - weightedMean w f‖

/-- Averages along the chain are consistent: wherever it is started, the mean squared error after `n` steps is at most `c / n`, and so
the probability of an error of at least `ε` is at most `c / (n ε²)`. -/
def Consistent (P : Matrix α α ℝ) (w : α → ℝ) (f : α → ℂ) : Prop :=
  ∃ c : ℝ, ∀ n : ℕ, 0 < n → ∀ x,
    pathExpect P n (fun l => averageError w f l ^ 2) x ≤ c / n ∧
    ∀ ε : ℝ, 0 < ε → pathExpect P n (Set.indicator {l | ε ≤ averageError w f l} 1) x ≤ c / (n * ε ^ 2)

end GPSKet.Spec
