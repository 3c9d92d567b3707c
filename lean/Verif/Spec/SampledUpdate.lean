import Verif.Spec.MarkovPath

/-! # Specification: the stochastic-reconfiguration equation with exact averages, and several independent chains -/

namespace GPSKet.Spec

variable {α : Type} [Fintype α] {P : ℕ}

/-- The covariance `⟨(f - ⟨f⟩)* (g - ⟨g⟩)⟩` with respect to weights. -/
noncomputable def covariance (w : α → ℝ) (f g : α → ℂ) : ℂ :=
  weightedMean w fun x => (starRingEnd ℂ) (f x - weightedMean w f) * (g x - weightedMean w g)

/-- `u` solves the equation `S u = F`, where `S` holds the covariances of the logarithmic derivatives `O` and `F` their covariances with the
local energies `E`, and no other solution has a smaller norm. -/
def SRSolution (w : α → ℝ) (O : α → Fin P → ℂ) (E : α → ℂ) (u : Fin P → ℂ) : Prop :=
  (∀ k, ∑ l, covariance w (fun x => O x k) (fun x => O x l) * u l = covariance w (fun x => O x k) E) ∧
  ∀ y : Fin P → ℂ, (∀ k, ∑ l, covariance w (fun x => O x k) (fun x => O x l) * y l = covariance w (fun x => O x k) E) →
    ∑ k, ‖u k‖ ^ 2 ≤ ∑ k, ‖y k‖ ^ 2

/-- The expected value of a function of the next `n` states of independent chains that are at the given states. -/
def chainsExpect (T : Matrix α α ℝ) (n : ℕ) : List α → (List (List α) → ℝ) → ℝ
  | [], F => F []
  | x :: xs, F => pathExpect T n (fun l => chainsExpect T n xs fun ls => F (l :: ls)) x

end GPSKet.Spec
