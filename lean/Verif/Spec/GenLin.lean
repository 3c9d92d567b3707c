import Mathlib.Analysis.SpecialFunctions.Exp

/-! # Specification of the fit of amplitudes by the generalised linear model -/

namespace GPSKet.Spec

variable {ι n : Type} [Fintype ι] [Fintype n]

/-- The predicted amplitude `exp(sum_f K_if theta_f)`. -/
noncomputable def predicted (K : ι → n → ℝ) (theta : n → ℝ) (i : ι) : ℝ := Real.exp (∑ f, K i f * theta f)

/-- `beta * sum_i v_i (amp_i - predicted_i)^2 + sum_f c_f (theta_f - prior_f)^2` -/
noncomputable def ampLoss (beta : ℝ) (K : ι → n → ℝ) (v amps : ι → ℝ) (c prior theta : n → ℝ) : ℝ :=
  beta * ∑ i, v i * (amps i - predicted K theta i) ^ 2 + ∑ f, c f * (theta f - prior f) ^ 2

/-- The same with the predicted amplitudes replaced by their first-order expansion around `old`. -/
noncomputable def linearisedLoss (beta : ℝ) (K : ι → n → ℝ) (v amps : ι → ℝ) (c prior old theta : n → ℝ) : ℝ :=
  beta * ∑ i, v i * (amps i - predicted K old i * (1 + ∑ f, K i f * (theta f - old f))) ^ 2 + ∑ f, c f * (theta f - prior f) ^ 2

end GPSKet.Spec
