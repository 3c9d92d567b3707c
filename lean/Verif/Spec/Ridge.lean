import Mathlib.Analysis.RCLike.Lemmas
import Mathlib.Data.Complex.BigOperators
import Mathlib.Analysis.Complex.Basic

/-! # Specification of a regularised weighted least-squares problem -/

namespace GPSKet.Spec

variable {𝕜 : Type} [RCLike 𝕜] {ι n : Type} [Fintype ι] [Fintype n]

/-- `beta * sum_i S_i |y_i - sum_f K_if theta_f|^2 + sum_f c_f |theta_f - prior_f|^2` -/
noncomputable def ridgeLoss (beta : ℝ) (K : ι → n → 𝕜) (S : ι → ℝ) (y : ι → 𝕜) (c : n → ℝ) (prior theta : n → 𝕜) : ℝ :=
  beta * ∑ i, S i * ‖y i - ∑ f, K i f * theta f‖ ^ 2 + ∑ f, c f * ‖theta f - prior f‖ ^ 2

/-- The same for complex parameters with separate precisions for real and imaginary parts. -/
noncomputable def ridgeLossSplit (beta : ℝ) (K : ι → n → ℂ) (S : ι → ℝ) (y : ι → ℂ) (cRe cIm : n → ℝ) (prior : n → ℝ)
    (theta : n → ℂ) : ℝ :=
  beta * ∑ i, S i * ‖y i - ∑ f, K i f * theta f‖ ^ 2
    + ∑ f, (cRe f * ((theta f).re - prior f) ^ 2 + cIm f * (theta f).im ^ 2)

/-- The weight with which feature `f` occurs in the data. -/
noncomputable def occurrence (K : ι → n → 𝕜) (S : ι → ℝ) (f : n) : ℝ :=
  ∑ i, S i * ‖K i f‖ ^ 2

open Classical in
/-- Squared errors of the log-amplitudes for nonzero target amplitudes, and the (real part of the) log-amplitude itself for zero target
amplitudes, plus the penalty. -/
noncomputable def logLossWithZeros (K : ι → n → 𝕜) (S : ι → ℝ) (amps logAmps : ι → 𝕜) (c : n → ℝ) (prior theta : n → 𝕜) : ℝ :=
  (∑ i, if amps i = 0 then RCLike.re (∑ f, K i f * theta f) else S i * ‖logAmps i - ∑ f, K i f * theta f‖ ^ 2)
    + ∑ f, c f * ‖theta f - prior f‖ ^ 2

end GPSKet.Spec
