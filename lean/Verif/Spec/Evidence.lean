import Mathlib.MeasureTheory.Constructions.Pi
import Mathlib.MeasureTheory.Integral.Bochner.Basic
import Mathlib.MeasureTheory.Measure.Lebesgue.Complex
import Mathlib.Analysis.SpecialFunctions.Exp
import Mathlib.Analysis.SpecialFunctions.Sqrt

/-!
# Specification of the marginal likelihood of a linear model

The data `y` are the linear predictions `∑_f K_if w_f` plus independent normal noise of precision `S_i` (inverse variance); the weights
`w_f` are independently normally distributed around 0 with precision `a_f`.  The marginal likelihood (evidence) is the
probability density of the data, that is the integral of the product of the two densities over all weights.
-/

namespace GPSKet.Spec

open MeasureTheory

variable {ι m : Type} [Fintype ι] [Fintype m]

/-- The density of a real normal distribution with mean 0 and the given precision. -/
noncomputable def normalDensity (precision x : ℝ) : ℝ :=
  Real.sqrt (precision / (2 * Real.pi)) * Real.exp (-(precision / 2) * x ^ 2)

/-- The density of a circularly symmetric complex normal distribution with mean 0 and the given precision. -/
noncomputable def circularDensity (precision : ℝ) (z : ℂ) : ℝ :=
  precision / Real.pi * Real.exp (-precision * ‖z‖ ^ 2)

/-- Real data and real weights. -/
noncomputable def evidenceReal (K : ι → m → ℝ) (S : ι → ℝ) (y : ι → ℝ) (a : m → ℝ) : ℝ :=
  ∫ w : m → ℝ, (∏ i, normalDensity (S i) (y i - ∑ f, K i f * w f)) * ∏ f, normalDensity (a f) (w f)

open Classical in
/-- Real data and real weights, where the data in `z` are amplitudes that vanish: instead of a normal density around the prediction of the
log-amplitude they contribute a factor that decays exponentially with this prediction (half of it, as the amplitude decays). -/
noncomputable def evidenceRealZeros (z : ι → Prop) (K : ι → m → ℝ) (S : ι → ℝ) (y : ι → ℝ) (a : m → ℝ) : ℝ :=
  ∫ w : m → ℝ, (∏ i, if z i then Real.exp (-(1 / 2) * ∑ f, K i f * w f) else normalDensity (S i) (y i - ∑ f, K i f * w f))
    * ∏ f, normalDensity (a f) (w f)

/-- Complex data and complex weights. -/
noncomputable def evidenceComplex (K : ι → m → ℂ) (S : ι → ℝ) (y : ι → ℂ) (a : m → ℝ) : ℝ :=
  ∫ w : m → ℂ, (∏ i, circularDensity (S i) (y i - ∑ f, K i f * w f)) * ∏ f, circularDensity (a f) (w f)

/-- Complex data and real weights (of complex features). -/
noncomputable def evidenceMixed (K : ι → m → ℂ) (S : ι → ℝ) (y : ι → ℂ) (a : m → ℝ) : ℝ :=
  ∫ w : m → ℝ, (∏ i, circularDensity (S i) (y i - ∑ f, K i f * (w f : ℂ))) * ∏ f, normalDensity (a f) (w f)

end GPSKet.Spec
