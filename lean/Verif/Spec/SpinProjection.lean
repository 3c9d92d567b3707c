import Verif.Spec.TotalSpin
import Mathlib.Algebra.Polynomial.Eval.Defs
import Mathlib.MeasureTheory.Integral.IntervalIntegral.Basic

/-!
# Specification: Gauss-Legendre quadrature and states with equally many up and down electrons

Nothing here refers to the code.
-/

namespace GPSKet.Spec

/-- The `g` points `x` and weights `w` of the Gauss-Legendre quadrature on `[-1, 1]`: it integrates every polynomial of degree at most
`2 g - 1` exactly. -/
def IsGaussLegendre {g : ℕ} (x w : Fin g → ℝ) : Prop :=
  (∀ i, x i ∈ Set.Icc (-1 : ℝ) 1) ∧
    ∀ p : Polynomial ℝ, p.natDegree < 2 * g → ∑ i, w i * p.eval (x i) = ∫ t in (-1 : ℝ)..1, p.eval t

/-- The state with the amplitudes `psi` on the configurations with `n` up and `n` down electrons, which vanishes on all others. -/
noncomputable def withElectrons {L : ℕ} (n : ℕ) (psi : Cfg L → ℂ) : Cfg L → ℂ := fun x =>
  if numElec false x = n ∧ numElec true x = n then psi x else 0

end GPSKet.Spec
