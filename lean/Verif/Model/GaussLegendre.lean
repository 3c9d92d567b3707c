import Mathlib.Analysis.SpecialFunctions.Trigonometric.Inverse

/-!
# Model of the angles and weights of the spin projection (`GPSKet/models/pfaffian.py:11-13`)
-/

namespace GPSKet.SpinProjection

/-- `get_gauss_leg_elements_Sy` (pfaffian.py:11-13).  `leggauss` is `np.polynomial.legendre.leggauss`, the points and weights for a number
of points; arrays are functions, `HashableArray` wrappers are dropped. -/
noncomputable def gaussLegElementsSy (leggauss : (g : ℕ) → (Fin g → ℝ) × (Fin g → ℝ)) (n_grid : ℕ) : (Fin n_grid → ℝ) × (Fin n_grid → ℝ) :=
  let x := (leggauss n_grid).1
  let w := (leggauss n_grid).2
  (fun i => Real.arccos (x i), w)

end GPSKet.SpinProjection
