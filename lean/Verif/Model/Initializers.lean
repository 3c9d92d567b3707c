import Mathlib.Analysis.SpecialFunctions.Exp
import Mathlib.Analysis.SpecialFunctions.Trigonometric.Basic
import Mathlib.Analysis.Complex.Basic
import Mathlib.Analysis.Complex.Trigonometric
import Mathlib.LinearAlgebra.Matrix.ConjTranspose

/-!
# Model of `GPSKet/nn/initializers.py`

Exact arithmetic.  A dtype is real or complex; the entries of an array of a real dtype are complex numbers with imaginary part 0.
-/

namespace GPSKet.Initializers

/-- The kind of a dtype. -/
inductive Kind
  | real
  | complex
  deriving DecidableEq

/-- `normal(sigma, dtype)(key, shape, dtype')` (initializers.py:6-33).  `made` is the kind of the dtype given to `normal`, which alone
decides between the two branches, and `called` that of the dtype given to the resulting function.  `draw kind i` is the standard normal
number drawn for entry `i` with a dtype of that kind.  `astype` of a complex number to a real dtype is its real part. -/
noncomputable def normal {ι : Type} (made called : Kind) (sigma : ℝ) (draw : Kind → ι → ℂ) : ι → ℂ := fun i =>
  match made with
  | .complex =>
    let phase : ℂ := draw .real i * sigma
    let eps := Complex.exp (Complex.I * phase)
    match called with
    | .complex => eps
    | .real => (eps.re : ℂ)
  | .real => 1 + draw called i * sigma

/-- `orthogonal(scale, column_axis, dtype)(key, shape, dtype')` (initializers.py:36-63).  `keys` is `jax.random.split(key, shape[0])`;
`orthoInit` is the initialiser of `jax.nn.initializers`; `none` is the `ValueError`. -/
def orthogonal {Key R : Type} (keys : ℕ → Key) (orthoInit : Key → (r c : ℕ) → Matrix (Fin r) (Fin c) R) (shape : List ℕ) :
    Option ((k r c : ℕ) × (Fin k → Matrix (Fin r) (Fin c) R)) :=
  match shape with
  | [k, r, c] => some ⟨k, r, c, fun i => orthoInit (keys i) r c⟩
  | _ => none

end GPSKet.Initializers
