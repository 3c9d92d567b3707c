import Mathlib.Analysis.Matrix.Spectrum
import Mathlib.Analysis.Complex.Basic

/-!
# Model of `GPSKet/optimizer/solvers.py` and `GPSKet/optimizer/sr_dense.py`

Gradients are vectors (raveling and unraveling a tree of parameters are inverse to each other).
-/

namespace GPSKet.Solvers

variable {n : Type} [Fintype n] [DecidableEq n]

/-- What a solver may be handed as matrix: an operator object with a method `to_dense`, or an array, which has none. -/
inductive Lhs (n : Type)
  | operator (A : Matrix n n ℂ)
  | array (A : Matrix n n ℂ)

/-- `A.to_dense()`; `none` is an `AttributeError`. -/
def Lhs.toDense : Lhs n → Option (Matrix n n ℂ)
  | .operator A => some A
  | .array _ => none

open Classical in
/-- `jnp.linalg.pinv(A, rcond=rcond, hermitian=True)` (solvers.py:9) for a Hermitian matrix: the eigenvalues `w` with
`|w| > rcond * max |w|` are inverted, the others replaced by 0.  (For a matrix that is not Hermitian, LAPACK reads one triangle
only; such matrices are outside the model and give 0.) -/
noncomputable def hermitianPinv (rcond : ℝ) (A : Matrix n n ℂ) : Matrix n n ℂ :=
  if h : A.IsHermitian then
    let V : Matrix n n ℂ := h.eigenvectorUnitary
    let w := h.eigenvalues
    V * Matrix.diagonal (fun i => if ∀ j, rcond * |w j| < |w i| then ((w i)⁻¹ : ℂ) else 0) * V.conjTranspose
  else 0

/-- `pinv(A, b)` (solvers.py:5-11): the solution and the information `None`. -/
noncomputable def pinv (rcond : ℝ) (A : Lhs n) (b : n → ℂ) : Option ((n → ℂ) × Unit) := do
  let A ← A.toDense
  return ((hermitianPinv rcond A).mulVec b, ())

/-- What a solver returns to `SRDense`: an array, or a tuple of an array and information. -/
inductive Result (n : Type)
  | array (x : n → ℂ)
  | tuple (x : n → ℂ)

/-- `unravel_fun(x0)` (sr_dense.py:34) takes an array; a tuple is a `TypeError`. -/
def unravel : Result n → Option (n → ℂ)
  | .array x => some x
  | .tuple _ => none

/-- `SRDense.__call__` (sr_dense.py:22-36): the solver is handed the dense array.  `none` is an exception. -/
def srDense (solver : Lhs n → (n → ℂ) → Option (Result n)) (S : Matrix n n ℂ) (gradient : n → ℂ) : Option (n → ℂ) := do
  let S ← (Lhs.operator S).toDense
  let x0 ← solver (Lhs.array S) gradient
  unravel x0

/-- The default solver of `SRDense` (sr_dense.py:15). -/
noncomputable def defaultSolver (A : Lhs n) (b : n → ℂ) : Option (Result n) :=
  (pinv 1e-12 A b).map fun r => .tuple r.1

end GPSKet.Solvers
