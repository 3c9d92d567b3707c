import Verif.Model.RMSProp

/-!
# Model of the preconditioner `SRRMSProp` (`GPSKet/optimizer/sr_rmsprop.py`) with `QGTJacobianDenseRMSProp`

A tree of parameters has real entries, indexed by `ρ`, and complex entries, indexed by `γ`.
-/

namespace GPSKet.SRPrecond

open Matrix GPSKet.RMSProp

variable {ρ γ : Type} {R P : ℕ} {ι : Type} [Fintype ι]

/-- A tree of parameters, of a gradient or of moving averages. -/
structure Tree (ρ γ : Type) where
  real : ρ → ℝ
  cplx : γ → ℂ

/-- The real coordinates of a tree: the real entries, and the real and imaginary parts of the complex ones. -/
abbrev Coord (ρ γ : Type) := ρ ⊕ (γ ⊕ γ)

/-- NetKet's `tree_to_real` (qgt_jacobian_dense_rmsprop.py:197). -/
def toReal (t : Tree ρ γ) : Coord ρ γ → ℝ
  | .inl i => t.real i
  | .inr (.inl i) => (t.cplx i).re
  | .inr (.inr i) => (t.cplx i).im

/-- The function `tree_to_real` returns for the way back (qgt_jacobian_dense_rmsprop.py:197, 201). -/
def reassemble (v : Coord ρ γ → ℝ) : Tree ρ γ where
  real i := v (.inl i)
  cplx i := ⟨v (.inr (.inl i)), v (.inr (.inr i))⟩

/-- `convert_tree_to_dense_format` (qgt_jacobian_dense_rmsprop.py:182-201) for a tree: the dense vector in the layout `e`.  The layout is
NetKet's and is the one of the columns of the Jacobian; nothing depends on which it is. -/
def toDenseFormat (e : Coord ρ γ ≃ Fin P) (t : Tree ρ γ) : Fin P → ℝ := fun k => toReal t (e.symm k)

/-- The function it returns for the way back: `reassemble(unravel(x))` (qgt_jacobian_dense_rmsprop.py:201). -/
def fromDenseFormat (e : Coord ρ γ ≃ Fin P) (v : Fin P → ℝ) : Tree ρ γ := reassemble fun q => v (e q)

/-- `QGTJacobianDenseRMSPropT` (qgt_jacobian_dense_rmsprop.py:102-109): the rows of the real Jacobian on every rank (pairs of a sample and a
component in mode `complex`), shift, `eps` and the tree of averages. -/
structure QGT (ρ γ : Type) (R P : ℕ) (ι : Type) where
  O : Fin R → Matrix ι (Fin P) ℝ
  shift : ℝ
  eps : ℝ
  ema : Tree ρ γ

/-- `mat_vec` with real arrays (qgt_jacobian_dense_rmsprop.py:173-179). -/
noncomputable def matVecReal (v : Fin P → ℝ) (O : Fin R → Matrix ι (Fin P) ℝ) (shift : ℝ) (ema : Fin P → ℝ) (eps : ℝ) : Fin P → ℝ :=
  let w : Fin R → ι → ℝ := fun r => O r *ᵥ v
  let res : Fin P → ℝ := fun k => ∑ r, ∑ a, w r a * O r a k
  fun k => (1 - shift) * res k + shift * (Real.sqrt (ema k) + eps) * v k

/-- `__matmul__` on a tree (qgt_jacobian_dense_rmsprop.py:111-124). -/
noncomputable def QGT.matmulTree (e : Coord ρ γ ≃ Fin P) (S : QGT ρ γ R P ι) (t : Tree ρ γ) : Tree ρ γ :=
  let vec := toDenseFormat e t
  let ema := toDenseFormat e S.ema
  fromDenseFormat e (matVecReal vec S.O S.shift ema S.eps)

/-- `__matmul__` inside a solver, where the vector is dense already (qgt_jacobian_dense_rmsprop.py:116-118). -/
noncomputable def QGT.matmulInSolve (e : Coord ρ γ ≃ Fin P) (S : QGT ρ γ R P ι) (v : Fin P → ℝ) : Fin P → ℝ :=
  let ema := toDenseFormat e S.ema
  matVecReal v S.O S.shift ema S.eps

/-- `to_dense` (qgt_jacobian_dense_rmsprop.py:143-160). -/
noncomputable def QGT.toDense (e : Coord ρ γ ≃ Fin P) (S : QGT ρ γ R P ι) : Matrix (Fin P) (Fin P) ℝ :=
  let ema := toDenseFormat e S.ema
  (1 - S.shift) • (∑ r, (S.O r)ᵀ * S.O r) + S.shift • Matrix.diagonal fun k => Real.sqrt (ema k) + S.eps

/-- What a solver sees of the operator: its products and its dense form. -/
structure Operator (P : ℕ) where
  matmul : (Fin P → ℝ) → Fin P → ℝ
  dense : Matrix (Fin P) (Fin P) ℝ

/-- `_solve` (qgt_jacobian_dense_rmsprop.py:126-140), without an initial guess. -/
noncomputable def QGT.solve (e : Coord ρ γ ≃ Fin P) (S : QGT ρ γ R P ι) (solver : Operator P → (Fin P → ℝ) → Fin P → ℝ) (y : Tree ρ γ) :
    Tree ρ γ :=
  fromDenseFormat e (solver ⟨S.matmulInSolve e, S.toDense e⟩ (toDenseFormat e y))

/-- `diag_shift`: a number or a schedule. -/
inductive Shift
  | scalar (s : ℝ)
  | schedule (s : ℕ → ℝ)

/-- The preconditioner (sr_rmsprop.py:13-19). -/
structure Precond (ρ γ : Type) where
  diag_shift : Shift
  decay : ℝ
  eps : ℝ
  ema : Tree ρ γ

open Classical in
/-- `__init__` (sr_rmsprop.py:21-50): a number outside `[0, 1]` as shift is an `AssertionError`.  `full(p.shape, initial_scale, p.dtype)` of
a complex entry has imaginary part 0. -/
noncomputable def construct (diag_shift : Shift) (decay eps initial_scale : ℝ) : Option (Precond ρ γ) :=
  let p : Precond ρ γ := ⟨diag_shift, decay, eps, ⟨fun _ => initial_scale, fun _ => (initial_scale : ℂ)⟩⟩
  match diag_shift with
  | .scalar s => if 0 ≤ s ∧ s ≤ 1 then some p else none
  | .schedule _ => some p

/-- `tree_map(update_ema, self._ema, gradient)` (sr_rmsprop.py:71-80). -/
noncomputable def updateTree (decay : ℝ) (nu g : Tree ρ γ) : Tree ρ γ where
  real i := updateEma decay (nu.real i) (g.real i)
  cplx i := updateEmaComplex decay (nu.cplx i) (g.cplx i)

/-- `tree_map(lambda nu: nu / (1 - self.decay**t), self._ema)` (sr_rmsprop.py:84). -/
noncomputable def correctTree (decay : ℝ) (t : ℕ) (nu : Tree ρ γ) : Tree ρ γ where
  real i := nu.real i / (1 - decay ^ t)
  cplx i := nu.cplx i / (((1 - decay ^ t : ℝ)) : ℂ)

open Classical in
/-- `lhs_constructor` (sr_rmsprop.py:52-66), with the assertion of `QGTJacobianDenseRMSProp` (qgt_jacobian_dense_rmsprop.py:41); `none` is an
exception. -/
noncomputable def lhs (p : Precond ρ γ) (O : Fin R → Matrix ι (Fin P) ℝ) (ema : Tree ρ γ) (step : Option ℕ) : Option (QGT ρ γ R P ι) := do
  let s ← match p.diag_shift with
    | .scalar s => some s
    | .schedule f => step.bind fun k => if 0 ≤ f k ∧ f k ≤ 1 then some (f k) else none
  if 0 ≤ s ∧ s ≤ 1 then some ⟨O, s, p.eps, ema⟩ else none

/-- `__call__` (sr_rmsprop.py:68-92): the result (`none` is an exception) and the preconditioner afterwards.  The average is assigned before
`step + 1` is evaluated, which is a `TypeError` without a step. -/
noncomputable def call (e : Coord ρ γ ≃ Fin P) (solver : Operator P → (Fin P → ℝ) → Fin P → ℝ) (p : Precond ρ γ)
    (O : Fin R → Matrix ι (Fin P) ℝ) (gradient : Tree ρ γ) (step : Option ℕ) : Option (Tree ρ γ) × Precond ρ γ :=
  let p' := { p with ema := updateTree p.decay p.ema gradient }
  let result : Option (Tree ρ γ) := do
    let t ← step.map (· + 1)
    let ema_hat := correctTree p'.decay t p'.ema
    let S ← lhs p' O ema_hat step
    return S.solve e solver gradient
  (result, p')

/-- The preconditioner after a history of calls with the given gradients and steps; exceptions are caught by the caller. -/
noncomputable def callAll (e : Coord ρ γ ≃ Fin P) (solver : Operator P → (Fin P → ℝ) → Fin P → ℝ) (p : Precond ρ γ)
    (calls : List ((Fin R → Matrix ι (Fin P) ℝ) × Tree ρ γ × Option ℕ)) : Precond ρ γ :=
  calls.foldl (fun p c => (call e solver p c.1 c.2.1 c.2.2).2) p

end GPSKet.SRPrecond
