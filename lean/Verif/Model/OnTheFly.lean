import Verif.Model.SRPrecond

/-!
# Model of the lazy tensor `QGTOnTheFlyRMSProp` (`GPSKet/optimizer/qgt/qgt_onthefly_rmsprop.py`)

Trees of parameters are those of `Model/SRPrecond.lean`: real entries indexed by `ρ`, complex entries indexed by `γ`.  The samples are the
pairs of a rank and a local index.
-/

namespace GPSKet.OnTheFly

open Matrix GPSKet.RMSProp GPSKet.SRPrecond

variable {ρ γ : Type} [Fintype ρ] [Fintype γ] {R P : ℕ} {ι : Type} [Fintype ι]

/-- The linear map `jvp_fn` of `jax.linearize(fun, params)` (qgt_onthefly_rmsprop.py:46-53): the derivatives of the log-amplitude of each
sample with respect to the real parameters, and the two Wirtinger derivatives with respect to the complex ones. -/
structure Jvp (ρ γ : Type) (R : ℕ) (ι : Type) where
  real : Fin R → ι → ρ → ℂ
  hol : Fin R → ι → γ → ℂ
  anti : Fin R → ι → γ → ℂ

/-- `jvp_fn(v)` (qgt_onthefly_rmsprop.py:28). -/
noncomputable def Jvp.apply (J : Jvp ρ γ R ι) (v : Tree ρ γ) (r : Fin R) (a : ι) : ℂ :=
  (∑ i, J.real r a i * (v.real i : ℂ)) + ∑ j, (J.hol r a j * v.cplx j + J.anti r a j * (starRingEnd ℂ) (v.cplx j))

/-- `jax.linear_transpose(jvp_fn, v)` on one rank (qgt_onthefly_rmsprop.py:26): JAX's rules transpose multiplication with a constant into
multiplication with the same constant, `conj` into `conj`, and the conversion of a real number to a complex one into the real part. -/
noncomputable def Jvp.transpose (J : Jvp ρ γ R ι) (r : Fin R) (c : ι → ℂ) : Tree ρ γ where
  real i := (∑ a, c a * J.real r a i).re
  cplx j := (∑ a, c a * J.hol r a j) + (starRingEnd ℂ) (∑ a, c a * J.anti r a j)

/-- `tree_conj`. -/
def treeConj (t : Tree ρ γ) : Tree ρ γ where
  real i := t.real i
  cplx j := (starRingEnd ℂ) (t.cplx j)

/-- `mat_vec` (qgt_onthefly_rmsprop.py:23-43). -/
noncomputable def matVec (J : Jvp ρ γ R ι) (v : Tree ρ γ) (shift : ℝ) (ema : Tree ρ γ) (eps : ℝ) : Tree ρ γ :=
  let w1 : Fin R → ι → ℂ := fun r a => J.apply v r a * (1 / ((Fintype.card ι * R : ℕ) : ℂ))
  let m : ℂ := (∑ r, ∑ a, w1 r a) / ((Fintype.card ι * R : ℕ) : ℂ)
  let w : Fin R → ι → ℂ := fun r a => w1 r a - m
  let local_ : Fin R → Tree ρ γ := fun r => treeConj (J.transpose r fun a => (starRingEnd ℂ) (w r a))
  let res : Tree ρ γ := ⟨fun i => ∑ r, (local_ r).real i, fun j => ∑ r, (local_ r).cplx j⟩
  { real := fun i => (1 - shift) * res.real i + shift * (Real.sqrt (ema.real i) + eps) * v.real i
    cplx := fun j => (1 - (shift : ℂ)) * res.cplx j + (shift : ℂ) * (csqrt (ema.cplx j) + eps) * v.cplx j }

/-- The kinds of states the constructor tells apart (qgt_onthefly_rmsprop.py:70-80). -/
inductive StateKind
  | fullSum
  | uniqueSamples
  | sampled
deriving DecidableEq

/-- `mode` (qgt_onthefly_rmsprop.py:96-107). -/
inductive Mode
  | holomorphic
  | real
  | complex
deriving DecidableEq

/-- `QGTOnTheFlyRMSPropT` (qgt_onthefly_rmsprop.py:126-135). -/
structure QGT (ρ γ : Type) (R : ℕ) (ι : Type) where
  jvp : Jvp ρ γ R ι
  shift : ℝ
  eps : ℝ
  ema : Tree ρ γ
  mode : Mode

open Classical in
/-- `QGTOnTheFlyRMSProp` (qgt_onthefly_rmsprop.py:56-123); `none` is an exception.  NetKet's `tree_leaf_isreal` and `tree_leaf_iscomplex` ask
whether any leaf is real or complex.  The warning about an undeclared `holomorphic` is not modelled. -/
noncomputable def construct (kind : StateKind) (jvp : Jvp ρ γ R ι) (ema : Tree ρ γ) (diag_shift eps : ℝ) (chunk_size : Option ℕ)
    (holomorphic : Option Bool) : Option (QGT ρ γ R ι) :=
  if ¬ (0 ≤ diag_shift ∧ diag_shift ≤ 1) then none
  else if kind = .fullSum then none
  else if kind = .uniqueSamples then none
  else if chunk_size.isSome then none
  else if holomorphic = some true then
    if Nonempty ρ then none else some ⟨jvp, diag_shift, eps, ema, .holomorphic⟩
  else if ¬ Nonempty γ then some ⟨jvp, diag_shift, eps, ema, .real⟩
  else some ⟨jvp, diag_shift, eps, ema, .complex⟩

/-- `__matmul__` on a tree (qgt_onthefly_rmsprop.py:137-138, 187-194). -/
noncomputable def QGT.matmul (S : QGT ρ γ R ι) (v : Tree ρ γ) : Tree ρ γ := matVec S.jvp v S.shift S.ema S.eps

/-- `unravel` for trees of real parameters (NetKet's `tree_ravel`, qgt_onthefly_rmsprop.py:182-183), in the layout `e`. -/
def unravelReal (e : ρ ≃ Fin P) (v : Fin P → ℝ) : Tree ρ γ := ⟨fun i => v (e i), fun _ => 0⟩

/-- `tree_ravel` of a tree of real parameters (qgt_onthefly_rmsprop.py:193-194). -/
def ravelReal (e : ρ ≃ Fin P) (t : Tree ρ γ) : Fin P → ℝ := fun k => t.real (e.symm k)

/-- `unravel` for trees of complex parameters. -/
def unravelCplx (e : γ ≃ Fin P) (v : Fin P → ℂ) : Tree ρ γ := ⟨fun _ => 0, fun i => v (e i)⟩

/-- `tree_ravel` of a tree of complex parameters. -/
def ravelCplx (e : γ ≃ Fin P) (t : Tree ρ γ) : Fin P → ℂ := fun k => t.cplx (e.symm k)

/-- `__matmul__` with an array of `ndim` axes and the entries `vec`, for real parameters (qgt_onthefly_rmsprop.py:170-196); `none` is an
exception. -/
noncomputable def QGT.matmulArray (e : ρ ≃ Fin P) (S : QGT ρ γ R ι) (ndim : ℕ) (vec : List ℝ) : Option (List ℝ) :=
  if ndim ≠ 1 then none
  else if h : P = vec.length then
    some (List.ofFn (ravelReal e (S.matmul (unravelReal e fun k => vec.get (k.cast h)))))
  else none

/-- `to_dense` (qgt_onthefly_rmsprop.py:143-152, 216-238) for real parameters: the rows are the products with the unit vectors; a real array
is not transposed. -/
noncomputable def QGT.toDenseReal (e : ρ ≃ Fin P) (S : QGT ρ γ R ι) : Option (Matrix (Fin P) (Fin P) ℝ) :=
  if S.mode = .complex then none
  else some fun i => ravelReal e (S.matmul (unravelReal e fun k => if k = i then 1 else 0))

/-- `to_dense` (qgt_onthefly_rmsprop.py:143-152, 216-238) for complex parameters: a complex array is transposed. -/
noncomputable def QGT.toDenseCplx (e : γ ≃ Fin P) (S : QGT ρ γ R ι) : Option (Matrix (Fin P) (Fin P) ℂ) :=
  if S.mode = .complex then none
  else
    let out : Matrix (Fin P) (Fin P) ℂ := fun i => ravelCplx e (S.matmul (unravelCplx e fun k => if k = i then 1 else 0))
    some outᵀ

/-- `_solve` (qgt_onthefly_rmsprop.py:140-141, 200-213): the solver gets the operator, the vector and a start, zero unless given.  The
`info` of the solver is not modelled. -/
noncomputable def QGT.solve (S : QGT ρ γ R ι) (solver : (Tree ρ γ → Tree ρ γ) → Tree ρ γ → Tree ρ γ → Tree ρ γ) (y : Tree ρ γ)
    (x0 : Option (Tree ρ γ)) : Tree ρ γ :=
  solver S.matmul y (x0.getD ⟨fun _ => 0, fun _ => 0⟩)

end GPSKet.OnTheFly
