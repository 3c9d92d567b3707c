import Verif.Model.HubbardOnTheFly
import Verif.Model.AbInitioSparse
import Verif.Model.J1J2
import Verif.Model.UniqueSamples

/-!
# Model of `GPSKet/vqs/mc/mc_state/expect.py`, of the kernels the operators provide, and of `expect` of unique-sample states

`nkjax.vmap_chunked` and `nkjax.expect` belong to NetKet; the forward pass of the latter evaluates the kernel on the flat list of
samples, restores the axis of the chains with `reshape((n_chains, -1))` and reports statistics over all ranks.  MPI sums are sums over ranks.
-/

namespace GPSKet.Expect

variable {L ranks chains len : ℕ} {A Cache X Y : Type}

/-- `x.reshape((-1, size, ...))` of a list whose length is a multiple of `size`. -/
def blocks (size : ℕ) (xs : List X) : List (List X) :=
  (List.range (xs.length / size)).map fun i => (xs.drop (i * size)).take size

/-- NetKet's `vmap_chunked(f, chunk_size=chunk_size)(xs)` (called in hubbard.py:200, J1J2.py:127, ab_initio.py:957,
ab_initio_sparse.py:414): the blocks are mapped one after the other, a remainder is mapped separately and appended.  `none`: division
by a chunk size of zero. -/
def vmapChunked (f : X → Y) (chunk_size : Option ℕ) (xs : List X) : Option (List Y) :=
  match chunk_size with
  | none => some (xs.map f)
  | some c =>
    if c = 0 then none
    else if xs.length / c = 0 ∨ c ≥ xs.length then some (xs.map f)
    else
      let n_rest := xs.length % c
      let y_chunks := ((blocks c (xs.take (xs.length - n_rest))).map fun b => b.map f).flatten
      if n_rest = 0 then some y_chunks else some (y_chunks ++ (xs.drop (xs.length - n_rest)).map f)

/-- What `expect` reads of a state: the model with its attribute `apply_fast_update` (`none`: no such attribute), the electron
numbers of the Hilbert space, and on each rank the samples with one row per chain. -/
structure VState (L : ℕ) (A Cache : Type) (ranks chains len : ℕ) where
  model : Spec.FastModel (Fin L) A Cache
  apply_fast_update : Option Bool
  n_elec : ℕ × ℕ
  samples : Fin ranks → Fin chains → Fin len → Fin L → A

/-- The amplitudes as the kernel obtains them, with `use_fast_update` of `get_local_kernel` (hubbard.py:217-220, J1J2.py:141-144,
ab_initio.py:974-977, ab_initio_sparse.py:446-449). -/
def source (model : Spec.FastModel (Fin L) A Cache) (apply_fast_update : Option Bool) : AmpSource L A Cache :=
  let use_fast_update := match apply_fast_update with
    | some b => b
    | none => false
  if use_fast_update then .fast model else .full model.full

/-- The operators on fermions, with the attributes that `get_local_kernel_arguments` reads (hubbard.py:204-210, ab_initio.py:960-965,
ab_initio_sparse.py:416-437). -/
inductive FermionOp (L : ℕ)
  | hubbard (U : ℂ) (edges : List ((Fin L × Fin L) × ℂ))
  | abInitio (t_mat : Fin L → Fin L → ℂ) (eri_mat : Fin L → Fin L → Fin L → Fin L → ℂ)
  | abInitioSparse (h1 : Sparse1 L ℂ) (h2 : Sparse2 L ℂ)

/-- The constructors of the ab-initio operators for integrals `h`, `e` (ab_initio.py:15-27, ab_initio_sparse.py:30-88). -/
noncomputable def FermionOp.ofIntegrals (sparse : Bool) (h : Fin L → Fin L → ℂ) (e : Fin L → Fin L → Fin L → Fin L → ℂ) : FermionOp L :=
  if sparse then .abInitioSparse (sparse1 h) (sparse2 e) else .abInitio (abT h e) e

/-- The kernel that `get_local_kernel` returns, applied to the arguments of `get_local_kernel_arguments` (hubbard.py:213-223,
ab_initio.py:968-983, ab_initio_sparse.py:440-455): the ab-initio kernels get the electron numbers of the state's Hilbert space. -/
noncomputable def FermionOp.kernel (op : FermionOp L) (n_elec : ℕ × ℕ) (src : AmpSource L (Fin 4) Cache) (x : Cfg L) : ℂ :=
  match op with
  | .hubbard U edges => hubbardLocalEn src U edges x
  | .abInitio t eri => abLocalEn src n_elec t eri x
  | .abInitioSparse h1 h2 => sparseLocalEn src n_elec h1 h2 x

/-- What is reported.  `rows r` are the local values of rank `r` with one row per chain, from which NetKet computes error bars and R̂. -/
structure Stats (ranks : ℕ) where
  mean : ℂ
  variance : ℝ
  rows : Fin ranks → List (List ℂ)

/-- `jax.lax.collapse(samples, 0, 2)` (expect.py:66-67). -/
def collapse (samples : Fin chains → Fin len → X) : List X := (List.ofFn fun c => List.ofFn fun k => samples c k).flatten

/-- Statistics of the local values of all ranks, in `nkjax.expect` with `n_chains=n_chains` (expect.py:65, 72-90). -/
noncomputable def statistics (n_chains : ℕ) (vals : Fin ranks → List ℂ) : Stats ranks :=
  let n : ℂ := ((∑ r, (vals r).length : ℕ) : ℂ)
  let mean := (∑ r, (vals r).sum) / n
  { mean := mean
    variance := (∑ r, ((vals r).map fun v => ‖v - mean‖ ^ 2).sum) / ((∑ r, (vals r).length : ℕ) : ℝ)
    rows := fun r => blocks ((vals r).length / n_chains) (vals r) }

/-- `expect_chunked`, `expect` and `_expect` (expect.py:20-90) on all ranks; `none`: an exception. -/
noncomputable def expect (kernel : X → ℂ) (chunk_size : Option ℕ) (samples : Fin ranks → Fin chains → Fin len → X) : Option (Stats ranks) :=
  if h : ∀ r, (vmapChunked kernel chunk_size (collapse (samples r))).isSome then
    some (statistics chains fun r => (vmapChunked kernel chunk_size (collapse (samples r))).get (h r))
  else none

/-- `vstate.expect(op)` for operators on fermions. -/
noncomputable def expectFermion (vs : VState L (Fin 4) Cache ranks chains len) (op : FermionOp L) (chunk_size : Option ℕ) :
    Option (Stats ranks) :=
  expect (op.kernel vs.n_elec (source vs.model vs.apply_fast_update)) chunk_size vs.samples

/-- `vstate.expect(op)` for `HeisenbergOnTheFly` (J1J2.py:129-150). -/
noncomputable def expectHeisenberg (vs : VState L ℤ Cache ranks chains len)
    (bonds : List ((Fin L × Fin L) × Matrix (Fin 4) (Fin 4) ℂ)) (chunk_size : Option ℕ) : Option (Stats ranks) :=
  expect (J1J2.localEn (source vs.model vs.apply_fast_update) bonds) chunk_size vs.samples

/-- `expect` for unique-sample states: kernel and `mean` (state_unique_samples.py:157-181, 197-218) for the samples and relative
counts `sw` of the ranks. -/
noncomputable def expectUnique (kernel : X → ℂ) (chunk_size : Option ℕ) (sw : Fin ranks → List (X × ℝ)) : Option ℂ :=
  if h : ∀ r, (vmapChunked kernel chunk_size ((sw r).map Prod.fst)).isSome then
    some (∑ r, ((((sw r).map Prod.snd).zip ((vmapChunked kernel chunk_size ((sw r).map Prod.fst)).get (h r))).map
      fun p => (p.1 : ℂ) * p.2).sum)
  else none

end GPSKet.Expect
