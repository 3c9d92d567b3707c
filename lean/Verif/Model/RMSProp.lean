import Verif.Model.UniqueSamples
import Mathlib.Analysis.SpecialFunctions.Pow.Real
import Mathlib.LinearAlgebra.Matrix.ConjTranspose
import Mathlib.Data.Matrix.Mul
import Mathlib.Data.Fin.Tuple.Basic

/-!
# Model of the SR-RMSProp optimisers

`GPSKet/optimizer/qgt/qgt_jacobian_dense_rmsprop.py`, `qgt_onthefly_rmsprop.py`, `qgt_jacobian_dense_unique_samples.py`,
`GPSKet/optimizer/sr_rmsprop.py` and `GPSKet/driver/VMC_SRRMSProp.py`.

Parameters are a dense vector (`tree_ravel`), `R` is the number of MPI ranks and `mpi_sum_jax` is the sum over the ranks.  The
rows of a Jacobian on a rank are indexed by `ι`: samples, or pairs of a sample and a real/imaginary component.
-/

namespace GPSKet.RMSProp

open Matrix

variable {R P : ℕ} {ι : Type} [Fintype ι]

/-! ## `QGTJacobianDenseRMSPropT` -/

/-- `mat_vec` (qgt_jacobian_dense_rmsprop.py:173-179). -/
noncomputable def matVec (v : Fin P → ℂ) (O : Fin R → Matrix ι (Fin P) ℂ) (shift : ℝ) (ema : Fin P → ℝ) (eps : ℝ) : Fin P → ℂ :=
  let w : Fin R → ι → ℂ := fun r => O r *ᵥ v
  let res : Fin P → ℂ := fun k => ∑ r, (starRingEnd ℂ) (∑ a, (starRingEnd ℂ) (w r a) * O r a k)
  fun k => (1 - (shift : ℂ)) * res k + (shift : ℂ) * ((Real.sqrt (ema k) : ℂ) + eps) * v k

/-- `to_dense` (qgt_jacobian_dense_rmsprop.py:143-160). -/
noncomputable def toDense (O : Fin R → Matrix ι (Fin P) ℂ) (shift : ℝ) (ema : Fin P → ℝ) (eps : ℝ) : Matrix (Fin P) (Fin P) ℂ :=
  (1 - (shift : ℂ)) • (∑ r, (O r)ᴴ * O r) + (shift : ℂ) • Matrix.diagonal fun k => (Real.sqrt (ema k) : ℂ) + eps

/-! ## `QGTOnTheFlyRMSPropT` -/

/-- The principal square root of a complex array (`jnp.sqrt`). -/
noncomputable def csqrt (z : ℂ) : ℂ := z ^ (1 / 2 : ℂ)

/-- `mat_vec` (qgt_onthefly_rmsprop.py:23-43) for a linear (holomorphic or real) `jvp_fn` given by its rows `J`.  The `ema` has the
type of the parameters. -/
noncomputable def onTheFlyMatVec (J : Fin R → Matrix ι (Fin P) ℂ) (v : Fin P → ℂ) (shift : ℝ) (ema : Fin P → ℂ) (eps : ℝ) : Fin P → ℂ :=
  let w1 : Fin R → ι → ℂ := fun r a => (J r *ᵥ v) a * (1 / ((Fintype.card ι * R : ℕ) : ℂ))
  let m : ℂ := (∑ r, ∑ a, w1 r a) / ((Fintype.card ι * R : ℕ) : ℂ)
  let w : Fin R → ι → ℂ := fun r a => w1 r a - m
  let res : Fin P → ℂ := fun k => ∑ r, (starRingEnd ℂ) (∑ a, (starRingEnd ℂ) (w r a) * J r a k)
  fun k => (1 - (shift : ℂ)) * res k + (shift : ℂ) * (csqrt (ema k) + eps) * v k

/-- `_to_dense` (qgt_onthefly_rmsprop.py:216-238): the rows are the products with the unit vectors, transposed when complex. -/
noncomputable def onTheFlyToDense (J : Fin R → Matrix ι (Fin P) ℂ) (shift : ℝ) (ema : Fin P → ℂ) (eps : ℝ) (isComplex : Bool) :
    Matrix (Fin P) (Fin P) ℂ :=
  let out : Matrix (Fin P) (Fin P) ℂ := fun i => onTheFlyMatVec J (fun k => if k = i then 1 else 0) shift ema eps
  if isComplex then outᵀ else out

/-! ## `QGTJacobianDenseUniqueSamples` -/

/-- The centred, weighted Jacobian of the constructor (qgt_jacobian_dense_unique_samples.py:62-74): `nk.jax.jacobian` with
`pdf=counts, center=True` subtracts the weighted mean of the rows and multiplies the rows with the square roots of the weights. -/
noncomputable def uniqueRows {C : Type} {ranks : ℕ} (sw : Fin ranks → List (C × ℝ)) (O : C → Fin P → ℂ) (e : C × ℝ) (k : Fin P) : ℂ :=
  (Real.sqrt e.2 : ℂ) * (O e.1 k - UniqueSamples.mean sw fun c => O c k)

/-- The matrix `Oᴴ O` of the tensor summed over the ranks (NetKet's `QGTJacobianDenseT.to_dense`, without shift). -/
noncomputable def uniqueQGT {C : Type} {ranks : ℕ} (sw : Fin ranks → List (C × ℝ)) (O : C → Fin P → ℂ) (k l : Fin P) : ℂ :=
  ∑ r, ((sw r).map fun e => (starRingEnd ℂ) (uniqueRows sw O e k) * uniqueRows sw O e l).sum

/-! ## Moving averages -/

/-- `update_ema` for real gradients (sr_rmsprop.py:72-78, VMC_SRRMSProp.py:54). -/
noncomputable def updateEma (decay nu g : ℝ) : ℝ := decay * nu + (1 - decay) * g ^ 2

/-- `update_ema` for complex gradients (sr_rmsprop.py:72-78). -/
noncomputable def updateEmaComplex (decay : ℝ) (nu g : ℂ) : ℂ :=
  (decay : ℂ) * nu + (1 - (decay : ℂ)) * ((g.re ^ 2 : ℝ) + Complex.I * (g.im ^ 2 : ℝ))

/-- The bias-corrected average at a given step (sr_rmsprop.py:83-84, VMC_SRRMSProp.py:55). -/
noncomputable def biasCorrected (decay nu : ℝ) (step : ℕ) : ℝ := nu / (1 - decay ^ (step + 1))

/-- The average after a history of gradients, starting from `initial_scale` (sr_rmsprop.py:47-49, 80). -/
noncomputable def emaAfter (decay init : ℝ) (gs : List ℝ) : ℝ := gs.foldl (updateEma decay) init

/-- The same for complex parameters. -/
noncomputable def emaAfterComplex (decay : ℝ) (init : ℂ) (gs : List ℂ) : ℂ := gs.foldl (updateEmaComplex decay) init

/-! ## The driver `VMC_SRRMSProp` -/

/-- `local_energies_centered` after gathering (VMC_SRRMSProp.py:25-30); `N` is the total number of samples. -/
noncomputable def energies {N : ℕ} (E : Fin N → ℂ) (eMean : ℂ) (s : Fin N) : ℂ :=
  -2 * (starRingEnd ℂ) (E s - eMean) * (Real.sqrt (N : ℝ) : ℂ)

/-- The centred Jacobian after gathering (VMC_SRRMSProp.py:33-36). -/
noncomputable def centredRows {N : ℕ} {α : Type} (O : Fin N → α → Fin P → ℝ) (s : Fin N) (c : α) (k : Fin P) : ℝ :=
  (O s c k - (∑ t, O t c k) / (N : ℝ)) * Real.sqrt (N : ℝ)

/-- `jnp.transpose(O_L, (1, 0, 2)).reshape(-1, O_L.shape[-1])` in mode `complex` (VMC_SRRMSProp.py:40): row `p` is component `p / N`
of sample `p % N`. -/
noncomputable def denseRows {N : ℕ} (O : Fin N → Fin 2 → Fin P → ℝ) : Matrix (Fin (N + N)) (Fin P) ℝ :=
  fun p k =>
    have hN : 0 < N := by have := p.isLt; omega
    centredRows O ⟨p.val % N, Nat.mod_lt _ hN⟩ ⟨p.val / N, by rw [Nat.div_lt_iff_lt_mul hN]; have := p.isLt; omega⟩ k

/-- The concatenated energies in mode `complex` (VMC_SRRMSProp.py:41-45). -/
noncomputable def denseEnergies {N : ℕ} (E : Fin N → ℂ) (eMean : ℂ) : Fin (N + N) → ℝ :=
  Fin.addCases (fun s => (energies E eMean s).re) (fun s => -(energies E eMean s).im)

/-- The root's part of `SRRMSProp` (VMC_SRRMSProp.py:51-65) for dense rows and energies: the updates and the new average. -/
noncomputable def rootSolve {n : ℕ} (O : Matrix (Fin n) (Fin P) ℝ) (e : Fin n → ℝ) (ema : Fin P → ℝ) (step : ℕ)
    (shift decay eps : ℝ) (solver : Matrix (Fin P) (Fin P) ℝ → (Fin P → ℝ) → (Fin P → ℝ)) : (Fin P → ℝ) × (Fin P → ℝ) :=
  let gradient := Oᵀ *ᵥ e
  let ema' : Fin P → ℝ := fun k => updateEma decay (ema k) (gradient k)
  let emaHat : Fin P → ℝ := fun k => biasCorrected decay (ema' k) step
  let S := Oᵀ * O + shift • Matrix.diagonal fun k => Real.sqrt (emaHat k) + eps
  (solver S gradient, ema')

/-- `SRRMSProp` in mode `complex` on the root for real parameters (VMC_SRRMSProp.py:19-76). -/
noncomputable def srComplex {N : ℕ} (O : Fin N → Fin 2 → Fin P → ℝ) (E : Fin N → ℂ) (eMean : ℂ) (ema : Fin P → ℝ) (step : ℕ)
    (shift decay eps : ℝ) (solver : Matrix (Fin P) (Fin P) ℝ → (Fin P → ℝ) → (Fin P → ℝ)) : (Fin P → ℝ) × (Fin P → ℝ) :=
  let out := rootSolve (denseRows O) (denseEnergies E eMean) ema step shift decay eps solver
  (fun k => -out.1 k, out.2)

/-- `SRRMSProp` in mode `real` on the root (VMC_SRRMSProp.py:46-47). -/
noncomputable def srReal {N : ℕ} (O : Fin N → Fin P → ℝ) (E : Fin N → ℂ) (eMean : ℂ) (ema : Fin P → ℝ) (step : ℕ)
    (shift decay eps : ℝ) (solver : Matrix (Fin P) (Fin P) ℝ → (Fin P → ℝ) → (Fin P → ℝ)) : (Fin P → ℝ) × (Fin P → ℝ) :=
  let out := rootSolve (fun s k => centredRows (fun s (_ : Unit) k => O s k) s () k) (fun s => (energies E eMean s).re) ema step
    shift decay eps solver
  (fun k => -out.1 k, out.2)

/-- The repacking of the real solution into complex updates (VMC_SRRMSProp.py:72-76): `np = len // 2`. -/
def repack {M : ℕ} (x : Fin M → ℝ) : List ℂ :=
  (List.range (M / 2)).map fun k => -(((if h : k < M then x ⟨k, h⟩ else 0 : ℝ) : ℂ) +
    Complex.I * ((if h : M / 2 + k < M then x ⟨M / 2 + k, h⟩ else 0 : ℝ) : ℂ))

/-- The length of the array which a rank passes to `mpi_bcast_jax` (VMC_SRRMSProp.py:63, 67-68): the solution on the root; on the
other ranks `zeros(local_energies_centered.shape[0])`, where `mpi_gather_jax` leaves the `n` local energies of the rank as they are
and mode `complex` concatenates two copies (lines 29, 41-43). -/
def bcastLength (isRoot isComplexMode : Bool) (n nParams : ℕ) : ℕ :=
  if isRoot then nParams else if isComplexMode then n + n else n

end GPSKet.RMSProp
