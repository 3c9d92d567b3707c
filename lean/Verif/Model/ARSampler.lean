import Verif.Model.Autoreg
import Mathlib.Logic.Equiv.Fin.Basic

/-! # Model of `GPSKet/sampler/autoreg.py` -/

namespace GPSKet.AR

variable {L D M : ℕ}

/-- `batch_choice` for one row (autoreg.py:10-28), returning the index into `a`; `u` is the uniform variate. An index past
the end is clamped by JAX's `a[indices]`. -/
noncomputable def batchChoice [NeZero D] (p : Fin D → ℝ) (u : ℝ) : Fin D :=
  let p_cumsum : Fin D → ℝ := fun k => ∑ j, if j ≤ k then p j else 0
  let r := (∑ j, p j) * u
  let index := (Finset.univ.filter fun k => p_cumsum k < r).card
  ⟨min index (D - 1), by have := NeZero.pos D; omega⟩

/-- `scan_fun` of `_sample_chain` (autoreg.py:84-108) for one sample: conditional probabilities from the cache and the
buffer, a draw, and writing the drawn state at `index`. -/
noncomputable def sampleStep [NeZero D] (m : Machine L D M) (u : Fin L → ℝ) (carry : (Fin L → Fin D) × m.Cache)
    (index : Fin L) : ((Fin L → Fin D) × m.Cache) × Unit :=
  let r := m.conditionalP carry.2 carry.1 index
  ((Function.update carry.1 index (batchChoice r.2 (u index)), r.1), ())

/-- The scan of `_sample_chain` (autoreg.py:110-158): the buffer starts with `buffer` (zeros in the code). -/
noncomputable def sampleSites [NeZero D] (m : Machine L D M) (buffer : Fin L → Fin D) (u : Fin L → ℝ) : Fin L → Fin D :=
  (scanState (sampleStep m u) (buffer, m.initCache) L).1

/-- `_sample_chain` (autoreg.py:80-177): the generated configuration, transformed by the drawn symmetry operation `r`. -/
noncomputable def sampleChain [NeZero D] {ι : Type} (m : Machine L D M) (syms : ι → (Fin L → Fin D) → Fin L → Fin D)
    (buffer : Fin L → Fin D) (u : Fin L → ℝ) (r : ι) : Fin L → Fin D :=
  syms r (sampleSites m buffer u)

/-- `_sample_chain` for the whole batch (autoreg.py:114-124, 167-176): `n_chains * chain_length` rows are generated side by side, each with
its own variates and its own symmetry operation, and then `reshape`d (row-major) to `(n_chains, chain_length)`.  The rows only share the
pseudo-random stream, whose draws are the independent `u` and `r`. -/
noncomputable def sampleBatch [NeZero D] {ι : Type} {n_chains chain_length : ℕ} (m : Machine L D M)
    (syms : ι → (Fin L → Fin D) → Fin L → Fin D) (buffer : Fin L → Fin D) (u : Fin (n_chains * chain_length) → Fin L → ℝ)
    (r : Fin (n_chains * chain_length) → ι) : Fin n_chains → Fin chain_length → Fin L → Fin D :=
  let rows : Fin (n_chains * chain_length) → Fin L → Fin D := fun b => sampleChain m syms buffer (u b) (r b)
  fun c t => rows (finProdFinEquiv (c, t))

/-- `a.squeeze(axis=0)`: an error unless the first axis has length one. -/
def squeeze0 {A : Type} : List A → Option A
  | [a] => some a
  | _ => none

/-- `_sample_next` (autoreg.py:72-75): a chain of length one, whose array of shape `(n_chains, 1, size)` is squeezed along its first axis.
The rows of the result are the configurations. -/
noncomputable def sampleNext [NeZero D] {ι : Type} {n_chains : ℕ} (m : Machine L D M)
    (syms : ι → (Fin L → Fin D) → Fin L → Fin D) (buffer : Fin L → Fin D) (u : Fin (n_chains * 1) → Fin L → ℝ)
    (r : Fin (n_chains * 1) → ι) : Option (List (Fin L → Fin D)) :=
  squeeze0 (List.ofFn fun c => List.ofFn fun t : Fin 1 => sampleBatch m syms buffer u r c t)

end GPSKet.AR
