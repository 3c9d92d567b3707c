import Mathlib.Analysis.Complex.Norm
import Mathlib.Algebra.BigOperators.Fin

/-!
# Model of how the drivers line up samples and local energies, and of the statistics they report

`GPSKet/driver/minSR.py` and `GPSKet/driver/VMC_SRRMSProp.py` on one MPI rank.  The samples of a rank form an array with one row
per chain.  The method `local_estimators` is part of NetKet, not of the repository: depending on the version it returns the array
of local energies with the axes of the samples or with the two axes exchanged, which is the parameter `swapped` here.
-/

namespace GPSKet.Pairing

/-- An array with two axes. -/
structure Arr (α : Type) where
  rows : ℕ
  cols : ℕ
  at' : ℕ → ℕ → α

variable {α C : Type}

/-- `.T` -/
def Arr.T (a : Arr α) : Arr α := ⟨a.cols, a.rows, fun i j => a.at' j i⟩

/-- `reshape(-1)`, `flatten()` and, for arrays of configurations, `reshape((-1, n_sites))`. -/
def Arr.flat (a : Arr α) : List α := (List.range a.rows).flatMap fun i => (List.range a.cols).map fun j => a.at' i j

/-- `state.local_estimators(hamiltonian)` for the local energies `loc` (used in minSR.py:63, VMC_SRRMSProp.py:197); `swapped`
tells whether the axes are exchanged. -/
def localEstimators (swapped : Bool) (loc : C → ℂ) (samples : Arr C) : Arr ℂ :=
  let a : Arr ℂ := ⟨samples.rows, samples.cols, fun i j => loc (samples.at' i j)⟩
  if swapped then a.T else a

/-- The samples and the local energies at the same positions of `samples` and `loc_ens` (minSR.py:59, 63).  With chunks, both
arrays are cut in the same way (lines 68-78). -/
def minSRPairs (swapped : Bool) (loc : C → ℂ) (samples : Arr C) : List (C × ℂ) :=
  samples.flat.zip (localEstimators swapped loc samples).T.flat

/-- The samples whose log-derivatives are the rows of `jacobians` and the local energies at the same positions
(VMC_SRRMSProp.py:80-82, 197-211, 22-25). -/
def srRMSPropPairs (swapped : Bool) (loc : C → ℂ) (samples : Arr C) : List (C × ℂ) :=
  samples.flat.zip (localEstimators swapped loc samples).flat

/-- The gradient of the energy up to a positive factor which a driver obtains from its pairs for a real parameter with real
log-derivative `O` (minSR.py:107-111 with lines 65 and 113-117; VMC_SRRMSProp.py:28, 33-34, 53). -/
noncomputable def gradient (pairs : List (C × ℂ)) (O : C → ℝ) : ℝ :=
  (pairs.map fun p => (O p.1 - (pairs.map fun q => O q.1).sum / pairs.length) *
    (p.2 - (pairs.map fun q => q.2).sum / pairs.length).re).sum

/-! ## The statistics of the minSR driver -/

/-- `batch_size` (minSR.py:238-244): the local energies of a rank have one axis and become one row, so that `data.shape[0]` is 1
on every rank. -/
def batchSize (ranks : ℕ) : ℕ := ∑ _r : Fin ranks, 1

/-- `mean` of `_statistics` (minSR.py:246). -/
noncomputable def mean {ranks : ℕ} (data : Fin ranks → List (ℂ × ℝ)) : ℂ :=
  ∑ r, ((data r).map fun e => e.1 * (e.2 : ℂ)).sum

/-- `var` of `_statistics` (minSR.py:247). -/
noncomputable def var {ranks : ℕ} (data : Fin ranks → List (ℂ × ℝ)) : ℝ :=
  ∑ r, ((data r).map fun e => ‖e.1 - mean data‖ ^ 2 * e.2).sum

/-- `error_of_mean` of `_statistics` (minSR.py:248). -/
noncomputable def errorOfMean {ranks : ℕ} (data : Fin ranks → List (ℂ × ℝ)) : ℝ :=
  Real.sqrt (var data / (batchSize ranks : ℝ))

/-- The data of a plain Monte-Carlo state (minSR.py:55-60): every local energy has the weight one over the number of samples of
all ranks. -/
noncomputable def plainData {ranks : ℕ} (energies : Fin ranks → List ℂ) : Fin ranks → List (ℂ × ℝ) :=
  fun r => (energies r).map fun e => (e, 1 / ((∑ q, (energies q).length : ℕ) : ℝ))

end GPSKet.Pairing
