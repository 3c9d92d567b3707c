import Verif.Model.Fermion
import Mathlib.Data.Complex.Basic

/-!
# Model of the one-body density matrix of `scripts/GPS_for_ab_initio/H4x4x4.py` (lines 182-222)

Simplifications: `state.log_value` is given by the amplitudes `psi`, so that `exp(log_value(x') - log_value(x))` is
`psi x' / psi x` (also for amplitudes that are zero, whose logarithm is `-inf`, if `psi x` is not); the chains of the
sampler are already flattened.
-/

namespace GPSKet.CrystalRdm

variable {L : ℕ}

/-- One entry of the arrays of `get_conn_1RDM` (H4x4x4.py:183-202): the matrix element and the connected configuration for
the spin `s` (`false`: index 0, `spin_int` 1; `true`: index 1, `spin_int` 2) and the sites `i`, `j`. -/
def conn (x : Cfg L) (s : Bool) (i j : Fin L) : ℤ × Cfg L :=
  applyHopping i j x (spinInt s) (some (cumsum (isOcc x (spinInt s))))

/-- `get_1RDM` (H4x4x4.py:205-222).  `ranks` lists the samples of every rank; the two `_mpi_sum` add the numbers of samples and
the sums over the samples of all ranks. -/
noncomputable def oneRDM (psi : Cfg L → ℂ) (ranks : List (List (Cfg L))) (s : Bool) (i j : Fin L) : ℂ :=
  let total_samples : ℕ := (ranks.map fun x => x.length).sum
  (ranks.map fun x => (x.map fun y => psi (conn y s i j).2 / psi y * ((conn y s i j).1 : ℂ)).sum).sum / (total_samples : ℂ)

end GPSKet.CrystalRdm
