import Verif.Model.Asep
import Verif.Spec.Rayleigh

/-!
# Model of `tutorials/asep_example.py`: the rates and the energy that it maximises

The optimiser has a negative learning rate (tutorials/asep_example.py:35), so the tutorial looks for amplitudes of largest energy and prints the
distance to the eigenvalue with the largest real part (lines 43 and 46-53).  Not modelled: the parametrisation, sampling and the path of the
optimisation.
-/

namespace GPSKet.AsepMaximum
open Spec (Chain AsepRates rayleigh)

/-- Rates that are all equal; the tutorial has `k = 1/2` (tutorials/asep_example.py:17-19), which are also the default values
(hamiltonian/asep.py:18-25). -/
def equalRates (k lambd : ℝ) : AsepRates := ⟨lambd, k, k, k, k, k, k⟩

/-- The energy that the driver estimates, for the amplitudes `psi`: the mean over `|psi|²` of the local energies that the entries of
`get_conn_flattened` (hamiltonian/asep.py:48-60) give. -/
noncomputable def energy {n : ℕ} (r : AsepRates) (psi : Chain n → ℂ) : ℂ :=
  rayleigh (fun x y => ((Spec.rowElem (Asep.kernel r [x]).out y : ℝ) : ℂ)) psi

end GPSKet.AsepMaximum
