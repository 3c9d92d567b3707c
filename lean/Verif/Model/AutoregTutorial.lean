import Verif.Model.AutoregFermion

/-! # Model of the fermionic constraint function in `tutorials/autoreg_state_fitting_example.py`

`count_spins_fermionic` (lines 12-16) is the function of the ARGPS scripts, `AR.countSpinsFermionic`. -/

namespace GPSKet.AR

/-- `renormalize_log_psi_fermionic` (tutorials/autoreg_state_fitting_example.py:20-59): which entries stay `0` (`true`) after the
successive settings to `-inf` (`false`). -/
def renormalizeTutorial (n_elec : ℤ × ℤ) (size : ℕ) (n_spins : Fin 4 → ℤ) (index : ℕ) : Fin 4 → Bool :=
  let diff0 := n_elec.1 - n_spins 1
  let diff1 := n_elec.2 - n_spins 2
  let log_psi : Fin 4 → Bool := fun _ => true
  let log_psi := if diff0 = 0 then Function.update log_psi 1 false else log_psi
  let log_psi := if diff1 = 0 then Function.update log_psi 2 false else log_psi
  let log_psi := if diff0 = 0 ∨ diff1 = 0 then Function.update log_psi 3 false else log_psi
  let log_psi := if diff0 ≥ (size : ℤ) - index ∨ diff1 ≥ (size : ℤ) - index then Function.update log_psi 0 false else log_psi
  let log_psi := if diff0 ≥ (size : ℤ) - index then Function.update log_psi 2 false else log_psi
  let log_psi := if diff1 ≥ (size : ℤ) - index then Function.update log_psi 1 false else log_psi
  log_psi

end GPSKet.AR
