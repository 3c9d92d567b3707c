import Verif.Model.Autoreg

/-! # Model of the fermionic constraint functions in `scripts/ARGPS/argps/models.py` -/

namespace GPSKet.AR

/-- `count_spins_fermionic` (scripts/ARGPS/argps/models.py:241-259): `[0, s & 1, (s & 2)/2, 0]`. -/
def countSpinsFermionic (s : Fin 4) : Fin 4 → ℤ
  | 0 => 0
  | 1 => ((s.val &&& 1 : ℕ) : ℤ)
  | 2 => ((s.val &&& 2 : ℕ) : ℤ) / 2
  | 3 => 0

/-- `renormalize_log_psi_fermionic` (scripts/ARGPS/argps/models.py:279-337): which entries stay `0` (`true`) after the
successive settings to `-inf` (`false`). -/
def renormalizeFermionic (n_elec : ℤ × ℤ) (size : ℕ) (n_spins : Fin 4 → ℤ) (index : ℕ) : Fin 4 → Bool :=
  let diff0 := n_elec.1 - n_spins 1
  let diff1 := n_elec.2 - n_spins 2
  let log_psi : Fin 4 → Bool := fun _ => true
  let log_psi := if diff0 = 0 then Function.update log_psi 1 false else log_psi
  let log_psi := if diff1 = 0 then Function.update log_psi 2 false else log_psi
  let log_psi := if diff0 = 0 ∨ diff1 = 0 then Function.update log_psi 3 false else log_psi
  let log_psi := if diff0 ≥ (size : ℤ) - index then Function.update (Function.update log_psi 0 false) 2 false else log_psi
  let log_psi := if diff1 ≥ (size : ℤ) - index then Function.update (Function.update log_psi 0 false) 1 false else log_psi
  log_psi

end GPSKet.AR
