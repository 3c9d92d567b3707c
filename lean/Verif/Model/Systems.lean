import Mathlib.Data.Int.Basic
import Verif.Model.HubbardScript
import Verif.Model.J1J2

/-!
# Model of the choice of systems and electron numbers in the scripts

`scripts/cpd-backflow/cpd_backflow/systems.py` (`get_system`, `build_molecule`, the Hilbert spaces of `get_molecular_system` and
`get_FermiHubbard_system`) and `scripts/ARGPS/argps/systems.py` (`get_system`, `get_Heisenberg_system` and the Hilbert spaces of
`get_molecular_system` and `get_Hubbard_system`).  A molecule is the list of the charges of its nuclei; `none` is an exception.
-/

namespace GPSKet.Systems

/-- `Mole.nelec` of PySCF for `ne` electrons and the given `spin`: an exception unless they fit together.  Both scripts build the
molecule without a charge (cpd-backflow systems.py:53-59, ARGPS systems.py:74-80), so `ne` is the sum of the charges of the nuclei;
`Mole.build` checks the spin. -/
def molNelec (ne : ℕ) (spin : ℤ) : Option (ℤ × ℤ) :=
  let nalpha := ((ne : ℤ) + spin) / 2
  let nbeta := nalpha - spin
  if 0 ≤ nbeta ∧ nalpha + nbeta = ne then some (nalpha, nbeta) else none

/-- The spin that `build_molecule` hands to PySCF (cpd-backflow systems.py:49-52). -/
def configSpin (n_elec : Option (ℕ × ℕ)) : ℤ :=
  match n_elec with
  | some (u, d) => (u : ℤ) - d
  | none => 0

/-- The electron numbers of the Hilbert space of `get_molecular_system` (cpd-backflow systems.py:45-60, 75-93). -/
def cpdMolecule (charges : List ℕ) (n_elec : Option (ℕ × ℕ)) : Option (ℤ × ℤ) := molNelec charges.sum (configSpin n_elec)

/-- The electron numbers of the Hilbert space of `get_molecular_system` (ARGPS systems.py:71-95): the molecule has spin 0. -/
def argpsMolecule (charges : List ℕ) : Option (ℤ × ℤ) :=
  (molNelec charges.sum 0).map fun _ => ((charges.sum / 2 : ℕ), (charges.sum / 2 : ℕ))

/-- The electron numbers of the Hilbert space of `get_FermiHubbard_system` (cpd-backflow systems.py:200, 215-217). -/
def cpdHubbard (sites : ℕ) (n_elec : Option (ℕ × ℕ)) : ℕ × ℕ := n_elec.getD (sites / 2, sites / 2)

/-- The electron numbers of the Hilbert space of `get_Hubbard_system` (ARGPS systems.py:149-152). -/
def argpsHubbard (sites : ℕ) : ℕ × ℕ := (sites / 2, sites / 2)

/-- `get_Heisenberg_system` (ARGPS systems.py:34-58) for couplings and a sign rule: always evaluated on the fly.  The configured
`total_sz` is not read.  For `J2 ≠ 0` the sign rule is a pair, of which the part for the neighbours is kept here. -/
noncomputable def heisenberg (J1 J2 : ℝ) (signRule : Bool) : Option (String → Option J1J2.Arg) := J1J2.construct J1 J2 signRule true

/-- The functions that `get_system` calls. -/
inductive Kind where
  | molecule | hubbard | heisenberg
  deriving DecidableEq

/-- `get_system` (cpd-backflow systems.py:25-33); `none`: `ValueError`. -/
def cpdKind (name : String) : Option Kind :=
  if name ∈ ["Hchain", "Hsheet", "H2O"] then some .molecule else if name = "FermiHubbard" then some .hubbard else none

/-- `get_system` (ARGPS systems.py:25-31); `molecule`: the configuration has one.  `none`: the function returns `None`, without an
exception. -/
def argpsKind (name : String) (molecule : Bool) : Option Kind :=
  if HubbardScript.contains "Heisenberg" name ∨ HubbardScript.contains "J1J2" name then some .heisenberg
  else if molecule then some .molecule
  else if HubbardScript.contains "Hubbard" name then some .hubbard
  else none

end GPSKet.Systems
