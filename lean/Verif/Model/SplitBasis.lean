import Verif.Model.OrbitalBasis

/-!
# Model of the choice of the basis in `get_molecular_system`

`scripts/cpd-backflow/cpd_backflow/systems.py` lines 115-137; `H10_amplitudes.py` lines 66-69 builds the split-localised basis in the
same way.  A localiser of PySCF multiplies the orbitals it is given by an orthogonal matrix, which is an input here.
-/

namespace GPSKet.OrbitalBasis

variable {n k : ℕ}

/-- The basis for `local-split` (lines 127-132): the first `n = nelec // 2` canonical orbitals and the other `k` ones are localised
separately, by the matrices `occ` and `vrt`, and joined (`np.concatenate(..., axis=1)`). -/
def splitBasis (mo_coeff : Matrix (Fin (n + k)) (Fin (n + k)) ℝ) (occ : Matrix (Fin n) (Fin n) ℝ) (vrt : Matrix (Fin k) (Fin k) ℝ) :
    Matrix (Fin (n + k)) (Fin (n + k)) ℝ :=
  Matrix.of fun a j => Fin.addCases (motive := fun _ => ℝ) (fun i => ∑ l, mo_coeff a (Fin.castAdd k l) * occ l i)
    (fun i => ∑ l, mo_coeff a (Fin.natAdd n l) * vrt l i) j

/-- Python's `part in name` for strings. -/
def contains (name part : String) : Bool := decide (part.toList <:+: name.toList)

/-- The bases that PySCF can provide. -/
inductive Choice where
  | lowdin | boys | pipekMezey | edmistonRuedenberg | split | canonical
  deriving DecidableEq

/-- `basis` as a function of `config.basis` (lines 115-137); `none` is the `ValueError`. -/
def choose (name : String) : Option Choice :=
  if contains name "local" then
    some (if contains name "boys" then .boys
      else if contains name "pipek-mezey" then .pipekMezey
      else if contains name "edmiston-ruedenberg" then .edmistonRuedenberg
      else if contains name "split" then .split
      else .lowdin)
  else if name = "canonical" then some .canonical
  else none

end GPSKet.OrbitalBasis
