import Mathlib.Data.Matrix.Mul
import Mathlib.Data.Real.Basic

/-!
# Model of the transformation of integrals to a basis of orbitals

`get_molecular_system` of `scripts/cpd-backflow/cpd_backflow/systems.py` (lines 138-151); the scripts `H2O.py` (lines 89-100),
`H4x4x4.py` (lines 78-89), `H50_1D.py` (lines 65-72) and `H10_amplitudes.py` (lines 29-76) contain the same formulas.  The
integrals over atomic orbitals, the Hartree-Fock orbitals and the localised orbitals are computed by PySCF and are inputs here.
Numbers are real numbers; there are as many orbitals as atomic orbitals.
-/

namespace GPSKet.OrbitalBasis

variable {L : ℕ}

/-- The integrals over atomic orbitals (`mf.get_ovlp()`, `mf.get_hcore()` and those that `ao2mo.kernel` transforms) and the
coefficients of the canonical orbitals (`mf.mo_coeff`), see lines 138-144. -/
structure Integrals (L : ℕ) where
  ovlp : Matrix (Fin L) (Fin L) ℝ
  hcore : Matrix (Fin L) (Fin L) ℝ
  eri : Fin L → Fin L → Fin L → Fin L → ℝ
  mo_coeff : Matrix (Fin L) (Fin L) ℝ

/-- `np.linalg.multi_dot((basis.T, ovlp, basis))` is the identity (line 140; `allclose` is equality here). -/
def Orthonormal (m : Integrals L) (basis : Matrix (Fin L) (Fin L) ℝ) : Prop := basis.transpose * m.ovlp * basis = 1

/-- `canonical_to_local_trafo` (line 142). -/
def canonicalToLocal (m : Integrals L) (basis : Matrix (Fin L) (Fin L) ℝ) : Matrix (Fin L) (Fin L) ℝ :=
  basis.transpose * (m.ovlp * m.mo_coeff)

/-- `h1` (line 143). -/
def h1 (m : Integrals L) (basis : Matrix (Fin L) (Fin L) ℝ) : Fin L → Fin L → ℝ :=
  fun p q => (basis.transpose * m.hcore * basis) p q

/-- `h2` (line 144): `ao2mo.kernel` contracts each of the four indices with the basis, `ao2mo.restore(1, …)` returns the array with
all four indices. -/
def h2 (m : Integrals L) (basis : Matrix (Fin L) (Fin L) ℝ) : Fin L → Fin L → Fin L → Fin L → ℝ :=
  fun p q r s => ∑ a, ∑ b, ∑ c, ∑ d, basis a p * basis b q * basis c r * basis d s * m.eri a b c d

end GPSKet.OrbitalBasis
