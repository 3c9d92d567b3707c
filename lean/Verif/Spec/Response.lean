import Verif.Spec.Interaction
import Verif.Spec.Rdm

/-!
# Specification: lowest energies of molecules and density matrices

Nothing here refers to the code.
-/

namespace GPSKet.Spec

variable {L : ℕ}

/-- One- and two-electron integrals. -/
abbrev Integrals (L : ℕ) := (Fin L → Fin L → ℝ) × (Fin L → Fin L → Fin L → Fin L → ℝ)

/-- The expectation value of the molecular Hamiltonian in a state that need not be normalised (that is, times the squared norm). -/
noncomputable def moleculeSum (I : Integrals L) (psi : Cfg L → ℂ) : ℝ := (∑ x, star (psi x) * applyH I.1 I.2 psi x).re

/-- Integrals contracted with the one- and the two-body density matrix of a state: `Σ h_pq γ_pq + ½ Σ (pq|rs) Γ_pqrs`. -/
noncomputable def contracted (I : Integrals L) (psi : Cfg L → ℂ) : ℝ :=
  (∑ p, ∑ q, (I.1 p q : ℂ) * expect (exc p q) psi + 1 / 2 * ∑ p, ∑ q, ∑ r, ∑ s, (I.2 p q r s : ℂ) * expect (pairOp p q r s) psi).re

/-- `psi` has the energy `E`, and no state with the same numbers of electrons has a lower one. -/
structure IsGroundMolecule (I : Integrals L) (n : ℕ × ℕ) (E : ℝ) (psi : Cfg L → ℂ) : Prop where
  sector : InSector n psi
  ne_zero : psi ≠ 0
  energy : moleculeSum I psi = E * sqNorm psi
  lowest : ∀ phi, InSector n phi → E * sqNorm phi ≤ moleculeSum I phi

end GPSKet.Spec
