import Verif.Spec.SameSystem
import Mathlib.Analysis.Complex.Basic

/-!
# Specification: lowest energies of the Hubbard model with given numbers of electrons

Nothing here refers to the code.
-/

namespace GPSKet.Spec

variable {L : ℕ}

/-- The squared norm of a state. -/
noncomputable def sqNorm (psi : Cfg L → ℂ) : ℝ := ∑ x, ‖psi x‖ ^ 2

/-- The expectation value of the Hubbard Hamiltonian in a state that need not be normalised (that is, times the squared norm). -/
noncomputable def hubbardSum (U : ℝ) (edges : List ((Fin L × Fin L) × ℝ)) (psi : Cfg L → ℂ) : ℝ :=
  (∑ x, star (psi x) * ∑ y, hubbard (U : ℂ) (edges.map fun e => (e.1, (e.2 : ℂ))) (occOf x) (occOf y) * psi y).re

/-- The mean number of doubly occupied sites. -/
noncomputable def doubleOccupancy (psi : Cfg L → ℂ) : ℝ :=
  (∑ x, ((Finset.univ.filter fun j => hasSpin false (x j) = true ∧ hasSpin true (x j) = true).card : ℝ) * ‖psi x‖ ^ 2) / sqNorm psi

/-- `psi` has the energy `E`, and no state with the same numbers of electrons has a lower one. -/
structure IsGround (U : ℝ) (edges : List ((Fin L × Fin L) × ℝ)) (n : ℕ × ℕ) (E : ℝ) (psi : Cfg L → ℂ) : Prop where
  sector : InSector n psi
  ne_zero : psi ≠ 0
  energy : hubbardSum U edges psi = E * sqNorm psi
  lowest : ∀ phi, InSector n phi → E * sqNorm phi ≤ hubbardSum U edges phi

end GPSKet.Spec
