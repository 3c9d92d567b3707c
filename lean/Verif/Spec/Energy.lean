import Verif.Spec.Rdm

/-!
# Specification: the energy of a state in a molecule

Nothing here refers to the code.
-/

namespace GPSKet.Spec

variable {L : ℕ}

/-- The expectation value `⟨ψ|H|ψ⟩ / ⟨ψ|ψ⟩` of the molecular Hamiltonian with the real integrals `h` and `e`. -/
noncomputable def energy (h : Fin L → Fin L → ℝ) (e : Fin L → Fin L → Fin L → Fin L → ℝ) (psi : Cfg L → ℂ) : ℂ :=
  (∑ x, ∑ x', star (psi x) * (1 / 2 * abInitioTwice (fun p q => (h p q : ℂ)) (fun p q r s => (e p q r s : ℂ)) (occOf x) (occOf x')) * psi x')
    / normSq psi

end GPSKet.Spec
