import Verif.Spec.Energy
import Mathlib.Algebra.Module.Equiv.Basic

/-!
# Specification: two descriptions of the same molecule

Nothing here refers to the code.
-/

namespace GPSKet.Spec

variable {L : ℕ}

/-- The state has amplitudes only for configurations with `n.1` up and `n.2` down electrons. -/
def InSector (n : ℕ × ℕ) (psi : Cfg L → ℂ) : Prop := ∀ x, (numElec false x, numElec true x) ≠ n → psi x = 0

/-- The Hamiltonian with the real integrals `h` and `e`, applied to a state. -/
noncomputable def applyH (h : Fin L → Fin L → ℝ) (e : Fin L → Fin L → Fin L → Fin L → ℝ) (psi : Cfg L → ℂ) (x : Cfg L) : ℂ :=
  ∑ x', 1 / 2 * abInitioTwice (fun p q => (h p q : ℂ)) (fun p q r s => (e p q r s : ℂ)) (occOf x) (occOf x') * psi x'

/-- Two pairs of integrals, each with a reference state, describe the same system: a unitary map takes the states of one
description to those of the other one.  It respects the Hamiltonians and the numbers of electrons of either spin, and it takes
the first reference state to the second one. -/
def SameSystem (h : Fin L → Fin L → ℝ) (e : Fin L → Fin L → Fin L → Fin L → ℝ) (ref : Cfg L → ℂ)
    (h' : Fin L → Fin L → ℝ) (e' : Fin L → Fin L → Fin L → Fin L → ℝ) (ref' : Cfg L → ℂ) : Prop :=
  ∃ R : (Cfg L → ℂ) ≃ₗ[ℂ] (Cfg L → ℂ),
    (∀ φ psi, ∑ x, star (R φ x) * R psi x = ∑ x, star (φ x) * psi x) ∧
    (∀ psi, applyH h' e' (R psi) = R (applyH h e psi)) ∧
    (∀ n psi, InSector n (R psi) ↔ InSector n psi) ∧
    R ref = ref'

/-- The energies that states with `n.1` up and `n.2` down electrons can have. -/
def energies (h : Fin L → Fin L → ℝ) (e : Fin L → Fin L → Fin L → Fin L → ℝ) (n : ℕ × ℕ) : Set ℂ :=
  {E | ∃ psi, psi ≠ 0 ∧ InSector n psi ∧ energy h e psi = E}

end GPSKet.Spec
