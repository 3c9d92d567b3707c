import Verif.Spec.Spins
import Verif.Spec.Rayleigh

/-!
# Specification: Marshall's sign rule

Nothing here refers to the code.
-/

namespace GPSKet.Spec

variable {N : ℕ}

/-- Marshall's sign of a configuration for a colouring of the sites: minus one for each up spin on a coloured site. -/
def marshall (colour : Fin N → Bool) (x : Spins N) : ℂ := (-1) ^ (Finset.univ.filter fun k => colour k ∧ x k).card

/-- The Heisenberg model `Σ_bonds J_bond σ_i · σ_j`. -/
noncomputable def heisenberg (bonds : List ((Fin N × Fin N) × ℂ)) : Spins N → Spins N → ℂ :=
  bondOperator (bonds.map fun b => (b.1, heisenbergBond b.2 false))

/-- The operator with the sign of the exchange terms changed on all bonds. -/
noncomputable def signRuled (bonds : List ((Fin N × Fin N) × ℂ)) : Spins N → Spins N → ℂ :=
  bondOperator (bonds.map fun b => (b.1, heisenbergBond b.2 true))

end GPSKet.Spec
