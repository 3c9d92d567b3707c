import Verif.Spec.SignRule
import Verif.Spec.Rayleigh

/-!
# Specification: lowest energies of Heisenberg models with two couplings

Nothing here refers to the code.
-/

namespace GPSKet.Spec

variable {N : ℕ}

/-- `J1 Σ S_i · S_j` over the first edges plus `J2 Σ S_i · S_j` over the second ones, with `S = σ / 2`. -/
noncomputable def twoCouplings (near far : List (Fin N × Fin N)) (J : ℝ × ℝ) : List ((Fin N × Fin N) × ℝ) :=
  near.map (fun b => (b, J.1 / 4)) ++ far.map fun b => (b, J.2 / 4)

/-- The expectation value of the model in a state, times its squared norm. -/
noncomputable def spinSum (bonds : List ((Fin N × Fin N) × ℝ)) (psi : Spins N → ℂ) : ℝ :=
  (∑ x, (starRingEnd ℂ) (psi x) * ∑ y, heisenberg (bonds.map fun b => (b.1, (b.2 : ℂ))) x y * psi y).re

/-- The mean of `Σ S_i · S_j` over edges. -/
noncomputable def correlation (edges : List (Fin N × Fin N)) (psi : Spins N → ℂ) : ℝ :=
  spinSum (edges.map fun b => (b, 1 / 4)) psi / bornNorm psi

/-- All configurations with a nonzero amplitude have `m` up spins. -/
def UpSpins (m : ℕ) (psi : Spins N → ℂ) : Prop := ∀ x, psi x ≠ 0 → (Finset.univ.filter fun k => x k = true).card = m

/-- `psi` has the energy `E`, and no state with as many up spins has a lower one. -/
structure IsSpinGround (bonds : List ((Fin N × Fin N) × ℝ)) (m : ℕ) (E : ℝ) (psi : Spins N → ℂ) : Prop where
  sector : UpSpins m psi
  ne_zero : psi ≠ 0
  energy : spinSum bonds psi = E * bornNorm psi
  lowest : ∀ phi, UpSpins m phi → E * bornNorm phi ≤ spinSum bonds phi

end GPSKet.Spec
