import Verif.Spec.Occupation

/-!
# Specification: Slater determinants in second quantisation

Nothing here refers to the code.
-/

namespace GPSKet.Spec
open Matrix

variable {ι : Type} [Fintype ι] [LinearOrder ι] {K : Type} [CommRing K]

/-- The vacuum. -/
def vacuum : Occ ι → K := fun n => if n = fun _ => false then 1 else 0

/-- The operator `Σ_p φ_p c†_p`, which creates a particle in the orbital `φ`. -/
def creOrb (φ : ι → K) : Matrix (Occ ι) (Occ ι) K := ∑ p, φ p • toK K (cre p)

/-- The state `c†(φ₁) ⋯ c†(φ_N) |0⟩`. -/
def slaterState : List (ι → K) → Occ ι → K
  | [] => vacuum
  | φ :: l => (creOrb φ) *ᵥ (slaterState l)

/-- A spin-orbital that has the values `φ` on the sites for one spin and vanishes for the other one. -/
def spinOrbital {L : ℕ} (s : Bool) (φ : Fin L → K) : Mode L → K := fun m => if (ofLex m).1 = s then φ (ofLex m).2 else 0

/-- The Slater determinant with the up electrons in the orbitals `a` (site, electron) and the down electrons in the orbitals `b`. -/
def upDownState {L n_up n_down : ℕ} (a : Fin L → Fin n_up → K) (b : Fin L → Fin n_down → K) : Occ (Mode L) → K :=
  slaterState (List.ofFn (fun k => spinOrbital false fun i => a i k) ++ List.ofFn fun k => spinOrbital true fun i => b i k)

/-- The spin-orbital given by a column of values, first those for the up electrons on all sites, then those for the down electrons. -/
def stacked {L : ℕ} (u : Fin (L + L) → K) : Mode L → K :=
  fun m => if (ofLex m).1 then u (Fin.natAdd L (ofLex m).2) else u (Fin.castAdd L (ofLex m).2)

end GPSKet.Spec
