import Verif.Spec.Occupation
import Mathlib.Analysis.SpecialFunctions.Exp
import Mathlib.LinearAlgebra.Matrix.Notation

/-!
# Specification: expectation values, reduced density matrices, spin operators

Nothing here refers to the code.
-/

namespace GPSKet.Spec

variable {L : ℕ}

/-- An operator on Fock space, as its (integer) matrix. -/
abbrev Op (L : ℕ) := Matrix (Occ (Mode L)) (Occ (Mode L)) ℤ

/-- `⟨ψ|A|ψ⟩` for a state with the amplitudes `psi` (not normalised). -/
noncomputable def braket (A : Op L) (psi : Cfg L → ℂ) : ℂ :=
  ∑ x, ∑ x', star (psi x) * (A (occOf x) (occOf x') : ℂ) * psi x'

/-- `⟨ψ|ψ⟩` -/
noncomputable def normSq (psi : Cfg L → ℂ) : ℂ := ∑ x, star (psi x) * psi x

/-- The expectation value `⟨ψ|A|ψ⟩ / ⟨ψ|ψ⟩`. -/
noncomputable def expect (A : Op L) (psi : Cfg L → ℂ) : ℂ := braket A psi / normSq psi

/-- The state with fixed numbers of up and down electrons whose amplitudes are the exponentials of `logpsi`. -/
noncomputable def sectorState (logpsi : Cfg L → ℂ) (n : ℕ × ℕ) (x : Cfg L) : ℂ :=
  if (numElec false x, numElec true x) = n then Complex.exp (logpsi x) else 0

/-- The pair operator `Σ_{σ τ} c†_{pσ} c†_{rτ} c_{sτ} c_{qσ}`, whose expectation values are the two-body density matrix. -/
def pairOp (p q r s : Fin L) : Op L :=
  ∑ σ : Bool, ∑ τ : Bool, cre (mode σ p) * cre (mode τ r) * ann (mode τ s) * ann (mode σ q)

/-- Twice the operator `S^z_ij = ½ (c†_{i↑} c_{j↑} - c†_{i↓} c_{j↓})`; for `i = j` this is twice the spin of the site. -/
def spinZ2 (i j : Fin L) : Op L := cre (mode false i) * ann (mode false j) - cre (mode true i) * ann (mode true j)

/-- `S^+_ij = c†_{i↑} c_{j↓}` -/
def spinUp (i j : Fin L) : Op L := cre (mode false i) * ann (mode true j)

/-- `S^-_ij = c†_{i↓} c_{j↑}` -/
def spinDown (i j : Fin L) : Op L := cre (mode true i) * ann (mode false j)

/-- Four times `S_ij · S_kl = S^z_ij S^z_kl + ½ (S^+_ij S^-_kl + S^-_ij S^+_kl)`. -/
def spinDot4 (i j k l : Fin L) : Op L :=
  (2 : ℤ) • (spinUp i j * spinDown k l) + (2 : ℤ) • (spinDown i j * spinUp k l) + spinZ2 i j * spinZ2 k l

/-- A singlet: the total raising and the total lowering operator annihilate the state. -/
def IsSinglet (psi : Cfg L → ℂ) : Prop :=
  (∀ x, ∑ x', (((∑ i, spinUp i i : Op L) (occOf x) (occOf x') : ℤ) : ℂ) * psi x' = 0) ∧
  (∀ x, ∑ x', (((∑ i, spinDown i i : Op L) (occOf x) (occOf x') : ℤ) : ℂ) * psi x' = 0)

/-! ## A sheet of 6 x 6 atoms, numbered row by row -/

def row6 (a : Fin 36) : ℤ := a.val / 6
def col6 (a : Fin 36) : ℤ := a.val % 6

/-- The square of the distance of two atoms, in units of the lattice constant. -/
def dist6 (a b : Fin 36) : ℤ := (row6 a - row6 b) ^ 2 + (col6 a - col6 b) ^ 2

/-- The four atoms in the middle: those at least two sites away from every border. -/
def bulk6 : Finset (Fin 36) := Finset.univ.filter fun a => 2 ≤ row6 a ∧ row6 a ≤ 3 ∧ 2 ≤ col6 a ∧ col6 a ≤ 3

/-- The correlations of a bulk atom with all atoms at a distance, averaged over the bulk. -/
noncomputable def radialSum (corr : Fin 36 → Fin 36 → ℝ) (d : ℤ) : ℝ :=
  (∑ a ∈ bulk6, ∑ b with dist6 a b = d, corr a b) / bulk6.card

end GPSKet.Spec
