import Verif.Spec.Rdm

/-!
# Specification: total spin

Nothing here refers to the code.
-/

namespace GPSKet.Spec

variable {L : ℕ}

/-- The state `A ψ`. -/
noncomputable def applyOp (A : Op L) (psi : Cfg L → ℂ) (x : Cfg L) : ℂ := ∑ x', (A (occOf x) (occOf x') : ℂ) * psi x'

/-- The state `H ψ` for the operator whose row of configuration `x` is the list `row x` of configurations and matrix elements. -/
noncomputable def applyRows (row : Cfg L → List (Cfg L × ℂ)) (psi : Cfg L → ℂ) (x : Cfg L) : ℂ := ∑ x', rowElem (row x) x' * psi x'

/-- The total raising operator `S^+`. -/
def totalUp : Op L := ∑ i, spinUp i i

/-- The total lowering operator `S^-`. -/
def totalDown : Op L := ∑ i, spinDown i i

/-- Twice the `z` component of the total spin. -/
def totalZ2 : Op L := ∑ i, spinZ2 i i

/-- Four times the square of the total spin, `4 S² = 4 Σ_ij S_i · S_j`. -/
def totalSq4 : Op L := ∑ i, ∑ j, spinDot4 i i j j

/-- States of total spin `s / 2`: `S² ψ = (s/2) (s/2 + 1) ψ`. -/
def HasTotalSpin (s : ℕ) (psi : Cfg L → ℂ) : Prop := ∀ x, applyOp totalSq4 psi x = (s * (s + 2) : ℂ) * psi x

/-- The operators of the total spin. -/
inductive IsTotalSpin : Op L → Prop
  | up : IsTotalSpin totalUp
  | down : IsTotalSpin totalDown
  | z : IsTotalSpin totalZ2
  | sq : IsTotalSpin totalSq4

end GPSKet.Spec
