import Verif.Spec.SlaterState
import Mathlib.Data.Nat.Factorial.Basic
import Mathlib.Algebra.Field.Defs
import Mathlib.Analysis.SpecialFunctions.Trigonometric.Basic

/-!
# Specification: pair states in second quantisation

Nothing here refers to the code.
-/

namespace GPSKet.Spec
open Matrix

variable {ι : Type} [Fintype ι] [LinearOrder ι] {K : Type} [Field K]

/-- The operator `Σ_pq F_pq c†_p c†_q`, which creates a pair with the pairing function `F`. -/
def pairing (F : ι → ι → K) : Matrix (Occ ι) (Occ ι) K := ∑ p, ∑ q, F p q • toK K (cre p * cre q)

/-- The part with `n` pairs of the state `exp(Σ_pq F_pq c†_p c†_q) |0⟩`: `(1/n!) (Σ_pq F_pq c†_p c†_q)ⁿ |0⟩`. -/
def pairState (F : ι → ι → K) (n : ℕ) : Occ ι → K := (1 / (n.factorial : K)) • (pairing F ^ n *ᵥ vacuum)

/-- The pairing function of up electrons with down electrons `Σ_ij f_ij c†_{i↑} c†_{j↓}`. -/
def opposite {L : ℕ} (f : Fin L → Fin L → K) : Mode L → Mode L → K :=
  fun p q => if (ofLex p).1 = false ∧ (ofLex q).1 = true then f (ofLex p).2 (ofLex q).2 else 0

/-- The rotation of a spin by the angle `θ` about the `y` axis: the component `s` (`false` up, `true` down) of the rotated state `t`. -/
noncomputable def rotY (θ : ℝ) (s t : Bool) : ℂ :=
  match s, t with
  | false, false => Real.cos (θ / 2)
  | false, true => -Real.sin (θ / 2)
  | true, false => Real.sin (θ / 2)
  | true, true => Real.cos (θ / 2)

/-- The pairing of up with down electrons, after a rotation of both spins. -/
noncomputable def rotatedPairs {L : ℕ} (f : Fin L → Fin L → ℂ) (θ : ℝ) : Mode L → Mode L → ℂ :=
  fun p q => rotY θ (ofLex p).1 false * rotY θ (ofLex q).1 true * f (ofLex p).2 (ofLex q).2

end GPSKet.Spec
