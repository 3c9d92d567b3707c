import Mathlib.Data.Real.Basic
import Mathlib.Algebra.BigOperators.Fin

/-! # Specification: finite laws and detailed balance -/

namespace GPSKet.Spec

/-- Metropolis acceptance probability for a symmetric proposal and unnormalised target weights `π`. -/
noncomputable def metropolisAccept {C : Type} (π : C → ℝ) (x x' : C) : ℝ := min 1 (π x' / π x)

/-- Detailed balance of "propose with `q`, accept with the Metropolis probability" with respect to `π`. -/
def DetailedBalance {C : Type} (π : C → ℝ) (q : C → C → ℝ) : Prop :=
  ∀ x x', π x * (q x x' * metropolisAccept π x x') = π x' * (q x' x * metropolisAccept π x' x)

end GPSKet.Spec
