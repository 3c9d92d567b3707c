import Mathlib.Analysis.Complex.Basic
import Mathlib.Algebra.BigOperators.Group.Finset.Basic

/-!
# Specification: energies and local energies on a finite configuration space

Nothing here refers to the code.
-/

namespace GPSKet.Spec

variable {C : Type} [Fintype C]

/-- `⟨ψ|ψ⟩`. -/
noncomputable def bornNorm (psi : C → ℂ) : ℝ := ∑ x, ‖psi x‖ ^ 2

/-- The energy `⟨ψ|H|ψ⟩ / ⟨ψ|ψ⟩` of a state with respect to a matrix. -/
noncomputable def rayleigh (H : C → C → ℂ) (psi : C → ℂ) : ℂ :=
  (∑ x, ∑ y, (starRingEnd ℂ) (psi x) * H x y * psi y) / (bornNorm psi : ℂ)

/-- The local energy `(Hψ)(x) / ψ(x)`. -/
noncomputable def localValue (H : C → C → ℂ) (psi : C → ℂ) (x : C) : ℂ := (∑ y, H x y * psi y) / psi x

/-- Hermitian matrices. -/
def Hermitian (H : C → C → ℂ) : Prop := ∀ x y, H y x = (starRingEnd ℂ) (H x y)

end GPSKet.Spec
