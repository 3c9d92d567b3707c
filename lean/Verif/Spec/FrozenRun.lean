import Mathlib.Data.Complex.Basic

/-!
# Specification: states that are a single configuration

Nothing here refers to the code.
-/

namespace GPSKet.Spec

/-- The wave function is zero everywhere except at `x₀`. -/
def OnlyAt {C : Type} (psi : C → ℂ) (x₀ : C) : Prop := ∀ y, psi y ≠ 0 ↔ y = x₀

end GPSKet.Spec
