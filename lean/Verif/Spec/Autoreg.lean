import Mathlib.Analysis.SpecialFunctions.Pow.Real
import Mathlib.Analysis.SpecialFunctions.Complex.Log
import Mathlib.Data.Fintype.BigOperators
import Mathlib.Algebra.BigOperators.Fin

/-!
# Specification: autoregressive wave functions
-/

namespace GPSKet.Spec

variable {L : ℕ} {A B : Type}

/-- The probability `|ψ|^pow` of a configuration with log-amplitude `l` (`none`: `-inf`, i.e. `ψ = 0`). -/
noncomputable def bornWeight (pow : ℝ) : Option ℂ → ℝ
  | none => 0
  | some z => ‖Complex.exp z‖ ^ pow

/-- A site-resolved quantity is causal if its `i`-th entry only depends on the sites before `i`. -/
def Causal (p : Fin L → (Fin L → A) → B) : Prop :=
  ∀ i x y, (∀ j, j < i → x j = y j) → p i x = p i y

/-- The law of the configuration generated site by site with the conditionals `p`. -/
def chainLaw (p : Fin L → (Fin L → A) → A → ℝ) (x : Fin L → A) : ℝ := ∏ i, p i x (x i)

/-- A permutation-like family of configuration symmetries closed under inverses: operation `t` has inverse `inv t`. -/
structure ClosedUnderInverse {C ι : Type} (S : ι → C → C) (inv : ι → ι) : Prop where
  invol : ∀ t, inv (inv t) = t
  left : ∀ t x, S (inv t) (S t x) = x

end GPSKet.Spec
