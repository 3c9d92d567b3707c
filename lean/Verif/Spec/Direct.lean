import Mathlib.MeasureTheory.Constructions.Pi
import Mathlib.MeasureTheory.Measure.Lebesgue.Basic
import Mathlib.Analysis.SpecialFunctions.Complex.Log

/-!
# Specification: batches of independent random draws

Nothing here refers to the code.
-/

namespace GPSKet.Spec

open MeasureTheory

variable {B L : ℕ} {ι Y : Type} [Fintype ι] [Fintype Y]

/-- The probability that a function of `B × L` independent uniform variates in `[0,1)` and `B` independent uniform elements of `ι` has the
value `y`. -/
noncomputable def drawProb (g : (Fin B → Fin L → ℝ) → (Fin B → ι) → Y) (y : Y) : ℝ :=
  ((1 / Fintype.card ι : ENNReal) ^ B *
    ∑ r : Fin B → ι, volume {u : Fin B → Fin L → ℝ | (∀ b i, u b i ∈ Set.Ico (0 : ℝ) 1) ∧ g u r = y}).toReal

/-- The expected value of a function of the drawn value. -/
noncomputable def drawExpect {E : Type} [AddCommGroup E] [Module ℝ E] (g : (Fin B → Fin L → ℝ) → (Fin B → ι) → Y) (F : Y → E) : E :=
  ∑ y, drawProb g y • F y

/-- The amplitude with log-amplitude `l`, where `none` stands for `-∞`. -/
noncomputable def amplitude : Option ℂ → ℂ
  | none => 0
  | some z => Complex.exp z

/-- The average over a batch of samples of a quantity evaluated for each of them. -/
noncomputable def batchMean {X : Type} {nc len : ℕ} (f : X → ℂ) (xs : Fin nc → Fin len → X) : ℂ :=
  (∑ c, ∑ t, f (xs c t)) / ((nc * len : ℕ) : ℂ)

/-- The covariance of two quantities over a batch of samples. -/
noncomputable def batchCov {X : Type} {nc len : ℕ} (f g : X → ℂ) (xs : Fin nc → Fin len → X) : ℂ :=
  batchMean (fun x => (starRingEnd ℂ) (f x - batchMean f xs) * (g x - batchMean g xs)) xs

end GPSKet.Spec
