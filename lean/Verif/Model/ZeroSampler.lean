import Verif.Model.SamplerChain
import Verif.Model.FloatSelect

/-!
# The accept test of the Metropolis samplers for amplitudes that are zero

The logarithm of a zero amplitude is `-inf`, so the accept test (sampler/metropolis_fast.py:52-63) is written down for floating-point numbers
that can be infinite or NaN (`Floats.F`).  The rest of a step is as in Model/SamplerChain.
-/

namespace GPSKet.ZeroSampler
open Floats Floats.F

variable {S A D : Type}

/-- The comparison `uniform < x` (metropolis_fast.py:56-60), which is false if `x` is NaN. -/
def below (u : ℝ) : F → Prop
  | fin x => u < x
  | pinf => True
  | ninf => False
  | nan => False

/-- The logarithm of the probability, `machine_pow * value.real` (metropolis_fast.py:52, 88), for the value `log(amplitude)`. -/
noncomputable def logProb (machine_pow : ℝ) (amp : ℂ) : F := fin machine_pow * F.log (fin ‖amp‖)

open Classical in
/-- The accept test and the selection of the configuration (metropolis_fast.py:59-63): `old` belongs to `x` and `new` to the proposal `p`. -/
noncomputable def select {X : Type} (new old : F) (p x : X) (u : ℝ) : X := if below u (F.exp (new + -old)) then p else x

/-- The probability that one iteration (metropolis_fast.py:33-78) takes the chain from `x` to `y`.  `old x` is the stored logarithm at `x`, and `new x p` the one computed for the
proposal `p` with the help of what is cached at `x`. -/
noncomputable def stepProb [Fintype D] (old : (S → A) → F) (new : (S → A) → (S → A) → F) (law : (S → A) → D → ℝ)
    (proposal : D → (S → A) → (S → A) × S × S) (x y : S → A) : ℝ :=
  ∑ d, law x d * (MeasureTheory.volume {u : ℝ | u ∈ Set.Ico (0 : ℝ) 1 ∧
    select (new x (proposal d x).1) (old x) (proposal d x).1 x u = y}).toReal

/-- The step of the plain samplers, and of the fast sampler (metropolis_fast.py:33-78) with models whose fast updates do not divide by the amplitude. -/
noncomputable def plainStep [Fintype D] (psi : (S → A) → ℂ) (machine_pow : ℝ) (law : (S → A) → D → ℝ)
    (proposal : D → (S → A) → (S → A) × S × S) (x y : S → A) : ℝ :=
  stepProb (fun x => logProb machine_pow (psi x)) (fun _ p => logProb machine_pow (psi p)) law proposal x y

open Classical in
/-- The step of the fast sampler (metropolis_fast.py:33-78) with a determinant model (models/slater.py:268-277): the cache at a configuration of zero amplitude is the inverse of a
singular matrix, so that everything computed from it is NaN. -/
noncomputable def inverseStep [Fintype D] (psi : (S → A) → ℂ) (machine_pow : ℝ) (law : (S → A) → D → ℝ)
    (proposal : D → (S → A) → (S → A) × S × S) (x y : S → A) : ℝ :=
  stepProb (fun x => logProb machine_pow (psi x)) (fun x p => if psi x = 0 then nan else logProb machine_pow (psi p)) law proposal x y

variable {L : ℕ}

/-- One iteration of `MetropolisHopping`, or of `MetropolisFastHopping` without inverses (sampler/fermionic_hopping.py:6-46). -/
noncomputable def hoppingStep (psi : Arr L → ℂ) (machine_pow hop_probability : ℝ) (transition_probs : Option (Fin L → Fin L → ℝ))
    (x y : Arr L) : ℝ :=
  plainStep psi machine_pow (fun x d => (toDraw d).prob hop_probability transition_probs x) (fun d x => applyElectronHop x (toDraw d)) x y

/-- One iteration of `MetropolisFastHopping` with a determinant model (sampler/fermionic_hopping.py:6-25). -/
noncomputable def inverseHoppingStep (psi : Arr L → ℂ) (machine_pow hop_probability : ℝ)
    (transition_probs : Option (Fin L → Fin L → ℝ)) (x y : Arr L) : ℝ :=
  inverseStep psi machine_pow (fun x d => (toDraw d).prob hop_probability transition_probs x) (fun d x => applyElectronHop x (toDraw d)) x y

/-- One iteration with the exchange rule (exchange_with_update.py:14-34). -/
noncomputable def exchangeStep [DecidableEq S] (psi : (S → A) → ℂ) (machine_pow : ℝ) (clusters : List (S × S)) (x y : S → A) : ℝ :=
  plainStep (D := Fin clusters.length) psi machine_pow (fun _ _ => 1 / (clusters.length : ℝ)) (fun d x => exchangeUpdate x clusters[d]) x y

end GPSKet.ZeroSampler
