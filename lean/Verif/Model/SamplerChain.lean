import Verif.Spec.Metropolis
import Verif.Model.HoppingRule
import Mathlib.MeasureTheory.Measure.Lebesgue.Basic

/-!
# Model of the Markov chains run by the Metropolis samplers of the package

One chain of `MetropolisFastHopping` / `MetropolisHopping` (sampler/fermionic_hopping.py:6-46) and of a Metropolis
sampler with `ExchangeRuleWithUpdate` (sampler/rules/exchange_with_update.py:14-34).  A step draws the rule's random
outcome and, independently, the uniform variate of the accept test (sampler/metropolis_fast.py:36-60); the step itself is
`mhStep`, which C24 proves to be what `MetropolisFastSampler` executes.  Chains do not read each other's state, so one
chain is considered at a time; pseudo-random numbers are replaced by the exact laws they approximate.
-/

namespace GPSKet

variable {S A D : Type}

/-- The inputs of one iteration for a drawn outcome: the rule's transition and the uniform variate
(metropolis_fast.py:37-39, 54).  Both rules return `None` as correction (fermionic_hopping.py:74,
exchange_with_update.py:34). -/
def drawInput (proposal : D → (S → A) → (S → A) × S × S) (d : D) (u : ℝ) : StepInput Unit S A where
  transition := fun σ =>
    { σp := fun c => (proposal d (σ c)).1
      log_prob_correction := none
      update_sites := fun c => [(proposal d (σ c)).2.1, (proposal d (σ c)).2.2] }
  uniform := fun _ => u

/-- The probability that one iteration (metropolis_fast.py:33-78) takes the chain from `x` to `y`: the rule's outcome `d`
has probability `law x d`, the uniform variate is distributed evenly on `[0, 1)`. -/
noncomputable def stepProb [Fintype D] (logpsi : (S → A) → ℂ) (machine_pow : ℝ) (law : (S → A) → D → ℝ)
    (proposal : D → (S → A) → (S → A) × S × S) (x y : S → A) : ℝ :=
  ∑ d, law x d * (MeasureTheory.volume {u : ℝ | u ∈ Set.Ico (0 : ℝ) 1 ∧
    Spec.mhStep logpsi machine_pow (fun _ => x) (drawInput proposal d u) () = y}).toReal

variable {L : ℕ}

/-- The outcomes of the hopping rule (fermionic_hopping.py:12-44) as tuples. -/
def toDraw (d : Fin 2 × Fin L × Fin 2 × Fin L) : HopDraw L := ⟨d.1, d.2.1, d.2.2.1, d.2.2.2⟩

/-- One iteration of `MetropolisFastHopping`/`MetropolisHopping` (sampler/fermionic_hopping.py:6-46). -/
noncomputable def hoppingStep (logpsi : Arr L → ℂ) (machine_pow hop_probability : ℝ)
    (transition_probs : Option (Fin L → Fin L → ℝ)) (x y : Arr L) : ℝ :=
  stepProb logpsi machine_pow (fun x d => (toDraw d).prob hop_probability transition_probs x)
    (fun d x => applyElectronHop x (toDraw d)) x y

/-- One iteration with the exchange rule (exchange_with_update.py:14-34): `randint` draws every cluster with equal
probability. -/
noncomputable def exchangeStep [DecidableEq S] (logpsi : (S → A) → ℂ) (machine_pow : ℝ) (clusters : List (S × S))
    (x y : S → A) : ℝ :=
  stepProb (D := Fin clusters.length) logpsi machine_pow (fun _ _ => 1 / (clusters.length : ℝ))
    (fun d x => exchangeUpdate x clusters[d]) x y

end GPSKet
