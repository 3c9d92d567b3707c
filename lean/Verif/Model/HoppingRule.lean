import Verif.Spec.Occupation
import Mathlib.Data.Real.Basic
import Mathlib.Data.Fin.VecNotation

/-!
# Model of `GPSKet/sampler/rules/fermionic_hopping.py`

Samples are converted to `uint8` arrays (line 63), modelled by `UInt8` with its wrap-around arithmetic.
`jax.random.choice(key, n, p=p)` computes `searchsorted(cumsum(p), cumsum(p)[-1] * (1 - u))` with `u ∈ [0,1)`: it
returns index `i` with probability `p_i / Σp`, never an index with `p_i = 0`, except that it returns `0` when all
`p_i` vanish.
-/

namespace GPSKet

/-- The outcomes `jax.random.choice` can produce. -/
def ChoicePossible {n : ℕ} (p : Fin n → ℝ) (i : Fin n) : Prop := 0 < p i ∨ ((∀ j, p j = 0) ∧ i.val = 0)

/-- The law of `jax.random.choice`. -/
noncomputable def choiceLaw {n : ℕ} (p : Fin n → ℝ) (i : Fin n) : ℝ :=
  if ∑ j, p j = 0 then (if i.val = 0 then 1 else 0) else p i / ∑ j, p j

variable {L : ℕ}

/-- An array of local occupations. -/
abbrev Arr (L : ℕ) := Fin L → UInt8

/-- A configuration as the `uint8` array the rule works on (fermionic_hopping.py:63). -/
def embed (x : Cfg L) : Arr L := fun i => UInt8.ofNat (x i).val

/-- `occ` (fermionic_hopping.py:13-15). -/
def occAt (samp : Arr L) (i : Fin L) : ℕ :=
  (if samp i &&& 1 = 0 then 0 else 1) + (if samp i &&& 2 = 0 then 0 else 1)

/-- Random outcomes used for one chain: hop (`0`) or exchange (`1`), start site, index of the spin, target site
(fermionic_hopping.py:17-40). -/
structure HopDraw (L : ℕ) where
  hopping_or_exchange : Fin 2
  start_site : Fin L
  spin_index : Fin 2
  target_site : Fin L

/-- `occ_prob` (fermionic_hopping.py:20-22). -/
def occProb (samp : Arr L) (hopping_or_exchange : Fin 2) (i : Fin L) : ℝ :=
  if hopping_or_exchange = 0 then occAt samp i else if occAt samp i ≠ 2 ∧ occAt samp i ≠ 0 then 1 else 0

/-- `spin_probs` (fermionic_hopping.py:24). -/
def spinProbs (samp : Arr L) (start_site : Fin L) (k : Fin 2) : ℝ :=
  if samp start_site &&& (if k = 0 then 1 else 2) = 0 then 0 else 1

/-- `spin` (fermionic_hopping.py:25-27). -/
def spinOf (k : Fin 2) : UInt8 := UInt8.ofNat k.val + 1

/-- `target_site_probs` (fermionic_hopping.py:28-34). -/
def targetSiteProbs (samp : Arr L) (hopping_or_exchange : Fin 2) (spin : UInt8) (i : Fin L) : Bool :=
  if hopping_or_exchange = 0 then decide (samp i &&& spin = 0)
  else decide (occAt samp i ≠ 2 ∧ occAt samp i ≠ 0) && decide (samp i &&& spin = 0)

/-- The probabilities the target site is drawn with (fermionic_hopping.py:35-40): the row of the user's table, or
uniform over the allowed targets. -/
def targetDrawProbs (transition_probs : Option (Fin L → Fin L → ℝ)) (samp : Arr L) (hopping_or_exchange : Fin 2)
    (start_site : Fin L) (spin : UInt8) (i : Fin L) : ℝ :=
  match transition_probs with
  | some T => T start_site i
  | none => if targetSiteProbs samp hopping_or_exchange spin i then 1 else 0

/-- `.at[i].add(v)` -/
def addAt (samp : Arr L) (i : Fin L) (v : UInt8) : Arr L := Function.update samp i (samp i + v)

/-- The target site after disallowed ones have been replaced by the start site (fermionic_hopping.py:42-44). -/
def finalTarget (samp : Arr L) (d : HopDraw L) : Fin L :=
  if targetSiteProbs samp d.hopping_or_exchange (spinOf d.spin_index) d.target_site = false then d.start_site
  else d.target_site

/-- `apply_electron_hop` (fermionic_hopping.py:11-58): the updated sample, start site and target site.
`add(-spin)` on `uint8` is subtraction modulo 256. -/
def applyElectronHop (samp : Arr L) (d : HopDraw L) : Arr L × Fin L × Fin L :=
  let spin := spinOf d.spin_index
  let target_site := finalTarget samp d
  let updated_sample := addAt samp d.start_site (-spin)
  let updated_sample := addAt updated_sample target_site spin
  let updated_sample_exchanged := addAt updated_sample d.start_site (3 - spin)
  let updated_sample_exchanged := addAt updated_sample_exchanged target_site (-(3 - spin))
  (if d.hopping_or_exchange = 0 then updated_sample else updated_sample_exchanged, d.start_site, target_site)

/-- The probabilities of hop and exchange (fermionic_hopping.py:17-19). -/
def hopExchangeProbs (hop_probability : ℝ) : Fin 2 → ℝ := ![hop_probability, 1 - hop_probability]

/-- The draws that can occur on `samp`. -/
def HopDraw.Possible (hop_probability : ℝ) (transition_probs : Option (Fin L → Fin L → ℝ)) (samp : Arr L)
    (d : HopDraw L) : Prop :=
  ChoicePossible (hopExchangeProbs hop_probability) d.hopping_or_exchange ∧
  ChoicePossible (occProb samp d.hopping_or_exchange) d.start_site ∧
  ChoicePossible (spinProbs samp d.start_site) d.spin_index ∧
  ChoicePossible (targetDrawProbs transition_probs samp d.hopping_or_exchange d.start_site (spinOf d.spin_index))
    d.target_site

/-- The probability of a draw (the four keys are independent). -/
noncomputable def HopDraw.prob (hop_probability : ℝ) (transition_probs : Option (Fin L → Fin L → ℝ)) (samp : Arr L)
    (d : HopDraw L) : ℝ :=
  choiceLaw (hopExchangeProbs hop_probability) d.hopping_or_exchange *
  choiceLaw (occProb samp d.hopping_or_exchange) d.start_site *
  choiceLaw (spinProbs samp d.start_site) d.spin_index *
  choiceLaw (targetDrawProbs transition_probs samp d.hopping_or_exchange d.start_site (spinOf d.spin_index))
    d.target_site

/-- Probability that the rule proposes the array `x'` from `x`. -/
noncomputable def proposalProb (hop_probability : ℝ) (transition_probs : Option (Fin L → Fin L → ℝ))
    (x x' : Cfg L) : ℝ :=
  ∑ e : Fin 2, ∑ i : Fin L, ∑ k : Fin 2, ∑ a : Fin L,
    let d : HopDraw L := ⟨e, i, k, a⟩
    if (applyElectronHop (embed x) d).1 = embed x' then d.prob hop_probability transition_probs (embed x) else 0

/-- The check made by the samplers' constructors (sampler/fermionic_hopping.py:17-18, 38-39): a user-supplied table
must be symmetric. -/
def tableAccepted (transition_probs : Option (Fin L → Fin L → ℝ)) : Prop :=
  match transition_probs with
  | none => True
  | some T => ∀ i a, T i a - T a i = 0

end GPSKet
