import Verif.Spec.Updates

/-!
# Model of `GPSKet/sampler/rules/exchange_with_update.py` and `GPSKet/sampler/metropolis_fast.py`
-/

namespace GPSKet

variable {S A : Type} [DecidableEq S]

/-- `ExchangeRuleWithUpdate.transition` for one chain and a drawn cluster `(si, sj)`
(exchange_with_update.py:23-29): proposal and the two reported sites. -/
def exchangeUpdate (σ : S → A) (cluster : S × S) : (S → A) × S × S :=
  let si := cluster.1
  let sj := cluster.2
  let σp := Function.update σ si (σ sj)
  (Function.update σp sj (σ si), si, sj)

/-- The transition of a rule for all chains (metropolis_fast.py:37-39): proposals, optional log-probability correction
and the reported update sites.  All randomness is part of the function. -/
structure Proposal (Chain S A : Type) where
  σp : Chain → S → A
  log_prob_correction : Option (Chain → ℝ)
  update_sites : Chain → List S

/-- The random inputs of one iteration of the loop: what the rule does with its key, and the uniform variates
(metropolis_fast.py:37,54). -/
structure StepInput (Chain S A : Type) where
  transition : (Chain → S → A) → Proposal Chain S A
  uniform : Chain → ℝ

/-- The loop's state `s` (metropolis_fast.py:84-90). -/
structure FastState (Chain S A Cache : Type) where
  σ : Chain → S → A
  intermediates_cache : Chain → Cache
  log_prob : Chain → ℝ
  accepted : ℕ

variable {Chain Cache : Type} [Fintype Chain]

/-- `do_accept` of one chain (metropolis_fast.py:54-60). -/
def doAccept (log_prob_correction : Option (Chain → ℝ)) (uniform proposal_log_prob log_prob : Chain → ℝ) (c : Chain) :
    Prop :=
  match log_prob_correction with
  | some corr => uniform c < Real.exp (proposal_log_prob c - log_prob c + corr c)
  | none => uniform c < Real.exp (proposal_log_prob c - log_prob c)

open Classical in
/-- `loop_body` (metropolis_fast.py:33-78).  `jnp.take(σp, update_sites)` pairs every reported site with its new
occupation; caches are selected leaf by leaf with the chain's accept flag. -/
noncomputable def loopBody (machine : Spec.CachedModel S A Cache) (machine_pow : ℝ)
    (s : FastState Chain S A Cache) (inp : StepInput Chain S A) : FastState Chain S A Cache :=
  let pr := inp.transition s.σ
  let updated_occupancy := fun c => (pr.update_sites c).map fun j => (j, pr.σp c j)
  let value := fun c => machine.fast (s.intermediates_cache c) (updated_occupancy c)
  let new_cache := fun c => machine.fastCache (s.intermediates_cache c) (updated_occupancy c)
  let proposal_log_prob := fun c => machine_pow * (value c).re
  let do_accept := doAccept pr.log_prob_correction inp.uniform proposal_log_prob s.log_prob
  { σ := fun c => if do_accept c then pr.σp c else s.σ c
    intermediates_cache := fun c => if do_accept c then new_cache c else s.intermediates_cache c
    accepted := s.accepted + ∑ c, if do_accept c then 1 else 0
    log_prob := fun c => if do_accept c then proposal_log_prob c else s.log_prob c }

/-- The part of the sampler state that `_sample_next` reads and replaces (metropolis_fast.py:93-99). -/
structure SamplerState (Chain S A : Type) where
  σ : Chain → S → A
  n_accepted_proc : ℕ
  n_steps_proc : ℕ

/-- Initial loop state (metropolis_fast.py:81-90). -/
def initState (machine : Spec.CachedModel S A Cache) (machine_pow : ℝ) (state : SamplerState Chain S A) :
    FastState Chain S A Cache where
  σ := state.σ
  intermediates_cache := fun c => machine.cacheOf (state.σ c)
  log_prob := fun c => machine_pow * (machine.full (state.σ c)).re
  accepted := state.n_accepted_proc

/-- The loop of `_sample_next` after the iterations listed (metropolis_fast.py:91; `sweep_size` is their number). -/
noncomputable def runLoop (machine : Spec.CachedModel S A Cache) (machine_pow : ℝ) (state : SamplerState Chain S A)
    (inputs : List (StepInput Chain S A)) : FastState Chain S A Cache :=
  inputs.foldl (loopBody machine machine_pow) (initState machine machine_pow state)

/-- `_sample_next` (metropolis_fast.py:18-101). -/
noncomputable def sampleNext (machine : Spec.CachedModel S A Cache) (machine_pow : ℝ)
    (state : SamplerState Chain S A) (inputs : List (StepInput Chain S A)) : SamplerState Chain S A :=
  let s := runLoop machine machine_pow state inputs
  { σ := s.σ
    n_accepted_proc := s.accepted
    n_steps_proc := state.n_steps_proc + inputs.length * Fintype.card Chain }

end GPSKet
