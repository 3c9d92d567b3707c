import Mathlib.Data.Nat.Notation

/-!
# Model of the cache of `MCStateUniqueSamples` (`GPSKet/vqs/mc/mc_state/state_unique_samples.py`)

Parameters, samplers and sampler states are abstract.  The setters of `parameters`, `sampler` and `n_samples` are NetKet's `MCState`'s, which
assign and call `reset`.  Samples are represented by what they were drawn with.
-/

namespace GPSKet.UniqueCache

/-- What determines the samples, besides the random numbers. -/
structure Settings (Par Smp : Type) where
  parameters : Par
  sampler : Smp
  n_samples : ℕ
  max_sampling_steps : Option ℕ
  batch_size : ℕ

/-- Samples: the settings they were drawn with, and the number of draws made before. -/
structure Samples (Par Smp : Type) where
  settings : Settings Par Smp
  draw : ℕ

/-- The state (state_unique_samples.py:39-52): settings, the number of draws made, and the cached unique samples (`_unique_samples`). -/
structure State (Par Smp : Type) where
  settings : Settings Par Smp
  draws : ℕ
  unique : Option (Samples Par Smp)

variable {Par Smp : Type}

/-- `__init__` (state_unique_samples.py:40-47): the batch size is the number of samples at that time unless given. -/
def construct (parameters : Par) (sampler : Smp) (n_samples : ℕ) (max_sampling_steps batch_size : Option ℕ) : State Par Smp :=
  ⟨⟨parameters, sampler, n_samples, max_sampling_steps, match batch_size with | none => n_samples | some b => b⟩, 0, none⟩

/-- `reset` (state_unique_samples.py:49-52). -/
def reset (s : State Par Smp) : State Par Smp := { s with unique := none }

/-- What a user can do with the state.  `sample` is NetKet's method, which draws plain samples; `read` is `samples_with_counts`, which every
expectation value and gradient uses. -/
inductive Action (Par Smp : Type)
  | setParameters (p : Par)
  | setSampler (s : Smp)
  | setNSamples (n : ℕ)
  | setMaxSteps (m : Option ℕ)
  | setBatchSize (b : ℕ)
  | reset
  | sample
  | read

/-- `samples_with_counts` (state_unique_samples.py:57-121): cached samples, or new ones. -/
def readSamples (s : State Par Smp) : Samples Par Smp × State Par Smp :=
  match s.unique with
  | some u => (u, s)
  | none =>
    let u : Samples Par Smp := ⟨s.settings, s.draws⟩
    (u, { s with unique := some u, draws := s.draws + 1 })

/-- One action; `max_sampling_steps` and `batch_size` are plain attributes (state_unique_samples.py:42-47), so assigning them does nothing
else.  `sample` only replaces `_samples`, which is read nowhere. -/
def step (s : State Par Smp) : Action Par Smp → State Par Smp
  | .setParameters p => UniqueCache.reset { s with settings := { s.settings with parameters := p } }
  | .setSampler q => UniqueCache.reset { s with settings := { s.settings with sampler := q } }
  | .setNSamples n => UniqueCache.reset { s with settings := { s.settings with n_samples := n } }
  | .setMaxSteps m => { s with settings := { s.settings with max_sampling_steps := m } }
  | .setBatchSize b => { s with settings := { s.settings with batch_size := b } }
  | .reset => UniqueCache.reset s
  | .sample => { s with draws := s.draws + 1 }
  | .read => (readSamples s).2

/-- The state after a history. -/
def run (s : State Par Smp) (h : List (Action Par Smp)) : State Par Smp := h.foldl step s

end GPSKet.UniqueCache
