import Verif.Model.Hilbert
import Verif.Model.Stratified

/-!
# Model of the random keys

JAX's random numbers are functions of explicit keys: `jax.random.split` makes new keys from a key, and every other function of
`jax.random` makes random numbers from a key.  The first part of this file lists, for every function of GPSKet that uses keys,
which keys it uses up and how.  The second part keeps the key functions as parameters and models the random states of the
stratified states as functions of the keys.
-/

namespace GPSKet.Keys

/-- A random key: the path of splits that leads to it from the seed, latest first; `(n, j)` stands for entry `j` of a split
into `n` keys. -/
abbrev Key := List (ℕ × ℕ)

/-- `jax.random.split(k, n)[j]`. -/
def child (k : Key) (n j : ℕ) : Key := (n, j) :: k

/-- What is done with a key: it is split into `n` keys, or random numbers are made from it. -/
inductive Use where
  | split (k : Key) (n : ℕ)
  | draw (k : Key)
  deriving DecidableEq

/-- The key that is used up. -/
def Use.key : Use → Key
  | .split k _ => k
  | .draw k => k

/-- Repetition of a step that uses keys and hands one on (`jax.lax.scan`, `jax.lax.fori_loop`, or calls one after another on a
state that holds the key). -/
def repeated (step : Key → List Use × Key) : ℕ → Key → List Use
  | 0, _ => []
  | m + 1, k => (step k).1 ++ repeated step m (step k).2

/-- `ExchangeRuleWithUpdate.transition` (sampler/rules/exchange_with_update.py:19-21): one draw for all chains. -/
def exchangeRule (k : Key) : List Use := [.draw k]

/-- The keys of one chain in `transition_function` (sampler/rules/fermionic_hopping.py:12, 17-19, 23, 26, 36-40): `keyC`, `keyA`,
`keyB`, `keyD` of a split into four. -/
def hopOne (k : Key) : List Use :=
  [.split k 4, .draw (child k 4 2), .draw (child k 4 0), .draw (child k 4 1), .draw (child k 4 3)]

/-- `transition_function` (sampler/rules/fermionic_hopping.py:60-66): one key for every chain. -/
def hoppingRule (chains : ℕ) (k : Key) : List Use :=
  .split k chains :: (List.range chains).flatMap fun c => hopOne (child k chains c)

/-- `loop_body` of `MetropolisFastSampler._sample_next` (sampler/metropolis_fast.py:35-39, 54): keys for the next round, for the
rule and for the acceptance. -/
def fastStep (rule : Key → List Use) (k : Key) : List Use × Key :=
  (.split k 3 :: (rule (child k 3 1) ++ [.draw (child k 3 2)]), child k 3 0)

/-- `MetropolisFastSampler._sample_next` (sampler/metropolis_fast.py:80, 85, 91, 93-94): the state keeps the first key, the sweep
uses the second. -/
def fastNext (rule : Key → List Use) (sweep : ℕ) (k : Key) : List Use × Key :=
  (.split k 2 :: repeated (fastStep rule) sweep (child k 2 1), child k 2 0)

/-- `scan_fun` of the direct sampler (sampler/autoreg.py:90, 101). -/
def directStep (k : Key) : List Use × Key := ([.split k 2, .draw (child k 2 1)], child k 2 0)

/-- `_sample_chain` of the direct sampler (sampler/autoreg.py:110, 122, 137-156, 169, 175) for `L` sites: `key_init` goes to
`model.init`, `key_scan` to the sites, `key_symm` to the choice of the symmetry, `new_key` into the state. -/
def directChain (L : ℕ) (k : Key) : List Use × Key :=
  (.split k 4 :: .draw (child k 4 1) :: (repeated directStep L (child k 4 2) ++ [.draw (child k 4 3)]), child k 4 0)

/-- `normal` (nn/initializers.py:22, 30). -/
def normalInit (k : Key) : List Use := [.draw k]

/-- `orthogonal` (nn/initializers.py:58-60) for `n` matrices; the initialiser of JAX uses each key once. -/
def orthogonalInit (n : ℕ) (k : Key) : List Use :=
  .split k n :: (List.range n).map fun i => .draw (child k n i)

/-- `random_state` of the ASEP (hilbert/random/discrete_asep.py:11) and of unconstrained fermions
(hilbert/random/discrete_fermion.py:14). -/
def freeRandomState (k : Key) : List Use := [.draw k]

/-- `scan_fun` of `random_state` for fermions with given electron numbers (hilbert/random/discrete_fermion.py:18-28): the positions of
the spin-up electrons are drawn with the same key that is handed on to the next round. -/
def randomStateStep (k : Key) : List Use × Key :=
  ([.split k 2, .draw (child k 2 0), .draw (child k 2 1)], child k 2 0)

/-- `random_state` for fermions with given electron numbers (hilbert/random/discrete_fermion.py:30). -/
def fermionRandomState (batches : ℕ) (k : Key) : List Use := repeated randomStateStep batches k

/-- `ARStateFitting._forward_and_backward` (driver/autoreg_state_fitting.py:47-54): the mini-batch is drawn with the key that is
split in the next step. -/
def fittingStep (k : Key) : List Use × Key := ([.split k 2, .draw (child k 2 0)], child k 2 0)

/-! ### Random states as functions of the keys -/

variable {K : Type} {L : ℕ}

/-- The functions of `jax.random` used by `random_state`: `split(key)` and `choice(key, L, shape=(n,), replace=False)`. -/
structure Gen (K : Type) (L : ℕ) where
  split : K → K × K
  choice : K → ℕ → List (Fin L)

/-- One random configuration (hilbert/random/discrete_fermion.py:18-28). -/
def Gen.state (g : Gen K L) (n_elec : ℕ × ℕ) (key : K) : Cfg L :=
  randomState ⟨g.choice (g.split key).1 n_elec.1, g.choice (g.split key).2 n_elec.2⟩

/-- `random_state` for a batch: a scan that hands on the first half of the split key (hilbert/random/discrete_fermion.py:17-30). -/
def Gen.states (g : Gen K L) (n_elec : ℕ × ℕ) : ℕ → K → List (Cfg L)
  | 0, _ => []
  | b + 1, key => g.state n_elec key :: g.states n_elec b (g.split key).1

/-- The batches of random states proposed for the norm of the complement (state_stratified_sampling.py:160, 170-177): the key is
the first half of the split of the sampler's key, and is replaced by the first half of its own split before each of the `M`
batches of `number_random_samples` states. -/
def Gen.proposals (g : Gen K L) (n_elec : ℕ × ℕ) (R : ℕ) : ℕ → K → List (List (Cfg L))
  | 0, _ => []
  | M + 1, key => g.states n_elec R (g.split key).1 :: g.proposals n_elec R M (g.split key).1

/-- `random_samples` (state_stratified_sampling.py:159-183) when at most `M` batches are needed; `rng` is the key in the state of the
sampler. -/
def Gen.normSamples (g : Gen K L) (n_elec : ℕ × ℕ) (det : List (Cfg L)) (R M : ℕ) (rng : K) : Option (List (Cfg L)) :=
  Stratified.randomSamples det R (g.proposals n_elec R M (g.split rng).1)

/-- The key in the state of the sampler after `T` further calls of `_sample_next` (sampler/metropolis_fast.py:80, 93-94). -/
def Gen.advance (g : Gen K L) : ℕ → K → K
  | 0, rng => rng
  | T + 1, rng => g.advance T (g.split rng).1

end GPSKet.Keys
