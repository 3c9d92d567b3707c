import Verif.Model.UniqueSamples
import Mathlib.Analysis.SpecialFunctions.Exp

/-!
# Model of `GPSKet/vqs/mc/mc_state/state_stratified_sampling.py`

The Monte-Carlo sampler, the random states of the Hilbert space and the variational log-amplitudes are inputs.  `lp c` stands for
`2 * log_value(c).real` (line 132): a real number, or `none` for minus infinity (a vanishing amplitude).  Chunking is left out.
-/

namespace GPSKet.Stratified

variable {C : Type} [DecidableEq C]

/-- Membership in `lookup_dict` (state_stratified_sampling.py:55-57). -/
def inDet (det : List C) (c : C) : Bool := decide (c ∈ det)

/-- `jnp.array_split(l, R)[r]` (state_stratified_sampling.py:45-47): the first `len % R` pieces are one longer. -/
def arraySplit {α : Type} (l : List α) (R r : ℕ) : List α :=
  (l.drop (r * (l.length / R) + min r (l.length % R))).take (l.length / R + if r < l.length % R then 1 else 0)

/-- The initial configuration of one chain: random states are drawn until one is outside the deterministic set
(state_stratified_sampling.py:65-74); `none` when the given random states do not suffice. -/
def initialSample (det : List C) : List C → Option C
  | [] => none
  | c :: rest => if inDet det c then initialSample det rest else some c

/-- `sample_step` (state_stratified_sampling.py:90-106) for all chains of a rank: `proposed` is what the sampler returned when
started from the current configurations. -/
def sampleStep (det : List C) {chains : ℕ} (old proposed : Fin chains → C) : Fin chains → C :=
  fun i => if inDet det (proposed i) then old i else proposed i

/-- `k` steps; `sampler t x` is what the sampler returns at its call number `t` when the chains are at `x`
(state_stratified_sampling.py:112-114, 119-120).  The result has the number of calls done so far and the chains. -/
def steps (det : List C) {chains : ℕ} (sampler : ℕ → (Fin chains → C) → Fin chains → C) :
    ℕ → ℕ × (Fin chains → C) → ℕ × (Fin chains → C)
  | 0, s => s
  | k + 1, s => steps det sampler k (s.1 + 1, sampleStep det s.2 (sampler s.1 s.2))

/-- The sampling loop (state_stratified_sampling.py:117-121): the recorded configurations. -/
def sampleChain (det : List C) {chains : ℕ} (sampler : ℕ → (Fin chains → C) → Fin chains → C) (nSweeps : ℕ) :
    ℕ → ℕ × (Fin chains → C) → List (Fin chains → C)
  | 0, _ => []
  | k + 1, s => (steps det sampler nSweeps s).2 :: sampleChain det sampler nSweeps k (steps det sampler nSweeps s)

/-- `samples_from_complement` (state_stratified_sampling.py:111-125): warm-up, sampling and flattening. -/
def complementSamples (det : List C) {chains : ℕ} (sampler : ℕ → (Fin chains → C) → Fin chains → C)
    (nDiscard nSweeps chainLength : ℕ) (start : Fin chains → C) : List C :=
  (sampleChain det sampler nSweeps chainLength (steps det sampler (nDiscard * nSweeps) (0, start))).flatMap
    fun x => (List.finRange chains).map x

/-- The loop over a batch of proposed random samples (state_stratified_sampling.py:178-183): `need` samples are still missing. -/
def takeRandom (det : List C) : ℕ → List C → List C
  | _, [] => []
  | 0, _ => []
  | need + 1, c :: rest => if inDet det c then takeRandom det (need + 1) rest else c :: takeRandom det need rest

/-- The `while found_samples < number_random_samples` loop (state_stratified_sampling.py:168-183) over the batches of random
states; `none` when the given batches do not suffice. -/
def randomSamples (det : List C) : ℕ → List (List C) → Option (List C)
  | 0, _ => some []
  | _ + 1, [] => none
  | need + 1, b :: rest =>
    (randomSamples det (need + 1 - (takeRandom det (need + 1) b).length) rest).map fun l => takeRandom det (need + 1) b ++ l

/-- Sum over the elements of all ranks: `_sum(...)` (netket `mpi_stats.sum`). -/
noncomputable def mpiSum {R : ℕ} (l : Fin R → List ℝ) : ℝ := ∑ r, (l r).sum

/-- `jnp.exp(lp - shift)`. -/
noncomputable def expo (lp : Option ℝ) (shift : ℝ) : ℝ :=
  match lp with
  | none => 0
  | some x => Real.exp (x - shift)

/-- The maximum of a list of reals (`jnp.max`, state_stratified_sampling.py:147). -/
noncomputable def maxOf : List ℝ → ℝ
  | [] => 0
  | a :: l => l.foldl max a

/-- `rescale_shift` (state_stratified_sampling.py:146-152): the maximum over all ranks of the local maxima; the maximum of the
concatenation of all ranks here.  (When every entry is minus infinity the code produces NaN; the model uses the shift 0.) -/
noncomputable def rescaleShift {R : ℕ} (lp : C → Option ℝ) (det comp : Fin R → List C) : ℝ :=
  maxOf ((List.finRange R).flatMap fun r => (det r ++ comp r).filterMap lp)

/-- The settings `renormalize` and `rand_norm` together with the uniformly drawn samples (state_stratified_sampling.py:142-208). -/
inductive Mode (C : Type) (R : ℕ)
  /-- `renormalize=True, rand_norm=True` with the random samples of every rank. -/
  | randNorm (random : Fin R → List C)
  /-- `renormalize=True, rand_norm=False`. -/
  | importance
  /-- `renormalize=False`. -/
  | normalized

/-- The total number of sampled configurations (state_stratified_sampling.py:141). -/
def totalSamples {R : ℕ} (comp : Fin R → List C) : ℕ := ∑ r, (comp r).length

/-- The shift subtracted from the log-probabilities: 0 with `renormalize=False` (state_stratified_sampling.py:142-154). -/
noncomputable def shiftOf {R : ℕ} (lp : C → Option ℝ) (det comp : Fin R → List C) : Mode C R → ℝ
  | .normalized => 0
  | _ => rescaleShift lp det comp

/-- `norm_deterministic` (state_stratified_sampling.py:156, 207). -/
noncomputable def normDeterministic {R : ℕ} (lp : C → Option ℝ) (det : Fin R → List C) (shift : ℝ) : ℝ :=
  mpiSum fun r => (det r).map fun c => expo (lp c) shift

open Classical in
/-- `norm_estimate` (state_stratified_sampling.py:158-208).  `nComp` is `N_complement`.
A vanishing amplitude among the samples makes the sum of the inverse probabilities (line 202) infinite and the quotient zero. -/
noncomputable def normEstimate {R : ℕ} (lp : C → Option ℝ) (nComp : ℕ) (det comp : Fin R → List C) (shift : ℝ) : Mode C R → ℝ
  | .randNorm random =>
    normDeterministic lp det shift +
      nComp * (mpiSum fun r => (random r).map fun c => expo (lp c) shift) / ((∑ r, (random r).length : ℕ) : ℝ)
  | .importance =>
    normDeterministic lp det shift +
      if ∃ r, ∃ c ∈ comp r, lp c = none then 0 else
        nComp * (totalSamples comp : ℝ) / (mpiSum fun r => (comp r).map fun c => Real.exp (-((lp c).getD 0 - shift)))
  | .normalized => 1

/-- The samples and weights of all ranks (state_stratified_sampling.py:127-129, 210-221). -/
noncomputable def weights {R : ℕ} (lp : C → Option ℝ) (nComp : ℕ) (det comp : Fin R → List C) (mode : Mode C R) :
    Fin R → List (C × ℝ) :=
  let shift := shiftOf lp det comp mode
  let norm := normEstimate lp nComp det comp shift mode
  fun r =>
    (det r).map (fun c => (c, expo (lp c) shift / norm)) ++
      (comp r).map (fun c => (c, 1 * (1 - normDeterministic lp det shift / norm) / (totalSamples comp : ℝ)))

end GPSKet.Stratified
