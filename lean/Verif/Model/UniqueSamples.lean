import Mathlib.Analysis.Complex.Norm
import Mathlib.Algebra.BigOperators.Fin
import Mathlib.Data.List.FinRange

/-!
# Model of `GPSKet/vqs/mc/mc_state/state_unique_samples.py`

The batches returned by the sampler, merged over the MPI ranks by `allgather` (lines 72-75), are an input: a list of batches, each
a list of configurations.  Every rank runs the same loop on the same merged batches; the sampling loop itself is a function of
the batches drawn so far and returns `none` when it would draw a further batch.
-/

namespace GPSKet.UniqueSamples

variable {C : Type} [DecidableEq C]

/-- The `defaultdict` of counts, in insertion order (state_unique_samples.py:60). -/
abbrev Dict (C : Type) := List (C × ℕ)

/-- `unique_samps[tuple(samp)] += 1` (state_unique_samples.py:79). -/
def addSample : Dict C → C → Dict C
  | [], c => [(c, 1)]
  | e :: d, c => if e.1 = c then (c, e.2 + 1) :: d else e :: addSample d c

/-- The inner loop over a merged batch, left as soon as `n` different configurations are known
(state_unique_samples.py:78-81). -/
def processBatch (n : ℕ) : Dict C → List C → Dict C
  | d, [] => d
  | d, c :: rest => if n ≤ (addSample d c).length then addSample d c else processBatch n (addSample d c) rest

/-- Whether the loop stops after `count` batches with `k` different configurations (state_unique_samples.py:85-89). -/
def stops (n : ℕ) (maxSteps : Option ℕ) (count k : ℕ) : Bool :=
  (match maxSteps with | some m => decide (m ≤ count) | none => false) || decide (n ≤ k)

/-- The `while continue_sampling` loop (state_unique_samples.py:71-93): `count` batches have been processed.  The result is
the dictionary, the last batch and the number of processed batches. -/
def sampleLoop (n : ℕ) (maxSteps : Option ℕ) : ℕ → Dict C → List (List C) → Option (Dict C × List C × ℕ)
  | _, _, [] => none
  | count, d, b :: rest =>
    let d' := processBatch n d b
    if stops n maxSteps (count + 1) d'.length then some (d', b, count + 1) else sampleLoop n maxSteps (count + 1) d' rest

/-- The arrays `unique_samples` and `relative_counts` before splitting (state_unique_samples.py:95-110): the first configurations
and counts of the dictionary, padded with the first sample of the last batch and count 0. -/
def arrays (n : ℕ) (d : Dict C) (pad : C) : List (C × ℝ) :=
  (d.take n).map (fun e => (e.1, (e.2 : ℝ))) ++ List.replicate (n - d.length) (pad, 0)

/-- The slice of rank `r` (state_unique_samples.py:112-116). -/
def rankSlice (perRank r : ℕ) (l : List (C × ℝ)) : List (C × ℝ) := (l.drop (r * perRank)).take perRank

/-- `samples_with_counts` of all ranks (state_unique_samples.py:57-120): the counts are divided by their sum over all
ranks.  The initial check of `max_sampling_steps` against 0 (lines 64-66) makes the code fail (no batch is processed), which is
`none` here as well. -/
noncomputable def samplesWithCounts (ranks perRank : ℕ) (maxSteps : Option ℕ) (batches : List (List C)) :
    Option (Fin ranks → List (C × ℝ)) :=
  if maxSteps = some 0 then none else
  match sampleLoop (ranks * perRank) maxSteps 0 [] batches with
  | none => none
  | some (d, b, _) =>
    match b.head? with
    | none => none
    | some pad =>
      let slices : Fin ranks → List (C × ℝ) := fun r => rankSlice perRank r (arrays (ranks * perRank) d pad)
      let total := ∑ r, ((slices r).map Prod.snd).sum
      some fun r => (slices r).map fun e => (e.1, e.2 / total)

/-- `mean = _sum(counts * loc_vals)` (state_unique_samples.py:214). -/
noncomputable def mean {ranks : ℕ} (sw : Fin ranks → List (C × ℝ)) (loc : C → ℂ) : ℂ :=
  ∑ r, ((sw r).map fun e => (e.2 : ℂ) * loc e.1).sum

/-- `variance` (state_unique_samples.py:216). -/
noncomputable def variance {ranks : ℕ} (sw : Fin ranks → List (C × ℝ)) (loc : C → ℂ) : ℂ :=
  ∑ r, ((sw r).map fun e => (e.2 : ℂ) * ((‖loc e.1 - mean sw loc‖ ^ 2 : ℝ) : ℂ)).sum

/-- The gradient with respect to a (complex) parameter with log-derivative `O`: the vector-Jacobian product with the centred
weighted local values, summed over ranks (state_unique_samples.py:220-251). -/
noncomputable def gradient {ranks : ℕ} (sw : Fin ranks → List (C × ℝ)) (loc O : C → ℂ) : ℂ :=
  ∑ r, ((sw r).map fun e => (starRingEnd ℂ) (O e.1) * ((e.2 : ℂ) * (loc e.1 - mean sw loc))).sum

/-- The gradient with respect to a real parameter (state_unique_samples.py:243-249). -/
noncomputable def realGradient {ranks : ℕ} (sw : Fin ranks → List (C × ℝ)) (loc O : C → ℂ) : ℝ := 2 * (gradient sw loc O).re

end GPSKet.UniqueSamples
