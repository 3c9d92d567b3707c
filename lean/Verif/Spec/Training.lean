/-!
Specification of an optimisation that is interrupted and continued.
-/

namespace GPSKet.TrainingSpec

/-- `Trained u start samplers n v o e s`: the variables `v`, the optimiser state `o`, the running average
`e` and the sampler state `s` are what one has after exactly `n` optimisation steps `u` from a starting
point, each step continuing from the result of the previous one and being told how many were done before
it.  Between two steps the sampler (but nothing else) may have been replaced by a new one. -/
inductive Trained {V O E S T : Type} (u : V → O → E → Nat → S → V × O × E × S × T)
    (start : V → O → E → S → Prop) (samplers : S → Prop) : Nat → V → O → E → S → Prop
  | start {v o e s} : start v o e s → Trained u start samplers 0 v o e s
  | step {n v o e s v' o' e' s' t} : Trained u start samplers n v o e s →
      u v o e n s = (v', o', e', s', t) → Trained u start samplers (n + 1) v' o' e' s'
  | sampler {n v o e s s'} : Trained u start samplers n v o e s → samplers s' →
      Trained u start samplers n v o e s'

/-- `n` optimisation steps one after the other, without any interruption. -/
def uninterrupted {V O E S T : Type} (u : V → O → E → Nat → S → V × O × E × S × T) (v : V) (o : O) (e : E)
    (s : S) : Nat → V × O × E × S
  | 0 => (v, o, e, s)
  | n + 1 =>
    let r := uninterrupted u v o e s n
    let q := u r.1 r.2.1 r.2.2.1 n r.2.2.2
    (q.1, q.2.1, q.2.2.1, q.2.2.2.1)

/-- `m` optimisation steps one after the other, when `n` were done before. -/
def continued {V O E S T : Type} (u : V → O → E → Nat → S → V × O × E × S × T) (n : Nat) (x : V × O × E × S) :
    Nat → V × O × E × S
  | 0 => x
  | m + 1 =>
    let r := continued u n x m
    let q := u r.1 r.2.1 r.2.2.1 (n + m) r.2.2.2
    (q.1, q.2.1, q.2.2.1, q.2.2.2.1)

/-- `n` optimisation steps `u`, then a new state of the optimiser, then `m` steps `w`, without interruption. -/
def twoPhases {V O E S T : Type} (u w : V → O → E → Nat → S → V × O × E × S × T) (newOpt : V → O)
    (x : V × O × E × S) (n m : Nat) : V × O × E × S :=
  let y := continued u 0 x n
  continued w n (y.1, newOpt y.1, y.2.2.1, y.2.2.2) m

/-- The step numbers of a log in which no step is skipped: it begins with step 1, and every entry is
followed by the next step or by a repetition from a step after a multiple of `every` (or from step 1). -/
inductive NoGaps (every : Nat) : List Nat → Prop
  | nil : NoGaps every []
  | first : NoGaps every [1]
  | next {l a} : NoGaps every (l ++ [a]) → NoGaps every (l ++ [a, a + 1])
  | back {l a b} : NoGaps every (l ++ [a]) → 1 ≤ b → b ≤ a → (b = 1 ∨ every ∣ b - 1) →
      NoGaps every (l ++ [a, b])

end GPSKet.TrainingSpec
