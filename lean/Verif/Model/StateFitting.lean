import Mathlib.Analysis.Calculus.FDeriv.Basic
import Mathlib.Analysis.Calculus.FDeriv.Pi
import Mathlib.Analysis.SpecialFunctions.Exp
import Mathlib.Analysis.SpecialFunctions.Log.Basic
import Mathlib.Analysis.Complex.Basic
import Mathlib.Data.List.Sort

/-!
# Model of `GPSKet/driver/abstract_state_fitting.py` and `GPSKet/driver/autoreg_state_fitting.py`

Real arithmetic is exact.  The collectives of MPI are the mathematical ones.
-/

namespace GPSKet.StateFitting

/-- `np.array_split(arr, n)`, called in abstract_state_fitting.py:43-45: the lengths of the sections are
`extras * [each + 1] + (n - extras) * [each]`. -/
def sectionSizes (len n : ℕ) : List ℕ :=
  List.replicate (len % n) (len / n + 1) ++ List.replicate (n - len % n) (len / n)

/-- The sections of `np.array_split(arr, n)`: consecutive pieces of the given lengths. -/
def cut {α : Type} : List ℕ → List α → List (List α)
  | [], _ => []
  | s :: sizes, l => l.take s :: cut sizes (l.drop s)

/-- `np.array_split(arr, n)`. -/
def arraySplit {α : Type} (n : ℕ) (l : List α) : List (List α) := cut (sectionSizes l.length n) l

/-- `self._dataset` on process `rank` (abstract_state_fitting.py:43-50).  The first `tree_map` makes the lists of sections of the two
arrays.  The second runs over the two lists in parallel and makes the list of pairs of sections. -/
def shard {X Y : Type} (nodes : ℕ) (dataset : List X × List Y) (rank : ℕ) : Option (List X × List Y) :=
  let batches := (arraySplit nodes dataset.1, arraySplit nodes dataset.2)
  (List.zip batches.1 batches.2)[rank]?

/-- The sort keys of `jax.random.choice(..., p=p, replace=False)`: minus a Gumbel noise, minus the logarithm of the weight.  For the
weight 0 the key is infinite (`none`). -/
noncomputable def sortKey (gumbel : ℕ → ℝ) (p : ℕ → ℝ) (i : ℕ) : WithTop ℝ :=
  if p i = 0 then ⊤ else ((-(gumbel i) - Real.log (p i) : ℝ) : WithTop ℝ)

open Classical in
/-- `jax.random.choice(key, ids, (b,), p=p, replace=False)` with `ids = arange(n)` (autoreg_state_fitting.py:48-54): the first `b` ids
in the order of the sort keys; `none` is the `ValueError` for too large a sample. -/
noncomputable def choice (gumbel : ℕ → ℝ) (p : ℕ → ℝ) (n b : ℕ) : Option (List ℕ) :=
  if n < b then none
  else some (((List.range n).insertionSort fun i j => sortKey gumbel p i ≤ sortKey gumbel p j).take b)

/-- The mini-batch of one step on one process (autoreg_state_fitting.py:42-58).  `probas = |amplitudes|^2`. -/
noncomputable def miniBatch {X : Type} [Inhabited X] (gumbel : ℕ → ℝ) (b : ℕ) (data : List X × List ℂ) : Option (List (X × ℂ)) :=
  let probas : ℕ → ℝ := fun i => ‖data.2.getD i 0‖ ^ 2
  (choice gumbel probas data.1.length b).map fun ids => ids.map fun i => (data.1.getD i default, data.2.getD i 0)

/-- The keys of one process over a history of steps and resets.  `split` is `jax.random.split`; `initial` is
`mpi_split(PRNGKey(seed))`, which for a given seed is the same at every call (abstract_state_fitting.py:56, 59). -/
inductive Event
  | step
  | reset
  deriving DecidableEq

/-- One event (abstract_state_fitting.py:58-60, autoreg_state_fitting.py:47): the new key, and the key the mini-batch is drawn with. -/
def advance {Key : Type} (split : Key → Key × Key) (initial : Key) (k : Key) : Event → Key × Option Key
  | .step => ((split k).1, some (split k).1)
  | .reset => (initial, none)

/-- The keys used for the mini-batches in a history. -/
def keysUsed {Key : Type} (split : Key → Key × Key) (initial : Key) : Key → List Event → List Key
  | _, [] => []
  | k, e :: es => (advance split initial k e).2.toList ++ keysUsed split initial (advance split initial k e).1 es

variable {P X : Type} [Fintype P] [DecidableEq P]

/-- `_loss` (autoreg_state_fitting.py:78-84): the mean over the mini-batch. -/
noncomputable def loss (logpsi : (P → ℂ) → X → ℂ) (batch : List (X × ℂ)) (θ : P → ℂ) : ℝ :=
  (batch.map fun a => ‖Complex.exp (logpsi θ a.1) - a.2‖ ^ 2).sum / batch.length

/-- `jax.grad` of a real function of complex parameters `z = x + i y`: `∂f/∂x - i ∂f/∂y`. -/
noncomputable def jaxGrad (f : (P → ℂ) → ℝ) (θ : P → ℂ) : P → ℂ := fun k =>
  (fderiv ℝ f θ (Pi.single k 1) : ℂ) - Complex.I * (fderiv ℝ f θ (Pi.single k Complex.I) : ℂ)

/-- `_loss_and_grad` (autoreg_state_fitting.py:87-95), with the mini-batches of all processes: the mean of the losses, and the conjugate
of the sum of the gradients. -/
noncomputable def lossAndGrad (logpsi : (P → ℂ) → X → ℂ) (batches : List (List (X × ℂ))) (θ : P → ℂ) : ℝ × (P → ℂ) :=
  ((batches.map fun b => loss logpsi b θ).sum / batches.length,
    fun k => (starRingEnd ℂ) (batches.map fun b => jaxGrad (loss logpsi b) θ k).sum)

/-- `jnp.exp(model_amplitudes)` (autoreg_state_fitting.py:83), zero for the log-amplitude `-inf` (`none`) of configurations that the
autoregressive models exclude. -/
noncomputable def amplitude : Option ℂ → ℂ
  | none => 0
  | some z => Complex.exp z

/-- `_loss` (autoreg_state_fitting.py:78-84) as in `loss`, for models whose log-amplitudes can be `-inf`. -/
noncomputable def lossExt (logpsi : X → Option ℂ) (batch : List (X × ℂ)) : ℝ :=
  (batch.map fun a => ‖amplitude (logpsi a.1) - a.2‖ ^ 2).sum / batch.length

/-- `self.loss` after one step (abstract_state_fitting.py:43-53, autoreg_state_fitting.py:45-68, 87-92): every process draws a mini-batch of
size `b` from its shard with its own Gumbel numbers, and the losses are averaged over the processes.  `none`: some process raises. -/
noncomputable def stepLoss [Inhabited X] (nodes b : ℕ) (dataset : List X × List ℂ) (gumbel : ℕ → ℕ → ℝ) (logpsi : X → Option ℂ) :
    Option ℝ :=
  ((List.range nodes).mapM fun r => (shard nodes dataset r).bind (miniBatch (gumbel r) b)).map fun batches =>
    (batches.map (lossExt logpsi)).sum / batches.length

end GPSKet.StateFitting
