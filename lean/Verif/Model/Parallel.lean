import Verif.Spec.Parallel
import Verif.Model.UniqueSamples
import Verif.Model.StateFitting

/-!
# The collective operations of the drivers, the sampled states, the supervised fits and the scripts

Each definition is the program of one rank (`Spec/Parallel.lean`): what the rank computes by itself between two collective operations is
given by functions (of its own data and of what it got from the calls before), while the calls, their order and the conditions that
decide which of them are made are those of the code.  Quantities that the code keeps on every rank and computes from equal inputs in the
same way (a state of a fit, the variance of the energy) are a value of the state type of the program.

Simplification: the collectives within NetKet's own functions (`statistics`, `local_estimators`, samplers, preconditioners) are a list of kinds, the same
on all ranks.
-/

namespace GPSKet.Parallel

variable {V : Type}

/-- Calls of given kinds one after the other.  The contribution to the next call is computed (`f`) from the results so far. -/
def calls (f : List V → V) : List Coll → List V → Prog V (List V)
  | [], got => .done got
  | c :: cs, got => .call c (f got) fun v => calls f cs (got ++ [v])

/-! ## Drivers -/

/-- The kinds of the calls of a minSR step (minSR.py:48-213, 237-256): the number of samples (line 57, unless the state has counts), NetKet's
own, the statistics (lines 244-251), per chunk the gradient and the averages (lines 108-117), per pair of chunks the Jacobians (lines
120-169; the blocks under `if mpi.rank == 0` contain no call), the local energies (line 172), the solution (line 189) and per chunk
the update (lines 208-211). -/
def minsrKinds (counts : Bool) (netket : List Coll) (nChunks : ℕ) : List Coll :=
  (if counts then [] else [.sum]) ++ netket ++ [.sum, .sum, .sum, .mean] ++
  (List.range nChunks).flatMap (fun _ => [.sum, .sum]) ++
  (List.range nChunks).flatMap (fun _ => [.gather, .gather] ++ (List.range nChunks).flatMap fun _ => [.gather, .gather]) ++
  [.gather, .scatter] ++
  (List.range nChunks).map fun _ => .sum

/-- A minSR step on a rank with `samples` samples in chunks of `chunk` (minSR.py:48-232).  The `reshape` to chunks (lines 73-79) raises an
exception if the chunks do not fit.  The update is computed (`update`) from the sums of the last loop. -/
def minsrStep {U : Type} (counts : Bool) (netket : List Coll) (chunk samples : ℕ) (f : List V → V) (update : List V → U) : Prog V U :=
  let nChunks := samples / chunk
  if nChunks * chunk = samples then
    (calls f (minsrKinds counts netket nChunks) []).bind fun got => .done (update (got.drop (got.length - nChunks)))
  else .raise

/-- The shape of `mpi_gather_jax(x)`: on the root one more axis in front, on the other ranks `x` as it is (`mpi4jax.gather`); with a single
process NetKet adds the axis as well. -/
def gatherShape (ranks rank : ℕ) (shape : List ℕ) : List ℕ := if rank = 0 then ranks :: shape else shape

/-- `x.reshape(-1, *x.shape[2:])`. -/
def reshapeFront (shape : List ℕ) : List ℕ := (shape.take 2).prod :: shape.drop 2

/-- The Jacobian modes of the SR-RMSProp driver. -/
inductive Mode | real | complex
  deriving DecidableEq

/-- The shape of the Jacobian of a rank with `m` samples and `p` real parameters. -/
def jacobianShape (m p : ℕ) : Mode → List ℕ
  | .real => [m, p]
  | .complex => [m, 2, p]

/-- A step of the SR-RMSProp driver up to the update (VMC_SRRMSProp.py:186-230, 17-68).  `SRRMSProp` is compiled as a whole: an exception from the
shapes (`jnp.transpose(O_L, (1, 0, 2))` needs three axes, line 40) comes before its first call.  The result is the broadcast of the
update (line 68). -/
def srRmsPropStep (netket : List Coll) (mode : Mode) (ranks rank m p : ℕ) (f : List V → V) : Prog V (List V) :=
  (calls f netket []).bind fun got =>
    let shape := reshapeFront (gatherShape ranks rank (jacobianShape m p mode))
    if mode = .complex ∧ shape.length ≠ 3 then .raise
    else calls f [.gather, .mean, .gather, .bcast] got

/-- A step of the state-fitting driver on a rank with `size` configurations (autoreg_state_fitting.py:45-69, 87-95): the mini-batch is drawn
without replacement, which raises an exception if it is larger than `size`; then the mean of the loss and the sums of the gradient of
each of the `leaves` arrays of parameters. -/
def stateFitStep (size batch leaves : ℕ) (f : List V → V) : Prog V (List V) :=
  if size < batch then .raise else calls f (.mean :: List.replicate leaves .sum) []

/-! ## Sampled states -/

/-- What is sent when unique samples are collected: configurations or a number. -/
inductive Sent (C : Type) where
  | samples (l : List C)
  | number (x : ℝ)

/-- The configurations of a message. -/
def Sent.toSamples {C : Type} : Sent C → List C
  | .samples l => l
  | .number _ => []

/-- The number of a message. -/
def Sent.toNumber {C : Type} : Sent C → ℝ
  | .samples _ => 0
  | .number x => x

section unique

variable {C : Type} [DecidableEq C]

/-- The loop of `samples_with_counts` (state_unique_samples.py:71-93) on a rank that draws `batch i` in its `i`-th round, for at most as
many rounds as the first number says (`none` if it has not ended then). -/
def uniqueLoop (n : ℕ) (maxSteps : Option ℕ) (batch : ℕ → List C) :
    ℕ → ℕ → UniqueSamples.Dict C → Prog (Sent C) (Option (UniqueSamples.Dict C × List C))
  | 0, _, _ => .done none
  | rounds + 1, count, d =>
    .call .allgather (.samples (batch count)) fun v =>
      let all := v.toSamples
      let d' := UniqueSamples.processBatch n d all
      if UniqueSamples.stops n maxSteps (count + 1) d'.length then .done (some (d', all))
      else uniqueLoop n maxSteps batch rounds (count + 1) d'

/-- `samples_with_counts` on rank `rank` (state_unique_samples.py:57-120).  Without a round `all_samples` is undefined (lines 63-66, 95): an
exception. -/
noncomputable def uniqueSamples (ranks perRank : ℕ) (maxSteps : Option ℕ) (rounds rank : ℕ) (batch : ℕ → List C) :
    Prog (Sent C) (Option (List (C × ℝ))) :=
  let n := ranks * perRank
  if maxSteps = some 0 then .raise else
  (uniqueLoop n maxSteps batch rounds 0 []).bind fun
    | none => .done none
    | some (d, b) =>
      match b.head? with
      | none => .raise
      | some pad =>
        let slice := UniqueSamples.rankSlice perRank rank (UniqueSamples.arrays n d pad)
        .call .sum (.number (slice.map Prod.snd).sum) fun v => .done (some (slice.map fun e => (e.1, e.2 / v.toNumber)))

end unique

/-- The kinds of the calls of `samples_with_counts` with stratified sampling (state_stratified_sampling.py:109-221): lines 141, 146, 156
and, with `rand_norm`, 193-194, else 202; without renormalisation line 207.  The sampling and the search for random configurations
(lines 112-124, 159-182) are computations of each rank by itself. -/
def stratifiedKinds (renormalize randNorm : Bool) : List Coll :=
  [.sum] ++ (if renormalize then [.max, .sum] ++ (if randNorm then [.sum, .sum] else [.sum]) else [.sum])

/-! ## Supervised fits -/

/-- The computations of a linear fit, from a state `S` that all ranks keep and the data `D` of the rank. -/
structure Fit (V S D : Type) where
  /-- the contributions to the kernel matrix and to the right-hand side -/
  KtK : D → S → V
  y : D → S → V
  stored : S → V → V → S
  /-- `active_elements.any()` -/
  active : S → Bool
  /-- the weights and the matrix with the flag `cholesky` -/
  setFit : S → Bool → V → V → S
  noFit : S → S
  /-- the flag `cholesky` -/
  cholesky : S → Bool
  updateAlpha : S → S
  size : D → S → V
  err : D → S → V
  updateBeta : S → V → V → S
  /-- `convergence_loss < alpha_convergence_tol` -/
  conv : S → S → Bool

variable {S D : Type}

/-- `QGPSLearning.setup_fit_alpha_dep` (supervised_qgps.py:260-323).  `factor` is what the Cholesky factorisation gives on this rank (`none` for an
exception), `pinv` the pseudo-inverse.  Without `mpi4py` there is no communicator (`comm`): the broadcasts raise exceptions, the first of which
leads to the `except` branch. -/
def setupAlphaDep (F : Fit V S D) (comm : Bool) (factor : S → Option (V × V)) (pinv : S → V × V) (s : S) : Prog V S :=
  let fallback : Prog V S :=
    if comm then .call .bcast (pinv s).1 fun w => .call .bcast (pinv s).2 fun L => .done (F.setFit s false w L) else .raise
  if F.active s then
    match factor s with
    | some wL => if comm then .call .bcast wL.1 fun w => .call .bcast wL.2 fun L => .done (F.setFit s true w L) else fallback
    | none => fallback
  else .done (F.noFit s)

/-- `if max_iterations is not None: if j >= max_iterations` after `j` rounds (supervised_qgps.py:438-440). -/
def reached (maxIter : Option ℕ) (j : ℕ) : Bool :=
  match maxIter with
  | some k => decide (k ≤ j)
  | none => false

/-- The loop of `opt_alpha_beta` (supervised_qgps.py:351-443), for at most as many rounds as the first number says; `j` rounds have been
made.  The sums (lines 400-420) are computed only with a successful Cholesky factorisation. -/
def optLoop (F : Fit V S D) (comm : Bool) (factor : S → Option (V × V)) (pinv : S → V × V) (optAlpha optBeta : Bool) (maxIter : Option ℕ)
    (d : D) : ℕ → ℕ → S → Prog V S
  | 0, _, s => .done s
  | rounds + 1, j, s =>
    if F.active s then
      let s1 := if optAlpha then F.updateAlpha s else s
      let rest : S → Prog V S := fun s2 =>
        if F.conv s s2 || reached maxIter (j + 1) then .done s2
        else (setupAlphaDep F comm factor pinv s2).bind (optLoop F comm factor pinv optAlpha optBeta maxIter d rounds (j + 1))
      if optBeta && F.cholesky s1 then .call .sum (F.size d s1) fun N => .call .sum (F.err d s1) fun e => rest (F.updateBeta s1 N e)
      else rest s1
    else .done s

/-- `setup_fit` and `opt_alpha_beta`, as called by `fit_step` (supervised_qgps.py:586-592, 1124-1130, 336-443, 1230-1258). -/
def fitStep (F : Fit V S D) (comm : Bool) (factor : S → Option (V × V)) (pinv : S → V × V) (optAlpha optBeta : Bool) (maxIter : Option ℕ)
    (rounds : ℕ) (d : D) (s : S) : Prog V S :=
  .call .sum (F.KtK d s) fun K => .call .sum (F.y d s) fun y =>
    (setupAlphaDep F comm factor pinv (F.stored s K y)).bind fun s1 =>
      if (optAlpha || optBeta) && decide (maxIter ≠ some 0) then optLoop F comm factor pinv optAlpha optBeta maxIter d rounds 0 s1
      else .done s1

/-- What a minimiser can ask for: the loss, the gradient or the Hessian at some weights.  A minimiser is any strategy that ends and that
chooses the next question from the answers so far. -/
inductive Query (W V A : Type) where
  | done (a : A)
  | ask (which : Fin 3) (w : W) (k : V → Query W V A)

/-- `get_loss`, `get_grad` and `get_hessian` each are one sum over the ranks (supervised_qgps.py:1441-1487); `part` is the contribution of
this rank. -/
def runQuery {W A : Type} (part : Fin 3 → W → V) : Query W V A → Prog V A
  | .done a => .done a
  | .ask i w k => .call .sum (part i w) fun v => runQuery part (k v)

/-- The computations of the generalised linear model. -/
structure GenLin (V S W D : Type) where
  kern : D → S → V
  valid : S → V → S
  logK : D → S → V
  logY : D → S → V
  logInit : S → V → V → S
  irlsK : D → S → V
  irlsY : D → S → V
  irls : S → V → V → S
  weights : S → W
  setWeights : S → W → S
  /-- the contribution to the loss, the gradient or the Hessian -/
  part : D → S → Fin 3 → W → V
  stored : S → V → V → V → S
  active : S → Bool
  /-- the flag `cholesky` as it is sent -/
  flag : Bool → V
  finish : S → V → V → V → Option V → S
  noFit : S → S

variable {W : Type}

/-- The steps of iteratively reweighted least squares (supervised_qgps.py:1402-1438). -/
def irlsSteps (g : GenLin V S W D) (d : D) : ℕ → S → Prog V S
  | 0, s => .done s
  | k + 1, s => .call .sum (g.irlsK d s) fun K => .call .sum (g.irlsY d s) fun y => irlsSteps g d k (g.irls s K y)

/-- `QGPSGenLinMod.setup_fit_alpha_dep` (supervised_qgps.py:1333-1565).  `factor` gives the matrix, the direction and the flag on this rank, from the
Cholesky factorisation or from the pseudo-inverse; they are broadcast after the `try` statement (lines 1526-1528). -/
def genLinSetup (g : GenLin V S W D) (factor : S → V × V × Bool) (logInit : Bool) (steps : ℕ) (minimize : Option (S → Query W V W))
    (linesearch : Option (S → V → V → V → Query W V V)) (d : D) (s : S) : Prog V S :=
  .call .sum (g.kern d s) fun v =>
    let init : S → Prog V S := fun s =>
      if logInit then .call .sum (g.logK d s) fun K => .call .sum (g.logY d s) fun y => .done (g.logInit s K y) else .done s
    (init (g.valid s v)).bind fun s =>
    (irlsSteps g d steps s).bind fun s =>
    (match minimize with
      | some m => (runQuery (g.part d s) (m s)).bind fun w => .done (g.setWeights s w)
      | none => .done s : Prog V S).bind fun s =>
    .call .sum (g.part d s 2 (g.weights s)) fun h => .call .sum (g.part d s 1 (g.weights s)) fun gr =>
    .call .sum (g.part d s 0 (g.weights s)) fun l =>
      let s := g.stored s h gr l
      if g.active s then
        .call .bcast (factor s).1 fun M => .call .bcast (factor s).2.1 fun dir => .call .bcast (g.flag (factor s).2.2) fun ok =>
          match linesearch with
          | some q => (runQuery (g.part d s) (q s M dir ok)).bind fun gamma => .done (g.finish s M dir ok (some gamma))
          | none => .done (g.finish s M dir ok none)
      else .done (g.noFit s)

/-! ## Scripts -/

/-- The broadcasts of the orbital numbers (cpd-backflow systems.py:93-95), before `k`. -/
def molNumbers (a : V × V × V) (k : V × V × V → Prog V (List V)) : Prog V (List V) :=
  .call .bcast a.1 fun a1 => .call .bcast a.2.1 fun a2 => .call .bcast a.2.2 fun a3 => k (a1, a2, a3)

/-- The broadcasts of the integrals (cpd-backflow systems.py:173-174). -/
def molMatrices (h : V × V) (a : V × V × V) : Prog V (List V) :=
  .call .bcast h.1 fun h1 => .call .bcast h.2 fun h2 => .done [a.1, a.2.1, a.2.2, h1, h2]

/-- The root makes or reads the integrals (cpd-backflow systems.py:100-169). -/
def molRoot (integrals : V × V × V → Option (V × V)) (a : V × V × V) : Prog V (List V) :=
  match integrals a with
  | none => .raise
  | some h => molMatrices h a

/-- `get_molecular_system` (cpd-backflow systems.py:69-174): the root builds the molecule (`scf`, `none` for an exception), the orbital numbers
are broadcast, the root makes or reads the integrals (`integrals`, `none` for an exception), and these are broadcast.  `dummy` is
Python's `None`. -/
def molecularSystem (dummy : V) (scf : Option (V × V × V)) (integrals : V × V × V → Option (V × V)) (rank : ℕ) : Prog V (List V) :=
  if rank = 0 then
    match scf with
    | none => .raise
    | some a => molNumbers a (molRoot integrals)
  else molNumbers (dummy, dummy, dummy) (molMatrices (dummy, dummy))

/-- What is sent in the optimisations of the ab-initio scripts. -/
inductive Note (P : Type) where
  | var (x : Option ℝ)
  | num (k : ℕ)
  | pars (p : P)
  | other (x : ℝ)

/-- The best variance in a message. -/
def Note.toVar {P : Type} : Note P → Option ℝ
  | .var x => x
  | _ => none

/-- The counter in a message. -/
def Note.toNum {P : Type} : Note P → ℕ
  | .num k => k
  | _ => 0

/-- The parameters in a message. -/
def Note.toPars {P : Type} (p : P) : Note P → P
  | .pars q => q
  | _ => p

open Classical in
/-- The new best variance and counter (H2O.py:342-352, H4x4x4.py:292-304); `early` is true in the first steps of H4x4x4.py. -/
noncomputable def judge (early : Bool) (best : Option ℝ) (count : ℕ) (variance : ℝ) : Option ℝ × ℕ :=
  let b : Option ℝ × ℕ := match best with
    | none => (some variance, 0)
    | some b => if variance < b then (some variance, 0) else (some b, count + 1)
  (if early then none else b.1, b.2)

/-- The loop `while count < max_count` (H2O.py:336-354, H50_1D.py:152-170, H4x4x4.py:283-308), for at most as many rounds as the first number says.  `step` is what
`_forward_and_backward` asks for: any strategy of sums over the ranks, at the end of which there are the variance and the update (new
parameters).  `part` is the contribution of the rank. -/
noncomputable def runLoop {P W : Type} (maxCount minGlobal : ℕ) (step : P → Query W (Note P) (ℝ × P)) (part : P → Fin 3 → W → Note P) :
    ℕ → ℕ → ℕ → Option ℝ → P → Prog (Note P) (ℕ × Option ℝ × P)
  | 0, _, count, best, p => .done (count, best, p)
  | rounds + 1, total, count, best, p =>
    if count < maxCount then
      (runQuery (part p) (step p)).bind fun r =>
        let b := judge (decide (total < minGlobal)) best count r.1
        runLoop maxCount minGlobal step part rounds (total + 1) b.2 b.1 (if b.2 < maxCount then r.2 else p)
    else .done (count, best, p)

/-- The run of an ab-initio script on a rank (H2O.py:302-369, H50_1D.py:119-185, H4x4x4.py:233-324).  `load` is what the root finds in the files (the best variance, the counters
and the parameters), `none` for an exception.  `p` are the initial parameters of the rank.  Simplification: H2O.py and H50_1D.py have no total number of
steps (here `minGlobal = 0`) and do not broadcast it. -/
noncomputable def abinitioRun {P W : Type} (maxCount minGlobal : ℕ) (load : Option (Option ℝ × ℕ × ℕ × P)) (rank : ℕ) (p : P)
    (step : P → Query W (Note P) (ℝ × P)) (part : P → Fin 3 → W → Note P) (rounds : ℕ) : Prog (Note P) (ℕ × Option ℝ × P) :=
  let go : Option ℝ × ℕ × ℕ × P → Prog (Note P) (ℕ × Option ℝ × P) := fun a =>
    .call .bcast (.var a.1) fun best => .call .bcast (.num a.2.1) fun count => .call .bcast (.num a.2.2.1) fun total =>
      .call .bcast (.pars a.2.2.2) fun q => runLoop maxCount minGlobal step part rounds total.toNum count.toNum best.toVar (q.toPars p)
  if rank = 0 then
    match load with
    | none => .raise
    | some a => go a
  else go (none, 0, 0, p)

end GPSKet.Parallel
