import Mathlib.Analysis.SpecialFunctions.Exp
import Mathlib.Algebra.BigOperators.Fin
import Mathlib.Logic.Equiv.Fin.Basic

/-!
# Model of `GPSKet/supervised/supervised_qgps.py`: the feature matrix, its cache, and predictions

Arrays of shape `(data, ..., symmetries)` are lists (over the data) of lists (over the symmetry axis).  Numbers are complex and exact;
a learner with real parameters is the special case of real entries.  `precomputed_features` is off, and `_mpi_sum` is the identity
(one process).

Two kinds of arrays are kept by the learner without a copy and compared by contents later: the data set `confs` and the vector
`ref_sites`.  So they are modelled by the address of the array in the memory of the caller (`Heap`).
-/

namespace GPSKet.Supervised

variable {D M L : ℕ}

/-- `epsilon`, of shape (local states, support dimension, sites) (supervised_qgps.py:76-91). -/
abbrev Eps (D M L : ℕ) := Fin D → Fin M → Fin L → ℂ

/-- Contents of a data set of shape (data, sites, symmetries). -/
abbrev Confs (D L : ℕ) := List (List (Fin L → Fin D))

/-- Contents of a vector of reference sites, one per support index. -/
abbrev Refs (M L : ℕ) := Fin M → Fin L

/-- Contents of `site_prod`, of shape (data, support, symmetries). -/
abbrev SiteProd (M : ℕ) := List (List (Fin M → ℂ))

/-- A column of the feature matrix before the sum over symmetries: the flat index is `w * D + d` (supervised_qgps.py:140, 234-241). -/
abbrev Features (D M : ℕ) := Fin (M * D) → ℂ

/-- `compute_site_prod_fast` (supervised_qgps.py:148-158) for one configuration: multiply the factors of all sites but the
reference site. -/
def siteProd (eps : Eps D M L) (refs : Refs M L) (x : Fin L → Fin D) : Fin M → ℂ := fun w =>
  (List.finRange L).foldl (fun p j => if j ≠ refs w then p * eps (x j) w j else p) 1

/-- `compute_site_prod_fast` for all data and symmetries. -/
def siteProds (eps : Eps D M L) (refs : Refs M L) (confs : Confs D L) : SiteProd M :=
  confs.map fun row => row.map (siteProd eps refs)

/-- The cut-off `1.0e2 * np.finfo(np.double).eps` below which no division is made (supervised_qgps.py:163). -/
noncomputable def divCutoff : ℝ := 100 * 2⁻¹ ^ 52

open Classical in
/-- `update_site_prod_fast` (supervised_qgps.py:160-185) for one configuration: move the hole in the product from the old to the
new reference site, by a division or, if the divisor is too small, from scratch. -/
noncomputable def moveSiteProd (eps : Eps D M L) (refs old : Refs M L) (x : Fin L → Fin D) (p : Fin M → ℂ) : Fin M → ℂ :=
  fun w =>
    if refs w ≠ old w then
      if divCutoff < ‖eps (x (refs w)) w (refs w)‖ then
        p w / eps (x (refs w)) w (refs w) * eps (x (old w)) w (old w)
      else
        (List.finRange L).foldl (fun q j => if j ≠ refs w then q * eps (x j) w j else q) 1
    else p w

/-- `update_site_prod_fast` for all data and symmetries. -/
noncomputable def moveSiteProds (eps : Eps D M L) (refs old : Refs M L) (confs : Confs D L) (sp : SiteProd M) : SiteProd M :=
  List.zipWith (fun row ps => List.zipWith (moveSiteProd eps refs old) row ps) confs sp

/-- `kernel_mat_inner` (supervised_qgps.py:137-146) for one configuration: the product is stored at the local state of the
reference site. -/
def kernelEntry (refs : Refs M L) (x : Fin L → Fin D) (p : Fin M → ℂ) : Features D M := fun f =>
  let w := (finProdFinEquiv.symm f).1
  let d := (finProdFinEquiv.symm f).2
  if x (refs w) = d then p w else 0

/-- `kernel_mat_inner` for all data and symmetries. -/
def kernelPerSym (refs : Refs M L) (confs : Confs D L) (sp : SiteProd M) : List (List (Features D M)) :=
  List.zipWith (fun row ps => List.zipWith (kernelEntry refs) row ps) confs sp

/-- `np.sum(self.K_per_sym, axis=-1)` (supervised_qgps.py:249). -/
def sumSyms (K : List (List (Features D M))) : List (Features D M) :=
  K.map List.sum

/-- A vector of reference sites as held by the learner: made by the learner from one integer, or an array of the caller, held by
its address (supervised_qgps.py:97-103). -/
inductive RefArray (L : ℕ)
  | own (site : Fin L)
  | caller (addr : ℕ)
  deriving DecidableEq

/-- The memory of the caller: contents of the data sets and of the vectors of reference sites at each address. -/
structure Heap (D M L : ℕ) where
  confs : ℕ → Confs D L
  refs : ℕ → Refs M L

/-- The contents of a vector of reference sites. -/
def Heap.deref (h : Heap D M L) : RefArray L → Refs M L
  | .own site => fun _ => site
  | .caller a => h.refs a

/-- The state of a learner (supervised_qgps.py:20-74). -/
structure Learner (D M L : ℕ) where
  eps : Eps D M L
  includeBias : Bool
  bias : ℂ
  refs : Option (RefArray L)
  /-- `self.confs`: the address of the data set the cache was made for -/
  confs : Option ℕ
  siteProd : Option (SiteProd M)
  siteProdRefs : Option (RefArray L)
  kernel : Option (List (List (Features D M)))

/-- `QGPSLearning.__init__` (supervised_qgps.py:20-74): nothing cached, bias zero. -/
def Learner.init (eps : Eps D M L) (includeBias : Bool) : Learner D M L :=
  { eps, includeBias, bias := 0, refs := none, confs := none, siteProd := none, siteProdRefs := none, kernel := none }

/-- The setter of `epsilon` with `reset` (supervised_qgps.py:80-90, 256-259). -/
def Learner.assignEps (s : Learner D M L) (eps : Eps D M L) : Learner D M L :=
  { s with eps, siteProd := none }

/-- The setter of `ref_sites` (supervised_qgps.py:96-108). -/
def Learner.setRefs (s : Learner D M L) (r : RefArray L) : Learner D M L :=
  { s with refs := some r }

/-- `set_kernel_mat` (supervised_qgps.py:208-254), called with the address of a data set.  The arrays held by the learner are read
from memory now.  `none` is a failed assertion (no reference sites), or a read of an attribute not yet set.  (A two-dimensional
data set is passed through `np.expand_dims`, which is a view of the same memory; identity of two arrays implies equal contents.) -/
noncomputable def Learner.setKernelMat (h : Heap D M L) (s : Learner D M L) (addr : ℕ) :
    Option (Learner D M L × List (Features D M)) := do
  let r ← s.refs
  let refs := h.deref r
  let same := match s.confs with
    | some a => decide (h.confs a = h.confs addr)
    | none => false
  match same, s.siteProd with
  | true, some sp =>
    -- the data set is the one of the cache
    let held ← s.confs
    let spRefs ← s.siteProdRefs
    let K ← s.kernel
    if refs ≠ h.deref spRefs then
      let sp := moveSiteProds s.eps refs (h.deref spRefs) (h.confs held) sp
      let K := kernelPerSym refs (h.confs held) sp
      return ({ s with siteProd := some sp, siteProdRefs := some r, kernel := some K }, sumSyms K)
    else
      return (s, sumSyms K)
  | _, _ =>
    let sp := siteProds s.eps refs (h.confs addr)
    let K := kernelPerSym refs (h.confs addr) sp
    return ({ s with confs := some addr, siteProd := some sp, siteProdRefs := some r, kernel := some K }, sumSyms K)

/-- `self.epsilon[:, self.support_dim_range_ids, self.ref_sites].T.flatten()` (e.g. supervised_qgps.py:472-474). -/
def refWeights (eps : Eps D M L) (refs : Refs M L) : Features D M := fun f =>
  let w := (finProdFinEquiv.symm f).1
  let d := (finProdFinEquiv.symm f).2
  eps d w (refs w)

/-- `set_up_prediction` followed by `K.dot(epsilon at the reference sites)` and the addition of the bias
(supervised_qgps.py:453-457, 539-558, 1090-1107): the predicted log-amplitudes, which `QGPSLogSpaceFit.predict` returns and whose
exponentials `QGPSLearningExp.predict` returns. -/
noncomputable def Learner.predictLog (h : Heap D M L) (s : Learner D M L) (first : Fin L) (addr : ℕ) :
    Option (Learner D M L × List ℂ) := do
  -- `self.ref_sites = 0` if none are set; `first` is site 0
  let s := if s.refs.isNone then s.setRefs (.own first) else s
  let (s, K) ← s.setKernelMat h addr
  let r ← s.refs
  let out := K.map fun row =>
    (∑ f, row f * refWeights s.eps (h.deref r) f) + (if s.includeBias then s.bias else 0)
  return (s, out)

/-- `QGPSLearningExp.predict` (supervised_qgps.py:539-558). -/
noncomputable def Learner.predictExp (h : Heap D M L) (s : Learner D M L) (first : Fin L) (addr : ℕ) :
    Option (Learner D M L × List ℂ) :=
  (s.predictLog h first addr).map fun r => (r.1, r.2.map Complex.exp)

/-- The assignment `self.epsilon[:, self.support_dim_range_ids, self.ref_sites] = weights.reshape(M, D).T` of
`update_epsilon_with_weights` (supervised_qgps.py:493-497), in place, so without a call of the setter. -/
def writeRefWeights (eps : Eps D M L) (refs : Refs M L) (weights : Features D M) : Eps D M L := fun d w j =>
  if j = refs w then weights (finProdFinEquiv (w, d)) else eps d w j

/-- `fit_step` (supervised_qgps.py:799-875, 1230-1260), as far as the cache is concerned: set the reference sites, build the
feature matrix, compute weights and a bias from it (`fit`, which may be any function of the feature matrix and of the current
parameters at the reference sites), and write them. -/
noncomputable def Learner.fitStep (h : Heap D M L) (s : Learner D M L) (addr : ℕ) (r : RefArray L)
    (fit : List (Features D M) → Features D M → ℂ → Features D M × ℂ) : Option (Learner D M L) := do
  let s := s.setRefs r
  let (s, K) ← s.setKernelMat h addr
  let res := fit K (refWeights s.eps (h.deref r)) s.bias
  return { s with
    eps := writeRefWeights s.eps (h.deref r) res.1
    bias := if s.includeBias then res.2 else s.bias }

/-- What a program that uses a learner can do. -/
inductive Op (D M L : ℕ)
  /-- `learner.epsilon = eps` -/
  | assignEps (eps : Eps D M L)
  /-- `learner.ref_sites = r` -/
  | setRefs (r : RefArray L)
  /-- `learner.predict(confs)` -/
  | predict (addr : ℕ)
  /-- `learner.fit_step(confs, ..., ref_sites, ...)` -/
  | fitStep (addr : ℕ) (r : RefArray L) (fit : List (Features D M) → Features D M → ℂ → Features D M × ℂ)
  /-- the program creates a data set, or overwrites the contents of an existing one -/
  | writeConfs (addr : ℕ) (confs : Confs D L)
  /-- the program creates a vector of reference sites, or overwrites the contents of an existing one -/
  | writeRefs (addr : ℕ) (refs : Refs M L)
  /-- `learner.epsilon[...] = ...`: the getter returns the array itself (supervised_qgps.py:76-78), so this changes the
  parameters without the setter -/
  | pokeEps (eps : Eps D M L)

/-- One operation. -/
noncomputable def step (first : Fin L) (hs : Heap D M L × Learner D M L) : Op D M L → Option (Heap D M L × Learner D M L)
  | .assignEps eps => some (hs.1, hs.2.assignEps eps)
  | .setRefs r => some (hs.1, hs.2.setRefs r)
  | .predict a => (hs.2.predictLog hs.1 first a).map fun r => (hs.1, r.1)
  | .fitStep a r fit => (hs.2.fitStep hs.1 a r fit).map fun s => (hs.1, s)
  | .writeConfs a c => some ({ hs.1 with confs := Function.update hs.1.confs a c }, hs.2)
  | .writeRefs a r => some ({ hs.1 with refs := Function.update hs.1.refs a r }, hs.2)
  | .pokeEps eps => some (hs.1, { hs.2 with eps })

/-- A history of operations; `none` if one of them raises. -/
noncomputable def run (first : Fin L) (hs : Heap D M L × Learner D M L) : List (Op D M L) → Option (Heap D M L × Learner D M L)
  | [] => some hs
  | o :: os => (step first hs o).bind fun hs => run first hs os

end GPSKet.Supervised
