import Verif.Model.Autoreg
import Verif.Model.QGPS

/-! # Model of `GPSKet/models/autoreg_qGPS_full.py` -/

namespace GPSKet.ARFull
open AR

variable {L D M : ℕ}

/-- `lower_index = (index * (index + 1)) // 2` (autoreg_qGPS_full.py:275). -/
def lowerIndex (index : ℕ) : ℕ := index * (index + 1) / 2

/-- Number of packed entries, `int(size * (size + 1) / 2)` (autoreg_qGPS_full.py:111). -/
def packedSize (size : ℕ) : ℕ := size * (size + 1) / 2

/-- The start used by `dynamic_slice_in_dim(epsilon, lower_index, size)` (autoreg_qGPS_full.py:287-289): JAX clamps it so
that the slice fits. -/
def sliceStart (size lower_index : ℕ) : ℕ := min lower_index (packedSize size - size)

/-- Entry of the packed parameters; out-of-range reads are clamped to the last entry, as JAX does. -/
def readPacked (epsilon : Fin D → Fin M → ℕ → ℂ) (size : ℕ) (d : Fin D) (m : Fin M) (k : ℕ) : ℂ :=
  epsilon d m (min k (packedSize size - 1))

/-- The product over `j < index` (autoreg_qGPS_full.py:287-303): entries at and after `index` are replaced by 1. -/
def contextProd (epsilon : Fin D → Fin M → ℕ → ℂ) (inputs : Fin L → Fin D) (index : Fin L) (m : Fin M) : ℂ :=
  ∏ j : Fin L, if j.val ≥ index.val then 1
    else readPacked epsilon L (inputs j) m (sliceStart L (lowerIndex index) + j.val)

/-- The part of `_compute_conditional` after the context product (autoreg_qGPS_full.py:277-280,316-343). -/
def fromContext (f : Fields D M) (epsilon : Fin D → Fin M → ℕ → ℂ) (n_spins : Fin D → ℤ) (inputs : Fin L → Fin D)
    (index : Fin L) (context_prod : Fin M → ℂ) : (Fin D → ℤ) × (Fin D → LogAmp) :=
  let log_psi := fun d => f.out_transformation fun m =>
    readPacked epsilon L d m (lowerIndex index + index.val) * context_prod m
  let n_spins := bumpSpins f n_spins inputs index
  (n_spins, mask f n_spins index log_psi)

/-- `_compute_conditional` without update (autoreg_qGPS_full.py:258-343), single bond dimension. -/
def computeConditional (f : Fields D M) (epsilon : Fin D → Fin M → ℕ → ℂ) (n_spins : Fin D → ℤ)
    (inputs : Fin L → Fin D) (index : Fin L) : (Fin D → ℤ) × (Fin D → LogAmp) :=
  fromContext f epsilon n_spins inputs index (contextProd epsilon inputs index)

/-- The function scanned in `_conditionals` (autoreg_qGPS_full.py:372-402). -/
def scanStep (f : Fields D M) (epsilon : Fin D → Fin M → ℕ → ℂ) (inputs : Fin L → Fin D) (n_spins : Fin D → ℤ)
    (index : Fin L) : (Fin D → ℤ) × (Fin D → LogAmp) :=
  let r := computeConditional f epsilon n_spins inputs index
  (if f.constrained then r.1 else fun _ => 0, r.2)

/-- `_conditional` (autoreg_qGPS_full.py:346-362). -/
def conditional (f : Fields D M) (epsilon : Fin D → Fin M → ℕ → ℂ) (cache : Option (Fin D → ℤ))
    (inputs : Fin L → Fin D) (index : Fin L) : Option (Fin D → ℤ) × (Fin D → LogAmp) :=
  let n_spins := match cache with
    | some n => n
    | none => fun _ => 0
  let r := computeConditional f epsilon n_spins inputs index
  (match cache with
    | some _ => some r.1
    | none => none, r.2)

/-- `ARqGPSFull` with an integer bond dimension (autoreg_qGPS_full.py:16-255). -/
def arqGPSFull (f : Fields D M) (epsilon : Fin D → Fin M → ℕ → ℂ) : Machine L D M where
  fields := f
  Carry := Fin D → ℤ
  initCarry := fun _ => 0
  scanStep := scanStep f epsilon
  Cache := Option (Fin D → ℤ)
  initCache := if f.constrained then some fun _ => 0 else none
  conditional := conditional f epsilon

/-! ## Fast update -/

/-- The update factor of one listed entry (autoreg_qGPS_full.py:305-313): masked for sites at or after `index`. -/
noncomputable def updateFactor (epsilon : Fin D → Fin M → ℕ → ℂ) (index : Fin L) (m : Fin M)
    (e : (Fin D × Fin D) × Fin L) : ℂ :=
  if e.2.val ≥ index.val then 1
  else readPacked epsilon L e.1.2 m (e.2.val + lowerIndex index) / readPacked epsilon L e.1.1 m (e.2.val + lowerIndex index)

/-- `context_prod = update.prod(axis=1) * saved_context_prod` (autoreg_qGPS_full.py:314), for the occupations before and
after the update and the sites as returned by the inverse symmetry function. -/
noncomputable def contextUpdate (epsilon : Fin D → Fin M → ℕ → ℂ) (index : Fin L) (saved : Fin M → ℂ)
    (old_occ new_occ : List (Fin D)) (sites : List (Fin L)) (m : Fin M) : ℂ :=
  (((old_occ.zip new_occ).zip sites).map (updateFactor epsilon index m)).prod * saved m

variable {ι : Type}

/-- The cached variables (autoreg_qGPS_full.py:115-133,247-253): configuration and context products of every site and
symmetry operation. -/
structure Cache (L D M : ℕ) (ι : Type) where
  samples : Fin L → Fin D
  context_prod : Fin L → ι → Fin M → ℂ

/-- The context products of a fresh evaluation. -/
def freshContexts (epsilon : Fin D → Fin M → ℕ → ℂ) (syms : QGPS.Syms L D ι) (x : Fin L → Fin D) :
    Fin L → ι → Fin M → ℂ := fun i t => contextProd epsilon (syms.symmetries x t) i

/-- The context products of an evaluation with `update_sites` (autoreg_qGPS_full.py:149-174,211-223,383-391). -/
noncomputable def fastContexts (epsilon : Fin D → Fin M → ℕ → ℂ) (syms : QGPS.Syms L D ι) (c : Cache L D M ι)
    (upd : List (Fin L × Fin D)) : Fin L → ι → Fin M → ℂ := fun i t =>
  let update_sites := upd.map Prod.fst
  let prev := update_sites.map c.samples
  let old := syms.inverse prev update_sites t
  let new := syms.inverse (upd.map Prod.snd) update_sites t
  contextUpdate epsilon i (c.context_prod i t) old.1 new.1 new.2

/-- `_conditionals` with given context products (autoreg_qGPS_full.py:365-424). -/
def conditionalsFrom (f : Fields D M) (epsilon : Fin D → Fin M → ℕ → ℂ) (inputs : Fin L → Fin D)
    (contexts : Fin L → Fin M → ℂ) : Fin L → Fin D → LogAmp :=
  scanOut (fun (n_spins : Fin D → ℤ) index =>
    let r := fromContext f epsilon n_spins inputs index (contexts index)
    ((if f.constrained then r.1 else fun _ => 0), r.2)) (fun _ => 0)

/-- The rest of `__call__` after the context products are known (autoreg_qGPS_full.py:219-245). -/
noncomputable def evaluate [Fintype ι] (f : Fields D M) (epsilon : Fin D → Fin M → ℕ → ℂ) (syms : QGPS.Syms L D ι)
    (full_samples : Fin L → Fin D) (contexts : Fin L → ι → Fin M → ℂ) : LogAmp :=
  symmetrise f.machine_pow fun t =>
    let x := syms.symmetries full_samples t
    pickSum (fun i => maybeNormalize f (conditionalsFrom f epsilon x (fun i => contexts i t) i)) x

/-- `__call__(inputs)` (autoreg_qGPS_full.py:142-255 with `update_sites=None`). -/
noncomputable def callFull [Fintype ι] (f : Fields D M) (epsilon : Fin D → Fin M → ℕ → ℂ) (syms : QGPS.Syms L D ι)
    (x : Fin L → Fin D) : LogAmp × Cache L D M ι :=
  let ctx := freshContexts epsilon syms x
  (evaluate f epsilon syms x ctx, ⟨x, ctx⟩)

/-- `__call__(occs, update_sites=sites, cache_intermediates=True)` (autoreg_qGPS_full.py:142-255): the configuration is
updated by writing the entries in reverse order. -/
noncomputable def callUpdate [Fintype ι] (f : Fields D M) (epsilon : Fin D → Fin M → ℕ → ℂ) (syms : QGPS.Syms L D ι)
    (c : Cache L D M ι) (upd : List (Fin L × Fin D)) : LogAmp × Cache L D M ι :=
  let full_samples := QGPS.updateConfig c.samples upd
  let ctx := fastContexts epsilon syms c upd
  (evaluate f epsilon syms full_samples ctx, ⟨full_samples, ctx⟩)

end GPSKet.ARFull
