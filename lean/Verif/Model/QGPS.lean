import Verif.Spec.Updates
import Mathlib.Data.Fintype.BigOperators
import Mathlib.Data.Complex.Basic

/-!
# Model of `GPSKet/models/qGPS.py`

One sample (the code maps over the batch with `vmap`).  Occupations are the local indices returned by
`hilbert.states_to_local_indices` (line 136).
-/

namespace GPSKet.QGPS

variable {L D M : ℕ} {ι : Type}

/-- The pair `syms` (qGPS.py:106-118).  `symmetries x t` is the `t`-th symmetrically equivalent configuration.
`inverse occs sites t` gives the occupations and the sites of the updates seen by the `t`-th equivalent configuration. -/
structure Syms (L D : ℕ) (ι : Type) where
  symmetries : (Fin L → Fin D) → ι → Fin L → Fin D
  inverse : List (Fin D) → List (Fin L) → ι → List (Fin D) × List (Fin L)

/-- `no_syms` (qGPS.py:86-92). -/
def noSyms : Syms L D Unit where
  symmetries x _ := x
  inverse occs sites _ := (occs, sites)

/-- The table `inv_syms` filled by the loops of lines 18-21: `inv_syms[syms[i, j], j] = i` for all `i`, starting from
zeros; column `j` of the table for a table `syms` of permuted sites. -/
def invSymsColumn [NeZero L] (syms : Fin L → Fin L) : Fin L → Fin L :=
  (List.finRange L).foldl (fun tab i => Function.update tab (syms i) i) (fun _ => 0)

/-- `get_sym_transformation_spin(graph, automorphisms=True, spin_flip=False)` (qGPS.py:46-57), for a table `syms i j` of
automorphisms. -/
def symsAut [NeZero L] {T : ℕ} (syms : Fin L → Fin T → Fin L) : Syms L 2 (Fin T) where
  symmetries x j := fun i => x (syms i j)
  inverse occs sites j := (occs, sites.map (invSymsColumn fun i => syms i j))

/-- `get_sym_transformation_spin(graph, automorphisms=True, spin_flip=True)` (qGPS.py:24-44): the spin-flipped copies
are appended (`false`: unflipped, `true`: flipped half of the last axis); `1 - out` on local indices `0,1`. -/
def symsAutFlip [NeZero L] {T : ℕ} (syms : Fin L → Fin T → Fin L) : Syms L 2 (Bool × Fin T) where
  symmetries x t := fun i => if t.1 then 1 - x (syms i t.2) else x (syms i t.2)
  inverse occs sites t :=
    (if t.1 then occs.map (fun o => 1 - o) else occs, sites.map (invSymsColumn fun i => syms i t.2))

/-- `get_sym_transformation_spin(graph, automorphisms=False, spin_flip=True)` (qGPS.py:60-74). -/
def symsFlip : Syms L 2 Bool where
  symmetries x t := fun i => if t then 1 - x i else x i
  inverse occs sites t := (if t then occs.map (fun o => 1 - o) else occs, sites)

/-- Parameters and static fields of the module (qGPS.py:97-121,144-146).  `epsilon d m i`. -/
structure Module (L D M : ℕ) (ι : Type) where
  epsilon : Fin D → Fin M → Fin L → ℂ
  syms : Syms L D ι
  out_transformation : (Fin M → ι → ℂ) → ℂ

/-- The default `out_transformation` (qGPS.py:120): sum over support points and symmetry operations. -/
def sumOut [Fintype ι] (argument : Fin M → ι → ℂ) : ℂ := ∑ m, ∑ t, argument m t

/-- `evaluate_site_product`, `get_site_prod` (qGPS.py:195-205). -/
def siteProd (mod : Module L D M ι) (x : Fin L → Fin D) (m : Fin M) (t : ι) : ℂ :=
  ∏ i, mod.epsilon (mod.syms.symmetries x t i) m i

/-- `epsilon[occs, :, sites].prod(axis=0)` (qGPS.py:166-171): product over the listed pairs. -/
def listProd (mod : Module L D M ι) (m : Fin M) (p : List (Fin D) × List (Fin L)) : ℂ :=
  ((p.1.zip p.2).map fun os => mod.epsilon os.1 m os.2).prod

/-- `inner_site_product_update` after `symmetries_inverse` (qGPS.py:164-190).  Division by zero is `0` in the model; the
code then produces `inf`/`nan`. -/
noncomputable def siteProdUpdate (mod : Module L D M ι) (site_prod_old : Fin M → ι → ℂ) (new_occs old_occs : List (Fin D))
    (update_sites : List (Fin L)) (m : Fin M) (t : ι) : ℂ :=
  let inv_new := mod.syms.inverse new_occs update_sites t
  let inv_old := mod.syms.inverse old_occs update_sites t
  site_prod_old m t / listProd mod m inv_old * listProd mod m inv_new

/-- The two cached variables (qGPS.py:150-156). -/
structure Cache (L D M : ℕ) (ι : Type) where
  samples : Fin L → Fin D
  site_prod : Fin M → ι → ℂ

/-- `update_fun` (qGPS.py:219-229): the entries are written in reverse order, so the first entry of a site wins. -/
def updateConfig (saved : Fin L → Fin D) (upd : List (Fin L × Fin D)) : Fin L → Fin D :=
  upd.reverse.foldl (fun y u => Function.update y u.1 u.2) saved

/-- Evaluation with `update_sites`: the new site products (qGPS.py:158-193). -/
noncomputable def fastSiteProd (mod : Module L D M ι) (c : Cache L D M ι) (upd : List (Fin L × Fin D)) : Fin M → ι → ℂ :=
  let update_sites := upd.map Prod.fst
  let indices := upd.map Prod.snd
  let old_samples := update_sites.map c.samples
  siteProdUpdate mod c.site_prod indices old_samples update_sites

/-- `qGPS.__call__` as a model with cached fast updates (qGPS.py:135-240). -/
noncomputable def model (mod : Module L D M ι) : Spec.CachedModel (Fin L) (Fin D) (Cache L D M ι) where
  full x := mod.out_transformation (siteProd mod x)
  cacheOf x := ⟨x, siteProd mod x⟩
  fast c upd := mod.out_transformation (fastSiteProd mod c upd)
  fastCache c upd := ⟨updateConfig c.samples upd, fastSiteProd mod c upd⟩

end GPSKet.QGPS
