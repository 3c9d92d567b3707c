import Verif.Model.QGPS

/-!
# Model of `GPSKet/models/plaquetteqGPS.py`

One sample (the code maps over the batch with `vmap`), occupations as local indices (line 76).
-/

namespace GPSKet.PlaquetteQGPS
open QGPS

variable {L D M P K : ℕ} {ι : Type}

/-- Parameters and static fields (plaquetteqGPS.py:18-63,83-93): `epsilon d p m k`, and the site at position `k` of plaquette
`p`. -/
structure Module (L D M P K : ℕ) (ι : Type) where
  epsilon : Fin D → Fin P → Fin M → Fin K → ℂ
  plaquettes : Fin P → Fin K → Fin L
  syms : Syms L D ι
  out_transformation : (Fin P → Fin M → ι → ℂ) → ℂ

/-- One row of `inv_plaquette_ids` (plaquetteqGPS.py:59-62): starts with `-1` (here `none`), then
`inv[plaquettes[i, j]] = j` for increasing `j`. -/
def invPlaquette (plaquette : Fin K → Fin L) : Fin L → Option (Fin K) :=
  (List.finRange K).foldl (fun tab j => Function.update tab (plaquette j) (some j)) (fun _ => none)

/-- `evaluate_site_product`, `get_site_prod` (plaquetteqGPS.py:112-131). -/
def siteProd (mod : Module L D M P K ι) (x : Fin L → Fin D) (p : Fin P) (m : Fin M) (t : ι) : ℂ :=
  ∏ k, mod.epsilon (mod.syms.symmetries x t (mod.plaquettes p k)) p m k

/-- The factors of the listed occupations and sites (plaquetteqGPS.py:141-152): 1 for sites outside the plaquette. -/
def listProd (mod : Module L D M P K ι) (p : Fin P) (m : Fin M) (q : List (Fin D) × List (Fin L)) : ℂ :=
  ((q.1.zip q.2).map fun os =>
    match invPlaquette (mod.plaquettes p) os.2 with
    | some k => mod.epsilon os.1 p m k
    | none => 1).prod

/-- The two cached variables (plaquetteqGPS.py:98-108). -/
structure Cache (L D M P : ℕ) (ι : Type) where
  samples : Fin L → Fin D
  site_prod : Fin P → Fin M → ι → ℂ

/-- Evaluation with `update_sites`: the new site products (plaquetteqGPS.py:133-175); division by zero is 0 in the model. -/
noncomputable def fastSiteProd (mod : Module L D M P K ι) (c : Cache L D M P ι) (upd : List (Fin L × Fin D)) :
    Fin P → Fin M → ι → ℂ := fun p m t =>
  let update_sites := upd.map Prod.fst
  let inv_new := mod.syms.inverse (upd.map Prod.snd) update_sites t
  let inv_old := mod.syms.inverse (update_sites.map c.samples) update_sites t
  c.site_prod p m t * (listProd mod p m inv_new / listProd mod p m inv_old)

/-- `saved_config.at[update_sites].set(occs)` (plaquetteqGPS.py:181-186).  If a site is listed several times JAX does not
specify which write comes last: `order` is the order of the writes. -/
def scatter (order : List (Fin L × Fin D) → List (Fin L × Fin D)) (saved : Fin L → Fin D) (upd : List (Fin L × Fin D)) :
    Fin L → Fin D := (order upd).foldl (fun y u => Function.update y u.1 u.2) saved

/-- `PlaquetteqGPS.__call__` as a model with cached fast updates (plaquetteqGPS.py:74-191). -/
noncomputable def model (order : List (Fin L × Fin D) → List (Fin L × Fin D)) (mod : Module L D M P K ι) :
    Spec.CachedModel (Fin L) (Fin D) (Cache L D M P ι) where
  full x := mod.out_transformation (siteProd mod x)
  cacheOf x := ⟨x, siteProd mod x⟩
  fast c upd := mod.out_transformation (fastSiteProd mod c upd)
  fastCache c upd := ⟨scatter order c.samples upd, fastSiteProd mod c upd⟩

end GPSKet.PlaquetteQGPS
