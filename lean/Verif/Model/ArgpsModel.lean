import Verif.Model.QGPS
import Verif.Model.AutoregFull
import Verif.Model.AutoregPlaquette
import Verif.Model.AutoregFermion
import Mathlib.Data.List.Sort
import Mathlib.Data.Fin.Tuple.Basic

/-!
# Model of `get_model` and `get_sampler` of the autoregressive script

`scripts/ARGPS/argps/models.py` lines 17-218 and 339-360, `scripts/ARGPS/argps/samplers.py`.
-/

namespace GPSKet.ArgpsModel
open QGPS

variable {L M : ℕ}

/-- The names of the models (any other name raises an exception).  `scripts/ARGPS/argps/models.py` lines 17-24. -/
inductive Name
  | GPS
  | FilterGPS
  | ARGPS
  | MaskedGPS
  | ARFilterGPS
  | MaskedFilterGPS
deriving DecidableEq

/-- `"AR" in name` (line 92). -/
def Name.hasAR : Name → Bool
  | .ARGPS => true
  | .ARFilterGPS => true
  | _ => false

/-- `name == "GPS" or name == "FilterGPS"` (lines 73, 78 and 155). -/
def Name.isGPS : Name → Bool
  | .GPS => true
  | .FilterGPS => true
  | _ => false

/-- The arrays NetKet computes for a graph (`.to_array()`, one row per element). -/
structure Graph (L : ℕ) where
  automorphisms : List (Fin L → Fin L)
  translation_group : List (Fin L → Fin L)
  point_group : List (Fin L → Fin L)

/-- Whether a kind of symmetries is asked for by the comma-separated list (`groups`, already split).
`scripts/ARGPS/argps/models.py` lines 54-68. -/
def requested (kind : String) (groups : List String) : Bool :=
  groups.contains kind || groups.head? == some "all" || groups.head? == some "automorphisms"

/-- The array that is used.  `scripts/ARGPS/argps/models.py` lines 142-149. -/
def pickGroup (g : Graph L) (translations point_symmetries : Bool) : List (Fin L → Fin L) :=
  if translations && point_symmetries then g.automorphisms
  else if translations then g.translation_group
  else g.point_group

/-- `inv_centre` (lines 155-158). -/
def invCentre (name : Name) : ℤ := if name.isGPS then 1 else 0

/-- A pair of functions `symmetries`, `inv_symmetries`; the last axis has `columns` entries. -/
structure Funs (L : ℕ) where
  columns : ℕ
  symmetries : (Fin L → ℤ) → Fin columns → Fin L → ℤ
  inverse : List ℤ → List (Fin L) → Fin columns → List ℤ × List (Fin L)

/-- Lattice symmetries and spin flips; the inverse table is filled by the same loops as in the library
(`scripts/ARGPS/argps/models.py` lines 150-154 and 159-177). -/
def autFlip [NeZero L] (c : ℤ) (rows : List (Fin L → Fin L)) : Funs L where
  columns := rows.length + rows.length
  symmetries samples := Fin.append (fun j i => samples (rows.get j i)) fun j i => c - samples (rows.get j i)
  inverse occs sites := Fin.append (fun j => (occs, sites.map (invSymsColumn (rows.get j))))
    fun j => (occs.map fun o => c - o, sites.map (invSymsColumn (rows.get j)))

/-- Lattice symmetries only (`scripts/ARGPS/argps/models.py` lines 150-154 and 179-190). -/
def aut [NeZero L] (rows : List (Fin L → Fin L)) : Funs L where
  columns := rows.length
  symmetries samples j i := samples (rows.get j i)
  inverse occs sites j := (occs, sites.map (invSymsColumn (rows.get j)))

/-- Spin flips only (`scripts/ARGPS/argps/models.py` lines 192-206). -/
def flip (c : ℤ) : Funs L where
  columns := 1 + 1
  symmetries samples := Fin.append (fun _ i => samples i) fun _ i => c - samples i
  inverse occs sites := Fin.append (fun _ => (occs, sites)) fun _ => (occs.map fun o => c - o, sites)

/-- No symmetries (`scripts/ARGPS/argps/models.py` lines 208-217). -/
def plain : Funs L where
  columns := 1
  symmetries samples _ i := samples i
  inverse occs sites _ := (occs, sites)

/-- `get_symmetry_transformation_spin`.  `scripts/ARGPS/argps/models.py` lines 122-219. -/
def symmetryFuns [NeZero L] (name : Name) (translations point_symmetries spin_flip : Bool) (g : Graph L) : Funs L :=
  let automorphisms := translations || point_symmetries
  if automorphisms && spin_flip then autFlip (invCentre name) (pickGroup g translations point_symmetries)
  else if automorphisms then aut (pickGroup g translations point_symmetries)
  else if spin_flip then flip (invCentre name)
  else plain

/-- What the functions are applied to for a spin with local index `d`: `qGPS` hands over local indices
(`GPSKet/models/qGPS.py` lines 143 and 181-205), the autoregressive models hand over the eigenvalues -1 and 1
(`GPSKet/models/autoreg_qGPS_full.py` lines 160-200, `GPSKet/models/autoreg_plaquetteqGPS.py` line 101). -/
def seen (name : Name) (d : Fin 2) : ℤ := if name.isGPS then d.val else 2 * d.val - 1

/-- The local index the model uses for a transformed value: the autoregressive models call `states_to_local_indices` afterwards. -/
def toIndex (name : Name) (v : ℤ) : Fin 2 := if v = seen name 1 then 1 else 0

/-- The functions as the model sees them, on local indices. -/
def Funs.syms (name : Name) (F : Funs L) : Syms L 2 (Fin F.columns) where
  symmetries x t i := toIndex name (F.symmetries (fun j => seen name (x j)) t i)
  inverse occs sites t :=
    let r := F.inverse (occs.map (seen name)) sites t
    (r.1.map (toIndex name), r.2)

/-- The functions `get_model` uses for a spin system: those of the configuration, but always and only the translations for `FilterGPS`.
`scripts/ARGPS/argps/models.py` lines 53-71 and 104-109. -/
def modelFuns [NeZero L] (name : Name) (groups : List String) (g : Graph L) : Funs L :=
  if name = .FilterGPS then symmetryFuns name true false false g
  else symmetryFuns name (requested "translations" groups) (requested "point-symmetries" groups) (requested "spin-flip" groups) g

/-- The static fields of an autoregressive model of a spin system: `count_spins` and `renormalize_log_psi` of the script (lines 222-237
and 262-277) are the defaults of the library, `machine_pow` is not set.  `scripts/ARGPS/argps/models.py` lines 78-101. -/
noncomputable def spinFields (name : Name) (L : ℕ) (constrained : Bool) : AR.Fields 2 M :=
  ⟨2, name.hasAR, constrained, AR.defaultCountSpins, AR.defaultRenormalize L, AR.sumOut⟩

/-- The static fields of an autoregressive model of a fermionic system with given numbers of electrons.
`scripts/ARGPS/argps/models.py` lines 82-101. -/
noncomputable def fermionicFields (name : Name) (L : ℕ) (n_elec : ℕ × ℕ) : AR.Fields 4 M :=
  ⟨2, name.hasAR, true, AR.countSpinsFermionic, AR.renormalizeFermionic (n_elec.1, n_elec.2) L, AR.sumOut⟩

/-- The plaquettes of a periodic two-dimensional lattice: `translations[np.argsort(translations[:, 0])]` (the entries of the first
column are distinct, so that any sorting method gives the same).  `scripts/ARGPS/argps/models.py` lines 351-354. -/
def latticePlaquettes [NeZero L] (rows : List (Fin L → Fin L)) (i : Fin L) : Fin L → Fin L :=
  (rows.insertionSort fun a b => a 0 ≤ b 0).getD i id

/-- `get_plaquettes_and_masks`; `lattice` holds the translations if the graph is a periodic two-dimensional lattice.
`scripts/ARGPS/argps/models.py` lines 339-360. -/
def plaquettesAndMasks [NeZero L] (lattice : Option (List (Fin L → Fin L))) : ARPlaquette.Plaquettes L :=
  match lattice with
  | some rows => ARPlaquette.withMasks (latticePlaquettes rows)
  | none => ARPlaquette.withMasks ARPlaquette.circulantPlaquettes

/-- The parameters of the autoregressive models. -/
inductive Params (L D M : ℕ)
  | full (epsilon : Fin D → Fin M → ℕ → ℂ)
  | filter (epsilon : Fin D → Fin M → Fin L → ℂ)

/-- The autoregressive model that `get_model` builds.  `scripts/ARGPS/argps/models.py` lines 78-102. -/
def machine [NeZero L] {D : ℕ} (f : AR.Fields D M) (lattice : Option (List (Fin L → Fin L))) : Params L D M → AR.Machine L D M
  | .full epsilon => ARFull.arqGPSFull f epsilon
  | .filter epsilon => ARPlaquette.arPlaquette f epsilon (plaquettesAndMasks lattice)

/-- The `qGPS` models that `get_model` builds for spin systems; `S` is `size * M`, and `M` for `FilterGPS`.
`scripts/ARGPS/argps/models.py` lines 103-119. -/
noncomputable def gps [NeZero L] {S : ℕ} (name : Name) (groups : List String) (g : Graph L) (epsilon : Fin 2 → Fin S → Fin L → ℂ) :
    QGPS.Module L 2 S (Fin (modelFuns name groups g).columns) := ⟨epsilon, (modelFuns name groups g).syms name, QGPS.sumOut⟩

/-- The samplers by name. -/
inductive Sampler
  | MetropolisExchange
  | MetropolisHopping
  | ARDirectSampler
deriving DecidableEq

/-- `get_sampler`: `normalize` is the entry `config.model.normalize`, if there is one; `none` is a `ValueError`.
`scripts/ARGPS/argps/samplers.py` lines 32-53. -/
def getSampler (normalize : Option Bool) (sampler_name : Sampler) : Option Sampler :=
  match normalize with
  | some n => if !n && sampler_name == .ARDirectSampler then none else some sampler_name
  | none => some sampler_name

end GPSKet.ArgpsModel
