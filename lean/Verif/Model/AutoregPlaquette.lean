import Verif.Model.Autoreg

/-! # Model of `GPSKet/models/autoreg_plaquetteqGPS.py` and of the plaquettes/masks of `scripts/ARGPS/argps/models.py` -/

namespace GPSKet.ARPlaquette
open AR

variable {L D M : ℕ}

/-- Plaquette and mask per site (autoreg_plaquetteqGPS.py:22-25). -/
structure Plaquettes (L : ℕ) where
  plaquettes : Fin L → Fin L → Fin L
  masks : Fin L → Fin L → Bool

/-- `_compute_conditional` (autoreg_plaquetteqGPS.py:131-180), for `index ≥ 0`.  The parameters of the site itself are those
at position 0 of the filter. -/
def computeConditional [NeZero L] (f : Fields D M) (epsilon : Fin D → Fin M → Fin L → ℂ) (pl : Plaquettes L)
    (n_spins : Fin D → ℤ) (inputs : Fin L → Fin D) (index : Fin L) : (Fin D → ℤ) × (Fin D → LogAmp) :=
  let context_prod := fun m => ∏ k : Fin L,
    if pl.masks index k then epsilon (inputs (pl.plaquettes index k)) m k else 1
  let log_psi := fun d => f.out_transformation fun m => epsilon d m 0 * context_prod m
  let n_spins := bumpSpins f n_spins inputs index
  (n_spins, mask f n_spins index log_psi)

/-- The function scanned in `_conditionals` (autoreg_plaquetteqGPS.py:216-236). -/
def scanStep [NeZero L] (f : Fields D M) (epsilon : Fin D → Fin M → Fin L → ℂ) (pl : Plaquettes L)
    (inputs : Fin L → Fin D) (n_spins : Fin D → ℤ) (index : Fin L) : (Fin D → ℤ) × (Fin D → LogAmp) :=
  let r := computeConditional f epsilon pl n_spins inputs index
  (if f.constrained then r.1 else fun _ => 0, r.2)

/-- `_conditional` (autoreg_plaquetteqGPS.py:183-211). -/
def conditional [NeZero L] (f : Fields D M) (epsilon : Fin D → Fin M → Fin L → ℂ) (pl : Plaquettes L)
    (cache : Option (Fin D → ℤ)) (inputs : Fin L → Fin D) (index : Fin L) :
    Option (Fin D → ℤ) × (Fin D → LogAmp) :=
  let n_spins := match cache with
    | some n => n
    | none => fun _ => 0
  let r := computeConditional f epsilon pl n_spins inputs index
  (match cache with
    | some _ => some r.1
    | none => none, r.2)

/-- `ARPlaquetteqGPS` (autoreg_plaquetteqGPS.py:14-128). -/
def arPlaquette [NeZero L] (f : Fields D M) (epsilon : Fin D → Fin M → Fin L → ℂ) (pl : Plaquettes L) :
    Machine L D M where
  fields := f
  Carry := Fin D → ℤ
  initCarry := fun _ => 0
  scanStep := scanStep f epsilon pl
  Cache := Option (Fin D → ℤ)
  initCache := if f.constrained then some fun _ => 0 else none
  conditional := conditional f epsilon pl

/-- `get_plaquettes_and_masks` (scripts/ARGPS/argps/models.py:339-360): given the plaquettes (the translations of the
lattice, or a circulant matrix), the mask of site `i` keeps the filter positions that look at sites before `i`. -/
def withMasks (plaquettes : Fin L → Fin L → Fin L) : Plaquettes L where
  plaquettes := plaquettes
  masks i k := if (plaquettes i k).val ≥ i.val then false else true

/-- `circulant(np.arange(L))` (scripts/ARGPS/argps/models.py:356): entry `(i, k)` is `i - k` modulo `L`. -/
def circulantPlaquettes : Fin L → Fin L → Fin L := fun i k => i - k

end GPSKet.ARPlaquette
