import Verif.Model.Pfaffian
import Verif.Model.Slater
import Verif.Model.QGPS

/-!
# Model of the reference states of the ab-initio scripts

`scripts/GPS_for_ab_initio/H2O.py` lines 119-173 and 213-291.  `nelec` is even, `n = nelec // 2`; one sample of the batch.  Amplitudes
(exponentials of the returned logarithms) are modelled, `none` is NaN.
-/

namespace GPSKet.Reference
open Pfaffian

variable {L n Mq : ℕ} {τ κ : Type}

/-- Numbers below `norb` are orbitals of up electrons, the others of down electrons (numbers `≥ 2 * norb` do not occur). -/
def orbital [NeZero L] (k : ℕ) : Fin L ⊕ Fin L := if h : k < L then .inl ⟨k, h⟩ else .inr (Fin.ofNat L (k - L))

/-- `y` (H2O.py lines 152-156). -/
def positions [NeZero L] (n : ℕ) (x : Cfg L) : Fin (2 * n) → Fin L ⊕ Fin L :=
  fun i => orbital ((Electrons.occupanciesToElectrons [x] n n 0).getD i 0 + if n ≤ i.val then L else 0)

/-- `self.Pfaffian(y)` (H2O.py lines 157-160). -/
noncomputable def pfaffianPart [NeZero L] (n : ℕ) (f : Matrix (Fin L) (Fin L) ℂ) (S2 : List (ℝ × ℝ)) (x : Cfg L) : Option ℂ :=
  ((zeroMagCall f S2 [[positions n x]]).head?).join

/-- `PfaffianqGPS` (H2O.py lines 122-162): the qGPS is absent for `M == 0`. -/
structure PfaffianqGPS (L Mq : ℕ) (τ : Type) where
  f : Matrix (Fin L) (Fin L) ℂ
  S2 : List (ℝ × ℝ)
  qgps : Option (QGPS.Module L 4 Mq τ)

/-- The cached variables: the samples (H2O.py lines 129-132) and those of the qGPS. -/
structure Cache (L Mq : ℕ) (τ : Type) where
  samples : Cfg L
  qgps : Option (QGPS.Cache L 4 Mq τ)

/-- The product of the two amplitudes (H2O.py lines 157-162). -/
noncomputable def times (pfaffian : Option ℂ) (qgps : Option ℂ) : Option ℂ :=
  match qgps with
  | none => pfaffian
  | some v => pfaffian.map fun a => a * Complex.exp v

/-- `PfaffianqGPS.__call__` without `update_sites` (H2O.py lines 128, 149-162). -/
noncomputable def full [NeZero L] (n : ℕ) (mod : PfaffianqGPS L Mq τ) (x : Cfg L) : Option ℂ :=
  times (pfaffianPart n mod.f mod.S2 x) (mod.qgps.map fun q => (QGPS.model q).full x)

/-- The cache that call leaves when `cache_intermediates` is set (H2O.py lines 150-151). -/
noncomputable def cacheOf (mod : PfaffianqGPS L Mq τ) (x : Cfg L) : Cache L Mq τ :=
  ⟨x, mod.qgps.map fun q => (QGPS.model q).cacheOf x⟩

/-- `update_fun` (H2O.py lines 135-144): the scan runs from the last entry to the first one. -/
def updateFun (saved : Cfg L) (upd : List (Fin L × Fin 4)) : Cfg L :=
  upd.reverse.foldl (fun carry u => Function.update carry u.1 u.2) saved

/-- The evaluation of the qGPS with `update_sites`. -/
noncomputable def qgpsFast (mod : PfaffianqGPS L Mq τ) (c : Cache L Mq τ) (upd : List (Fin L × Fin 4)) : Option ℂ :=
  match mod.qgps, c.qgps with
  | some q, some cq => some ((QGPS.model q).fast cq upd)
  | _, _ => none

/-- `PfaffianqGPS.__call__` with `update_sites` (H2O.py lines 133-162). -/
noncomputable def fast [NeZero L] (n : ℕ) (mod : PfaffianqGPS L Mq τ) (c : Cache L Mq τ) (upd : List (Fin L × Fin 4)) : Option ℂ :=
  times (pfaffianPart n mod.f mod.S2 (updateFun c.samples upd)) (qgpsFast mod c upd)

/-- The cache that call leaves when `cache_intermediates` is set as well. -/
noncomputable def fastCache (mod : PfaffianqGPS L Mq τ) (c : Cache L Mq τ) (upd : List (Fin L × Fin 4)) : Cache L Mq τ where
  samples := updateFun c.samples upd
  qgps := match mod.qgps, c.qgps with
    | some q, some cq => some ((QGPS.model q).fastCache cq upd)
    | _, _ => none

/-! ## The initial parameters -/

/-- `pfaffian_init` (H2O.py lines 218-221). -/
noncomputable def pfaffianInit (phi : Fin L → Fin n → ℂ) : Matrix (Fin L) (Fin L) ℂ := Matrix.of fun i j => ∑ k, phi i k * phi j k

/-- `slater_init` (H2O.py lines 224-227), for one determinant. -/
def slaterInit (phi : Fin L → Fin n → ℂ) : Fin 1 → Fin L → Fin n → ℂ := fun _ => phi

/-- `full_slater_init` (H2O.py lines 230-238). -/
def fullSlaterInit (phi : Fin L → Fin n → ℂ) : Fin 1 → Fin (L + L) → Fin (n + n) → ℂ := fun _ i k =>
  Fin.addCases (motive := fun _ => ℂ)
    (fun i => Fin.addCases (motive := fun _ => ℂ) (fun k => phi i k) (fun _ => 0) k)
    (fun i => Fin.addCases (motive := fun _ => ℂ) (fun _ => 0) (fun k => phi i k) k) i

/-- The reference states (H2O.py lines 249-289; 0 is no reference state).  `angles` are those of the spin projection and their characters. -/
inductive Ref
  | slater
  | projectedSlater (angles : List (ℝ × ℝ))
  | pfaffian
  | projectedPfaffian (angles : List (ℝ × ℝ))
  | fullSlater

/-- `logsumexp` over determinants, rotations and symmetry operations, the default `out_transformation` (slater.py:66-69); the
amplitude is modelled. -/
noncomputable def slaterAmp [Fintype κ] (orbs : Slater.Orbs L n n 1 κ) (chars : κ → ℂ) (x : Cfg L) : ℂ :=
  (Slater.model (⟨orbs, fun _ i => i, chars, true, fun a => ∑ m, ∑ s, ∑ t, a m s t⟩ : Slater.Module L n n 1 κ Unit)).full x

/-- The amplitudes of the reference state with the initial parameters (H2O.py lines 249-289). -/
noncomputable def initial [NeZero L] (phi : Fin L → Fin n → ℂ) (x : Cfg L) : Ref → Option ℂ
  | .slater => some (slaterAmp (.fixedMag (slaterInit phi) (slaterInit phi)) (fun _ => 1) x)
  | .projectedSlater a =>
    some (slaterAmp (κ := Fin a.length) (.projected (slaterInit phi) (slaterInit phi) fun s => (a.get s).1) (fun s => ((a.get s).2 : ℂ)) x)
  | .pfaffian => pfaffianPart n (pfaffianInit phi) [(0, 1)] x
  | .projectedPfaffian a => pfaffianPart n (pfaffianInit phi) a x
  | .fullSlater => some (slaterAmp (.generalised (fullSlaterInit phi)) (fun _ => 1) x)

end GPSKet.Reference
