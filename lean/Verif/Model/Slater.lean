import Verif.Model.AmpSource
import Verif.Model.Electrons
import Mathlib.LinearAlgebra.Matrix.NonsingularInverse
import Mathlib.Analysis.SpecialFunctions.Trigonometric.Basic
import Mathlib.Data.Fin.Tuple.Sort

/-!
# Model of the Slater determinant model (`GPSKet/models/slater.py:47-692`)

One sample of the batch.  Logarithms of determinants are represented by the determinants: sums of logs are products, and
`out_transformation` is handed the numbers whose logs the code hands over (it must depend on the logs through their
exponentials only, as the default `logsumexp` does, since sums of principal logs are determined up to multiples of `2πi`).
Arrays indexed by update number, padded with `-1`, are functions `ℕ → ℤ`.
-/

namespace GPSKet.Slater
open Electrons

variable {L nu nd M : ℕ} {κ ι : Type}

/-- Python indexing: a negative index counts from the end. -/
def pyIdx (n : ℕ) (i : ℤ) : Option (Fin n) :=
  if h : 0 ≤ i ∧ i < n then some ⟨i.toNat, by omega⟩
  else if h : -(n : ℤ) ≤ i ∧ i < 0 then some ⟨(i + n).toNat, by omega⟩
  else none

/-- `a[i]` for an array `a` (out of bounds, which does not occur, gives 0). -/
def get {n : ℕ} {α : Type} [Zero α] (a : Fin n → α) (i : ℤ) : α := ((pyIdx n i).map a).getD 0

/-- The three ways the orbitals are set up (slater.py:141-222).  `spin_symmetry_by_structure` is the first (or second) case with
`U_dn = U_up`; `κ` indexes the spin rotations (one trivial rotation without projection). -/
inductive Orbs (L nu nd M : ℕ) : Type → Type 1
  | fixedMag (U_up : Fin M → Fin L → Fin nu → ℂ) (U_dn : Fin M → Fin L → Fin nd → ℂ) : Orbs L nu nd M Unit
  | projected {κ : Type} (U_up : Fin M → Fin L → Fin nu → ℂ) (U_dn : Fin M → Fin L → Fin nd → ℂ) (angle : κ → ℝ) : Orbs L nu nd M κ
  | generalised (U : Fin M → Fin (L + L) → Fin (nu + nd) → ℂ) : Orbs L nu nd M Unit

/-- `get_full_U` (slater.py:159-177): the block matrix `[[up, 0], [0, down]]`. -/
def getFullU (up : Fin L → Fin nu → ℂ) (down : Fin L → Fin nd → ℂ) : Fin (L + L) → Fin (nu + nd) → ℂ := fun i j =>
  Fin.addCases (motive := fun _ => ℂ) (fun i => Fin.addCases (motive := fun _ => ℂ) (fun j => up i j) (fun _ => 0) j)
    (fun i => Fin.addCases (motive := fun _ => ℂ) (fun _ => 0) (fun j => down i j) j) i

/-- `apply_rotation` (slater.py:195-217). -/
noncomputable def applyRotation (F : Fin (L + L) → Fin (nu + nd) → ℂ) (angle : ℝ) : Fin (L + L) → Fin (nu + nd) → ℂ := fun i j =>
  let c : ℂ := Real.cos (angle / 2)
  let s : ℂ := Real.sin (angle / 2)
  Fin.addCases (motive := fun _ => ℂ)
    (fun i => Fin.addCases (motive := fun _ => ℂ)
      (fun j => F (Fin.castAdd L i) (Fin.castAdd nd j) * c + F (Fin.natAdd L i) (Fin.castAdd nd j) * s)
      (fun j => F (Fin.castAdd L i) (Fin.natAdd nu j) * c - F (Fin.natAdd L i) (Fin.natAdd nu j) * s) j)
    (fun i => Fin.addCases (motive := fun _ => ℂ)
      (fun j => F (Fin.castAdd L i) (Fin.castAdd nd j) * s + F (Fin.natAdd L i) (Fin.castAdd nd j) * c)
      (fun j => -F (Fin.castAdd L i) (Fin.natAdd nu j) * s + F (Fin.natAdd L i) (Fin.natAdd nu j) * c) j) i

/-- `full_U` (slater.py:141-222): determinant, spin-orbital, electron, rotation. -/
noncomputable def fullU : Orbs L nu nd M κ → Fin M → Fin (L + L) → Fin (nu + nd) → κ → ℂ
  | .fixedMag U_up U_dn => fun m i j _ => getFullU (U_up m) (U_dn m) i j
  | .projected U_up U_dn angle => fun m i j s => applyRotation (getFullU (U_up m) (U_dn m)) (angle s) i j
  | .generalised U => fun m i j _ => U m i j

/-- Fields of the module.  `symmetries` acts elementwise on site numbers; `chars` are the characters of `S2_projection` (all 1
without projection, slater.py:687-690). -/
structure Module (L nu nd M : ℕ) (κ ι : Type) where
  orbs : Orbs L nu nd M κ
  symmetries : ι → Fin L → Fin L
  chars : κ → ℂ
  constant_time_updates : Bool
  out_transformation : (Fin M → κ → ι → ℂ) → ℂ

/-- Electron positions without shift (slater.py:225). -/
def electrons (nu nd : ℕ) (x : Cfg L) (i : ℕ) : ℤ := (occupanciesToElectrons [x] nu nd 0).getD i 0

/-- Electron positions, spin-down ones shifted by `L` (slater.py:524-528,662-666). -/
def elPositions (nu nd : ℕ) (x : Cfg L) (i : ℕ) : ℤ := electrons nu nd x i + if nu ≤ i then (L : ℤ) else 0

/-- The symmetry applied to a site number. -/
def symSite (mod : Module L nu nd M κ ι) (t : ι) (i : ℤ) : ℤ := get (fun k => ((mod.symmetries t k).val : ℤ)) i

/-- `y` (slater.py:225-228). -/
def yPositions (mod : Module L nu nd M κ ι) (x : Cfg L) (t : ι) (i : ℕ) : ℤ :=
  symSite mod t (electrons nu nd x i) + if nu ≤ i then (L : ℤ) else 0

/-- `U_submats` (slater.py:231-241). -/
noncomputable def uSubmat (mod : Module L nu nd M κ ι) (x : Cfg L) (m : Fin M) (s : κ) (t : ι) :
    Matrix (Fin (nu + nd)) (Fin (nu + nd)) ℂ :=
  Matrix.of fun i j => get (fun k => fullU mod.orbs m k j s) (yPositions mod x t i)

/-- `evaluate_SD` (slater.py:244-261): without rotations and with fixed magnetization, the product of the determinants of the two
diagonal blocks. -/
noncomputable def evaluateSD : Orbs L nu nd M κ → Matrix (Fin (nu + nd)) (Fin (nu + nd)) ℂ → ℂ
  | .fixedMag _ _ => fun A => (A.submatrix (Fin.castAdd nd) (Fin.castAdd nd)).det * (A.submatrix (Fin.natAdd nu) (Fin.natAdd nu)).det
  | .projected _ _ _ => fun A => A.det
  | .generalised _ => fun A => A.det

/-- `log_det_values` of an evaluation from scratch (slater.py:243-266). -/
noncomputable def detValues (mod : Module L nu nd M κ ι) (x : Cfg L) (m : Fin M) (s : κ) (t : ι) : ℂ :=
  evaluateSD mod.orbs (uSubmat mod x m s t)

/-- The cached variables (slater.py:121-138). -/
structure Cache (L nu nd M : ℕ) (κ ι : Type) where
  inverted_submats : Fin M → κ → ι → Matrix (Fin (nu + nd)) (Fin (nu + nd)) ℂ
  update_matrices : Option (Fin M → κ → ι → Fin (L + L) → Fin (nu + nd) → ℂ)
  full_U : Fin M → Fin (L + L) → Fin (nu + nd) → κ → ℂ
  samples : Cfg L
  sites_to_electron_ids : Fin (L + L) → ℤ
  cumulative_electron_count : Fin (L + L) → ℤ
  log_dets : Fin M → κ → ι → ℂ

/-- The occupation bits, spin up then spin down (slater.py:657). -/
def bits (x : Cfg L) (s : Fin (L + L)) : ℤ :=
  Fin.addCases (motive := fun _ => ℤ) (fun i => if bit false (x i) then 1 else 0) (fun i => if bit true (x i) then 1 else 0) s

/-- `jnp.cumsum` of the bits (slater.py:656-659). -/
def cumCount (x : Cfg L) (s : Fin (L + L)) : ℤ := ∑ k ∈ Finset.univ.filter (· ≤ s), bits x k

/-- `set_occ_per_sample` (slater.py:668-681): the loop writes the electron number at each electron's position. -/
def sitesToElectrons (nu nd : ℕ) (x : Cfg L) : Fin (L + L) → ℤ :=
  (List.range (nu + nd)).foldl
    (fun tab i => fun s => if pyIdx (L + L) (elPositions nu nd x i) = some s then (i : ℤ) else tab s) (fun _ => -1)

/-- The variables stored when the cache is requested, from the inverses, the orbitals, the configuration and the determinants
(slater.py:605-684); `full_U` is stored unchanged. -/
noncomputable def store (mod : Module L nu nd M κ ι) (full_U : Fin M → Fin (L + L) → Fin (nu + nd) → κ → ℂ)
    (inv : Fin M → κ → ι → Matrix (Fin (nu + nd)) (Fin (nu + nd)) ℂ) (x : Cfg L) (dets : Fin M → κ → ι → ℂ) : Cache L nu nd M κ ι where
  inverted_submats := inv
  update_matrices := if mod.constant_time_updates then some fun m s t i n => ∑ k, full_U m i k s * inv m s t k n else none
  full_U := full_U
  samples := x
  sites_to_electron_ids := sitesToElectrons nu nd x
  cumulative_electron_count := cumCount x
  log_dets := dets

/-- The per-spin changes `old - new` of one spin channel, one entry per listed site: 1 means an electron is removed, -1 that
one is added (slater.py:290-298). -/
def spinUpdates (s : Bool) (old : Cfg L) (upd : List (Fin L × Fin 4)) : List ℤ :=
  upd.map fun u => (if bit s (old u.1) then 1 else 0) - (if bit s u.2 then 1 else 0)

/-- `updates` (slater.py:295-297). -/
def updates (old : Cfg L) (upd : List (Fin L × Fin 4)) : List ℤ := spinUpdates false old upd ++ spinUpdates true old upd

/-- `update_sites_spin_channel_split` (slater.py:304-306). -/
def splitSites (upd : List (Fin L × Fin 4)) : List ℤ := upd.map (fun u => (u.1.val : ℤ)) ++ upd.map (fun u => (u.1.val : ℤ) + L)

/-- `jnp.nonzero(a == v, size=size, fill_value=-1)` (slater.py:312-316,320-324). -/
def nonzeroEq (a : List ℤ) (v : ℤ) (size : ℕ) (i : ℕ) : ℤ :=
  ((((List.range a.length).filter fun j => a.getD j 0 = v).take size).map fun j : ℕ => (j : ℤ)).getD i (-1)

/-- `add_sites` (`v = -1`) and `remove_sites` (`v = 1`) (slater.py:312-327). -/
def changeSites (old : Cfg L) (upd : List (Fin L × Fin 4)) (v : ℤ) (i : ℕ) : ℤ :=
  let id := nonzeroEq (updates old upd) v upd.length i
  if id ≠ -1 then (splitSites upd).getD id.toNat 0 else -1

/-- `el_ids` (slater.py:328-330). -/
def elIds (c : Cache L nu nd M κ ι) (upd : List (Fin L × Fin 4)) (i : ℕ) : ℤ :=
  if nonzeroEq (updates c.samples upd) 1 upd.length i ≠ -1 then get c.sites_to_electron_ids (changeSites c.samples upd 1 i) else -1

/-- One pass of `loop_fun` (slater.py:337-382): the state is the sign and the two arrays of counts. -/
def signStep (add rm : ℕ → ℤ) (val : ℤ × (ℕ → ℤ) × (ℕ → ℤ)) (index : ℕ) : ℤ × (ℕ → ℤ) × (ℕ → ℤ) :=
  let passed := |val.2.2 index - val.2.1 index|
  let passed := if rm index > add index then passed - 1 else passed
  let sign := val.1 * (-1) ^ (passed % 2).toNat
  let upd (sites cum : ℕ → ℤ) : ℕ → ℤ := fun j =>
    let c := if sites j ≥ add index then cum j else cum j + 1
    if sites j ≥ rm index then c else c - 1
  (sign, upd add val.2.1, upd rm val.2.2)

/-- `sign_update` (slater.py:384-392). -/
def signUpdate (c : Cache L nu nd M κ ι) (upd : List (Fin L × Fin 4)) : ℤ :=
  let add := changeSites c.samples upd (-1)
  let rm := changeSites c.samples upd 1
  ((List.range upd.length).foldl (signStep add rm)
    (1, fun j => get c.cumulative_electron_count (add j), fun j => get c.cumulative_electron_count (rm j))).1

/-- The symmetries applied to shifted, padded sites (slater.py:409-415,510-517). -/
def symSites (mod : Module L nu nd M κ ι) (t : ι) (sites : ℕ → ℤ) (i : ℕ) : ℤ :=
  if sites i ≠ -1 then symSite mod t (sites i % L) + sites i / L * L else -1

/-- `get_determinant_update` (slater.py:424-441,463-478): rows and columns of padding entries are those of the identity. -/
noncomputable def determinantUpdate (U : ℕ) (add el : ℕ → ℤ) (entry : ℤ → ℤ → ℂ) : ℂ :=
  (Matrix.of fun i j : Fin U =>
    let up_mat := entry (add i) (el j)
    let id : ℂ := if i = j then 1 else 0
    let up_mat := if add i ≠ -1 then up_mat else id
    if add j ≠ -1 then up_mat else id).det

/-- The entries of the update matrix: looked up, or computed from the orbitals and the inverse (slater.py:435-438,469-471). -/
noncomputable def updateEntry (c : Cache L nu nd M κ ι) (m : Fin M) (s : κ) (t : ι) : ℤ → ℤ → ℂ :=
  match c.update_matrices with
  | some W => fun a e => get (fun i => get (W m s t i) e) a
  | none => fun a e => ∑ k, get (fun i => c.full_U m i k s) a * get (fun n => c.inverted_submats m s t k n) e

/-- `log_det_values` of a fast update (slater.py:417-506). -/
noncomputable def fastDetValues (mod : Module L nu nd M κ ι) (c : Cache L nu nd M κ ι) (upd : List (Fin L × Fin 4)) :
    Fin M → κ → ι → ℂ := fun m s t =>
  let add := symSites mod t (changeSites c.samples upd (-1))
  let el := elIds c upd
  determinantUpdate upd.length add el (updateEntry c m s t) * c.log_dets m s t * (signUpdate c upd : ℂ)

/-- `update_el_pos` (slater.py:530-546): the loop runs over the non-padding entries. -/
def updateElPos (U : ℕ) (add el : ℕ → ℤ) (N : ℕ) (old : Fin N → ℤ) : Fin N → ℤ :=
  (List.range ((List.range U).filter fun i => add i ≠ -1).length).foldl
    (fun pos i => fun n => if pyIdx N (el i) = some n then add i else pos n) old

/-- `update_inverse` (slater.py:550-576), before the columns are permuted. -/
noncomputable def updateInverse {N : ℕ} (U : ℕ) (add rm el : ℕ → ℤ) (orbitals : Fin (L + L) → Fin N → ℂ)
    (inv_old : Matrix (Fin N) (Fin N) ℂ) : Matrix (Fin N) (Fin N) ℂ :=
  let V : Matrix (Fin U) (Fin N) ℂ := Matrix.of fun i k =>
    if add i ≠ -1 then get (fun r => orbitals r k) (add i) - get (fun r => orbitals r k) (rm i) else 0
  let VAInv := V * inv_old
  let VAInvU : Matrix (Fin U) (Fin U) ℂ := Matrix.of fun i j => if add j ≠ -1 then get (VAInv i) (el j) else 0
  let inverted_mat := (1 + VAInvU)⁻¹
  let invCols : Matrix (Fin N) (Fin U) ℂ := Matrix.of fun k j => get (inv_old k) (el j)
  inv_old - invCols * (inverted_mat * VAInv)

/-- The updated inverses (slater.py:508-602). -/
noncomputable def fastInverses (mod : Module L nu nd M κ ι) (c : Cache L nu nd M κ ι) (upd : List (Fin L × Fin 4)) :
    Fin M → κ → ι → Matrix (Fin (nu + nd)) (Fin (nu + nd)) ℂ := fun m s t =>
  let add := changeSites c.samples upd (-1)
  let rm := changeSites c.samples upd 1
  let el := elIds c upd
  let permutation := Tuple.sort (updateElPos upd.length add el (nu + nd) fun i => elPositions nu nd c.samples i)
  (updateInverse upd.length (symSites mod t add) (symSites mod t rm) el (fun r k => c.full_U m r k s)
    (c.inverted_submats m s t)).submatrix id permutation

/-- `Slater.__call__` as a model with cached fast updates (slater.py:116-692). -/
noncomputable def model (mod : Module L nu nd M κ ι) : Spec.CachedModel (Fin L) (Fin 4) (Cache L nu nd M κ ι) where
  full x := mod.out_transformation fun m s t => detValues mod x m s t * mod.chars s
  cacheOf x := store mod (fullU mod.orbs) (fun m s t => (uSubmat mod x m s t)⁻¹) x (detValues mod x)
  fast c upd := mod.out_transformation fun m s t => fastDetValues mod c upd m s t * mod.chars s
  fastCache c upd := store mod c.full_U (fastInverses mod c upd) (setSites c.samples upd.reverse) (fastDetValues mod c upd)

end GPSKet.Slater
