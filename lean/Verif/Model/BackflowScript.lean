import Verif.Model.Backflow
import Verif.Model.QGPS
import Verif.Model.H2O
import Mathlib.Logic.Equiv.Fin.Basic

/-!
# Model of `scripts/cpd-backflow/cpd_backflow/models.py`

How the training script builds its model: Hartree-Fock orbitals, initial parameters, output transformation and environments.
The mean-field calculation itself (PySCF) is not modelled: its orbitals are inputs.
-/

namespace GPSKet.BackflowScript

variable {L R N M K n_up n_down : ℕ}

/-- A two-dimensional array with its shape. -/
structure Arr where
  rows : ℕ
  cols : ℕ
  get : ℕ → ℕ → ℂ

/-- `np.concatenate((a, b), axis=1)` (of arrays with equally many rows). -/
def Arr.concat (a b : Arr) : Arr := ⟨a.rows, a.cols + b.cols, fun i j => if j < a.cols then a.get i j else b.get i (j - a.cols)⟩

/-- `a[:, :n]` -/
def Arr.takeCols (a : Arr) (n : ℕ) : Arr := ⟨a.rows, min n a.cols, a.get⟩

/-- `np.zeros((r, c))` -/
def Arr.zeros (r c : ℕ) : Arr := ⟨r, c, fun _ _ => 0⟩

/-- `a[r0:r0+b.rows, c0:c1] = b`: numpy repeats a single column of `b`; for any other difference in width it raises an exception. -/
def Arr.setBlock (a : Arr) (r0 c0 c1 : ℕ) (b : Arr) : Option Arr :=
  if b.cols = c1 - c0 then
    some { a with get := fun i j => if r0 ≤ i ∧ i < r0 + b.rows ∧ c0 ≤ j ∧ j < c1 then b.get (i - r0) (j - c0) else a.get i j }
  else if b.cols = 1 then
    some { a with get := fun i j => if r0 ≤ i ∧ i < r0 + b.rows ∧ c0 ≤ j ∧ j < c1 then b.get (i - r0) 0 else a.get i j }
  else none

/-- The orbitals that `get_molecular_system` stores in `hf_orbitals.npy`: from the matrix `c` of all canonical orbitals in the
chosen basis, the occupied ones, once for equal numbers of up and down electrons and otherwise for up and for down electrons.
`scripts/cpd-backflow/cpd_backflow/systems.py` lines 145-151. -/
def savedOrbitals (c : Arr) (n_elec : ℕ × ℕ) : Arr :=
  if n_elec.1 = n_elec.2 then c.takeCols ((n_elec.1 + n_elec.2) / 2)
  else (c.takeCols n_elec.1).concat (c.takeCols n_elec.2)

/-- `get_hf_orbitals_from_file`, without the file: `given` tells whether the configuration has an entry `n_elec`.
`scripts/cpd-backflow/cpd_backflow/models.py` lines 219-245; `none` is an exception. -/
def orbitalsFromFile (file : Arr) (n_elec : ℕ × ℕ) (given restricted fixed_magnetization : Bool) : Option Arr :=
  let nelec := n_elec.1 + n_elec.2
  if fixed_magnetization then
    if restricted then
      if file.cols = nelec / 2 then some file else none
    else if file.cols = nelec / 2 then some (file.concat file)
    else if file.cols = nelec then some file else none
  else
    let norb := file.rows
    if given then do
      let o ← (Arr.zeros (2 * norb) nelec).setBlock 0 0 n_elec.1 (file.takeCols n_elec.1)
      o.setBlock norb n_elec.2 nelec (file.takeCols n_elec.2)
    else do
      let nelec := file.cols * 2
      let o ← (Arr.zeros (2 * norb) nelec).setBlock 0 0 (nelec / 2) file
      o.setBlock norb (nelec / 2) nelec file

/-- The end of `get_hf_orbitals`: the occupied orbitals of a mean-field calculation for the Hubbard model, whose coefficients are
one square matrix (`inl`, restricted) or one for each spin (`inr`).  The reshaping of a single matrix into two raises an exception.
`scripts/cpd-backflow/cpd_backflow/models.py` lines 179-191. -/
def orbitalsFromMeanField (mo_coeff : Arr ⊕ (Arr × Arr)) (n_elec : ℕ × ℕ) (fixed_magnetization : Bool) : Option Arr :=
  match mo_coeff with
  | .inl mo => if fixed_magnetization then some (mo.takeCols n_elec.1) else none
  | .inr (a, b) =>
    if fixed_magnetization then some ((a.takeCols n_elec.1).concat (b.takeCols n_elec.2))
    else do
      let norb := a.rows
      let nelec := n_elec.1 + n_elec.2
      let o ← (Arr.zeros (2 * norb) nelec).setBlock 0 0 n_elec.1 (a.takeCols n_elec.1)
      o.setBlock norb n_elec.1 nelec (b.takeCols n_elec.2)

/-- The initial parameters of the qGPS: ones, except on the first site, where the orbitals are followed by zeros; `noise` is added.
`scripts/cpd-backflow/cpd_backflow/models.py` lines 61-71. -/
noncomputable def initEpsilon [NeZero L] {S : ℕ} (phi : Arr) (noise : Fin 4 → Fin S → Fin L → ℂ) : Fin 4 → Fin S → Fin L → ℂ :=
  fun d m i =>
    (if i = 0 then if m.val < phi.rows * phi.cols then phi.get (m.val / phi.cols) (m.val % phi.cols) else 0 else 1) + noise d m i

/-- `out_trafo`: the output of the qGPS is reshaped into `(M, R, N)` and summed over the first axis.
`scripts/cpd-backflow/cpd_backflow/models.py` lines 266-281. -/
def outTrafo {ι : Type} (x : Fin (M * (R * N)) → ι → ℂ) : Fin R → Fin N → ι → ℂ :=
  fun α k t => ∑ m : Fin M, x (finProdFinEquiv (m, finProdFinEquiv (α, k))) t

/-- The qGPS without symmetries, whose support dimension is that of the correction (`syms` has its default value; `out_trafo` is
applied separately).  `scripts/cpd-backflow/cpd_backflow/models.py` lines 73-80. -/
def gps {S : ℕ} (eps : Fin 4 → Fin S → Fin L → ℂ) : QGPS.Module L 4 S Unit := ⟨eps, QGPS.noSyms, fun _ => 0⟩

/-- The correction of the backflow model.  `scripts/cpd-backflow/cpd_backflow/models.py` lines 73-80. -/
noncomputable def correction (eps : Fin 4 → Fin (M * (R * N)) → Fin L → ℂ) :
    Backflow.Correction L R N Unit (QGPS.Cache L 4 (M * (R * N)) Unit) where
  full x := outTrafo (QGPS.siteProd (gps eps) x)
  cacheOf x := ⟨x, QGPS.siteProd (gps eps) x⟩
  fast c upd := outTrafo (QGPS.fastSiteProd (gps eps) c upd)
  fastCache c upd := ⟨QGPS.updateConfig c.samples upd, QGPS.fastSiteProd (gps eps) c upd⟩

/-- The backflow model: no mean-field orbitals, no symmetries.  `scripts/cpd-backflow/cpd_backflow/models.py` lines 81-88. -/
noncomputable def backflow (kind : CPDBackflow.Kind L R N n_up n_down) (eps : Fin 4 → Fin (M * (R * N)) → Fin L → ℂ) :
    Backflow.Module L R N n_up n_down Unit (QGPS.Cache L 4 (M * (R * N)) Unit) := ⟨kind, correction eps, none, fun _ i => i⟩

/-! ## Exchange cutoff -/

/-- The initial parameters of the CPD backflow with environments of `K` orbitals.
`scripts/cpd-backflow/cpd_backflow/models.py` lines 99-108. -/
noncomputable def initCutoff [NeZero K] (phi : Arr) (noise : Fin R → Fin N → Fin 4 → Fin M → Fin K → ℂ) :
    Fin R → Fin N → Fin 4 → Fin M → Fin K → ℂ := fun α k d m β =>
  (if β = 0 then if m.val = 0 then phi.get α k else 0 else 1) + noise α k d m β

/-- The orbitals of `CPDBackflow` with environments: the product runs over the environment of the orbital.
`GPSKet/models/cpd_backflow.py` lines 28-30, 60-67 and 172-177. -/
def cutoffOrbitals (eps : Fin L → Fin N → Fin 4 → Fin M → Fin K → ℂ) (env : Fin L → Fin K → Fin L) (x : Cfg L) : Fin L → Fin N → ℂ :=
  fun α k => ∑ m, ∏ β, eps α k (x (env α β)) m β

/-- `CPDBackflow.__call__` with environments, without update sites (`GPSKet/models/cpd_backflow.py` lines 138-217; `none` is an
exception): caching is refused (lines 140-142), and for generalised orbitals `vmap` maps over `2 L` sets of parameters and over `L`
environments. -/
noncomputable def callCutoff (kind : CPDBackflow.Kind L R N n_up n_down) (eps : Fin R → Fin N → Fin 4 → Fin M → Fin K → ℂ)
    (env : Fin L → Fin K → Fin L) (x : Cfg L) (cache_intermediates : Bool) : Option ℂ :=
  if cache_intermediates then none
  else match kind, eps with
    | .restricted n, eps => some (CPDBackflow.logDet (.restricted n) (cutoffOrbitals eps env x) (Electrons.occupanciesToElectrons [x] n n 0))
    | .unrestricted n_up n_down, eps => some (CPDBackflow.logDet (.unrestricted n_up n_down) (cutoffOrbitals eps env x)
        (Electrons.occupanciesToElectrons [x] n_up n_down 0))
    | .generalised _ _, _ => none

/-- The model that `get_model` returns: without cutoff, or with environments.  `apply_fast_update` is `True` in both cases (line 87;
`GPSKet/models/cpd_backflow.py` line 99). -/
inductive Built (L R N M K n_up n_down : ℕ)
  | full (kind : CPDBackflow.Kind L R N n_up n_down) (eps : Fin 4 → Fin (M * (R * N)) → Fin L → ℂ)
  | cutoff (kind : CPDBackflow.Kind L R N n_up n_down) (eps : Fin R → Fin N → Fin 4 → Fin M → Fin K → ℂ) (env : Fin L → Fin K → Fin L)

/-- A call of the model with a configuration (`none` is an exception). -/
noncomputable def Built.call (b : Built L R N M K n_up n_down) (x : Cfg L) (cache_intermediates : Bool) : Option ℂ :=
  match b with
  | .full kind eps => some ((Backflow.model (backflow kind eps)).full x)
  | .cutoff kind eps env => callCutoff kind eps env x cache_intermediates

/-- `vstate.model.apply_fast_update`. -/
def Built.applyFastUpdate (_ : Built L R N M K n_up n_down) : Bool := true

/-- The first amplitude that an on-the-fly Hamiltonian computes for a sample: intermediates are cached if the model has fast updates.
`GPSKet/operator/hamiltonian/ab_initio.py` lines 376-386 and 974-982, `hubbard.py` lines 119-128. -/
noncomputable def kernelLogAmp (b : Built L R N M K n_up n_down) (x : Cfg L) : Option ℂ := b.call x b.applyFastUpdate

/-- The exchange matrix stored by `get_molecular_system`: computed in the basis of atomic orbitals and transformed if the basis is
local.  `scripts/cpd-backflow/cpd_backflow/systems.py` lines 161-171. -/
def storedExchange {k : ℕ} (local_basis : Bool) (basis em : Matrix (Fin k) (Fin k) ℝ) : Matrix (Fin k) (Fin k) ℝ :=
  if local_basis then basis.transpose * em * basis else em

/-- The matrix that `get_top_k_orbital_indices` sorts: what it loads, transformed if the basis is local.
`scripts/cpd-backflow/cpd_backflow/models.py` lines 296-312. -/
def sortedExchange {k : ℕ} (local_basis : Bool) (basis loaded : Matrix (Fin k) (Fin k) ℝ) : Matrix (Fin k) (Fin k) ℝ :=
  if local_basis then basis.transpose * loaded * basis else loaded

/-- `np.flip(np.argsort(np.abs(em), axis=1)[:, -exchange_cutoff:], axis=1)`; `order` holds the rows of `argsort`.
`scripts/cpd-backflow/cpd_backflow/models.py` line 315. -/
def topK (order : Fin L → List (Fin L)) (exchange_cutoff : ℕ) (α : Fin L) : List (Fin L) :=
  (H2O.lastK (order α) exchange_cutoff).reverse

end GPSKet.BackflowScript
