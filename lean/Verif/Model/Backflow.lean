import Verif.Model.CPDBackflow
import Verif.Model.Jastrow
import Verif.Model.PyCall

/-!
# Model of `GPSKet/models/backflow.py` and `GPSKet/models/backflow_jastrow.py`

One sample of the batch.  The field `correction_fun` is a user-supplied module with its own cache; its values are matrices, one for
each symmetry operation.  Logarithms of determinants are represented by the determinants, so that `logsumexp` is the logarithm of
the sum.
-/

namespace GPSKet.Backflow

variable {L R N : ℕ} {ι Cache : Type}

/-- The module `correction_fun` (backflow.py:21,41-43): an array of shape `(R, N, T)` for a configuration, and its evaluation from
cached intermediates. -/
structure Correction (L R N : ℕ) (ι Cache : Type) where
  full : Cfg L → Fin R → Fin N → ι → ℂ
  cacheOf : Cfg L → Cache
  fast : Cache → List (Fin L × Fin 4) → Fin R → Fin N → ι → ℂ
  fastCache : Cache → List (Fin L × Fin 4) → Cache

/-- The fields (backflow.py:19-32).  The two flags are the `kind` of orbitals; `apply_symmetries` acts on site numbers. -/
structure Module (L R N n_up n_down : ℕ) (ι Cache : Type) where
  kind : CPDBackflow.Kind L R N n_up n_down
  correction_fun : Correction L R N ι Cache
  orbitals : Option (Fin R → Fin N → ℂ)
  apply_symmetries : ι → ℕ → ℕ

/-- The matrices whose rows are selected: mean-field orbitals plus corrections (backflow.py:36-40, 105-110, 119-122); the rows of
a sum are the sums of the rows. -/
def orbitalSum (orbitals : Option (Fin R → Fin N → ℂ)) (corrections : Fin R → Fin N → ι → ℂ) (t : ι) : Fin R → Fin N → ℂ :=
  match orbitals with
  | some Φ => fun α k => Φ α k + corrections α k t
  | none => fun α k => corrections α k t

/-- The determinants of the selected rows (backflow.py:69-122).  `y` lists the electron positions after the symmetry. -/
def detOf {n_up n_down : ℕ} (kind : CPDBackflow.Kind L R N n_up n_down) (o : Fin R → Fin N → ℂ) (y : List ℕ) : ℂ :=
  match kind with
  | .restricted n =>
    (Matrix.of fun i j : Fin n => CPDBackflow.take o (y.take n) i j).det * (Matrix.of fun i j : Fin n => CPDBackflow.take o (y.drop n) i j).det
  | .unrestricted n_up n_down =>
    (Matrix.of fun i j : Fin n_up => CPDBackflow.take o (y.take n_up) i (Fin.castAdd n_down j)).det *
      (Matrix.of fun i j : Fin n_down => CPDBackflow.take o (y.drop n_up) i (Fin.natAdd n_up j)).det
  | .generalised n_up n_down =>
    (Matrix.of fun i j : Fin (n_up + n_down) => CPDBackflow.take o (y.take n_up ++ (y.drop n_up).map (· + L)) i j).det

/-- The amplitude, whose logarithm is returned, from the corrections and the configuration (backflow.py:66-124). -/
def amplitude [Fintype ι] {n_up n_down : ℕ} (mod : Module L R N n_up n_down ι Cache) (corrections : Fin R → Fin N → ι → ℂ) (full_x : Cfg L) : ℂ :=
  let y := Electrons.occupanciesToElectrons [full_x] n_up n_down 0
  ∑ t, detOf mod.kind (orbitalSum mod.orbitals corrections t) (y.map (mod.apply_symmetries t))

/-- `Backflow.__call__` as a model with cached fast updates (backflow.py:33-124); the cache consists of the configuration and the
cache of the correction.  The reverse scan (lines 49-62) makes the first entry of a site count. -/
noncomputable def model [Fintype ι] {n_up n_down : ℕ} (mod : Module L R N n_up n_down ι Cache) :
    Spec.CachedModel (Fin L) (Fin 4) (Cfg L × Cache) where
  full x := Complex.log (amplitude mod (mod.correction_fun.full x) x)
  cacheOf x := (x, mod.correction_fun.cacheOf x)
  fast c upd := Complex.log (amplitude mod (mod.correction_fun.fast c.2 upd) (setSites c.1 upd.reverse))
  fastCache c upd := (setSites c.1 upd.reverse, mod.correction_fun.fastCache c.2 upd)

/-- Values that occur as fields of the modules below. -/
inductive Val (L R N : ℕ) (ι Cache : Type)
  | none
  | hilbert
  | array (Φ : Fin R → Fin N → ℂ)
  | module (c : Correction L R N ι Cache)
  | symmetries (s : ι → ℕ → ℕ)
  | flag (b : Bool)

/-- The fields of `Backflow` in order of declaration, with their defaults (backflow.py:18-32). -/
def fields (defaultSym : ι → ℕ → ℕ) : List (PyCall.Param (Val L R N ι Cache)) :=
  [("hilbert", .none), ("correction_fun", .none), ("orbitals", some .none), ("apply_symmetries", some (.symmetries defaultSym)),
   ("apply_fast_update", some (.flag true)), ("spin_symmetry_by_structure", some (.flag true)),
   ("fixed_magnetization", some (.flag true))]

/-- The amplitude computed by a `Backflow` with the given fields (`none`: an exception).  Calling something that is not a module
(line 41) and making an array of something that is not one (lines 37-39) are `TypeError`s. -/
def evalFields [Fintype ι] {n_up n_down : ℕ} (kind : CPDBackflow.Kind L R N n_up n_down)
    (self : String → Option (Val L R N ι Cache)) (x : Cfg L) : Option ℂ :=
  match self "correction_fun", self "orbitals", self "apply_symmetries" with
  | some (.module c), some .none, some (.symmetries s) => some (amplitude ⟨kind, c, none, s⟩ (c.full x) x)
  | some (.module c), some (.array Φ), some (.symmetries s) => some (amplitude ⟨kind, c, some Φ, s⟩ (c.full x) x)
  | _, _, _ => none

/-- The fields of `BackflowJastrow` that matter here (backflow_jastrow.py:17-35). -/
structure BackflowJastrow (L R N : ℕ) (ι κ Cache : Type) where
  orbitals : List (Fin R → Fin N → ℂ)
  correction_fun : List (Correction L R N ι Cache)
  backflow_apply_symmetries : ι → ℕ → ℕ
  jastrow : Jastrow.Module L κ

/-- The sub-model of determinant `d`, with the arguments in the order of backflow_jastrow.py:45-53. -/
def subModel (defaultSym : ι → ℕ → ℕ) (sym : ι → ℕ → ℕ) (spin_symmetry fixed_mag : Bool) (orbital : Fin R → Fin N → ℂ)
    (correction : Correction L R N ι Cache) : Option (String → Option (Val L R N ι Cache)) :=
  PyCall.bind (fields defaultSym) [.hilbert, .array orbital, .module correction]
    [("apply_symmetries", .symmetries sym), ("spin_symmetry_by_structure", .flag spin_symmetry), ("fixed_magnetization", .flag fixed_mag),
     ("apply_fast_update", .flag true)]

/-- `BackflowJastrow.__call__` (backflow_jastrow.py:38-61): the assertion of line 40, the loop over the determinants, and the sum of
the logarithms.  `none`: an exception. -/
noncomputable def callBackflowJastrow [Fintype ι] {κ : Type} [Fintype κ] {n_up n_down : ℕ} (defaultSym : ι → ℕ → ℕ)
    (kind : CPDBackflow.Kind L R N n_up n_down) (spin_symmetry fixed_mag : Bool) (mod : BackflowJastrow L R N ι κ Cache) (x : Cfg L) : Option ℂ :=
  if mod.orbitals.length ≠ mod.correction_fun.length then none
  else do
    let dets ← (mod.orbitals.zip mod.correction_fun).mapM fun d => do
      let self ← subModel defaultSym mod.backflow_apply_symmetries spin_symmetry fixed_mag d.1 d.2
      evalFields kind self x
    return Jastrow.call mod.jastrow x + Complex.log dets.sum

end GPSKet.Backflow
