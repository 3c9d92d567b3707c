import Verif.Model.QGPS
import Verif.Model.Autoreg
import Verif.Model.AutoregFull

/-!
# Model of `ARqGPSModPhase` (`GPSKet/models/autoreg_qGPS.py`) and `ARqGPSModPhaseFull` (`GPSKet/models/autoreg_qGPS_full.py`)

An autoregressive model with real parameters for the modulus, and a second qGPS with real parameters for the phase.
`setup` asserts that the parameter type is a floating-point type (autoreg_qGPS.py:211, autoreg_qGPS_full.py:433), so both
sets of parameters are real numbers here.
-/

namespace GPSKet.ModPhase

open GPSKet.AR

variable {L D M : ℕ} {ι : Type}

/-- The two parts of a model.  `_conditional` and `conditionals`, which the direct sampler calls, are those of `modulus`:
the classes do not override them. -/
structure Model (L D M : ℕ) where
  modulus : Machine L D M
  phase : QGPS.Module L D L Unit

/-- `self._qgps` (autoreg_qGPS.py:217-219, autoreg_qGPS_full.py:435-437): `hilbert.size` support points, no symmetries,
the default `out_transformation`. -/
def phaseModule (epsilon : Fin D → Fin L → Fin L → ℝ) : QGPS.Module L D L Unit where
  epsilon d m i := (epsilon d m i : ℂ)
  syms := QGPS.noSyms
  out_transformation := QGPS.sumOut

/-- `ARqGPSModPhase.setup` (autoreg_qGPS.py:210-219). -/
def modPhase (f : Fields D M) (epsilon : Fin D → Fin M → Fin L → ℝ) (qgps : Fin D → Fin L → Fin L → ℝ) : Model L D M where
  modulus := arqGPS f fun d m i => (epsilon d m i : ℂ)
  phase := phaseModule qgps

/-- `ARqGPSModPhaseFull.setup` (autoreg_qGPS_full.py:432-437). -/
def modPhaseFull (f : Fields D M) (epsilon : Fin D → Fin M → ℕ → ℝ) (qgps : Fin D → Fin L → Fin L → ℝ) : Model L D M where
  modulus := ARFull.arqGPSFull f fun d m i => (epsilon d m i : ℂ)
  phase := phaseModule qgps

/-- `__call__` (autoreg_qGPS.py:221-224, autoreg_qGPS_full.py:439-442): `log_psi_mod + log_psi_phase * 1j`. -/
noncomputable def Model.logPsi [Fintype ι] (mp : Model L D M) (syms : ι → (Fin L → Fin D) → Fin L → Fin D)
    (x : Fin L → Fin D) : LogAmp :=
  let log_psi_phase := (QGPS.model mp.phase).full x
  (mp.modulus.logPsi syms x).map fun log_psi_mod => log_psi_mod + log_psi_phase * Complex.I

/-! ## Which calls the classes accept -/

/-- The autoregressive qGPS classes. -/
inductive Class
  | arqGPS | arqGPSModPhase | arqGPSFull | arqGPSModPhaseFull
  deriving DecidableEq

/-- The keyword arguments of `__call__` besides `inputs` (autoreg_qGPS.py:170,221; autoreg_qGPS_full.py:142-144,439). -/
def Class.keywords : Class → List String
  | .arqGPS => []
  | .arqGPSModPhase => []
  | .arqGPSFull => ["cache_intermediates", "update_sites"]
  | .arqGPSModPhaseFull => []

/-- The value of the attribute `apply_fast_update`; the classes of autoreg_qGPS.py have no such field
(autoreg_qGPS.py:90-115), those of autoreg_qGPS_full.py do (autoreg_qGPS_full.py:55). -/
def Class.applyFastUpdate (cls : Class) (field : Bool) : Option Bool :=
  match cls with
  | .arqGPS => none
  | .arqGPSModPhase => none
  | .arqGPSFull => some field
  | .arqGPSModPhaseFull => some field

/-- The default of the field (autoreg_qGPS_full.py:55). -/
def applyFastUpdateDefault : Bool := true

/-- Calling the model with keyword arguments; an unknown keyword raises `TypeError`. -/
def Class.call {V : Type} (cls : Class) (kwargs : List String) (value : V) : Except String V :=
  if kwargs.all fun k => cls.keywords.contains k then .ok value else .error "TypeError"

/-- `use_fast_update` in `get_local_kernel` (hubbard.py:217-220, J1J2.py:141-144, ab_initio.py:974-977,
ab_initio_sparse.py:446-449): a missing attribute counts as `False`. -/
def useFastUpdate (cls : Class) (field : Bool) : Bool := (cls.applyFastUpdate field).getD false

/-- The evaluation of the amplitude of a sample that precedes every local energy (hubbard.py:119-128, J1J2.py:81-90,
ab_initio.py:377-386, ab_initio_sparse.py:118-127). -/
def localEnergyLogAmp {V : Type} (cls : Class) (field : Bool) (value : V) : Except String V :=
  if useFastUpdate cls field then cls.call ["cache_intermediates"] value else cls.call [] value

/-- The first evaluation of the fast Metropolis sampler (metropolis_fast.py:18-24,81-83): `assert fast_update`, then a
call with `cache_intermediates=True`. -/
def fastSamplerLogAmp {V : Type} (cls : Class) (field : Bool) (value : V) : Except String V :=
  if useFastUpdate cls field then cls.call ["cache_intermediates"] value else .error "AssertionError"

end GPSKet.ModPhase
