import Verif.Model.Slater
import Verif.Model.QGPS
import Verif.Model.Jastrow
import Verif.Model.PyCall
import Mathlib.Analysis.SpecialFunctions.Trigonometric.Basic
import Mathlib.Analysis.SpecialFunctions.Complex.Log

/-!
# Model of the composite models

`GPSKet/models/slater_qGPS.py`, `slater_jastrow.py`, `asymm_qGPS.py`, and the calls made by the fast sampler and the on-the-fly
kernels (`sampler/metropolis_fast.py`, `operator/hamiltonian/*.py`).
-/

namespace GPSKet.Composite

variable {L nu nd M T : ℕ} {κ ι τ : Type}

/-- The sum of two sub-models that are handed the same arguments; flax stores their caches side by side. -/
noncomputable def addModels {S A C D : Type} (a : Spec.CachedModel S A C) (b : Spec.CachedModel S A D) :
    Spec.CachedModel S A (C × D) where
  full x := a.full x + b.full x
  cacheOf x := (a.cacheOf x, b.cacheOf x)
  fast c upd := a.fast c.1 upd + b.fast c.2 upd
  fastCache c upd := (a.fastCache c.1 upd, b.fastCache c.2 upd)

/-- `SlaterqGPS.__call__` (slater_qGPS.py:45-66). -/
noncomputable def slaterqGPS (slater : Slater.Module L nu nd M κ ι) {Mq : ℕ} (qgps : QGPS.Module L 4 Mq τ) :
    Spec.CachedModel (Fin L) (Fin 4) (Slater.Cache L nu nd M κ ι × QGPS.Cache L 4 Mq τ) :=
  addModels (Slater.model slater) (QGPS.model qgps)

/-- `SlaterJastrow.__call__` (slater_jastrow.py:43-62). -/
noncomputable def slaterJastrow [Fintype τ] (slater : Slater.Module L nu nd M κ ι) (jastrow : Jastrow.Module L τ) (x : Cfg L) : ℂ :=
  (Slater.model slater).full x + Jastrow.call jastrow x

/-! ## Antisymmetric qGPS -/

/-- `jnp.asarray(self.coeffs) * jnp.exp(y)` (asymm_qGPS.py:59,68) for coefficients of shape `(M,)` and an array of shape
`(B, M, 1, T)`: broadcasting aligns the *last* axes, so the coefficients meet the axis of the symmetry operations.  The size of the
last axis of the result and the result, or `none` if the shapes are incompatible. -/
def mulCoeffs (coeffs : Fin M → ℂ) (y : Fin M → Fin T → ℂ) : Option (Σ D, Fin M → Fin D → ℂ) :=
  if h : M = T then some ⟨T, fun m t => coeffs (Fin.cast h.symm t) * y m t⟩
  else if h : M = 1 then some ⟨T, fun m t => coeffs ⟨0, by omega⟩ * y m t⟩
  else if h : T = 1 then some ⟨M, fun m k => coeffs k * y m ⟨0, by omega⟩⟩
  else none

/-- The field `symmetrization` (asymm_qGPS.py:40). -/
inductive Symmetrization
  | kernel
  | projective

/-- `out_transformation` of `ASymmqGPS` without the final logarithm (asymm_qGPS.py:56-72). -/
noncomputable def asymmAmp (symmetrization : Symmetrization) (coeffs : Fin M → ℂ) (dets : Fin M → Fin T → ℂ) : Option ℂ :=
  match symmetrization with
  | .kernel => (mulCoeffs coeffs dets).map fun y => Complex.sinh (∑ t, ∑ m, y.2 m t)
  | .projective => (mulCoeffs coeffs dets).map fun y => ∑ t, Complex.sinh (∑ m, y.2 m t)

/-- `out_transformation` of `ASymmqGPSProd` without the final logarithm (asymm_qGPS.py:118-123). -/
noncomputable def asymmProdAmp (dets : Fin M → Fin T → ℂ) : ℂ := ∑ t, ∏ m, Complex.sinh (dets m t)

/-- The Slater module the two models construct (asymm_qGPS.py:74-84, 125-135): fixed magnetization, no spin rotations. -/
noncomputable def asymmSlater (U_up : Fin M → Fin L → Fin nu → ℂ) (U_dn : Fin M → Fin L → Fin nd → ℂ) (symmetries : Fin T → Fin L → Fin L)
    (out : (Fin M → Fin T → ℂ) → ℂ) : Slater.Module L nu nd M Unit (Fin T) where
  orbs := .fixedMag U_up U_dn
  symmetries := symmetries
  chars _ := 1
  constant_time_updates := true
  out_transformation a := out fun m t => a m () t

/-- The amplitude of `ASymmqGPS.__call__` (asymm_qGPS.py:49-84), whose logarithm is returned; `none` is an exception. -/
noncomputable def asymm (symmetrization : Symmetrization) (coeffs : Fin M → ℂ) (U_up : Fin M → Fin L → Fin nu → ℂ)
    (U_dn : Fin M → Fin L → Fin nd → ℂ) (symmetries : Fin T → Fin L → Fin L) (x : Cfg L) : Option ℂ :=
  asymmAmp symmetrization coeffs fun m t => Slater.detValues (asymmSlater U_up U_dn symmetries fun _ => 0) x m () t

/-- The amplitude of `ASymmqGPSProd.__call__` (asymm_qGPS.py:109-135); `none` is the assertion of line 110. -/
noncomputable def asymmProd (U_up : Fin M → Fin L → Fin nu → ℂ) (U_dn : Fin M → Fin L → Fin nd → ℂ)
    (symmetries : Fin T → Fin L → Fin L) (x : Cfg L) : Option ℂ :=
  if M % 2 ≠ 0 then some (asymmProdAmp fun m t => Slater.detValues (asymmSlater U_up U_dn symmetries fun _ => 0) x m () t) else none

/-! ## Call signatures -/

/-- The models that have a field `apply_fast_update` with default `True`: qGPS.py:120, slater.py:86, slater_qGPS.py:38,
backflow.py:26, cpd_backflow.py:103, slater_jastrow.py:36, asymm_qGPS.py:46,106, backflow_jastrow.py:31. -/
inductive FastModelName
  | qGPS | slater | slaterqGPS | backflow | cpdBackflow | slaterJastrow | asymmqGPS | asymmqGPSProd | backflowJastrow
  deriving DecidableEq

/-- The parameters of `__call__` (without `self`): qGPS.py:142, slater.py:116, slater_qGPS.py:46, backflow.py:34,
cpd_backflow.py:139, slater_jastrow.py:44, asymm_qGPS.py:50,113, backflow_jastrow.py:39. -/
def callParams {V : Type} (false_ none_ : V) : FastModelName → List (PyCall.Param V)
  | .qGPS => [("inputs", none), ("cache_intermediates", some false_), ("update_sites", some none_)]
  | .slater | .slaterqGPS | .backflow => [("x", none), ("cache_intermediates", some false_), ("update_sites", some none_)]
  | .cpdBackflow => [("n", none), ("cache_intermediates", some false_), ("update_sites", some none_)]
  | .slaterJastrow | .asymmqGPS | .asymmqGPSProd | .backflowJastrow => [("x", none)]

/-- The first evaluation by a caller that sees `apply_fast_update` (metropolis_fast.py:81-83, hubbard.py:119-126, J1J2.py:81-88,
ab_initio.py:377-384, ab_initio_sparse.py:118-125): the keyword `mutable` is consumed by `apply`. -/
def firstCall {V : Type} (false_ none_ : V) (m : FastModelName) (σ true_ : V) : Option (String → Option V) :=
  PyCall.bind (callParams false_ none_ m) [σ] [("cache_intermediates", true_)]

/-- A later evaluation of an update (metropolis_fast.py:44-51, hubbard.py:135-141, and alike). -/
def updateCall {V : Type} (false_ none_ : V) (m : FastModelName) (occ flag sites : V) : Option (String → Option V) :=
  PyCall.bind (callParams false_ none_ m) [occ] [("cache_intermediates", flag), ("update_sites", sites)]

end GPSKet.Composite
