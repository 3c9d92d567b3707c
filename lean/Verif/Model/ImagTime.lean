import Mathlib.Data.Complex.BigOperators
import Mathlib.Data.Fintype.BigOperators

/-!
# Model of `GPSKet/supervised/imag_time_step.py`

Wave functions are represented by their amplitudes (sums of logarithms are products); `none` stands for an exception or NaN.  The
Hamiltonian enters through its local estimator `Σ_x' H(x, x') ψ(x') / ψ(x)`.
-/

namespace GPSKet.ImagTime

variable {X P : Type} [Fintype X]

/-- The local estimator of the Hamiltonian with matrix elements `H` for the amplitudes `psi`. -/
noncomputable def localEnergy (H : X → X → ℂ) (psi : X → ℂ) (x : X) : ℂ := ∑ x', H x x' * (psi x' / psi x)

/-- `jnp.log(z)`, as a factor: if the model and the Hamiltonian are real, then `z` is a real array and the logarithm of a negative entry is
NaN. -/
noncomputable def logArg (real : Bool) (z : ℂ) : Option ℂ := if real && decide (z.re < 0) then none else some z

/-! ## `ImagTimeStep` -/

/-- The part of a variational state that `ImagTimeStep` touches. -/
structure VState (X : Type) where
  samples : Option (List X)

/-- `vstate.local_estimators(hamiltonian)`: the local energies at the state's samples; `fails` models an evaluation that raises
(out of memory, an operator without kernel, ...). -/
noncomputable def localEstimators (H : X → X → ℂ) (psi : X → ℂ) (fails : Bool) (v : VState X) : Option (List ℂ) :=
  if fails then none else v.samples.map fun s => s.map (localEnergy H psi)

/-- `ImagTimeStep.get_local_energies` (imag_time_step.py:21-29). -/
noncomputable def getLocalEnergies (H : X → X → ℂ) (psi : X → ℂ) (fails : Bool) (v : VState X) (samples : List X) :
    VState X × Option (List ℂ) :=
  let old_samples := v.samples
  let v1 : VState X := { v with samples := some samples }
  match localEstimators H psi fails v1 with
  | none => (v1, none)
  | some loc_ens => ({ v1 with samples := old_samples }, some loc_ens)

/-- `ImagTimeStep.log_imag_time_step` (imag_time_step.py:31-35), as amplitudes; entries that are NaN are `none`.  `real`: the local
energies are a real array. -/
noncomputable def imagTimeStep (real : Bool) (H : X → X → ℂ) (psi : X → ℂ) (fails : Bool) (tau : ℂ) (v : VState X) (samples : List X) :
    VState X × Option (List (Option ℂ)) :=
  let amps := samples.map psi
  let r := getLocalEnergies H psi fails v samples
  (r.1, r.2.map fun loc => List.zipWith (fun a e => (logArg real (1 - tau * e)).map fun f => a * f) amps loc)

/-! ## `get_imag_time_step_vstate` -/

/-- The dictionary of variables: the parameters, and the entry `tau` of the model state, if present. -/
structure Vars (P : Type) where
  params : P
  tau : Option ℝ

/-- `vstate._apply_fun` and its variables. -/
structure State (X P : Type) where
  applyFun : Vars P → X → Option ℂ
  vars : Vars P

/-- `local_estimator_fun(log_model, pars, samps, args)` when the model can raise: it evaluates the model on all configurations
connected to the sample. -/
noncomputable def localEnergyM (H : X → X → ℂ) (f : X → Option ℂ) (x : X) : Option ℂ :=
  if ∀ x', (f x').isSome then some (localEnergy H (fun x' => (f x').getD 0) x) else none

/-- `jnp.log(tau)` for a real `tau`, as a factor: NaN unless `tau` is positive (for `tau = 0` it is `-inf`, which is added to `+inf`). -/
noncomputable def logFactor (tau : ℝ) : Option ℂ := if 0 < tau then some (tau : ℂ) else none

/-- `imag_time_model_log_amp` (imag_time_step.py:62-67), as an amplitude; `pop("tau")` raises `KeyError` if there is no such entry.
`real`: the local energies are a real array. -/
noncomputable def imagTimeModel (real : Bool) (H : X → X → ℂ) (log_model : Vars P → X → Option ℂ) (model_pars : Vars P) (x : X) : Option ℂ :=
  match model_pars.tau with
  | none => none
  | some tau =>
    let pars : Vars P := { model_pars with tau := none }
    match localEnergyM H (log_model pars) x, log_model pars x, logFactor tau with
    | some loc_en, some amp, some t => (logArg real (1 / (tau : ℂ) - 1 * loc_en)).map fun f => amp * f * t
    | _, _, _ => none

/-- `get_imag_time_step_vstate` (imag_time_step.py:38-73).  The new model state is `{"tau": tau, **model_state}`: an entry `tau` of the
given state's model state takes precedence over the new one. -/
noncomputable def imagTimeVState (real : Bool) (tau : ℝ) (H : X → X → ℂ) (vstate : State X P) : State X P where
  applyFun := imagTimeModel real H vstate.applyFun
  vars := { vstate.vars with tau := vstate.vars.tau.or (some tau) }

/-- The amplitude of a state. -/
def State.amp (s : State X P) (x : X) : Option ℂ := s.applyFun s.vars x

end GPSKet.ImagTime
