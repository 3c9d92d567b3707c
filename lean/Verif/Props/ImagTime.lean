import Verif.Model.ImagTime
import Mathlib.Tactic.Ring
import Mathlib.Tactic.FieldSimp
import Mathlib.Tactic.Linarith

/-!
# Properties C52 and C66: imaginary-time steps
-/

namespace GPSKet.ImagTime

variable {X P : Type} [Fintype X]

/-- Specification: the amplitude of `(1 - τ H) ψ` at `x`. -/
noncomputable def stepped (tau : ℂ) (H : X → X → ℂ) (psi : X → ℂ) (x : X) : ℂ := psi x - tau * ∑ x', H x x' * psi x'

theorem mul_localEnergy (H : X → X → ℂ) (psi : X → ℂ) (x : X) (h : psi x ≠ 0) : psi x * localEnergy H psi x = ∑ x', H x x' * psi x' := by
  unfold localEnergy
  rw [Finset.mul_sum]
  apply Finset.sum_congr rfl
  intro x' _
  field_simp

/-- The factor whose logarithm is taken is `1 - τ E_loc`; a real array of such factors must not have negative entries. -/
def LogDefined (real : Bool) (tau : ℂ) (H : X → X → ℂ) (psi : X → ℂ) (x : X) : Prop := real = true → 0 ≤ (stepped tau H psi x / psi x).re

theorem factor_eq (tau : ℂ) (H : X → X → ℂ) (psi : X → ℂ) (x : X) (h : psi x ≠ 0) : 1 - tau * localEnergy H psi x = stepped tau H psi x / psi x := by
  unfold stepped
  rw [← mul_localEnergy H psi x h]
  field_simp

theorem logArg_of {real : Bool} {tau : ℂ} {H : X → X → ℂ} {psi : X → ℂ} {x : X} (h : psi x ≠ 0) (hd : LogDefined real tau H psi x) :
    logArg real (1 - tau * localEnergy H psi x) = some (1 - tau * localEnergy H psi x) := by
  rw [factor_eq tau H psi x h]
  unfold logArg
  rw [if_neg]
  cases real with
  | false => simp
  | true => simpa using hd rfl

/-- **C52**, `ImagTimeStep`: for every wave function, Hamiltonian and step, the returned values are the amplitudes of `(1 - τ H) ψ` at
the given samples (where `ψ` does not vanish; if everything is real: where `ψ` does not change sign), and the samples of the state are as
before. -/
theorem C52_imag_time_step (real : Bool) (H : X → X → ℂ) (psi : X → ℂ) (tau : ℂ) (v : VState X) (samples : List X) (h : ∀ x ∈ samples, psi x ≠ 0)
    (hd : ∀ x ∈ samples, LogDefined real tau H psi x) :
    imagTimeStep real H psi false tau v samples = (v, some (samples.map fun x => some (stepped tau H psi x))) := by
  unfold imagTimeStep getLocalEnergies localEstimators
  simp only [Bool.false_eq_true, if_false, Option.map_some, List.zipWith_map]
  congr 2
  rw [List.zipWith_self]
  apply List.map_congr_left
  intro x hx
  rw [logArg_of (h x hx) (hd x hx), factor_eq tau H psi x (h x hx), Option.map_some]
  have := h x hx
  congr 1
  field_simp

/-- What is missing from **C52**: with a real model and a real Hamiltonian, the value is NaN wherever the step changes the sign of the
amplitude. -/
theorem C52_real_fails (H : X → X → ℂ) (psi : X → ℂ) (tau : ℂ) (v : VState X) (samples : List X) (h : ∀ x ∈ samples, psi x ≠ 0)
    (hneg : ∀ x ∈ samples, (stepped tau H psi x / psi x).re < 0) :
    (imagTimeStep true H psi false tau v samples).2 = some (samples.map fun _ => none) := by
  unfold imagTimeStep getLocalEnergies localEstimators
  simp only [Bool.false_eq_true, if_false, Option.map_some, List.zipWith_map]
  congr 1
  rw [List.zipWith_self]
  apply List.map_congr_left
  intro x hx
  rw [factor_eq tau H psi x (h x hx)]
  unfold logArg
  rw [if_pos (by simpa using hneg x hx)]
  rfl

/-- What is missing from **C52**: if the evaluation of the local energies raises, the state is left with the samples of the request. -/
theorem C52_exception_fails (real : Bool) (H : X → X → ℂ) (psi : X → ℂ) (tau : ℂ) (v : VState X) (samples : List X) (hv : v.samples ≠ some samples) :
    (imagTimeStep real H psi true tau v samples).1 ≠ v := by
  unfold imagTimeStep getLocalEnergies localEstimators
  simp only [if_true]
  intro h
  apply hv
  rw [← h]

theorem scaled_factor (tau : ℝ) (htau : 0 < tau) (real : Bool) (H : X → X → ℂ) (psi : X → ℂ) (x : X) :
    logArg real (1 / (tau : ℂ) - 1 * localEnergy H psi x) =
      (logArg real (1 - (tau : ℂ) * localEnergy H psi x)).map fun f => f / (tau : ℂ) := by
  have ht : (tau : ℂ) ≠ 0 := by exact_mod_cast htau.ne'
  have e : 1 / (tau : ℂ) - 1 * localEnergy H psi x = (1 - (tau : ℂ) * localEnergy H psi x) / (tau : ℂ) := by field_simp
  have hs : ∀ z : ℂ, ((z / (tau : ℂ)).re < 0) = (z.re < 0) := by
    intro z
    rw [Complex.div_ofReal_re, div_lt_iff₀ htau, zero_mul]
  rw [e]
  unfold logArg
  simp only [hs]
  split_ifs <;> rfl

theorem vstate_value (real : Bool) (H : X → X → ℂ) (tau : ℝ) (htau : 0 < tau) (s : State X P) (hs : s.vars.tau = none) (psi : X → ℂ)
    (hpsi : ∀ x, s.amp x = some (psi x)) (x : X) (hx : psi x ≠ 0) :
    (imagTimeVState real tau H s).amp x = (logArg real (1 - (tau : ℂ) * localEnergy H psi x)).map fun _ => stepped tau H psi x := by
  have hv : ({ s.vars with tau := none } : Vars P) = s.vars := by rw [← hs]
  have hf : s.applyFun s.vars = fun x => some (psi x) := by
    funext y; exact hpsi y
  unfold State.amp imagTimeVState imagTimeModel
  simp only [hs, Option.none_or]
  rw [hv, hf]
  unfold localEnergyM logFactor
  simp only [Option.isSome_some, implies_true, if_true, Option.getD_some, if_pos htau]
  have ht : (tau : ℂ) ≠ 0 := by exact_mod_cast htau.ne'
  rw [scaled_factor tau htau real H psi x]
  unfold logArg
  split_ifs
  · rfl
  · simp only [Option.map_some]
    rw [factor_eq _ H psi x hx]
    congr 1
    field_simp

/-- **C52**, `get_imag_time_step_vstate`: for a positive time step the new state has the amplitudes of `(1 - τ H) ψ`, at every configuration
where `ψ` does not vanish (and, if everything is real, does not change its sign). -/
theorem C52_vstate_partial (real : Bool) (H : X → X → ℂ) (tau : ℝ) (htau : 0 < tau) (s : State X P) (hs : s.vars.tau = none) (psi : X → ℂ)
    (hpsi : ∀ x, s.amp x = some (psi x)) (x : X) (hx : psi x ≠ 0) (hd : LogDefined real tau H psi x) :
    (imagTimeVState real tau H s).amp x = some (stepped tau H psi x) := by
  rw [vstate_value real H tau htau s hs psi hpsi x hx, logArg_of hx hd, Option.map_some]

/-- **C52**: whenever the new state returns a number, it is the amplitude of `(1 - τ H) ψ`. -/
theorem C52_vstate_value (real : Bool) (H : X → X → ℂ) (tau : ℝ) (s : State X P) (hs : s.vars.tau = none) (psi : X → ℂ)
    (hpsi : ∀ x, s.amp x = some (psi x)) (x : X) (hx : psi x ≠ 0) (v : ℂ) (h : (imagTimeVState real tau H s).amp x = some v) :
    v = stepped tau H psi x := by
  by_cases htau : 0 < tau
  · rw [vstate_value real H tau htau s hs psi hpsi x hx] at h
    simp only [Option.map_eq_some_iff] at h
    obtain ⟨_, _, h⟩ := h
    exact h.symm
  · exfalso
    revert h
    unfold State.amp imagTimeVState imagTimeModel
    simp only [hs, Option.none_or]
    have : logFactor tau = none := if_neg htau
    rw [this]
    rcases localEnergyM H (s.applyFun { s.vars with tau := none }) x <;> rcases s.applyFun { s.vars with tau := none } x <;> simp

/-- What is missing: for a negative (or zero) time step every amplitude is NaN, since `log(tau)` is taken of a real number. -/
theorem C52_vstate_fails (real : Bool) (H : X → X → ℂ) (tau : ℝ) (htau : tau ≤ 0) (s : State X P) (hs : s.vars.tau = none) (x : X) :
    (imagTimeVState real tau H s).amp x = none := by
  unfold State.amp imagTimeVState imagTimeModel
  simp only [hs, Option.none_or]
  have : logFactor tau = none := if_neg (not_lt.mpr htau)
  rw [this]
  rcases localEnergyM H (s.applyFun { s.vars with tau := none }) x <;> rcases s.applyFun { s.vars with tau := none } x <;> rfl

/-- **C66** is false: the documentation promises that imaginary-time states can be nested arbitrarily often, but a state obtained from an
imaginary-time state cannot be evaluated anywhere: the outer model removes the entry `tau` that the inner one needs. -/
theorem C66_nesting_fails (real real' : Bool) (H H' : X → X → ℂ) (tau tau' : ℝ) (s : State X P) (x : X) :
    (imagTimeVState real' tau' H' (imagTimeVState real tau H s)).amp x = none := by
  unfold State.amp imagTimeVState
  simp only
  conv_lhs => unfold imagTimeModel
  rcases h : (s.vars.tau.or (some tau)).or (some tau') with _ | t
  · rfl
  · dsimp only
    rcases localEnergyM H' (fun _ => none) x <;> rfl

/-- and even the time step stored in a nested state is the old one -/
theorem C66_tau_fails (real real' : Bool) (H H' : X → X → ℂ) (tau tau' : ℝ) (s : State X P) (hs : s.vars.tau = none) :
    (imagTimeVState real' tau' H' (imagTimeVState real tau H s)).vars.tau = some tau := by
  unfold imagTimeVState
  simp [hs]

/-- two configurations, `H` exchanges them -/
example : (imagTimeVState true (1 / 2) (fun x y : Bool => if x = y then 0 else 1) (⟨fun _ x => some (if x then 1 else 2), ⟨(), none⟩⟩ : State Bool Unit)).amp true =
    some 0 := by
  rw [C52_vstate_partial _ _ _ (by norm_num) _ rfl (fun x => if x then 1 else 2) (fun x => rfl) _ (by simp) (by intro _; simp [stepped])]
  simp [stepped]

end GPSKet.ImagTime
