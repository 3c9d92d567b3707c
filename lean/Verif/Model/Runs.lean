import Verif.Model.MinSR
import Verif.Model.RMSProp

/-!
# Model of whole optimisations with complex parameters

The drivers return an update (minSR.py:48-233, VMC_SRRMSProp.py:167-234); NetKet's `AbstractVariationalDriver` passes it to an optimiser of
optax.  Neither is part of the repository; for `Sgd`, which the scripts and tutorials use, the parameters lose the learning rate times the
update.
-/

namespace GPSKet.Runs

variable {P : ℕ} {S C : Type}

/-- What a driver computes from the log-derivatives and local energies of its samples. -/
abbrev Rule (S : Type) (P : ℕ) := (S → Fin P → ℂ) → (S → ℂ) → Fin P → ℂ

/-- The parameters after some steps with `Sgd`.  In step `n` the samples are `samples n θ` (they may depend on the parameters and on all
randomness) and the learning rate is `lr n`; `dlog` and `eloc` give the log-derivatives and the local energy at a configuration. -/
noncomputable def run (rule : ℕ → Rule S P) (dlog : (Fin P → ℂ) → C → Fin P → ℂ) (eloc : (Fin P → ℂ) → C → ℂ)
    (samples : ℕ → (Fin P → ℂ) → S → C) (lr : ℕ → ℝ) (θ : Fin P → ℂ) : ℕ → Fin P → ℂ
  | 0 => θ
  | n + 1 =>
    let θ' := run rule dlog eloc samples lr θ n
    fun k => θ' k - (lr n : ℂ) * rule n (fun s => dlog θ' (samples n θ' s)) (fun s => eloc θ' (samples n θ' s)) k

/-- `minSRVMC` with mode `holomorphic` (minSR.py:89-211). -/
noncomputable def minSRHolomorphic {R K B : ℕ} (solver : Matrix (Fin (K * R * B)) (Fin (K * R * B)) ℂ → (Fin (K * R * B) → ℂ) →
    (Fin (K * R * B) → ℂ)) : Rule (MinSR.Sample R K B) P := fun O E => MinSR.update true solver O E MinSR.uniformCounts

/-- `minSRVMC` with mode `complex`, the default, for holomorphic amplitudes: the derivatives with respect to imaginary parts are `1j` times
those with respect to real parts (minSR.py:89-221). -/
noncomputable def minSRComplex {R K B : ℕ} (solver : Matrix (Fin (K * R * B)) (Fin (K * R * B)) ℂ → (Fin (K * R * B) → ℂ) →
    (Fin (K * R * B) → ℂ)) : Rule (MinSR.Sample R K B) P :=
  fun O E => MinSR.reassemble (MinSR.update true solver (MinSR.splitRows O fun s k => Complex.I * O s k) E MinSR.uniformCounts)

/-- The rows of a Jacobian of complex parameters in mode `complex` of `VMC_SRRMSProp` for holomorphic amplitudes (VMC_SRRMSProp.py:30-40): real
and imaginary part of the derivatives with respect to all real parts, followed by those with respect to all imaginary parts. -/
def realRows {N : ℕ} (O : Fin N → Fin P → ℂ) : Fin N → Fin 2 → Fin (P + P) → ℝ := fun s c =>
  Fin.addCases (fun k => if c = 0 then (O s k).re else (O s k).im) (fun k => if c = 0 then (Complex.I * O s k).re else (Complex.I * O s k).im)

/-- `VMC_SRRMSProp` with complex parameters on one rank (VMC_SRRMSProp.py:19-76); `ema` is the moving average before the step. -/
noncomputable def srRMSProp {N : ℕ} (ema : Fin (P + P) → ℝ) (step : ℕ) (shift decay eps : ℝ)
    (solver : Matrix (Fin (P + P)) (Fin (P + P)) ℝ → (Fin (P + P) → ℝ) → (Fin (P + P) → ℝ)) : Rule (Fin N) P := fun O E k =>
  let eMean := (∑ s, E s) / (N : ℂ)
  ((RMSProp.repack (RMSProp.rootSolve (RMSProp.denseRows (realRows O)) (RMSProp.denseEnergies E eMean) ema step shift decay eps solver).1)[k.val]?).getD 0

end GPSKet.Runs
