import Verif.Model.ZeroEnergy
import Verif.Model.ZeroSampler
import Verif.Model.AbInitioRun
import Mathlib.Data.Matrix.Basic

/-!
# One step of the optimisation in H2O.py, in floating-point numbers that can be infinite or NaN

`scripts/GPS_for_ab_initio/H2O.py` lines 123, 290-299 and 335-371: `MetropolisHopping`, `MCState`, and NetKet's `VMC` with `SR` (dense holomorphic geometric tensor, `diag_shift=0.01`)
and `Sgd(learning_rate=0.05)`.  NetKet is not part of the repository: its estimators are written down as its documentation defines them, the solver of the linear equations
is an argument.  One process with one chain (`n_chains_per_rank=1`).  Rounding is not modelled.
-/

namespace GPSKet.FrozenRun
open Floats Floats.F ZeroEnergy

variable {X κ : Type} {L p : ℕ}

/-- The mean over samples, `.mean()` (H2O.py:335-336, `gs.energy.mean`). -/
noncomputable def mean (l : List FC) : FC := l.sum * FC.ofC (1 / (l.length : ℂ))

/-- `|v|²` (H2O.py:338, part of `gs.energy.variance`). -/
noncomputable def absSq (v : FC) : F := v.re * v.re + v.im * v.im

/-- `gs.energy.variance` (H2O.py:338-342). -/
noncomputable def variance (l : List FC) : F := (l.map fun v => absSq (v + -mean l)).sum * fin (1 / (l.length : ℝ))

/-- Complex conjugation. -/
noncomputable def conj (v : FC) : FC := ⟨v.re, -v.im⟩

/-- The gradient of the energy with respect to the conjugated parameters, `gs._forward_and_backward()` before preconditioning (H2O.py:335): the samples `xs`, their local energies `en`
and the derivatives `O` of the log-amplitudes. -/
noncomputable def forces (O : X → Fin p → FC) (en : X → FC) (xs : List X) (k : Fin p) : FC :=
  mean (xs.map fun x => conj (O x k) * (en x + -mean (xs.map en)))

/-- `QGTJacobianDense(holomorphic=True)` with `diag_shift=0.01` (H2O.py:296-297). -/
noncomputable def metric (O : X → Fin p → FC) (xs : List X) : Matrix (Fin p) (Fin p) FC := Matrix.of fun k l =>
  mean (xs.map fun x => conj (O x k + -mean (xs.map fun y => O y k)) * (O x l + -mean (xs.map fun y => O y l)))
    + if k = l then FC.ofC (1 / 100) else FC.ofC 0

/-- What a step depends on: local energies and derivatives for given parameters, the solver of `SR` and `nuc_en` (H2O.py:114, 120, 297). -/
structure Problem (X : Type) (p : ℕ) where
  energy : (Fin p → ℂ) → X → FC
  deriv : (Fin p → ℂ) → X → Fin p → FC
  solver : Matrix (Fin p) (Fin p) FC → (Fin p → FC) → Fin p → FC
  nuc_en : ℝ

/-- `dp = gs._forward_and_backward()` (H2O.py:335). -/
noncomputable def update (P : Problem X p) (θ : Fin p → ℂ) (xs : List X) : Fin p → FC :=
  P.solver (metric (P.deriv θ) xs) (forces (P.deriv θ) (P.energy θ) xs)

/-- `gs.update_parameters(dp)` with `Sgd(learning_rate=0.05)` (H2O.py:295, 350). -/
noncomputable def advance (P : Problem X p) (θ : Fin p → ℂ) (xs : List X) : Fin p → FC :=
  fun k => FC.ofC (θ k) + FC.ofC (-(5 / 100)) * update P θ xs k

/-- `en = gs.energy.mean + nuc_en` (H2O.py:336). -/
noncomputable def rowEnergy (P : Problem X p) (θ : Fin p → ℂ) (xs : List X) : FC := mean (xs.map (P.energy θ)) + FC.ofC (P.nuc_en : ℂ)

/-- `gs.energy.variance` (H2O.py:338). -/
noncomputable def rowVariance (P : Problem X p) (θ : Fin p → ℂ) (xs : List X) : F := variance (xs.map (P.energy θ))

/-- The number a float stands for (zero for infinities and NaN, for which this is not used). -/
def value : F → ℝ
  | fin x => x
  | _ => 0

/-- The same for complex numbers. -/
def valueC (v : FC) : ℂ := ⟨value v.re, value v.im⟩

/-- What a pass through the loop computes from the samples (H2O.py:335-371).  The state of the sampler is the configuration of the chain and the random key; the chain goes on at the
last sample. -/
noncomputable def evaluation (P : Problem X p) (θ : Fin p → ℂ) (xs : List X) (last : X) (key : κ) : AbInitioRun.Eval (Fin p → ℂ) (X × κ) ℝ ℂ Unit where
  var := value (rowVariance P θ xs)
  stats := valueC (rowEnergy P θ xs)
  rdm := ()
  next := fun k => valueC (advance P θ xs k)
  sampler := (last, key)

/-- The samples `xs` can be drawn by a chain that is at `x` (H2O.py:123, 290-292): `discard` samples are thrown away, the others are kept, and between samples there are
`sweep` iterations with matrix of probabilities `step`. -/
def Drawn [Fintype X] [DecidableEq X] (step : Matrix X X ℝ) (sweep discard : ℕ) (x : X) (xs : List X) : Prop :=
  ∃ ys : List X, ys.length = discard ∧ List.IsChain (fun a b => 0 < (step ^ sweep) a b) (x :: (ys ++ xs))

/-- `u` is what the loop of H2O.py:332-371 computes: in every pass `n_samples` samples are drawn with the chain `step θ` of the current parameters. -/
def Evaluates [Fintype X] [DecidableEq X] (P : Problem X p) (step : (Fin p → ℂ) → Matrix X X ℝ) (sweep discard n_samples : ℕ)
    (u : (Fin p → ℂ) → X × κ → AbInitioRun.Eval (Fin p → ℂ) (X × κ) ℝ ℂ Unit) : Prop :=
  ∀ θ s, ∃ (xs : List X) (last : X) (key : κ), xs.length = n_samples ∧ Drawn (step θ) sweep discard s.1 xs ∧ xs.getLast? = some last ∧
    u θ s = evaluation P θ xs last key

end GPSKet.FrozenRun
