import Mathlib.Analysis.SpecialFunctions.Exp
import Mathlib.Analysis.Complex.Basic

/-!
# Model of `QGPSGenLinMod` and of `fit_step_growing_RVM` in `GPSKet/supervised/supervised_qgps.py`

One process, exact arithmetic, `precomputed_features` off.
-/

namespace GPSKet.GenLin

variable {𝕜 : Type} [Field 𝕜] {n : Type}

/-- The weight vector that `setup_fit_alpha_dep` works on: `self.weights` itself, or another array. -/
structure Local (𝕜 n : Type) where
  value : n → 𝕜
  /-- the array is `self.weights` -/
  isSelf : Bool

/-- The options of one call of `setup_fit_alpha_dep`. -/
structure Options (𝕜 n : Type) where
  /-- the assignments `weights[self.active_elements] = ...` of `log_fit_init` and of the reweighted least-squares steps
  (supervised_qgps.py:1390-1394, 1432-1439), which write into the array -/
  adjust : (n → 𝕜) → (n → 𝕜)
  /-- `minimize_fun`, if given (supervised_qgps.py:1488-1490); its result is a new array -/
  minimise : Option ((n → 𝕜) → (n → 𝕜))

/-- `QGPSGenLinMod.setup_fit_alpha_dep` (supervised_qgps.py:1333-1565), as far as the weights are concerned.  `init` are the
parameters at the reference sites minus the prior mean; `newton` is the update `gamma * update_directions` for the given weights. -/
noncomputable def setup (active : n → Bool) (init : n → 𝕜) (newton : (n → 𝕜) → (n → 𝕜)) (o : Options 𝕜 n)
    (selfWeights : Option (n → 𝕜)) : n → 𝕜 :=
  -- lines 1342-1355
  let w : Local 𝕜 n := match selfWeights with
    | none => ⟨init, false⟩
    | some w => ⟨w, true⟩
  -- lines 1365-1439
  let w := { w with value := o.adjust w.value }
  -- lines 1488-1490
  let w := match o.minimise with
    | none => w
    | some g => ⟨g w.value, false⟩
  -- lines 1539-1543: `np.copyto(weights[active], weights[active] + gamma * update_directions)`.  An index by a mask of booleans makes
  -- a new array, and the update is written to that array only.
  let _newArray : n → 𝕜 := fun f => w.value f + newton w.value f
  -- lines 1553-1562: `self.weights` is made, or filled with zeros; in the second case so is the local array if it is the same array
  let w := match selfWeights with
    | none => w
    | some _ => if w.isSelf then { w with value := fun _ => 0 } else w
  -- lines 1564-1565
  fun f => if active f then w.value f else 0

/-- The calls of `setup_fit_alpha_dep` in one `fit_step` (supervised_qgps.py:1567-1609): one with the options of the caller, and
`k` further ones without options from `opt_alpha_beta` (supervised_qgps.py:449), one for each iteration that has not converged.  The
active features and the Newton directions may differ from call to call (index 0 is the first call). -/
noncomputable def fitWeights (active : ℕ → n → Bool) (init : n → 𝕜) (newton : ℕ → (n → 𝕜) → (n → 𝕜)) (o : Options 𝕜 n) :
    ℕ → n → 𝕜
  | 0 => setup (active 0) init (newton 0) o none
  | k + 1 => setup (active (k + 1)) init (newton (k + 1)) ⟨id, none⟩ (some (fitWeights active init newton o k))

/-- `update_epsilon_with_weights(prior_mean)` (supervised_qgps.py:471-497): the parameters at the reference sites. -/
def updated (valid : n → Bool) (w old prior : n → 𝕜) : n → 𝕜 := fun f =>
  (if valid f then w f else old f - prior f) + prior f

/-- `QGPSGenLinMod.fit_step` (supervised_qgps.py:1567-1609) with `k` evaluations in the optimisation of `alpha` and `beta`. -/
noncomputable def fitStep (valid : n → Bool) (active : ℕ → n → Bool) (newton : ℕ → (n → 𝕜) → (n → 𝕜)) (o : Options 𝕜 n)
    (k : ℕ) (prior old : n → 𝕜) : n → 𝕜 :=
  updated valid (fitWeights active (fun f => old f - prior f) newton o k) old prior

/-- `fit_step_growing_RVM` (supervised_qgps.py:1017-1066): the weights are those of a fit to the data minus the contribution of the prior
mean, and the parameters are updated by `update_epsilon_with_weights()`, whose `prior_mean` is then 0 (line 1064). -/
def growingStep (valid : n → Bool) (w old : n → 𝕜) : n → 𝕜 :=
  updated valid w old fun _ => 0

/-- `QGPSGenLinMod.setup_fit` (supervised_qgps.py:1293-1331): the weightings used by the fit, and the contents of the caller's array of
weightings afterwards.  `self.weightings = weightings` is that array, and `*=` writes into it. -/
noncomputable def setupWeightings {ι : Type} (prefactor : ι → ℂ) (weightings : Option (ι → ℝ)) : (ι → ℝ) × Option (ι → ℝ) :=
  match weightings with
  | none => (fun i => 1 * ‖prefactor i‖ ^ 2, none)
  | some w => (fun i => w i * ‖prefactor i‖ ^ 2, some fun i => w i * ‖prefactor i‖ ^ 2)

variable {ι : Type} [Fintype ι] [Fintype n]

/-- `get_loss` (supervised_qgps.py:1441-1457); `K` has complex entries (with `complex_expand` it is `hstack(K, 1j K)`), the weights are
real, and `c` is `alpha` or `alpha / 2`.  `pred = exp(K w)`. -/
noncomputable def loss (beta : ℝ) (K : ι → n → ℂ) (S : ι → ℝ) (data : ι → ℂ) (c : n → ℝ) (active : n → Bool) (w : n → ℝ) : ℝ :=
  let pred := fun i => Complex.exp (∑ f, K i f * (w f : ℂ))
  (beta * (∑ i, S i * ‖data i - pred i‖ ^ 2) + ∑ f, (if active f then c f * |w f| ^ 2 else 0)) / 2

/-- `get_grad` (supervised_qgps.py:1459-1469), with the real part taken. -/
noncomputable def grad (beta : ℝ) (K : ι → n → ℂ) (S : ι → ℝ) (data : ι → ℂ) (c : n → ℝ) (w : n → ℝ) : n → ℝ := fun f =>
  let pred := fun i => Complex.exp (∑ f, K i f * (w f : ℂ))
  let g := fun i => (S i : ℂ) * pred i * (starRingEnd ℂ) (data i - pred i)
  ((beta : ℂ) * -(∑ i, K i f * g i)).re + c f * w f

/-- `get_hessian` (supervised_qgps.py:1471-1486), with the real part taken. -/
noncomputable def hessian [DecidableEq n] (beta : ℝ) (K : ι → n → ℂ) (S : ι → ℝ) (data : ι → ℂ) (c : n → ℝ) (w : n → ℝ) :
    n → n → ℝ := fun f g =>
  let pred := fun i => Complex.exp (∑ f, K i f * (w f : ℂ))
  let b1 := fun i => (S i : ℂ) * pred i * (starRingEnd ℂ) (data i - pred i)
  let b2 := fun i => (S i : ℂ) * pred i * (starRingEnd ℂ) (pred i)
  let hessA := -(∑ i, K i f * b1 i * K i g)
  let hessB := ∑ i, K i f * b2 i * (starRingEnd ℂ) (K i g)
  ((beta : ℂ) * (hessA + hessB) + (if f = g then (c f : ℂ) else 0)).re

end GPSKet.GenLin
