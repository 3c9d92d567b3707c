import Verif.Model.GenLinFit

/-!
# Model of `prediction_after_setup` in `GPSKet/supervised/supervised_qgps.py`

The predictions that a learner gives from the weights of its last fit, without looking at the parameters.  Conventions as in
`Model/SupervisedFit.lean` and `Model/GenLin.lean`; `K` is `self.K`, which `predict` for the configurations of the fit uses too, as the
features do not depend on the parameters at the reference sites (`Model/Supervised.lean`).
-/

namespace GPSKet.AfterSetup

open Matrix GPSKet.SupervisedFit

variable {𝕜 : Type} [RCLike 𝕜] {ι n : Type} [Fintype ι] [Fintype n] [DecidableEq n]

/-- `self.weights`: one number for each feature, or, with `complex_expand` and complex parameters, two real numbers for each feature
(supervised_qgps.py:307-319). -/
inductive Weights (𝕜 n : Type)
  | plain (w : n → 𝕜)
  | expanded (w : n ⊕ n → ℝ)

open Classical in
/-- `QGPSLogSpaceFit.prediction_after_setup` (supervised_qgps.py:1109-1110): `self.K.dot(self.weights)`, which raises an exception (`none`)
if the number of columns is not the number of weights. -/
noncomputable def logSpace (K : Matrix ι n 𝕜) : Weights 𝕜 n → Option (ι → 𝕜)
  | .plain w => some (K *ᵥ w)
  | .expanded _ => if IsEmpty n then some fun _ => 0 else none

/-- `self.weights` after `QGPSLogSpaceFit.fit_step` without `complex_expand` (supervised_qgps.py:1112-1138, 261-319), see `logSpaceStep`. -/
noncomputable def logSpaceWeights (pinvh : {m : Type} → [Fintype m] → Matrix m m 𝕜 → Matrix m m 𝕜) (beta : ℝ) (K : Matrix ι n 𝕜)
    (S : ι → ℝ) (logAmps : ι → 𝕜) (alpha : n → ℝ) (prior : n → 𝕜) : Weights 𝕜 n :=
  .plain (weights pinvh false beta (gram K S) (rhs K fun i => (S i : 𝕜) * fitData K logAmps prior i) alpha)

/-- `self.K` with a bias (supervised_qgps.py:251-252). -/
def withOnes (K : Matrix ι n 𝕜) : Matrix ι (n ⊕ Unit) 𝕜 := Matrix.fromCols K (Matrix.of fun _ _ => 1)

/-- `self.weights` after `QGPSLogSpaceFit.fit_step` with a bias and without `complex_expand`, see `logSpaceStepBias`
(supervised_qgps.py:1112-1138, 251-252, 261-319). -/
noncomputable def logSpaceWeightsBias (pinvh : {m : Type} → [Fintype m] → Matrix m m 𝕜 → Matrix m m 𝕜) (beta : ℝ) (K : Matrix ι n 𝕜)
    (S : ι → ℝ) (logAmps : ι → 𝕜) (alpha : n ⊕ Unit → ℝ) (prior : n → 𝕜) : Weights 𝕜 (n ⊕ Unit) :=
  .plain (weights pinvh false beta (gram (withOnes K) S) (rhs (withOnes K) fun i => (S i : 𝕜) * fitData K logAmps prior i) alpha)

/-- `self.weights` after `QGPSLogSpaceFit.fit_step` with `complex_expand` and complex parameters, see `logSpaceStepExpand`
(supervised_qgps.py:1112-1138, 261-319). -/
noncomputable def logSpaceWeightsExpand (pinvh : {m : Type} → [Fintype m] → Matrix m m ℝ → Matrix m m ℝ) (beta : ℝ) (K : Matrix ι n ℂ)
    (S : ι → ℝ) (logAmps : ι → ℂ) (alpha : n ⊕ n → ℝ) (prior : n → ℝ) : Weights ℂ n :=
  let data := fitData K logAmps fun f => (prior f : ℂ)
  .expanded (weights pinvh true beta (expandMat (gram K S)) (expandVec (rhs K fun i => (S i : ℂ) * data i)) alpha)

/-- `QGPSGenLinMod.prediction_after_setup` for real parameters (supervised_qgps.py:1286-1291). -/
noncomputable def genLin (K : Matrix ι n ℝ) (w : n → ℝ) (i : ι) : ℝ := Real.exp ((K *ᵥ w) i)

/-- `QGPSGenLinMod.prediction_after_setup` for complex parameters, where `complex_expand` is set (supervised_qgps.py:1273-1276, 1286-1291):
the features are stacked with `1j` times the features. -/
noncomputable def genLinComplex (K : Matrix ι n ℂ) (w : n ⊕ n → ℝ) (i : ι) : ℂ :=
  Complex.exp (∑ g, GenLinFit.expandK (fun i f => K i f) i g * (w g : ℂ))

/-- The parameters at the reference sites minus the (real) prior mean, as real numbers (supervised_qgps.py:472-480, 1346-1353). -/
def splitOld (old : n → ℂ) (prior : n → ℝ) : n ⊕ n → ℝ :=
  Sum.elim (fun f => (old f - prior f).re) (fun f => (old f - prior f).im)

/-- `update_epsilon_with_weights(prior_mean)` for complex parameters with `complex_expand` and without a bias (supervised_qgps.py:471-513),
with a real prior mean: the parameters at the reference sites. -/
noncomputable def updatedComplex (valid : n ⊕ n → Bool) (w : n ⊕ n → ℝ) (old : n → ℂ) (prior : n → ℝ) : n → ℂ := fun f =>
  let new := fun g => if valid g then w g else splitOld old prior g
  ((new (Sum.inl f) + prior f : ℝ) : ℂ) + Complex.I * (new (Sum.inr f) : ℂ)

open Classical in
/-- `self.weights` after `QGPSGenLinMod.fit_step` for complex parameters with `log_fit_init`, see `GenLinFit.fitStepComplex`
(supervised_qgps.py:1293-1394, 1553-1565). -/
noncomputable def genLinWeightsComplex (lstsq : {m : Type} → [Fintype m] → Matrix m m ℝ → (m → ℝ) → m → ℝ)
    (newton : ℕ → (n ⊕ n → ℝ) → (n ⊕ n → ℝ)) (noise : ℝ) (K : Matrix ι n ℂ) (weightings : Option (ι → ℝ)) (amps : ι → ℂ)
    (alpha : n ⊕ n → ℝ) (prior : n → ℝ) (old : n → ℂ) : n ⊕ n → ℝ :=
  let prefactor := fun i => Complex.exp (∑ f, (prior f : ℂ) * K i f)
  let expAmps := fun i => amps i / prefactor i
  let v := (GenLin.setupWeightings prefactor weightings).1
  let expanded := GenLinFit.expandK fun i f => K i f
  let S := fun i => (if noise = 0 then 1 else 1 / Real.log (1 + noise / ‖expAmps i‖ ^ 2)) * v i
  let y := expandVec (rhs K fun i => (S i : ℂ) * Complex.log (expAmps i))
  let logInit := GenLinFit.solveInto lstsq (GenLinFit.Active expanded alpha)
    (expandMat (gram K S) + Matrix.diagonal fun f => alpha f / 2) y
  GenLin.fitWeights (fun _ f => decide (GenLinFit.Active expanded alpha f)) (splitOld old prior) newton ⟨logInit, none⟩ 0

end GPSKet.AfterSetup
