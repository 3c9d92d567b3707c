import Verif.Model.Supervised
import Verif.Model.SupervisedFit

/-!
# Model of `GPSKet/supervised/supervised_qgps.py`: fit steps of a whole learner with fixed precisions and noise

`Model/Supervised.lean` has the state of a learner and its fit steps for any function from features to new parameters;
`Model/SupervisedFit.lean` has the functions that `fit_step` uses for that.  Here they are put together.  The data set has `N` entries.
-/

namespace GPSKet.SupervisedSweep

open GPSKet.Supervised GPSKet.SupervisedFit

variable {D M L N : ℕ}

/-- `self.K` (supervised_qgps.py:249) as a matrix. -/
def asMatrix (K : List (Features D M)) : Matrix (Fin N) (Fin (M * D)) ℂ := fun i f => K.getD i 0 f

/-- `self.alpha_mat[self._ref_sites_incr_dim, self.feature_ids]` (supervised_qgps.py:110-118): feature `w * D + d` uses the row of the
reference site of support index `w`. -/
def refAlpha (alphaMat : Fin L → Fin (M * D) → ℝ) (refs : Refs M L) : Fin (M * D) → ℝ := fun f =>
  alphaMat (refs (finProdFinEquiv.symm f).1) f

/-- What `QGPSLogSpaceFit.fit_step(confset, target, ref_sites, opt_alpha=False, opt_noise=False, ...)` computes from the features and the
current parameters at the reference sites (supervised_qgps.py:1230-1260), for complex parameters without bias.  `beta` is
`1 / self.noise_tilde` (line 1242), and stays so, as does `alpha_mat`.  `prior` is `prior_mean`, one number. -/
noncomputable def logFit (pinvh : {m : Type} → [Fintype m] → Matrix m m ℂ → Matrix m m ℂ) (beta : ℝ) (S : Fin N → ℝ)
    (logAmps : Fin N → ℂ) (alphaMat : Fin L → Fin (M * D) → ℝ) (prior : ℂ) (refs : Refs M L) :
    List (Features D M) → Features D M → ℂ → Features D M × ℂ := fun K old bias =>
  (logSpaceStep pinvh beta (asMatrix K) S logAmps (refAlpha alphaMat refs) (fun _ => prior) old, bias)

/-- The same for real parameters: features, data and parameters are real numbers. -/
noncomputable def logFitReal (pinvh : {m : Type} → [Fintype m] → Matrix m m ℝ → Matrix m m ℝ) (beta : ℝ) (S : Fin N → ℝ)
    (logAmps : Fin N → ℝ) (alphaMat : Fin L → Fin (M * D) → ℝ) (prior : ℝ) (refs : Refs M L) :
    List (Features D M) → Features D M → ℂ → Features D M × ℂ := fun K old bias =>
  let new : Fin (M * D) → ℝ := logSpaceStep pinvh beta (fun i f => (asMatrix K i f).re) S logAmps (refAlpha alphaMat refs)
    (fun _ => prior) (fun f => (old f).re)
  (fun f => (new f : ℂ), bias)

/-- The same with `complex_expand` (supervised_qgps.py:1132-1136, 471-513): the precisions of the imaginary parts are the second half of
the rows of `alpha_mat` (supervised_qgps.py:48-56). -/
noncomputable def logFitExpand (pinvh : {m : Type} → [Fintype m] → Matrix m m ℝ → Matrix m m ℝ) (beta : ℝ) (S : Fin N → ℝ)
    (logAmps : Fin N → ℂ) (alphaRe alphaIm : Fin L → Fin (M * D) → ℝ) (prior : ℝ) (refs : Refs M L) :
    List (Features D M) → Features D M → ℂ → Features D M × ℂ := fun K old bias =>
  (logSpaceStepExpand pinvh beta (asMatrix K) S logAmps (Sum.elim (refAlpha alphaRe refs) (refAlpha alphaIm refs)) (fun _ => prior)
    old, bias)

/-- The same with a bias (supervised_qgps.py:251-252, 486-491), whose precision is `alpha_bias`. -/
noncomputable def logFitBias (pinvh : {m : Type} → [Fintype m] → Matrix m m ℂ → Matrix m m ℂ) (beta : ℝ) (S : Fin N → ℝ)
    (logAmps : Fin N → ℂ) (alphaMat : Fin L → Fin (M * D) → ℝ) (alphaBias : ℝ) (prior : ℂ) (refs : Refs M L) :
    List (Features D M) → Features D M → ℂ → Features D M × ℂ := fun K old bias =>
  logSpaceStepBias pinvh beta (asMatrix K) S logAmps (Sum.elim (refAlpha alphaMat refs) fun _ => alphaBias) (fun _ => prior) old bias

/-- What `QGPSLearningExp.fit_step(confset, target, ref_sites, opt_alpha=False, opt_noise=False, ...)` computes from the features and
the current parameters at the reference sites (supervised_qgps.py:799-875, 602-616, 560-600), with the noise estimated from the targets. -/
noncomputable def expFit (pinvh : {m : Type} → [Fintype m] → Matrix m m ℂ → Matrix m m ℂ) (noise : ℝ) (weightings : Fin N → ℝ)
    (amps logAmps : Fin N → ℂ) (alphaMat : Fin L → Fin (M * D) → ℝ) (prior : ℂ) (refs : Refs M L) :
    List (Features D M) → Features D M → ℂ → Features D M × ℂ := fun K old bias =>
  (expStep pinvh noise .target (asMatrix K) weightings amps logAmps (refAlpha alphaMat refs) (fun _ => prior) old, bias)

end GPSKet.SupervisedSweep
