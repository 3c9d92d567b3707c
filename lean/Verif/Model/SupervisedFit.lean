import Mathlib.Analysis.Matrix.PosDef
import Mathlib.Analysis.RCLike.Lemmas
import Mathlib.Analysis.SpecialFunctions.Log.Basic
import Mathlib.Analysis.SpecialFunctions.Complex.Log
import Mathlib.Analysis.Complex.Basic
import Mathlib.Data.Matrix.ColumnRowPartitioned

/-!
# Model of `GPSKet/supervised/supervised_qgps.py`: the weights of a fit step

`𝕜` is the data type of the parameters (`float`: ℝ, `complex`: ℂ); with `complex_expand` the weights of complex parameters are real
vectors of twice the length.  `ι` indexes the data and `n` the features, which are the columns of the matrix `K` that
`Model/Supervised.lean` computes (including the column of ones for a bias).  One process, exact arithmetic.
-/

namespace GPSKet.SupervisedFit

open Matrix
open scoped ComplexOrder

variable {𝕜 : Type} [RCLike 𝕜] {ι n : Type} [Fintype ι] [Fintype n] [DecidableEq n]

/-- `np.dot(K.conj().T, np.einsum("i,ij->ij", S, K))` (supervised_qgps.py:586-588, 1124-1126; without weightings `S` is 1, line 1129). -/
def gram (K : Matrix ι n 𝕜) (S : ι → ℝ) : Matrix n n 𝕜 :=
  Kᴴ * Matrix.of fun i f => (S i : 𝕜) * K i f

/-- `K.conj().T.dot(m)` (supervised_qgps.py:592, 1127, 1130). -/
def rhs (K : Matrix ι n 𝕜) (m : ι → 𝕜) : n → 𝕜 :=
  Kᴴ *ᵥ m

/-- `np.block([[KtK.real, -KtK.imag], [KtK.imag, KtK.real]])` (supervised_qgps.py:595-597, 1133-1135). -/
def expandMat (A : Matrix n n ℂ) : Matrix (n ⊕ n) (n ⊕ n) ℝ :=
  Matrix.fromBlocks (A.map Complex.re) (-(A.map Complex.im)) (A.map Complex.im) (A.map Complex.re)

/-- `np.concatenate((y.real, y.imag))` (supervised_qgps.py:598, 1136). -/
def expandVec (y : n → ℂ) : n ⊕ n → ℝ :=
  Sum.elim (fun f => (y f).re) (fun f => (y f).im)

/-- `self.valid_kern` (supervised_qgps.py:263): the feature occurs in the data. -/
def Valid (KtK : Matrix n n 𝕜) (f : n) : Prop :=
  1e-10 < ‖KtK f f‖

/-- `self.active_elements` (supervised_qgps.py:262-265). -/
def Active (KtK : Matrix n n 𝕜) (alpha : n → ℝ) (f : n) : Prop :=
  alpha f < 1e10 ∧ Valid KtK f

/-- `self.KtK_alpha` (supervised_qgps.py:267-272); `half` is `complex_expand and dtype == complex`. -/
noncomputable def regularised (half : Bool) (beta : ℝ) (KtK : Matrix n n 𝕜) (alpha : n → ℝ) : Matrix n n 𝕜 :=
  (beta : 𝕜) • KtK + Matrix.diagonal fun f => ((if half then alpha f / 2 else alpha f : ℝ) : 𝕜)

/-- The block `KtK_alpha[np.ix_(active, active)]` (supervised_qgps.py:283). -/
def block (A : Matrix n n 𝕜) (act : n → Prop) : Matrix {f // act f} {f // act f} 𝕜 :=
  A.submatrix Subtype.val Subtype.val

open Classical in
/-- `setup_fit_alpha_dep` (supervised_qgps.py:261-319): solve on the active block and put zero elsewhere.  The Cholesky
decomposition succeeds iff the block is positive definite; otherwise `pinvh` is applied, here an arbitrary function
(supervised_qgps.py:298-305).  The broadcasts among processes have no effect for one process. -/
noncomputable def weights (pinvh : {m : Type} → [Fintype m] → Matrix m m 𝕜 → Matrix m m 𝕜) (half : Bool) (beta : ℝ)
    (KtK : Matrix n n 𝕜) (y : n → 𝕜) (alpha : n → ℝ) : n → 𝕜 := fun f =>
  let A := block (regularised half beta KtK alpha) (Active KtK alpha)
  let inv := if A.PosDef then A⁻¹ else pinvh A
  if h : Active KtK alpha f then (beta : 𝕜) * (inv *ᵥ fun g : {f // Active KtK alpha f} => y g) ⟨f, h⟩ else 0

/-- `self.fit_data` of `QGPSLogSpaceFit.setup_fit` (supervised_qgps.py:1116-1121): the log-amplitudes minus the contribution of the
prior mean.  The bias column of `K` is not in the sum, which is the case `prior = 0` there. -/
def fitData (K : Matrix ι n 𝕜) (logAmps : ι → 𝕜) (prior : n → 𝕜) : ι → 𝕜 := fun i =>
  logAmps i - ∑ f, prior f * K i f

open Classical in
/-- The parameters at the reference sites after `update_epsilon_with_weights(prior_mean)` (supervised_qgps.py:471-497) for
parameters without `complex_expand`: features that do not occur in the data keep their value. -/
noncomputable def updated (KtK : Matrix n n 𝕜) (w : n → 𝕜) (old prior : n → 𝕜) : n → 𝕜 := fun f =>
  (if Valid KtK f then w f else old f - prior f) + prior f

/-- `QGPSLogSpaceFit.fit_step` (supervised_qgps.py:1230-1260) for fixed `alpha` and `beta` (`opt_alpha = opt_noise = False`), or the
last evaluation if they are optimised: the new parameters at the reference sites. -/
noncomputable def logSpaceStep (pinvh : {m : Type} → [Fintype m] → Matrix m m 𝕜 → Matrix m m 𝕜) (beta : ℝ) (K : Matrix ι n 𝕜)
    (S : ι → ℝ) (logAmps : ι → 𝕜) (alpha : n → ℝ) (prior old : n → 𝕜) : n → 𝕜 :=
  let data := fitData K logAmps prior
  let w := weights pinvh false beta (gram K S) (rhs K fun i => (S i : 𝕜) * data i) alpha
  updated (gram K S) w old prior

/-- `QGPSLogSpaceFit.fit_step` with a bias: a column of ones is appended to the features (supervised_qgps.py:251-252), and the new bias
is its weight, whether or not the column is valid (supervised_qgps.py:486-491).  The new parameters and the new bias. -/
noncomputable def logSpaceStepBias (pinvh : {m : Type} → [Fintype m] → Matrix m m 𝕜 → Matrix m m 𝕜) (beta : ℝ) (K : Matrix ι n 𝕜)
    (S : ι → ℝ) (logAmps : ι → 𝕜) (alpha : n ⊕ Unit → ℝ) (prior old : n → 𝕜) (oldBias : 𝕜) : (n → 𝕜) × 𝕜 :=
  let data := fitData K logAmps prior
  let K1 : Matrix ι (n ⊕ Unit) 𝕜 := Matrix.fromCols K (Matrix.of fun _ _ => 1)
  let w := weights pinvh false beta (gram K1 S) (rhs K1 fun i => (S i : 𝕜) * data i) alpha
  let new := updated (gram K1 S) w (Sum.elim old fun _ => oldBias) (Sum.elim prior fun _ => 0)
  (fun f => new (Sum.inl f), w (Sum.inr ()))

open Classical in
/-- `QGPSLogSpaceFit.fit_step` with `complex_expand` and without a bias (supervised_qgps.py:1132-1136, 471-513): real weights for the
real and the imaginary parts of the parameters.  `alpha` has one entry for each of them.  The prior mean is real here. -/
noncomputable def logSpaceStepExpand (pinvh : {m : Type} → [Fintype m] → Matrix m m ℝ → Matrix m m ℝ) (beta : ℝ) (K : Matrix ι n ℂ)
    (S : ι → ℝ) (logAmps : ι → ℂ) (alpha : n ⊕ n → ℝ) (prior : n → ℝ) (old : n → ℂ) : n → ℂ :=
  let data := fitData K logAmps fun f => (prior f : ℂ)
  let KtK := expandMat (gram K S)
  let w := weights pinvh true beta KtK (expandVec (rhs K fun i => (S i : ℂ) * data i)) alpha
  fun f =>
    let oldW : n ⊕ n → ℝ := Sum.elim (fun f => (old f - prior f).re) (fun f => (old f - prior f).im)
    let new : n ⊕ n → ℝ := fun g => if Valid KtK g then w g else oldW g
    ((new (Sum.inl f) + prior f : ℝ) : ℂ) + Complex.I * (new (Sum.inr f) : ℂ)

/-- How `QGPSLearningExp` estimates the noise of log-amplitudes (supervised_qgps.py:561-581). -/
inductive NoiseMode (ι : Type)
  /-- from the target amplitudes -/
  | target
  /-- from the target amplitudes, with `noise_reweighting` -/
  | reweighted (r : ι → ℝ)
  /-- `iterative_noise_est`: from the current predictions -/
  | iterative (pred : ι → ℂ)
  /-- `iterative_noise_est` with `noise_reweighting` -/
  | iterativeReweighted (pred : ι → ℂ) (r : ι → ℝ)

open Classical in
/-- `self.S_diag` before the weightings (supervised_qgps.py:561-581).  A division of a positive number by zero is infinite, and so is
`log1p` of infinity, so that the entry of a zero amplitude is 0.  (`np.log1p(x)` is `log (1 + x)`.) -/
noncomputable def noiseWeight (noise : ℝ) (mode : NoiseMode ι) (amps : ι → 𝕜) (i : ι) : ℝ :=
  if noise = 0 then 1 else
  match mode with
  | .target => if amps i = 0 then 0 else 1 / Real.log (1 + noise / ‖amps i‖ ^ 2)
  | .reweighted r => if amps i = 0 then 0 else 1 / Real.log (1 + noise / (‖amps i‖ ^ 2 / r i))
  | .iterative pred => 1 / (Real.log (1 + Real.sqrt (4 * noise / ‖pred i‖ ^ 2 + 1)) + Real.log 0.5)
  | .iterativeReweighted pred _ => 1 / (Real.log (1 + Real.sqrt (4 * noise / ‖pred i‖ ^ 2 + 1)) + Real.log 0.5)

open Classical in
/-- `multiplicator` (supervised_qgps.py:590-591): the weighted data, and -1/2 for zero amplitudes. -/
noncomputable def multiplicator (S : ι → ℝ) (amps data : ι → 𝕜) : ι → 𝕜 := fun i =>
  if amps i = 0 then -(1 / 2) else (S i : 𝕜) * data i

/-- `QGPSLearningExp.fit_step` (supervised_qgps.py:602-616, 560-600, 799-875) for fixed precisions and noise, or the last
evaluation if they are optimised (`beta` is 1): the new parameters at the reference sites.  `logAmps` are the logarithms of the target
amplitudes (of their moduli for real parameters); the entries of zero amplitudes are not used. -/
noncomputable def expStep (pinvh : {m : Type} → [Fintype m] → Matrix m m 𝕜 → Matrix m m 𝕜) (noise : ℝ) (mode : NoiseMode ι)
    (K : Matrix ι n 𝕜) (weightings : ι → ℝ) (amps logAmps : ι → 𝕜) (alpha : n → ℝ) (prior old : n → 𝕜) : n → 𝕜 :=
  let data := fitData K logAmps prior
  let S := fun i => noiseWeight noise mode amps i * weightings i
  let w := weights pinvh false 1 (gram K S) (rhs K (multiplicator S amps data)) alpha
  updated (gram K S) w old prior

end GPSKet.SupervisedFit
