import Verif.Model.MargLik

/-!
# Model of `GPSKet/supervised/supervised_qgps.py`: the optimisation of the precisions (`opt_alpha_beta`)

Continues `Model/MargLik.lean` (one process, exact arithmetic).  A division of a positive number by zero is infinite and is clipped to
the cutoff of the precisions.  The parameters of the learner are not precomputed features, for which the getter
`alpha_mat_ref_sites` returns a copy (supervised_qgps.py:108-116).
-/

namespace GPSKet.OptAlpha

open Matrix GPSKet.SupervisedFit GPSKet.MargLik
open scoped ComplexOrder

variable {𝕜 : Type} [RCLike 𝕜] {ι n : Type} [Fintype ι] [Fintype n] [DecidableEq n]

/-- `np.clip(alpha, 0.0, self.alpha_cutoff)` (supervised_qgps.py:393-395). -/
noncomputable def clip (a : ℝ) : ℝ := min (max a 0) 1e10

open Classical in
/-- `np.clip(g / w2, 0.0, self.alpha_cutoff)` with the division of NumPy (supervised_qgps.py:370-395).  (0/0, which is NaN, is not
modelled: it is 0 here.) -/
noncomputable def clipQuot (g w2 : ℝ) : ℝ :=
  if w2 = 0 then (if 0 < g then 1e10 else 0) else clip (g / w2)

section Round

variable (chol : {m : Type} → [Fintype m] → Matrix m m 𝕜 → Option (Matrix m m 𝕜))
variable (pinvh : {m : Type} → [Fintype m] → Matrix m m 𝕜 → Matrix m m 𝕜)

open Classical in
/-- `gamma` (supervised_qgps.py:353-367). -/
noncomputable def gamma (half : Bool) (beta : ℝ) (KtK : Matrix n n 𝕜) (alpha : n → ℝ) (f : {f // Active KtK alpha f}) : ℝ :=
  let g := diagSinv chol pinvh (block (regularised half beta KtK alpha) (Active KtK alpha)) f
  1 - alpha f * (if half then g * (1 / 2) else g)

open Classical in
/-- The new precisions (supervised_qgps.py:369-395).  If the Cholesky decomposition failed, they are not changed. -/
noncomputable def newAlpha (half rvm : Bool) (beta : ℝ) (KtK : Matrix n n 𝕜) (y : n → 𝕜) (alpha : n → ℝ) : n → ℝ :=
  let w := weights pinvh half beta KtK y alpha
  match chol (block (regularised half beta KtK alpha) (Active KtK alpha)) with
  | none => alpha
  | some _ =>
    if rvm then fun f =>
      if h : Active KtK alpha f then clipQuot (gamma chol pinvh half beta KtK alpha ⟨f, h⟩) (RCLike.re (star (w f) * w f))
      else clip (alpha f)
    else fun _ => clipQuot (∑ f, gamma chol pinvh half beta KtK alpha f) (RCLike.re (star w ⬝ᵥ w))

open Classical in
/-- The new inverse of the noise (supervised_qgps.py:396-426); `N` is the number of data or the sum of the weightings and
`squaredError` the (weighted) squared error of given weights, or `none` if its computation raises. -/
noncomputable def newBeta (half : Bool) (N : ℝ) (squaredError : (n → 𝕜) → Option ℝ) (beta : ℝ) (KtK : Matrix n n 𝕜) (y : n → 𝕜)
    (alpha : n → ℝ) : Option ℝ :=
  match chol (block (regularised half beta KtK alpha) (Active KtK alpha)) with
  | none => some beta
  | some _ =>
    (squaredError (weights pinvh half beta KtK y alpha)).map fun e =>
      (N - (if half then 1 / 2 * ∑ f, gamma chol pinvh half beta KtK alpha f else ∑ f, gamma chol pinvh half beta KtK alpha f)) / e

/-- The state of the learner: precisions, inverse of the noise, and the two values for which `setup_fit_alpha_dep` was run last; the
weights are those for the last two. -/
structure State (n : Type) where
  alpha : n → ℝ
  beta : ℝ
  setupAlpha : n → ℝ
  setupBeta : ℝ

/-- `convergence_loss < self.alpha_convergence_tol` (supervised_qgps.py:429-440). -/
def Converged (optAlpha optBeta : Bool) (alpha alpha' : n → ℝ) (beta beta' : ℝ) : Prop :=
  (if optAlpha then ∑ f, |alpha' f - alpha f| ^ 2 / |alpha f| ^ 2 else 0) + (if optBeta then |beta' - beta| ^ 2 / |beta| ^ 2 else 0) < 1e-15

open Classical in
/-- `opt_alpha_beta` (supervised_qgps.py:340-452) with at most the given number of iterations, after `setup_fit_alpha_dep` was run for
`alpha` and `beta`: the state, and whether the loop ended by itself (and not because of `max_iterations`); `none` if the loop raises.
Without `max_iterations` the result is a state with which the loop ends by itself after any number of iterations. -/
noncomputable def optAlphaBeta (half rvm optAlpha optBeta : Bool) (N : ℝ) (squaredError : (n → 𝕜) → Option ℝ) (KtK : Matrix n n 𝕜)
    (y : n → 𝕜) : ℕ → (n → ℝ) → ℝ → Option (State n × Bool)
  | 0, alpha, beta => some (⟨alpha, beta, alpha, beta⟩, false)
  | k + 1, alpha, beta =>
    if ∃ f, Active KtK alpha f then
      let alpha' := if optAlpha then newAlpha chol pinvh half rvm beta KtK y alpha else alpha
      (if optBeta then newBeta chol pinvh half N squaredError beta KtK y alpha else some beta).bind fun beta' =>
      if Converged optAlpha optBeta alpha alpha' beta beta' then some (⟨alpha', beta', alpha, beta⟩, true)
      else if k = 0 then some (⟨alpha', beta', alpha, beta⟩, false)
      else optAlphaBeta half rvm optAlpha optBeta N squaredError KtK y k alpha' beta'
    else some (⟨alpha, beta, alpha, beta⟩, true)

end Round

/-! ## The squared errors -/

/-- The squared error of `QGPSLogSpaceFit` in `opt_alpha_beta` without `complex_expand` (supervised_qgps.py:398-421, 1109-1110). -/
noncomputable def squaredError (K : Matrix ι n 𝕜) (weightings : Option (ι → ℝ)) (data : ι → 𝕜) (w : n → 𝕜) : Option ℝ :=
  some (∑ i, logWeights weightings i * ‖data i - (K *ᵥ w) i‖ ^ 2)

/-- NumPy's `K.dot(w)` for a matrix with `K.shape[1] = cols` and a vector of the given length: it raises if the lengths differ
(supervised_qgps.py:1109-1110, with `complex_expand` the weights have twice the length). -/
def dotShapes (cols length : ℕ) : Option Unit := if cols = length then some () else none

/-- The squared error of `QGPSLogSpaceFit` in `opt_alpha_beta` with `complex_expand`: `prediction_after_setup` multiplies the matrix of
the features with the vector of all real weights (supervised_qgps.py:1109-1110). -/
noncomputable def squaredErrorExpand (K : Matrix ι n ℂ) (weightings : Option (ι → ℝ)) (data : ι → ℂ) (w : n ⊕ n → ℝ) : Option ℝ :=
  (dotShapes (Fintype.card n) (Fintype.card (n ⊕ n))).map fun _ =>
    ∑ i, logWeights weightings i * ‖data i - ∑ f, K i f * (w (Sum.inl f) : ℂ)‖ ^ 2

/-- `opt_alpha_beta` within `QGPSLogSpaceFit.fit_step`, without `complex_expand` (supervised_qgps.py:1241-1255). -/
noncomputable def logSpaceOpt (chol : {m : Type} → [Fintype m] → Matrix m m 𝕜 → Option (Matrix m m 𝕜))
    (pinvh : {m : Type} → [Fintype m] → Matrix m m 𝕜 → Matrix m m 𝕜) (rvm optAlpha optBeta : Bool) (K : Matrix ι n 𝕜)
    (weightings : Option (ι → ℝ)) (data : ι → 𝕜) (iterations : ℕ) (alpha : n → ℝ) (noise : ℝ) : Option (State n × Bool) :=
  optAlphaBeta chol pinvh false rvm optAlpha optBeta (dataCount weightings) (squaredError K weightings data)
    (gram K (logWeights weightings)) (rhs K fun i => (logWeights weightings i : 𝕜) * data i) iterations alpha (1 / noise)

/-- `QGPSLogSpaceFit.fit_step` without a bias and without `complex_expand` (supervised_qgps.py:1230-1260): the parameters at the reference
sites, the precisions and the noise afterwards, and whether the optimisation ended by itself. -/
noncomputable def logSpaceFitStep (chol : {m : Type} → [Fintype m] → Matrix m m 𝕜 → Option (Matrix m m 𝕜))
    (pinvh : {m : Type} → [Fintype m] → Matrix m m 𝕜 → Matrix m m 𝕜) (rvm optAlpha optNoise : Bool) (K : Matrix ι n 𝕜)
    (weightings : Option (ι → ℝ)) (logAmps : ι → 𝕜) (iterations : ℕ) (alpha : n → ℝ) (noise : ℝ) (prior old : n → 𝕜) :
    Option ((n → 𝕜) × (n → ℝ) × ℝ × Bool) :=
  let data := fitData K logAmps prior
  (logSpaceOpt chol pinvh rvm optAlpha optNoise K weightings data iterations alpha noise).map fun (st, ended) =>
    let KtK := gram K (logWeights weightings)
    let w := weights pinvh false st.setupBeta KtK (rhs K fun i => (logWeights weightings i : 𝕜) * data i) st.setupAlpha
    (updated KtK w old prior, st.alpha, 1 / st.beta, ended)

/-- `opt_alpha_beta` within `QGPSLogSpaceFit.fit_step`, with `complex_expand` (supervised_qgps.py:1241-1255). -/
noncomputable def logSpaceOptExpand (chol : {m : Type} → [Fintype m] → Matrix m m ℝ → Option (Matrix m m ℝ))
    (pinvh : {m : Type} → [Fintype m] → Matrix m m ℝ → Matrix m m ℝ) (rvm optAlpha optBeta : Bool) (K : Matrix ι n ℂ)
    (weightings : Option (ι → ℝ)) (data : ι → ℂ) (iterations : ℕ) (alpha : n ⊕ n → ℝ) (noise : ℝ) : Option (State (n ⊕ n) × Bool) :=
  optAlphaBeta chol pinvh true rvm optAlpha optBeta (dataCount weightings) (squaredErrorExpand K weightings data)
    (expandMat (gram K (logWeights weightings))) (expandVec (rhs K fun i => (logWeights weightings i : ℂ) * data i)) iterations alpha
    (1 / noise)

/-- `opt_alpha_beta` within `QGPSLearningExp.fit_step` (supervised_qgps.py:869-870), which optimises the precisions for `beta = 1`;
without `complex_expand`. -/
noncomputable def expOpt (chol : {m : Type} → [Fintype m] → Matrix m m 𝕜 → Option (Matrix m m 𝕜))
    (pinvh : {m : Type} → [Fintype m] → Matrix m m 𝕜 → Matrix m m 𝕜) (rvm : Bool) (noise : ℝ) (mode : NoiseMode ι) (K : Matrix ι n 𝕜)
    (weightings : Option (ι → ℝ)) (amps data : ι → 𝕜) (iterations : ℕ) (alpha : n → ℝ) : Option (State n × Bool) :=
  let S := expWeights noise mode weightings amps
  optAlphaBeta chol pinvh false rvm true false 0 (fun _ => none) (gram K S) (rhs K (multiplicator S amps data)) iterations alpha 1

/-- `opt_alpha_beta` within `QGPSLearningExp.fit_step` with `complex_expand` (supervised_qgps.py:869-870). -/
noncomputable def expOptExpand (chol : {m : Type} → [Fintype m] → Matrix m m ℝ → Option (Matrix m m ℝ))
    (pinvh : {m : Type} → [Fintype m] → Matrix m m ℝ → Matrix m m ℝ) (rvm : Bool) (noise : ℝ) (mode : NoiseMode ι) (K : Matrix ι n ℂ)
    (weightings : Option (ι → ℝ)) (amps data : ι → ℂ) (iterations : ℕ) (alpha : n ⊕ n → ℝ) : Option (State (n ⊕ n) × Bool) :=
  let S := expWeights noise mode weightings amps
  optAlphaBeta chol pinvh true rvm true false 0 (fun _ => none) (expandMat (gram K S)) (expandVec (rhs K (multiplicator S amps data)))
    iterations alpha 1

end GPSKet.OptAlpha
