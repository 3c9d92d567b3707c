import Verif.Model.SupervisedFit

/-!
# Model of `GPSKet/supervised/supervised_qgps.py`: the marginal likelihood and its derivatives

Continues `Model/SupervisedFit.lean` (one process, exact arithmetic).  `cplx` is `self.epsilon.dtype == complex` and `half` is
`self.complex_expand and self.epsilon.dtype == complex`; in the second case the matrix of the normal equations is real although the data
are complex.  `chol` stands for `sp.linalg.cholesky(., lower=True)`, whose failure is `none`.
-/

namespace GPSKet.MargLik

open Matrix GPSKet.SupervisedFit
open scoped ComplexOrder

variable {𝕜 : Type} [RCLike 𝕜] {ι n : Type} [Fintype ι] [Fintype n] [DecidableEq n]

/-- The results that `sp.linalg.cholesky(A, lower=True)` may have: a factor that is lower triangular in the order of the array, or an
exception for a matrix that is not positive definite (supervised_qgps.py:281-285). -/
def CholeskyOf {m : Type} [Fintype m] (A : Matrix m m 𝕜) : Option (Matrix m m 𝕜) → Prop
  | some L => (∃ pos : m → ℕ, Function.Injective pos ∧ ∀ i j, pos i < pos j → L i j = 0) ∧ L * Lᴴ = A
  | none => ¬ A.PosDef

section Sinv

variable (chol : {m : Type} → [Fintype m] → Matrix m m 𝕜 → Option (Matrix m m 𝕜))
variable (pinvh : {m : Type} → [Fintype m] → Matrix m m 𝕜 → Matrix m m 𝕜)

open Classical in
/-- The diagonal of the inverse of the active block: `np.sum(abs(self.Sinv_L) ** 2, 0)`, or `np.diag(self.Sinv).real` if the
decomposition failed (supervised_qgps.py:324-327, 353-356); `Sinv_L` is the inverse of the factor (supervised_qgps.py:286-291). -/
noncomputable def diagSinv {m : Type} [Fintype m] (A : Matrix m m 𝕜) : m → ℝ := fun f =>
  match chol A with
  | some L => ∑ i, ‖L⁻¹ i f‖ ^ 2
  | none => RCLike.re (pinvh A f f)

open Classical in
/-- The inverse of the active block, as used by `log_marg_lik_noise_der` (supervised_qgps.py:773-778). -/
noncomputable def matSinv {m : Type} [Fintype m] (A : Matrix m m 𝕜) : Matrix m m 𝕜 :=
  match chol A with
  | some L => (L⁻¹)ᴴ * L⁻¹
  | none => pinvh A

open Classical in
/-- The logarithm of the determinant of the inverse of the active block in `log_marg_lik` (supervised_qgps.py:655-664, 1157-1166). -/
noncomputable def logDetSinv {m : Type} [Fintype m] (half : Bool) (A : Matrix m m 𝕜) : ℝ :=
  match chol A with
  | some L => if half then 1 / 2 * ∑ i, Real.log (1 / 2 * ‖L⁻¹ i i‖ ^ 2) else 2 * ∑ i, Real.log ‖L⁻¹ i i‖
  | none => if half then 1 / 2 * Real.log ‖((1 / 2 : 𝕜) • pinvh A).det‖ else Real.log ‖(pinvh A).det‖

open Classical in
/-- `log_marg_lik` after the data-dependent part `dataTerm` (supervised_qgps.py:655-687, 1157-1189). -/
noncomputable def evidence (cplx half : Bool) (beta : ℝ) (KtK : Matrix n n 𝕜) (y : n → 𝕜) (alpha : n → ℝ) (dataTerm : ℝ) : ℝ :=
  let A := block (regularised half beta KtK alpha) (Active KtK alpha)
  let w : {f // Active KtK alpha f} → 𝕜 := fun f => weights pinvh half beta KtK y alpha f
  let logAlpha : ℝ := ∑ f : {f // Active KtK alpha f}, if 0 < alpha f then Real.log (alpha f) else 0
  let total := dataTerm + logDetSinv chol pinvh half A + (if half then 1 / 2 * logAlpha else logAlpha)
    + RCLike.re (star w ⬝ᵥ A *ᵥ w)
  if cplx then total else 1 / 2 * total

open Classical in
/-- `log_marg_lik_alpha_der` (supervised_qgps.py:321-338).  The last factor is applied if `complex_expand or dtype == float`; a
learner with real parameters has it in any case. -/
noncomputable def alphaDer (cplx half : Bool) (beta : ℝ) (KtK : Matrix n n 𝕜) (y : n → 𝕜) (alpha : n → ℝ) : n → ℝ := fun f =>
  let A := block (regularised half beta KtK alpha) (Active KtK alpha)
  let w := weights pinvh half beta KtK y alpha
  let d : ℝ := if h : Active KtK alpha f then -diagSinv chol pinvh A ⟨f, h⟩ else 0
  let d := if half then d * (1 / 2) else d
  let d := d + 1 / alpha f - RCLike.re (star (w f) * w f)
  if half || !cplx then d * (1 / 2) else d

end Sinv

/-! ## `QGPSLearningExp` -/

/-- The constant of the normal distribution: `π` for complex data, `2 π` for real data. -/
noncomputable def normConst (cplx : Bool) : ℝ := if cplx then Real.pi else 2 * Real.pi

open Classical in
/-- The data-dependent part of `log_marg_lik` of `QGPSLearningExp` (supervised_qgps.py:619-653); `S` are the entries of `self.S_diag`,
which contain the weightings.  With weightings and zero amplitudes the arrays `weightings` and `S_diag[exp_amps != 0]` have different
shapes and NumPy raises (`none`).  (Not modelled: NumPy would broadcast if exactly one amplitude is not zero.) -/
noncomputable def expDataTerm (cplx : Bool) (weightings : Option (ι → ℝ)) (S : ι → ℝ) (amps data : ι → 𝕜) : Option ℝ :=
  let square := ∑ i, if amps i = 0 then 0 else RCLike.re (star (data i) * ((S i : 𝕜) * data i))
  match weightings with
  | none => some (-(∑ i, if amps i = 0 then 0 else Real.log (normConst cplx / S i)) - square)
  | some v =>
    if ∃ i, amps i = 0 then none
    else some (-(∑ i, v i * Real.log (normConst cplx / (S i / v i))) - square)

/-- `self.S_diag` of `setup_fit_noise_dep` (supervised_qgps.py:561-584). -/
noncomputable def expWeights (noise : ℝ) (mode : NoiseMode ι) (weightings : Option (ι → ℝ)) (amps : ι → 𝕜) : ι → ℝ :=
  match weightings with
  | none => noiseWeight noise mode amps
  | some v => fun i => noiseWeight noise mode amps i * v i

section Exp

variable (chol : {m : Type} → [Fintype m] → Matrix m m 𝕜 → Option (Matrix m m 𝕜))
variable (pinvh : {m : Type} → [Fintype m] → Matrix m m 𝕜 → Matrix m m 𝕜)

/-- `QGPSLearningExp.log_marg_lik` after `setup_fit`, without `complex_expand` (supervised_qgps.py:602-616, 560-600, 618-687).  `data`
are the logarithms of the amplitudes minus the contribution of the prior mean (`fitData`). -/
noncomputable def expLogMargLik (cplx : Bool) (noise : ℝ) (mode : NoiseMode ι) (K : Matrix ι n 𝕜) (weightings : Option (ι → ℝ))
    (amps data : ι → 𝕜) (alpha : n → ℝ) : Option ℝ :=
  let S := expWeights noise mode weightings amps
  (expDataTerm cplx weightings S amps data).map
    (evidence chol pinvh cplx false 1 (gram K S) (rhs K (multiplicator S amps data)) alpha)

/-- `QGPSLearningExp.log_marg_lik_alpha_der` after `setup_fit`, without `complex_expand` (supervised_qgps.py:602-616, 560-600, 321-338). -/
noncomputable def expAlphaDer (cplx : Bool) (noise : ℝ) (mode : NoiseMode ι) (K : Matrix ι n 𝕜) (weightings : Option (ι → ℝ))
    (amps data : ι → 𝕜) (alpha : n → ℝ) : n → ℝ :=
  let S := expWeights noise mode weightings amps
  alphaDer chol pinvh cplx false 1 (gram K S) (rhs K (multiplicator S amps data)) alpha

/-- `del_S` (supervised_qgps.py:690-754): the derivative of the variance `1 / S_diag` of a log-amplitude with respect to the noise. -/
noncomputable def delS (noise : ℝ) (mode : NoiseMode ι) (amps : ι → 𝕜) (i : ι) : ℝ :=
  match mode with
  | .target => 1 / (‖amps i‖ ^ 2 * (1 + noise / ‖amps i‖ ^ 2))
  | .reweighted r => 1 / (‖amps i‖ ^ 2 / r i * (1 + noise / (‖amps i‖ ^ 2 / r i)))
  | .iterative pred =>
    1 / (Real.sqrt (4 * noise / ‖pred i‖ ^ 2 + 1) + 1) * 2 / (‖pred i‖ ^ 2 * Real.sqrt (4 * noise / ‖pred i‖ ^ 2 + 1))
  | .iterativeReweighted pred r =>
    1 / (Real.sqrt (4 * noise / (‖pred i‖ ^ 2 / r i) + 1) + 1) * 2
      / (‖pred i‖ ^ 2 / r i * Real.sqrt (4 * noise / (‖pred i‖ ^ 2 / r i) + 1))

/-- `Delta_S` (supervised_qgps.py:756-759). -/
noncomputable def deltaS (noise : ℝ) (mode : NoiseMode ι) (weightings : Option (ι → ℝ)) (amps : ι → 𝕜) (i : ι) : ℝ :=
  let S := expWeights noise mode weightings amps
  match weightings with
  | none => -(S i ^ 2 * delS noise mode amps i)
  | some v => -(S i ^ 2 * delS noise mode amps i) / v i

open Classical in
/-- `QGPSLearningExp.log_marg_lik_noise_der` without `complex_expand` (supervised_qgps.py:756-797), for amplitudes that are not zero. -/
noncomputable def expNoiseDer (cplx : Bool) (noise : ℝ) (mode : NoiseMode ι) (K : Matrix ι n 𝕜) (weightings : Option (ι → ℝ))
    (amps data : ι → 𝕜) (alpha : n → ℝ) : ℝ :=
  let S := expWeights noise mode weightings amps
  let D := deltaS noise mode weightings amps
  let KtK := gram K S
  let act := Active KtK alpha
  let A := block (regularised false 1 KtK alpha) act
  let w : {f // act f} → 𝕜 := fun f => weights pinvh false 1 KtK (rhs K (multiplicator S amps data)) alpha f
  let Kact : Matrix ι {f // act f} 𝕜 := K.submatrix id Subtype.val
  let KtKder : Matrix {f // act f} {f // act f} 𝕜 := block (gram K D) act
  let d : 𝕜 := (KtKder * matSinv chol pinvh A).trace
  let d := d - ∑ i, ((S i * delS noise mode amps i : ℝ) : 𝕜)
  let d := d - ∑ i, star (data i) * ((D i : 𝕜) * data i)
  let d := d - star w ⬝ᵥ KtKder *ᵥ w
  let d := d + 2 * ∑ i, star (data i) * ((D i : 𝕜) * (Kact *ᵥ w) i)
  if cplx then RCLike.re d else 1 / 2 * RCLike.re d

end Exp

/-- `QGPSLearningExp.log_marg_lik` after `setup_fit` with `complex_expand` and complex parameters (supervised_qgps.py:602-616,
560-600, 618-687). -/
noncomputable def expLogMargLikExpand (chol : {m : Type} → [Fintype m] → Matrix m m ℝ → Option (Matrix m m ℝ))
    (pinvh : {m : Type} → [Fintype m] → Matrix m m ℝ → Matrix m m ℝ) (noise : ℝ) (mode : NoiseMode ι) (K : Matrix ι n ℂ)
    (weightings : Option (ι → ℝ)) (amps data : ι → ℂ) (alpha : n ⊕ n → ℝ) : Option ℝ :=
  let S := expWeights noise mode weightings amps
  (expDataTerm true weightings S amps data).map
    (evidence chol pinvh true true 1 (expandMat (gram K S)) (expandVec (rhs K (multiplicator S amps data))) alpha)

/-- `QGPSLearningExp.log_marg_lik_alpha_der` after `setup_fit` with `complex_expand` and complex parameters
(supervised_qgps.py:602-616, 560-600, 321-338). -/
noncomputable def expAlphaDerExpand (chol : {m : Type} → [Fintype m] → Matrix m m ℝ → Option (Matrix m m ℝ))
    (pinvh : {m : Type} → [Fintype m] → Matrix m m ℝ → Matrix m m ℝ) (noise : ℝ) (mode : NoiseMode ι) (K : Matrix ι n ℂ)
    (weightings : Option (ι → ℝ)) (amps data : ι → ℂ) (alpha : n ⊕ n → ℝ) : n ⊕ n → ℝ :=
  let S := expWeights noise mode weightings amps
  alphaDer chol pinvh true true 1 (expandMat (gram K S)) (expandVec (rhs K (multiplicator S amps data))) alpha

open Classical in
/-- `QGPSLearningExp.log_marg_lik_noise_der` with `complex_expand` and complex parameters (supervised_qgps.py:756-797), for
amplitudes that are not zero. -/
noncomputable def expNoiseDerExpand (chol : {m : Type} → [Fintype m] → Matrix m m ℝ → Option (Matrix m m ℝ))
    (pinvh : {m : Type} → [Fintype m] → Matrix m m ℝ → Matrix m m ℝ) (noise : ℝ) (mode : NoiseMode ι) (K : Matrix ι n ℂ)
    (weightings : Option (ι → ℝ)) (amps data : ι → ℂ) (alpha : n ⊕ n → ℝ) : ℝ :=
  let S := expWeights noise mode weightings amps
  let D := deltaS noise mode weightings amps
  let KtK := expandMat (gram K S)
  let act := Active KtK alpha
  let A := block (regularised true 1 KtK alpha) act
  let w : {f // act f} → ℝ := fun f => weights pinvh true 1 KtK (expandVec (rhs K (multiplicator S amps data))) alpha f
  let Kact : Matrix ι {f // act f} ℂ := fun i f => Sum.elim (K i) (fun f => Complex.I * K i f) f.1
  let KtKder : Matrix {f // act f} {f // act f} ℝ := block (expandMat (gram K D)) act
  let d : ℂ := (((KtKder * matSinv chol pinvh A).trace * (1 / 2) : ℝ) : ℂ)
  let d := d - ∑ i, ((S i * delS noise mode amps i : ℝ) : ℂ)
  let d := d - ∑ i, star (data i) * ((D i : ℂ) * data i)
  let d := d - ((star w ⬝ᵥ KtKder *ᵥ w : ℝ) : ℂ)
  let d := d + 2 * ∑ i, star (data i) * ((D i : ℂ) * (Kact *ᵥ fun f => ((w f : ℝ) : ℂ)) i)
  d.re

/-! ## `QGPSLogSpaceFit` -/

/-- The number of data, or the sum of the weightings (supervised_qgps.py:399-412, 1141-1152, 1209-1217). -/
noncomputable def dataCount (weightings : Option (ι → ℝ)) : ℝ :=
  match weightings with
  | none => (Fintype.card ι : ℝ)
  | some v => ∑ i, v i

/-- The data-dependent part of `log_marg_lik` of `QGPSLogSpaceFit` (supervised_qgps.py:1141-1155). -/
noncomputable def logDataTerm (cplx : Bool) (noise : ℝ) (weightings : Option (ι → ℝ)) (data : ι → 𝕜) : ℝ :=
  -(dataCount weightings * Real.log (normConst cplx * noise)) - RCLike.re (∑ i, star (data i) * data i) / noise

/-- The weights of the data in `QGPSLogSpaceFit.setup_fit` (supervised_qgps.py:1122-1130). -/
def logWeights (weightings : Option (ι → ℝ)) : ι → ℝ :=
  match weightings with
  | none => fun _ => 1
  | some v => v

/-- `QGPSLogSpaceFit.log_marg_lik` after `setup_fit`, without `complex_expand`, where `beta = 1 / noise_tilde` as set by
`__init__` and `fit_step` (supervised_qgps.py:1088, 1242, 1112-1138, 1140-1189). -/
noncomputable def logSpaceLogMargLik (chol : {m : Type} → [Fintype m] → Matrix m m 𝕜 → Option (Matrix m m 𝕜))
    (pinvh : {m : Type} → [Fintype m] → Matrix m m 𝕜 → Matrix m m 𝕜) (cplx : Bool) (noise : ℝ) (K : Matrix ι n 𝕜)
    (weightings : Option (ι → ℝ)) (data : ι → 𝕜) (alpha : n → ℝ) : ℝ :=
  evidence chol pinvh cplx false (1 / noise) (gram K (logWeights weightings))
    (rhs K fun i => (logWeights weightings i : 𝕜) * data i) alpha (logDataTerm cplx noise weightings data)

/-- `log_marg_lik_alpha_der` of `QGPSLogSpaceFit` after `setup_fit`, without `complex_expand`
(supervised_qgps.py:1112-1138, 321-338). -/
noncomputable def logSpaceAlphaDer (chol : {m : Type} → [Fintype m] → Matrix m m 𝕜 → Option (Matrix m m 𝕜))
    (pinvh : {m : Type} → [Fintype m] → Matrix m m 𝕜 → Matrix m m 𝕜) (cplx : Bool) (noise : ℝ) (K : Matrix ι n 𝕜)
    (weightings : Option (ι → ℝ)) (data : ι → 𝕜) (alpha : n → ℝ) : n → ℝ :=
  alphaDer chol pinvh cplx false (1 / noise) (gram K (logWeights weightings))
    (rhs K fun i => (logWeights weightings i : 𝕜) * data i) alpha

/-- `QGPSLogSpaceFit.log_marg_lik` after `setup_fit` with `complex_expand` and complex parameters (supervised_qgps.py:1132-1189). -/
noncomputable def logSpaceLogMargLikExpand (chol : {m : Type} → [Fintype m] → Matrix m m ℝ → Option (Matrix m m ℝ))
    (pinvh : {m : Type} → [Fintype m] → Matrix m m ℝ → Matrix m m ℝ) (noise : ℝ) (K : Matrix ι n ℂ)
    (weightings : Option (ι → ℝ)) (data : ι → ℂ) (alpha : n ⊕ n → ℝ) : ℝ :=
  evidence chol pinvh true true (1 / noise) (expandMat (gram K (logWeights weightings)))
    (expandVec (rhs K fun i => (logWeights weightings i : ℂ) * data i)) alpha (logDataTerm true noise weightings data)

/-- `log_marg_lik_alpha_der` of `QGPSLogSpaceFit` after `setup_fit` with `complex_expand` and complex parameters
(supervised_qgps.py:1132-1138, 321-338). -/
noncomputable def logSpaceAlphaDerExpand (chol : {m : Type} → [Fintype m] → Matrix m m ℝ → Option (Matrix m m ℝ))
    (pinvh : {m : Type} → [Fintype m] → Matrix m m ℝ → Matrix m m ℝ) (noise : ℝ) (K : Matrix ι n ℂ)
    (weightings : Option (ι → ℝ)) (data : ι → ℂ) (alpha : n ⊕ n → ℝ) : n ⊕ n → ℝ :=
  alphaDer chol pinvh true true (1 / noise) (expandMat (gram K (logWeights weightings)))
    (expandVec (rhs K fun i => (logWeights weightings i : ℂ) * data i)) alpha

open Classical in
/-- `QGPSLogSpaceFit.log_marg_lik_noise_der` without `complex_expand` (supervised_qgps.py:1192-1228); `pred` is `self.predict(self.confs)`,
the prediction of the parameters before the update. -/
noncomputable def logSpaceNoiseDer (chol : {m : Type} → [Fintype m] → Matrix m m 𝕜 → Option (Matrix m m 𝕜))
    (pinvh : {m : Type} → [Fintype m] → Matrix m m 𝕜 → Matrix m m 𝕜) (cplx : Bool) (noise : ℝ) (K : Matrix ι n 𝕜)
    (weightings : Option (ι → ℝ)) (data pred : ι → 𝕜) (alpha : n → ℝ) : ℝ :=
  let KtK := gram K (logWeights weightings)
  let A := block (regularised false (1 / noise) KtK alpha) (Active KtK alpha)
  let d := -(∑ f : {f // Active KtK alpha f}, (1 - alpha f * diagSinv chol pinvh A f)) * noise
  let d := d + dataCount weightings * noise - ∑ i, logWeights weightings i * ‖data i - pred i‖ ^ 2
  let r : ℝ := -(noise ^ 2) * (if cplx then d else d * (1 / 2))
  r

open Classical in
/-- `QGPSLogSpaceFit.log_marg_lik_noise_der` with `complex_expand` and complex parameters (supervised_qgps.py:1192-1228). -/
noncomputable def logSpaceNoiseDerExpand (chol : {m : Type} → [Fintype m] → Matrix m m ℝ → Option (Matrix m m ℝ))
    (pinvh : {m : Type} → [Fintype m] → Matrix m m ℝ → Matrix m m ℝ) (noise : ℝ) (K : Matrix ι n ℂ)
    (weightings : Option (ι → ℝ)) (data pred : ι → ℂ) (alpha : n ⊕ n → ℝ) : ℝ :=
  let KtK := expandMat (gram K (logWeights weightings))
  let A := block (regularised true (1 / noise) KtK alpha) (Active KtK alpha)
  let d := -(∑ f : {f // Active KtK alpha f}, (1 - alpha f * (diagSinv chol pinvh A f * (1 / 2)))) * noise
  let d := d * (1 / 2)
  let d := d + dataCount weightings * noise - ∑ i, logWeights weightings i * ‖data i - pred i‖ ^ 2
  let r : ℝ := -(noise ^ 2) * d
  r

end GPSKet.MargLik
