import Verif.Model.MargLik
import Mathlib.Algebra.Order.Monoid.Unbundled.WithTop
import Mathlib.Analysis.Real.Sqrt

/-!
# Model of `GPSKet/supervised/supervised_qgps.py`: growing relevance vector machine

Continues `Model/MargLik.lean` (one process, exact arithmetic).  A precision is a real number or `np.PINF` (`⊤`), with which a feature is
removed from the model.  `argmax` stands for `np.argmax`.
-/

namespace GPSKet.GrowingRVM

open Matrix GPSKet.SupervisedFit GPSKet.MargLik
open scoped ComplexOrder

variable {𝕜 : Type} [RCLike 𝕜] {ι n : Type} [Fintype ι] [Fintype n] [DecidableEq n]

/-- A precision as it is used in `setup_fit_alpha_dep`: only the comparison with `alpha_cutoff` (supervised_qgps.py:72, 262) matters
for the precision of a feature that is not active, so that the cutoff itself stands for `np.PINF`. -/
noncomputable def finite (a : WithTop ℝ) : ℝ := a.untopD 1e10

/-- `np.argmax`: the position of a largest entry. -/
def IsArgmax (argmax : (n → WithBot ℝ) → n) : Prop := ∀ (v : n → WithBot ℝ) (f : n), v f ≤ v (argmax v)

section Step

variable (chol : {m : Type} → [Fintype m] → Matrix m m 𝕜 → Option (Matrix m m 𝕜))
variable (pinvh : {m : Type} → [Fintype m] → Matrix m m 𝕜 → Matrix m m 𝕜)

open Classical in
/-- `S` of `compute_sparsity_quantities` (supervised_qgps.py:899-914). -/
noncomputable def sparsity (half : Bool) (beta : ℝ) (KtK : Matrix n n 𝕜) (alpha : n → ℝ) (f : n) : ℝ :=
  let A := block (regularised half beta KtK alpha) (Active KtK alpha)
  RCLike.re ((beta : 𝕜) * KtK f f - (beta : 𝕜) ^ 2 *
    match chol A with
    | some L => ∑ j, ((‖∑ g : {g // Active KtK alpha g}, KtK f g * star (L⁻¹ j g)‖ ^ 2 : ℝ) : 𝕜)
    | none => ∑ g : {g // Active KtK alpha g}, (∑ h : {g // Active KtK alpha g}, KtK f h * pinvh A h g) * KtK f g)

open Classical in
/-- `Q` of `compute_sparsity_quantities` before the real part is taken (supervised_qgps.py:899-912). -/
noncomputable def qualityFull (half : Bool) (beta : ℝ) (KtK : Matrix n n 𝕜) (y : n → 𝕜) (alpha : n → ℝ) (f : n) : 𝕜 :=
  let A := block (regularised half beta KtK alpha) (Active KtK alpha)
  (beta : 𝕜) * y f - (beta : 𝕜) ^ 2 *
    match chol A with
    | some L => ∑ j, (∑ g : {g // Active KtK alpha g}, KtK f g * star (L⁻¹ j g)) * ∑ h : {g // Active KtK alpha g}, L⁻¹ j h * y h
    | none => ∑ g : {g // Active KtK alpha g}, (∑ h : {g // Active KtK alpha g}, KtK f h * pinvh A h g) * y g

/-- `Q` of `compute_sparsity_quantities` (supervised_qgps.py:899-915): only the real part is kept. -/
noncomputable def quality (half : Bool) (beta : ℝ) (KtK : Matrix n n 𝕜) (y : n → 𝕜) (alpha : n → ℝ) (f : n) : ℝ :=
  RCLike.re (qualityFull chol pinvh half beta KtK y alpha f)

open Classical in
/-- `si` of `compute_sparsity_quantities` (supervised_qgps.py:916-946). -/
noncomputable def sparsityFactor (half : Bool) (beta : ℝ) (KtK : Matrix n n 𝕜) (alpha : n → ℝ) (f : n) : ℝ :=
  let S := sparsity chol pinvh half beta KtK alpha f
  if Active KtK alpha f then alpha f * S / (alpha f - if half then 2 * S else S) else S

open Classical in
/-- `qi` of `compute_sparsity_quantities` (supervised_qgps.py:916-946). -/
noncomputable def qualityFactor (half : Bool) (beta : ℝ) (KtK : Matrix n n 𝕜) (y : n → 𝕜) (alpha : n → ℝ) (f : n) : ℝ :=
  let S := sparsity chol pinvh half beta KtK alpha f
  let Q := quality chol pinvh half beta KtK y alpha f
  if Active KtK alpha f then alpha f * Q / (alpha f - if half then 2 * S else S) else Q

/-- `theta` of `update_precisions` (supervised_qgps.py:951). -/
noncomputable def theta (half : Bool) (beta : ℝ) (KtK : Matrix n n 𝕜) (y : n → 𝕜) (alpha : n → ℝ) (f : n) : ℝ :=
  |qualityFactor chol pinvh half beta KtK y alpha f| ^ 2 - sparsityFactor chol pinvh half beta KtK alpha f

/-- `deltaL` of features that can be added (supervised_qgps.py:985); entries that are not finite are replaced by `np.NINF`
(supervised_qgps.py:992). -/
noncomputable def gainAdd (S Q : ℝ) : WithBot ℝ :=
  if S / |Q| ^ 2 ≤ 0 then ⊥ else (((|Q| ^ 2 - S) / S + Real.log (S / |Q| ^ 2) : ℝ) : WithBot ℝ)

open Classical in
/-- `deltaL` of features whose precision changes from `a` to `a'` (supervised_qgps.py:980-989, 992).  For equal precisions `1 / 0` is
infinite and the first term vanishes. -/
noncomputable def gainRecompute (S Q a a' : ℝ) : WithBot ℝ :=
  let delta := 1 / a' - 1 / a
  if a' = 0 then ⊥
  else if delta = 0 then (0 : ℝ)
  else if S + 1 / delta = 0 ∨ 1 + S * delta ≤ 0 then ⊥
  else ((|Q| ^ 2 / (S + 1 / delta) - Real.log (1 + S * delta) : ℝ) : WithBot ℝ)

open Classical in
/-- `deltaL` of features that can be removed (supervised_qgps.py:991-992). -/
noncomputable def gainDelete (S Q a : ℝ) : WithBot ℝ :=
  if S - a = 0 ∨ 1 - S / a ≤ 0 then ⊥ else ((|Q| ^ 2 / (S - a) - Real.log (1 - S / a) : ℝ) : WithBot ℝ)

open Classical in
/-- `deltaL` of `update_precisions` (supervised_qgps.py:948-992). -/
noncomputable def gain (half : Bool) (beta : ℝ) (KtK : Matrix n n 𝕜) (y : n → 𝕜) (alpha : n → ℝ) (f : n) : WithBot ℝ :=
  let S := sparsity chol pinvh half beta KtK alpha f
  let Q := quality chol pinvh half beta KtK y alpha f
  let s := sparsityFactor chol pinvh half beta KtK alpha f
  let th := theta chol pinvh half beta KtK y alpha f
  let a := if half then alpha f / 2 else alpha f
  if Active KtK alpha f then
    if 0 < th then gainRecompute S Q a (s ^ 2 / th) else gainDelete S Q a
  else
    if 0 < th then gainAdd S Q else (0 : ℝ)

open Classical in
/-- One iteration of `fit_step_growing_RVM`: `compute_sparsity_quantities` and `update_precisions` (supervised_qgps.py:1058-1060,
948-1015). -/
noncomputable def updatePrecisions (argmax : (n → WithBot ℝ) → n) (half : Bool) (beta : ℝ) (KtK : Matrix n n 𝕜) (y : n → 𝕜)
    (alpha : n → WithTop ℝ) : n → WithTop ℝ :=
  let a : n → ℝ := fun f => finite (alpha f)
  let f := argmax (gain chol pinvh half beta KtK y a)
  let s := sparsityFactor chol pinvh half beta KtK a f
  let th := theta chol pinvh half beta KtK y a f
  if 0 < th then Function.update alpha f (((if half then 2 * (s ^ 2 / th) else s ^ 2 / th : ℝ)) : WithTop ℝ)
  else if Active KtK a f ∧ 2 ≤ Fintype.card {g // Active KtK a g} then Function.update alpha f ⊤
  else alpha

open Classical in
/-- The choice of the first feature in `fit_step_growing_RVM` (supervised_qgps.py:1034-1055), `first` is the feature 0.  If the
denominator is zero, `alpha_est` is infinite.  For complex parameters the imaginary part of `alpha_est`, which is zero, is discarded. -/
noncomputable def initialPrecisions (argmax : (n → WithBot ℝ) → n) (first : n) (half : Bool) (beta : ℝ) (KtK : Matrix n n 𝕜)
    (y : n → 𝕜) (alpha : n → WithTop ℝ) : n → WithTop ℝ :=
  if ∃ f, Active KtK (fun f => finite (alpha f)) f then alpha
  else if ∃ f, ‖KtK f f‖ < 2 ^ (-23 : ℤ) then Function.update alpha first (((2 : ℝ) ^ (-23 : ℤ) : ℝ) : WithTop ℝ)
  else
    let proj : n → ℝ := fun f => ‖y f‖ ^ 2 / RCLike.re (KtK f f)
    let ind := argmax fun f => (proj f : WithBot ℝ)
    let est := RCLike.re (KtK ind ind) / (proj ind - 1 / beta)
    if proj ind - 1 / beta = 0 then Function.update alpha ind ⊤
    else if 0 < est then Function.update alpha ind ((if half then 2 * est else est : ℝ) : WithTop ℝ)
    else Function.update alpha ind ((if half then 2 else 1 : ℝ) : WithTop ℝ)

/-- The precisions after `fit_step_growing_RVM` with the given number of iterations (supervised_qgps.py:1022-1060). -/
noncomputable def growingPrecisions (argmax : (n → WithBot ℝ) → n) (first : n) (half : Bool) (beta : ℝ) (KtK : Matrix n n 𝕜)
    (y : n → 𝕜) (iterations : ℕ) (alpha : n → WithTop ℝ) : n → WithTop ℝ :=
  (updatePrecisions chol pinvh argmax half beta KtK y)^[iterations] (initialPrecisions argmax first half beta KtK y alpha)

end Step

/-- The precisions after `fit_step_growing_RVM` of `QGPSLogSpaceFit` without `complex_expand` (supervised_qgps.py:1022-1060, 1112-1138). -/
noncomputable def logSpaceGrowing (chol : {m : Type} → [Fintype m] → Matrix m m 𝕜 → Option (Matrix m m 𝕜))
    (pinvh : {m : Type} → [Fintype m] → Matrix m m 𝕜 → Matrix m m 𝕜) (argmax : (n → WithBot ℝ) → n) (first : n) (noise : ℝ)
    (K : Matrix ι n 𝕜) (weightings : Option (ι → ℝ)) (data : ι → 𝕜) (iterations : ℕ) (alpha : n → WithTop ℝ) : n → WithTop ℝ :=
  growingPrecisions chol pinvh argmax first false (1 / noise) (gram K (logWeights weightings))
    (rhs K fun i => (logWeights weightings i : 𝕜) * data i) iterations alpha

/-- The precisions after `fit_step_growing_RVM` of `QGPSLogSpaceFit` with `complex_expand` (supervised_qgps.py:1022-1060, 1112-1138). -/
noncomputable def logSpaceGrowingExpand (chol : {m : Type} → [Fintype m] → Matrix m m ℝ → Option (Matrix m m ℝ))
    (pinvh : {m : Type} → [Fintype m] → Matrix m m ℝ → Matrix m m ℝ) (argmax : (n ⊕ n → WithBot ℝ) → n ⊕ n) (first : n ⊕ n)
    (noise : ℝ) (K : Matrix ι n ℂ) (weightings : Option (ι → ℝ)) (data : ι → ℂ) (iterations : ℕ) (alpha : n ⊕ n → WithTop ℝ) :
    n ⊕ n → WithTop ℝ :=
  growingPrecisions chol pinvh argmax first true (1 / noise) (expandMat (gram K (logWeights weightings)))
    (expandVec (rhs K fun i => (logWeights weightings i : ℂ) * data i)) iterations alpha

/-- The precisions after `fit_step_growing_RVM` of `QGPSLearningExp` without `complex_expand` (supervised_qgps.py:1022-1060, 560-616). -/
noncomputable def expGrowing (chol : {m : Type} → [Fintype m] → Matrix m m 𝕜 → Option (Matrix m m 𝕜))
    (pinvh : {m : Type} → [Fintype m] → Matrix m m 𝕜 → Matrix m m 𝕜) (argmax : (n → WithBot ℝ) → n) (first : n) (noise : ℝ)
    (mode : NoiseMode ι) (K : Matrix ι n 𝕜) (weightings : Option (ι → ℝ)) (amps data : ι → 𝕜) (iterations : ℕ)
    (alpha : n → WithTop ℝ) : n → WithTop ℝ :=
  let S := expWeights noise mode weightings amps
  growingPrecisions chol pinvh argmax first false 1 (gram K S) (rhs K (multiplicator S amps data)) iterations alpha

end GPSKet.GrowingRVM
