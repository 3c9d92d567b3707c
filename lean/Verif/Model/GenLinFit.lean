import Verif.Model.GenLin
import Verif.Model.MargLik

/-!
# Model of `QGPSGenLinMod` in `GPSKet/supervised/supervised_qgps.py`: initial fits and marginal likelihood

Continues `Model/GenLin.lean` (one process, exact arithmetic, `precomputed_features` off, no bias).  The reweighted least-squares
steps are only available for real parameters (supervised_qgps.py:1400-1401); the rest is modelled for real and complex parameters.
-/

namespace GPSKet.GenLinFit

open Matrix GPSKet.SupervisedFit GPSKet.MargLik

variable {ι n : Type} [Fintype ι] [Fintype n] [DecidableEq n]

/-- `self.valid_kern` of `QGPSGenLinMod` (supervised_qgps.py:1362). -/
def Valid (K : ι → n → ℂ) (f : n) : Prop := 1e-10 < ∑ i, ‖K i f‖

/-- `self.active_elements` of `QGPSGenLinMod` (supervised_qgps.py:1340, 1362-1363). -/
def Active (K : ι → n → ℂ) (alpha : n → ℝ) (f : n) : Prop := alpha f < 1e10 ∧ Valid K f

/-- `self.K` of a learner with real parameters, as a complex matrix. -/
def cast (K : Matrix ι n ℝ) : ι → n → ℂ := fun i f => (K i f : ℂ)

open Classical in
/-- `weights[active] = solve(KtK_alpha[active, active], y[active])` (supervised_qgps.py:1390-1394, 1420-1440); the Cholesky decomposition
and `np.linalg.lstsq` (whose `rcond` is not modelled) solve a system with a positive definite matrix; for other matrices the result of
`lstsq` is arbitrary here. -/
noncomputable def solveInto (lstsq : {m : Type} → [Fintype m] → Matrix m m ℝ → (m → ℝ) → m → ℝ) (act : n → Prop) (A : Matrix n n ℝ)
    (y w : n → ℝ) : n → ℝ := fun f =>
  let B := block A act
  let b : {f // act f} → ℝ := fun g => y g
  if h : act f then (if B.PosDef then (B⁻¹ *ᵥ b) ⟨f, h⟩ else lstsq B b ⟨f, h⟩) else w f

/-- The fit of log-amplitudes of `log_fit_init` (supervised_qgps.py:1365-1394) for positive `expAmps`: `S_diag`, `KtK`, `y` and the
assignment of the weights. -/
noncomputable def logFitInit (lstsq : {m : Type} → [Fintype m] → Matrix m m ℝ → (m → ℝ) → m → ℝ) (noise : ℝ) (K : Matrix ι n ℝ)
    (weightings expAmps : ι → ℝ) (alpha w : n → ℝ) : n → ℝ :=
  let S := fun i => (if noise = 0 then 1 else 1 / Real.log (1 + noise / |expAmps i| ^ 2)) * weightings i
  solveInto lstsq (Active (cast K) alpha) (gram K S + Matrix.diagonal alpha) (rhs K fun i => S i * Real.log (expAmps i)) w

/-- One iteration of the iteratively reweighted least squares (supervised_qgps.py:1403-1440). -/
noncomputable def irlsStep (lstsq : {m : Type} → [Fintype m] → Matrix m m ℝ → (m → ℝ) → m → ℝ) (noise : ℝ) (K : Matrix ι n ℝ)
    (weightings fitData : ι → ℝ) (alpha w : n → ℝ) : n → ℝ :=
  let pred := fun i => Real.exp ((K *ᵥ w) i)
  let e := fun i => (fitData i - pred i) / pred i
  let z := fun i => Real.log (pred i) + e i
  let S := fun i => weightings i * |pred i| ^ 2 / noise
  solveInto lstsq (Active (cast K) alpha) (gram K S + Matrix.diagonal alpha) (rhs K fun i => S i * z i) w

open Classical in
/-- `QGPSGenLinMod.fit_step` for real parameters without a minimiser and without optimisation of the precisions and the noise
(supervised_qgps.py:1293-1331, 1365-1440, 1567-1609), with the initial fits as requested: the parameters at the reference sites.
`newton` is the Newton step, see `GenLin.setup`. -/
noncomputable def fitStep (lstsq : {m : Type} → [Fintype m] → Matrix m m ℝ → (m → ℝ) → m → ℝ) (newton : ℕ → (n → ℝ) → (n → ℝ))
    (noise : ℝ) (K : Matrix ι n ℝ) (weightings : Option (ι → ℝ)) (amps : ι → ℝ) (alpha : n → ℝ) (logInit : Bool) (irls : ℕ)
    (prior old : n → ℝ) : n → ℝ :=
  let prefactor := fun i => Real.exp (∑ f, prior f * K i f)
  let fitData := fun i => amps i / prefactor i
  let v := (GenLin.setupWeightings (fun i => (prefactor i : ℂ)) weightings).1
  let adjust := fun w : n → ℝ =>
    (irlsStep lstsq noise K v fitData alpha)^[irls] (if logInit then logFitInit lstsq noise K v fitData alpha w else w)
  GenLin.fitStep (fun f => decide (Valid (cast K) f)) (fun _ f => decide (Active (cast K) alpha f)) newton ⟨adjust, none⟩ 0 prior old

open Classical in
/-- `QGPSGenLinMod.fit_step` for complex parameters (then `complex_expand` is set, supervised_qgps.py:1273-1276) with `log_fit_init` and
without a minimiser and without optimisation of the precisions and the noise (supervised_qgps.py:1293-1394, 1567-1609): real weights for
the real and the imaginary parts, new parameters at the reference sites.  The prior mean is real here. -/
noncomputable def fitStepComplex (lstsq : {m : Type} → [Fintype m] → Matrix m m ℝ → (m → ℝ) → m → ℝ)
    (newton : ℕ → (n ⊕ n → ℝ) → (n ⊕ n → ℝ)) (noise : ℝ) (K : Matrix ι n ℂ) (weightings : Option (ι → ℝ)) (amps : ι → ℂ)
    (alpha : n ⊕ n → ℝ) (prior : n → ℝ) (old : n → ℂ) : n → ℂ :=
  let prefactor := fun i => Complex.exp (∑ f, (prior f : ℂ) * K i f)
  let expAmps := fun i => amps i / prefactor i
  let v := (GenLin.setupWeightings prefactor weightings).1
  let expanded : ι → n ⊕ n → ℂ := fun i => Sum.elim (K i) fun f => Complex.I * K i f
  let S := fun i => (if noise = 0 then 1 else 1 / Real.log (1 + noise / ‖expAmps i‖ ^ 2)) * v i
  let KtK := expandMat (gram K S)
  let y := expandVec (rhs K fun i => (S i : ℂ) * Complex.log (expAmps i))
  let logInit := solveInto lstsq (Active expanded alpha) (KtK + Matrix.diagonal fun f => alpha f / 2) y
  let oldW : n ⊕ n → ℝ := Sum.elim (fun f => (old f - prior f).re) (fun f => (old f - prior f).im)
  let w := GenLin.fitStep (fun f => decide (Valid expanded f)) (fun _ f => decide (Active expanded alpha f)) newton ⟨logInit, none⟩ 0
    (fun _ => 0) oldW
  fun f => ((w (Sum.inl f) + prior f : ℝ) : ℂ) + Complex.I * (w (Sum.inr f) : ℂ)

/-! ## The marginal likelihood -/

section Evidence

variable (chol : {m : Type} → [Fintype m] → Matrix m m ℝ → Option (Matrix m m ℝ))
variable (pinvh : {m : Type} → [Fintype m] → Matrix m m ℝ → Matrix m m ℝ)

/-- The regularisation in loss and Hessian: `alpha`, or half of it for complex parameters (supervised_qgps.py:1446-1484). -/
noncomputable def penalty (cplx : Bool) (alpha : n → ℝ) : n → ℝ := fun f => if cplx then alpha f / 2 else alpha f

/-- `self.K`, or `np.hstack((self.K, 1j * self.K))` for complex parameters (supervised_qgps.py:1357-1360). -/
def expandK (K : ι → n → ℂ) : ι → n ⊕ n → ℂ := fun i => Sum.elim (K i) fun f => Complex.I * K i f

/-- The active block of `self.KtK_alpha = get_hessian(weights)` (supervised_qgps.py:1471-1492, 1505). -/
noncomputable def hessBlock (cplx : Bool) (beta : ℝ) (K : ι → n → ℂ) (weightings : ι → ℝ) (fitData : ι → ℂ) (alpha w : n → ℝ) :
    Matrix {f // Active K alpha f} {f // Active K alpha f} ℝ :=
  block (Matrix.of (GenLin.hessian beta K weightings fitData (penalty cplx alpha) w)) (Active K alpha)

open Classical in
/-- `pred` of `log_marg_lik` (supervised_qgps.py:1638-1646): only active features. -/
noncomputable def predActive (K : ι → n → ℂ) (alpha w : n → ℝ) (i : ι) : ℂ :=
  Complex.exp (∑ f : {f // Active K alpha f}, K i f * (w f : ℂ))

open Classical in
/-- `QGPSGenLinMod.log_marg_lik` (supervised_qgps.py:1611-1663) for `cplx` (then `K` is expanded) or real parameters; the Hessian was
computed for the weights `w` (line 1492).  `self.weights` are these weights at the active features. -/
noncomputable def logMargLik (cplx : Bool) (beta : ℝ) (K : ι → n → ℂ) (weightings : ι → ℝ) (fitData : ι → ℂ) (alpha w : n → ℝ) : ℝ :=
  let N := ∑ i, weightings i
  let l := (Real.log beta - Real.log (normConst cplx)) * N
  let l := l + logDetSinv chol pinvh cplx (hessBlock cplx beta K weightings fitData alpha w)
  let logAlpha := ∑ f : {f // Active K alpha f}, Real.log (alpha f)
  let l := l + (if cplx then 1 / 2 * logAlpha else logAlpha)
  let loss := beta * ∑ i, weightings i * ‖fitData i - predActive K alpha w i‖ ^ 2
  let loss := loss + ∑ f : {f // Active K alpha f}, penalty cplx alpha f * |w f| ^ 2
  let l := l - loss
  if cplx then l else l * (1 / 2)

open Classical in
/-- `QGPSGenLinMod.log_marg_lik_beta_der` (supervised_qgps.py:1666-1700). -/
noncomputable def betaDer (cplx : Bool) (beta : ℝ) (K : ι → n → ℂ) (weightings : ι → ℝ) (fitData : ι → ℂ) (alpha w : n → ℝ) : ℝ :=
  let N := ∑ i, weightings i
  let d := N / beta
  let diag := fun f => diagSinv chol pinvh (hessBlock cplx beta K weightings fitData alpha w) f
  let diag := fun f => if cplx then diag f * (1 / 2) else diag f
  let gamma := fun f : {f // Active K alpha f} => 1 - alpha f * diag f
  let d := d - (∑ f, gamma f) / beta
  let d := d - ∑ i, weightings i * ‖fitData i - predActive K alpha w i‖ ^ 2
  if cplx then d else d * (1 / 2)

end Evidence

end GPSKet.GenLinFit
