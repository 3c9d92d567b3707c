import Verif.Model.GenLinFit
import Verif.Lemmas.PosDefOpen
import Verif.Lemmas.MatrixDeriv
import Mathlib.Algebra.Order.Star.Real
import Verif.Spec.Evidence

/-! # C92: the derivative of the evidence of the generalised linear model with respect to the noise -/

namespace GPSKet.GenLinFit

open Matrix GPSKet.SupervisedFit GPSKet.MargLik

variable {ι n : Type} [Fintype ι] [Fintype n] [DecidableEq n]
variable {chol : {m : Type} → [Fintype m] → Matrix m m ℝ → Option (Matrix m m ℝ)}
variable {pinvh : {m : Type} → [Fintype m] → Matrix m m ℝ → Matrix m m ℝ}

/-- The part of the Hessian that is proportional to `beta`. -/
noncomputable def dataHess (K : ι → n → ℂ) (v : ι → ℝ) (data : ι → ℂ) (w : n → ℝ) : Matrix n n ℝ :=
  Matrix.of (GenLin.hessian 1 K v data (fun _ => 0) w)

theorem hessian_apply (beta : ℝ) (K : ι → n → ℂ) (v : ι → ℝ) (data : ι → ℂ) (c w : n → ℝ) (f g : n) :
    GenLin.hessian beta K v data c w f g = beta * dataHess K v data w f g + if f = g then c f else 0 := by
  unfold dataHess
  rw [Matrix.of_apply]
  unfold GenLin.hessian
  simp only [Complex.add_re, Complex.re_ofReal_mul, Complex.ofReal_one, one_mul]
  by_cases h : f = g
  · simp [h]
  · simp [h]

theorem hessBlock_apply (cplx : Bool) (beta : ℝ) (K : ι → n → ℂ) (v : ι → ℝ) (data : ι → ℂ) (alpha w : n → ℝ) :
    hessBlock cplx beta K v data alpha w = beta • block (dataHess K v data w) (Active K alpha)
      + Matrix.diagonal fun f : {f // Active K alpha f} => penalty cplx alpha f := by
  ext f g
  show GenLin.hessian beta K v data (penalty cplx alpha) w f.1 g.1 = _
  rw [hessian_apply]
  simp only [Matrix.add_apply, Matrix.smul_apply, smul_eq_mul, Matrix.diagonal_apply, Subtype.ext_iff]
  rfl

open Classical in
/-- The derivative of the logarithm of the determinant. -/
theorem logDet_deriv (cplx : Bool) (beta : ℝ) (hb : 0 < beta) (K : ι → n → ℂ) (v : ι → ℝ) (data : ι → ℂ) (alpha w : n → ℝ)
    (hpos : (hessBlock cplx beta K v data alpha w).PosDef) :
    (∀ᶠ b in nhds beta, (hessBlock cplx b K v data alpha w).PosDef) ∧
    HasDerivAt (fun b => Real.log ‖(hessBlock cplx b K v data alpha w).det‖)
      ((∑ f : {f // Active K alpha f}, (1 - penalty cplx alpha f * (hessBlock cplx beta K v data alpha w)⁻¹ f f)) / beta) beta := by
  set H := block (dataHess K v data w) (Active K alpha) with hH
  set A := hessBlock cplx beta K v data alpha w with hA
  have hlin : ∀ b, hessBlock cplx b K v data alpha w = A + (b - beta) • H := by
    intro b
    rw [hA, hessBlock_apply, hessBlock_apply, sub_smul]
    abel
  have hHh : H.IsHermitian := by
    have h1 : H = beta⁻¹ • (A - Matrix.diagonal fun f : {f // Active K alpha f} => penalty cplx alpha f) := by
      rw [hA, hessBlock_apply, add_sub_cancel_right, smul_smul, inv_mul_cancel₀ hb.ne', one_smul]
    have h2 : (A - Matrix.diagonal fun f : {f // Active K alpha f} => penalty cplx alpha f).IsHermitian :=
      hpos.isHermitian.sub (isHermitian_diagonal _)
    rw [h1, IsHermitian, conjTranspose_smul, h2]
    simp
  have hev : ∀ᶠ b in nhds beta, (hessBlock cplx b K v data alpha w).PosDef := by
    filter_upwards [posDef_eventually A H hpos hHh beta] with b hb'
    rw [hlin]
    exact hb'
  refine ⟨hev, ?_⟩
  have hd := MatrixDeriv.hasDerivAt_log_det (fun b => hessBlock cplx b K v data alpha w) H beta (fun i j => by
    simp only [hlin, Matrix.add_apply, Matrix.smul_apply, smul_eq_mul]
    have := (((hasDerivAt_id beta).sub_const beta).mul_const (H i j)).const_add (A i j)
    simpa using this) hev
  refine hd.congr_deriv ?_
  have hdet : IsUnit A.det := hpos.det_pos.ne'.isUnit
  have h1 : beta • (A⁻¹ * H) = 1 - A⁻¹ * Matrix.diagonal fun f : {f // Active K alpha f} => penalty cplx alpha f := by
    rw [← Matrix.mul_smul, ← Matrix.nonsing_inv_mul A hdet, ← mul_sub]
    congr 1
    rw [hA, hessBlock_apply, add_sub_cancel_right]
  have h2 := congrArg Matrix.trace h1
  rw [Matrix.trace_smul, smul_eq_mul] at h2
  rw [eq_div_iff hb.ne', mul_comm]
  show beta * (A⁻¹ * H).trace = _
  rw [h2, Matrix.trace]
  refine Finset.sum_congr rfl fun f _ => ?_
  rw [Matrix.diag_apply, Matrix.sub_apply, Matrix.one_apply_eq, Matrix.mul_diagonal, mul_comm]

open Classical in
/-- The derivative of the reported evidence. -/
theorem evidence_deriv (hchol : CholeskySpec chol) (cplx : Bool) (beta : ℝ) (hb : 0 < beta) (K : ι → n → ℂ) (v : ι → ℝ) (data : ι → ℂ)
    (alpha w : n → ℝ) (hpos : (hessBlock cplx beta K v data alpha w).PosDef) :
    HasDerivAt (fun b => logMargLik chol pinvh cplx b K v data alpha w)
      ((if cplx then 1 else 1 / 2) * ((∑ i, v i) / beta
        - (if cplx then 1 / 2 else 1) * ((∑ f : {f // Active K alpha f},
            (1 - penalty cplx alpha f * (hessBlock cplx beta K v data alpha w)⁻¹ f f)) / beta)
        - ∑ i, v i * ‖data i - predActive K alpha w i‖ ^ 2)) beta := by
  obtain ⟨hev, hd⟩ := logDet_deriv cplx beta hb K v data alpha w hpos
  have hlog : HasDerivAt (fun b => (Real.log b - Real.log (normConst cplx)) * ∑ i, v i) ((∑ i, v i) / beta) beta := by
    have := ((Real.hasDerivAt_log hb.ne').sub_const (Real.log (normConst cplx))).mul_const (∑ i, v i)
    refine this.congr_deriv ?_
    rw [inv_mul_eq_div]
  have hloss : HasDerivAt (fun b => b * ∑ i, v i * ‖data i - predActive K alpha w i‖ ^ 2)
      (∑ i, v i * ‖data i - predActive K alpha w i‖ ^ 2) beta := by
    simpa using (hasDerivAt_id beta).mul_const (∑ i, v i * ‖data i - predActive K alpha w i‖ ^ 2)
  cases cplx with
  | false =>
    have h1 := (((hlog.sub hd).add_const (∑ f : {f // Active K alpha f}, Real.log (alpha f))).sub
      (hloss.add_const (∑ f : {f // Active K alpha f}, penalty false alpha f * |w f| ^ 2))).mul_const (1 / 2)
    refine (h1.congr_of_eventuallyEq ?_).congr_deriv ?_
    · filter_upwards [hev] with b hb'
      unfold logMargLik
      simp only [logDetSinv_eq (pinvh := pinvh) hb' (hchol _), Bool.false_eq_true, if_false]
      simp only [Pi.sub_apply]
      ring
    · simp only [Bool.false_eq_true, if_false]
      ring
  | true =>
    have h1 := (((hlog.sub (hd.const_mul (1 / 2))).add_const (-(1 / 2 * (Fintype.card {f // Active K alpha f} * Real.log 2))
      + 1 / 2 * ∑ f : {f // Active K alpha f}, Real.log (alpha f))).sub
      (hloss.add_const (∑ f : {f // Active K alpha f}, penalty true alpha f * |w f| ^ 2)))
    refine (h1.congr_of_eventuallyEq ?_).congr_deriv ?_
    · filter_upwards [hev] with b hb'
      unfold logMargLik
      simp only [logDetSinv_half (pinvh := pinvh) hb' (hchol _), if_true]
      simp only [Pi.sub_apply]
      ring
    · simp only [if_true]
      ring

open Classical in
/-- The reported derivative. -/
theorem betaDer_eq (hchol : CholeskySpec chol) (cplx : Bool) (beta : ℝ) (K : ι → n → ℂ) (v : ι → ℝ) (data : ι → ℂ)
    (alpha w : n → ℝ) (hpos : (hessBlock cplx beta K v data alpha w).PosDef) :
    betaDer chol pinvh cplx beta K v data alpha w
      = (if cplx then 1 else 1 / 2) * ((∑ i, v i) / beta
        - (∑ f : {f // Active K alpha f}, (1 - penalty cplx alpha f * (hessBlock cplx beta K v data alpha w)⁻¹ f f)) / beta
        - ∑ i, v i * ‖data i - predActive K alpha w i‖ ^ 2) := by
  unfold betaDer
  simp only [diagSinv_eq (pinvh := pinvh) hpos (hchol _)]
  cases cplx with
  | false =>
    simp only [Bool.false_eq_true, if_false, penalty, RCLike.re_to_real]
    ring
  | true =>
    simp only [if_true, penalty, RCLike.re_to_real, one_mul]
    congr 3
    refine Finset.sum_congr rfl fun f _ => ?_
    ring

theorem log_normalDensity (a x : ℝ) (ha : 0 < a) :
    Real.log (Spec.normalDensity a x) = 1 / 2 * (Real.log a - Real.log (2 * Real.pi)) - a / 2 * x ^ 2 := by
  have hp : (0 : ℝ) < 2 * Real.pi := by positivity
  unfold Spec.normalDensity
  rw [Real.log_mul (Real.sqrt_ne_zero'.mpr (div_pos ha hp)) (Real.exp_ne_zero _), Real.log_exp, Real.log_sqrt (div_pos ha hp).le,
    Real.log_div ha.ne' hp.ne']
  ring

open Classical in
/-- C92: the value for real parameters is Laplace's approximation of the logarithm of the evidence around the parameters `w`: the logarithm
of the likelihood of the data (each counted with its weighting) plus that of the prior density, plus the logarithm of the Gaussian volume
`sqrt ((2 π)^k / det H)` with the Hessian `H`. -/
theorem C92_value (hchol : CholeskySpec chol) (beta : ℝ) (hb : 0 < beta) (K : Matrix ι n ℝ) (v : ι → ℝ) (data : ι → ℂ)
    (alpha w : n → ℝ) (ha : ∀ f, 0 < alpha f) (hpos : (hessBlock false beta (cast K) v data alpha w).PosDef) :
    logMargLik chol pinvh false beta (cast K) v data alpha w
      = (∑ i, v i * (1 / 2 * Real.log (beta / (2 * Real.pi))
            - beta / 2 * ‖data i - Complex.exp (∑ f : {f // Active (cast K) alpha f}, (K i f * w f : ℝ))‖ ^ 2))
        + (∑ f : {f // Active (cast K) alpha f}, Real.log (Spec.normalDensity (alpha f) (w f)))
        + 1 / 2 * (Fintype.card {f // Active (cast K) alpha f} * Real.log (2 * Real.pi)
            - Real.log (hessBlock false beta (cast K) v data alpha w).det) := by
  have hp : (0 : ℝ) < 2 * Real.pi := by positivity
  unfold logMargLik
  simp only [logDetSinv_eq (pinvh := pinvh) hpos (hchol _), Bool.false_eq_true, if_false, normConst, penalty,
    log_normalDensity _ _ (ha _), sq_abs, Real.log_div hb.ne' hp.ne', Real.norm_eq_abs, Real.log_abs]
  have h1 : ∀ i, predActive (cast K) alpha w i = Complex.exp (∑ f : {f // Active (cast K) alpha f}, (K i f * w f : ℝ)) := by
    intro i
    unfold predActive
    push_cast
    rfl
  simp only [h1, mul_sub, Finset.sum_sub_distrib, Finset.sum_const, Finset.card_univ, nsmul_eq_mul, ← Finset.sum_mul, ← Finset.mul_sum]
  have h2 : ∀ i, v i * (beta / 2 * ‖data i - Complex.exp (∑ f : {f // Active (cast K) alpha f}, (K i f * w f : ℝ))‖ ^ 2)
      = beta / 2 * (v i * ‖data i - Complex.exp (∑ f : {f // Active (cast K) alpha f}, (K i f * w f : ℝ))‖ ^ 2) := fun i => by ring
  have h3 : ∀ f : {f // Active (cast K) alpha f}, alpha f / 2 * w f ^ 2 = 1 / 2 * (alpha f * w f ^ 2) := fun f => by ring
  simp only [h2, h3, ← Finset.mul_sum]
  ring

open Classical in
/-- C92: the value for complex parameters, whose real and imaginary parts are `w ∘ inl` and `w ∘ inr`.  The Hessian that the code
computes is one half of the second derivative of the negative logarithm of the posterior. -/
theorem C92_value_complex (hchol : CholeskySpec chol) (beta : ℝ) (hb : 0 < beta) (K : ι → n → ℂ) (v : ι → ℝ) (data : ι → ℂ)
    (alpha w : n ⊕ n → ℝ) (ha : ∀ f, 0 < alpha f) (hpos : (hessBlock true beta (expandK K) v data alpha w).PosDef) :
    logMargLik chol pinvh true beta (expandK K) v data alpha w
      = (∑ i, v i * (Real.log (beta / Real.pi)
            - beta * ‖data i - Complex.exp (∑ f : {f // Active (expandK K) alpha f},
                (Sum.elim (fun g => K i g * w (Sum.inl g)) (fun g => K i g * (Complex.I * w (Sum.inr g))) f.1 : ℂ))‖ ^ 2))
        + (∑ f : {f // Active (expandK K) alpha f}, Real.log (Spec.normalDensity (alpha f) (w f)))
        + 1 / 2 * (Fintype.card {f // Active (expandK K) alpha f} * Real.log (2 * Real.pi)
            - Real.log ((2 : ℝ) • hessBlock true beta (expandK K) v data alpha w).det) := by
  have hp : (0 : ℝ) < Real.pi := Real.pi_pos
  have hp2 : (0 : ℝ) < 2 * Real.pi := by positivity
  have hdet : Real.log ((2 : ℝ) • hessBlock true beta (expandK K) v data alpha w).det
      = Fintype.card {f // Active (expandK K) alpha f} * Real.log 2 + Real.log (hessBlock true beta (expandK K) v data alpha w).det := by
    rw [Matrix.det_smul, Real.log_mul (by positivity) hpos.det_pos.ne', Real.log_pow]
  unfold logMargLik
  rw [hdet]
  simp only [logDetSinv_half (pinvh := pinvh) hpos (hchol _), if_true, normConst, penalty,
    log_normalDensity _ _ (ha _), sq_abs, Real.log_div hb.ne' hp.ne', Real.norm_eq_abs, Real.log_abs]
  have h1 : ∀ i, predActive (expandK K) alpha w i = Complex.exp (∑ f : {f // Active (expandK K) alpha f},
      (Sum.elim (fun g => K i g * w (Sum.inl g)) (fun g => K i g * (Complex.I * w (Sum.inr g))) f.1 : ℂ)) := by
    intro i
    unfold predActive
    congr 1
    refine Finset.sum_congr rfl fun f _ => ?_
    rcases f with ⟨f | f, hf⟩
    · rfl
    · simp only [expandK, Sum.elim_inr]; ring
  simp only [h1, mul_sub, Finset.sum_sub_distrib, Finset.sum_const, Finset.card_univ, nsmul_eq_mul, ← Finset.sum_mul, ← Finset.mul_sum]
  have h2 : ∀ a : ι → ℝ, (∑ i, v i * (beta * a i)) = beta * ∑ i, v i * a i := fun a => by
    rw [Finset.mul_sum]; exact Finset.sum_congr rfl fun i _ => by ring
  rw [h2]
  ring

/-- C92 (real parameters): wherever the Cholesky decomposition of the Hessian succeeds, the reported derivative of the evidence with
respect to `beta` is its derivative, for fixed parameters and precisions. -/
theorem C92_partial (hchol : CholeskySpec chol) (beta : ℝ) (hb : 0 < beta) (K : Matrix ι n ℝ) (v : ι → ℝ) (data : ι → ℂ)
    (alpha w : n → ℝ) (hpos : (hessBlock false beta (cast K) v data alpha w).PosDef) :
    HasDerivAt (fun b => logMargLik chol pinvh false b (cast K) v data alpha w)
      (betaDer chol pinvh false beta (cast K) v data alpha w) beta := by
  rw [betaDer_eq hchol false beta (cast K) v data alpha w hpos]
  refine (evidence_deriv hchol false beta hb (cast K) v data alpha w hpos).congr_deriv ?_
  simp only [Bool.false_eq_true, if_false, one_mul]

open Classical in
/-- C92, complex parameters: the term of the Hessian enters the reported derivative twice. -/
theorem C92_complex (hchol : CholeskySpec chol) (beta : ℝ) (hb : 0 < beta) (K : ι → n → ℂ) (v : ι → ℝ) (data : ι → ℂ)
    (alpha w : n ⊕ n → ℝ) (hpos : (hessBlock true beta (expandK K) v data alpha w).PosDef) :
    HasDerivAt (fun b => logMargLik chol pinvh true b (expandK K) v data alpha w)
      (betaDer chol pinvh true beta (expandK K) v data alpha w
        + 1 / 2 * (∑ f : {f // Active (expandK K) alpha f},
          (1 - alpha f / 2 * (hessBlock true beta (expandK K) v data alpha w)⁻¹ f f)) / beta) beta := by
  rw [betaDer_eq hchol true beta (expandK K) v data alpha w hpos]
  refine (evidence_deriv hchol true beta hb (expandK K) v data alpha w hpos).congr_deriv ?_
  simp only [if_true, penalty]
  ring

/-- C92 fails for complex parameters: one configuration with amplitude one, one feature with value one, parameter zero. -/
theorem C92_fails (hchol : CholeskySpec chol) :
    let K : Unit → Unit → ℂ := fun _ _ => 1
    let w : Unit ⊕ Unit → ℝ := fun _ => 0
    (hessBlock true 1 (expandK K) (fun _ => 1) (fun _ => 1) (fun _ => 1) w).PosDef ∧
    ¬ HasDerivAt (fun b => logMargLik chol pinvh true b (expandK K) (fun _ => 1) (fun _ => 1) (fun _ => 1) w)
      (betaDer chol pinvh true 1 (expandK K) (fun _ => 1) (fun _ => 1) (fun _ => 1) w) 1 := by
  classical
  intro K w
  have hact : ∀ f, Active (expandK K) (fun _ => 1) f := by
    intro f
    rcases f with f | f <;> constructor <;> norm_num [Valid, expandK, K]
  have hA : hessBlock true 1 (expandK K) (fun _ => 1) (fun _ => 1) (fun _ => 1) w = (3 / 2 : ℝ) • 1 := by
    ext ⟨f, hf⟩ ⟨g, hg⟩
    show GenLin.hessian 1 (expandK K) (fun _ => 1) (fun _ => 1) (penalty true fun _ => 1) w f g = _
    rcases f with f | f <;> rcases g with g | g <;>
      simp [GenLin.hessian, expandK, K, w, penalty] <;> norm_num
  have hpos : (hessBlock true 1 (expandK K) (fun _ => 1) (fun _ => 1) (fun _ => 1) w).PosDef := by
    rw [hA]
    exact PosDef.one.smul (by norm_num)
  refine ⟨hpos, fun h => ?_⟩
  have h1 := (C92_complex (pinvh := pinvh) hchol 1 one_pos K (fun _ => 1) (fun _ => 1) (fun _ => 1) w hpos).unique h
  have hinv : (hessBlock true 1 (expandK K) (fun _ => 1) (fun _ => 1) (fun _ => 1) w)⁻¹ = (2 / 3 : ℝ) • 1 := by
    rw [hA]
    refine inv_eq_right_inv ?_
    rw [smul_mul_smul_comm, one_mul]
    norm_num
  rw [add_eq_left] at h1
  simp only [hinv, Matrix.smul_apply, Matrix.one_apply_eq, smul_eq_mul] at h1
  rw [Finset.sum_const, nsmul_eq_mul] at h1
  have hc : (0 : ℝ) < (Finset.univ : Finset {f // Active (expandK K) (fun _ => 1) f}).card := by
    exact_mod_cast Finset.card_pos.mpr ⟨(⟨Sum.inl (), hact _⟩ : {f // Active (expandK K) (fun _ => 1) f}), Finset.mem_univ _⟩
  generalize ((Finset.univ : Finset {f // Active (expandK K) (fun _ => 1) f}).card : ℝ) = c at h1 hc
  norm_num at h1
  linarith

/-- The hypotheses of `C92_partial` are met by one configuration with amplitude one, one feature with value one, parameter zero. -/
example : (hessBlock false 1 (cast (fun _ _ => 1 : Matrix Unit Unit ℝ)) (fun _ => 1) (fun _ => 1) (fun _ => 1) (fun _ => 0)).PosDef
    ∧ ∀ f : Unit, Active (cast (fun _ _ => 1 : Matrix Unit Unit ℝ)) (fun _ => 1) f := by
  classical
  constructor
  · have hA : hessBlock false 1 (cast (fun _ _ => 1 : Matrix Unit Unit ℝ)) (fun _ => 1) (fun _ => 1) (fun _ => 1) (fun _ => 0)
        = (2 : ℝ) • 1 := by
      ext ⟨f, hf⟩ ⟨g, hg⟩
      show GenLin.hessian 1 (cast (fun _ _ => 1)) (fun _ => 1) (fun _ => 1) (penalty false fun _ => 1) (fun _ => 0) f g = _
      simp [GenLin.hessian, cast, penalty]
      norm_num
    rw [hA]
    exact PosDef.one.smul (by norm_num)
  · intro f
    constructor <;> norm_num [Valid, cast]

end GPSKet.GenLinFit
