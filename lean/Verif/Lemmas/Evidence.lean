import Verif.Lemmas.GaussianIntegral
import Verif.Lemmas.SupervisedFit
import Verif.Spec.Evidence

/-! # The marginal likelihood of a linear model in closed form -/

namespace GPSKet.Evidence

open Matrix MeasureTheory GPSKet.SupervisedFit

variable {ι m : Type} [Fintype ι] [Fintype m] [DecidableEq m]

theorem log_integral {M : Matrix m m ℝ} (hM : M.PosDef) (b : m → ℝ) (c const : ℝ) (hc : 0 < const) (F : (m → ℝ) → ℝ)
    (hF : ∀ w, F w = const * Real.exp (-c) * Real.exp (-(w ⬝ᵥ M *ᵥ w) + 2 * (b ⬝ᵥ w))) :
    0 < ∫ w, F w ∧
    Real.log (∫ w, F w)
      = Real.log const + Fintype.card m / 2 * Real.log Real.pi - 1 / 2 * Real.log M.det + b ⬝ᵥ M⁻¹ *ᵥ b - c := by
  simp only [hF]
  rw [integral_const_mul, GaussianIntegral.integral_quadratic_linear hM]
  have hd := hM.det_pos
  have h1 : 0 < Real.sqrt Real.pi ^ Fintype.card m := pow_pos (Real.sqrt_pos.mpr Real.pi_pos) _
  have h2 : 0 < Real.sqrt M.det := Real.sqrt_pos.mpr hd
  refine ⟨by positivity, ?_⟩
  rw [Real.log_mul (by positivity) (by positivity), Real.log_mul hc.ne' (Real.exp_pos _).ne', Real.log_exp,
    Real.log_mul (by positivity) (Real.exp_pos _).ne', Real.log_exp, Real.log_div h1.ne' h2.ne', Real.log_pow,
    Real.log_sqrt hd.le, Real.log_sqrt Real.pi_pos.le]
  ring

/-- `wᵀ (∑_i S_i k_i k_iᵀ + diag c) w` -/
theorem quad_form (K : Matrix ι m ℝ) (S : ι → ℝ) (c : m → ℝ) (w : m → ℝ) :
    w ⬝ᵥ (gram K S + diagonal c) *ᵥ w = ∑ i, S i * (∑ f, K i f * w f) ^ 2 + ∑ f, c f * w f ^ 2 := by
  rw [add_mulVec, dotProduct_add, gram_mulVec]
  congr 1
  · have := star_dot_conjTranspose K w fun i => ((S i : ℝ) : ℝ) * (K *ᵥ w) i
    rw [star_trivial, star_trivial] at this
    refine this.trans ?_
    apply Finset.sum_congr rfl
    intro i _
    simp only [mulVec, dotProduct]
    show _ * (S i * _) = _
    ring
  · apply Finset.sum_congr rfl
    intro f _
    rw [mulVec_diagonal]
    ring

theorem lin_form (K : Matrix ι m ℝ) (y : ι → ℝ) (w : m → ℝ) :
    rhs K y ⬝ᵥ w = ∑ i, y i * ∑ f, K i f * w f := by
  have := star_dot_conjTranspose K w y
  rw [star_trivial, star_trivial] at this
  rw [dotProduct_comm]
  refine this.trans ?_
  apply Finset.sum_congr rfl
  intro i _
  simp only [mulVec, dotProduct]
  ring

theorem posDef_gram_add (K : Matrix ι m ℝ) (S : ι → ℝ) (hS : ∀ i, 0 ≤ S i) (c : m → ℝ) (hc : ∀ f, 0 < c f) :
    (gram K S + diagonal c).PosDef := by
  classical
  apply Matrix.PosDef.posSemidef_add
  · have : gram K S = Kᴴ * (Matrix.diagonal fun i => S i) * K := by
      unfold gram
      rw [Matrix.mul_assoc]
      congr 1
      ext i f
      rw [Matrix.diagonal_mul]
      rfl
    rw [this]
    apply Matrix.PosSemidef.conjTranspose_mul_mul_same
    apply Matrix.PosSemidef.diagonal
    intro i
    exact hS i
  · exact Matrix.PosDef.diagonal fun f => hc f

theorem log_evidenceReal (K : Matrix ι m ℝ) (S : ι → ℝ) (hS : ∀ i, 0 < S i) (y : ι → ℝ) (a : m → ℝ) (ha : ∀ f, 0 < a f) :
    0 < Spec.evidenceReal K S y a ∧
    Real.log (Spec.evidenceReal K S y a)
      = 1 / 2 * (-(∑ i, Real.log (2 * Real.pi / S i)) - (∑ i, S i * y i ^ 2) - Real.log (gram K S + diagonal a).det
          + (∑ f, Real.log (a f))
          + rhs K (fun i => S i * y i) ⬝ᵥ (gram K S + diagonal a)⁻¹ *ᵥ rhs K (fun i => S i * y i)) := by
  have hA := posDef_gram_add K S (fun i => (hS i).le) a ha
  set A := gram K S + diagonal a with hAdef
  have hM : ((1 / 2 : ℝ) • A).PosDef := hA.smul (by norm_num)
  set b := rhs K (fun i => S i * y i) with hb
  have key := log_integral hM ((1 / 2 : ℝ) • b) (1 / 2 * ∑ i, S i * y i ^ 2)
    ((∏ i, Real.sqrt (S i / (2 * Real.pi))) * ∏ f, Real.sqrt (a f / (2 * Real.pi)))
    (mul_pos (Finset.prod_pos fun i _ => Real.sqrt_pos.mpr (div_pos (hS i) Real.two_pi_pos))
      (Finset.prod_pos fun f _ => Real.sqrt_pos.mpr (div_pos (ha f) Real.two_pi_pos)))
    (fun w => (∏ i, Spec.normalDensity (S i) (y i - ∑ f, K i f * w f)) * ∏ f, Spec.normalDensity (a f) (w f)) (by
      intro w
      simp only [Spec.normalDensity, Finset.prod_mul_distrib, ← Real.exp_sum]
      rw [smul_mulVec, dotProduct_smul, hAdef, quad_form, smul_dotProduct, hb, lin_form]
      rw [mul_mul_mul_comm, ← Real.exp_add, mul_assoc _ (Real.exp _) (Real.exp _), ← Real.exp_add]
      congr 2
      simp only [smul_eq_mul, mul_add, neg_add]
      have e : (∑ i, -(S i / 2) * (y i - ∑ f, K i f * w f) ^ 2)
          = -(1 / 2 * ∑ i, S i * y i ^ 2) - (1 / 2 * ∑ i, S i * (∑ f, K i f * w f) ^ 2)
            + 2 * (1 / 2 * ∑ i, S i * y i * ∑ f, K i f * w f) := by
        rw [Finset.mul_sum, Finset.mul_sum, Finset.mul_sum, Finset.mul_sum, ← Finset.sum_neg_distrib, ← Finset.sum_sub_distrib,
          ← Finset.sum_add_distrib]
        exact Finset.sum_congr rfl fun i _ => by ring
      have e2 : (∑ f, -(a f / 2) * w f ^ 2) = -(1 / 2 * ∑ f, a f * w f ^ 2) := by
        rw [Finset.mul_sum, ← Finset.sum_neg_distrib]
        exact Finset.sum_congr rfl fun i _ => by ring
      rw [e, e2]
      ring)
  refine ⟨key.1, key.2.trans ?_⟩
  have hinv : ((1 / 2 : ℝ) • A)⁻¹ = (2 : ℝ) • A⁻¹ := by
    have hu : IsUnit A.det := hA.det_pos.ne'.isUnit
    apply inv_eq_right_inv
    rw [smul_mul_smul_comm, mul_nonsing_inv _ hu]
    norm_num
  rw [hinv, det_smul, Real.log_mul (by positivity) hA.det_pos.ne', Real.log_pow, smul_mulVec, mulVec_smul, dotProduct_smul,
    dotProduct_smul, smul_dotProduct, Real.log_mul (Finset.prod_pos fun i _ => Real.sqrt_pos.mpr (div_pos (hS i) Real.two_pi_pos)).ne'
      (Finset.prod_pos fun f _ => Real.sqrt_pos.mpr (div_pos (ha f) Real.two_pi_pos)).ne',
    Real.log_prod fun i _ => (Real.sqrt_pos.mpr (div_pos (hS i) Real.two_pi_pos)).ne',
    Real.log_prod fun f _ => (Real.sqrt_pos.mpr (div_pos (ha f) Real.two_pi_pos)).ne']
  have e1 : ∀ i, Real.log (Real.sqrt (S i / (2 * Real.pi))) = -(1 / 2) * Real.log (2 * Real.pi / S i) := by
    intro i
    rw [Real.log_sqrt (div_pos (hS i) Real.two_pi_pos).le, ← inv_div (2 * Real.pi) (S i), Real.log_inv]
    ring
  have e2 : ∀ f, Real.log (Real.sqrt (a f / (2 * Real.pi))) = 1 / 2 * Real.log (a f) - 1 / 2 * (Real.log 2 + Real.log Real.pi) := by
    intro f
    rw [Real.log_sqrt (div_pos (ha f) Real.two_pi_pos).le, Real.log_div (ha f).ne' Real.two_pi_pos.ne',
      Real.log_mul two_ne_zero Real.pi_pos.ne']
    ring
  simp only [e1, e2, Finset.sum_sub_distrib, ← Finset.mul_sum, Finset.sum_const, Finset.card_univ, nsmul_eq_mul, smul_eq_mul]
  rw [one_div, Real.log_inv]
  ring

/-- The real part of the Gram matrix of complex features. -/
noncomputable def gramRe (K : Matrix ι m ℂ) (S : ι → ℝ) : Matrix m m ℝ := (gram K S).map Complex.re

/-- The columns of a complex matrix, real and imaginary parts on top of each other. -/
def stackRows (K : Matrix ι m ℂ) : Matrix (ι ⊕ ι) m ℝ := fun i f => Sum.elim (fun i => (K i f).re) (fun i => (K i f).im) i

theorem gramRe_eq (K : Matrix ι m ℂ) (S : ι → ℝ) : gramRe K S = gram (stackRows K) (Sum.elim S S) := by
  ext f g
  simp only [gramRe, gram, Matrix.map_apply, Matrix.mul_apply, Complex.re_sum, Matrix.conjTranspose_apply, Matrix.of_apply,
    Fintype.sum_sum_type, stackRows, Sum.elim_inl, Sum.elim_inr, ← Finset.sum_add_distrib, star_trivial]
  apply Finset.sum_congr rfl
  intro i _
  simp

theorem rhsRe_eq (K : Matrix ι m ℂ) (y : ι → ℂ) :
    (fun f => (rhs K y f).re) = rhs (stackRows K) (Sum.elim (fun i => (y i).re) fun i => (y i).im) := by
  funext f
  simp only [rhs, Matrix.mulVec, dotProduct, Complex.re_sum, Matrix.conjTranspose_apply, Fintype.sum_sum_type, stackRows, Sum.elim_inl,
    Sum.elim_inr, ← Finset.sum_add_distrib, star_trivial]
  apply Finset.sum_congr rfl
  intro i _
  simp

theorem log_evidenceMixed (K : Matrix ι m ℂ) (S : ι → ℝ) (hS : ∀ i, 0 < S i) (y : ι → ℂ) (a : m → ℝ) (ha : ∀ f, 0 < a f) :
    let A := gramRe K S + diagonal fun f => a f / 2
    let b : m → ℝ := fun f => (rhs K (fun i => (S i : ℂ) * y i) f).re
    0 < Spec.evidenceMixed K S y a ∧
    Real.log (Spec.evidenceMixed K S y a)
      = -(∑ i, Real.log (Real.pi / S i)) - (∑ i, S i * ‖y i‖ ^ 2) - 1 / 2 * Real.log A.det
          + 1 / 2 * (∑ f, Real.log (a f / 2)) + b ⬝ᵥ A⁻¹ *ᵥ b := by
  intro A b
  have hA : A.PosDef := by
    show (gramRe K S + diagonal fun f => a f / 2).PosDef
    rw [gramRe_eq]
    exact posDef_gram_add _ _ (by rintro (i | i) <;> exact (hS i).le) _ fun f => half_pos (ha f)
  have hc1 : ∀ i, 0 < S i / Real.pi := fun i => div_pos (hS i) Real.pi_pos
  have hc2 : ∀ f, 0 < Real.sqrt (a f / (2 * Real.pi)) := fun f => Real.sqrt_pos.mpr (div_pos (ha f) Real.two_pi_pos)
  have key := log_integral hA b (∑ i, S i * ‖y i‖ ^ 2)
    ((∏ i, S i / Real.pi) * ∏ f, Real.sqrt (a f / (2 * Real.pi)))
    (mul_pos (Finset.prod_pos fun i _ => hc1 i) (Finset.prod_pos fun f _ => hc2 f))
    (fun w => (∏ i, Spec.circularDensity (S i) (y i - ∑ f, K i f * (w f : ℂ))) * ∏ f, Spec.normalDensity (a f) (w f)) (by
      intro w
      simp only [Spec.normalDensity, Spec.circularDensity, Finset.prod_mul_distrib, ← Real.exp_sum]
      have hb : b = rhs (stackRows K) (Sum.elim (fun i => ((S i : ℂ) * y i).re) fun i => ((S i : ℂ) * y i).im) := rhsRe_eq _ _
      have hA' : A = gram (stackRows K) (Sum.elim S S) + diagonal fun f => a f / 2 := by
        rw [← gramRe_eq]
      rw [hA', quad_form, hb, lin_form]
      rw [mul_mul_mul_comm, ← Real.exp_add, mul_assoc _ (Real.exp _) (Real.exp _), ← Real.exp_add]
      congr 2
      rw [Fintype.sum_sum_type, Fintype.sum_sum_type]
      simp only [Sum.elim_inl, Sum.elim_inr, stackRows]
      have e : ∀ i, ‖y i - ∑ f, K i f * (w f : ℂ)‖ ^ 2
          = ((y i).re - ∑ f, (K i f).re * w f) ^ 2 + ((y i).im - ∑ f, (K i f).im * w f) ^ 2 := by
        intro i
        rw [← Complex.normSq_eq_norm_sq, Complex.normSq_apply]
        simp only [Complex.sub_re, Complex.sub_im, Complex.re_sum, Complex.im_sum, Complex.mul_re, Complex.mul_im, Complex.ofReal_re,
          Complex.ofReal_im, mul_zero, sub_zero, zero_add]
        ring
      have e2 : ∀ i, ‖y i‖ ^ 2 = (y i).re ^ 2 + (y i).im ^ 2 := by
        intro i
        rw [← Complex.normSq_eq_norm_sq, Complex.normSq_apply]
        ring
      simp only [e, e2, Complex.re_ofReal_mul, Complex.im_ofReal_mul]
      have e3 : (∑ f, -(a f / 2) * w f ^ 2) = -∑ f, a f / 2 * w f ^ 2 := by
        rw [← Finset.sum_neg_distrib]
        exact Finset.sum_congr rfl fun i _ => by ring
      rw [e3]
      have e4 : (∑ i, -S i * (((y i).re - ∑ f, (K i f).re * w f) ^ 2 + ((y i).im - ∑ f, (K i f).im * w f) ^ 2))
          = -(∑ i, S i * ((y i).re ^ 2 + (y i).im ^ 2))
            - (∑ i, S i * (∑ f, (K i f).re * w f) ^ 2 + ∑ i, S i * (∑ f, (K i f).im * w f) ^ 2)
            + 2 * (∑ i, S i * (y i).re * ∑ f, (K i f).re * w f + ∑ i, S i * (y i).im * ∑ f, (K i f).im * w f) := by
        rw [← Finset.sum_add_distrib, ← Finset.sum_add_distrib, Finset.mul_sum, ← Finset.sum_neg_distrib, ← Finset.sum_sub_distrib,
          ← Finset.sum_add_distrib]
        exact Finset.sum_congr rfl fun i _ => by ring
      rw [e4]
      ring)
  refine ⟨key.1, key.2.trans ?_⟩
  rw [Real.log_mul (Finset.prod_pos fun i _ => hc1 i).ne' (Finset.prod_pos fun f _ => hc2 f).ne',
    Real.log_prod fun i _ => (hc1 i).ne', Real.log_prod fun f _ => (hc2 f).ne']
  have e1 : ∀ i, Real.log (S i / Real.pi) = -Real.log (Real.pi / S i) := by
    intro i
    rw [← inv_div, Real.log_inv]
  have e2 : ∀ f, Real.log (Real.sqrt (a f / (2 * Real.pi))) = 1 / 2 * Real.log (a f / 2) - 1 / 2 * Real.log Real.pi := by
    intro f
    rw [Real.log_sqrt (div_pos (ha f) Real.two_pi_pos).le, ← div_div, Real.log_div (half_pos (ha f)).ne' Real.pi_pos.ne']
    ring
  simp only [e1, e2, Finset.sum_sub_distrib, ← Finset.mul_sum, Finset.sum_const, Finset.card_univ, nsmul_eq_mul,
    Finset.sum_neg_distrib]
  ring

/-- Real and imaginary parts of a complex vector. -/
noncomputable def split (m : Type) : (m → ℂ) ≃ᵐ (m ⊕ m → ℝ) :=
  ((MeasurableEquiv.arrowCongr' (Equiv.refl m) Complex.measurableEquivRealProd).trans
    (MeasurableEquiv.arrowProdEquivProdArrow ℝ ℝ m)).trans (MeasurableEquiv.sumPiEquivProdPi fun _ => ℝ).symm

omit [Fintype m] [DecidableEq m] in
theorem split_inl (w : m → ℂ) (f : m) : split m w (Sum.inl f) = (w f).re := rfl

omit [Fintype m] [DecidableEq m] in
theorem split_inr (w : m → ℂ) (f : m) : split m w (Sum.inr f) = (w f).im := rfl

omit [DecidableEq m] in
theorem split_preserving : MeasurePreserving (split m) := by
  unfold split
  refine MeasurePreserving.trans (MeasurePreserving.trans ?_ (volume_measurePreserving_arrowProdEquivProdArrow ℝ ℝ m)) ?_
  · exact volume_preserving_arrowCongr' _ _ Complex.volume_preserving_equiv_real_prod
  · exact volume_measurePreserving_sumPiEquivProdPi_symm fun _ => ℝ

/-- The features of the real and of the imaginary parts of the weights. -/
noncomputable def twice (K : Matrix ι m ℂ) : Matrix ι (m ⊕ m) ℂ := fun i f => Sum.elim (K i) (fun f => Complex.I * K i f) f

theorem circular_split (a : ℝ) (ha : 0 < a) (z : ℂ) :
    Spec.circularDensity a z = Spec.normalDensity (2 * a) z.re * Spec.normalDensity (2 * a) z.im := by
  unfold Spec.circularDensity Spec.normalDensity
  rw [mul_mul_mul_comm, Real.mul_self_sqrt (by positivity), ← Real.exp_add, ← Complex.normSq_eq_norm_sq, Complex.normSq_apply]
  congr 1
  · rw [mul_div_mul_left _ _ two_ne_zero]
  · congr 1
    ring

omit [DecidableEq m] in
theorem evidenceComplex_eq (K : Matrix ι m ℂ) (S : ι → ℝ) (y : ι → ℂ) (a : m → ℝ) (ha : ∀ f, 0 < a f) :
    Spec.evidenceComplex K S y a = Spec.evidenceMixed (twice K) S y (Sum.elim (fun f => 2 * a f) fun f => 2 * a f) := by
  unfold Spec.evidenceComplex Spec.evidenceMixed
  rw [← split_preserving.integral_comp']
  congr 1
  funext w
  rw [Fintype.prod_sum_type]
  simp only [Sum.elim_inl, Sum.elim_inr, split_inl, split_inr]
  rw [← Finset.prod_mul_distrib]
  congr 1
  · apply Finset.prod_congr rfl
    intro i _
    congr 2
    rw [Fintype.sum_sum_type, ← Finset.sum_add_distrib]
    apply Finset.sum_congr rfl
    intro f _
    simp only [twice, Sum.elim_inl, Sum.elim_inr, split_inl, split_inr]
    conv_lhs => rw [← Complex.re_add_im (w f)]
    ring
  · exact Finset.prod_congr rfl fun f _ => circular_split _ (ha f) _

omit [Fintype m] [DecidableEq m] in
theorem gramRe_twice (K : Matrix ι m ℂ) (S : ι → ℝ) : gramRe (twice K) S = expandMat (gram K S) := by
  ext f g
  rcases f with f | f <;> rcases g with g | g <;>
    simp [gramRe, expandMat, gram, twice, Matrix.mul_apply, Complex.re_sum, Complex.im_sum, Finset.sum_neg_distrib,
      Finset.sum_add_distrib] <;>
    ring

omit [Fintype m] [DecidableEq m] in
theorem rhsRe_twice (K : Matrix ι m ℂ) (y : ι → ℂ) : (fun f => (rhs (twice K) y f).re) = expandVec (rhs K y) := by
  funext f
  rcases f with f | f <;>
    simp [expandVec, rhs, twice, Matrix.mulVec, dotProduct, Complex.re_sum, Complex.im_sum, Finset.sum_add_distrib] <;>
    ring

omit [DecidableEq m] in
theorem expand_mulVec (A : Matrix m m ℂ) (x : m → ℂ) : expandMat A *ᵥ expandVec x = expandVec (A *ᵥ x) := by
  funext f
  rcases f with f | f <;>
    simp [expandVec, expandMat, Matrix.mulVec, dotProduct, Complex.re_sum, Complex.im_sum, Matrix.fromBlocks,
      Finset.sum_add_distrib] <;>
    ring

omit [DecidableEq m] in
theorem expand_dot (x y : m → ℂ) : expandVec x ⬝ᵥ expandVec y = (star x ⬝ᵥ y).re := by
  simp [expandVec, dotProduct, Complex.re_sum, Fintype.sum_sum_type, ← Finset.sum_add_distrib]

theorem det_expand (A : Matrix m m ℂ) : (expandMat A).det = ‖A.det‖ ^ 2 := by
  have h : ((expandMat A).map (Complex.ofRealHom : ℝ →+* ℂ)).det = A.det * (A.map (starRingEnd ℂ)).det := by
    have e : (fromBlocks 1 (Complex.I • (1 : Matrix m m ℂ)) 0 1) * (expandMat A).map (Complex.ofRealHom : ℝ →+* ℂ)
          * (fromBlocks 1 (-Complex.I • (1 : Matrix m m ℂ)) 0 1)
        = fromBlocks A 0 ((A.map Complex.im).map Complex.ofReal) (A.map (starRingEnd ℂ)) := by
      unfold expandMat
      rw [fromBlocks_map, fromBlocks_multiply, fromBlocks_multiply]
      congr 1
      · ext i j
        simp
        conv_rhs => rw [← Complex.re_add_im (A i j)]
        ring
      · ext i j
        simp
        ring_nf
        simp
      · ext i j
        simp
      · ext i j
        apply Complex.ext <;> simp
    have h2 := congrArg Matrix.det e
    rw [det_mul, det_mul, det_fromBlocks_zero₂₁, det_fromBlocks_zero₂₁, det_fromBlocks_zero₁₂, det_one, one_mul, one_mul,
      mul_one] at h2
    exact h2
  have h3 : (A.map (starRingEnd ℂ)).det = starRingEnd ℂ A.det := (RingHom.map_det (starRingEnd ℂ) A).symm
  rw [h3, Complex.mul_conj, ← RingHom.mapMatrix_apply, ← RingHom.map_det, Complex.normSq_eq_norm_sq] at h
  exact Complex.ofReal_injective h

theorem log_evidenceComplex (K : Matrix ι m ℂ) (S : ι → ℝ) (hS : ∀ i, 0 < S i) (y : ι → ℂ) (a : m → ℝ) (ha : ∀ f, 0 < a f) :
    let A := gram K S + diagonal fun f => (a f : ℂ)
    let b := rhs K (fun i => (S i : ℂ) * y i)
    0 < Spec.evidenceComplex K S y a ∧
    Real.log (Spec.evidenceComplex K S y a)
      = -(∑ i, Real.log (Real.pi / S i)) - (∑ i, S i * ‖y i‖ ^ 2) - Real.log ‖A.det‖
          + (∑ f, Real.log (a f)) + (star b ⬝ᵥ A⁻¹ *ᵥ b).re := by
  intro A b
  have key := log_evidenceMixed (twice K) S hS y (Sum.elim (fun f => 2 * a f) fun f => 2 * a f)
    (by rintro (f | f) <;> simp [ha f])
  rw [evidenceComplex_eq K S y a ha]
  have hM : gramRe (twice K) S + diagonal (fun f => (Sum.elim (fun f => 2 * a f) (fun f => 2 * a f) f : ℝ) / 2) = expandMat A := by
    rw [gramRe_twice]
    ext f g
    rcases f with f | f <;> rcases g with g | g <;>
      simp [expandMat, A, diagonal_apply, Matrix.fromBlocks] <;> split_ifs <;> simp
  simp only [hM, rhsRe_twice] at key
  have hpos : 0 < (expandMat A).det := by
    rw [← hM, gramRe_eq]
    exact (posDef_gram_add _ _ (by rintro (i | i) <;> exact (hS i).le) _
      (by rintro (f | f) <;> simp [ha f])).det_pos
  have hA : A.det ≠ 0 := by
    rw [det_expand] at hpos
    intro h
    rw [h] at hpos
    simp at hpos
  refine ⟨key.1, key.2.trans ?_⟩
  have hq : expandVec b ⬝ᵥ (expandMat A)⁻¹ *ᵥ expandVec b = (star b ⬝ᵥ A⁻¹ *ᵥ b).re := by
    rw [← expand_dot]
    congr 1
    have : expandVec b = expandMat A *ᵥ expandVec (A⁻¹ *ᵥ b) := by
      rw [expand_mulVec, mulVec_mulVec, mul_nonsing_inv _ hA.isUnit, one_mulVec]
    rw [this, mulVec_mulVec, nonsing_inv_mul _ hpos.ne'.isUnit, one_mulVec]
  rw [hq, det_expand, Real.log_pow, Fintype.sum_sum_type]
  simp only [Sum.elim_inl, Sum.elim_inr, mul_div_cancel_left₀ _ (two_ne_zero' ℝ)]
  push_cast
  ring

end GPSKet.Evidence
