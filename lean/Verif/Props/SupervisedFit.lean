import Verif.Lemmas.SupervisedFit
import Verif.Spec.Ridge

/-! # C56: a supervised fit step solves the regularised least-squares problem -/

namespace GPSKet.SupervisedFit

open Matrix
open scoped ComplexOrder

variable {𝕜 : Type} [RCLike 𝕜] {ι n : Type} [Fintype ι] [Fintype n] [DecidableEq n]

theorem gram_diag (K : Matrix ι n 𝕜) (S : ι → ℝ) (f : n) : gram K S f f = ((Spec.occurrence K S f : ℝ) : 𝕜) := by
  simp only [gram, Matrix.mul_apply, Matrix.conjTranspose_apply, Matrix.of_apply, Spec.occurrence]
  push_cast
  apply Finset.sum_congr rfl
  intro i _
  rw [mul_left_comm, RCLike.star_def, RCLike.conj_mul]

theorem valid_iff (K : Matrix ι n 𝕜) (S : ι → ℝ) (hS : ∀ i, 0 ≤ S i) (f : n) :
    Valid (gram K S) f ↔ 1e-10 < Spec.occurrence K S f := by
  have h0 : 0 ≤ Spec.occurrence K S f := Finset.sum_nonneg fun i _ => mul_nonneg (hS i) (sq_nonneg _)
  rw [Valid, gram_diag, RCLike.norm_ofReal, abs_of_nonneg h0]

theorem gram_posSemidef (K : Matrix ι n 𝕜) (S : ι → ℝ) (hS : ∀ i, 0 ≤ S i) : (gram K S).PosSemidef := by
  classical
  have : gram K S = Kᴴ * (Matrix.diagonal fun i => (S i : 𝕜)) * K := by
    unfold gram
    rw [Matrix.mul_assoc]
    congr 1
    ext i f
    rw [Matrix.diagonal_mul]
    rfl
  rw [this]
  apply Matrix.PosSemidef.conjTranspose_mul_mul_same
  apply Matrix.PosSemidef.diagonal
  intro i
  exact RCLike.ofReal_nonneg.mpr (hS i)

theorem block_posDef (half : Bool) (beta : ℝ) (hb : 0 < beta) (K : Matrix ι n 𝕜) (S : ι → ℝ) (hS : ∀ i, 0 ≤ S i) (alpha : n → ℝ)
    (ha : ∀ f, 0 < alpha f) : (block (regularised half beta (gram K S) alpha) (Active (gram K S) alpha)).PosDef := by
  classical
  have h1 : (((beta : 𝕜) • gram K S).submatrix (Subtype.val : {f // Active (gram K S) alpha f} → n) Subtype.val).PosSemidef := by
    apply Matrix.PosSemidef.submatrix
    exact (gram_posSemidef K S hS).smul (RCLike.ofReal_nonneg.mpr hb.le)
  have h2 : (Matrix.diagonal fun f : {f // Active (gram K S) alpha f} =>
      ((if half then alpha f / 2 else alpha f : ℝ) : 𝕜)).PosDef := by
    apply Matrix.PosDef.diagonal
    intro f
    apply RCLike.ofReal_pos.mpr
    cases half
    · exact ha f
    · exact half_pos (ha f)
  have h3 := Matrix.PosDef.posSemidef_add h1 h2
  convert h3 using 1
  ext f g
  simp only [block, regularised, Matrix.submatrix_apply, Matrix.add_apply, Matrix.diagonal_apply, Subtype.ext_iff]

/-- The loss, up to a constant, is the quadratic form of the solver. -/
theorem loss_eq_quad (beta : ℝ) (K : Matrix ι n 𝕜) (S : ι → ℝ) (y : ι → 𝕜) (c : n → ℝ) (v : n → 𝕜) :
    Spec.ridgeLoss beta K S y c 0 v = quad beta K S (fun i => (S i : 𝕜) * y i) c v + beta * ∑ i, S i * ‖y i‖ ^ 2 := by
  unfold Spec.ridgeLoss quad
  have : ∀ i, S i * ‖y i - ∑ f, K i f * v f‖ ^ 2
      = S i * ‖(K *ᵥ v) i‖ ^ 2 - 2 * RCLike.re (star ((K *ᵥ v) i) * ((S i : 𝕜) * y i)) + S i * ‖y i‖ ^ 2 := by
    intro i
    have e : y i - ∑ f, K i f * v f = y i + (-(K *ᵥ v) i) := by rw [sub_eq_add_neg]; rfl
    rw [e, norm_sq_add, norm_neg, star_neg, neg_mul, map_neg, mul_left_comm (star _), RCLike.re_ofReal_mul]
    ring
  simp only [this, Finset.sum_add_distrib, Finset.sum_sub_distrib, ← Finset.mul_sum, Pi.zero_apply, sub_zero]
  ring

/-- The loss around a prior mean. -/
theorem loss_prior (beta : ℝ) (K : Matrix ι n 𝕜) (S : ι → ℝ) (y : ι → 𝕜) (c : n → ℝ) (prior v : n → 𝕜) :
    Spec.ridgeLoss beta K S y c prior (prior + v) = Spec.ridgeLoss beta K S (fitData K y prior) c 0 v := by
  unfold Spec.ridgeLoss fitData
  congr 2
  · apply Finset.sum_congr rfl
    intro i _
    congr 3
    simp only [Pi.add_apply, mul_add, Finset.sum_add_distrib]
    rw [sub_sub]
    congr 2
    exact Finset.sum_congr rfl fun f _ => mul_comm _ _
  · simp

/-- The weights are zero off the active features and minimise the quadratic form on them. -/
theorem weights_min (pinvh : {m : Type} → [Fintype m] → Matrix m m 𝕜 → Matrix m m 𝕜) (half : Bool) (beta : ℝ) (hb : 0 < beta)
    (K : Matrix ι n 𝕜) (S : ι → ℝ) (hS : ∀ i, 0 ≤ S i) (m : ι → 𝕜) (alpha : n → ℝ) (ha : ∀ f, 0 < alpha f) (v : n → 𝕜)
    (hv : ∀ f, ¬ Active (gram K S) alpha f → v f = 0) :
    let w := weights pinvh half beta (gram K S) (rhs K m) alpha
    let c : n → ℝ := fun f => if half then alpha f / 2 else alpha f
    quad beta K S m c w ≤ quad beta K S m c v ∧ (quad beta K S m c v ≤ quad beta K S m c w → v = w) := by
  intro w c
  have hc : ∀ f, 0 < c f := by
    intro f
    show 0 < if half then alpha f / 2 else alpha f
    cases half
    · exact ha f
    · exact half_pos (ha f)
  have hw0 : ∀ f, ¬ Active (gram K S) alpha f → w f = 0 := by
    intro f hf
    show weights _ _ _ _ _ _ f = 0
    unfold weights
    simp only [dif_neg hf]
  have key := quad_add beta K S m c w (v - w)
  have hz : (∑ f, star ((v - w) f) * ((beta : 𝕜) * (gram K S *ᵥ w) f + (c f : 𝕜) * w f - (beta : 𝕜) * rhs K m f)) = 0 := by
    apply Finset.sum_eq_zero
    intro f _
    by_cases hf : Active (gram K S) alpha f
    · rw [normal_equations pinvh half beta (gram K S) (rhs K m) alpha (block_posDef half beta hb K S hS alpha ha) f hf,
        sub_self, mul_zero]
    · rw [Pi.sub_apply, hv f hf, hw0 f hf, sub_zero, star_zero, zero_mul]
  rw [hz, map_zero, mul_zero, add_zero, add_sub_cancel] at key
  have h1 : 0 ≤ beta * ∑ i, S i * ‖(K *ᵥ (v - w)) i‖ ^ 2 :=
    mul_nonneg hb.le (Finset.sum_nonneg fun i _ => mul_nonneg (hS i) (sq_nonneg _))
  have h2 : 0 ≤ ∑ f, c f * ‖(v - w) f‖ ^ 2 := Finset.sum_nonneg fun f _ => mul_nonneg (hc f).le (sq_nonneg _)
  refine ⟨by rw [key]; linarith, fun hle => ?_⟩
  have h3 : ∑ f, c f * ‖(v - w) f‖ ^ 2 = 0 := by rw [key] at hle; linarith
  rw [Finset.sum_eq_zero_iff_of_nonneg fun f _ => mul_nonneg (hc f).le (sq_nonneg _)] at h3
  funext f
  have h4 := h3 f (Finset.mem_univ f)
  rcases mul_eq_zero.mp h4 with h | h
  · exact absurd h (hc f).ne'
  · rw [sq_eq_zero_iff, norm_eq_zero] at h
    exact sub_eq_zero.mp h

/-- C56 (parameters without bias, without `complex_expand`): let a feature take part in the fit if it occurs in the data with weight
above 1e-10 and its precision is below 1e10.  A log-space fit step leaves the parameters of features that do not occur; sets those
with a larger precision to the prior mean; and gives the others the values that, together with the prior mean for all those that
do not take part, are the unique minimiser of the regularised weighted squared error.  All positive precisions, all
weightings, all kernels and data, any dtype. -/
theorem C56 (pinvh : {m : Type} → [Fintype m] → Matrix m m 𝕜 → Matrix m m 𝕜) (beta : ℝ) (hb : 0 < beta)
    (K : Matrix ι n 𝕜) (S : ι → ℝ) (hS : ∀ i, 0 ≤ S i) (logAmps : ι → 𝕜) (alpha : n → ℝ) (ha : ∀ f, 0 < alpha f)
    (prior old : n → 𝕜) :
    let new := logSpaceStep pinvh beta K S logAmps alpha prior old
    let takesPart := fun f => 1e-10 < Spec.occurrence K S f ∧ alpha f < 1e10
    (∀ f, ¬ 1e-10 < Spec.occurrence K S f → new f = old f) ∧
    (∀ f, 1e-10 < Spec.occurrence K S f → ¬ alpha f < 1e10 → new f = prior f) ∧
    ∀ best : n → 𝕜, (∀ f, takesPart f → best f = new f) → (∀ f, ¬ takesPart f → best f = prior f) →
      ∀ theta : n → 𝕜, (∀ f, ¬ takesPart f → theta f = prior f) → theta ≠ best →
        Spec.ridgeLoss beta K S logAmps alpha prior best < Spec.ridgeLoss beta K S logAmps alpha prior theta := by
  intro new takesPart
  have hact : ∀ f, Active (gram K S) alpha f ↔ takesPart f := by
    intro f
    rw [Active, valid_iff K S hS, and_comm]
  set w := weights pinvh false beta (gram K S) (rhs K fun i => (S i : 𝕜) * fitData K logAmps prior i) alpha with hw
  have hnew : ∀ f, 1e-10 < Spec.occurrence K S f → new f = w f + prior f := by
    intro f hf
    show updated _ _ _ _ f = _
    rw [updated, if_pos ((valid_iff K S hS f).mpr hf)]
  have hw0 : ∀ f, ¬ takesPart f → w f = 0 := by
    intro f hf
    rw [← hact] at hf
    rw [hw]
    unfold weights
    simp only [dif_neg hf]
  refine ⟨?_, ?_, ?_⟩
  · intro f hf
    show updated _ _ _ _ f = _
    rw [updated, if_neg (fun h => hf ((valid_iff K S hS f).mp h)), sub_add_cancel]
  · intro f hf hna
    rw [hnew f hf, hw0 f (fun h => hna h.2), zero_add]
  · intro best h1 h2 theta h3 hne
    have hbest : best = prior + w := by
      funext f
      by_cases hf : takesPart f
      · rw [h1 f hf, hnew f hf.1, Pi.add_apply, add_comm]
      · rw [h2 f hf, Pi.add_apply, hw0 f hf, add_zero]
    have htheta : theta = prior + (theta - prior) := by rw [add_sub_cancel]
    obtain ⟨-, hm⟩ := weights_min pinvh false beta hb K S hS (fun i => (S i : 𝕜) * fitData K logAmps prior i) alpha ha
      (theta - prior) (fun f hf => by rw [hact] at hf; rw [Pi.sub_apply, h3 f hf, sub_self])
    rw [htheta, hbest, loss_prior, loss_prior, loss_eq_quad, loss_eq_quad]
    by_contra hlt
    apply hne
    have := hm (by
      simp only [Bool.false_eq_true, if_false]
      linarith)
    rw [htheta, this, hbest]

/-- The features with the column of ones for the bias. -/
def withOnes (K : Matrix ι n 𝕜) : Matrix ι (n ⊕ Unit) 𝕜 := fun i => Sum.elim (K i) fun _ => 1

/-- C56 with a bias: if the total weight of the data exceeds 1e-10, a fit step with a bias is a fit step in which the bias is one more
parameter with feature 1 and prior mean 0.  So `C56` says what it computes. -/
theorem C56_bias (pinvh : {m : Type} → [Fintype m] → Matrix m m 𝕜 → Matrix m m 𝕜) (beta : ℝ)
    (K : Matrix ι n 𝕜) (S : ι → ℝ) (hS : ∀ i, 0 ≤ S i) (hocc : 1e-10 < ∑ i, S i) (logAmps : ι → 𝕜) (alpha : n ⊕ Unit → ℝ)
    (prior old : n → 𝕜) (oldBias : 𝕜) :
    let new := logSpaceStep pinvh beta (withOnes K) S logAmps alpha (Sum.elim prior fun _ => 0) (Sum.elim old fun _ => oldBias)
    logSpaceStepBias pinvh beta K S logAmps alpha prior old oldBias = (fun f => new (Sum.inl f), new (Sum.inr ())) := by
  intro new
  have hK : (Matrix.fromCols K (Matrix.of fun _ _ => 1) : Matrix ι (n ⊕ Unit) 𝕜) = withOnes K := by
    ext i f
    cases f <;> rfl
  have hd : fitData K logAmps prior = fitData (withOnes K) logAmps (Sum.elim prior fun _ => 0) := by
    funext i
    simp [fitData, withOnes]
  unfold logSpaceStepBias
  simp only [hK, hd]
  refine Prod.ext rfl ?_
  show _ = logSpaceStep _ _ _ _ _ _ _ _ _
  unfold logSpaceStep updated
  rw [if_pos ((valid_iff _ S hS _).mpr (by simpa [Spec.occurrence, withOnes] using hocc))]
  simp

/-- The condition on the weight of the data is needed: with total weight 0 no parameter has data, and all keep their values, but the
bias is reset to zero. -/
theorem C56_bias_fails (pinvh : {m : Type} → [Fintype m] → Matrix m m 𝕜 → Matrix m m 𝕜) (beta : ℝ) (K : Matrix ι n 𝕜)
    (logAmps : ι → 𝕜) (alpha : n ⊕ Unit → ℝ) (prior old : n → 𝕜) (oldBias : 𝕜) :
    logSpaceStepBias pinvh beta K (fun _ => 0) logAmps alpha prior old oldBias = (old, 0) := by
  have hg : gram (Matrix.fromCols K (Matrix.of fun _ _ => 1) : Matrix ι (n ⊕ Unit) 𝕜) (fun _ => 0) = 0 := by
    unfold gram
    ext f g
    simp [Matrix.mul_apply]
  have hv : ∀ f : n ⊕ Unit, ¬ Valid (0 : Matrix (n ⊕ Unit) (n ⊕ Unit) 𝕜) f := by
    intro f
    simp [Valid]
    norm_num
  unfold logSpaceStepBias
  simp only [hg]
  refine Prod.ext ?_ ?_
  · funext f
    simp [updated, hv]
  · show weights _ _ _ _ _ _ _ = 0
    unfold weights
    rw [dif_neg (fun h => hv _ h.2)]

/-- The real matrix by which a complex matrix acts on real and imaginary parts. -/
def realify (K : Matrix ι n ℂ) : Matrix (ι ⊕ ι) (n ⊕ n) ℝ :=
  Matrix.fromBlocks (K.map Complex.re) (-(K.map Complex.im)) (K.map Complex.im) (K.map Complex.re)

theorem expand_gram (K : Matrix ι n ℂ) (S : ι → ℝ) :
    expandMat (gram K S) = gram (𝕜 := ℝ) (realify K) (Sum.elim S S) := by
  ext f g
  rcases f with f | f <;> rcases g with g | g <;>
    simp [expandMat, gram, realify, Matrix.mul_apply, Complex.re_sum, Complex.im_sum, ← Finset.sum_add_distrib,
      ← Finset.sum_sub_distrib, ← Finset.sum_neg_distrib, Matrix.fromBlocks, Fintype.sum_sum_type] <;>
    (apply Finset.sum_congr rfl; intro i _; ring)

theorem expand_rhs (K : Matrix ι n ℂ) (m : ι → ℂ) :
    expandVec (rhs K m) = rhs (𝕜 := ℝ) (realify K) (expandVec m) := by
  funext f
  rcases f with f | f <;>
    simp [expandVec, rhs, realify, Matrix.mulVec, dotProduct, Complex.re_sum, Complex.im_sum, ← Finset.sum_add_distrib,
      ← Finset.sum_neg_distrib, Matrix.fromBlocks, Fintype.sum_sum_type] <;>
    (apply Finset.sum_congr rfl; intro i _; ring)

omit [DecidableEq n] in
/-- The split loss is the real loss of the vector of real and imaginary parts. -/
theorem loss_split (beta : ℝ) (K : Matrix ι n ℂ) (S : ι → ℝ) (y : ι → ℂ) (c : n ⊕ n → ℝ) (prior : n → ℝ) (v : n ⊕ n → ℝ) :
    Spec.ridgeLossSplit beta K S y (fun f => c (Sum.inl f)) (fun f => c (Sum.inr f)) prior
        (fun f => ((prior f + v (Sum.inl f) : ℝ) : ℂ) + Complex.I * (v (Sum.inr f) : ℂ))
      = Spec.ridgeLoss (𝕜 := ℝ) beta (realify K) (Sum.elim S S) (expandVec (fitData K y fun f => (prior f : ℂ))) c 0 v := by
  unfold Spec.ridgeLossSplit Spec.ridgeLoss
  congr 1
  · congr 1
    rw [Fintype.sum_sum_type, ← Finset.sum_add_distrib]
    apply Finset.sum_congr rfl
    intro i _
    rw [← Complex.normSq_eq_norm_sq, Complex.normSq_apply, Fintype.sum_sum_type, Fintype.sum_sum_type]
    simp only [Sum.elim_inl, Sum.elim_inr, Real.norm_eq_abs, sq_abs, expandVec, fitData, realify, Matrix.fromBlocks_apply₁₁,
      Matrix.fromBlocks_apply₁₂, Matrix.fromBlocks_apply₂₁, Matrix.fromBlocks_apply₂₂, Matrix.neg_apply, Matrix.map_apply,
      Complex.sub_re, Complex.sub_im, Complex.re_sum, Complex.im_sum, Complex.mul_re, Complex.mul_im, Complex.add_re, Complex.add_im,
      Complex.ofReal_re, Complex.ofReal_im, Complex.I_re, Complex.I_im]
    have e1 : (∑ f, ((K i f).re * (prior f + v (Sum.inl f) + (0 * v (Sum.inr f) - 1 * 0))
          - (K i f).im * (0 + (0 * 0 + 1 * v (Sum.inr f)))))
        = (∑ f, (prior f * (K i f).re - 0 * (K i f).im)) + (∑ f, (K i f).re * v (Sum.inl f) + ∑ f, -(K i f).im * v (Sum.inr f)) := by
      rw [← Finset.sum_add_distrib, ← Finset.sum_add_distrib]
      exact Finset.sum_congr rfl fun f _ => by ring
    have e2 : (∑ f, ((K i f).re * (0 + (0 * 0 + 1 * v (Sum.inr f)))
          + (K i f).im * (prior f + v (Sum.inl f) + (0 * v (Sum.inr f) - 1 * 0))))
        = (∑ f, (prior f * (K i f).im + 0 * (K i f).re)) + (∑ f, (K i f).im * v (Sum.inl f) + ∑ f, (K i f).re * v (Sum.inr f)) := by
      rw [← Finset.sum_add_distrib, ← Finset.sum_add_distrib]
      exact Finset.sum_congr rfl fun f _ => by ring
    rw [e1, e2]
    ring
  · rw [Fintype.sum_sum_type, ← Finset.sum_add_distrib]
    apply Finset.sum_congr rfl
    intro f _
    simp [sq_abs]

theorem occurrence_realify (K : Matrix ι n ℂ) (S : ι → ℝ) (f : n) :
    Spec.occurrence (realify K) (Sum.elim S S) (Sum.inl f) = Spec.occurrence K S f ∧
    Spec.occurrence (realify K) (Sum.elim S S) (Sum.inr f) = Spec.occurrence K S f := by
  unfold Spec.occurrence
  constructor <;>
  · rw [Fintype.sum_sum_type, ← Finset.sum_add_distrib]
    apply Finset.sum_congr rfl
    intro i _
    rw [← Complex.normSq_eq_norm_sq, Complex.normSq_apply]
    simp [realify, sq_abs]
    ring

/-- C56 with `complex_expand`: real and imaginary parts of the parameters have their own precisions, halved; the rest is as in `C56`. -/
theorem C56_expand (pinvh : {m : Type} → [Fintype m] → Matrix m m ℝ → Matrix m m ℝ) (beta : ℝ) (hb : 0 < beta)
    (K : Matrix ι n ℂ) (S : ι → ℝ) (hS : ∀ i, 0 ≤ S i) (logAmps : ι → ℂ) (alpha : n ⊕ n → ℝ) (ha : ∀ f, 0 < alpha f)
    (prior : n → ℝ) (old : n → ℂ) :
    let new := logSpaceStepExpand pinvh beta K S logAmps alpha prior old
    let occurs := fun f => 1e-10 < Spec.occurrence K S f
    let loss := Spec.ridgeLossSplit beta K S logAmps (fun f => alpha (Sum.inl f) / 2) (fun f => alpha (Sum.inr f) / 2) prior
    (∀ f, ¬ occurs f → new f = old f) ∧
    (∀ f, occurs f → ¬ alpha (Sum.inl f) < 1e10 → (new f).re = prior f) ∧
    (∀ f, occurs f → ¬ alpha (Sum.inr f) < 1e10 → (new f).im = 0) ∧
    ∀ best : n → ℂ,
      (∀ f, (occurs f ∧ alpha (Sum.inl f) < 1e10) → (best f).re = (new f).re) →
      (∀ f, ¬ (occurs f ∧ alpha (Sum.inl f) < 1e10) → (best f).re = prior f) →
      (∀ f, (occurs f ∧ alpha (Sum.inr f) < 1e10) → (best f).im = (new f).im) →
      (∀ f, ¬ (occurs f ∧ alpha (Sum.inr f) < 1e10) → (best f).im = 0) →
      ∀ theta : n → ℂ, (∀ f, ¬ (occurs f ∧ alpha (Sum.inl f) < 1e10) → (theta f).re = prior f) →
        (∀ f, ¬ (occurs f ∧ alpha (Sum.inr f) < 1e10) → (theta f).im = 0) → theta ≠ best → loss best < loss theta := by
  intro new occurs loss
  have hS2 : ∀ i, 0 ≤ Sum.elim S S i := by rintro (i | i) <;> exact hS i
  set data := fitData K logAmps fun f => (prior f : ℂ) with hdata
  set G := gram (𝕜 := ℝ) (realify K) (Sum.elim S S) with hG
  have hvl : ∀ f, Valid G (Sum.inl f) ↔ occurs f := by
    intro f; rw [hG, valid_iff _ _ hS2, (occurrence_realify K S f).1]
  have hvr : ∀ f, Valid G (Sum.inr f) ↔ occurs f := by
    intro f; rw [hG, valid_iff _ _ hS2, (occurrence_realify K S f).2]
  have hal : ∀ f, Active G alpha (Sum.inl f) ↔ (occurs f ∧ alpha (Sum.inl f) < 1e10) := by
    intro f; rw [Active, hvl, and_comm]
  have har : ∀ f, Active G alpha (Sum.inr f) ↔ (occurs f ∧ alpha (Sum.inr f) < 1e10) := by
    intro f; rw [Active, hvr, and_comm]
  set m : ι ⊕ ι → ℝ := fun i => Sum.elim S S i * expandVec data i with hm
  have hexp : (expandVec fun i => (S i : ℂ) * data i) = m := by
    funext i
    rcases i with i | i <;> simp [expandVec, hm]
  set w := weights pinvh true beta G (rhs (realify K) m) alpha with hw
  have hw0 : ∀ f, ¬ Active G alpha f → w f = 0 := by
    intro f hf
    rw [hw]
    unfold weights
    simp only [dif_neg hf]
  have hnew : ∀ f, new f = if occurs f then ((prior f + w (Sum.inl f) : ℝ) : ℂ) + Complex.I * (w (Sum.inr f) : ℂ) else old f := by
    intro f
    show logSpaceStepExpand _ _ _ _ _ _ _ _ f = _
    unfold logSpaceStepExpand
    simp only [← hdata, expand_gram, expand_rhs, hexp, ← hG, ← hw, hvl, hvr]
    by_cases h : occurs f
    · simp only [if_pos h]
      rw [add_comm (w _)]
    · simp only [if_neg h, Sum.elim_inl, Sum.elim_inr]
      apply Complex.ext <;> simp
  refine ⟨?_, ?_, ?_, ?_⟩
  · intro f hf
    rw [hnew, if_neg hf]
  · intro f hf hna
    rw [hnew, if_pos hf, hw0 (Sum.inl f) (fun h => hna h.1)]
    simp
  · intro f hf hna
    rw [hnew, if_pos hf, hw0 (Sum.inr f) (fun h => hna h.1)]
    simp
  · intro best h1 h2 h3 h4 theta h5 h6 hne
    have hbest : best = fun f => ((prior f + w (Sum.inl f) : ℝ) : ℂ) + Complex.I * (w (Sum.inr f) : ℂ) := by
      funext f
      apply Complex.ext
      · by_cases hf : occurs f ∧ alpha (Sum.inl f) < 1e10
        · rw [h1 f hf, hnew, if_pos hf.1]
        · rw [h2 f hf, hw0 _ (fun h => hf ((hal f).mp h))]
          simp
      · by_cases hf : occurs f ∧ alpha (Sum.inr f) < 1e10
        · rw [h3 f hf, hnew, if_pos hf.1]
        · rw [h4 f hf, hw0 _ (fun h => hf ((har f).mp h))]
          simp
    set v : n ⊕ n → ℝ := Sum.elim (fun f => (theta f).re - prior f) (fun f => (theta f).im) with hv
    have htheta : theta = fun f => ((prior f + v (Sum.inl f) : ℝ) : ℂ) + Complex.I * (v (Sum.inr f) : ℂ) := by
      funext f
      apply Complex.ext <;> simp [hv]
    have hv0 : ∀ f, ¬ Active G alpha f → v f = 0 := by
      rintro (f | f) hf
      · rw [hal] at hf; simp [hv, h5 f hf]
      · rw [har] at hf; simp [hv, h6 f hf]
    obtain ⟨-, hmin⟩ := weights_min (𝕜 := ℝ) pinvh true beta hb (realify K) (Sum.elim S S) hS2 m alpha ha v hv0
    have hL : ∀ u : n ⊕ n → ℝ, loss (fun f => ((prior f + u (Sum.inl f) : ℝ) : ℂ) + Complex.I * (u (Sum.inr f) : ℂ))
        = quad (𝕜 := ℝ) beta (realify K) (Sum.elim S S) m (fun f => if true then alpha f / 2 else alpha f) u
          + beta * ∑ i, Sum.elim S S i * ‖expandVec data i‖ ^ 2 := by
      intro u
      have := loss_split beta K S logAmps (fun f => alpha f / 2) prior u
      rw [← hdata, loss_eq_quad] at this
      exact this
    by_contra hlt
    apply hne
    rw [htheta, hbest, hL, hL] at hlt
    have := hmin (by linarith)
    rw [htheta, hbest, this]

/-! ## C74: fits of exponentials with zero amplitudes -/

/-- The noise weights of nonzero amplitudes are positive, those of zero amplitudes are zero (with a positive noise). -/
theorem C74_weights (noise : ℝ) (hn : 0 < noise) (amps : ι → 𝕜) (i : ι) :
    (amps i ≠ 0 → 0 < noiseWeight noise .target amps i) ∧ (amps i = 0 → noiseWeight noise .target amps i = 0) ∧
    (∀ r : ι → ℝ, 0 < r i → amps i ≠ 0 → 0 < noiseWeight noise (.reweighted r) amps i) ∧
    (∀ pred : ι → ℂ, pred i ≠ 0 → 0 < noiseWeight noise (.iterative pred) amps i) := by
  refine ⟨?_, ?_, ?_, ?_⟩
  · intro h
    have h1 : 0 < ‖amps i‖ := norm_pos_iff.mpr h
    simp only [noiseWeight, if_neg hn.ne', if_neg h]
    apply one_div_pos.mpr
    apply Real.log_pos
    have : 0 < noise / ‖amps i‖ ^ 2 := by positivity
    linarith
  · intro h
    simp [noiseWeight, hn.ne', h]
  · intro r hr h
    have h1 : 0 < ‖amps i‖ := norm_pos_iff.mpr h
    simp only [noiseWeight, if_neg hn.ne', if_neg h]
    apply one_div_pos.mpr
    apply Real.log_pos
    have : 0 < noise / (‖amps i‖ ^ 2 / r i) := by positivity
    linarith
  · intro pred h
    have h1 : 0 < ‖pred i‖ := norm_pos_iff.mpr h
    simp only [noiseWeight, if_neg hn.ne']
    apply one_div_pos.mpr
    have h2 : 0 < 4 * noise / ‖pred i‖ ^ 2 := by positivity
    have h3 : 1 < Real.sqrt (4 * noise / ‖pred i‖ ^ 2 + 1) := by
      rw [Real.lt_sqrt (by norm_num)]
      linarith
    rw [← Real.log_mul (by linarith) (by norm_num)]
    apply Real.log_pos
    linarith

/-- C74: with a positive noise estimated from the targets and nonnegative weightings, a fit step of `QGPSLearningExp` leaves the
parameters of features that do not occur, sets those of precision at least 1e10 to the prior mean, and gives the others the values that
are the unique minimiser of: the squared errors of the log-amplitudes of the nonzero targets, weighted by the inverse variance
`log(1 + noise/|amp|^2)` and the weightings, plus the predicted log-amplitudes of the zero targets, plus the penalty. -/
theorem C74 (pinvh : {m : Type} → [Fintype m] → Matrix m m 𝕜 → Matrix m m 𝕜) (noise : ℝ) (hn : 0 < noise)
    (K : Matrix ι n 𝕜) (weightings : ι → ℝ) (hwt : ∀ i, 0 ≤ weightings i) (amps logAmps : ι → 𝕜) (alpha : n → ℝ)
    (ha : ∀ f, 0 < alpha f) (prior old : n → 𝕜) (S : ι → ℝ)
    (hS0 : ∀ i, amps i = 0 → S i = 0) (hS1 : ∀ i, amps i ≠ 0 → S i = weightings i / Real.log (1 + noise / ‖amps i‖ ^ 2)) :
    let new := expStep pinvh noise .target K weightings amps logAmps alpha prior old
    let takesPart := fun f => 1e-10 < Spec.occurrence K S f ∧ alpha f < 1e10
    (∀ f, ¬ 1e-10 < Spec.occurrence K S f → new f = old f) ∧
    (∀ f, 1e-10 < Spec.occurrence K S f → ¬ alpha f < 1e10 → new f = prior f) ∧
    ∀ best : n → 𝕜, (∀ f, takesPart f → best f = new f) → (∀ f, ¬ takesPart f → best f = prior f) →
      ∀ theta : n → 𝕜, (∀ f, ¬ takesPart f → theta f = prior f) → theta ≠ best →
        Spec.logLossWithZeros K S amps logAmps alpha prior best < Spec.logLossWithZeros K S amps logAmps alpha prior theta := by
  classical
  intro new takesPart
  have hSeq : (fun i => noiseWeight noise .target amps i * weightings i) = S := by
    funext i
    by_cases h : amps i = 0
    · rw [hS0 i h, (C74_weights noise hn amps i).2.1 h, zero_mul]
    · rw [hS1 i h]
      simp only [noiseWeight, if_neg hn.ne', if_neg h]
      ring
  have hS : ∀ i, 0 ≤ S i := by
    intro i
    rw [← hSeq]
    refine mul_nonneg ?_ (hwt i)
    by_cases h : amps i = 0
    · rw [(C74_weights noise hn amps i).2.1 h]
    · exact ((C74_weights noise hn amps i).1 h).le
  have hact : ∀ f, Active (gram K S) alpha f ↔ takesPart f := by
    intro f
    rw [Active, valid_iff K S hS, and_comm]
  set m := multiplicator S amps (fitData K logAmps prior) with hm
  set w := weights pinvh false 1 (gram K S) (rhs K m) alpha with hw
  have hnewdef : new = updated (gram K S) w old prior := by
    show expStep _ _ _ _ _ _ _ _ _ _ = _
    unfold expStep
    simp only [hSeq]
    rfl
  have hnew : ∀ f, 1e-10 < Spec.occurrence K S f → new f = w f + prior f := by
    intro f hf
    rw [hnewdef, updated, if_pos ((valid_iff K S hS f).mpr hf)]
  have hw0 : ∀ f, ¬ takesPart f → w f = 0 := by
    intro f hf
    rw [← hact] at hf
    rw [hw]
    unfold weights
    simp only [dif_neg hf]
  refine ⟨?_, ?_, ?_⟩
  · intro f hf
    rw [hnewdef, updated, if_neg (fun h => hf ((valid_iff K S hS f).mp h)), sub_add_cancel]
  · intro f hf hna
    rw [hnew f hf, hw0 f (fun h => hna h.2), zero_add]
  · intro best h1 h2 theta h3 hne
    have hbest : best = prior + w := by
      funext f
      by_cases hf : takesPart f
      · rw [h1 f hf, hnew f hf.1, Pi.add_apply, add_comm]
      · rw [h2 f hf, Pi.add_apply, hw0 f hf, add_zero]
    have htheta : theta = prior + (theta - prior) := by rw [add_sub_cancel]
    obtain ⟨-, hmin⟩ := weights_min pinvh false 1 one_pos K S hS m alpha ha
      (theta - prior) (fun f hf => by rw [hact] at hf; rw [Pi.sub_apply, h3 f hf, sub_self])
    obtain ⟨C, hC⟩ : ∃ C : ℝ, ∀ v : n → 𝕜, Spec.logLossWithZeros K S amps logAmps alpha prior (prior + v)
        = quad 1 K S m alpha v + C := by
      refine ⟨∑ i, if amps i = 0 then RCLike.re (∑ f, K i f * prior f) else S i * ‖fitData K logAmps prior i‖ ^ 2, ?_⟩
      intro v
      unfold Spec.logLossWithZeros quad
      have e : ∀ i, (if amps i = 0 then RCLike.re (∑ f, K i f * (prior + v) f)
            else S i * ‖logAmps i - ∑ f, K i f * (prior + v) f‖ ^ 2)
          = (S i * ‖(K *ᵥ v) i‖ ^ 2 - 2 * RCLike.re (star ((K *ᵥ v) i) * m i))
            + (if amps i = 0 then RCLike.re (∑ f, K i f * prior f) else S i * ‖fitData K logAmps prior i‖ ^ 2) := by
        intro i
        by_cases h : amps i = 0
        · simp only [if_pos h, hS0 i h, hm, multiplicator, zero_mul, zero_sub]
          have : star ((K *ᵥ v) i) * -(1 / 2 : 𝕜) = ((-(1 / 2) : ℝ) : 𝕜) * star ((K *ᵥ v) i) := by
            push_cast
            ring
          rw [this, RCLike.re_ofReal_mul, RCLike.star_def, RCLike.conj_re]
          simp only [Pi.add_apply, mul_add, Finset.sum_add_distrib, map_add]
          show _ + RCLike.re ((K *ᵥ v) i) = _
          ring
        · simp only [if_neg h, hm, multiplicator]
          have e1 : logAmps i - ∑ f, K i f * (prior + v) f = fitData K logAmps prior i + (-(K *ᵥ v) i) := by
            simp only [Pi.add_apply, mul_add, Finset.sum_add_distrib, fitData]
            have : ∑ f, K i f * v f = (K *ᵥ v) i := rfl
            rw [this]
            have : ∑ f, K i f * prior f = ∑ f, prior f * K i f := Finset.sum_congr rfl fun f _ => mul_comm _ _
            rw [this]
            ring
          rw [e1, norm_sq_add, norm_neg, star_neg, neg_mul, map_neg, mul_left_comm (star _), RCLike.re_ofReal_mul]
          ring
      rw [Finset.sum_congr rfl fun i _ => e i]
      simp only [Finset.sum_add_distrib, Finset.sum_sub_distrib, ← Finset.mul_sum, Pi.add_apply, add_sub_cancel_left, one_mul]
      ring
    rw [htheta, hbest, hC, hC]
    by_contra hlt
    apply hne
    have := hmin (by
      simp only [Bool.false_eq_true, if_false]
      linarith)
    rw [htheta, this, hbest]

/-- A fit of one data point with one feature: log-amplitude 2, precision 1, noise 1 give the parameter 1, whatever it was. -/
example (pinvh : {m : Type} → [Fintype m] → Matrix m m ℝ → Matrix m m ℝ) (old : Fin 1 → ℝ) :
    logSpaceStep (ι := Fin 1) (n := Fin 1) pinvh 1 (fun _ _ => 1) (fun _ => 1) (fun _ => 2) (fun _ => 1) (fun _ => 0) old 0 = 1 := by
  set G := gram (𝕜 := ℝ) (fun (_ _ : Fin 1) => (1 : ℝ)) (fun _ => 1) with hG
  have hg : ∀ i j, G i j = 1 := by
    intro i j
    simp [hG, gram, Matrix.mul_apply]
    exact star_one ℝ
  have hv : Valid G 0 := by
    rw [Valid, hg]
    norm_num
  have hne := normal_equations pinvh false 1 G (rhs (fun (_ _ : Fin 1) => (1 : ℝ)) fun _ => 2) (fun _ => 1)
    (block_posDef false 1 one_pos _ _ (fun _ => zero_le_one) _ (fun _ => one_pos)) 0 ⟨by norm_num, hv⟩
  have hd : (fun i : Fin 1 => ((1 : ℝ) : ℝ) * fitData (𝕜 := ℝ) (ι := Fin 1) (n := Fin 1) (fun _ _ => 1) (fun _ => 2) (fun _ => 0) i)
      = fun _ => 2 := by
    funext i
    simp [fitData]
  have hr : rhs (fun (_ _ : Fin 1) => (1 : ℝ)) (fun _ => (2 : ℝ)) 0 = 2 := by
    simp [rhs, Matrix.mulVec, dotProduct]
    exact star_one ℝ
  unfold logSpaceStep updated
  rw [if_pos hv]
  rw [hr] at hne
  simp [Matrix.mulVec, dotProduct, hg] at hne
  have : (fun i : Fin 1 => ((1 : ℝ) : ℝ) * fitData (𝕜 := ℝ) (ι := Fin 1) (n := Fin 1) (fun _ _ => 1) (fun _ => 2) (fun _ => 0) i)
      = fun _ => 2 := hd
  show weights _ _ _ _ (rhs _ (fun i : Fin 1 => ((1 : ℝ) : ℝ) * fitData (𝕜 := ℝ) _ _ _ i)) _ _ + 0 = 1
  rw [this]
  linarith

end GPSKet.SupervisedFit
