import Verif.Props.OptAlpha

/-!
# C85 and C86, continued: the noise, and the values during the optimisation
-/

namespace GPSKet.OptAlpha

open Matrix GPSKet.SupervisedFit GPSKet.MargLik
open scoped ComplexOrder

variable {𝕜 : Type} [RCLike 𝕜] {ι n : Type} [Fintype ι] [Fintype n] [DecidableEq n]

open Classical in
/-- Only the features that take part contribute to the prediction. -/
theorem mulVec_weights (pinvh : {m : Type} → [Fintype m] → Matrix m m 𝕜 → Matrix m m 𝕜) (half : Bool) (beta : ℝ) (K : Matrix ι n 𝕜)
    (KtK : Matrix n n 𝕜) (y : n → 𝕜) (alpha : n → ℝ) (i : ι) :
    (K *ᵥ weights pinvh half beta KtK y alpha) i
      = (cols K (Active KtK alpha) *ᵥ fun f : {f // Active KtK alpha f} => weights pinvh half beta KtK y alpha f) i := by
  rw [mulVec, mulVec, dotProduct, dotProduct]
  refine (Finset.sum_subset_zero_on_sdiff (s₁ := (Finset.univ.filter (Active KtK alpha))) (Finset.subset_univ _) ?_
    fun _ _ => rfl).symm.trans ?_
  · intro f hf
    have : ¬ Active KtK alpha f := by simpa using hf
    have h0 : weights pinvh half beta KtK y alpha f = 0 := dif_neg this
    rw [h0, mul_zero]
  · exact Finset.sum_subtype _ (by simp) fun f => K i f * weights pinvh half beta KtK y alpha f

/-- The trace of the part of the data that is not explained is positive. -/
theorem trace_unexplained {m : Type} [Fintype m] [DecidableEq m] [Nonempty ι] (C : Matrix ι m 𝕜) (a : m → ℝ) (ha : ∀ i, 0 < a i)
    (beta : ℝ) (hb : 0 < beta) :
    0 < (Fintype.card ι : ℝ) - ∑ f, (1 - a f * RCLike.re (((beta : 𝕜) • gram C (fun _ => 1) + diagonal fun f => (a f : 𝕜))⁻¹ f f)) := by
  classical
  have hgram : gram C (fun _ => 1) = Cᴴ * C := by
    unfold gram
    congr 1
    ext i f
    simp
  rw [hgram]
  set D : Matrix m m 𝕜 := diagonal fun f => (a f : 𝕜) with hD
  set A := (beta : 𝕜) • (Cᴴ * C) + D with hA
  have hDpos : D.PosDef := Matrix.PosDef.diagonal fun i => RCLike.ofReal_pos.mpr (ha i)
  have hApos : A.PosDef := Matrix.PosDef.posSemidef_add
    ((posSemidef_conjTranspose_mul_self C).smul (RCLike.ofReal_nonneg.mpr hb.le)) hDpos
  have hu : IsUnit A.det := hApos.det_pos.ne'.isUnit
  have huD : IsUnit D.det := hDpos.det_pos.ne'.isUnit
  set B : Matrix ι ι 𝕜 := 1 + (beta : 𝕜) • (C * D⁻¹ * Cᴴ) with hB
  have hBpos : B.PosDef := by
    refine Matrix.PosDef.add_posSemidef Matrix.PosDef.one ?_
    refine Matrix.PosSemidef.smul ?_ (RCLike.ofReal_nonneg.mpr hb.le)
    exact hDpos.inv.posSemidef.mul_mul_conjTranspose_same C
  have hinv : B * (1 - (beta : 𝕜) • (C * A⁻¹ * Cᴴ)) = 1 := by
    have h1 : (beta : 𝕜) • (Cᴴ * C) = A - D := by rw [hA, add_sub_cancel_right]
    have h2 : C * D⁻¹ * Cᴴ * ((beta : 𝕜) • (C * A⁻¹ * Cᴴ)) = C * D⁻¹ * Cᴴ - C * A⁻¹ * Cᴴ := by
      have : C * D⁻¹ * Cᴴ * ((beta : 𝕜) • (C * A⁻¹ * Cᴴ)) = C * D⁻¹ * ((beta : 𝕜) • (Cᴴ * C)) * A⁻¹ * Cᴴ := by
        simp only [Matrix.mul_smul, Matrix.smul_mul, Matrix.mul_assoc]
      rw [this, h1, Matrix.mul_sub, Matrix.sub_mul, Matrix.sub_mul, Matrix.mul_assoc (C * D⁻¹) A, mul_nonsing_inv _ hu, Matrix.mul_one,
        Matrix.mul_assoc C D⁻¹ D, nonsing_inv_mul _ huD, Matrix.mul_one]
    rw [hB, Matrix.add_mul, Matrix.one_mul, Matrix.smul_mul, Matrix.mul_sub, Matrix.mul_one, h2]
    simp only [smul_sub]
    abel
  have hH : 1 - (beta : 𝕜) • (C * A⁻¹ * Cᴴ) = B⁻¹ := (inv_eq_right_inv hinv).symm
  have htr : RCLike.re (1 - (beta : 𝕜) • (C * A⁻¹ * Cᴴ)).trace = (Fintype.card ι : ℝ) - ∑ f, (1 - a f * RCLike.re (A⁻¹ f f)) := by
    have h3 : (beta : 𝕜) • (C * A⁻¹ * Cᴴ) = C * (A⁻¹ * (beta : 𝕜) • Cᴴ) := by
      simp only [Matrix.mul_smul, Matrix.mul_assoc]
    have h4 : A⁻¹ * (beta : 𝕜) • Cᴴ * C = 1 - A⁻¹ * D := by
      rw [Matrix.mul_assoc, Matrix.smul_mul, show (beta : 𝕜) • (Cᴴ * C) = A - D by rw [hA, add_sub_cancel_right], Matrix.mul_sub,
        nonsing_inv_mul _ hu]
    rw [trace_sub, trace_one, h3, trace_mul_comm, h4, trace_sub, trace_one, map_sub, map_sub, RCLike.natCast_re, RCLike.natCast_re,
      Finset.sum_sub_distrib, trace, map_sum]
    congr 2
    · simp
    · refine Finset.sum_congr rfl fun f _ => ?_
      rw [diag_apply, hD, mul_diagonal, mul_comm, RCLike.re_ofReal_mul]
  rw [← htr, hH]
  exact (RCLike.pos_iff.mp hBpos.inv.trace_pos).1

section Noise

variable {chol : {m : Type} → [Fintype m] → Matrix m m 𝕜 → Option (Matrix m m 𝕜)}
variable (pinvh : {m : Type} → [Fintype m] → Matrix m m 𝕜 → Matrix m m 𝕜)

open Classical in
/-- Without weightings the numerator of the new value of `beta` is positive. -/
theorem unexplained_pos [Nonempty ι] (hchol : CholeskySpec chol) (beta : ℝ) (hb : 0 < beta) (K : Matrix ι n 𝕜) (alpha : n → ℝ)
    (ha : ∀ f, 0 < alpha f) :
    0 < (Fintype.card ι : ℝ) - ∑ f, gamma chol pinvh false beta (gram K fun _ => 1) alpha f := by
  have hK := gram_posSemidef K (fun _ => 1) fun _ => zero_le_one
  have hpos := posDef_block false beta hb.le _ hK alpha ha (Active (gram K fun _ => 1) alpha)
  have h := trace_unexplained (cols K (Active (gram K fun _ => 1) alpha)) (fun f => alpha f) (fun f => ha f) beta hb
  have e : block (regularised false beta (gram K fun _ => 1) alpha) (Active (gram K fun _ => 1) alpha)
      = (beta : 𝕜) • gram (cols K (Active (gram K fun _ => 1) alpha)) (fun _ => 1)
        + diagonal fun f : {f // Active (gram K fun _ => 1) alpha f} => (alpha f : 𝕜) := by
    rw [block_regularised, block_gram]
    simp
  rw [← e] at h
  convert h using 3 with f
  unfold gamma
  simp only [Bool.false_eq_true, if_false]
  rw [diagSinv_eq hpos (hchol _) f]

open Classical in
/-- The fit reproduces the data exactly only if they are all zero. -/
theorem residual_pos (beta : ℝ) (hb : 0 < beta) (K : Matrix ι n 𝕜) (data : ι → 𝕜) (hdata : data ≠ 0) (alpha : n → ℝ)
    (ha : ∀ f, 0 < alpha f) :
    0 < ∑ i, ‖data i - (K *ᵥ weights pinvh false beta (gram K fun _ => 1) (rhs K data) alpha) i‖ ^ 2 := by
  obtain ⟨KtK, hKtK⟩ : ∃ KtK, KtK = gram K fun _ => 1 := ⟨_, rfl⟩
  have hK := gram_posSemidef K (fun _ => 1) fun _ => zero_le_one
  rw [← hKtK] at hK ⊢
  by_contra hle
  have h0 : ∑ i, ‖data i - (K *ᵥ weights pinvh false beta KtK (rhs K data) alpha) i‖ ^ 2 = 0 :=
    le_antisymm (not_lt.mp hle) (Finset.sum_nonneg fun _ _ => sq_nonneg _)
  rw [Finset.sum_eq_zero_iff_of_nonneg fun _ _ => sq_nonneg _] at h0
  have h1 : data = cols K (Active KtK alpha) *ᵥ fun f : {f // Active KtK alpha f} => weights pinvh false beta KtK (rhs K data) alpha f := by
    funext i
    have := h0 i (Finset.mem_univ i)
    rw [pow_eq_zero_iff two_ne_zero, norm_eq_zero, sub_eq_zero, mulVec_weights] at this
    exact this
  have hpos := posDef_block false beta hb.le _ hK alpha ha (Active KtK alpha)
  have hw := weights_active pinvh false beta KtK (rhs K data) alpha hpos
  have hu : IsUnit (block (regularised false beta KtK alpha) (Active KtK alpha)).det := hpos.det_pos.ne'.isUnit
  have hgram : block KtK (Active KtK alpha) = (cols K (Active KtK alpha))ᴴ * cols K (Active KtK alpha) := by
    have : block KtK (Active KtK alpha) = block (gram K fun _ => 1) (Active KtK alpha) := by rw [hKtK]
    rw [this, block_gram]
    unfold gram
    congr 1
    ext i f
    simp
  generalize hwdef : (fun f : {f // Active KtK alpha f} => weights pinvh false beta KtK (rhs K data) alpha f) = w at h1 hw
  have h2 : block (regularised false beta KtK alpha) (Active KtK alpha) *ᵥ w = (beta : 𝕜) • (cols K (Active KtK alpha))ᴴ *ᵥ data := by
    rw [hw, mulVec_smul, mulVec_mulVec, mul_nonsing_inv _ hu, one_mulVec, rhs_cols]
    rfl
  rw [block_regularised, hgram, add_mulVec, h1, mulVec_mulVec, smul_mulVec, add_eq_left] at h2
  have hw0 : w = 0 := by
    funext f
    have := congrFun h2 f
    rw [mulVec_diagonal] at this
    simp only [Bool.false_eq_true, if_false, Pi.zero_apply, mul_eq_zero] at this
    rcases this with h | h
    · exact absurd (RCLike.ofReal_eq_zero.mp h) (ha f).ne'
    · exact h
  apply hdata
  rw [h1, hw0, mulVec_zero]

open Classical in
theorem newBeta_eq (hchol : CholeskySpec chol) (beta : ℝ) (hb : 0 < beta) (K : Matrix ι n 𝕜) (data : ι → 𝕜) (alpha : n → ℝ)
    (ha : ∀ f, 0 < alpha f) :
    newBeta chol pinvh false (dataCount (none : Option (ι → ℝ))) (squaredError K none data) beta (gram K fun _ => 1) (rhs K data) alpha
      = some (((Fintype.card ι : ℝ) - ∑ f, gamma chol pinvh false beta (gram K fun _ => 1) alpha f)
        / ∑ i, ‖data i - (K *ᵥ weights pinvh false beta (gram K fun _ => 1) (rhs K data) alpha) i‖ ^ 2) := by
  have hK := gram_posSemidef K (fun _ => 1) fun _ => zero_le_one
  have hpos := posDef_block false beta hb.le _ hK alpha ha (Active (gram K fun _ => 1) alpha)
  obtain ⟨L, hL, -⟩ := exists_chol hpos (hchol _)
  unfold newBeta
  simp only [hL, squaredError, Option.map_some, Bool.false_eq_true, if_false, dataCount, logWeights, one_mul]

theorem newBeta_pos (hchol : CholeskySpec chol) (beta : ℝ) (hb : 0 < beta) (K : Matrix ι n 𝕜) (data : ι → 𝕜) (hdata : data ≠ 0)
    (alpha : n → ℝ) (ha : ∀ f, 0 < alpha f) :
    ∃ beta', newBeta chol pinvh false (dataCount (none : Option (ι → ℝ))) (squaredError K none data) beta (gram K fun _ => 1) (rhs K data)
      alpha = some beta' ∧ 0 < beta' := by
  classical
  have hι : Nonempty ι := by
    by_contra h
    rw [not_nonempty_iff] at h
    exact hdata (Subsingleton.elim _ _)
  exact ⟨_, newBeta_eq pinvh hchol beta hb K data alpha ha,
    div_pos (unexplained_pos pinvh hchol beta hb K alpha ha) (residual_pos pinvh beta hb K data hdata alpha ha)⟩

theorem rhs_one (K : Matrix ι n 𝕜) (data : ι → 𝕜) :
    (rhs K fun i => ((logWeights (none : Option (ι → ℝ)) i : ℝ) : 𝕜) * data i) = rhs K data := by
  congr 1
  funext i
  simp [logWeights]

open Classical in
/-- C85, the noise of a fit of log-amplitudes without weightings: one iteration raises the noise if the evidence increases with it,
lowers it if the evidence decreases with it and leaves it alone if the derivative is zero. -/
theorem C85_noise (hchol : CholeskySpec chol) (cplx rvm : Bool) (noise : ℝ) (hn : 0 < noise) (K : Matrix ι n 𝕜) (data : ι → 𝕜)
    (hdata : data ≠ 0) (alpha : n → ℝ) (ha : ∀ f, 0 < alpha f) (f : n) (h1 : alpha f < 1e10)
    (h2 : 1e-10 < Spec.occurrence K (fun _ => 1) f) :
    ∃ (st : State n) (b : Bool) (D : ℝ), logSpaceOpt chol pinvh rvm false true K none data 1 alpha noise = some (st, b) ∧
      HasDerivAt (fun t => logSpaceLogMargLik chol pinvh cplx t K none data alpha) D noise ∧
      SignType.sign (1 / st.beta - noise) = SignType.sign D := by
  have hb : 0 < 1 / noise := one_div_pos.mpr hn
  have hact := active_of K _ (fun _ => zero_le_one) alpha f h1 h2
  have hbeta := newBeta_eq pinvh hchol (1 / noise) hb K data alpha ha
  have hι : Nonempty ι := by
    by_contra h
    rw [not_nonempty_iff] at h
    exact hdata (Subsingleton.elim _ _)
  have hU := unexplained_pos pinvh hchol (1 / noise) hb K alpha ha
  have hR := residual_pos pinvh (1 / noise) hb K data hdata alpha ha
  set w := weights pinvh false (1 / noise) (gram K fun _ => 1) (rhs K data) alpha with hw
  set G := ∑ f, gamma chol pinvh false (1 / noise) (gram K fun _ => 1) alpha f with hG
  set R := ∑ i, ‖data i - (K *ᵥ w) i‖ ^ 2 with hR'
  have hopt : ∃ b, logSpaceOpt chol pinvh rvm false true K none data 1 alpha noise
      = some (⟨alpha, ((Fintype.card ι : ℝ) - G) / R, alpha, 1 / noise⟩, b) := by
    unfold logSpaceOpt
    rw [rhs_one]
    have hl : logWeights (none : Option (ι → ℝ)) = fun _ => 1 := rfl
    simp only [hl]
    unfold optAlphaBeta
    simp only [if_pos (⟨f, hact⟩ : ∃ f, Active (gram K fun _ => 1) alpha f), if_true, Bool.false_eq_true, if_false, hbeta,
      Option.bind_eq_bind, Option.bind_some]
    by_cases h : Converged false true alpha alpha (1 / noise) (((Fintype.card ι : ℝ) - G) / R)
    · exact ⟨true, if_pos h⟩
    · exact ⟨false, if_neg h⟩
  obtain ⟨b, hopt⟩ := hopt
  refine ⟨_, b, _, hopt, C84_partial pinvh hchol cplx noise hn K data (K *ᵥ w) alpha ha (fun i => rfl), ?_⟩
  have hder : logSpaceNoiseDer chol pinvh cplx noise K none data (K *ᵥ w) alpha / noise ^ 4
      = (if cplx then 1 else 1 / 2) * (1 / noise ^ 2) * (R - noise * ((Fintype.card ι : ℝ) - G)) := by
    have : logSpaceNoiseDer chol pinvh cplx noise K none data (K *ᵥ w) alpha
        = -(noise ^ 2) * (if cplx then -G * noise + (Fintype.card ι : ℝ) * noise - ∑ i, 1 * ‖data i - (K *ᵥ w) i‖ ^ 2
          else (-G * noise + (Fintype.card ι : ℝ) * noise - ∑ i, 1 * ‖data i - (K *ᵥ w) i‖ ^ 2) * (1 / 2)) := rfl
    rw [this]
    simp only [one_mul]
    rw [← hR']
    cases cplx
    · simp only [Bool.false_eq_true, if_false]
      field_simp
      ring
    · simp only [if_true]
      field_simp
      ring
  rw [hder, sign_mul]
  have hpos : 0 < (if cplx then 1 else 1 / 2 : ℝ) * (1 / noise ^ 2) := mul_pos (by split_ifs <;> norm_num) (by positivity)
  rw [sign_pos hpos, one_mul]
  simp only [one_div_div]
  have e : R / ((Fintype.card ι : ℝ) - G) - noise = (R - noise * ((Fintype.card ι : ℝ) - G)) * (1 / ((Fintype.card ι : ℝ) - G)) := by
    field_simp
  rw [e, sign_mul, sign_pos (one_div_pos.mpr hU), mul_one]

/-- The loop keeps a property of the values of `alpha` and `beta` that each update keeps, and does not raise. -/
theorem opt_induction (half rvm optAlpha optBeta : Bool) (N : ℝ) (e : (n → 𝕜) → Option ℝ) (KtK : Matrix n n 𝕜) (y : n → 𝕜)
    (I : (n → ℝ) → ℝ → Prop)
    (hstep : ∀ alpha beta, I alpha beta → (∃ f, Active KtK alpha f) →
      ∃ beta', (if optBeta then newBeta chol pinvh half N e beta KtK y alpha else some beta) = some beta' ∧
        I (if optAlpha then newAlpha chol pinvh half rvm beta KtK y alpha else alpha) beta') (k : ℕ) :
    ∀ alpha beta, I alpha beta → ∃ st b, optAlphaBeta chol pinvh half rvm optAlpha optBeta N e KtK y k alpha beta = some (st, b) ∧
      I st.alpha st.beta ∧ I st.setupAlpha st.setupBeta := by
  induction k with
  | zero => intro alpha beta h; exact ⟨_, _, rfl, h, h⟩
  | succ k ih =>
    intro alpha beta h
    unfold optAlphaBeta
    by_cases hex : ∃ f, Active KtK alpha f
    · obtain ⟨beta', hb, hI⟩ := hstep alpha beta h hex
      generalize (if optAlpha then newAlpha chol pinvh half rvm beta KtK y alpha else alpha) = alpha' at hI ⊢
      rw [if_pos hex]
      dsimp only
      rw [hb, Option.bind_some]
      by_cases h1 : Converged optAlpha optBeta alpha alpha' beta beta'
      · rw [if_pos h1]
        exact ⟨_, _, rfl, hI, h⟩
      · rw [if_neg h1]
        by_cases h2 : k = 0
        · rw [if_pos h2]
          exact ⟨_, _, rfl, hI, h⟩
        · rw [if_neg h2]
          exact ih _ _ hI
    · rw [if_neg hex]
      exact ⟨_, _, rfl, h, h⟩

/-- C86 for log-amplitudes without weightings: whatever is optimised and for any number of iterations, the optimisation does not raise,
all precisions stay positive (and do not exceed the cutoff if they did not before), and the noise stays positive. -/
theorem C86_partial (hchol : CholeskySpec chol) (rvm optAlpha optBeta : Bool) (noise : ℝ) (hn : 0 < noise) (K : Matrix ι n 𝕜)
    (data : ι → 𝕜) (hdata : data ≠ 0) (alpha : n → ℝ) (ha : ∀ f, 0 < alpha f ∧ alpha f ≤ 1e10) (k : ℕ) :
    ∃ st b, logSpaceOpt chol pinvh rvm optAlpha optBeta K none data k alpha noise = some (st, b) ∧
      (∀ f, 0 < st.alpha f ∧ st.alpha f ≤ 1e10) ∧ 0 < 1 / st.beta := by
  have hK := gram_posSemidef K (fun _ => 1) fun _ => zero_le_one
  have key := opt_induction (chol := chol) pinvh false rvm optAlpha optBeta (dataCount (none : Option (ι → ℝ))) (squaredError K none data)
    (gram K fun _ => 1) (rhs K data) (fun alpha beta => (∀ f, 0 < alpha f ∧ alpha f ≤ 1e10) ∧ 0 < beta) (by
      rintro alpha beta ⟨ha, hb⟩ hex
      obtain ⟨beta', h1, h2⟩ := newBeta_pos pinvh hchol beta hb K data hdata alpha fun f => (ha f).1
      refine ⟨if optBeta then beta' else beta, ?_, ?_, ?_⟩
      · split_ifs
        · exact h1
        · rfl
      · intro f
        split_ifs
        · exact newAlpha_bounds pinvh hchol false rvm beta hb _ hK _ alpha (fun f => (ha f).1) hex f
        · exact ha f
      · split_ifs
        · exact h2
        · exact hb) k alpha (1 / noise) ⟨ha, one_div_pos.mpr hn⟩
  obtain ⟨st, b, h1, h2, -⟩ := key
  refine ⟨st, b, ?_, h2.1, one_div_pos.mpr h2.2⟩
  unfold logSpaceOpt
  rw [rhs_one]
  exact h1

/-- C86 for fits of exponentials, with and without weightings (nonnegative entries of `S_diag`). -/
theorem C86_exp_partial (hchol : CholeskySpec chol) (rvm : Bool) (noise : ℝ) (mode : NoiseMode ι) (K : Matrix ι n 𝕜)
    (weightings : Option (ι → ℝ)) (amps data : ι → 𝕜) (hS : ∀ i, 0 ≤ expWeights noise mode weightings amps i) (alpha : n → ℝ)
    (ha : ∀ f, 0 < alpha f ∧ alpha f ≤ 1e10) (k : ℕ) :
    ∃ st b, expOpt chol pinvh rvm noise mode K weightings amps data k alpha = some (st, b) ∧
      (∀ f, 0 < st.alpha f ∧ st.alpha f ≤ 1e10) := by
  have hK := gram_posSemidef K _ hS
  obtain ⟨st, b, h1, h2, -⟩ := opt_induction (chol := chol) pinvh false rvm true false 0 (fun _ => none)
    (gram K (expWeights noise mode weightings amps)) (rhs K (multiplicator (expWeights noise mode weightings amps) amps data))
    (fun alpha beta => (∀ f, 0 < alpha f ∧ alpha f ≤ 1e10) ∧ 0 < beta) (by
      rintro alpha beta ⟨ha, hb⟩ hex
      exact ⟨beta, by simp, fun f => by
        simp only [if_true]
        exact newAlpha_bounds pinvh hchol false rvm beta hb _ hK _ alpha (fun f => (ha f).1) hex f, hb⟩) k alpha 1 ⟨ha, one_pos⟩
  exact ⟨st, b, h1, h2.1⟩

end Noise

end GPSKet.OptAlpha
