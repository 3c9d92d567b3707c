import Verif.Model.OnTheFly
import Verif.Props.SRPrecond

/-!
# Property C161: the lazy tensor with real parameters and with non-holomorphic models
-/

namespace GPSKet.OnTheFly

open Matrix GPSKet.RMSProp GPSKet.Props GPSKet.SRPrecond

variable {ρ γ : Type} [Fintype ρ] [Fintype γ] {R P : ℕ} {ι : Type} [Fintype ι]

/-! ## Specification -/

/-- The derivative of the log-amplitudes of the samples with respect to a real coordinate of the parameters: a real parameter, or the real or
imaginary part of a complex one. -/
noncomputable def Jvp.col (J : Jvp ρ γ R ι) : Coord ρ γ → Fin R × ι → ℂ
  | .inl i, s => J.real s.1 s.2 i
  | .inr (.inl j), s => J.hol s.1 s.2 j + J.anti s.1 s.2 j
  | .inr (.inr j), s => Complex.I * (J.hol s.1 s.2 j - J.anti s.1 s.2 j)

/-- The real part of the covariance of two functions of the samples. -/
noncomputable def metric {S : Type} [Fintype S] (f g : S → ℂ) : ℝ :=
  (sampleMean fun s => (starRingEnd ℂ) (f s - sampleMean f) * (g s - sampleMean g)).re

/-- The average that belongs to a real coordinate, when the averages are real. -/
def average (ema : Tree ρ γ) : Coord ρ γ → ℝ
  | .inl i => ema.real i
  | .inr (.inl j) => (ema.cplx j).re
  | .inr (.inr j) => (ema.cplx j).re

/-- The Euclidean inner product of the real coordinates of two trees. -/
noncomputable def inner (u v : Tree ρ γ) : ℝ := ∑ q, toReal u q * toReal v q

/-! ## Lemmas -/

theorem tree_ext {u v : Tree ρ γ} (h : ∀ q, toReal u q = toReal v q) : u = v := by
  obtain ⟨a, b⟩ := u
  obtain ⟨c, d⟩ := v
  have h1 : a = c := funext fun i => h (.inl i)
  have h2 : b = d := funext fun j => Complex.ext (h (.inr (.inl j))) (h (.inr (.inr j)))
  rw [h1, h2]

/-- The directional derivative is the combination of the derivatives with respect to the real coordinates. -/
theorem apply_eq (J : Jvp ρ γ R ι) (v : Tree ρ γ) (s : Fin R × ι) : J.apply v s.1 s.2 = ∑ q, (toReal v q : ℂ) * J.col q s := by
  unfold Jvp.apply
  rw [Fintype.sum_sum_type, Fintype.sum_sum_type, ← Finset.sum_add_distrib]
  congr 1
  · exact Finset.sum_congr rfl fun i _ => mul_comm _ _
  · refine Finset.sum_congr rfl fun j _ => ?_
    have h1 : (starRingEnd ℂ) (v.cplx j) = ((v.cplx j).re : ℂ) - (v.cplx j).im * Complex.I := by
      apply Complex.ext <;> simp
    have h2 : v.cplx j = ((v.cplx j).re : ℂ) + (v.cplx j).im * Complex.I := (Complex.re_add_im _).symm
    rw [h1]
    conv_lhs => rw [h2]
    simp only [toReal, Jvp.col, Complex.add_re, Complex.add_im, Complex.ofReal_re, Complex.ofReal_im, Complex.mul_re, Complex.mul_im, Complex.I_re,
      Complex.I_im]
    push_cast
    ring

/-- Centring one factor is enough. -/
theorem cov_eq {S : Type} [Fintype S] (f g : S → ℂ) :
    ∑ s, (starRingEnd ℂ) (g s * (1 / (Fintype.card S : ℂ)) - (∑ t, g t * (1 / (Fintype.card S : ℂ))) / (Fintype.card S : ℂ)) * f s =
      sampleMean fun s => (starRingEnd ℂ) (g s - sampleMean g) * (f s - sampleMean f) := by
  have h1 : ∀ s, g s * (1 / (Fintype.card S : ℂ)) - (∑ t, g t * (1 / (Fintype.card S : ℂ))) / (Fintype.card S : ℂ) =
      (g s - sampleMean g) / (Fintype.card S : ℂ) := by
    intro s
    unfold sampleMean
    rw [← Finset.sum_mul]
    ring
  simp only [h1]
  have hz : ∑ s, (g s - sampleMean g) = 0 := by
    rw [Finset.sum_sub_distrib, Finset.sum_const, Finset.card_univ, nsmul_eq_mul]
    unfold sampleMean
    rcases isEmpty_or_nonempty S with h | h
    · simp
    · rw [mul_div_cancel₀ _ (by simp [Fintype.card_ne_zero]), sub_self]
  have hz' : ∑ s, (starRingEnd ℂ) (g s - sampleMean g) = 0 := by rw [← map_sum, hz, map_zero]
  rw [show (sampleMean fun s => (starRingEnd ℂ) (g s - sampleMean g) * (f s - sampleMean f)) =
    (∑ s, (starRingEnd ℂ) (g s - sampleMean g) * (f s - sampleMean f)) / (Fintype.card S : ℂ) from rfl]
  simp only [mul_sub, Finset.sum_sub_distrib]
  rw [← Finset.sum_mul, hz', zero_mul, sub_zero, Finset.sum_div]
  refine Finset.sum_congr rfl fun s _ => ?_
  rw [map_div₀, Complex.conj_natCast]
  ring

theorem metric_symm {S : Type} [Fintype S] (f g : S → ℂ) : metric f g = metric g f := by
  unfold metric
  rw [← Complex.conj_re]
  unfold sampleMean
  rw [map_div₀, Complex.conj_natCast, map_sum]
  congr 2
  refine Finset.sum_congr rfl fun s _ => ?_
  rw [map_mul, Complex.conj_conj, mul_comm]

theorem metric_self_nonneg {S : Type} [Fintype S] (f : S → ℂ) : 0 ≤ metric f f := by
  unfold metric
  rw [show (sampleMean fun s => (starRingEnd ℂ) (f s - sampleMean f) * (f s - sampleMean f)) =
    ((((∑ s, Complex.normSq (f s - sampleMean f)) / (Fintype.card S : ℝ) : ℝ)) : ℂ) from ?_, Complex.ofReal_re]
  · exact div_nonneg (Finset.sum_nonneg fun s _ => Complex.normSq_nonneg _) (Nat.cast_nonneg _)
  · conv_lhs => unfold sampleMean
    push_cast
    congr 1
    exact Finset.sum_congr rfl fun s _ => Complex.normSq_eq_conj_mul_self.symm

theorem sampleMean_sum {S : Type} [Fintype S] {κ : Type} [Fintype κ] (c : κ → ℂ) (g : κ → S → ℂ) :
    (sampleMean fun s => ∑ q, c q * g q s) = ∑ q, c q * sampleMean (g q) := by
  unfold sampleMean
  rw [Finset.sum_comm, Finset.sum_div]
  refine Finset.sum_congr rfl fun q _ => ?_
  rw [← Finset.mul_sum, mul_div_assoc]

theorem metric_sum {S : Type} [Fintype S] {κ : Type} [Fintype κ] (f : S → ℂ) (c : κ → ℝ) (g : κ → S → ℂ) :
    metric f (fun s => ∑ q, (c q : ℂ) * g q s) = ∑ q, metric f (g q) * c q := by
  unfold metric
  have h : (sampleMean fun s => (starRingEnd ℂ) (f s - sampleMean f) * ((∑ q, (c q : ℂ) * g q s) - sampleMean fun s => ∑ q, (c q : ℂ) * g q s)) =
      ∑ q, (c q : ℂ) * sampleMean fun s => (starRingEnd ℂ) (f s - sampleMean f) * (g q s - sampleMean (g q)) := by
    rw [← sampleMean_sum]
    congr 1
    funext s
    rw [sampleMean_sum, ← Finset.sum_sub_distrib, Finset.mul_sum]
    exact Finset.sum_congr rfl fun q _ => by ring
  rw [h, Complex.re_sum]
  exact Finset.sum_congr rfl fun q _ => by rw [Complex.re_ofReal_mul, mul_comm]

theorem metric_apply (J : Jvp ρ γ R ι) (u v : Tree ρ γ) :
    metric (fun s : Fin R × ι => J.apply u s.1 s.2) (fun s => J.apply v s.1 s.2) = ∑ q, toReal u q * ∑ q', metric (J.col q) (J.col q') * toReal v q' := by
  have h : ∀ v : Tree ρ γ, (fun s : Fin R × ι => J.apply v s.1 s.2) = fun s => ∑ q, (toReal v q : ℂ) * J.col q s := fun v => funext fun s => apply_eq J v s
  rw [h u, metric_symm, metric_sum]
  refine Finset.sum_congr rfl fun q _ => ?_
  rw [h v, metric_symm, metric_sum, mul_comm]

/-- The centred derivative times one over the number of samples. -/
noncomputable def weight (J : Jvp ρ γ R ι) (v : Tree ρ γ) (r : Fin R) (a : ι) : ℂ :=
  J.apply v r a * (1 / ((Fintype.card ι * R : ℕ) : ℂ)) - (∑ r, ∑ a, J.apply v r a * (1 / ((Fintype.card ι * R : ℕ) : ℂ))) / ((Fintype.card ι * R : ℕ) : ℂ)

theorem weight_sum (J : Jvp ρ γ R ι) (v : Tree ρ γ) (q : Coord ρ γ) :
    (∑ s : Fin R × ι, (starRingEnd ℂ) (weight J v s.1 s.2) * J.col q s).re = ∑ q', metric (J.col q) (J.col q') * toReal v q' := by
  have hc : ((Fintype.card ι * R : ℕ) : ℂ) = (Fintype.card (Fin R × ι) : ℂ) := by
    rw [Fintype.card_prod, Fintype.card_fin, Nat.mul_comm]
  have h := cov_eq (J.col q) (fun s : Fin R × ι => J.apply v s.1 s.2)
  rw [Fintype.sum_prod_type (f := fun t : Fin R × ι => J.apply v t.1 t.2 * (1 / (Fintype.card (Fin R × ι) : ℂ)))] at h
  unfold weight
  rw [hc, h]
  have h2 : (sampleMean fun s : Fin R × ι => (starRingEnd ℂ) (J.apply v s.1 s.2 - sampleMean fun s : Fin R × ι => J.apply v s.1 s.2) *
      (J.col q s - sampleMean (J.col q))).re = metric (fun s : Fin R × ι => J.apply v s.1 s.2) (J.col q) := rfl
  rw [h2, metric_symm, show (fun s : Fin R × ι => J.apply v s.1 s.2) = fun s => ∑ q, (toReal v q : ℂ) * J.col q s from funext fun s => apply_eq J v s,
    metric_sum]

/-- The part of the product that does not depend on the shift. -/
noncomputable def geometric (J : Jvp ρ γ R ι) (v : Tree ρ γ) : Tree ρ γ where
  real i := ∑ r, (∑ a, (starRingEnd ℂ) (weight J v r a) * J.real r a i).re
  cplx j := ∑ r, (starRingEnd ℂ) ((∑ a, (starRingEnd ℂ) (weight J v r a) * J.hol r a j) +
    (starRingEnd ℂ) (∑ a, (starRingEnd ℂ) (weight J v r a) * J.anti r a j))

theorem matVec_real (J : Jvp ρ γ R ι) (v : Tree ρ γ) (shift : ℝ) (ema : Tree ρ γ) (eps : ℝ) (i : ρ) :
    (matVec J v shift ema eps).real i = (1 - shift) * (geometric J v).real i + shift * (Real.sqrt (ema.real i) + eps) * v.real i := rfl

theorem matVec_cplx (J : Jvp ρ γ R ι) (v : Tree ρ γ) (shift : ℝ) (ema : Tree ρ γ) (eps : ℝ) (j : γ) :
    (matVec J v shift ema eps).cplx j =
      (1 - (shift : ℂ)) * (geometric J v).cplx j + (shift : ℂ) * (csqrt (ema.cplx j) + eps) * v.cplx j := rfl

theorem geometric_eq (J : Jvp ρ γ R ι) (v : Tree ρ γ) (q : Coord ρ γ) :
    toReal (geometric J v) q = ∑ q', metric (J.col q) (J.col q') * toReal v q' := by
  rw [← weight_sum]
  rcases q with i | j | j
  · rw [Fintype.sum_prod_type, Complex.re_sum]
    rfl
  · show (∑ r, _ : ℂ).re = _
    rw [Complex.re_sum, Fintype.sum_prod_type, Complex.re_sum]
    refine Finset.sum_congr rfl fun r _ => ?_
    rw [Complex.conj_re, Complex.add_re, Complex.conj_re, ← Complex.add_re, ← Finset.sum_add_distrib]
    congr 1
    exact Finset.sum_congr rfl fun a _ => by simp only [Jvp.col]; ring
  · show (∑ r, _ : ℂ).im = _
    rw [Complex.im_sum, Fintype.sum_prod_type, Complex.re_sum]
    refine Finset.sum_congr rfl fun r _ => ?_
    have h : ∑ a, (starRingEnd ℂ) (weight J v r a) * J.col (.inr (.inr j)) (r, a) =
        Complex.I * (∑ a, (starRingEnd ℂ) (weight J v r a) * J.hol r a j) - Complex.I * ∑ a, (starRingEnd ℂ) (weight J v r a) * J.anti r a j := by
      rw [Finset.mul_sum, Finset.mul_sum, ← Finset.sum_sub_distrib]
      exact Finset.sum_congr rfl fun a _ => by simp only [Jvp.col]; ring
    rw [h]
    generalize ∑ a, (starRingEnd ℂ) (weight J v r a) * J.hol r a j = x
    generalize ∑ a, (starRingEnd ℂ) (weight J v r a) * J.anti r a j = y
    simp

/-! ## The property -/

/-- C161, the product: every real coordinate of `S @ v`, for any model and any mixture of real and complex parameters, with averages that are real
and nonnegative, is that of `(1 - s) M + s diag(√ema + eps)`, where `M` is the real part of the covariance matrix of the derivatives of the
log-amplitudes with respect to the real coordinates of the parameters. -/
theorem C161_product (S : QGT ρ γ R ι) (hema : ∀ j, (S.ema.cplx j).im = 0 ∧ 0 ≤ (S.ema.cplx j).re) (v : Tree ρ γ) (q : Coord ρ γ) :
    toReal (S.matmul v) q = (1 - S.shift) * (∑ q', metric (S.jvp.col q) (S.jvp.col q') * toReal v q') +
      S.shift * (Real.sqrt (average S.ema q) + S.eps) * toReal v q := by
  rw [← geometric_eq]
  unfold QGT.matmul
  have hc : ∀ j, (matVec S.jvp v S.shift S.ema S.eps).cplx j =
      ((1 - S.shift : ℝ) : ℂ) * (geometric S.jvp v).cplx j + ((S.shift * (Real.sqrt (S.ema.cplx j).re + S.eps) : ℝ) : ℂ) * v.cplx j := by
    intro j
    have h : S.ema.cplx j = ((S.ema.cplx j).re : ℂ) := Complex.ext rfl (hema j).1
    rw [matVec_cplx, h, csqrt_ofReal _ (hema j).2, Complex.ofReal_re]
    push_cast
    rfl
  rcases q with i | j | j
  · exact matVec_real _ _ _ _ _ _
  · show (Tree.cplx _ j).re = _
    rw [hc, Complex.add_re, Complex.re_ofReal_mul, Complex.re_ofReal_mul]
    rfl
  · show (Tree.cplx _ j).im = _
    rw [hc, Complex.add_im, Complex.im_ofReal_mul, Complex.im_ofReal_mul]
    rfl

/-- C161, geometry: without shift, the product is the metric of the directional derivatives, for any model. -/
theorem C161_metric (S : QGT ρ γ R ι) (h0 : S.shift = 0) (u v : Tree ρ γ) :
    inner u (S.matmul v) = metric (fun s : Fin R × ι => S.jvp.apply u s.1 s.2) (fun s => S.jvp.apply v s.1 s.2) := by
  rw [metric_apply]
  unfold inner
  refine Finset.sum_congr rfl fun q _ => ?_
  rw [← geometric_eq]
  congr 1
  unfold QGT.matmul
  rw [h0]
  obtain ⟨i, rfl⟩ | ⟨j, rfl⟩ | ⟨j, rfl⟩ : (∃ i, q = .inl i) ∨ (∃ j, q = .inr (.inl j)) ∨ ∃ j, q = .inr (.inr j) := by
    rcases q with i | j | j <;> simp
  · show Tree.real _ i = _
    rw [matVec_real]
    simp [toReal]
  · show (Tree.cplx _ j).re = _
    rw [matVec_cplx]
    simp [toReal]
  · show (Tree.cplx _ j).im = _
    rw [matVec_cplx]
    simp [toReal]

theorem csqrt_re_nonneg (z : ℂ) : 0 ≤ (csqrt z).re := by
  unfold csqrt
  by_cases hz : z = 0
  · subst hz
    rw [Complex.zero_cpow (by norm_num)]
    simp
  rw [Complex.cpow_def_of_ne_zero hz, Complex.exp_re]
  refine mul_nonneg (Real.exp_pos _).le (Real.cos_nonneg_of_mem_Icc ?_)
  have h : (Complex.log z * (1 / 2 : ℂ)).im = Complex.arg z / 2 := by
    rw [show (1 / 2 : ℂ) = ((1 / 2 : ℝ) : ℂ) by push_cast; rfl, mul_comm, Complex.im_ofReal_mul, Complex.log_im]
    ring
  rw [h]
  have h1 := Complex.neg_pi_lt_arg z
  have h2 := Complex.arg_le_pi z
  constructor <;> linarith

/-- The part of the product with the averages. -/
noncomputable def scaled (ema : Tree ρ γ) (eps : ℝ) (v : Tree ρ γ) : Tree ρ γ where
  real i := (Real.sqrt (ema.real i) + eps) * v.real i
  cplx j := (csqrt (ema.cplx j) + eps) * v.cplx j

theorem matmul_coord (S : QGT ρ γ R ι) (v : Tree ρ γ) (q : Coord ρ γ) :
    toReal (S.matmul v) q = (1 - S.shift) * (∑ q', metric (S.jvp.col q) (S.jvp.col q') * toReal v q') +
      S.shift * toReal (scaled S.ema S.eps v) q := by
  rw [← geometric_eq]
  unfold QGT.matmul
  have hc : ∀ j, (matVec S.jvp v S.shift S.ema S.eps).cplx j =
      ((1 - S.shift : ℝ) : ℂ) * (geometric S.jvp v).cplx j + (S.shift : ℂ) * (scaled S.ema S.eps v).cplx j := by
    intro j
    rw [matVec_cplx, mul_assoc]
    push_cast
    rfl
  rcases q with i | j | j
  · exact (matVec_real _ _ _ _ _ _).trans (by rw [mul_assoc]; rfl)
  · show (Tree.cplx _ j).re = _
    rw [hc, Complex.add_re, Complex.re_ofReal_mul, Complex.re_ofReal_mul]
    rfl
  · show (Tree.cplx _ j).im = _
    rw [hc, Complex.add_im, Complex.im_ofReal_mul, Complex.im_ofReal_mul]
    rfl

/-- C161, symmetry: with real averages `S` is symmetric in the real inner product, for any model. -/
theorem C161_symmetric (S : QGT ρ γ R ι) (hema : ∀ j, (S.ema.cplx j).im = 0 ∧ 0 ≤ (S.ema.cplx j).re) (u v : Tree ρ γ) :
    inner u (S.matmul v) = inner (S.matmul u) v := by
  unfold inner
  simp only [C161_product S hema]
  rw [← sub_eq_zero, ← Finset.sum_sub_distrib]
  have h : ∀ q, toReal u q * ((1 - S.shift) * (∑ q', metric (S.jvp.col q) (S.jvp.col q') * toReal v q') +
      S.shift * (Real.sqrt (average S.ema q) + S.eps) * toReal v q) -
      ((1 - S.shift) * (∑ q', metric (S.jvp.col q) (S.jvp.col q') * toReal u q') +
      S.shift * (Real.sqrt (average S.ema q) + S.eps) * toReal u q) * toReal v q =
      (1 - S.shift) * (∑ q', metric (S.jvp.col q) (S.jvp.col q') * toReal v q' * toReal u q) -
        (1 - S.shift) * ∑ q', metric (S.jvp.col q) (S.jvp.col q') * toReal u q' * toReal v q := by
    intro q
    rw [← Finset.sum_mul, ← Finset.sum_mul]
    ring
  simp only [h]
  rw [Finset.sum_sub_distrib, ← Finset.mul_sum, ← Finset.mul_sum, Finset.sum_comm, sub_eq_zero]
  congr 1
  refine Finset.sum_congr rfl fun q _ => Finset.sum_congr rfl fun q' _ => ?_
  rw [metric_symm]
  ring

/-- C161, positivity: with positive shift and `eps`, `⟨v, S v⟩ > 0` for every nonzero `v`, whatever the averages. -/
theorem C161_positive (S : QGT ρ γ R ι) (h0 : 0 < S.shift) (h1 : S.shift ≤ 1) (he : 0 < S.eps) (v : Tree ρ γ) (hv : ∃ q, toReal v q ≠ 0) :
    0 < inner v (S.matmul v) := by
  unfold inner
  simp only [matmul_coord, mul_add, Finset.sum_add_distrib]
  have hA : ∑ q, toReal v q * ((1 - S.shift) * ∑ q', metric (S.jvp.col q) (S.jvp.col q') * toReal v q') =
      (1 - S.shift) * metric (fun s : Fin R × ι => S.jvp.apply v s.1 s.2) (fun s => S.jvp.apply v s.1 s.2) := by
    rw [metric_apply, Finset.mul_sum]
    exact Finset.sum_congr rfl fun q _ => by ring
  have hA' : 0 ≤ ∑ q, toReal v q * ((1 - S.shift) * ∑ q', metric (S.jvp.col q) (S.jvp.col q') * toReal v q') := by
    rw [hA]
    exact mul_nonneg (by linarith) (metric_self_nonneg _)
  have hB : S.eps * ∑ q, toReal v q ^ 2 ≤ ∑ q, toReal v q * toReal (scaled S.ema S.eps v) q := by
    rw [Fintype.sum_sum_type, Fintype.sum_sum_type, Fintype.sum_sum_type, Fintype.sum_sum_type, ← Finset.sum_add_distrib, ← Finset.sum_add_distrib,
      mul_add, Finset.mul_sum, Finset.mul_sum]
    refine add_le_add (Finset.sum_le_sum fun i _ => ?_) (Finset.sum_le_sum fun j _ => ?_)
    · simp only [toReal, scaled]
      have := mul_nonneg (Real.sqrt_nonneg (S.ema.real i)) (sq_nonneg (v.real i))
      nlinarith
    · simp only [toReal, scaled, Complex.mul_re, Complex.mul_im, Complex.add_re, Complex.add_im, Complex.ofReal_re, Complex.ofReal_im]
      have := mul_nonneg (csqrt_re_nonneg (S.ema.cplx j)) (add_nonneg (sq_nonneg (v.cplx j).re) (sq_nonneg (v.cplx j).im))
      nlinarith
  have hC : 0 < ∑ q, toReal v q ^ 2 := by
    obtain ⟨q, hq⟩ := hv
    exact Finset.sum_pos' (fun q _ => sq_nonneg _) ⟨q, Finset.mem_univ q, by positivity⟩
  have hD : ∑ q, toReal v q * (S.shift * toReal (scaled S.ema S.eps v) q) = S.shift * ∑ q, toReal v q * toReal (scaled S.ema S.eps v) q := by
    rw [Finset.mul_sum]
    exact Finset.sum_congr rfl fun q _ => by ring
  rw [hD]
  have := mul_pos h0 (mul_pos he hC)
  nlinarith [mul_le_mul_of_nonneg_left hB h0.le]

omit [Fintype ρ] [Fintype γ] in
theorem toReal_reassemble (x : Coord ρ γ → ℝ) (q : Coord ρ γ) : toReal (reassemble x) q = x q := by
  rcases q with i | j | j <;> rfl

theorem reassemble_toReal (t : Tree ρ γ) : reassemble (toReal t) = t := tree_ext (toReal_reassemble _)

/-- The product as a linear map of the real coordinates. -/
noncomputable def linear (S : QGT ρ γ R ι) : (Coord ρ γ → ℝ) →ₗ[ℝ] (Coord ρ γ → ℝ) where
  toFun x := toReal (S.matmul (reassemble x))
  map_add' x y := by
    funext q
    simp only [Pi.add_apply, matmul_coord, toReal_reassemble, mul_add, Finset.sum_add_distrib]
    have h : toReal (scaled S.ema S.eps (reassemble (x + y))) q =
        toReal (scaled S.ema S.eps (reassemble x)) q + toReal (scaled S.ema S.eps (reassemble y)) q := by
      rcases q with i | j | j <;> simp [toReal, scaled, reassemble] <;> ring
    rw [h]
    ring
  map_smul' c x := by
    funext q
    simp only [Pi.smul_apply, smul_eq_mul, matmul_coord, toReal_reassemble, RingHom.id_apply]
    have h : toReal (scaled S.ema S.eps (reassemble (c • x))) q = c * toReal (scaled S.ema S.eps (reassemble x)) q := by
      rcases q with i | j | j <;> simp [toReal, scaled, reassemble] <;> ring
    rw [h, show ∑ q', metric (S.jvp.col q) (S.jvp.col q') * (c * x q') = c * ∑ q', metric (S.jvp.col q) (S.jvp.col q') * x q' by
      rw [Finset.mul_sum]; exact Finset.sum_congr rfl fun q' _ => by ring]
    ring

/-- C161, solving: with positive shift and `eps` the linear system has exactly one solution for every right-hand side, and a solver that returns a
solution from any start returns it. -/
theorem C161_solve (S : QGT ρ γ R ι) (h0 : 0 < S.shift) (h1 : S.shift ≤ 1) (he : 0 < S.eps) (y : Tree ρ γ) :
    (∃! x, S.matmul x = y) ∧
      ∀ (solver : (Tree ρ γ → Tree ρ γ) → Tree ρ γ → Tree ρ γ → Tree ρ γ) (x0 : Option (Tree ρ γ)),
        (∀ start, S.matmul (solver S.matmul y start) = y) → ∀ x, S.matmul x = y → S.solve solver y x0 = x := by
  have hinj : Function.Injective (linear S) := by
    rw [← LinearMap.ker_eq_bot, LinearMap.ker_eq_bot']
    intro x hx
    by_contra hne
    have hq : ∃ q, toReal (reassemble x : Tree ρ γ) q ≠ 0 := by
      by_contra hcon
      push Not at hcon
      exact hne (funext fun q => (toReal_reassemble x q).symm.trans (hcon q))
    have hp := C161_positive S h0 h1 he (reassemble x) hq
    unfold inner at hp
    have hz : ∀ q, toReal (S.matmul (reassemble x)) q = 0 := fun q => congrFun hx q
    simp [hz] at hp
  have huniq : ∀ x x', S.matmul x = y → S.matmul x' = y → x = x' := by
    intro x x' hx hx'
    have : toReal x = toReal x' := hinj (by
      show toReal (S.matmul (reassemble (toReal x))) = toReal (S.matmul (reassemble (toReal x')))
      rw [reassemble_toReal, reassemble_toReal, hx, hx'])
    rw [← reassemble_toReal x, this, reassemble_toReal]
  constructor
  · obtain ⟨x, hx⟩ := LinearMap.injective_iff_surjective.mp hinj (toReal y)
    refine ⟨reassemble x, tree_ext fun q => congrFun hx q, fun x' hx' => huniq _ _ hx' (tree_ext fun q => congrFun hx q)⟩
  · intro solver x0 hs x hx
    exact huniq _ _ (hs _) hx

/-- C161 fails for symmetry with the averages of complex gradients, `re² + i im²`: no shift below them makes conjugate gradients applicable.  One
complex parameter with gradient `i`. -/
theorem C161_complex_average_fails :
    ∃ (S : QGT (Fin 0) (Fin 1) 1 (Fin 1)) (u v : Tree (Fin 0) (Fin 1)),
      construct .sampled S.jvp ⟨fun _ => 0, fun _ => updateEmaComplex 0 0 Complex.I⟩ 1 1 none (some true) = some S ∧
        inner u (S.matmul v) ≠ inner (S.matmul u) v := by
  have hema : updateEmaComplex 0 0 Complex.I = Complex.I := by simp [updateEmaComplex]
  have h2 : csqrt Complex.I ^ 2 = Complex.I := by
    unfold csqrt
    rw [one_div]
    exact_mod_cast Complex.cpow_nat_inv_pow Complex.I (n := 2) (by norm_num)
  have him : (csqrt Complex.I).im ≠ 0 := by
    intro h
    have h4 := congrArg Complex.im h2
    rw [pow_two, Complex.mul_im, h, Complex.I_im] at h4
    norm_num at h4
  refine ⟨⟨⟨fun _ _ _ => 0, fun _ _ _ => 0, fun _ _ _ => 0⟩, 1, 1, ⟨fun _ => 0, fun _ => updateEmaComplex 0 0 Complex.I⟩, .holomorphic⟩,
    ⟨fun _ => 0, fun _ => 1⟩, ⟨fun _ => 0, fun _ => Complex.I⟩, ?_, ?_⟩
  · unfold construct
    simp
    infer_instance
  · unfold inner
    simp only [matmul_coord]
    have hm : ∀ f : Fin 1 × Fin 1 → ℂ, metric (fun _ : Fin 1 × Fin 1 => (0 : ℂ)) f = 0 := fun f => by simp [metric, sampleMean]
    simp only [Fintype.sum_sum_type, scaled, toReal, hema]
    simp
    intro h
    apply him
    linarith

/-! ## Real parameters -/

/-- C161, real parameters: the product is `(1 - s) Re S + s diag(√ema + eps)`, with the covariance matrix `S` of the (complex) derivatives. -/
theorem C161_real [IsEmpty γ] (S : QGT ρ γ R ι) (v : Tree ρ γ) (i : ρ) :
    (S.matmul v).real i = (1 - S.shift) * (∑ l, metric (S.jvp.col (.inl i)) (S.jvp.col (.inl l)) * v.real l) +
      S.shift * (Real.sqrt (S.ema.real i) + S.eps) * v.real i := by
  have h := C161_product S (fun j => isEmptyElim j) v (.inl i)
  rw [Fintype.sum_sum_type, Finset.univ_eq_empty (α := γ ⊕ γ), Finset.sum_empty, add_zero] at h
  exact h

/-- The rows of the Jacobian of the dense tensor in mode `complex` (qgt_jacobian_dense_rmsprop.py:84-100 with NetKet's `jacobian`): the real and
imaginary parts of the centred derivatives with respect to the real coordinates, over the square root of the number of samples. -/
noncomputable def denseRows (J : Jvp ρ γ R ι) (e : Coord ρ γ ≃ Fin P) (r : Fin R) : Matrix (ι × Bool) (Fin P) ℝ := fun a k =>
  let z := (J.col (e.symm k) (r, a.1) - sampleMean (J.col (e.symm k))) / (Real.sqrt (Fintype.card (Fin R × ι)) : ℂ)
  if a.2 then z.im else z.re

theorem denseRows_metric (J : Jvp ρ γ R ι) (e : Coord ρ γ ≃ Fin P) (q q' : Coord ρ γ) :
    ∑ a, column e (denseRows J e) q a * column e (denseRows J e) q' a = metric (J.col q) (J.col q') := by
  rw [Fintype.sum_prod_type]
  have h : ∀ r : Fin R, ∑ a : ι × Bool, column e (denseRows J e) q (r, a) * column e (denseRows J e) q' (r, a) =
      ∑ a : ι, ((starRingEnd ℂ) (J.col q (r, a) - sampleMean (J.col q)) * (J.col q' (r, a) - sampleMean (J.col q'))).re /
        (Fintype.card (Fin R × ι) : ℝ) := by
    intro r
    rw [Fintype.sum_prod_type]
    refine Finset.sum_congr rfl fun a _ => ?_
    rw [Fintype.sum_bool]
    simp only [column, denseRows, Equiv.symm_apply_apply, if_true, Bool.false_eq_true, if_false]
    generalize J.col q (r, a) - sampleMean (J.col q) = x
    generalize J.col q' (r, a) - sampleMean (J.col q') = y
    have hs := Real.mul_self_sqrt (Nat.cast_nonneg (α := ℝ) (Fintype.card (Fin R × ι)))
    rw [Complex.div_ofReal_re, Complex.div_ofReal_re, Complex.div_ofReal_im, Complex.div_ofReal_im, div_mul_div_comm, div_mul_div_comm, hs, ← add_div]
    congr 1
    simp
    ring
  simp only [h]
  unfold metric
  rw [show (sampleMean fun s => (starRingEnd ℂ) (J.col q s - sampleMean (J.col q)) * (J.col q' s - sampleMean (J.col q'))) =
    (∑ s, (starRingEnd ℂ) (J.col q s - sampleMean (J.col q)) * (J.col q' s - sampleMean (J.col q'))) / ((Fintype.card (Fin R × ι) : ℝ) : ℂ) by
      rw [Complex.ofReal_natCast]; rfl, Complex.div_ofReal_re, Complex.re_sum, Fintype.sum_prod_type, Finset.sum_div]
  exact Finset.sum_congr rfl fun r _ => (Finset.sum_div _ _ _).symm

/-- C161, the two tensors: for real parameters `QGTOnTheFlyRMSProp` and `QGTJacobianDenseRMSProp` are the same operator. -/
theorem C161_agrees_dense [IsEmpty γ] (S : QGT ρ γ R ι) (e : Coord ρ γ ≃ Fin P) (v : Tree ρ γ) :
    S.matmul v = (⟨denseRows S.jvp e, S.shift, S.eps, S.ema⟩ : SRPrecond.QGT ρ γ R P (ι × Bool)).matmulTree e v := by
  refine tree_ext fun q => ?_
  rw [C161_product S (fun j => isEmptyElim j), C150_product]
  simp only [denseRows_metric]
  rcases q with i | j | j
  · rfl
  · exact isEmptyElim j
  · exact isEmptyElim j

/-- C161, the two tensors: for any parameters and models they agree when the shift is zero. -/
theorem C161_agrees_dense_unshifted (S : QGT ρ γ R ι) (h0 : S.shift = 0) (e : Coord ρ γ ≃ Fin P) (v : Tree ρ γ) :
    S.matmul v = (⟨denseRows S.jvp e, 0, S.eps, S.ema⟩ : SRPrecond.QGT ρ γ R P (ι × Bool)).matmulTree e v := by
  refine tree_ext fun q => ?_
  rw [matmul_coord, C150_product]
  simp only [denseRows_metric, h0]
  ring

/-! ## Dense forms -/

theorem toDenseReal_entry [IsEmpty γ] (e : ρ ≃ Fin P) (S : QGT ρ γ R ι) (k l : Fin P) :
    ravelReal e (S.matmul (unravelReal e fun m => if m = l then 1 else 0)) k =
      (1 - S.shift) * metric (S.jvp.col (.inl (e.symm k))) (S.jvp.col (.inl (e.symm l))) +
        (if k = l then S.shift * (Real.sqrt (S.ema.real (e.symm k)) + S.eps) else 0) := by
  unfold ravelReal
  rw [C161_real]
  simp only [unravelReal]
  congr 2
  · rw [← Equiv.sum_comp e.symm]
    simp
  · simp

/-- C161, `to_dense` of real parameters: whenever the constructor returns, `to_dense` returns a symmetric matrix whose products are those of the
operator. -/
theorem C161_to_dense_real [IsEmpty γ] (kind : StateKind) (jvp : Jvp ρ γ R ι) (ema : Tree ρ γ) (shift eps : ℝ) (chunk : Option ℕ)
    (hol : Option Bool) (S : QGT ρ γ R ι) (hS : construct kind jvp ema shift eps chunk hol = some S) (e : ρ ≃ Fin P) :
    ∃ M, S.toDenseReal e = some M ∧ M.IsSymm ∧ ∀ v, M *ᵥ v = ravelReal e (S.matmul (unravelReal e v)) := by
  have hmode : S.mode ≠ .complex := by
    unfold construct at hS
    split_ifs at hS with h1 h2 h3 h4 h5 h6 h7
    · injection hS with hS; subst hS; simp
    · exact isEmptyElim h7.some
    · injection hS with hS; subst hS; simp
  refine ⟨fun i => ravelReal e (S.matmul (unravelReal e fun k => if k = i then 1 else 0)), by unfold QGT.toDenseReal; rw [if_neg hmode], ?_, fun v => ?_⟩
  · refine Matrix.IsSymm.ext fun k l => ?_
    rw [toDenseReal_entry, toDenseReal_entry, metric_symm]
    congr 1
    by_cases h : k = l
    · subst h; rfl
    · rw [if_neg h, if_neg (Ne.symm h)]
  · funext k
    unfold mulVec dotProduct
    simp only [toDenseReal_entry]
    unfold ravelReal
    rw [C161_real]
    simp only [unravelReal, Equiv.apply_symm_apply, add_mul, Finset.sum_add_distrib]
    congr 1
    · rw [← Equiv.sum_comp e.symm, Finset.mul_sum]
      refine Finset.sum_congr rfl fun l _ => ?_
      rw [Equiv.apply_symm_apply, metric_symm]
      ring
    · rw [Finset.sum_eq_single k]
      · simp
      · intro l _ hl; simp [hl]
      · simp

/-- C161, arrays: the product with an array is defined exactly for one-dimensional arrays with one entry per parameter, and then is the product of
the dense matrix with it. -/
theorem C161_array [IsEmpty γ] (e : ρ ≃ Fin P) (S : QGT ρ γ R ι) (M : Matrix (Fin P) (Fin P) ℝ)
    (hM : ∀ v, M *ᵥ v = ravelReal e (S.matmul (unravelReal e v))) (ndim : ℕ) (vec : List ℝ) :
    ((S.matmulArray e ndim vec).isSome ↔ ndim = 1 ∧ vec.length = P) ∧
      ∀ v : Fin P → ℝ, S.matmulArray e 1 (List.ofFn v) = some (List.ofFn (M *ᵥ v)) := by
  constructor
  · unfold QGT.matmulArray
    split_ifs with h1 h2
    · simp [h1]
    · simp only [not_not] at h1
      simp [h1, ← h2]
    · simp [Ne.symm h2]
  · intro v
    unfold QGT.matmulArray
    rw [if_neg (by simp), dif_pos (by simp), hM]
    congr 5
    funext k
    simp

/-- C161, the constructor: it returns exactly for a sampled state, a shift between 0 and 1, no chunk size and, when `holomorphic` is declared, no
real parameters; the tensor then has the given data, and `to_dense` is refused exactly for complex parameters without that declaration. -/
theorem C161_construct (kind : StateKind) (jvp : Jvp ρ γ R ι) (ema : Tree ρ γ) (shift eps : ℝ) (chunk : Option ℕ) (hol : Option Bool) :
    ((construct kind jvp ema shift eps chunk hol).isSome ↔
        kind = .sampled ∧ (0 ≤ shift ∧ shift ≤ 1) ∧ chunk = none ∧ (hol = some true → IsEmpty ρ)) ∧
      ∀ S, construct kind jvp ema shift eps chunk hol = some S →
        (S.jvp = jvp ∧ S.shift = shift ∧ S.eps = eps ∧ S.ema = ema) ∧
          (S.mode = .complex ↔ Nonempty γ ∧ hol ≠ some true) ∧
          (∀ (n : ℕ) (e : γ ≃ Fin n), S.toDenseCplx e = none ↔ Nonempty γ ∧ hol ≠ some true) := by
  constructor
  · unfold construct
    by_cases hs : 0 ≤ shift ∧ shift ≤ 1 <;> by_cases hρ : Nonempty ρ <;> by_cases hγ : Nonempty γ <;> cases kind <;> cases chunk <;>
      by_cases hh : hol = some true <;> simp_all
  · intro S hS
    have hd : ∀ (n : ℕ) (e : γ ≃ Fin n), S.toDenseCplx e = none ↔ S.mode = .complex := by
      intro n e
      unfold QGT.toDenseCplx
      split_ifs with h <;> simp [h]
    have key : (S.jvp = jvp ∧ S.shift = shift ∧ S.eps = eps ∧ S.ema = ema) ∧ (S.mode = .complex ↔ Nonempty γ ∧ hol ≠ some true) := by
      unfold construct at hS
      split_ifs at hS with h1 h2 h3 h4 h5 h6 h7
      · injection hS with hS; subst hS; simp [h5]
      · injection hS with hS; subst hS; simp [h5, h7]
      · injection hS with hS; subst hS; simp [h7]
    exact ⟨key.1, key.2, fun n e => (hd n e).trans key.2⟩

/-- C161, `to_dense` of a holomorphic model: the products of the matrix are those of the operator. -/
theorem C161_to_dense_holomorphic [IsEmpty ρ] (S : QGT ρ γ R ι) (hmode : S.mode = .holomorphic) (hanti : ∀ r a j, S.jvp.anti r a j = 0)
    (e : γ ≃ Fin P) :
    ∃ M, S.toDenseCplx e = some M ∧ ∀ v, M *ᵥ v = ravelCplx e (S.matmul (unravelCplx e v)) := by
  refine ⟨Matrix.transpose fun i => ravelCplx e (S.matmul (unravelCplx e fun k => if k = i then 1 else 0)),
    by unfold QGT.toDenseCplx; rw [if_neg (by rw [hmode]; simp)], fun v => ?_⟩
  have happ : ∀ (v : Fin P → ℂ) r a, S.jvp.apply (unravelCplx e v) r a = ∑ k, v k * S.jvp.apply (unravelCplx e fun m => if m = k then 1 else 0) r a := by
    intro v r a
    have h : ∀ v : Fin P → ℂ, S.jvp.apply (unravelCplx e v) r a = ∑ k, S.jvp.hol r a (e.symm k) * v k := by
      intro v
      unfold Jvp.apply
      simp only [hanti, zero_mul, add_zero, Finset.univ_eq_empty (α := ρ), Finset.sum_empty, zero_add, unravelCplx]
      rw [← Equiv.sum_comp e.symm]
      simp
    rw [h]
    refine Finset.sum_congr rfl fun k _ => ?_
    rw [h]
    simp [mul_comm]
  have hw : ∀ (v : Fin P → ℂ) r a, weight S.jvp (unravelCplx e v) r a = ∑ k, v k * weight S.jvp (unravelCplx e fun m => if m = k then 1 else 0) r a := by
    intro v r a
    unfold weight
    simp only [mul_sub, Finset.sum_sub_distrib]
    congr 1
    · rw [happ, Finset.sum_mul]
      exact Finset.sum_congr rfl fun k _ => by ring
    · have : ∀ k, v k * ((∑ r, ∑ a, S.jvp.apply (unravelCplx e fun m => if m = k then 1 else 0) r a * (1 / ((Fintype.card ι * R : ℕ) : ℂ))) /
          ((Fintype.card ι * R : ℕ) : ℂ)) = (∑ r, ∑ a, v k * S.jvp.apply (unravelCplx e fun m => if m = k then 1 else 0) r a *
            (1 / ((Fintype.card ι * R : ℕ) : ℂ))) / ((Fintype.card ι * R : ℕ) : ℂ) := by
        intro k
        rw [← mul_div_assoc, Finset.mul_sum]
        congr 1
        refine Finset.sum_congr rfl fun r _ => ?_
        rw [Finset.mul_sum]
        exact Finset.sum_congr rfl fun a _ => by ring
      simp only [this]
      rw [← Finset.sum_div]
      congr 1
      conv_rhs => rw [Finset.sum_comm]
      refine Finset.sum_congr rfl fun r _ => ?_
      conv_rhs => rw [Finset.sum_comm]
      refine Finset.sum_congr rfl fun a _ => ?_
      rw [happ, Finset.sum_mul]
  have hg : ∀ (v : Fin P → ℂ) j, (geometric S.jvp (unravelCplx e v)).cplx j =
      ∑ k, v k * (geometric S.jvp (unravelCplx e fun m => if m = k then 1 else 0)).cplx j := by
    intro v j
    have hgeo : ∀ v : Tree ρ γ, (geometric S.jvp v).cplx j = ∑ r, ∑ a, weight S.jvp v r a * (starRingEnd ℂ) (S.jvp.hol r a j) := by
      intro v
      simp only [geometric, hanti, mul_zero, Finset.sum_const_zero, map_zero, add_zero, map_sum, map_mul, Complex.conj_conj]
    simp only [hgeo, Finset.mul_sum]
    conv_rhs => rw [Finset.sum_comm]
    refine Finset.sum_congr rfl fun r _ => ?_
    conv_rhs => rw [Finset.sum_comm]
    refine Finset.sum_congr rfl fun a _ => ?_
    rw [hw, Finset.sum_mul]
    exact Finset.sum_congr rfl fun k _ => by ring
  funext k
  show ∑ l, (S.matmul (unravelCplx e fun m => if m = l then 1 else 0)).cplx (e.symm k) * v l = (S.matmul (unravelCplx e v)).cplx (e.symm k)
  simp only [QGT.matmul, matVec_cplx]
  rw [hg v]
  simp only [add_mul, Finset.sum_add_distrib]
  congr 1
  · rw [Finset.mul_sum]
    exact Finset.sum_congr rfl fun l _ => by ring
  · simp only [unravelCplx, Equiv.apply_symm_apply]
    generalize (S.shift : ℂ) * (csqrt (S.ema.cplx (e.symm k)) + S.eps) = c
    simp

/-- A false declaration: with `holomorphic=True` for a model that is not, `to_dense` returns a matrix that is not the operator.  Two samples, one
parameter, log-amplitudes `z + conj z` and `0`. -/
theorem C161_false_declaration_fails :
    ∃ (jvp : Jvp (Fin 0) (Fin 1) 1 (Fin 2)) (S : QGT (Fin 0) (Fin 1) 1 (Fin 2)) (M : Matrix (Fin 1) (Fin 1) ℂ) (v : Fin 1 → ℂ),
      construct .sampled jvp ⟨fun _ => 0, fun _ => 0⟩ 0 0 none (some true) = some S ∧ S.toDenseCplx (Equiv.refl _) = some M ∧
        M *ᵥ v ≠ ravelCplx (Equiv.refl _) (S.matmul (unravelCplx (Equiv.refl _) v)) := by
  refine ⟨⟨fun _ _ _ => 0, fun _ a _ => if a = 0 then 1 else 0, fun _ a _ => if a = 0 then 1 else 0⟩,
    ⟨⟨fun _ _ _ => 0, fun _ a _ => if a = 0 then 1 else 0, fun _ a _ => if a = 0 then 1 else 0⟩, 0, 0, ⟨fun _ => 0, fun _ => 0⟩, .holomorphic⟩,
    fun _ _ => 1, fun _ => Complex.I, ?_, ?_, ?_⟩
  · unfold construct
    simp
    infer_instance
  · unfold QGT.toDenseCplx
    rw [if_neg (by simp)]
    refine congrArg some ?_
    funext i j
    rw [Subsingleton.elim i 0, Subsingleton.elim j 0]
    show ravelCplx (Equiv.refl (Fin 1)) (QGT.matmul _ (unravelCplx (Equiv.refl (Fin 1)) fun k => if k = 0 then 1 else 0)) 0 = 1
    simp [ravelCplx, unravelCplx, QGT.matmul, matVec, Jvp.apply, Jvp.transpose, treeConj, Fin.sum_univ_two]
    rw [show (starRingEnd ℂ) 2 = 2 from Complex.conj_ofNat 2]
    norm_num
  · intro h
    have h0 := congrFun h 0
    simp [mulVec, dotProduct, ravelCplx, unravelCplx, QGT.matmul, matVec, Jvp.apply, Jvp.transpose, treeConj] at h0

/-- Non-vacuity: a tensor with a real parameter whose amplitudes are complex, constructed with shift 1/2. -/
example : ∃ (jvp : Jvp (Fin 1) (Fin 0) 1 (Fin 2)) (S : QGT (Fin 1) (Fin 0) 1 (Fin 2)),
    construct .sampled jvp ⟨fun _ => 1, fun _ => 0⟩ (1 / 2) 1 none none = some S ∧ 0 < S.shift ∧ S.shift ≤ 1 ∧ 0 < S.eps ∧
      metric (S.jvp.col (.inl 0)) (S.jvp.col (.inl 0)) = 1 := by
  refine ⟨⟨fun _ a _ => if a = 0 then Complex.I else -Complex.I, fun _ _ _ => 0, fun _ _ _ => 0⟩,
    ⟨⟨fun _ a _ => if a = 0 then Complex.I else -Complex.I, fun _ _ _ => 0, fun _ _ _ => 0⟩, 1 / 2, 1, ⟨fun _ => 1, fun _ => 0⟩, .real⟩, ?_, ?_⟩
  rotate_left
  · refine ⟨by norm_num, by norm_num, by norm_num, ?_⟩
    simp [metric, sampleMean, Jvp.col, Fintype.sum_prod_type, Fin.sum_univ_two]
  · unfold construct
    rw [if_neg (by norm_num), if_neg (by simp), if_neg (by simp), if_neg (by simp), if_neg (by simp), if_pos (by simp; infer_instance)]

end GPSKet.OnTheFly
