import Verif.Model.RMSProp
import Verif.Props.MinSR
import Verif.Props.UniqueSamples
import Mathlib.LinearAlgebra.Matrix.PosDef
import Mathlib.LinearAlgebra.Matrix.Hermitian
import Mathlib.Tactic.Positivity

/-! # Properties C45, C46, C49 and C62: SR with RMSProp regularisation -/

namespace GPSKet.Props
open RMSProp Matrix ComplexOrder

variable {R P : ℕ} {ι : Type} [Fintype ι]

/-! ## C45: the regularised geometric tensor -/

/-- C45: the lazy product is the product with the dense matrix. -/
theorem C45_lazy_eq_dense (O : Fin R → Matrix ι (Fin P) ℂ) (shift : ℝ) (ema : Fin P → ℝ) (eps : ℝ) (v : Fin P → ℂ) :
    matVec v O shift ema eps = toDense O shift ema eps *ᵥ v := by
  funext k
  unfold matVec toDense
  rw [add_mulVec, smul_mulVec, smul_mulVec, Pi.add_apply, Pi.smul_apply, Pi.smul_apply, mulVec_diagonal, sum_mulVec, Finset.sum_apply]
  simp only [smul_eq_mul]
  rw [mul_assoc]
  congr 2
  apply Finset.sum_congr rfl
  intro r _
  rw [← mulVec_mulVec]
  simp only [map_sum, map_mul, Complex.conj_conj]
  conv_rhs => rw [mulVec, dotProduct]
  apply Finset.sum_congr rfl
  intro a _
  rw [conjTranspose_apply, mul_comm]
  rfl

/-- C45: the matrix is Hermitian and positive semi-definite for `0 ≤ diag_shift ≤ 1` and `eps ≥ 0`, and positive definite (so that
the linear system has exactly one solution) when both `diag_shift` and `eps` are positive. -/
theorem C45_positive (O : Fin R → Matrix ι (Fin P) ℂ) (shift : ℝ) (ema : Fin P → ℝ) (eps : ℝ) (h0 : 0 ≤ shift) (h1 : shift ≤ 1)
    (he : 0 ≤ eps) :
    (toDense O shift ema eps).PosSemidef ∧ (0 < shift → 0 < eps → (toDense O shift ema eps).PosDef ∧
      ∀ y, ∃! x, toDense O shift ema eps *ᵥ x = y) := by
  have hS : (∑ r, (O r)ᴴ * O r).PosSemidef := posSemidef_sum _ fun r _ => posSemidef_conjTranspose_mul_self _
  have hS' : ((1 - (shift : ℂ)) • (∑ r, (O r)ᴴ * O r)).PosSemidef := by
    apply hS.smul
    rw [← Complex.ofReal_one, ← Complex.ofReal_sub]
    exact Complex.zero_le_real.mpr (by linarith)
  have hD : ∀ k, (shift : ℂ) * ((Real.sqrt (ema k) : ℂ) + eps) = ((shift * (Real.sqrt (ema k) + eps) : ℝ) : ℂ) := by
    intro k; push_cast; rfl
  have hdiag : (shift : ℂ) • (Matrix.diagonal fun k => (Real.sqrt (ema k) : ℂ) + eps) =
      Matrix.diagonal fun k => ((shift * (Real.sqrt (ema k) + eps) : ℝ) : ℂ) := by
    rw [← diagonal_smul]; congr 1; funext k; rw [Pi.smul_apply, smul_eq_mul, hD]
  unfold toDense
  rw [hdiag]
  refine ⟨hS'.add (PosSemidef.diagonal fun k => ?_), fun hs hp => ?_⟩
  · exact Complex.zero_le_real.mpr (mul_nonneg h0 (add_nonneg (Real.sqrt_nonneg _) he))
  · have hpd : ((1 - (shift : ℂ)) • (∑ r, (O r)ᴴ * O r) + Matrix.diagonal fun k => ((shift * (Real.sqrt (ema k) + eps) : ℝ) : ℂ)).PosDef := by
      apply PosDef.posSemidef_add hS'
      apply PosDef.diagonal
      intro k
      exact Complex.zero_lt_real.mpr (mul_pos hs (add_pos_of_nonneg_of_pos (Real.sqrt_nonneg _) hp))
    refine ⟨hpd, fun y => ?_⟩
    have hu := hpd.isUnit
    obtain ⟨u, hu⟩ := hu
    refine ⟨(↑u⁻¹ : Matrix _ _ ℂ) *ᵥ y, ?_, ?_⟩
    · dsimp only
      rw [← hu, mulVec_mulVec, Units.mul_inv, one_mulVec]
    · intro x hx
      rw [← hx, ← hu, mulVec_mulVec, Units.inv_mul, one_mulVec]

theorem csqrt_ofReal (x : ℝ) (hx : 0 ≤ x) : csqrt (x : ℂ) = (Real.sqrt x : ℂ) := by
  unfold csqrt
  rw [Real.sqrt_eq_rpow, Complex.ofReal_cpow hx]
  norm_num

/-- The sample average over all ranks. -/
theorem sampleMean_ranks (f : Fin R × ι → ℂ) : sampleMean f = (∑ r, ∑ a, f (r, a)) / ((Fintype.card ι * R : ℕ) : ℂ) := by
  unfold sampleMean
  rw [Fintype.sum_prod_type, Fintype.card_prod, Fintype.card_fin, Nat.mul_comm]

/-- C45: the on-the-fly tensor with real, non-negative averages is `(1 - shift) S + shift (√ema + eps)` with the covariance matrix
`S` of the log-derivatives of all ranks. -/
theorem C45_on_the_fly (J : Fin R → Matrix ι (Fin P) ℂ) (shift : ℝ) (ema : Fin P → ℝ) (hema : ∀ k, 0 ≤ ema k) (eps : ℝ)
    (v : Fin P → ℂ) (k : Fin P) :
    onTheFlyMatVec J v shift (fun k => (ema k : ℂ)) eps k =
      (1 - (shift : ℂ)) * (∑ l, srMatrix (fun s : Fin R × ι => J s.1 s.2) k l * v l) +
        (shift : ℂ) * ((Real.sqrt (ema k) : ℂ) + eps) * v k := by
  unfold onTheFlyMatVec
  simp only [csqrt_ofReal _ (hema k)]
  congr 2
  set N : ℂ := ((Fintype.card ι * R : ℕ) : ℂ) with hN
  set O : Fin R × ι → Fin P → ℂ := fun s => J s.1 s.2 with hO
  have hJv : ∀ r a, (J r *ᵥ v) a = ∑ l, O (r, a) l * v l := fun r a => rfl
  -- the centred product
  have hmean : (∑ r, ∑ a, (J r *ᵥ v) a * (1 / N)) / N = (1 / N) * ∑ l, (sampleMean fun s => O s l) * v l := by
    simp only [sampleMean_ranks, ← hN, hJv, ← Finset.sum_mul]
    rw [mul_div_assoc, mul_comm, Finset.sum_congr rfl (fun r _ => Finset.sum_comm), Finset.sum_comm]
    have : ∀ l, (∑ r, ∑ a, O (r, a) l) / N * v l = (1 / N) * ∑ r, ∑ a, O (r, a) l * v l := by
      intro l
      simp only [← Finset.sum_mul]; ring
    simp only [this, ← Finset.mul_sum]
    ring
  have hw : ∀ r a, (J r *ᵥ v) a * (1 / N) - (∑ r, ∑ a, (J r *ᵥ v) a * (1 / N)) / N =
      (1 / N) * ∑ l, (O (r, a) l - sampleMean fun s => O s l) * v l := by
    intro r a
    rw [hmean, hJv]
    simp only [sub_mul, Finset.sum_sub_distrib]
    ring
  simp only [hw]
  -- the centring of the other factor is free
  have hzero : ∑ r, ∑ a, ∑ l, (O (r, a) l - sampleMean fun s => O s l) * v l = 0 := by
    rw [Finset.sum_congr rfl (fun r _ => Finset.sum_comm), Finset.sum_comm]
    apply Finset.sum_eq_zero
    intro l _
    simp only [← Finset.sum_mul]
    rw [mul_eq_zero]
    left
    by_cases hN0 : N = 0
    · have hc : Fintype.card (Fin R × ι) = 0 := by
        rw [Fintype.card_prod, Fintype.card_fin, Nat.mul_comm]; rw [hN] at hN0; exact_mod_cast hN0
      have : IsEmpty (Fin R × ι) := Fintype.card_eq_zero_iff.mp hc
      rw [← Fintype.sum_prod_type (fun s : Fin R × ι => O s l - sampleMean fun s => O s l)]
      simp
    · simp only [Finset.sum_sub_distrib, Finset.sum_const, Finset.card_univ, Fintype.card_fin, nsmul_eq_mul]
      rw [sampleMean_ranks, ← hN]
      rw [← mul_assoc, show (R : ℂ) * (Fintype.card ι : ℂ) = N by rw [hN]; push_cast; ring, mul_div_cancel₀ _ hN0, sub_self]
  have hsr : ∀ l, srMatrix O k l = (1 / N) * ∑ r, ∑ a, (starRingEnd ℂ) (O (r, a) k - sampleMean fun s => O s k) *
      (O (r, a) l - sampleMean fun s => O s l) := by
    intro l
    unfold srMatrix
    rw [sampleMean_ranks, ← hN]
    ring
  have hconjN : (starRingEnd ℂ) (1 / N) = 1 / N := by rw [hN]; simp
  have lhs : ∀ r, (starRingEnd ℂ) (∑ a, (starRingEnd ℂ) ((1 / N) * ∑ l, (O (r, a) l - sampleMean fun s => O s l) * v l) * J r a k) =
      (1 / N) * ∑ a, (starRingEnd ℂ) (O (r, a) k) * ∑ l, (O (r, a) l - sampleMean fun s => O s l) * v l := by
    intro r
    rw [map_sum, Finset.mul_sum]
    apply Finset.sum_congr rfl
    intro a _
    rw [map_mul, Complex.conj_conj]
    change _ * (starRingEnd ℂ) (O (r, a) k) = _
    ring
  simp only [lhs, hsr]
  rw [← Finset.mul_sum]
  have rhs : ∀ l, 1 / N * (∑ r, ∑ a, (starRingEnd ℂ) (O (r, a) k - sampleMean fun s => O s k) *
      (O (r, a) l - sampleMean fun s => O s l)) * v l =
      1 / N * ∑ r, ∑ a, (starRingEnd ℂ) (O (r, a) k - sampleMean fun s => O s k) * ((O (r, a) l - sampleMean fun s => O s l) * v l) := by
    intro l
    rw [mul_assoc]
    congr 1
    simp only [Finset.sum_mul, mul_assoc]
  simp only [rhs]
  rw [← Finset.mul_sum]
  congr 1
  conv_rhs => rw [Finset.sum_comm]
  have expand : ∑ r, ∑ l, ∑ a, (starRingEnd ℂ) (O (r, a) k - sampleMean fun s => O s k) * ((O (r, a) l - sampleMean fun s => O s l) * v l) =
      (∑ r, ∑ a, (starRingEnd ℂ) (O (r, a) k) * ∑ l, (O (r, a) l - sampleMean fun s => O s l) * v l) -
        (starRingEnd ℂ) (sampleMean fun s => O s k) * ∑ r, ∑ a, ∑ l, (O (r, a) l - sampleMean fun s => O s l) * v l := by
    rw [Finset.mul_sum, ← Finset.sum_sub_distrib]
    apply Finset.sum_congr rfl
    intro r _
    rw [Finset.sum_comm, Finset.mul_sum, ← Finset.sum_sub_distrib]
    apply Finset.sum_congr rfl
    intro a _
    rw [← Finset.mul_sum, map_sub]
    ring
  rw [expand, hzero, mul_zero, sub_zero]

/-- C45: `to_dense` of the on-the-fly tensor is the matrix of the lazy product, when the averages are real. -/
theorem C45_on_the_fly_dense (J : Fin R → Matrix ι (Fin P) ℂ) (shift : ℝ) (ema : Fin P → ℝ) (hema : ∀ k, 0 ≤ ema k) (eps : ℝ)
    (v : Fin P → ℂ) :
    onTheFlyToDense J shift (fun k => (ema k : ℂ)) eps true *ᵥ v = onTheFlyMatVec J v shift (fun k => (ema k : ℂ)) eps := by
  funext k
  rw [C45_on_the_fly _ _ _ hema]
  have hE : ∀ l, onTheFlyToDense J shift (fun k => (ema k : ℂ)) eps true k l =
      (1 - (shift : ℂ)) * srMatrix (fun s : Fin R × ι => J s.1 s.2) k l +
        (shift : ℂ) * ((Real.sqrt (ema k) : ℂ) + eps) * (if k = l then 1 else 0) := by
    intro l
    rw [show onTheFlyToDense J shift (fun k => (ema k : ℂ)) eps true k l =
      onTheFlyMatVec J (fun k => if k = l then 1 else 0) shift (fun k => (ema k : ℂ)) eps k from rfl, C45_on_the_fly _ _ _ hema]
    simp
  simp only [mulVec, dotProduct, hE, add_mul, Finset.sum_add_distrib]
  congr 1
  · rw [Finset.mul_sum]
    apply Finset.sum_congr rfl
    intro l _
    ring
  · rw [Finset.sum_eq_single k]
    · simp
    · intro l _ hl; simp [Ne.symm hl]
    · simp

/-- C45 fails for the on-the-fly tensor with complex parameters, for which the averages are `re² + i im²`: the square root of
the complex average makes the matrix non-Hermitian.  One parameter with gradient `i`. -/
theorem C45_on_the_fly_complex_fails :
    ∃ g : ℂ, ¬ (onTheFlyToDense (R := 1) (P := 1) (ι := Fin 1) (fun _ _ _ => 1) (1 / 2) (fun _ => updateEmaComplex 0 0 g) 1 true).IsHermitian := by
  refine ⟨Complex.I, fun h => ?_⟩
  have h1 := congrFun (congrFun h 0) 0
  rw [conjTranspose_apply] at h1
  have hema : updateEmaComplex 0 0 Complex.I = Complex.I := by simp [updateEmaComplex]
  have hent : onTheFlyToDense (R := 1) (P := 1) (ι := Fin 1) (fun _ _ _ => 1) (1 / 2) (fun _ => updateEmaComplex 0 0 Complex.I) 1 true 0 0 =
      ((1 / 2 : ℝ) : ℂ) * (csqrt Complex.I + 1) := by
    rw [show onTheFlyToDense (R := 1) (P := 1) (ι := Fin 1) (fun _ _ _ => 1) (1 / 2) (fun _ => updateEmaComplex 0 0 Complex.I) 1 true 0 0 =
      onTheFlyMatVec (R := 1) (P := 1) (ι := Fin 1) (fun _ _ _ => 1) (fun k => if k = 0 then 1 else 0) (1 / 2)
        (fun _ => updateEmaComplex 0 0 Complex.I) 1 0 from rfl, hema]
    simp [onTheFlyMatVec, mulVec, dotProduct]
  rw [hent] at h1
  have h2 : (csqrt Complex.I).im = 0 := by
    have := congrArg Complex.im h1
    simp at this
    linarith
  have h3 : csqrt Complex.I ^ 2 = Complex.I := by
    unfold csqrt
    rw [one_div]
    exact_mod_cast Complex.cpow_nat_inv_pow Complex.I (n := 2) (by norm_num)
  have h4 := congrArg Complex.im h3
  rw [pow_two, Complex.mul_im, h2, Complex.I_im] at h4
  norm_num at h4

/-! ## C62: the tensor of unique-sample states -/

/-- C62: the geometric tensor of a unique-sample state is the covariance matrix of the log-derivatives over the plain stream of
processed samples. -/
theorem C62_unique_samples_qgt {C : Type} [DecidableEq C] (ranks perRank : ℕ) (hn : 0 < ranks * perRank) (maxSteps : Option ℕ)
    (batches : List (List C)) (sw : Fin ranks → List (C × ℝ))
    (hsw : UniqueSamples.samplesWithCounts ranks perRank maxSteps batches = some sw) :
    ∃ (Q : List C) (used : ℕ), Q ≠ [] ∧ Q <+: (batches.take used).flatten ∧
      ∀ (O : C → Fin P → ℂ) (k l : Fin P), uniqueQGT sw O k l =
        (Q.map fun c => (starRingEnd ℂ) (O c k - (Q.map fun c => O c k).sum / Q.length) *
          (O c l - (Q.map fun c => O c l).sum / Q.length)).sum / Q.length := by
  obtain ⟨Q, used, h1, h2, _, _, _, _, h7, _, _, _, h11⟩ := C50_unique_samples ranks perRank hn maxSteps batches sw hsw
  refine ⟨Q, used, h1, h2, fun O k l => ?_⟩
  have hm : ∀ f : C → ℂ, UniqueSamples.mean sw f = (Q.map f).sum / Q.length := fun f => (h11 f f).1
  rw [← hm fun c => O c k, ← hm fun c => O c l, ← hm]
  unfold uniqueQGT
  conv_rhs => rw [UniqueSamples.mean]
  apply Finset.sum_congr rfl
  intro r _
  congr 1
  apply List.map_congr_left
  intro e he
  unfold uniqueRows
  rw [map_mul, Complex.conj_ofReal, mul_mul_mul_comm, ← Complex.ofReal_mul, Real.mul_self_sqrt (h7 r e he).1]

/-! ## C46: moving averages -/

/-- C46: the average after any history of gradients. -/
theorem C46_closed_form (decay init : ℝ) (gs : List ℝ) :
    emaAfter decay init gs = decay ^ gs.length * init +
      (1 - decay) * ∑ i : Fin gs.length, decay ^ (gs.length - 1 - i.val) * (gs.get i) ^ 2 := by
  unfold emaAfter
  induction gs using List.reverseRecOn with
  | nil => simp
  | append_singleton gs g ih =>
    rw [List.foldl_append, List.foldl_cons, List.foldl_nil, ih]
    unfold updateEma
    have hl : (gs ++ [g]).length = gs.length + 1 := by simp
    have hsum : ∑ i : Fin (gs ++ [g]).length, decay ^ ((gs ++ [g]).length - 1 - i.val) * ((gs ++ [g]).get i) ^ 2 =
        ∑ i : Fin (gs.length + 1), decay ^ (gs.length - i.val) * ((gs ++ [g]).get (Fin.cast hl.symm i)) ^ 2 := by
      rw [← Equiv.sum_comp (finCongr hl.symm)]
      apply Finset.sum_congr rfl
      intro i _
      simp
    rw [hsum, Fin.sum_univ_castSucc, show decay ^ (gs ++ [g]).length = decay ^ (gs.length + 1) from by rw [hl]]
    have h1 : ∀ i : Fin gs.length, decay ^ (gs.length - (Fin.castSucc i).val) * ((gs ++ [g]).get (Fin.cast hl.symm (Fin.castSucc i))) ^ 2 =
        decay * (decay ^ (gs.length - 1 - i.val) * (gs.get i) ^ 2) := by
      intro i
      have h2 : gs.length - (Fin.castSucc i).val = (gs.length - 1 - i.val) + 1 := by
        have := i.isLt; rw [Fin.val_castSucc]; omega
      have h3 : (gs ++ [g]).get (Fin.cast hl.symm (Fin.castSucc i)) = gs.get i := by
        simp
      rw [h2, h3, pow_succ]; ring
    have h4 : (gs ++ [g]).get (Fin.cast hl.symm (Fin.last gs.length)) = g := by simp
    simp only [h1]
    rw [← Finset.mul_sum, h4, Fin.val_last, Nat.sub_self, pow_zero, pow_succ]
    ring

/-- C46: the average is non-negative for `0 ≤ decay ≤ 1` and a non-negative initial value. -/
theorem C46_nonneg (decay init : ℝ) (h0 : 0 ≤ decay) (h1 : decay ≤ 1) (hi : 0 ≤ init) (gs : List ℝ) : 0 ≤ emaAfter decay init gs := by
  rw [C46_closed_form]
  apply add_nonneg (mul_nonneg (pow_nonneg h0 _) hi)
  exact mul_nonneg (by linarith) (Finset.sum_nonneg fun i _ => mul_nonneg (pow_nonneg h0 _) (sq_nonneg _))

theorem geom_weights (decay : ℝ) (n : ℕ) : (1 - decay) * ∑ i : Fin n, decay ^ (n - 1 - i.val) = 1 - decay ^ n := by
  induction n with
  | zero => simp
  | succ n ih =>
    rw [Fin.sum_univ_succ]
    have : ∀ i : Fin n, decay ^ (n + 1 - 1 - (Fin.succ i).val) = decay ^ (n - 1 - i.val) := by
      intro i; congr 1; rw [Fin.val_succ]; omega
    simp only [this]
    rw [mul_add, ih, Fin.val_zero]
    simp only [Nat.add_sub_cancel, Nat.sub_zero]
    rw [pow_succ]; ring

/-- C46: with initial value 0 and the step counting the gradients, the bias-corrected average is a weighted mean of the squared
gradients with non-negative weights summing to one; in particular it lies between any bounds on the squared gradients and is `g²`
for a constant gradient. -/
theorem C46_weighted_mean (decay : ℝ) (h0 : 0 ≤ decay) (h1 : decay < 1) (gs : List ℝ) (hgs : gs ≠ []) :
    ∃ w : Fin gs.length → ℝ, (∀ i, 0 ≤ w i) ∧ ∑ i, w i = 1 ∧
      biasCorrected decay (emaAfter decay 0 gs) (gs.length - 1) = ∑ i, w i * (gs.get i) ^ 2 := by
  have hlen : gs.length - 1 + 1 = gs.length := Nat.sub_add_cancel (List.length_pos_iff.mpr hgs)
  have hd : 0 < 1 - decay ^ gs.length := by
    have := pow_lt_one₀ h0 h1 (List.length_pos_iff.mpr hgs).ne'
    linarith
  refine ⟨fun i => (1 - decay) * decay ^ (gs.length - 1 - i.val) / (1 - decay ^ gs.length), fun i => ?_, ?_, ?_⟩
  · exact div_nonneg (mul_nonneg (by linarith) (pow_nonneg h0 _)) hd.le
  · rw [← Finset.sum_div, ← Finset.mul_sum, geom_weights, div_self hd.ne']
  · unfold biasCorrected
    rw [C46_closed_form, hlen, mul_zero, zero_add, Finset.mul_sum, Finset.sum_div]
    apply Finset.sum_congr rfl
    intro i _
    ring

theorem C46_constant_gradient (decay : ℝ) (h0 : 0 ≤ decay) (h1 : decay < 1) (n : ℕ) (hn : 0 < n) (g : ℝ) :
    biasCorrected decay (emaAfter decay 0 (List.replicate n g)) (n - 1) = g ^ 2 := by
  obtain ⟨w, _, h3, h4⟩ := C46_weighted_mean decay h0 h1 (List.replicate n g) (by intro h; rw [List.replicate_eq_nil_iff] at h; omega)
  have hl : (List.replicate n g).length - 1 = n - 1 := by rw [List.length_replicate]
  rw [← hl, h4]
  have : ∀ i : Fin (List.replicate n g).length, (List.replicate n g).get i = g := fun i => by simp
  simp only [this]
  rw [← Finset.sum_mul, h3, one_mul]

/-- C46: for complex parameters the real and imaginary parts are averaged separately. -/
theorem C46_complex (decay : ℝ) (init : ℂ) (gs : List ℂ) :
    (emaAfterComplex decay init gs).re = emaAfter decay init.re (gs.map Complex.re) ∧
      (emaAfterComplex decay init gs).im = emaAfter decay init.im (gs.map Complex.im) := by
  unfold emaAfterComplex emaAfter
  induction gs generalizing init with
  | nil => simp
  | cons g gs ih =>
    rw [List.foldl_cons, List.map_cons, List.map_cons, List.foldl_cons, List.foldl_cons]
    obtain ⟨i1, i2⟩ := ih (updateEmaComplex decay init g)
    rw [i1, i2]
    constructor
    · congr 1
      simp [updateEmaComplex, updateEma, ← Complex.ofReal_pow]
    · congr 1
      simp [updateEmaComplex, updateEma, ← Complex.ofReal_pow]

/-- A concrete history. -/
example : biasCorrected (1 / 2) (emaAfter (1 / 2) 0 [1, 2]) 1 = 1 / 3 * 1 ^ 2 + 2 / 3 * 2 ^ 2 := by
  norm_num [biasCorrected, emaAfter, updateEma]

/-! ## C49: the update of the driver -/

/-- The log-derivatives with respect to real parameters from their real and imaginary parts. -/
noncomputable def complexRows {N : ℕ} (O : Fin N → Fin 2 → Fin P → ℝ) (s : Fin N) (k : Fin P) : ℂ := (O s 0 k : ℂ) + Complex.I * (O s 1 k : ℂ)

theorem denseRows_fst {N : ℕ} (O : Fin N → Fin 2 → Fin P → ℝ) (s : Fin N) (k : Fin P) :
    denseRows O (Fin.castAdd N s) k = centredRows O s 0 k := by
  unfold denseRows
  simp only [Fin.val_castAdd, Nat.mod_eq_of_lt s.isLt, Nat.div_eq_of_lt s.isLt]
  rfl

theorem denseRows_snd {N : ℕ} (O : Fin N → Fin 2 → Fin P → ℝ) (s : Fin N) (k : Fin P) :
    denseRows O (Fin.natAdd N s) k = centredRows O s 1 k := by
  have hN : 0 < N := Nat.lt_of_le_of_lt (Nat.zero_le _) s.isLt
  unfold denseRows
  have h1 : (N + s.val) % N = s.val := by rw [Nat.add_mod_left, Nat.mod_eq_of_lt s.isLt]
  have h2 : (N + s.val) / N = 1 := by rw [Nat.add_div_left _ hN, Nat.div_eq_of_lt s.isLt]
  simp only [Fin.val_natAdd, h1, h2]
  rfl

theorem complexRows_centred {N : ℕ} (O : Fin N → Fin 2 → Fin P → ℝ) (s : Fin N) (k : Fin P) :
    ((Real.sqrt (N : ℝ) : ℝ) : ℂ) * (complexRows O s k - sampleMean fun s => complexRows O s k) =
      (centredRows O s 0 k : ℂ) + Complex.I * (centredRows O s 1 k : ℂ) := by
  unfold centredRows complexRows sampleMean
  rw [Finset.sum_add_distrib, ← Finset.mul_sum, Fintype.card_fin]
  push_cast
  ring

/-- The scalar product of two columns. -/
theorem dense_gram {N : ℕ} (O : Fin N → Fin 2 → Fin P → ℝ) (k l : Fin P) :
    ((denseRows O)ᵀ * denseRows O) k l = (N : ℝ) ^ 2 * (srMatrix (complexRows O) k l).re := by
  rw [mul_apply, Fin.sum_univ_add]
  simp only [transpose_apply, denseRows_fst, denseRows_snd]
  rw [← Finset.sum_add_distrib]
  by_cases hN : N = 0
  · subst hN; simp
  have hN' : (N : ℂ) ≠ 0 := by exact_mod_cast hN
  have hs : ((Real.sqrt (N : ℝ) : ℝ) : ℂ) * ((Real.sqrt (N : ℝ) : ℝ) : ℂ) = N := by
    rw [← Complex.ofReal_mul, Real.mul_self_sqrt (Nat.cast_nonneg N)]; simp
  have key : (N : ℂ) ^ 2 * srMatrix (complexRows O) k l =
      ∑ s, (starRingEnd ℂ) ((centredRows O s 0 k : ℂ) + Complex.I * (centredRows O s 1 k : ℂ)) *
        ((centredRows O s 0 l : ℂ) + Complex.I * (centredRows O s 1 l : ℂ)) := by
    simp only [← complexRows_centred, srMatrix]
    rw [sampleMean, Fintype.card_fin, Finset.sum_div, Finset.mul_sum]
    apply Finset.sum_congr rfl
    intro s _
    rw [map_mul, Complex.conj_ofReal, mul_mul_mul_comm, hs]
    field_simp
  have h2 := congrArg Complex.re key
  rw [show (N : ℂ) ^ 2 = (((N : ℝ) ^ 2 : ℝ) : ℂ) by push_cast; rfl, Complex.re_ofReal_mul] at h2
  rw [h2, Complex.re_sum]
  apply Finset.sum_congr rfl
  intro s _
  simp

theorem dense_force {N : ℕ} (O : Fin N → Fin 2 → Fin P → ℝ) (E : Fin N → ℂ) (k : Fin P) :
    ((denseRows O)ᵀ *ᵥ denseEnergies E (sampleMean E)) k = -(2 * (N : ℝ) ^ 2 * (srForce (complexRows O) E k).re) := by
  rw [mulVec, dotProduct, Fin.sum_univ_add]
  simp only [transpose_apply, denseRows_fst, denseRows_snd, denseEnergies, Fin.addCases_left, Fin.addCases_right]
  rw [← Finset.sum_add_distrib]
  by_cases hN : N = 0
  · subst hN; simp
  have hN' : (N : ℂ) ≠ 0 := by exact_mod_cast hN
  have hs : ((Real.sqrt (N : ℝ) : ℝ) : ℂ) * ((Real.sqrt (N : ℝ) : ℝ) : ℂ) = N := by
    rw [← Complex.ofReal_mul, Real.mul_self_sqrt (Nat.cast_nonneg N)]; simp
  have key : -(2 * (N : ℂ) ^ 2 * srForce (complexRows O) E k) =
      ∑ s, (starRingEnd ℂ) ((centredRows O s 0 k : ℂ) + Complex.I * (centredRows O s 1 k : ℂ)) *
        (starRingEnd ℂ) (energies E (sampleMean E) s) := by
    simp only [← complexRows_centred, srForce, energies]
    rw [sampleMean, Fintype.card_fin, Finset.sum_div, Finset.mul_sum, ← Finset.sum_neg_distrib]
    apply Finset.sum_congr rfl
    intro s _
    simp only [map_mul, map_neg, Complex.conj_ofReal, Complex.conj_conj, Complex.conj_ofNat]
    generalize (complexRows O s k - sampleMean fun s => complexRows O s k) = z
    generalize E s - sampleMean E = e
    generalize hq : ((Real.sqrt (N : ℝ) : ℝ) : ℂ) = q at hs
    rw [show q * (starRingEnd ℂ) z * (-2 * e * q) = -2 * (q * q) * (starRingEnd ℂ) z * e by ring, hs]
    field_simp
  have h2 := congrArg Complex.re key
  rw [show -(2 * (N : ℂ) ^ 2 * srForce (complexRows O) E k) = ((-(2 * (N : ℝ) ^ 2) : ℝ) : ℂ) * srForce (complexRows O) E k by push_cast; ring,
    Complex.re_ofReal_mul, neg_mul] at h2
  rw [h2, Complex.re_sum]
  apply Finset.sum_congr rfl
  intro s _
  generalize energies E (sampleMean E) s = e
  simp [Complex.mul_re]
  ring

/-- A solver which solves positive definite systems. -/
def SolvesPosDef (solver : Matrix (Fin P) (Fin P) ℝ → (Fin P → ℝ) → (Fin P → ℝ)) : Prop :=
  ∀ A b, A.PosDef → A *ᵥ solver A b = b

/-- Such a solver exists. -/
theorem exists_solvesPosDef : ∃ solver : Matrix (Fin P) (Fin P) ℝ → (Fin P → ℝ) → (Fin P → ℝ), SolvesPosDef solver := by
  refine ⟨fun A b => A⁻¹ *ᵥ b, fun A b hA => ?_⟩
  rw [mulVec_mulVec, mul_nonsing_inv _ ((isUnit_iff_isUnit_det A).mp hA.isUnit), one_mulVec]

theorem regularised_posDef {n : ℕ} (O : Matrix (Fin n) (Fin P) ℝ) (hat : Fin P → ℝ) (shift eps : ℝ) (hs : 0 < shift) (he : 0 < eps) :
    (Oᵀ * O + shift • Matrix.diagonal fun k => Real.sqrt (hat k) + eps).PosDef := by
  rw [← diagonal_smul]
  have h1 : (Oᵀ * O).PosSemidef := by
    have := posSemidef_conjTranspose_mul_self O
    rwa [conjTranspose_eq_transpose_of_trivial] at this
  apply PosDef.posSemidef_add h1
  apply PosDef.diagonal
  intro k
  exact mul_pos hs (add_pos_of_nonneg_of_pos (Real.sqrt_nonneg _) he)

/-- C49: the root's update in mode `complex` solves the SR equation with the RMSProp regularisation.  Both sides carry the factor
`N²` from the normalisation `√N` of the rows and energies; the averaged gradient is `2 N² Re F`. -/
theorem C49_sr_equation {N : ℕ} (O : Fin N → Fin 2 → Fin P → ℝ) (E : Fin N → ℂ) (ema : Fin P → ℝ) (step : ℕ)
    (shift decay eps : ℝ) (hs : 0 < shift) (he : 0 < eps)
    (solver : Matrix (Fin P) (Fin P) ℝ → (Fin P → ℝ) → (Fin P → ℝ)) (hsolver : SolvesPosDef solver) :
    let out := srComplex O E (sampleMean E) ema step shift decay eps solver
    let F : Fin P → ℝ := fun k => (srForce (complexRows O) E k).re
    (∀ k, out.2 k = decay * ema k + (1 - decay) * (2 * N ^ 2 * F k) ^ 2) ∧
    ∀ k, ∑ l, (N : ℝ) ^ 2 * (srMatrix (complexRows O) k l).re * out.1 l +
      shift * (Real.sqrt (out.2 k / (1 - decay ^ (step + 1))) + eps) * out.1 k = 2 * N ^ 2 * F k := by
  intro out F
  have hg : ∀ k, ((denseRows O)ᵀ *ᵥ denseEnergies E (sampleMean E)) k = -(2 * (N : ℝ) ^ 2 * F k) := dense_force O E
  have h2 : ∀ k, out.2 k = decay * ema k + (1 - decay) * (2 * N ^ 2 * F k) ^ 2 := by
    intro k
    simp only [out, srComplex, rootSolve, updateEma, hg]
    ring
  refine ⟨h2, fun k => ?_⟩
  set hat : Fin P → ℝ := fun k => biasCorrected decay (updateEma decay (ema k) (((denseRows O)ᵀ *ᵥ denseEnergies E (sampleMean E)) k)) step with hhat
  have hpd := regularised_posDef (denseRows O) hat shift eps hs he
  have hsol := congrFun (hsolver _ ((denseRows O)ᵀ *ᵥ denseEnergies E (sampleMean E)) hpd) k
  rw [hg, add_mulVec, Pi.add_apply, smul_mulVec, Pi.smul_apply, mulVec_diagonal, mulVec, dotProduct] at hsol
  simp only [dense_gram, smul_eq_mul] at hsol
  have hout : ∀ l, out.1 l = -solver ((denseRows O)ᵀ * denseRows O + shift • Matrix.diagonal fun k => Real.sqrt (hat k) + eps)
      ((denseRows O)ᵀ *ᵥ denseEnergies E (sampleMean E)) l := fun l => rfl
  have hh : out.2 k / (1 - decay ^ (step + 1)) = hat k := rfl
  rw [hh]
  simp only [hout, mul_neg, Finset.sum_neg_distrib]
  linarith

/-- C49: the scale `N²` only enters through `eps`: with averages in units of `N⁴` (for example starting from zero) the update solves
the SR equation of the unscaled quantities with `eps / N²`. -/
theorem C49_unscaled {N : ℕ} (hN : 0 < N) (O : Fin N → Fin 2 → Fin P → ℝ) (E : Fin N → ℂ) (ema : Fin P → ℝ) (step : ℕ)
    (shift decay eps : ℝ) (hs : 0 < shift) (he : 0 < eps)
    (solver : Matrix (Fin P) (Fin P) ℝ → (Fin P → ℝ) → (Fin P → ℝ)) (hsolver : SolvesPosDef solver) :
    let out := srComplex O E (sampleMean E) (fun k => N ^ 4 * ema k) step shift decay eps solver
    let F : Fin P → ℝ := fun k => (srForce (complexRows O) E k).re
    let ema' : Fin P → ℝ := fun k => decay * ema k + (1 - decay) * (2 * F k) ^ 2
    (∀ k, out.2 k = N ^ 4 * ema' k) ∧
    ∀ k, ∑ l, (srMatrix (complexRows O) k l).re * out.1 l +
      shift * (Real.sqrt (ema' k / (1 - decay ^ (step + 1))) + eps / N ^ 2) * out.1 k = 2 * F k := by
  intro out F ema'
  have hN' : (N : ℝ) ≠ 0 := by exact_mod_cast hN.ne'
  obtain ⟨h1, h2⟩ := C49_sr_equation O E (fun k => (N : ℝ) ^ 4 * ema k) step shift decay eps hs he solver hsolver
  have h3 : ∀ k, out.2 k = N ^ 4 * ema' k := by
    intro k; rw [h1]; simp only [ema', F]; ring
  refine ⟨h3, fun k => ?_⟩
  have h6 : Real.sqrt ((N : ℝ) ^ 4) = N ^ 2 := by rw [show (N : ℝ) ^ 4 = (N ^ 2) ^ 2 by ring, Real.sqrt_sq (by positivity)]
  have h4 := h2 k
  rw [show (srComplex O E (sampleMean E) (fun k => (N : ℝ) ^ 4 * ema k) step shift decay eps solver).2 k = N ^ 4 * ema' k from h3 k,
    mul_div_assoc, Real.sqrt_mul (by positivity), h6] at h4
  have h5 : (N : ℝ) ^ 2 * (∑ l, (srMatrix (complexRows O) k l).re * out.1 l +
      shift * (Real.sqrt (ema' k / (1 - decay ^ (step + 1))) + eps / N ^ 2) * out.1 k) = N ^ 2 * (2 * F k) := by
    rw [mul_add, Finset.mul_sum]
    simp only [← mul_assoc]
    rw [show (N : ℝ) ^ 2 * shift * (Real.sqrt (ema' k / (1 - decay ^ (step + 1))) + eps / N ^ 2) =
      shift * ((N : ℝ) ^ 2 * Real.sqrt (ema' k / (1 - decay ^ (step + 1))) + eps) by field_simp]
    rw [show (N : ℝ) ^ 2 * 2 * F k = 2 * N ^ 2 * F k by ring]
    exact h4
  exact mul_left_cancel₀ (pow_ne_zero 2 hN') h5

/-- C49: in mode `real` (a real wave function and real parameters) the same equation holds. -/
theorem C49_sr_equation_real {N : ℕ} (O : Fin N → Fin P → ℝ) (E : Fin N → ℂ) (ema : Fin P → ℝ) (step : ℕ)
    (shift decay eps : ℝ) (hs : 0 < shift) (he : 0 < eps)
    (solver : Matrix (Fin P) (Fin P) ℝ → (Fin P → ℝ) → (Fin P → ℝ)) (hsolver : SolvesPosDef solver) :
    let out := srReal O E (sampleMean E) ema step shift decay eps solver
    let F : Fin P → ℝ := fun k => (srForce (fun s k => (O s k : ℂ)) E k).re
    (∀ k, out.2 k = decay * ema k + (1 - decay) * (2 * N ^ 2 * F k) ^ 2) ∧
    ∀ k, ∑ l, (N : ℝ) ^ 2 * (srMatrix (fun s k => (O s k : ℂ)) k l).re * out.1 l +
      shift * (Real.sqrt (out.2 k / (1 - decay ^ (step + 1))) + eps) * out.1 k = 2 * N ^ 2 * F k := by
  have hc : complexRows (fun s (c : Fin 2) k => if c = 0 then O s k else 0) = fun s k => (O s k : ℂ) := by
    funext s k; simp [complexRows]
  have hz : ∀ s k, centredRows (fun s (c : Fin 2) k => if c = 0 then O s k else 0) s 1 k = 0 := by
    intro s k; simp [centredRows]
  have hf : ∀ s k, centredRows (fun s (c : Fin 2) k => if c = 0 then O s k else 0) s 0 k =
      centredRows (fun s (_ : Unit) k => O s k) s () k := by
    intro s k; simp [centredRows]
  obtain ⟨Or, hOr⟩ : ∃ Or : Matrix (Fin N) (Fin P) ℝ, Or = fun s k => centredRows (fun s (_ : Unit) k => O s k) s () k := ⟨_, rfl⟩
  have hOr' : ∀ s k, Or s k = centredRows (fun s (_ : Unit) k => O s k) s () k := by intro s k; rw [hOr]
  have hgram : (denseRows (fun s (c : Fin 2) k => if c = 0 then O s k else 0))ᵀ * denseRows (fun s (c : Fin 2) k => if c = 0 then O s k else 0) =
      Orᵀ * Or := by
    ext k l
    rw [mul_apply, mul_apply, Fin.sum_univ_add]
    simp only [transpose_apply, denseRows_fst, denseRows_snd, hz, hf, hOr', mul_zero, Finset.sum_const_zero, add_zero]
  have hforce : (denseRows (fun s (c : Fin 2) k => if c = 0 then O s k else 0))ᵀ *ᵥ denseEnergies E (sampleMean E) =
      Orᵀ *ᵥ fun s => (energies E (sampleMean E) s).re := by
    funext k
    rw [mulVec, dotProduct, Fin.sum_univ_add, mulVec, dotProduct]
    simp only [transpose_apply, denseRows_fst, denseRows_snd, hz, hf, hOr', zero_mul, Finset.sum_const_zero, add_zero, denseEnergies, Fin.addCases_left]
  have heq : srReal O E (sampleMean E) ema step shift decay eps solver =
      srComplex (fun s (c : Fin 2) k => if c = 0 then O s k else 0) E (sampleMean E) ema step shift decay eps solver := by
    unfold srReal srComplex rootSolve
    rw [← hOr]
    simp only [hgram, hforce]
  have := C49_sr_equation (fun s (c : Fin 2) k => if c = 0 then O s k else 0) E ema step shift decay eps hs he solver hsolver
  rw [hc] at this
  rw [heq]
  exact this

/-- C49: the complex update of parameter `k` has minus the solution for its real part as real part and minus the solution for its
imaginary part as imaginary part. -/
theorem C49_repack (n : ℕ) (x : Fin (n + n) → ℝ) :
    (repack x).length = n ∧ ∀ k : Fin n, (repack x)[k.val]? = some (-((x (Fin.castAdd n k) : ℂ) + Complex.I * (x (Fin.natAdd n k) : ℂ))) := by
  have h2 : (n + n) / 2 = n := by omega
  constructor
  · simp [repack, h2]
  · intro k
    have hk := k.isLt
    rw [repack, List.getElem?_map, h2, List.getElem?_range hk, Option.map_some]
    rw [dif_pos (show k.val < n + n by omega), dif_pos (show n + k.val < n + n by omega)]
    rfl

/-- C49 fails on more than one rank: the array which the other ranks pass to the broadcast does not in general have the length of
the root's array, in either mode. -/
theorem C49_broadcast_fails : ∃ n nParams, ∀ mode, bcastLength true mode n nParams ≠ bcastLength false mode n nParams :=
  ⟨1, 3, by decide⟩

/-- The lengths agree exactly if the (doubled) number of local samples is the number of parameters. -/
theorem C49_broadcast_lengths (mode : Bool) (n nParams : ℕ) :
    bcastLength true mode n nParams = bcastLength false mode n nParams ↔ nParams = if mode then n + n else n := by
  simp [bcastLength]

end GPSKet.Props
