import Verif.Props.SampledDescent
import Verif.Props.RMSProp

/-!
# Property C185: updates of `VMC_SRRMSProp` from more and more samples

The rows, energies and gradients of this driver carry factors of the number `N` of samples (C49): the moving average is in units of `N⁴`,
and `eps` counts as `eps / N²`.
-/

namespace GPSKet.SampledUpdate

open GPSKet.Spec GPSKet.Props GPSKet.RMSProp GPSKet.Descent Matrix Filter Topology

variable {α : Type} [Fintype α] {P : ℕ}

/-- The average of squares that enters the regularisation, for the gradient `2 Re F` with exact averages and the average `ema` so far. -/
noncomputable def exactEma (w : α → ℝ) (O : α → Fin P → ℂ) (E : α → ℂ) (ema : Fin P → ℝ) (decay : ℝ) (step : ℕ) (k : Fin P) : ℝ :=
  (decay * ema k + (1 - decay) * (2 * (covariance w (fun x => O x k) E).re) ^ 2) / (1 - decay ^ (step + 1))

/-- `u` solves the regularised equation `(Re S + shift √ema) u = 2 Re F` with exact averages. -/
def RMSSolution (w : α → ℝ) (O : α → Fin P → ℂ) (E : α → ℂ) (ema : Fin P → ℝ) (step : ℕ) (shift decay : ℝ) (u : Fin P → ℝ) : Prop :=
  ∀ k, ∑ l, (covariance w (fun x => O x k) fun x => O x l).re * u l + shift * Real.sqrt (exactEma w O E ema decay step k) * u k =
    2 * (covariance w (fun x => O x k) E).re

/-- The matrix of this equation is not singular: no change of the parameters has both no effect on the state (apart from norm and phase) and no
regularisation. -/
def Regular (w : α → ℝ) (O : α → Fin P → ℂ) (E : α → ℂ) (ema : Fin P → ℝ) (step : ℕ) (shift decay : ℝ) : Prop :=
  ∀ v : Fin P → ℝ, (∀ k, ∑ l, (covariance w (fun x => O x k) fun x => O x l).re * v l +
    shift * Real.sqrt (exactEma w O E ema decay step k) * v k = 0) → v = 0

/-- The two real components of the rows, as the driver holds them. -/
def components {N : ℕ} (O : α → Fin P → ℂ) (x : Fin N → α) : Fin N → Fin 2 → Fin P → ℝ :=
  fun s => ![fun k => (O (x s) k).re, fun k => (O (x s) k).im]

/-- An outcome of the chains from which the update of `VMC_SRRMSProp` (for some solver) differs from `u` by at least `ε`.  The moving average
so far is `N⁴ ema`. -/
def FarOffRMS (O : α → Fin P → ℂ) (E : α → ℂ) (ema : Fin P → ℝ) (step : ℕ) (shift decay eps : ℝ) (u : Fin P → ℝ) (ε : ℝ) : Set (List (List α)) :=
  {ls | ∃ (N : ℕ) (x : Fin N → α) (solver : _), SolvesPosDef solver ∧ Multiset.map x Finset.univ.val = (ls.flatten : Multiset α) ∧
    ε ≤ ‖(srComplex (components O x) (fun s => E (x s)) (sampleMean fun s => E (x s)) (fun k => N ^ 4 * ema k) step shift decay eps solver).1 - u‖}

/-! ## Continuity -/

/-- The regularisation for given weights, with `τ` in the place of `1 / N²`. -/
noncomputable def reg (O : α → Fin P → ℂ) (E : α → ℂ) (ema : Fin P → ℝ) (step : ℕ) (shift decay eps : ℝ) (q : α → ℝ) (τ : ℝ) (k : Fin P) : ℝ :=
  shift * (Real.sqrt ((decay * ema k + (1 - decay) * (2 * (rawCov q (fun x => O x k) E).re) ^ 2) / (1 - decay ^ (step + 1))) + eps * τ)

/-- The matrix of the equation for given weights. -/
noncomputable def rmsMatrix (O : α → Fin P → ℂ) (E : α → ℂ) (ema : Fin P → ℝ) (step : ℕ) (shift decay eps : ℝ) (z : (α → ℝ) × ℝ) :
    Matrix (Fin P) (Fin P) ℝ :=
  fun k l => (rawCov z.1 (fun x => O x k) fun x => O x l).re + if k = l then reg O E ema step shift decay eps z.1 z.2 k else 0

theorem rmsMatrix_mulVec (O : α → Fin P → ℂ) (E : α → ℂ) (ema : Fin P → ℝ) (step : ℕ) (shift decay eps : ℝ) (z : (α → ℝ) × ℝ) (u : Fin P → ℝ)
    (k : Fin P) : (rmsMatrix O E ema step shift decay eps z *ᵥ u) k =
      ∑ l, (rawCov z.1 (fun x => O x k) fun x => O x l).re * u l + reg O E ema step shift decay eps z.1 z.2 k * u k := by
  unfold Matrix.mulVec dotProduct rmsMatrix
  simp only [add_mul, ite_mul, zero_mul, Finset.sum_add_distrib, Finset.sum_ite_eq, Finset.mem_univ, if_true]

theorem continuous_rmsMatrix (O : α → Fin P → ℂ) (E : α → ℂ) (ema : Fin P → ℝ) (step : ℕ) (shift decay eps : ℝ) :
    Continuous fun z : (α → ℝ) × ℝ => rmsMatrix O E ema step shift decay eps z := by
  refine continuous_matrix fun k l => ?_
  unfold rmsMatrix
  refine (Complex.continuous_re.comp ((continuous_rawCov _ _).comp continuous_fst)).add ?_
  by_cases h : k = l
  · simp only [h, if_true]
    unfold reg
    refine continuous_const.mul ((Real.continuous_sqrt.comp ?_).add (continuous_const.mul continuous_snd))
    refine Continuous.div_const (continuous_const.add (continuous_const.mul ?_)) _
    exact (continuous_const.mul (Complex.continuous_re.comp ((continuous_rawCov _ _).comp continuous_fst))).pow 2
  · simp only [h, if_false]
    exact continuous_const

/-- The update is close to the exact one if the frequencies are close to the weights and there are enough samples. -/
theorem close_rms [DecidableEq α] {w : α → ℝ} (h0 : ∀ x, 0 ≤ w x) (h : ∑ x, w x ≠ 0) (O : α → Fin P → ℂ) (E : α → ℂ) (ema : Fin P → ℝ) (step : ℕ)
    {shift decay eps : ℝ} (hs : 0 < shift) (he : 0 < eps) {u : Fin P → ℝ} (hu : RMSSolution w O E ema step shift decay u)
    (hr : Regular w O E ema step shift decay) {ε : ℝ} (hε : 0 < ε) :
    ∃ δ : ℝ, 0 < δ ∧ ∃ N₀ : ℕ, ∀ ls : List (List α), ls.flatten ≠ [] → N₀ ≤ ls.flatten.length →
      (∀ c, |freq ls.flatten c - normal w c| < δ) → ls ∉ FarOffRMS O E ema step shift decay eps u ε := by
  have hp := normal_prob h0 h
  set A := fun z : (α → ℝ) × ℝ => rmsMatrix O E ema step shift decay eps z with hA
  set b := fun z : (α → ℝ) × ℝ => fun k => 2 * (rawCov z.1 (fun x => O x k) E).re with hb
  have hcA : Continuous A := continuous_rmsMatrix O E ema step shift decay eps
  have hcb : Continuous b := by
    refine continuous_pi fun k => ?_
    exact continuous_const.mul (Complex.continuous_re.comp ((continuous_rawCov _ _).comp continuous_fst))
  set z0 : (α → ℝ) × ℝ := (normal w, 0) with hz0
  have hraw : ∀ f g : α → ℂ, rawCov (normal w) f g = covariance w f g := fun f g => by
    rw [covariance_normal h, covariance_raw hp.sum]
  have hreg0 : ∀ k, reg O E ema step shift decay eps (normal w) 0 k = shift * Real.sqrt (exactEma w O E ema decay step k) := by
    intro k
    unfold reg exactEma
    rw [hraw, mul_zero, add_zero]
  have hmul0 : ∀ v : Fin P → ℝ, ∀ k, (A z0 *ᵥ v) k = ∑ l, (covariance w (fun x => O x k) fun x => O x l).re * v l +
      shift * Real.sqrt (exactEma w O E ema decay step k) * v k := by
    intro v k
    rw [hA]
    beta_reduce
    rw [rmsMatrix_mulVec]
    simp only [hz0, hraw, hreg0]
  have hdet : (A z0).det ≠ 0 := by
    intro hd
    obtain ⟨v, hv, hz⟩ := Matrix.exists_mulVec_eq_zero_iff.mpr hd
    refine hv (hr v fun k => ?_)
    rw [← hmul0 v k, hz]
    rfl
  have hu0 : u = (A z0)⁻¹ *ᵥ b z0 := by
    have : A z0 *ᵥ u = b z0 := by
      funext k
      rw [hmul0, hu k, hb]
      simp only [hz0, hraw]
    rw [← this, Matrix.mulVec_mulVec, Matrix.nonsing_inv_mul _ (isUnit_iff_ne_zero.mpr hdet), Matrix.one_mulVec]
  have hinv : ContinuousAt (fun z => (A z)⁻¹) z0 := by
    simp only [Matrix.inv_def, Ring.inverse_eq_inv']
    exact (hcA.matrix_det.continuousAt.inv₀ hdet).smul hcA.matrix_adjugate.continuousAt
  have hF : ContinuousAt (fun z => (A z)⁻¹ *ᵥ b z) z0 := by
    rw [continuousAt_pi]
    intro k
    simp only [Matrix.mulVec, dotProduct]
    refine tendsto_finsetSum _ fun l _ => ?_
    refine ContinuousAt.mul ?_ ((continuous_apply l).comp hcb).continuousAt
    exact (continuous_apply l).continuousAt.comp ((continuous_apply k).continuousAt.comp hinv)
  have hev : ∀ᶠ z in 𝓝 z0, dist ((A z)⁻¹ *ᵥ b z) ((A z0)⁻¹ *ᵥ b z0) < ε ∧ (A z).det ≠ 0 :=
    (hF.eventually (Metric.ball_mem_nhds _ hε)).and (hcA.matrix_det.continuousAt.eventually_ne hdet)
  obtain ⟨δ, hδ, hball⟩ := Metric.eventually_nhds_iff.mp hev
  obtain ⟨N₀, hN₀⟩ := exists_nat_gt (1 / δ)
  refine ⟨δ, hδ, N₀ + 1, fun ls hne hlen hd => ?_⟩
  rintro ⟨N, x, solver, hsolver, hx, hfar⟩
  have hcard : N = ls.flatten.length := by
    have := congrArg Multiset.card hx
    simpa using this
  have hNpos : 0 < N := by omega
  have hNr : (0 : ℝ) < N := by exact_mod_cast hNpos
  set q := freq ls.flatten with hq
  have hqp := freq_prob hne
  have hτ : 1 / (N : ℝ) ^ 2 < δ := by
    have h1 : (N₀ : ℝ) + 1 ≤ N := by rw [hcard]; exact_mod_cast hlen
    have h2 : (1 : ℝ) ≤ N := by exact_mod_cast hNpos
    rw [div_lt_iff₀ (by positivity)]
    rw [div_lt_iff₀ hδ] at hN₀
    have h3 : δ * N ≤ δ * N ^ 2 := mul_le_mul_of_nonneg_left (by nlinarith) hδ.le
    nlinarith
  have hzd : dist ((q, 1 / (N : ℝ) ^ 2) : (α → ℝ) × ℝ) z0 < δ := by
    rw [Prod.dist_eq, max_lt_iff]
    constructor
    · rw [dist_pi_lt_iff hδ]
      intro c
      rw [Real.dist_eq]
      exact hd c
    · rw [Real.dist_eq, sub_zero, abs_of_nonneg (by positivity)]
      exact hτ
  obtain ⟨hclose, hdetq⟩ := hball hzd
  -- the equation of the driver
  have hrows : complexRows (components O x) = fun s => O (x s) := by
    funext s k
    unfold complexRows components
    simp only [Matrix.cons_val_zero, Matrix.cons_val_one]
    rw [mul_comm Complex.I]; exact Complex.re_add_im _
  have heq := (C49_unscaled hNpos (components O x) (fun s => E (x s)) ema step shift decay eps hs he solver hsolver).2
  rw [hrows] at heq
  have hm : ∀ f : α → ℂ, (sampleMean fun s => f (x s)) = weightedMean q f := by
    intro f
    rw [weightedMean_prob hqp.sum]
    exact mean_freq x ls.flatten hx f
  have hcov : ∀ f g : α → ℂ, (sampleMean fun s => (starRingEnd ℂ) (f (x s) - sampleMean fun s => f (x s)) * (g (x s) - sampleMean fun s => g (x s))) =
      rawCov q f g := by
    intro f g
    rw [← covariance_raw hqp.sum]
    unfold covariance
    rw [hm f, hm g]
    exact hm fun a => (starRingEnd ℂ) (f a - weightedMean q f) * (g a - weightedMean q g)
  have hS : ∀ k l, srMatrix (fun s => O (x s)) k l = rawCov q (fun a => O a k) fun a => O a l := fun k l => hcov (fun a => O a k) fun a => O a l
  have hFo : ∀ k, srForce (fun s => O (x s)) (fun s => E (x s)) k = rawCov q (fun a => O a k) E := fun k => hcov (fun a => O a k) E
  simp only [hS, hFo] at heq
  set v := (srComplex (components O x) (fun s => E (x s)) (sampleMean fun s => E (x s)) (fun k => N ^ 4 * ema k) step shift decay eps solver).1 with hv
  have hAv : A (q, 1 / (N : ℝ) ^ 2) *ᵥ v = b (q, 1 / (N : ℝ) ^ 2) := by
    funext k
    rw [hA]
    beta_reduce
    rw [rmsMatrix_mulVec]
    have := heq k
    unfold reg
    rw [mul_one_div]
    exact this
  have hveq : v = (A (q, 1 / (N : ℝ) ^ 2))⁻¹ *ᵥ b (q, 1 / (N : ℝ) ^ 2) := by
    rw [← hAv, Matrix.mulVec_mulVec, Matrix.nonsing_inv_mul _ (isUnit_iff_ne_zero.mpr hdetq), Matrix.one_mulVec]
  rw [hveq, hu0, ← dist_eq_norm] at hfar
  exact absurd hclose (not_lt.mpr hfar)

/-- The probability of an event that does not occur when there are enough samples and the frequencies are close to the weights. -/
theorem rare_large [DecidableEq α] {T : Matrix α α ℝ} (hT : IsKernel T) {w : α → ℝ} (hw : ∀ x, 0 < w x) (hc : ∀ f : α → ℂ, Consistent T w f)
    (A : Set (List (List α))) {δ : ℝ} (hδ : 0 < δ) (N₀ : ℕ)
    (hA : ∀ ls : List (List α), ls.flatten ≠ [] → N₀ ≤ ls.flatten.length → (∀ c, |freq ls.flatten c - normal w c| < δ) → ls ∉ A)
    {m : ℕ} (hm : 0 < m) : ∃ c : ℝ, ∀ n : ℕ, 0 < n → ∀ starts : List α, starts.length = m →
      chainsExpect T n starts (Set.indicator A 1) ≤ c / n := by
  obtain ⟨c, hcb⟩ := rare hT hw hc (A ∩ {ls | N₀ ≤ ls.flatten.length}) hδ (fun ls h1 _ h3 h4 => hA ls h1 h4.2 h3 h4.1) hm
  refine ⟨max c N₀, fun n hn starts hl => ?_⟩
  have hn' : (0 : ℝ) < n := by exact_mod_cast hn
  by_cases hN : N₀ ≤ n
  · refine le_trans (chainsExpect_mono hT n starts _ _ fun ls h1 h2 => ?_) ((hcb n hn starts hl).trans
      (div_le_div_of_nonneg_right (le_max_left _ _) hn'.le))
    have hlen : N₀ ≤ ls.flatten.length := by
      cases ls with
      | nil => rw [hl] at h1; simp at h1; omega
      | cons l ls =>
        rw [List.flatten_cons, List.length_append, h2 l List.mem_cons_self]
        omega
    by_cases hmem : ls ∈ A
    · rw [Set.indicator_of_mem hmem, Set.indicator_of_mem (show ls ∈ A ∩ {ls | N₀ ≤ ls.flatten.length} from ⟨hmem, hlen⟩)]
    · rw [Set.indicator_of_notMem hmem, Set.indicator_of_notMem fun h => hmem h.1]
  · have h1 : chainsExpect T n starts (Set.indicator A 1) ≤ chainsExpect T n starts (fun _ => 1 + 0) :=
      chainsExpect_mono hT n starts _ _ fun ls _ _ => by
        rw [add_zero]
        exact Set.indicator_le_self' (fun _ _ => zero_le_one) ls
    rw [chainsExpect_add_const hT n starts 1 fun _ => 0] at h1
    have h2 : chainsExpect T n starts (fun _ => (0 : ℝ)) = 0 := by
      clear h1 hl
      induction starts with
      | nil => rfl
      | cons x xs ih =>
        show Spec.pathExpect T n (fun _ => chainsExpect T n xs fun _ => 0) x = 0
        rw [ih]
        exact Markov.pathExpect_const hT n 0 x
    rw [h2, add_zero] at h1
    refine h1.trans ?_
    rw [le_div_iff₀ hn', one_mul]
    refine le_trans ?_ (le_max_right _ _)
    exact_mod_cast (not_le.mp hN).le

/-- **C185**, for every Markov chain whose averages are consistent with positive weights: with `m` independent chains, started anywhere, the
probability that the update of `VMC_SRRMSProp` from `n` samples per chain differs by `ε` or more from the solution of the regularised equation
with exact averages is at most `c / n`.  In that equation `eps` does not occur any more. -/
theorem C185_chains {T : Matrix α α ℝ} (hT : IsKernel T) {w : α → ℝ} (hw : ∀ x, 0 < w x) (hc : ∀ f : α → ℂ, Consistent T w f)
    (O : α → Fin P → ℂ) (E : α → ℂ) (ema : Fin P → ℝ) (step : ℕ) {shift decay eps : ℝ} (hs : 0 < shift) (he : 0 < eps) {u : Fin P → ℝ}
    (hu : RMSSolution w O E ema step shift decay u) (hr : Regular w O E ema step shift decay) {ε : ℝ} (hε : 0 < ε) {m : ℕ} (hm : 0 < m) :
    ∃ c : ℝ, ∀ n : ℕ, 0 < n → ∀ starts : List α, starts.length = m →
      chainsExpect T n starts (Set.indicator (FarOffRMS O E ema step shift decay eps u ε) 1) ≤ c / n := by
  classical
  rcases isEmpty_or_nonempty α with hemp | ⟨⟨x0⟩⟩
  · refine ⟨0, fun n hn starts hl => ?_⟩
    cases starts with
    | nil => rw [← hl] at hm; exact absurd hm (by simp)
    | cons x _ => exact hemp.elim x
  obtain ⟨δ, hδ, N₀, hcl⟩ := close_rms (fun x => (hw x).le) (Finset.sum_pos (fun x _ => hw x) ⟨x0, Finset.mem_univ x0⟩).ne' O E ema step hs he hu hr hε
  exact rare_large hT hw hc _ hδ N₀ hcl hm

/-- The exact equation has exactly one solution. -/
theorem C185_exact (w : α → ℝ) (O : α → Fin P → ℂ) (E : α → ℂ) (ema : Fin P → ℝ) (step : ℕ) (shift decay : ℝ)
    (hr : Regular w O E ema step shift decay) : ∃! u, RMSSolution w O E ema step shift decay u := by
  set A : Matrix (Fin P) (Fin P) ℝ := fun k l => (covariance w (fun x => O x k) fun x => O x l).re +
    if k = l then shift * Real.sqrt (exactEma w O E ema decay step k) else 0 with hA
  have hmul : ∀ v : Fin P → ℝ, ∀ k, (A *ᵥ v) k = ∑ l, (covariance w (fun x => O x k) fun x => O x l).re * v l +
      shift * Real.sqrt (exactEma w O E ema decay step k) * v k := by
    intro v k
    rw [hA]
    unfold Matrix.mulVec dotProduct
    simp only [add_mul, ite_mul, zero_mul, Finset.sum_add_distrib, Finset.sum_ite_eq, Finset.mem_univ, if_true]
  have hdet : A.det ≠ 0 := by
    intro hd
    obtain ⟨v, hv, hz⟩ := Matrix.exists_mulVec_eq_zero_iff.mpr hd
    refine hv (hr v fun k => ?_)
    rw [← hmul v k, hz]
    rfl
  have hunit := isUnit_iff_ne_zero.mpr hdet
  refine ⟨A⁻¹ *ᵥ fun k => 2 * (covariance w (fun x => O x k) E).re, fun k => ?_, fun v hv => ?_⟩
  · rw [← hmul, Matrix.mulVec_mulVec, Matrix.mul_nonsing_inv _ hunit, Matrix.one_mulVec]
  · have : A *ᵥ v = fun k => 2 * (covariance w (fun x => O x k) E).re := funext fun k => by rw [hmul]; exact hv k
    rw [← this, Matrix.mulVec_mulVec, Matrix.nonsing_inv_mul _ hunit, Matrix.one_mulVec]

/-- The equation is regular if every parameter has a gradient, now or in the average. -/
theorem C185_regular {w : α → ℝ} (h0 : ∀ x, 0 ≤ w x) (h : ∑ x, w x ≠ 0) (O : α → Fin P → ℂ) (E : α → ℂ) (ema : Fin P → ℝ) (step : ℕ)
    {shift decay : ℝ} (hs : 0 < shift) (hd0 : 0 ≤ decay) (hd1 : decay < 1) (hema : ∀ k, 0 ≤ ema k)
    (hg : ∀ k, 0 < decay * ema k ∨ (covariance w (fun x => O x k) E).re ≠ 0) : Regular w O E ema step shift decay := by
  intro v hv
  have hp := normal_prob h0 h
  have hpos : ∀ k, 0 < Real.sqrt (exactEma w O E ema decay step k) := by
    intro k
    refine Real.sqrt_pos.mpr (div_pos ?_ (sub_pos.mpr (pow_lt_one₀ hd0 hd1 (by omega))))
    rcases hg k with h1 | h1
    · exact add_pos_of_pos_of_nonneg h1 (mul_nonneg (by linarith) (sq_nonneg _))
    · exact add_pos_of_nonneg_of_pos (mul_nonneg hd0 (hema k)) (mul_pos (by linarith) (by positivity))
  have hform : ∑ k, v k * ∑ l, (covariance w (fun x => O x k) fun x => O x l).re * v l =
      (covariance (normal w) (along O fun k => (v k : ℂ)) (along O fun k => (v k : ℂ))).re := by
    rw [← dot_cov hp.sum]
    unfold dot Matrix.mulVec dotProduct cov
    rw [Complex.re_sum]
    refine Finset.sum_congr rfl fun k _ => ?_
    rw [Complex.conj_ofReal, Complex.re_ofReal_mul, Complex.re_sum]
    congr 1
    exact Finset.sum_congr rfl fun l _ => by rw [covariance_normal h, Complex.re_mul_ofReal]
  have hsum : ∑ k, v k * (∑ l, (covariance w (fun x => O x k) fun x => O x l).re * v l +
      shift * Real.sqrt (exactEma w O E ema decay step k) * v k) = 0 := Finset.sum_eq_zero fun k _ => by rw [hv k, mul_zero]
  simp only [mul_add, Finset.sum_add_distrib] at hsum
  rw [hform] at hsum
  have h1 := variance_nonneg hp (along O fun k => (v k : ℂ))
  have h2 : ∀ k ∈ Finset.univ, 0 ≤ v k * (shift * Real.sqrt (exactEma w O E ema decay step k) * v k) := fun k _ => by
    have := hpos k
    have h3 : v k * (shift * Real.sqrt (exactEma w O E ema decay step k) * v k) = shift * Real.sqrt (exactEma w O E ema decay step k) * v k ^ 2 := by ring
    rw [h3]
    positivity
  have h3 : ∑ k, v k * (shift * Real.sqrt (exactEma w O E ema decay step k) * v k) = 0 :=
    le_antisymm (by linarith) (Finset.sum_nonneg h2)
  funext k
  have h4 := (Finset.sum_eq_zero_iff_of_nonneg h2).mp h3 k (Finset.mem_univ k)
  rcases mul_eq_zero.mp h4 with h5 | h5
  · exact h5
  · rcases mul_eq_zero.mp h5 with h6 | h6
    · exact absurd h6 (mul_pos hs (hpos k)).ne'
    · exact h6

/-- **C185** for the hopping sampler of electrons on at least three sites. -/
theorem C185_hopping {L nu nd : ℕ} (hn : 0 < nu + nd) (hL : 3 ≤ L) (logpsi : Arr L → ℂ) (pow : ℝ) {hop : ℝ} (h0 : 0 < hop) (h1 : hop ≤ 1)
    {sweep : ℕ} (hsw : 0 < sweep) (O : HoppingChain.Sector L nu nd → Fin P → ℂ) (E : HoppingChain.Sector L nu nd → ℂ) (ema : Fin P → ℝ) (step : ℕ)
    {shift decay eps : ℝ} (hs : 0 < shift) (he : 0 < eps) {u : Fin P → ℝ}
    (hu : RMSSolution (HoppingChain.target logpsi pow) O E ema step shift decay u)
    (hr : Regular (HoppingChain.target logpsi pow) O E ema step shift decay) {ε : ℝ} (hε : 0 < ε) {m : ℕ} (hm : 0 < m) :
    ∃ c : ℝ, ∀ n : ℕ, 0 < n → ∀ starts : List (HoppingChain.Sector L nu nd), starts.length = m →
      chainsExpect (HoppingChain.chain logpsi pow hop none ^ sweep) n starts
        (Set.indicator (FarOffRMS O E ema step shift decay eps u ε) 1) ≤ c / n :=
  C185_chains (Markov.pow_kernel (HoppingChain.C137_kernel hn logpsi pow h0.le h1 (T := none) trivial) sweep)
    (HoppingChain.target_pos logpsi pow) (fun f => SampledEnergy.C144_hopping hn hL logpsi pow h0 h1 hsw f) O E ema step hs he hu hr hε hm

/-- **C185** for the exchange sampler. -/
theorem C185_exchange {S A : Type} [Fintype S] [DecidableEq S] [Fintype A] [DecidableEq A] {σ₀ : S → A} {clusters : List (S × S)}
    (hne : clusters ≠ []) (hc : ExchangeChain.Connected clusters) (logpsi : (S → A) → ℂ) (pow : ℝ) (hpair : ∃ i j, i ≠ j ∧ σ₀ i = σ₀ j)
    {sweep : ℕ} (hsw : 0 < sweep) (O : ExchangeChain.Sector σ₀ → Fin P → ℂ) (E : ExchangeChain.Sector σ₀ → ℂ) (ema : Fin P → ℝ) (step : ℕ)
    {shift decay eps : ℝ} (hs : 0 < shift) (he : 0 < eps) {u : Fin P → ℝ}
    (hu : RMSSolution (ExchangeChain.target σ₀ logpsi pow) O E ema step shift decay u)
    (hr : Regular (ExchangeChain.target σ₀ logpsi pow) O E ema step shift decay) {ε : ℝ} (hε : 0 < ε) {m : ℕ} (hm : 0 < m) :
    ∃ c : ℝ, ∀ n : ℕ, 0 < n → ∀ starts : List (ExchangeChain.Sector σ₀), starts.length = m →
      chainsExpect (ExchangeChain.chain σ₀ logpsi pow clusters ^ sweep) n starts
        (Set.indicator (FarOffRMS O E ema step shift decay eps u ε) 1) ≤ c / n :=
  C185_chains (Markov.pow_kernel (ExchangeChain.C140_kernel hne logpsi pow) sweep)
    (ExchangeChain.target_pos logpsi pow) (fun f => SampledEnergy.C144_exchange hne hc logpsi pow hpair hsw f) O E ema step hs he hu hr hε hm

/-! ## The energy -/

/-- An outcome of the chains from which, for some solver, small steps against the update of `VMC_SRRMSProp` do not lower the energy.  Real
coordinates (a complex parameter counts as two). -/
def MisledRMS {C : Type} [Fintype C] (H : C → C → ℂ) (psi : (Fin P → ℝ) → C → ℂ) (θ : Fin P → ℝ) (D : C → (Fin P → ℝ) →L[ℝ] ℂ) (ema : Fin P → ℝ) (step : ℕ)
    (shift decay eps : ℝ) : Set (List (List C)) :=
  {ls | ∃ (N : ℕ) (x : Fin N → C) (solver : _), SolvesPosDef solver ∧ Multiset.map x Finset.univ.val = (ls.flatten : Multiset C) ∧
    ¬ Lowers fun η => rayleigh H (psi (θ - η • (srComplex (components (fun c k => D c (Pi.single k 1) / psi θ c) x)
      (fun s => localValue H (psi θ) (x s)) (sampleMean fun s => localValue H (psi θ) (x s)) (fun k => N ^ 4 * ema k) step shift decay eps solver).1))}

/-- The quadratic form of the real parts of the covariances. -/
theorem real_form {w : α → ℝ} (h : ∑ x, w x ≠ 0) (hp : Prob (normal w)) (O : α → Fin P → ℂ) (v : Fin P → ℝ) :
    ∑ k, v k * ∑ l, (covariance w (fun x => O x k) fun x => O x l).re * v l =
      (covariance (normal w) (along O fun k => (v k : ℂ)) (along O fun k => (v k : ℂ))).re := by
  rw [← dot_cov hp.sum]
  unfold dot Matrix.mulVec dotProduct cov
  rw [Complex.re_sum]
  refine Finset.sum_congr rfl fun k _ => ?_
  rw [Complex.conj_ofReal, Complex.re_ofReal_mul, Complex.re_sum]
  congr 1
  exact Finset.sum_congr rfl fun l _ => by rw [covariance_normal h, Complex.re_mul_ofReal]

/-- The exact update has a positive scalar product with the gradient, unless the gradient vanishes. -/
theorem rms_positive {w : α → ℝ} (h0 : ∀ x, 0 ≤ w x) (h : ∑ x, w x ≠ 0) {O : α → Fin P → ℂ} {E : α → ℂ} {ema : Fin P → ℝ} {step : ℕ}
    {shift decay : ℝ} (hs : 0 < shift) {u : Fin P → ℝ} (hu : RMSSolution w O E ema step shift decay u) {k : Fin P}
    (hk : (covariance w (fun x => O x k) E).re ≠ 0) : 0 < ∑ k, u k * (covariance w (fun x => O x k) E).re := by
  have hp := normal_prob h0 h
  have h2 : ∑ k, u k * (∑ l, (covariance w (fun x => O x k) fun x => O x l).re * u l +
      shift * Real.sqrt (exactEma w O E ema decay step k) * u k) = 2 * ∑ k, u k * (covariance w (fun x => O x k) E).re := by
    rw [Finset.mul_sum]
    exact Finset.sum_congr rfl fun k _ => by rw [hu k]; ring
  simp only [mul_add, Finset.sum_add_distrib] at h2
  rw [real_form h hp] at h2
  have h3 := variance_nonneg hp (along O fun k => (u k : ℂ))
  have h4 : ∀ k ∈ Finset.univ, 0 ≤ u k * (shift * Real.sqrt (exactEma w O E ema decay step k) * u k) := fun k _ => by
    have : u k * (shift * Real.sqrt (exactEma w O E ema decay step k) * u k) = shift * Real.sqrt (exactEma w O E ema decay step k) * u k ^ 2 := by ring
    rw [this]
    positivity
  have h5 := Finset.sum_nonneg h4
  refine lt_of_le_of_ne (by linarith) fun heq => hk ?_
  have h6 : ∑ k, u k * (shift * Real.sqrt (exactEma w O E ema decay step k) * u k) = 0 := by linarith
  have h7 : (covariance (normal w) (along O fun k => (u k : ℂ)) (along O fun k => (u k : ℂ))).re = 0 := by linarith
  have h8 := congrFun ((cov_eq_zero_iff hp O fun k => (u k : ℂ)).mpr (flat_of_variance hp h7)) k
  have h9 : ∑ l, (covariance w (fun x => O x k) fun x => O x l).re * u l = 0 := by
    have := congrArg Complex.re h8
    unfold Matrix.mulVec dotProduct cov at this
    rw [Complex.re_sum] at this
    refine Eq.trans (Finset.sum_congr rfl fun l _ => ?_) this
    rw [Complex.re_mul_ofReal, covariance_normal h]
  have h10 : shift * Real.sqrt (exactEma w O E ema decay step k) * u k = 0 := by
    rcases mul_eq_zero.mp ((Finset.sum_eq_zero_iff_of_nonneg h4).mp h6 k (Finset.mem_univ k)) with h11 | h11
    · rw [h11, mul_zero]
    · exact h11
  have := hu k
  rw [h9, h10] at this
  linarith

/-- **C185**, energy: for every Markov chain whose averages are consistent with the Born weights of a state without zeros, and parameters at which
the gradient of the energy does not vanish: with `m` independent chains, started anywhere, the probability that small steps against the
update of `VMC_SRRMSProp` from `n` samples per chain do not lower the exact energy is at most `c / n`. -/
theorem C185_energy {C : Type} [Fintype C] [DecidableEq C] {T : Matrix C C ℝ} (hT : IsKernel T) (H : C → C → ℂ) (hH : Hermitian H)
    (psi : (Fin P → ℝ) → C → ℂ) (θ : Fin P → ℝ)
    (D : C → (Fin P → ℝ) →L[ℝ] ℂ) (hd : ∀ c, HasFDerivAt (fun θ => psi θ c) (D c) θ) (hpsi : ∀ c, psi θ c ≠ 0)
    (hc : ∀ f : C → ℂ, Consistent T (fun x => ‖psi θ x‖ ^ 2) f) (ema : Fin P → ℝ) (step : ℕ)
    {shift decay eps : ℝ} (hs : 0 < shift) (he : 0 < eps)
    (hr : Regular (fun x => ‖psi θ x‖ ^ 2) (fun c k => D c (Pi.single k 1) / psi θ c) (localValue H (psi θ)) ema step shift decay)
    (hg : ¬ ∀ k, HasDerivAt (fun t : ℝ => rayleigh H (psi (θ + t • Pi.single k 1))) 0 0) {m : ℕ} (hm : 0 < m) :
    ∃ c : ℝ, ∀ n : ℕ, 0 < n → ∀ starts : List C, starts.length = m →
      chainsExpect T n starts (Set.indicator (MisledRMS H psi θ D ema step shift decay eps) 1) ≤ c / n := by
  have hpos : ∀ x, 0 < ‖psi θ x‖ ^ 2 := fun x => pow_pos (norm_pos_iff.mpr (hpsi x)) 2
  rcases isEmpty_or_nonempty C with hemp | ⟨⟨x0⟩⟩
  · refine ⟨0, fun n hn starts hl => ?_⟩
    cases starts with
    | nil => rw [← hl] at hm; exact absurd hm (by simp)
    | cons x _ => exact hemp.elim x
  have hn : bornNorm (psi θ) ≠ 0 := (Finset.sum_pos (fun x _ => hpos x) ⟨x0, Finset.mem_univ x0⟩).ne'
  obtain ⟨u, hu, -⟩ := C185_exact _ _ _ ema step shift decay hr
  set F : Fin P → ℝ := fun k => (covariance (fun x => ‖psi θ x‖ ^ 2) (fun c => D c (Pi.single k 1) / psi θ c) (localValue H (psi θ))).re with hF
  have hline : ∀ v : Fin P → ℝ, HasDerivAt (fun t : ℝ => rayleigh H (psi (θ + t • v))) ((2 * ∑ k, v k * F k : ℝ) : ℂ) 0 := by
    intro v
    have h := born_deriv H hH (fun t : ℝ => psi (θ + t • v)) (fun k c => D c (Pi.single k 1)) (fun k => (v k : ℂ))
      (fun c => line_real psi θ D hd v c) (by simpa using hn) (fun k c hc => absurd hc (by simpa using hpsi c))
    refine h.congr_deriv ?_
    congr 2
    rw [Complex.re_sum]
    refine Finset.sum_congr rfl fun k _ => ?_
    rw [Complex.conj_ofReal, Complex.re_ofReal_mul]
    simp only [zero_smul, add_zero]
    rfl
  obtain ⟨k, hk⟩ : ∃ k, F k ≠ 0 := by
    by_contra hcon
    push Not at hcon
    refine hg fun v => ?_
    have := hline (Pi.single v 1)
    simpa [hcon] using this
  have hup := rms_positive (fun x => (hpos x).le) hn hs hu (k := k) hk
  have hcont : Continuous fun v : Fin P → ℝ => ∑ k, v k * F k := by fun_prop
  obtain ⟨ε, hε, hb⟩ := Metric.eventually_nhds_iff.mp (hcont.continuousAt.eventually (lt_mem_nhds hup))
  have hlow : ∀ v, ‖v - u‖ < ε → Lowers fun η => rayleigh H (psi (θ - η • v)) := by
    intro v hv
    have hvpos : 0 < ∑ k, v k * F k := hb (by rwa [dist_eq_norm])
    have h := hline (-v)
    have hsum : (2 * ∑ k, (-v) k * F k : ℝ) = -(2 * ∑ k, v k * F k) := by simp [Finset.sum_neg_distrib]
    rw [hsum] at h
    have := lowers_of_deriv h (mul_pos two_pos hvpos)
    simpa [sub_eq_add_neg] using this
  obtain ⟨c, hc'⟩ := C185_chains hT hpos hc _ _ ema step hs he hu hr hε hm
  refine ⟨c, fun n hn starts hl => (chainsExpect_mono hT n starts _ _ fun ls _ _ => ?_).trans (hc' n hn starts hl)⟩
  refine Set.indicator_le_indicator_of_subset ?_ (fun _ => zero_le_one) ls
  rintro ls ⟨N, x, solver, hsol, hx, hbad⟩
  exact ⟨N, x, solver, hsol, hx, not_lt.mp fun hlt => hbad (hlow _ hlt)⟩

/-! ## The hypotheses are met -/

theorem ex_covariance : (covariance (HoppingChain.target (nu := 1) (nd := 0) (fun _ : Arr 3 => (0 : ℂ)) 2) exG exG).re ≠ 0 := by
  have hn : ∑ x, HoppingChain.target (nu := 1) (nd := 0) (fun _ : Arr 3 => (0 : ℂ)) 2 x ≠ 0 :=
    (Finset.sum_pos (fun x _ => HoppingChain.target_pos _ _ x) ⟨⟨![1, 0, 0], by decide⟩, Finset.mem_univ _⟩).ne'
  intro hz
  rw [covariance_normal hn] at hz
  have hal : along (fun x (_ : Fin 1) => exG x) 1 = exG := by funext x; simp [along]
  have hfl : (1 : Fin 1 → ℂ) ∈ flat (normal (HoppingChain.target (nu := 1) (nd := 0) (fun _ : Arr 3 => (0 : ℂ)) 2)) fun x (_ : Fin 1) => exG x :=
    flat_of_variance (normal_prob (fun x => (HoppingChain.target_pos _ _ x).le) hn) (by rw [hal]; exact hz)
  have hne : ∀ x, normal (HoppingChain.target (nu := 1) (nd := 0) (fun _ : Arr 3 => (0 : ℂ)) 2) x ≠ 0 :=
    fun x => div_ne_zero (HoppingChain.target_pos _ _ x).ne' hn
  have := hfl ⟨![1, 0, 0], by decide⟩ ⟨![0, 1, 0], by decide⟩ (hne _) (hne _)
  rw [hal] at this
  simp [exG] at this

/-- The hypotheses are met: the first step with one electron on three sites and one parameter. -/
example {m : ℕ} (hm : 0 < m) : ∃ u : Fin 1 → ℝ, ∃ c : ℝ, ∀ n : ℕ, 0 < n → ∀ starts : List (HoppingChain.Sector 3 1 0), starts.length = m →
    chainsExpect (HoppingChain.chain (fun _ => 0) 2 1 none ^ 3) n starts
      (Set.indicator (FarOffRMS (fun x _ => exG x) exG (fun _ => 0) 0 (1 / 100) (9 / 10) (1 / 1000) u (1 / 10)) 1) ≤ c / n := by
  have hn : ∑ x, HoppingChain.target (nu := 1) (nd := 0) (fun _ : Arr 3 => (0 : ℂ)) 2 x ≠ 0 :=
    (Finset.sum_pos (fun x _ => HoppingChain.target_pos _ _ x) ⟨⟨![1, 0, 0], by decide⟩, Finset.mem_univ _⟩).ne'
  have hr : Regular (HoppingChain.target (nu := 1) (nd := 0) (fun _ : Arr 3 => (0 : ℂ)) 2) (fun x (_ : Fin 1) => exG x) exG (fun _ => 0) 0
      (1 / 100) (9 / 10) :=
    C185_regular (fun x => (HoppingChain.target_pos _ _ x).le) hn _ _ _ 0 (by norm_num) (by norm_num) (by norm_num) (fun _ => le_rfl)
      fun _ => Or.inr ex_covariance
  obtain ⟨u, hu, -⟩ := C185_exact _ _ _ _ 0 _ _ hr
  obtain ⟨c, hc⟩ := C185_hopping (by decide) (by decide) (fun _ => 0) 2 one_pos le_rfl (sweep := 3) (by decide) _ _ _ 0 (by norm_num)
    (eps := 1 / 1000) (by norm_num) hu hr (ε := 1 / 10) (by norm_num) hm
  exact ⟨u, c, hc⟩

/-- The same electron with a real parameter. -/
noncomputable def exPsiReal (θ : Fin 1 → ℝ) (x : HoppingChain.Sector 3 1 0) : ℂ := Complex.exp ((θ 0 : ℂ) * exG x)

/-- Its derivatives. -/
noncomputable def exDReal (x : HoppingChain.Sector 3 1 0) : (Fin 1 → ℝ) →L[ℝ] ℂ :=
  exG x • (Complex.ofRealCLM.comp (ContinuousLinearMap.proj 0 : (Fin 1 → ℝ) →L[ℝ] ℝ))

theorem exDReal_spec (x : HoppingChain.Sector 3 1 0) : HasFDerivAt (fun θ => exPsiReal θ x) (exDReal x) 0 := by
  have h1 : HasFDerivAt (fun θ : Fin 1 → ℝ => (θ 0 : ℂ) * exG x)
      (exG x • (Complex.ofRealCLM.comp (ContinuousLinearMap.proj 0 : (Fin 1 → ℝ) →L[ℝ] ℝ))) 0 :=
    (Complex.ofRealCLM.comp (ContinuousLinearMap.proj (R := ℝ) (φ := fun _ : Fin 1 => ℝ) 0)).hasFDerivAt.mul_const (exG x)
  have h2 := h1.cexp
  simp only [Pi.zero_apply, Complex.ofReal_zero, zero_mul, Complex.exp_zero, one_smul] at h2
  exact h2

theorem exReal_one (c : HoppingChain.Sector 3 1 0) : exPsiReal 0 c = 1 := by simp [exPsiReal]

theorem exReal_weights : (fun x => ‖exPsiReal 0 x‖ ^ 2) = HoppingChain.target (nu := 1) (nd := 0) (fun _ : Arr 3 => (0 : ℂ)) 2 := by
  funext x
  rw [exReal_one]
  unfold HoppingChain.target
  simp

theorem exReal_total : ∑ x, HoppingChain.target (nu := 1) (nd := 0) (fun _ : Arr 3 => (0 : ℂ)) 2 x ≠ 0 :=
  (Finset.sum_pos (fun x _ => HoppingChain.target_pos _ _ x) ⟨⟨![1, 0, 0], by decide⟩, Finset.mem_univ _⟩).ne'

theorem exReal_derivative : (fun (c : HoppingChain.Sector 3 1 0) (k : Fin 1) => exDReal c (Pi.single k 1) / exPsiReal 0 c) = fun c _ => exG c := by
  funext c k
  have hk : k = 0 := Subsingleton.elim _ _
  subst hk
  simp [exDReal, exReal_one]

theorem exReal_local : localValue exH (exPsiReal 0) = exG := by
  funext c
  unfold localValue exH
  simp [exReal_one]

theorem exReal_norm : bornNorm (exPsiReal 0) ≠ 0 := by
  show ∑ x, (fun x => ‖exPsiReal 0 x‖ ^ 2) x ≠ 0
  rw [exReal_weights]
  exact exReal_total

theorem exReal_gradient : ¬ ∀ k, HasDerivAt (fun t : ℝ => rayleigh exH (exPsiReal (0 + t • Pi.single k 1))) 0 0 := by
  intro hall
  have hz : (0 : Fin 1 → ℝ) + (0 : ℝ) • Pi.single (0 : Fin 1) (1 : ℝ) = 0 := by rw [zero_smul, add_zero]
  have h := born_deriv exH exH_hermitian (fun t : ℝ => exPsiReal (0 + t • Pi.single (0 : Fin 1) (1 : ℝ))) (fun k c => exDReal c (Pi.single k 1))
    (fun k => ((Pi.single (0 : Fin 1) (1 : ℝ) : Fin 1 → ℝ) k : ℂ))
    (fun c => line_real exPsiReal 0 exDReal exDReal_spec (Pi.single 0 1) c)
    (by beta_reduce; rw [hz]; exact exReal_norm)
    (fun k c hc => absurd hc (by beta_reduce; rw [hz, exReal_one]; exact one_ne_zero))
  have h2 := h.unique (hall 0)
  beta_reduce at h2
  rw [hz, Fin.sum_univ_one, Pi.single_eq_same, Complex.ofReal_one, map_one, one_mul] at h2
  have hD0 : (fun c => exDReal c (Pi.single 0 1) / exPsiReal 0 c) = exG := funext fun c => congrFun (congrFun exReal_derivative c) 0
  rw [hD0, exReal_weights, exReal_local] at h2
  have h3 : (2 * (covariance (HoppingChain.target (nu := 1) (nd := 0) (fun _ : Arr 3 => (0 : ℂ)) 2) exG exG).re : ℝ) = 0 := by exact_mod_cast h2
  exact ex_covariance (by linarith)

/-- The hypotheses of `C185_energy` are met: the first step with this state and an energy of the first site. -/
example {m : ℕ} (hm : 0 < m) : ∃ c : ℝ, ∀ n : ℕ, 0 < n → ∀ starts : List (HoppingChain.Sector 3 1 0), starts.length = m →
    chainsExpect (HoppingChain.chain (fun _ => 0) 2 1 none ^ 3) n starts
      (Set.indicator (MisledRMS exH exPsiReal 0 exDReal (fun _ => 0) 0 (1 / 100) (9 / 10) (1 / 1000)) 1) ≤ c / n := by
  have hk : IsKernel (HoppingChain.chain (nu := 1) (nd := 0) (fun _ : Arr 3 => (0 : ℂ)) 2 1 none ^ 3) :=
    Markov.pow_kernel (HoppingChain.C137_kernel (by decide) _ 2 zero_le_one le_rfl (T := none) trivial) 3
  have hc : ∀ f : HoppingChain.Sector 3 1 0 → ℂ, Consistent (HoppingChain.chain (nu := 1) (nd := 0) (fun _ : Arr 3 => (0 : ℂ)) 2 1 none ^ 3)
      (fun x => ‖exPsiReal 0 x‖ ^ 2) f := by
    intro f
    rw [exReal_weights]
    exact SampledEnergy.C144_hopping (by decide) (by decide) _ 2 one_pos le_rfl (by decide) f
  have hr : Regular (fun x => ‖exPsiReal 0 x‖ ^ 2) (fun (c : HoppingChain.Sector 3 1 0) (k : Fin 1) => exDReal c (Pi.single k 1) / exPsiReal 0 c)
      (localValue exH (exPsiReal 0)) (fun _ => 0) 0 (1 / 100) (9 / 10) := by
    rw [exReal_weights, exReal_derivative, exReal_local]
    exact C185_regular (fun x => (HoppingChain.target_pos _ _ x).le) exReal_total _ _ _ 0 (by norm_num) (by norm_num) (by norm_num)
      (fun _ => le_rfl) fun _ => Or.inr ex_covariance
  exact C185_energy hk exH exH_hermitian exPsiReal 0 exDReal exDReal_spec (fun c => by rw [exReal_one]; exact one_ne_zero) hc (fun _ => 0) 0
    (by norm_num) (by norm_num) hr exReal_gradient hm

end GPSKet.SampledUpdate
