import Verif.Props.SampledUpdate
import Verif.Props.UniqueBias
import Verif.Props.EnergyGradient
import Verif.Props.RMSProp
import Verif.Props.Expect
import Mathlib.Analysis.SpecialFunctions.ExpDeriv

/-!
# Property C187: expected values of variances, gradients and metrics computed from directly drawn samples

`sampleBatch` draws `N = nc * len` independent configurations from the autoregressive state.  All averages in the reported variance, gradient and
geometric tensor are over the same samples, so that their expected values are the exact ones times `1 - 1/N`.
-/

namespace GPSKet.DirectBias

open GPSKet.Spec GPSKet.AR GPSKet.Props GPSKet.SampledUpdate

variable {L D M nc len : ℕ} {ι : Type} [Fintype ι]

/-! ## Averages of products -/

theorem covariance_prob {α : Type} [Fintype α] {q : α → ℝ} (h : ∑ x, q x = 1) (f g : α → ℂ) :
    covariance q f g = (∑ x, (q x : ℂ) * ((starRingEnd ℂ) (f x) * g x)) -
      (∑ x, (q x : ℂ) * (starRingEnd ℂ) (f x)) * ∑ x, (q x : ℂ) * g x := by
  have h' : ∑ x, (q x : ℂ) = 1 := by exact_mod_cast h
  have hm : (starRingEnd ℂ) (∑ x, (q x : ℂ) * f x) = ∑ x, (q x : ℂ) * (starRingEnd ℂ) (f x) := by
    rw [map_sum]
    exact Finset.sum_congr rfl fun x _ => by rw [map_mul, Complex.conj_ofReal]
  unfold covariance
  simp only [weightedMean_prob h, map_sub, hm]
  set a := ∑ x, (q x : ℂ) * (starRingEnd ℂ) (f x)
  set b := ∑ x, (q x : ℂ) * g x
  have e : ∀ x, (q x : ℂ) * (((starRingEnd ℂ) (f x) - a) * (g x - b)) =
      (q x : ℂ) * ((starRingEnd ℂ) (f x) * g x) - a * ((q x : ℂ) * g x) - b * ((q x : ℂ) * (starRingEnd ℂ) (f x)) + a * b * (q x : ℂ) := fun x => by ring
  simp only [e, Finset.sum_add_distrib, Finset.sum_sub_distrib, ← Finset.mul_sum, h']
  ring

theorem batchMean_conj {X : Type} (f : X → ℂ) (xs : Fin nc → Fin len → X) :
    (starRingEnd ℂ) (batchMean f xs) = batchMean (fun x => (starRingEnd ℂ) (f x)) xs := by
  unfold batchMean
  rw [map_div₀, map_sum, Complex.conj_natCast]
  congr 1
  exact Finset.sum_congr rfl fun c _ => map_sum _ _ _

theorem batchCov_eq {X : Type} (hnc : 0 < nc) (hlen : 0 < len) (f g : X → ℂ) (xs : Fin nc → Fin len → X) :
    batchCov f g xs = batchMean (fun x => (starRingEnd ℂ) (f x) * g x) xs - batchMean (fun x => (starRingEnd ℂ) (f x)) xs * batchMean g xs := by
  have hN : ((nc * len : ℕ) : ℂ) ≠ 0 := by exact_mod_cast (Nat.mul_pos hnc hlen).ne'
  unfold batchCov
  simp only [map_sub, batchMean_conj]
  set a := batchMean (fun x => (starRingEnd ℂ) (f x)) xs with ha
  set b := batchMean g xs with hb
  have hsum : ∀ h : X → ℂ, ∑ c, ∑ t, h (xs c t) = ((nc * len : ℕ) : ℂ) * batchMean h xs := fun h => by
    unfold batchMean; field_simp
  have e : ∀ x, ((starRingEnd ℂ) (f x) - a) * (g x - b) = (starRingEnd ℂ) (f x) * g x - a * g x - b * (starRingEnd ℂ) (f x) + a * b := fun x => by ring
  have hc : ∑ _c : Fin nc, ∑ _t : Fin len, b = ((nc * len : ℕ) : ℂ) * b := by simp; ring
  conv_lhs => unfold batchMean
  simp only [e, Finset.sum_add_distrib, Finset.sum_sub_distrib, ← Finset.mul_sum]
  rw [hsum fun x => (starRingEnd ℂ) (f x) * g x, hsum g, hsum fun x => (starRingEnd ℂ) (f x), ← hb, ← ha, hc]
  field_simp
  ring

/-! ## Expected values -/

section direct

variable [NeZero L] [NeZero D] [Nonempty ι] (m : Machine L D M) (hm : ProvidedAR m)
  (hn : m.fields.normalize = true) (hc : Continuable m)
  (syms : ι → (Fin L → Fin D) → Fin L → Fin D) (inv : ι → ι) (hs : ClosedUnderInverse syms inv)
  (buffer : Fin L → Fin D) (hnc : 0 < nc) (hlen : 0 < len)
include hm hn hc hs hnc hlen

theorem weights_sum (hp : m.fields.machine_pow ≠ 0) : ∑ x, bornWeight m.fields.machine_pow (m.logPsi syms x) = 1 := by
  have hbij : ∀ t, Function.Bijective (syms t) := fun t => by
    have h2 : ∀ x, syms t (syms (inv t) x) = x := fun x => by
      have := hs.left (inv t) x
      rwa [hs.invol] at this
    exact ⟨Function.LeftInverse.injective (hs.left t), fun x => ⟨_, h2 x⟩⟩
  exact C28_normalised_of_continuable m hm hn hp hc syms hbij

/-- **C187.**  The expected value of the covariance of two quantities over the drawn samples is `1 - 1/N` times their covariance in the state. -/
theorem C187_covariance (hp : m.fields.machine_pow ≠ 0) (f g : (Fin L → Fin D) → ℂ) :
    drawExpect (sampleBatch m syms buffer) (fun xs : Fin nc → Fin len → Fin L → Fin D => batchCov f g xs) =
      (1 - 1 / ((nc * len : ℕ) : ℂ)) * covariance (fun x => bornWeight m.fields.machine_pow (m.logPsi syms x)) f g := by
  set p := fun x => bornWeight m.fields.machine_pow (m.logPsi syms x) with hpdef
  have hp1 : ∑ x, p x = 1 := weights_sum m hm hn hc syms inv hs hnc hlen hp
  have : Nonempty (Fin nc × Fin len) := ⟨(⟨0, hnc⟩, ⟨0, hlen⟩)⟩
  have hcard : Fintype.card (Fin nc × Fin len) = nc * len := by simp
  have hN : ((nc * len : ℕ) : ℂ) ≠ 0 := by exact_mod_cast (Nat.mul_pos hnc hlen).ne'
  have h1 := Iid.mean_average (κ := Fin nc × Fin len) p hp1 fun x => (starRingEnd ℂ) (f x) * g x
  have h2 := Iid.mean_product (κ := Fin nc × Fin len) p hp1 (fun x => (starRingEnd ℂ) (f x)) g
  rw [hcard] at h1 h2
  rw [DirectEnergy.expect_batch m hm hn hp hc syms inv hs buffer, covariance_prob hp1]
  have e : ∀ ys : Fin nc × Fin len → Fin L → Fin D, (∏ b, bornWeight m.fields.machine_pow (m.logPsi syms (ys b))) • batchCov f g (fun c t => ys (c, t)) =
      (∏ b, (p (ys b) : ℂ)) * ((∑ b, (starRingEnd ℂ) (f (ys b)) * g (ys b)) / ((nc * len : ℕ) : ℂ)) -
      (∏ b, (p (ys b) : ℂ)) * (((∑ b, (starRingEnd ℂ) (f (ys b))) / ((nc * len : ℕ) : ℂ)) * ((∑ b, g (ys b)) / ((nc * len : ℕ) : ℂ))) := by
    intro ys
    rw [batchCov_eq hnc hlen, Complex.real_smul, Complex.ofReal_prod, mul_sub]
    unfold batchMean
    simp only [Fintype.sum_prod_type]
    rfl
  simp only [e]
  rw [Finset.sum_sub_distrib, h1, h2]
  field_simp
  ring

/-- C187, the variance and mean that `expect` reports for a plain state, whatever the number of ranks and the chunk size: the mean is unbiased, the
variance has `1 - 1/N` times the exact variance as its expected value. -/
theorem C187_expect (hp : m.fields.machine_pow ≠ 0) {ranks chains : ℕ} (hch : 0 < chains) (hrk : nc = ranks * chains)
    (kernel : (Fin L → Fin D) → ℂ) (chunk_size : Option ℕ) (hcs : chunk_size ≠ some 0)
    (st : (Fin nc → Fin len → Fin L → Fin D) → Expect.Stats ranks)
    (hst : ∀ xs, Expect.expect kernel chunk_size (fun r (c : Fin chains) t => xs (Fin.cast hrk.symm (finProdFinEquiv (r, c))) t) = some (st xs)) :
    let p := fun x => bornWeight m.fields.machine_pow (m.logPsi syms x)
    let mu := ∑ x, (p x : ℂ) * kernel x
    drawExpect (sampleBatch m syms buffer) (fun xs => (st xs).mean) = mu ∧
    drawExpect (sampleBatch m syms buffer) (fun xs => (st xs).variance) = (1 - 1 / ((nc * len : ℕ) : ℝ)) * ∑ x, p x * ‖kernel x - mu‖ ^ 2 := by
  subst hrk
  intro p mu
  have hp1 : ∑ x, p x = 1 := weights_sum m hm hn hc syms inv hs hnc hlen hp
  have hN : (((ranks * chains) * len : ℕ) : ℂ) ≠ 0 := by exact_mod_cast (Nat.mul_pos hnc hlen).ne'
  have hsum : ∀ (E : Type) [AddCommMonoid E] (h : (Fin L → Fin D) → E) (xs : Fin (ranks * chains) → Fin len → Fin L → Fin D),
      ∑ r, ∑ c, ∑ t, h (xs (Fin.cast rfl (finProdFinEquiv (r, c))) t) = ∑ c, ∑ t, h (xs c t) := by
    intro E _ h xs
    rw [← Fintype.sum_prod_type']
    exact Fintype.sum_equiv finProdFinEquiv _ _ fun _ => rfl
  have hmean : ∀ xs, (st xs).mean = batchMean kernel xs := by
    intro xs
    have h := (Option.some.inj ((hst xs).symm.trans (Expect.C163_statistics hch hlen kernel chunk_size hcs _)))
    rw [h]
    show (∑ r, ∑ c, ∑ k, kernel (xs (Fin.cast rfl (finProdFinEquiv (r, c))) k)) / _ = _
    rw [hsum ℂ kernel xs, ← mul_assoc]
    rfl
  have hvar : ∀ xs, (((st xs).variance : ℝ) : ℂ) = batchCov kernel kernel xs := by
    intro xs
    have h := (Option.some.inj ((hst xs).symm.trans (Expect.C163_statistics hch hlen kernel chunk_size hcs _)))
    have hm' := hmean xs
    rw [h] at hm' ⊢
    dsimp only at hm' ⊢
    rw [hm']
    rw [hsum ℝ (fun x => ‖kernel x - batchMean kernel xs‖ ^ 2) xs, ← mul_assoc]
    unfold batchCov
    set a := batchMean kernel xs
    unfold batchMean
    push_cast
    congr 1
    refine Finset.sum_congr rfl fun c _ => Finset.sum_congr rfl fun t _ => ?_
    rw [Complex.conj_mul']
  constructor
  · simp only [hmean]
    exact (DirectEnergy.C148_mean_and_error m hm hn hp hc syms inv hs buffer hnc hlen kernel).1
  · have h := C187_covariance m hm hn hc syms inv hs buffer hnc hlen hp kernel kernel
    simp only [← hvar] at h
    rw [← Complex.ofReal_inj]
    have e1 : ((drawExpect (sampleBatch m syms buffer) fun xs => (st xs).variance : ℝ) : ℂ) =
        drawExpect (sampleBatch m syms buffer) fun xs => (((st xs).variance : ℝ) : ℂ) := by
      unfold drawExpect
      push_cast
      exact Finset.sum_congr rfl fun xs _ => by rw [smul_eq_mul, Complex.real_smul]; push_cast; rfl
    rw [e1, h]
    push_cast
    congr 1
    unfold covariance
    rw [weightedMean_prob hp1, weightedMean_prob hp1]
    refine Finset.sum_congr rfl fun x _ => ?_
    rw [Complex.conj_mul']

end direct

/-! ## Unique-sample states -/

/-- The draws of a batch, in batches of a unique-sample state. -/
def draws {X : Type} {b k : ℕ} (e : Fin b × Fin k ≃ Fin nc × Fin len) (xs : Fin nc → Fin len → X) (i : Fin b) (j : Fin k) : X :=
  xs (e (i, j)).1 (e (i, j)).2

section unique

variable {C : Type} [Fintype C] [DecidableEq C] {b k ranks perRank P : ℕ} (hb : 0 < b) (hk : 0 < k) (e : Fin b × Fin k ≃ Fin nc × Fin len)
  (hN : Fintype.card C < ranks * perRank ∨ nc * len ≤ ranks * perRank) (xs : Fin nc → Fin len → C) (sw : Fin ranks → List (C × ℝ))
  (hsw : UniqueSamples.samplesWithCounts ranks perRank (some b) (UniqueBias.batches (draws e xs)) = some sw)
include hb hk hN hsw

/-- Averages over all samples. -/
theorem unique_mean : (∀ f : C → ℂ, UniqueSamples.mean sw f = batchMean f xs) ∧ ∀ r, ∀ a ∈ sw r, 0 ≤ a.2 := by
  have hbk : b * k = nc * len := by
    have := Fintype.card_congr e
    simpa using this
  obtain ⟨h1, h2⟩ := UniqueBias.all_draws hb hk ranks perRank (hbk ▸ hN) (draws e xs) sw hsw
  refine ⟨fun f => ?_, h2⟩
  rw [h1, hbk]
  unfold batchMean draws
  congr 1
  rw [← Fintype.sum_prod_type', ← Fintype.sum_prod_type']
  exact Fintype.sum_equiv e _ _ fun _ => rfl

theorem unique_variance (loc : C → ℂ) : UniqueSamples.variance sw loc = batchCov loc loc xs := by
  obtain ⟨h1, -⟩ := unique_mean hb hk e hN xs sw hsw
  unfold UniqueSamples.variance batchCov
  rw [h1 loc, ← h1 fun x => (starRingEnd ℂ) (loc x - batchMean loc xs) * (loc x - batchMean loc xs)]
  unfold UniqueSamples.mean
  refine Finset.sum_congr rfl fun r _ => congrArg List.sum (List.map_congr_left fun a _ => ?_)
  beta_reduce
  rw [Complex.conj_mul']
  push_cast
  rfl

theorem unique_gradient (hnc : 0 < nc) (hlen : 0 < len) (loc O : C → ℂ) : UniqueSamples.gradient sw loc O = batchCov O loc xs := by
  obtain ⟨h1, -⟩ := unique_mean hb hk e hN xs sw hsw
  have hN0 : ((nc * len : ℕ) : ℂ) ≠ 0 := by exact_mod_cast (Nat.mul_pos hnc hlen).ne'
  rw [batchCov_eq hnc hlen]
  have h2 : UniqueSamples.gradient sw loc O = UniqueSamples.mean sw fun x => (starRingEnd ℂ) (O x) * (loc x - batchMean loc xs) := by
    unfold UniqueSamples.gradient
    rw [h1 loc]
    unfold UniqueSamples.mean
    exact Finset.sum_congr rfl fun r _ => congrArg List.sum (List.map_congr_left fun a _ => by ring)
  rw [h2, h1]
  set y := batchMean loc xs
  unfold batchMean
  simp only [mul_sub, Finset.sum_sub_distrib, ← Finset.sum_mul]
  field_simp

theorem unique_qgt (O : C → Fin P → ℂ) (i j : Fin P) :
    RMSProp.uniqueQGT sw O i j = batchCov (fun x => O x i) (fun x => O x j) xs := by
  obtain ⟨h1, h2⟩ := unique_mean hb hk e hN xs sw hsw
  unfold RMSProp.uniqueQGT batchCov
  rw [← h1 fun x => (starRingEnd ℂ) (O x i - batchMean (fun x => O x i) xs) * (O x j - batchMean (fun x => O x j) xs)]
  unfold UniqueSamples.mean
  refine Finset.sum_congr rfl fun r _ => congrArg List.sum (List.map_congr_left fun a ha => ?_)
  unfold RMSProp.uniqueRows
  rw [h1, h1, map_mul, Complex.conj_ofReal, mul_mul_mul_comm, ← Complex.ofReal_mul, Real.mul_self_sqrt (h2 r a ha)]

end unique

section uniqueDirect

variable [NeZero L] [NeZero D] [Nonempty ι] (m : Machine L D M) (hm : ProvidedAR m)
  (hn : m.fields.normalize = true) (hc : Continuable m)
  (syms : ι → (Fin L → Fin D) → Fin L → Fin D) (inv : ι → ι) (hs : ClosedUnderInverse syms inv)
  (buffer : Fin L → Fin D) (hnc : 0 < nc) (hlen : 0 < len)
  {b k ranks perRank : ℕ} (hb : 0 < b) (hk : 0 < k) (e : Fin b × Fin k ≃ Fin nc × Fin len)
  (hN : Fintype.card (Fin L → Fin D) < ranks * perRank ∨ nc * len ≤ ranks * perRank)
  (sw : (Fin nc → Fin len → Fin L → Fin D) → Fin ranks → List ((Fin L → Fin D) × ℝ))
  (hsw : ∀ xs, UniqueSamples.samplesWithCounts ranks perRank (some b) (UniqueBias.batches (draws e xs)) = some (sw xs))
include hm hn hc hs hnc hlen hb hk hN hsw

/-- C187 for unique-sample states that keep all samples, in any number of batches and on any number of ranks: the expected values of variance,
gradient and geometric tensor are `1 - 1/N` times the exact covariances, and the mean is unbiased. -/
theorem C187_unique (hp : m.fields.machine_pow ≠ 0) (loc O : (Fin L → Fin D) → ℂ) {P : ℕ} (J : (Fin L → Fin D) → Fin P → ℂ) (i j : Fin P) :
    let p := fun x => bornWeight m.fields.machine_pow (m.logPsi syms x)
    let c : ℂ := 1 - 1 / ((nc * len : ℕ) : ℂ)
    drawExpect (sampleBatch m syms buffer) (fun xs => UniqueSamples.mean (sw xs) loc) = weightedMean p loc ∧
    drawExpect (sampleBatch m syms buffer) (fun xs => UniqueSamples.variance (sw xs) loc) = c * covariance p loc loc ∧
    drawExpect (sampleBatch m syms buffer) (fun xs => UniqueSamples.gradient (sw xs) loc O) = c * covariance p O loc ∧
    drawExpect (sampleBatch m syms buffer) (fun xs => RMSProp.uniqueQGT (sw xs) J i j) = c * covariance p (fun x => J x i) fun x => J x j := by
  intro p c
  refine ⟨?_, ?_, ?_, ?_⟩
  · rw [weightedMean_prob (weights_sum m hm hn hc syms inv hs hnc hlen hp),
      funext fun xs => (unique_mean hb hk e hN xs (sw xs) (hsw xs)).1 loc]
    exact (DirectEnergy.C148_mean_and_error m hm hn hp hc syms inv hs buffer hnc hlen loc).1
  · rw [funext fun xs => unique_variance hb hk e hN xs (sw xs) (hsw xs) loc]
    exact C187_covariance m hm hn hc syms inv hs buffer hnc hlen hp loc loc
  · rw [funext fun xs => unique_gradient hb hk e hN xs (sw xs) (hsw xs) hnc hlen loc O]
    exact C187_covariance m hm hn hc syms inv hs buffer hnc hlen hp O loc
  · rw [funext fun xs => unique_qgt hb hk e hN xs (sw xs) (hsw xs) J i j]
    exact C187_covariance m hm hn hc syms inv hs buffer hnc hlen hp _ _

/-- C187, gradients: on average, the gradient that the unique-sample state reports for a real parameter is `1 - 1/N` times the derivative of
the energy.  `psi` is any differentiable family of states that goes through the sampled state, and where the amplitude vanishes so must its
derivative (`C133_zero_fails`). -/
theorem C187_gradient (hp : m.fields.machine_pow = 2) (H : (Fin L → Fin D) → (Fin L → Fin D) → ℂ) (hH : Hermitian H)
    (psi : ℝ → (Fin L → Fin D) → ℂ) (dpsi : (Fin L → Fin D) → ℂ) (t : ℝ) (hd : ∀ c, HasDerivAt (fun s => psi s c) (dpsi c) t)
    (h0 : ∀ c, psi t c = 0 → dpsi c = 0) (hpsi : ∀ x, psi t x = amplitude (m.logPsi syms x)) :
    ∃ slope : ℝ, HasDerivAt (fun s => rayleigh H (psi s)) (slope : ℂ) t ∧
      drawExpect (sampleBatch m syms buffer) (fun xs => UniqueSamples.realGradient (sw xs) (localValue H (psi t)) fun c => dpsi c / psi t c) =
        (1 - 1 / ((nc * len : ℕ) : ℝ)) * slope := by
  have hp0 : m.fields.machine_pow ≠ 0 := by rw [hp]; norm_num
  have hp1 := weights_sum m hm hn hc syms inv hs hnc hlen hp0
  simp only [hp, DirectEnergy.bornWeight_two, ← hpsi] at hp1
  have hnorm : bornNorm (psi t) = 1 := hp1
  refine ⟨_, EnergyGradient.energy_deriv H hH psi dpsi t hd (by rw [hnorm]; exact one_ne_zero), ?_⟩
  have h := (C187_unique m hm hn hc syms inv hs buffer hnc hlen hb hk e hN sw hsw hp0 (localValue H (psi t)) (fun c => dpsi c / psi t c)
    (P := 1) (fun _ _ => 0) 0 0).2.2.1
  simp only [hp, DirectEnergy.bornWeight_two, ← hpsi] at h
  have hcov : covariance (fun x => ‖psi t x‖ ^ 2) (fun c => dpsi c / psi t c) (localValue H (psi t)) =
      (∑ x, (starRingEnd ℂ) (dpsi x) * ((∑ y, H x y * psi t y) - rayleigh H (psi t) * psi t x)) / (bornNorm (psi t) : ℂ) := by
    have hmean := DirectEnergy.mean_localValue H (psi t) hp1 (localValue H (psi t)) fun _ _ => rfl
    rw [covariance_prob hp1, hmean, hnorm, Complex.ofReal_one, div_one, Finset.sum_mul, ← Finset.sum_sub_distrib]
    refine Finset.sum_congr rfl fun x _ => ?_
    by_cases hx : psi t x = 0
    · simp [hx, h0 x hx]
    have hn : ((‖psi t x‖ ^ 2 : ℝ) : ℂ) = psi t x * (starRingEnd ℂ) (psi t x) := by rw [Complex.mul_conj, Complex.normSq_eq_norm_sq]
    have hx' : (starRingEnd ℂ) (psi t x) ≠ 0 := by simpa using hx
    rw [hn, map_div₀]
    unfold localValue
    field_simp
  rw [hcov] at h
  set z := (∑ x, (starRingEnd ℂ) (dpsi x) * ((∑ y, H x y * psi t y) - rayleigh H (psi t) * psi t x)) / (bornNorm (psi t) : ℂ)
  have h1 := congrArg Complex.re h
  have h2 : (1 - 1 / ((nc * len : ℕ) : ℂ)) = ((1 - 1 / ((nc * len : ℕ) : ℝ) : ℝ) : ℂ) := by push_cast; ring
  rw [h2, Complex.re_ofReal_mul] at h1
  unfold UniqueSamples.realGradient
  unfold drawExpect at h1 ⊢
  rw [Complex.re_sum] at h1
  have h3 : ∀ xs : Fin nc → Fin len → Fin L → Fin D, drawProb (sampleBatch m syms buffer) xs •
      (2 * (UniqueSamples.gradient (sw xs) (localValue H (psi t)) fun c => dpsi c / psi t c).re) =
      2 * (drawProb (sampleBatch m syms buffer) xs • UniqueSamples.gradient (sw xs) (localValue H (psi t)) fun c => dpsi c / psi t c).re := by
    intro xs
    rw [Complex.real_smul, Complex.re_ofReal_mul, smul_eq_mul]
    ring
  simp only [h3]
  rw [← Finset.mul_sum, h1]
  ring

end uniqueDirect

/-- With a single sample, no gradient is ever seen. -/
theorem C187_single {X : Type} (f g : X → ℂ) (xs : Fin 1 → Fin 1 → X) : batchCov f g xs = 0 := by
  unfold batchCov batchMean
  simp

/-- The hypotheses of `C187_expect` are met: two ranks with three chains of four samples each. -/
example (epsilon : Fin 4 → Fin 2 → Fin 3 → ℂ) (kernel : (Fin 3 → Fin 4) → ℂ) :
    let f : Fields 4 2 := ⟨2, true, true, countSpinsFermionic, renormalizeFermionic ((2 : ℕ), (1 : ℕ)) 3, sumOut⟩
    let m : Machine 3 4 2 := ARPlaquette.arPlaquette f epsilon (ARPlaquette.withMasks ARPlaquette.circulantPlaquettes)
    let p := fun x => bornWeight m.fields.machine_pow (m.logPsi (fun (_ : Unit) y => y) x)
    ∃ st : (Fin 6 → Fin 4 → Fin 3 → Fin 4) → Expect.Stats 2,
      (∀ xs, Expect.expect kernel (some 5) (fun r (c : Fin 3) t => xs (finProdFinEquiv (r, c)) t) = some (st xs)) ∧
      drawExpect (sampleBatch m (fun (_ : Unit) y => y) fun _ => 0) (fun xs => (st xs).variance) =
        (23 / 24) * ∑ x, p x * ‖kernel x - ∑ x, (p x : ℂ) * kernel x‖ ^ 2 := by
  intro f m p
  have hp0 : m.fields.machine_pow ≠ 0 := by change (2 : ℝ) ≠ 0; norm_num
  have hm : ProvidedAR m := .plaquette f epsilon _ (masks_hide _)
  have hc : Continuable m := fermi_continuable hm hp0 (n := (2, 1)) ⟨rfl, rfl, rfl⟩ (by norm_num) (by norm_num)
  have hst := fun xs : Fin 6 → Fin 4 → Fin 3 → Fin 4 => Expect.C163_statistics (ranks := 2) (chains := 3) (len := 4) (by norm_num) (by norm_num)
    kernel (some 5) (by simp) fun r c t => xs (finProdFinEquiv (r, c)) t
  refine ⟨_, hst, ?_⟩
  rw [(C187_expect m hm rfl hc (fun (_ : Unit) y => y) id ⟨fun _ => rfl, fun _ _ => rfl⟩ (fun _ => 0) (nc := 6) (len := 4)
    (by norm_num) (by norm_num) hp0 (ranks := 2) (chains := 3) (by norm_num) rfl kernel (some 5) (by simp) _ hst).2]
  norm_num
  rfl

/-- The hypotheses are met: an autoregressive plaquette state of three electrons on three sites, sampled in three batches of four; the
amplitudes are multiplied by `exp (s w(x))`. -/
example (epsilon : Fin 4 → Fin 2 → Fin 3 → ℂ) (H : (Fin 3 → Fin 4) → (Fin 3 → Fin 4) → ℂ) (hH : Hermitian H) (w : (Fin 3 → Fin 4) → ℂ) :
    let f : Fields 4 2 := ⟨2, true, true, countSpinsFermionic, renormalizeFermionic ((2 : ℕ), (1 : ℕ)) 3, sumOut⟩
    let m : Machine 3 4 2 := ARPlaquette.arPlaquette f epsilon (ARPlaquette.withMasks ARPlaquette.circulantPlaquettes)
    let psi : ℝ → (Fin 3 → Fin 4) → ℂ := fun s x => Complex.exp (s * w x) * amplitude (m.logPsi (fun (_ : Unit) y => y) x)
    ∃ (sw : (Fin 3 → Fin 4 → Fin 3 → Fin 4) → Fin 2 → List ((Fin 3 → Fin 4) × ℝ)) (slope : ℝ),
      (∀ xs, UniqueSamples.samplesWithCounts 2 6 (some 3) (UniqueBias.batches (draws (Equiv.refl _) xs)) = some (sw xs)) ∧
      HasDerivAt (fun s => rayleigh H (psi s)) (slope : ℂ) 0 ∧
      drawExpect (sampleBatch m (fun (_ : Unit) y => y) fun _ => 0) (fun xs => UniqueSamples.realGradient (sw xs) (localValue H (psi 0))
        fun c => w c * psi 0 c / psi 0 c) = (11 / 12) * slope := by
  intro f m psi
  have hp : m.fields.machine_pow = 2 := rfl
  have hp0 : m.fields.machine_pow ≠ 0 := by rw [hp]; norm_num
  have hm : ProvidedAR m := .plaquette f epsilon _ (masks_hide _)
  have hc : Continuable m := fermi_continuable hm hp0 (n := (2, 1)) ⟨rfl, rfl, rfl⟩ (by norm_num) (by norm_num)
  choose sw hsw using fun xs : Fin 3 → Fin 4 → Fin 3 → Fin 4 =>
    UniqueBias.C141_total 2 6 (m := 3) (b := 4) (by norm_num) (by norm_num) (draws (Equiv.refl _) xs)
  obtain ⟨slope, h1, h2⟩ := C187_gradient m hm rfl hc (fun (_ : Unit) y => y) id ⟨fun _ => rfl, fun _ _ => rfl⟩ (fun _ => 0) (nc := 3) (len := 4)
    (by norm_num) (by norm_num) (by norm_num) (by norm_num) (Equiv.refl _) (Or.inr (by norm_num)) sw hsw hp H hH psi (fun c => w c * psi 0 c) 0
    (fun c => by
      have h1 : HasDerivAt (fun s : ℝ => (s : ℂ) * w c) (1 * w c) 0 := (HasDerivAt.ofReal_comp (hasDerivAt_id' (0 : ℝ))).mul_const (w c)
      have h : HasDerivAt (fun s : ℝ => Complex.exp (s * w c)) (Complex.exp ((0 : ℝ) * w c) * (1 * w c)) 0 := h1.cexp
      have h2 := h.mul_const (amplitude (m.logPsi (fun (_ : Unit) y => y) c))
      refine h2.congr_deriv ?_
      simp only [psi]
      ring)
    (fun c h => by rw [h, mul_zero]) fun x => by simp [psi]
  refine ⟨sw, slope, hsw, h1, ?_⟩
  rw [h2]
  norm_num

end GPSKet.DirectBias
