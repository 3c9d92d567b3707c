import Verif.Spec.Direct
import Verif.Spec.Rayleigh
import Verif.Lemmas.Iid
import Verif.Props.ARSampler
import Verif.Props.SampledEnergy

/-!
# Property C148: energies from directly sampled autoregressive states
-/

namespace GPSKet.DirectEnergy

open GPSKet.Spec GPSKet.AR GPSKet.Props MeasureTheory

variable {L D M nc len : ℕ} {ι : Type} [Fintype ι]

/-- C148, the law of a batch: all entries are independent, and each is `x` with probability `|ψ(x)|^machine_pow`. -/
theorem C148_batch_law [NeZero L] [NeZero D] (m : Machine L D M) (hm : ProvidedAR m)
    (hn : m.fields.normalize = true) (hp : m.fields.machine_pow ≠ 0) (hc : Continuable m)
    (syms : ι → (Fin L → Fin D) → Fin L → Fin D) (inv : ι → ι) (hs : ClosedUnderInverse syms inv)
    (buffer : Fin L → Fin D) (xs : Fin nc → Fin len → Fin L → Fin D) :
    drawProb (sampleBatch m syms buffer) xs = ∏ c, ∏ t, bornWeight m.fields.machine_pow (m.logPsi syms (xs c t)) := by
  have hnn : ∀ l, 0 ≤ bornWeight m.fields.machine_pow l := fun l => by rw [bornWeight_eq]; exact weight_nonneg _ _
  set ys : Fin (nc * len) → Fin L → Fin D := fun b => xs (finProdFinEquiv.symm b).1 (finProdFinEquiv.symm b).2 with hys
  have hset : ∀ r : Fin (nc * len) → ι,
      {u : Fin (nc * len) → Fin L → ℝ | (∀ b i, u b i ∈ Set.Ico (0 : ℝ) 1) ∧ sampleBatch m syms buffer u r = xs} =
      Set.pi Set.univ fun b => {v : Fin L → ℝ | (∀ i, v i ∈ Set.Ico (0 : ℝ) 1) ∧ sampleChain m syms buffer v (r b) = ys b} := by
    intro r
    ext u
    simp only [Set.mem_ofPred_eq, Set.mem_pi, Set.mem_univ, forall_true_left]
    constructor
    · rintro ⟨h1, h2⟩ b
      refine ⟨h1 b, ?_⟩
      have := congrFun (congrFun h2 (finProdFinEquiv.symm b).1) (finProdFinEquiv.symm b).2
      unfold sampleBatch at this
      dsimp only at this
      rwa [Prod.mk.eta, Equiv.apply_symm_apply] at this
    · intro h
      refine ⟨fun b => (h b).1, ?_⟩
      funext c t
      have := (h (finProdFinEquiv (c, t))).2
      have e : ys (finProdFinEquiv (c, t)) = xs c t := by
        show xs (finProdFinEquiv.symm (finProdFinEquiv (c, t))).1 (finProdFinEquiv.symm (finProdFinEquiv (c, t))).2 = _
        rw [Equiv.symm_apply_apply]
      rw [e] at this
      exact this
  unfold drawProb
  simp only [hset, volume_pi_pi]
  rw [← Fintype.piFinset_univ, ← Finset.prod_univ_sum (fun _ => Finset.univ) fun b r =>
    volume {v : Fin L → ℝ | (∀ i, v i ∈ Set.Ico (0 : ℝ) 1) ∧ sampleChain m syms buffer v r = ys b}]
  have hpow : ((1 / Fintype.card ι : ENNReal)) ^ (nc * len) = ∏ _b : Fin (nc * len), (1 / Fintype.card ι : ENNReal) := by simp
  rw [hpow, ← Finset.prod_mul_distrib]
  simp only [C27_direct_sampling m hm hn hp hc syms inv hs buffer]
  rw [← ENNReal.ofReal_prod_of_nonneg fun b _ => hnn _, ENNReal.toReal_ofReal (Finset.prod_nonneg fun b _ => hnn _),
    ← Fintype.prod_prod_type']
  exact Fintype.prod_equiv finProdFinEquiv.symm _ _ fun b => rfl

/-- Expectations of functions of a batch. -/
theorem expect_batch [NeZero L] [NeZero D] (m : Machine L D M) (hm : ProvidedAR m)
    (hn : m.fields.normalize = true) (hp : m.fields.machine_pow ≠ 0) (hc : Continuable m)
    (syms : ι → (Fin L → Fin D) → Fin L → Fin D) (inv : ι → ι) (hs : ClosedUnderInverse syms inv) (buffer : Fin L → Fin D)
    {E : Type} [AddCommGroup E] [Module ℝ E] (F : (Fin nc → Fin len → Fin L → Fin D) → E) :
    drawExpect (sampleBatch m syms buffer) F =
      ∑ ys : Fin nc × Fin len → Fin L → Fin D, (∏ b, bornWeight m.fields.machine_pow (m.logPsi syms (ys b))) • F (fun c t => ys (c, t)) := by
  unfold drawExpect
  simp only [C148_batch_law m hm hn hp hc syms inv hs buffer]
  refine Fintype.sum_equiv (Equiv.curry _ _ _).symm _ _ fun xs => ?_
  rw [Fintype.prod_prod_type]
  rfl

/-- C148.  Whatever is averaged, the batch average has the exact mean over `|ψ|^machine_pow` as its expected value, and its mean squared error
is the variance divided by the number of samples, for every number of chains and every chain length. -/
theorem C148_mean_and_error [NeZero L] [NeZero D] [Nonempty ι] (m : Machine L D M) (hm : ProvidedAR m)
    (hn : m.fields.normalize = true) (hp : m.fields.machine_pow ≠ 0) (hc : Continuable m)
    (syms : ι → (Fin L → Fin D) → Fin L → Fin D) (inv : ι → ι) (hs : ClosedUnderInverse syms inv)
    (buffer : Fin L → Fin D) (hnc : 0 < nc) (hlen : 0 < len) (f : (Fin L → Fin D) → ℂ) :
    let p := fun x => bornWeight m.fields.machine_pow (m.logPsi syms x)
    let mu := ∑ x, (p x : ℂ) * f x
    drawExpect (sampleBatch m syms buffer) (fun xs : Fin nc → Fin len → Fin L → Fin D => batchMean f xs) = mu ∧
    drawExpect (sampleBatch m syms buffer) (fun xs : Fin nc → Fin len → Fin L → Fin D => ‖batchMean f xs - mu‖ ^ 2) =
      (∑ x, p x * ‖f x - mu‖ ^ 2) / (nc * len : ℕ) := by
  intro p mu
  have hbij : ∀ t, Function.Bijective (syms t) := fun t => by
    have h2 : ∀ x, syms t (syms (inv t) x) = x := fun x => by
      have := hs.left (inv t) x
      rwa [hs.invol] at this
    exact ⟨Function.LeftInverse.injective (hs.left t), fun x => ⟨_, h2 x⟩⟩
  have hp1 : ∑ x, p x = 1 := C28_normalised_of_continuable m hm hn hp hc syms hbij
  have : Nonempty (Fin nc × Fin len) := ⟨(⟨0, hnc⟩, ⟨0, hlen⟩)⟩
  have hcard : Fintype.card (Fin nc × Fin len) = nc * len := by simp
  constructor
  · rw [expect_batch m hm hn hp hc syms inv hs buffer]
    have := Iid.mean_average (κ := Fin nc × Fin len) p hp1 f
    rw [hcard] at this
    show _ = ∑ x, (p x : ℂ) * f x
    rw [← this]
    refine Finset.sum_congr rfl fun ys _ => ?_
    rw [Complex.real_smul, Complex.ofReal_prod]
    unfold batchMean
    rw [Fintype.sum_prod_type]
  · rw [expect_batch m hm hn hp hc syms inv hs buffer]
    have := Iid.mse_average (κ := Fin nc × Fin len) p hp1 f mu rfl
    rw [hcard] at this
    rw [← this]
    refine Finset.sum_congr rfl fun ys _ => ?_
    rw [smul_eq_mul]
    unfold batchMean
    rw [Fintype.sum_prod_type]

theorem bornWeight_two (l : Option ℂ) : bornWeight 2 l = ‖amplitude l‖ ^ 2 := by
  cases l with
  | none => simp [bornWeight, amplitude]
  | some z => simp only [bornWeight, amplitude]; exact Real.rpow_two _

/-- The mean of the local energies over `|ψ|²` is the energy; the values where `ψ` vanishes do not matter. -/
theorem mean_localValue {C : Type} [Fintype C] (H : C → C → ℂ) (psi : C → ℂ) (hpsi : ∑ x, ‖psi x‖ ^ 2 = 1) (f : C → ℂ)
    (hf : ∀ x, psi x ≠ 0 → f x = localValue H psi x) : ∑ x, ((‖psi x‖ ^ 2 : ℝ) : ℂ) * f x = rayleigh H psi := by
  unfold rayleigh bornNorm
  rw [hpsi, Complex.ofReal_one, div_one]
  refine Finset.sum_congr rfl fun x _ => ?_
  by_cases h : psi x = 0
  · simp [h]
  · rw [hf x h, ← Complex.normSq_eq_norm_sq, ← Complex.mul_conj]
    unfold localValue
    simp only [mul_assoc]
    rw [← Finset.mul_sum]
    field_simp

/-- C148, energies.  With `machine_pow = 2`, the estimate of the energy of the autoregressive state from a batch of directly drawn samples is
unbiased, and its mean squared error is the variance of the local energies divided by the number of samples.  `f` are the local energies
`(Hψ)(x)/ψ(x)` where these exist; nothing is required of its values where `ψ` vanishes. -/
theorem C148_energy [NeZero L] [NeZero D] [Nonempty ι] (m : Machine L D M) (hm : ProvidedAR m)
    (hn : m.fields.normalize = true) (hp : m.fields.machine_pow = 2) (hc : Continuable m)
    (syms : ι → (Fin L → Fin D) → Fin L → Fin D) (inv : ι → ι) (hs : ClosedUnderInverse syms inv)
    (buffer : Fin L → Fin D) (hnc : 0 < nc) (hlen : 0 < len) (H : (Fin L → Fin D) → (Fin L → Fin D) → ℂ)
    (f : (Fin L → Fin D) → ℂ)
    (hf : ∀ x, amplitude (m.logPsi syms x) ≠ 0 → f x = localValue H (fun y => amplitude (m.logPsi syms y)) x) :
    let psi := fun x => amplitude (m.logPsi syms x)
    drawExpect (sampleBatch m syms buffer) (fun xs : Fin nc → Fin len → Fin L → Fin D => batchMean f xs) = rayleigh H psi ∧
    drawExpect (sampleBatch m syms buffer) (fun xs : Fin nc → Fin len → Fin L → Fin D => ‖batchMean f xs - rayleigh H psi‖ ^ 2) =
      (∑ x, ‖psi x‖ ^ 2 * ‖f x - rayleigh H psi‖ ^ 2) / (nc * len : ℕ) := by
  intro psi
  have hp0 : m.fields.machine_pow ≠ 0 := by rw [hp]; norm_num
  have hbij : ∀ t, Function.Bijective (syms t) := fun t => by
    have h2 : ∀ x, syms t (syms (inv t) x) = x := fun x => by
      have := hs.left (inv t) x
      rwa [hs.invol] at this
    exact ⟨Function.LeftInverse.injective (hs.left t), fun x => ⟨_, h2 x⟩⟩
  have hp1 := C28_normalised_of_continuable m hm hn hp0 hc syms hbij
  have h := C148_mean_and_error (nc := nc) (len := len) m hm hn hp0 hc syms inv hs buffer hnc hlen f
  simp only [hp, bornWeight_two] at h hp1
  have hmean := mean_localValue H psi hp1 f hf
  rw [hmean] at h
  exact h

/-- C148, no noise at an eigenstate: if `Hψ = Eψ`, every batch that can be drawn gives exactly `E`. -/
theorem C148_eigenstate [NeZero L] [NeZero D] (m : Machine L D M) (hm : ProvidedAR m)
    (hn : m.fields.normalize = true) (hp : m.fields.machine_pow = 2) (hc : Continuable m)
    (syms : ι → (Fin L → Fin D) → Fin L → Fin D) (inv : ι → ι) (hs : ClosedUnderInverse syms inv)
    (buffer : Fin L → Fin D) (hnc : 0 < nc) (hlen : 0 < len) (H : (Fin L → Fin D) → (Fin L → Fin D) → ℂ)
    (f : (Fin L → Fin D) → ℂ)
    (hf : ∀ x, amplitude (m.logPsi syms x) ≠ 0 → f x = localValue H (fun y => amplitude (m.logPsi syms y)) x) (E : ℂ)
    (hE : ∀ x, ∑ y, H x y * amplitude (m.logPsi syms y) = E * amplitude (m.logPsi syms x))
    (xs : Fin nc → Fin len → Fin L → Fin D) (hx : drawProb (sampleBatch m syms buffer) xs ≠ 0) : batchMean f xs = E := by
  have hp0 : m.fields.machine_pow ≠ 0 := by rw [hp]; norm_num
  rw [C148_batch_law m hm hn hp0 hc syms inv hs buffer, hp] at hx
  have hall : ∀ c t, f (xs c t) = E := by
    intro c t
    have h1 := Finset.prod_ne_zero_iff.mp (Finset.prod_ne_zero_iff.mp hx c (Finset.mem_univ _)) t (Finset.mem_univ _)
    have h2 : amplitude (m.logPsi syms (xs c t)) ≠ 0 := by
      intro h0
      apply h1
      rw [bornWeight_two, h0]
      simp
    rw [hf _ h2]
    unfold localValue
    rw [hE, mul_div_cancel_right₀ _ h2]
  unfold batchMean
  simp only [hall, Finset.sum_const, Finset.card_univ, Fintype.card_fin, nsmul_eq_mul]
  have hc0 : (nc : ℂ) ≠ 0 := by exact_mod_cast hnc.ne'
  have hl0 : (len : ℂ) ≠ 0 := by exact_mod_cast hlen.ne'
  push_cast
  field_simp

/-! ## The Hamiltonians of the package -/

/-- Local energies computed with the model's logarithms of amplitudes agree with `(Hψ)(x)/ψ(x)` if the matrix does not connect `x` with
configurations of zero amplitude. -/
theorem local_of_log {C : Type} [Fintype C] (l : C → Option ℂ) (row : C → ℂ) (x : C) (hx : amplitude (l x) ≠ 0)
    (hrow : ∀ y, amplitude (l y) = 0 → row y = 0) (H : C → C → ℂ) (hH : H x = row) :
    localEnergy row (fun y => (l y).getD 0) x = localValue H (fun y => amplitude (l y)) x := by
  unfold localEnergy localValue
  rw [Finset.sum_div, hH]
  refine Finset.sum_congr rfl fun y _ => ?_
  have key : ∀ z, amplitude (l z) ≠ 0 → Complex.exp ((l z).getD 0) = amplitude (l z) := by
    intro z hz
    cases h : l z with
    | none => rw [h] at hz; exact absurd rfl hz
    | some v => rfl
  by_cases h0 : amplitude (l y) = 0
  · simp [hrow y h0]
  · rw [key x hx, key y h0, mul_div_assoc]

theorem amplitude_ne (pow : ℝ) (l : Option ℂ) (hp : pow ≠ 0) : amplitude l ≠ 0 ↔ 0 < bornWeight pow l := by
  cases l with
  | none => simp [bornWeight, amplitude]
  | some z =>
    simp only [bornWeight, amplitude]
    exact ⟨fun _ => Real.rpow_pos_of_pos (norm_pos_iff.mpr (Complex.exp_ne_zero z)) _, fun _ => Complex.exp_ne_zero z⟩

/-- C148, Hubbard models: electrons on `L` sites with the autoregressive models' constraint on the electron numbers. -/
theorem C148_hubbard [NeZero L] [Nonempty ι] (n : ℕ × ℕ) (m : Machine L 4 M) (hm : ProvidedAR m)
    (hn : m.fields.normalize = true) (hp : m.fields.machine_pow = 2) (hf : Fermionic L n m.fields) (h1 : n.1 ≤ L) (h2 : n.2 ≤ L)
    (syms : ι → Cfg L → Cfg L) (inv : ι → ι) (hs : ClosedUnderInverse syms inv) (hsn : ∀ t x s, numElec s (syms t x) = numElec s x)
    (buffer : Cfg L) (hnc : 0 < nc) (hlen : 0 < len) (U : ℂ) (edges : List ((Fin L × Fin L) × ℂ)) (hne : ∀ e ∈ edges, e.1.1 ≠ e.1.2) :
    let psi : Cfg L → ℂ := fun x => amplitude (m.logPsi syms x)
    let src : AmpSource L (Fin 4) Unit := .full fun x => (m.logPsi syms x).getD 0
    let E := rayleigh (fun x y : Cfg L => hubbard U edges (occOf x) (occOf y)) psi
    drawExpect (sampleBatch m syms buffer) (fun xs : Fin nc → Fin len → Cfg L => batchMean (hubbardLocalEn src U edges) xs) = E ∧
    drawExpect (sampleBatch m syms buffer) (fun xs : Fin nc → Fin len → Cfg L => ‖batchMean (hubbardLocalEn src U edges) xs - E‖ ^ 2) =
      (∑ x, ‖psi x‖ ^ 2 * ‖hubbardLocalEn src U edges x - E‖ ^ 2) / (nc * len : ℕ) := by
  intro psi src E
  have hp0 : m.fields.machine_pow ≠ 0 := by rw [hp]; norm_num
  have hsec : ∀ x, amplitude (m.logPsi syms x) ≠ 0 ↔ numElec false x = n.1 ∧ numElec true x = n.2 := fun x => by
    rw [amplitude_ne _ _ hp0]; exact C33_fermionic_constraint n m hm hp0 hf h1 h2 syms hsn x
  refine C148_energy m hm hn hp (fermi_continuable hm hp0 hf h1 h2) syms inv hs buffer hnc hlen _ _ fun x hx => ?_
  rw [(C07_local_energy_partial src U edges hne x trivial).2]
  refine local_of_log (m.logPsi syms) _ x hx (fun y hy => ?_) _ rfl
  exact SampledEnergy.sector_conserves (H := fun x y => hubbard U edges (occOf x) (occOf y)) (SampledEnergy.hubbard_conserves U edges) x y
    ((hsec x).mp hx) (fun hh => (hsec y).mpr hh hy)

/-- C148, molecules. -/
theorem C148_ab_initio [NeZero L] [Nonempty ι] (n : ℕ × ℕ) (m : Machine L 4 M) (hm : ProvidedAR m)
    (hn : m.fields.normalize = true) (hp : m.fields.machine_pow = 2) (hf : Fermionic L n m.fields) (h1 : n.1 ≤ L) (h2 : n.2 ≤ L)
    (syms : ι → Cfg L → Cfg L) (inv : ι → ι) (hs : ClosedUnderInverse syms inv) (hsn : ∀ t x s, numElec s (syms t x) = numElec s x)
    (buffer : Cfg L) (hnc : 0 < nc) (hlen : 0 < len) (h : Fin L → Fin L → ℂ) (e : Fin L → Fin L → Fin L → Fin L → ℂ)
    (hsym : ∀ p q r s, e p q r s = e r s p q) :
    let psi : Cfg L → ℂ := fun x => amplitude (m.logPsi syms x)
    let src : AmpSource L (Fin 4) Unit := .full fun x => (m.logPsi syms x).getD 0
    let E := rayleigh (fun x y : Cfg L => (1 / 2) * abInitioTwice h e (occOf x) (occOf y)) psi
    let f : Cfg L → ℂ := abLocalEn src n (abT h e) e
    drawExpect (sampleBatch m syms buffer) (fun xs : Fin nc → Fin len → Cfg L => batchMean f xs) = E ∧
    drawExpect (sampleBatch m syms buffer) (fun xs : Fin nc → Fin len → Cfg L => ‖batchMean f xs - E‖ ^ 2) =
      (∑ x, ‖psi x‖ ^ 2 * ‖f x - E‖ ^ 2) / (nc * len : ℕ) := by
  intro psi src E f
  have hp0 : m.fields.machine_pow ≠ 0 := by rw [hp]; norm_num
  have hsec : ∀ x, amplitude (m.logPsi syms x) ≠ 0 ↔ numElec false x = n.1 ∧ numElec true x = n.2 := fun x => by
    rw [amplitude_ne _ _ hp0]; exact C33_fermionic_constraint n m hm hp0 hf h1 h2 syms hsn x
  refine C148_energy m hm hn hp (fermi_continuable hm hp0 hf h1 h2) syms inv hs buffer hnc hlen _ _ fun x hx => ?_
  have hx' := (hsec x).mp hx
  have hloc := C14_local_energy_operator src h e hsym x trivial
  rw [hx'.1, hx'.2] at hloc
  refine Eq.trans hloc ?_
  refine local_of_log (m.logPsi syms) _ x hx (fun y hy => ?_) _ rfl
  exact SampledEnergy.sector_conserves (H := fun x y => (1 / 2) * abInitioTwice h e (occOf x) (occOf y))
    (fun s x y hxy => by rw [SampledEnergy.abInitio_conserves h e s x y hxy, mul_zero]) x y hx' (fun hh => (hsec y).mpr hh hy)

/-- The spin configuration with local indices `x` (index 1 is the spin `+1`). -/
def spinsOf (x : Fin L → Fin 2) : Spins L := fun k => decide (x k = 1)

/-- The local indices of spins `±1`. -/
def indexOf (v : Fin L → ℤ) : Fin L → Fin 2 := fun k => if v k = 1 then 1 else 0

theorem indexOf_spins (b : Spins L) : spinsOf (indexOf fun k => spinVal (b k)) = b := by
  funext k
  have : ∀ v : Bool, decide ((if spinVal v = 1 then (1 : Fin 2) else 0) = 1) = v := by decide
  exact this (b k)

theorem indexOf_spinsOf (x : Fin L → Fin 2) : indexOf (fun k => spinVal (spinsOf x k)) = x := by
  funext k
  have : ∀ v : Fin 2, (if spinVal (decide (v = 1)) = 1 then (1 : Fin 2) else 0) = v := by decide
  exact this (x k)

/-- Local indices and spins are in bijection. -/
def spinsEquiv : (Fin L → Fin 2) ≃ Spins L := ⟨spinsOf, fun b => indexOf fun k => spinVal (b k), indexOf_spinsOf, indexOf_spins⟩

theorem balanced_iff (x y : Fin L → Fin 2)
    (h : ∀ v, (Finset.univ.filter fun j => spinsOf y j = v).card = (Finset.univ.filter fun j => spinsOf x j = v).card) :
    Balanced x → Balanced y := by
  have k : ∀ v : Fin 2, decide (v = 1) = true ↔ v = 1 := by decide
  have k0 : ∀ v : Fin 2, decide (v = 1) = false ↔ v = 0 := by decide
  have h1 := h true
  have h0 := h false
  simp only [spinsOf, k, k0] at h1 h0
  unfold Props.Balanced
  rw [h1, h0]
  exact id

/-- C148, Heisenberg models on spin-1/2 spaces with `total_sz = 0`. -/
theorem C148_heisenberg [NeZero L] [Nonempty ι] (m : Machine L 2 M) (hm : ProvidedAR m)
    (hn : m.fields.normalize = true) (hp : m.fields.machine_pow = 2) (hf : SpinHalf L true m.fields) (hL : Even L)
    (syms : ι → (Fin L → Fin 2) → Fin L → Fin 2) (inv : ι → ι) (hs : ClosedUnderInverse syms inv)
    (hsb : ∀ t x, Balanced (syms t x) ↔ Balanced x)
    (buffer : Fin L → Fin 2) (hnc : 0 < nc) (hlen : 0 < len) (bonds : List ((Fin L × Fin L) × (ℂ × Bool))) (hd : ∀ b ∈ bonds, b.1.1 ≠ b.1.2) :
    let psi : (Fin L → Fin 2) → ℂ := fun x => amplitude (m.logPsi syms x)
    let src : AmpSource L ℤ Unit := .full fun v => (m.logPsi syms (indexOf v)).getD 0
    let H := bonds.map fun b => (b.1, heisenbergBond b.2.1 b.2.2)
    let E := rayleigh (fun x y => bondOperator H (spinsOf x) (spinsOf y)) psi
    let f : (Fin L → Fin 2) → ℂ := fun x => J1J2.localEn src H fun k => spinVal (spinsOf x k)
    drawExpect (sampleBatch m syms buffer) (fun xs : Fin nc → Fin len → Fin L → Fin 2 => batchMean f xs) = E ∧
    drawExpect (sampleBatch m syms buffer) (fun xs : Fin nc → Fin len → Fin L → Fin 2 => ‖batchMean f xs - E‖ ^ 2) =
      (∑ x, ‖psi x‖ ^ 2 * ‖f x - E‖ ^ 2) / (nc * len : ℕ) := by
  intro psi src H E f
  have hp0 : m.fields.machine_pow ≠ 0 := by rw [hp]; norm_num
  have hC := C31_zero_magnetisation m hm hp0 hf hL syms hsb
  have hsec : ∀ x, amplitude (m.logPsi syms x) ≠ 0 ↔ Balanced x := fun x => by
    rw [amplitude_ne _ _ hp0]; exact hC.1 x
  refine C148_energy m hm hn hp hC.2 syms inv hs buffer hnc hlen _ _ fun x hx => ?_
  refine Eq.trans (C11_heisenberg src bonds hd (spinsOf x) trivial) ?_
  have hb : localEnergy (fun x' => bondOperator H (spinsOf x) x') (fun y => src.logAmp fun k => spinVal (y k)) (spinsOf x) =
      localEnergy (fun y => bondOperator H (spinsOf x) (spinsOf y)) (fun y => (m.logPsi syms y).getD 0) x := by
    unfold localEnergy
    refine (Fintype.sum_equiv spinsEquiv _ _ fun y => ?_).symm
    show _ = bondOperator H (spinsOf x) (spinsOf y) *
      (Complex.exp ((m.logPsi syms (indexOf fun k => spinVal (spinsOf y k))).getD 0) /
        Complex.exp ((m.logPsi syms (indexOf fun k => spinVal (spinsOf x k))).getD 0))
    rw [indexOf_spinsOf, indexOf_spinsOf]
  refine Eq.trans hb ?_
  refine local_of_log (m.logPsi syms) _ x hx (fun y hy => ?_) _ rfl
  apply SampledEnergy.bond_conserves H
  · intro b hb
    obtain ⟨c, -, rfl⟩ := List.mem_map.mp hb
    intro p q p' q' h1 h2
    revert h1 h2
    cases p <;> cases q <;> cases p' <;> cases q' <;> simp [pairIndex, heisenbergBond]
  · intro h
    exact (hsec y).mpr (balanced_iff x y h ((hsec x).mp hx)) hy

/-- An instance: three sites, two up electrons and one down electron, the plaquette model with arbitrary parameters; four chains of length 5. -/
example (epsilon : Fin 4 → Fin 2 → Fin 3 → ℂ) :
    let f : Fields 4 2 := ⟨2, true, true, countSpinsFermionic, renormalizeFermionic ((2 : ℕ), (1 : ℕ)) 3, sumOut⟩
    let m : Machine 3 4 2 := ARPlaquette.arPlaquette f epsilon (ARPlaquette.withMasks ARPlaquette.circulantPlaquettes)
    let src : AmpSource 3 (Fin 4) Unit := .full fun x => (m.logPsi (fun (_ : Unit) y => y) x).getD 0
    drawExpect (sampleBatch m (fun (_ : Unit) y => y) (fun _ => 0))
        (fun xs : Fin 4 → Fin 5 → Cfg 3 => batchMean (hubbardLocalEn src 8 [((0, 1), 1), ((1, 2), 1)]) xs) =
      rayleigh (fun x y : Cfg 3 => hubbard 8 [((0, 1), 1), ((1, 2), 1)] (occOf x) (occOf y))
        fun x => amplitude (m.logPsi (fun (_ : Unit) y => y) x) := by
  intro f m src
  exact (C148_hubbard (2, 1) m (.plaquette f epsilon _ (masks_hide _)) rfl rfl ⟨rfl, rfl, rfl⟩ (by norm_num) (by norm_num) _ id
    ⟨fun _ => rfl, fun _ _ => rfl⟩ (fun _ _ _ => rfl) (fun _ => 0) (by norm_num) (by norm_num) 8 _ (by simp)).1

/-! ## C149 -/

/-- The part of C149 that holds: with a single chain, `sample_next` returns one configuration, which is `x` with probability
`|ψ(x)|^machine_pow`.  Missing: several chains, see `C149_fails`. -/
theorem C149_single_chain_partial [NeZero L] [NeZero D] (m : Machine L D M) (hm : ProvidedAR m)
    (hn : m.fields.normalize = true) (hp : m.fields.machine_pow ≠ 0) (hc : Continuable m)
    (syms : ι → (Fin L → Fin D) → Fin L → Fin D) (inv : ι → ι) (hs : ClosedUnderInverse syms inv) (buffer : Fin L → Fin D) :
    (∀ u r, ∃ x, AR.sampleNext (n_chains := 1) m syms buffer u r = some [x]) ∧
    ∀ x, ((1 / Fintype.card ι : ENNReal) * ∑ r : Fin (1 * 1) → ι, volume {u : Fin (1 * 1) → Fin L → ℝ |
        (∀ b i, u b i ∈ Set.Ico (0 : ℝ) 1) ∧ AR.sampleNext (n_chains := 1) m syms buffer u r = some [x]}).toReal =
      bornWeight m.fields.machine_pow (m.logPsi syms x) := by
  have heq : ∀ (u : Fin (1 * 1) → Fin L → ℝ) (r : Fin (1 * 1) → ι),
      AR.sampleNext (n_chains := 1) m syms buffer u r = some [sampleBatch (n_chains := 1) (chain_length := 1) m syms buffer u r 0 0] := by
    intro u r
    unfold AR.sampleNext
    rw [List.ofFn_succ, List.ofFn_zero, List.ofFn_succ, List.ofFn_zero]
    rfl
  refine ⟨fun u r => ⟨_, heq u r⟩, fun x => ?_⟩
  have h := C148_batch_law (nc := 1) (len := 1) m hm hn hp hc syms inv hs buffer fun _ _ => x
  simp only [Finset.univ_unique, Finset.prod_singleton] at h
  rw [← h]
  unfold drawProb
  have hset : ∀ r : Fin (1 * 1) → ι, {u : Fin (1 * 1) → Fin L → ℝ | (∀ b i, u b i ∈ Set.Ico (0 : ℝ) 1) ∧
      AR.sampleNext (n_chains := 1) m syms buffer u r = some [x]} =
      {u : Fin (1 * 1) → Fin L → ℝ | (∀ b i, u b i ∈ Set.Ico (0 : ℝ) 1) ∧
        sampleBatch (n_chains := 1) (chain_length := 1) m syms buffer u r = fun _ _ => x} := by
    intro r
    ext u
    simp only [Set.mem_ofPred_eq, heq]
    refine and_congr_right fun _ => ⟨fun h => ?_, fun h => ?_⟩
    · funext c t
      have : sampleBatch (n_chains := 1) (chain_length := 1) m syms buffer u r 0 0 = x := by simpa using h
      rw [Subsingleton.elim c 0, Subsingleton.elim t 0, this]
    · rw [h]
  simp only [hset, Nat.mul_one, pow_one]

omit [Fintype ι] in
/-- C149 is false with several chains: the array that is squeezed has as many rows as there are chains, so `sample_next` raises for every model
and every draw. -/
theorem C149_fails [NeZero D] (m : Machine L D M) (syms : ι → (Fin L → Fin D) → Fin L → Fin D) (buffer : Fin L → Fin D)
    (hnc : 2 ≤ nc) (u : Fin (nc * 1) → Fin L → ℝ) (r : Fin (nc * 1) → ι) : AR.sampleNext (n_chains := nc) m syms buffer u r = none := by
  unfold AR.sampleNext
  obtain ⟨k, rfl⟩ : ∃ k, nc = k + 2 := ⟨nc - 2, by omega⟩
  rw [List.ofFn_succ (n := k + 1), List.ofFn_succ (n := k)]
  rfl

/-- The partial theorem applies to the instance above. -/
example (epsilon : Fin 4 → Fin 2 → Fin 3 → ℂ) :
    let f : Fields 4 2 := ⟨2, true, true, countSpinsFermionic, renormalizeFermionic ((2 : ℕ), (1 : ℕ)) 3, sumOut⟩
    let m : Machine 3 4 2 := ARPlaquette.arPlaquette f epsilon (ARPlaquette.withMasks ARPlaquette.circulantPlaquettes)
    ∀ u r, ∃ x, AR.sampleNext (n_chains := 1) m (fun (_ : Unit) y => y) (fun _ => 0) u r = some [x] := by
  intro f m
  have hp : m.fields.machine_pow ≠ 0 := by change (2 : ℝ) ≠ 0; norm_num
  have hm : ProvidedAR m := .plaquette f epsilon _ (masks_hide _)
  exact (C149_single_chain_partial m hm rfl hp (fermi_continuable hm hp (n := (2, 1)) ⟨rfl, rfl, rfl⟩ (by norm_num) (by norm_num)) _ id
    ⟨fun _ => rfl, fun _ _ => rfl⟩ (fun _ => 0)).1

end GPSKet.DirectEnergy
