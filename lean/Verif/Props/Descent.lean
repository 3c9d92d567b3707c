import Verif.Props.EnergyGradient
import Verif.Props.RMSProp
import Mathlib.Analysis.Calculus.Deriv.Slope
import Mathlib.Analysis.Calculus.FDeriv.Comp
import Mathlib.Analysis.Calculus.FDeriv.Prod
import Mathlib.Analysis.SpecialFunctions.ExpDeriv

/-!
# The updates of the drivers lower the energy (C146)

If the relative frequencies of the samples are the Born probabilities, then a small step against the update of `VMC_SRRMSProp` or
`minSRVMC` lowers the energy, unless the gradient of the energy vanishes, in which case the update vanishes.
-/

namespace GPSKet.Descent

open GPSKet.Spec GPSKet.Props GPSKet.RMSProp Filter Topology

variable {C S : Type} [Fintype C] [DecidableEq C] [Fintype S] {P : ℕ}

/-- The relative frequency of every configuration among the samples is its Born probability. -/
def Represents (x : S → C) (psi : C → ℂ) : Prop :=
  ∀ c, ((Finset.univ.filter fun s => x s = c).card : ℝ) / Fintype.card S = ‖psi c‖ ^ 2 / bornNorm psi

/-- The energy is lower after every sufficiently small step. -/
def Lowers (energy : ℝ → ℂ) : Prop := ∃ η₀ : ℝ, 0 < η₀ ∧ ∀ η, 0 < η → η < η₀ → (energy η).re < (energy 0).re

theorem lowers_of_deriv {f : ℝ → ℂ} {a : ℝ} (h : HasDerivAt f ((-a : ℝ) : ℂ) 0) (ha : 0 < a) : Lowers f := by
  have hr : HasDerivAt (fun t => (f t).re) (-a) 0 := by
    have := Complex.reCLM.hasFDerivAt.comp_hasDerivAt (0 : ℝ) h
    refine this.congr_deriv ?_
    simp
  have h1 := hr.tendsto_slope
  have h2 : ∀ᶠ t in 𝓝[≠] (0 : ℝ), slope (fun t => (f t).re) 0 t < 0 := h1.eventually_lt_const (by linarith)
  have h3 : ∀ᶠ t in 𝓝[>] (0 : ℝ), slope (fun t => (f t).re) 0 t < 0 :=
    h2.filter_mono (nhdsWithin_mono 0 fun t ht => ne_of_gt ht)
  obtain ⟨η₀, h0, hη⟩ := (mem_nhdsGT_iff_exists_Ioo_subset).mp h3
  refine ⟨η₀, h0, fun η h1 h2 => ?_⟩
  have h4 : slope (fun t => (f t).re) 0 η < 0 := hη ⟨h1, h2⟩
  rw [slope_def_field, sub_zero] at h4
  have := (div_neg_iff.mp h4)
  rcases this with h | h
  · linarith
  · linarith

theorem mean_by (x : S → C) (psi : C → ℂ) (hx : Represents x psi) (f : C → ℂ) :
    sampleMean (fun s => f (x s)) = ∑ c, ((‖psi c‖ ^ 2 / bornNorm psi : ℝ) : ℂ) * f c := by
  unfold sampleMean
  rw [Finset.sum_div, ← Finset.sum_fiberwise (s := Finset.univ) (g := x)]
  refine Finset.sum_congr rfl fun c _ => ?_
  rw [← hx c]
  rw [Finset.sum_congr rfl (g := fun _ => f c / (Fintype.card S : ℂ)) fun s hs => by rw [(Finset.mem_filter.mp hs).2]]
  rw [Finset.sum_const, nsmul_eq_mul]
  push_cast
  ring

theorem mean_energy (x : S → C) (H : C → C → ℂ) (psi : C → ℂ) (hx : Represents x psi) :
    sampleMean (fun s => localValue H psi (x s)) = rayleigh H psi := by
  rw [mean_by x psi hx (localValue H psi)]
  unfold rayleigh
  rw [Finset.sum_div]
  refine Finset.sum_congr rfl fun c _ => ?_
  by_cases h0 : psi c = 0
  · simp [h0]
  have hn : ((‖psi c‖ ^ 2 : ℝ) : ℂ) = psi c * (starRingEnd ℂ) (psi c) := by rw [Complex.mul_conj, Complex.normSq_eq_norm_sq]
  rw [Complex.ofReal_div, hn]
  unfold localValue
  have : ∑ y, (starRingEnd ℂ) (psi c) * H c y * psi y = (starRingEnd ℂ) (psi c) * ∑ y, H c y * psi y := by
    rw [Finset.mul_sum]; exact Finset.sum_congr rfl fun y _ => by ring
  rw [this]
  field_simp

theorem sampleMean_sub_const {f : S → ℂ} (hS : 0 < Fintype.card S) : sampleMean (fun s => f s - sampleMean f) = 0 := by
  have : (Fintype.card S : ℂ) ≠ 0 := by exact_mod_cast hS.ne'
  unfold sampleMean
  rw [Finset.sum_sub_distrib, Finset.sum_const, Finset.card_univ, nsmul_eq_mul]
  field_simp
  simp

/-- The force of SR in terms of the derivatives of the amplitudes. -/
theorem force_eq (hS : 0 < Fintype.card S) (x : S → C) (H : C → C → ℂ) (psi : C → ℂ) (D : Fin P → C → ℂ) (hx : Represents x psi)
    (h0 : ∀ k c, psi c = 0 → D k c = 0) (k : Fin P) :
    srForce (fun s k => D k (x s) / psi (x s)) (fun s => localValue H psi (x s)) k =
      (∑ c, (starRingEnd ℂ) (D k c) * ((∑ y, H c y * psi y) - rayleigh H psi * psi c)) / (bornNorm psi : ℂ) := by
  unfold srForce
  rw [mean_energy x H psi hx]
  set m := sampleMean fun s => D k (x s) / psi (x s)
  have hz := sampleMean_sub_const (f := fun s => localValue H psi (x s)) hS
  rw [mean_energy x H psi hx] at hz
  have hsplit : (sampleMean fun s => (starRingEnd ℂ) (D k (x s) / psi (x s) - m) * (localValue H psi (x s) - rayleigh H psi)) =
      (sampleMean fun s => (starRingEnd ℂ) (D k (x s) / psi (x s)) * (localValue H psi (x s) - rayleigh H psi)) -
        (starRingEnd ℂ) m * sampleMean fun s => localValue H psi (x s) - rayleigh H psi := by
    unfold sampleMean
    rw [← mul_div_assoc, ← sub_div, Finset.mul_sum, ← Finset.sum_sub_distrib]
    congr 1
    refine Finset.sum_congr rfl fun s _ => ?_
    dsimp only
    rw [map_sub]; ring
  rw [hsplit, hz, mul_zero, sub_zero,
    mean_by x psi hx fun c => (starRingEnd ℂ) (D k c / psi c) * (localValue H psi c - rayleigh H psi), Finset.sum_div]
  refine Finset.sum_congr rfl fun c _ => ?_
  by_cases hc : psi c = 0
  · simp [hc, h0 k c hc]
  have hn : ((‖psi c‖ ^ 2 : ℝ) : ℂ) = psi c * (starRingEnd ℂ) (psi c) := by rw [Complex.mul_conj, Complex.normSq_eq_norm_sq]
  have hc' : (starRingEnd ℂ) (psi c) ≠ 0 := by simpa using hc
  rw [Complex.ofReal_div, hn, map_div₀]
  unfold localValue
  field_simp

/-- The derivative of the energy along a path with velocity `∑ k, d k * D k`. -/
theorem deriv_along (hS : 0 < Fintype.card S) (x : S → C) (H : C → C → ℂ) (hH : Hermitian H) (psi : ℝ → C → ℂ) (D : Fin P → C → ℂ)
    (d : Fin P → ℂ) (hd : ∀ c, HasDerivAt (fun s => psi s c) (∑ k, d k * D k c) 0) (hn : bornNorm (psi 0) ≠ 0)
    (hx : Represents x (psi 0)) (h0 : ∀ k c, psi 0 c = 0 → D k c = 0) :
    HasDerivAt (fun s => rayleigh H (psi s))
      ((2 * (∑ k, (starRingEnd ℂ) (d k) *
        srForce (fun s k => D k (x s) / psi 0 (x s)) (fun s => localValue H (psi 0) (x s)) k).re : ℝ) : ℂ) 0 := by
  refine (EnergyGradient.energy_deriv H hH psi _ 0 hd hn).congr_deriv ?_
  congr 3
  simp only [force_eq hS x H (psi 0) D hx h0]
  rw [Finset.sum_div]
  simp only [← mul_div_assoc, Finset.mul_sum, ← Finset.sum_div]
  congr 1
  rw [Finset.sum_comm]
  refine Finset.sum_congr rfl fun c _ => ?_
  rw [map_sum, Finset.sum_mul]
  refine Finset.sum_congr rfl fun k _ => ?_
  rw [map_mul, mul_assoc]

/-- The quadratic form of the geometric tensor. -/
theorem tensor_form (O : S → Fin P → ℂ) (u : Fin P → ℂ) :
    ∑ k, (starRingEnd ℂ) (u k) * ∑ l, srMatrix O k l * u l =
      (((∑ s, ‖∑ l, (O s l - sampleMean fun s => O s l) * u l‖ ^ 2) / Fintype.card S : ℝ) : ℂ) := by
  unfold srMatrix
  set Δ : S → Fin P → ℂ := fun s l => O s l - sampleMean fun s => O s l with hΔ
  have h1 : ∀ s, ((‖∑ l, Δ s l * u l‖ ^ 2 : ℝ) : ℂ) = ∑ k, ∑ l, (starRingEnd ℂ) (u k) * ((starRingEnd ℂ) (Δ s k) * Δ s l * u l) := by
    intro s
    rw [← Complex.normSq_eq_norm_sq, ← Complex.mul_conj, mul_comm, map_sum, Finset.sum_mul]
    refine Finset.sum_congr rfl fun k _ => ?_
    rw [Finset.mul_sum]
    refine Finset.sum_congr rfl fun l _ => ?_
    rw [map_mul]; ring
  push_cast
  have h2 : ∑ s, ((‖∑ l, Δ s l * u l‖ : ℂ)) ^ 2 = ∑ s, ∑ k, ∑ l, (starRingEnd ℂ) (u k) * ((starRingEnd ℂ) (Δ s k) * Δ s l * u l) :=
    Finset.sum_congr rfl fun s _ => by rw [← h1 s]; push_cast; rfl
  rw [h2, Finset.sum_comm, Finset.sum_div]
  refine Finset.sum_congr rfl fun k _ => ?_
  rw [Finset.mul_sum, Finset.sum_comm, Finset.sum_div]
  refine Finset.sum_congr rfl fun l _ => ?_
  show (starRingEnd ℂ) (u k) * ((sampleMean fun s => (starRingEnd ℂ) (Δ s k) * Δ s l) * u l) = _
  unfold sampleMean
  rw [div_mul_eq_mul_div, ← mul_div_assoc, Finset.sum_mul, Finset.mul_sum]

/-- The real quadratic form. -/
theorem tensor_form_real (O : S → Fin P → ℂ) (u : Fin P → ℝ) :
    ∑ k, u k * ∑ l, (srMatrix O k l).re * u l =
      (∑ s, ‖∑ l, (O s l - sampleMean fun s => O s l) * (u l : ℂ)‖ ^ 2) / Fintype.card S := by
  have h := congrArg Complex.re (tensor_form O fun k => (u k : ℂ))
  rw [Complex.ofReal_re] at h
  rw [← h, Complex.re_sum]
  refine Finset.sum_congr rfl fun k _ => ?_
  rw [Complex.conj_ofReal, Complex.re_ofReal_mul, Complex.re_sum]
  congr 1
  exact Finset.sum_congr rfl fun l _ => by rw [Complex.re_mul_ofReal]

omit [Fintype C] [DecidableEq C] in
/-- The path of states along a straight line of real parameters. -/
theorem line_real (psi : (Fin P → ℝ) → C → ℂ) (θ : Fin P → ℝ) (D : C → (Fin P → ℝ) →L[ℝ] ℂ)
    (hd : ∀ c, HasFDerivAt (fun θ => psi θ c) (D c) θ) (v : Fin P → ℝ) (c : C) :
    HasDerivAt (fun t : ℝ => psi (θ + t • v) c) (∑ k, (v k : ℂ) * D c (Pi.single k 1)) 0 := by
  have hline : HasDerivAt (fun t : ℝ => θ + t • v) v 0 := by
    simpa using ((hasDerivAt_id (0 : ℝ)).smul_const v).const_add θ
  have h1 : HasFDerivAt (fun θ => psi θ c) (D c) (θ + (0 : ℝ) • v) := by rw [zero_smul, add_zero]; exact hd c
  have h2 := h1.comp_hasDerivAt (0 : ℝ) hline
  refine h2.congr_deriv ?_
  conv_lhs => rw [← Finset.univ_sum_single v]
  rw [map_sum]
  refine Finset.sum_congr rfl fun k _ => ?_
  rw [show (Pi.single k (v k) : Fin P → ℝ) = v k • Pi.single k 1 by rw [← Pi.single_smul]; simp, map_smul, Complex.real_smul]

/-- C146, `VMC_SRRMSProp` with real coordinates (a complex parameter counts as two): the update vanishes where the gradient of the energy
vanishes; otherwise every sufficiently small step against it lowers the energy.  This holds in every step of every training run (any moving
average and step number). -/
theorem C146_sr_rmsprop {N : ℕ} (hN : 0 < N) (H : C → C → ℂ) (hH : Hermitian H) (psi : (Fin P → ℝ) → C → ℂ) (θ : Fin P → ℝ)
    (D : C → (Fin P → ℝ) →L[ℝ] ℂ) (hd : ∀ c, HasFDerivAt (fun θ => psi θ c) (D c) θ) (hn : bornNorm (psi θ) ≠ 0)
    (h0 : ∀ c, psi θ c = 0 → D c = 0) (x : Fin N → C) (hx : Represents x (psi θ)) (ema : Fin P → ℝ) (step : ℕ)
    (shift decay eps : ℝ) (hs : 0 < shift) (he : 0 < eps)
    (solver : Matrix (Fin P) (Fin P) ℝ → (Fin P → ℝ) → (Fin P → ℝ)) (hsolver : SolvesPosDef solver) :
    let E : Fin N → ℂ := fun s => localValue H (psi θ) (x s)
    let dlog : Fin N → Fin P → ℂ := fun s k => D (x s) (Pi.single k 1) / psi θ (x s)
    let u := (srComplex (fun s => ![fun k => (dlog s k).re, fun k => (dlog s k).im]) E (sampleMean E) ema step shift decay eps solver).1
    (u = 0 ↔ ∀ k, HasDerivAt (fun t : ℝ => rayleigh H (psi (θ + t • Pi.single k 1))) 0 0) ∧
    (u ≠ 0 → Lowers fun η => rayleigh H (psi (θ - η • u))) := by
  intro E dlog u
  have hO : complexRows (fun s => ![fun k => (dlog s k).re, fun k => (dlog s k).im]) = dlog := by
    funext s k
    unfold complexRows
    simp only [Matrix.cons_val_zero, Matrix.cons_val_one]
    rw [mul_comm Complex.I]; exact Complex.re_add_im _
  have heq := (C49_sr_equation (fun s => ![fun k => (dlog s k).re, fun k => (dlog s k).im]) E ema step shift decay eps hs he
    solver hsolver).2
  rw [hO] at heq
  have hNr : (0 : ℝ) < N := by exact_mod_cast hN
  have hcard : 0 < Fintype.card (Fin N) := by simpa using hN
  set F : Fin P → ℝ := fun k => (srForce dlog E k).re with hF
  have hline : ∀ v : Fin P → ℝ, HasDerivAt (fun t : ℝ => rayleigh H (psi (θ + t • v))) ((2 * ∑ k, v k * F k : ℝ) : ℂ) 0 := by
    intro v
    have h := deriv_along hcard x H hH (fun t => psi (θ + t • v)) (fun k c => D c (Pi.single k 1)) (fun k => (v k : ℂ))
      (fun c => line_real psi θ D hd v c) (by simpa using hn) (by simpa using hx)
      (fun k c hc => by rw [h0 c (by simpa using hc)]; simp)
    refine h.congr_deriv ?_
    congr 2
    rw [Complex.re_sum]
    refine Finset.sum_congr rfl fun k _ => ?_
    rw [Complex.conj_ofReal, Complex.re_ofReal_mul]
    simp only [zero_smul, add_zero]
    rfl
  have hpart : (∀ k, HasDerivAt (fun t : ℝ => rayleigh H (psi (θ + t • Pi.single k 1))) 0 0) ↔ F = 0 := by
    constructor
    · intro h
      funext k
      have h1 := (hline (Pi.single k 1)).unique (h k)
      have h2 : 2 * ∑ l, (Pi.single k 1 : Fin P → ℝ) l * F l = 0 := by exact_mod_cast h1
      rw [Finset.sum_eq_single k (fun l _ hl => by rw [Pi.single_eq_of_ne hl, zero_mul]) (by simp), Pi.single_eq_same, one_mul] at h2
      simpa using h2
    · intro h k
      have := hline (Pi.single k 1)
      rw [h] at this
      simpa using this
  -- the quadratic form of the regularised tensor
  set reg : Fin P → ℝ := fun k => shift * (Real.sqrt ((srComplex (fun s => ![fun k => (dlog s k).re, fun k => (dlog s k).im]) E (sampleMean E)
    ema step shift decay eps solver).2 k / (1 - decay ^ (step + 1))) + eps) with hreg
  have hregpos : ∀ k, 0 < reg k := fun k => mul_pos hs (add_pos_of_nonneg_of_pos (Real.sqrt_nonneg _) he)
  have hq : 2 * (N : ℝ) ^ 2 * ∑ k, u k * F k =
      (N : ℝ) ^ 2 * ((∑ s, ‖∑ l, (dlog s l - sampleMean fun s => dlog s l) * (u l : ℂ)‖ ^ 2) / Fintype.card (Fin N)) +
        ∑ k, reg k * u k ^ 2 := by
    rw [← tensor_form_real, Finset.mul_sum, Finset.mul_sum, ← Finset.sum_add_distrib]
    refine Finset.sum_congr rfl fun k _ => ?_
    have h := heq k
    have h1 : ∑ l, (N : ℝ) ^ 2 * (srMatrix dlog k l).re * u l = (N : ℝ) ^ 2 * ∑ l, (srMatrix dlog k l).re * u l := by
      rw [Finset.mul_sum]; exact Finset.sum_congr rfl fun l _ => by ring
    change ∑ l, (N : ℝ) ^ 2 * (srMatrix dlog k l).re * u l + reg k * u k = 2 * (N : ℝ) ^ 2 * F k at h
    rw [h1] at h
    linear_combination (-u k) * h
  have hpos : u ≠ 0 → 0 < ∑ k, u k * F k := by
    intro hu
    obtain ⟨k, hk⟩ : ∃ k, u k ≠ 0 := by
      by_contra hc; push Not at hc; exact hu (funext hc)
    have h1 : 0 < ∑ k, reg k * u k ^ 2 :=
      Finset.sum_pos' (fun l _ => mul_nonneg (hregpos l).le (sq_nonneg _)) ⟨k, Finset.mem_univ _, mul_pos (hregpos k) (by positivity)⟩
    have h2 : 0 ≤ (N : ℝ) ^ 2 * ((∑ s, ‖∑ l, (dlog s l - sampleMean fun s => dlog s l) * (u l : ℂ)‖ ^ 2) / Fintype.card (Fin N)) := by
      positivity
    have h3 : 0 < 2 * (N : ℝ) ^ 2 * ∑ k, u k * F k := by rw [hq]; linarith
    exact (mul_pos_iff_of_pos_left (by positivity)).mp h3
  refine ⟨?_, fun hu => ?_⟩
  · rw [hpart]
    constructor
    · intro hu
      funext k
      have h := heq k
      change ∑ l, (N : ℝ) ^ 2 * (srMatrix dlog k l).re * u l + reg k * u k = 2 * (N : ℝ) ^ 2 * F k at h
      rw [hu] at h
      simp only [Pi.zero_apply, mul_zero, Finset.sum_const_zero, add_zero] at h
      have h2 : (2 * (N : ℝ) ^ 2) * F k = 0 := h.symm
      rcases mul_eq_zero.mp h2 with h3 | h3
      · exact absurd h3 (by positivity)
      · exact h3
    · intro hF0
      by_contra hu
      have := hpos hu
      rw [hF0] at this
      simp at this
  · have h := hline (-u)
    have hsum : (2 * ∑ k, (-u) k * F k : ℝ) = -(2 * ∑ k, u k * F k) := by
      simp [Finset.sum_neg_distrib]
    rw [hsum] at h
    have := lowers_of_deriv h (mul_pos two_pos (hpos hu))
    simpa [sub_eq_add_neg] using this

omit [Fintype C] [DecidableEq C] in
/-- The path of states along a straight line of complex parameters, for states that depend holomorphically on them. -/
theorem line_complex (psi : (Fin P → ℂ) → C → ℂ) (θ : Fin P → ℂ) (D : C → (Fin P → ℂ) →L[ℂ] ℂ)
    (hd : ∀ c, HasFDerivAt (fun θ => psi θ c) (D c) θ) (v : Fin P → ℂ) (c : C) :
    HasDerivAt (fun t : ℝ => psi (θ + (t : ℂ) • v) c) (∑ k, v k * D c (Pi.single k 1)) 0 := by
  have hline : HasDerivAt (fun t : ℂ => θ + t • v) v ((0 : ℝ) : ℂ) := by
    simpa using ((hasDerivAt_id ((0 : ℝ) : ℂ)).smul_const v).const_add θ
  have h1 : HasFDerivAt (fun θ => psi θ c) (D c) (θ + ((0 : ℝ) : ℂ) • v) := by simpa using hd c
  have h2 := (h1.comp_hasDerivAt ((0 : ℝ) : ℂ) hline).comp_ofReal
  refine h2.congr_deriv ?_
  conv_lhs => rw [← Finset.univ_sum_single v]
  rw [map_sum]
  refine Finset.sum_congr rfl fun k _ => ?_
  rw [show (Pi.single k (v k) : Fin P → ℂ) = v k • Pi.single k 1 by rw [← Pi.single_smul]; simp, map_smul, smul_eq_mul]

theorem tensor_zero (O : S → Fin P → ℂ) (u : Fin P → ℂ)
    (h : (∑ s, ‖∑ l, (O s l - sampleMean fun s => O s l) * u l‖ ^ 2) / (Fintype.card S : ℝ) = 0) (hS : 0 < Fintype.card S) (k : Fin P) :
    ∑ l, srMatrix O k l * u l = 0 := by
  have hS' : (Fintype.card S : ℝ) ≠ 0 := by exact_mod_cast hS.ne'
  have h1 : ∑ s, ‖∑ l, (O s l - sampleMean fun s => O s l) * u l‖ ^ 2 = 0 := by
    rcases div_eq_zero_iff.mp h with h | h
    · exact h
    · exact absurd h hS'
  rw [Finset.sum_eq_zero_iff_of_nonneg fun s _ => sq_nonneg _] at h1
  have h2 : ∀ s, ∑ l, (O s l - sampleMean fun s => O s l) * u l = 0 := fun s => by simpa using h1 s (Finset.mem_univ _)
  unfold srMatrix
  have h3 : ∀ l, (sampleMean fun s => (starRingEnd ℂ) (O s k - sampleMean fun s => O s k) * (O s l - sampleMean fun s => O s l)) * u l =
      (∑ s, (starRingEnd ℂ) (O s k - sampleMean fun s => O s k) * ((O s l - sampleMean fun s => O s l) * u l)) / (Fintype.card S : ℂ) := by
    intro l
    conv_lhs => unfold sampleMean
    rw [div_mul_eq_mul_div, Finset.sum_mul]
    congr 1
    exact Finset.sum_congr rfl fun s _ => by unfold sampleMean; ring
  simp only [h3]
  rw [← Finset.sum_div, Finset.sum_comm]
  simp only [← Finset.mul_sum, h2, mul_zero, Finset.sum_const_zero, zero_div]

/-- C146, `minSRVMC` with complex parameters on which the amplitudes depend holomorphically (mode `holomorphic`): the same for every least-squares
solver, number of ranks, chunks and samples.  Here the direction is a complex vector and all directions are tested. -/
theorem C146_minSR_holomorphic {R K B : ℕ} (hS : 0 < Fintype.card (MinSR.Sample R K B)) (H : C → C → ℂ) (hH : Hermitian H)
    (psi : (Fin P → ℂ) → C → ℂ) (θ : Fin P → ℂ) (D : C → (Fin P → ℂ) →L[ℂ] ℂ) (hd : ∀ c, HasFDerivAt (fun θ => psi θ c) (D c) θ)
    (hn : bornNorm (psi θ) ≠ 0) (h0 : ∀ c, psi θ c = 0 → D c = 0) (x : MinSR.Sample R K B → C) (hx : Represents x (psi θ))
    (solver) (hs : ∀ A b, LeastSquares A b (solver A b)) :
    let E : MinSR.Sample R K B → ℂ := fun s => localValue H (psi θ) (x s)
    let u := MinSR.update true solver (fun s k => D (x s) (Pi.single k 1) / psi θ (x s)) E MinSR.uniformCounts
    (u = 0 ↔ ∀ v : Fin P → ℂ, HasDerivAt (fun t : ℝ => rayleigh H (psi (θ + (t : ℂ) • v))) 0 0) ∧
    (u ≠ 0 → Lowers fun η => rayleigh H (psi (θ - (η : ℂ) • u))) := by
  intro E u
  set dlog : MinSR.Sample R K B → Fin P → ℂ := fun s k => D (x s) (Pi.single k 1) / psi θ (x s) with hdlog
  obtain ⟨heq, hmin⟩ := C47_minSR_is_SR solver dlog E hs
  have hline : ∀ v : Fin P → ℂ, HasDerivAt (fun t : ℝ => rayleigh H (psi (θ + (t : ℂ) • v)))
      ((2 * (∑ k, (starRingEnd ℂ) (v k) * srForce dlog E k).re : ℝ) : ℂ) 0 := by
    intro v
    have h := deriv_along hS x H hH (fun t => psi (θ + (t : ℂ) • v)) (fun k c => D c (Pi.single k 1)) v
      (fun c => line_complex psi θ D hd v c) (by simpa using hn) (by simpa using hx)
      (fun k c hc => by rw [h0 c (by simpa using hc)]; simp)
    refine h.congr_deriv ?_
    simp only [Complex.ofReal_zero, zero_smul, add_zero]
    rfl
  have hform : (∑ k, (starRingEnd ℂ) (u k) * srForce dlog E k) =
      (((∑ s, ‖∑ l, (dlog s l - sampleMean fun s => dlog s l) * u l‖ ^ 2) / Fintype.card (MinSR.Sample R K B) : ℝ) : ℂ) := by
    rw [← tensor_form]
    exact Finset.sum_congr rfl fun k _ => by rw [← heq k]
  have hFzero : (∀ k, srForce dlog E k = 0) → u = 0 := by
    intro h
    have h1 := hmin 0 (fun k => by simp [h k])
    have h2 : ∑ k, ‖u k‖ ^ 2 ≤ 0 := by simpa using h1
    have h3 := le_antisymm h2 (Finset.sum_nonneg fun k _ => sq_nonneg _)
    rw [Finset.sum_eq_zero_iff_of_nonneg fun k _ => sq_nonneg _] at h3
    funext k
    simpa using h3 k (Finset.mem_univ _)
  have hpos : u ≠ 0 → 0 < (∑ s, ‖∑ l, (dlog s l - sampleMean fun s => dlog s l) * u l‖ ^ 2) / (Fintype.card (MinSR.Sample R K B) : ℝ) := by
    intro hu
    refine lt_of_le_of_ne (by positivity) fun h => hu (hFzero fun k => ?_)
    rw [← heq k]
    exact tensor_zero dlog u h.symm hS k
  refine ⟨⟨fun hu v => ?_, fun h => hFzero fun k => ?_⟩, fun hu => ?_⟩
  · have hF : ∀ k, srForce dlog E k = 0 := by
      intro k
      rw [← heq k]
      change ∑ l, srMatrix dlog k l * u l = 0
      simp [hu]
    have := hline v
    simpa [hF] using this
  · -- test the derivative in the direction of the force
    have h1 := (hline (Pi.single k (srForce dlog E k))).unique (h _)
    have h2 : 2 * (∑ l, (starRingEnd ℂ) ((Pi.single k (srForce dlog E k) : Fin P → ℂ) l) * srForce dlog E l).re = 0 := by exact_mod_cast h1
    rw [Finset.sum_eq_single k (fun l _ hl => by rw [Pi.single_eq_of_ne hl, map_zero, zero_mul]) (by simp), Pi.single_eq_same,
      mul_comm ((starRingEnd ℂ) _), Complex.mul_conj, Complex.ofReal_re] at h2
    exact Complex.normSq_eq_zero.mp (by linarith)
  · have h := hline (-u)
    have hsum : (2 * (∑ k, (starRingEnd ℂ) ((-u) k) * srForce dlog E k).re : ℝ) =
        -(2 * ((∑ s, ‖∑ l, (dlog s l - sampleMean fun s => dlog s l) * u l‖ ^ 2) / Fintype.card (MinSR.Sample R K B))) := by
      have : ∑ k, (starRingEnd ℂ) ((-u) k) * srForce dlog E k = -∑ k, (starRingEnd ℂ) (u k) * srForce dlog E k := by
        rw [← Finset.sum_neg_distrib]
        exact Finset.sum_congr rfl fun k _ => by rw [Pi.neg_apply, map_neg, neg_mul]
      rw [this, hform, Complex.neg_re, Complex.ofReal_re]
      ring
    rw [hsum] at h
    have := lowers_of_deriv h (mul_pos two_pos (hpos hu))
    simpa [sub_eq_add_neg] using this

/-- C146, `minSRVMC` with real parameters and real logarithmic derivatives (mode `real`): the same for the real part that is applied. -/
theorem C146_minSR_real {R K B : ℕ} (hS : 0 < Fintype.card (MinSR.Sample R K B)) (H : C → C → ℂ) (hH : Hermitian H)
    (psi : (Fin P → ℝ) → C → ℂ) (θ : Fin P → ℝ) (D : C → (Fin P → ℝ) →L[ℝ] ℂ) (hd : ∀ c, HasFDerivAt (fun θ => psi θ c) (D c) θ)
    (hn : bornNorm (psi θ) ≠ 0) (h0 : ∀ c, psi θ c = 0 → D c = 0) (x : MinSR.Sample R K B → C) (hx : Represents x (psi θ))
    (O : MinSR.Sample R K B → Fin P → ℝ) (hO : ∀ s k, D (x s) (Pi.single k 1) / psi θ (x s) = (O s k : ℂ))
    (solver) (hs : ∀ A b, LeastSquares A b (solver A b)) :
    let E : MinSR.Sample R K B → ℂ := fun s => localValue H (psi θ) (x s)
    let u := MinSR.castReal (MinSR.update true solver (fun s k => (O s k : ℂ)) E MinSR.uniformCounts)
    (u = 0 ↔ ∀ k, HasDerivAt (fun t : ℝ => rayleigh H (psi (θ + t • Pi.single k 1))) 0 0) ∧
    (u ≠ 0 → Lowers fun η => rayleigh H (psi (θ - η • u))) := by
  intro E u
  set dlog : MinSR.Sample R K B → Fin P → ℂ := fun s k => (O s k : ℂ) with hdlog
  have hdl : dlog = fun s k => D (x s) (Pi.single k 1) / psi θ (x s) := by funext s k; rw [hO]
  have heq := C47_real_mode solver O E hs
  obtain ⟨heqc, hmin⟩ := C47_minSR_is_SR solver dlog E hs
  set w := MinSR.update true solver dlog E MinSR.uniformCounts with hw
  set F : Fin P → ℝ := fun k => (srForce dlog E k).re with hF
  have hline : ∀ v : Fin P → ℝ, HasDerivAt (fun t : ℝ => rayleigh H (psi (θ + t • v))) ((2 * ∑ k, v k * F k : ℝ) : ℂ) 0 := by
    intro v
    have h := deriv_along hS x H hH (fun t => psi (θ + t • v)) (fun k c => D c (Pi.single k 1)) (fun k => (v k : ℂ))
      (fun c => line_real psi θ D hd v c) (by simpa using hn) (by simpa using hx)
      (fun k c hc => by rw [h0 c (by simpa using hc)]; simp)
    refine h.congr_deriv ?_
    congr 2
    rw [Complex.re_sum]
    refine Finset.sum_congr rfl fun k _ => ?_
    rw [Complex.conj_ofReal, Complex.re_ofReal_mul, hF, hdl]
    simp only [zero_smul, add_zero]
    rfl
  have hpart : (∀ k, HasDerivAt (fun t : ℝ => rayleigh H (psi (θ + t • Pi.single k 1))) 0 0) ↔ F = 0 := by
    constructor
    · intro h
      funext k
      have h1 := (hline (Pi.single k 1)).unique (h k)
      have h2 : 2 * ∑ l, (Pi.single k 1 : Fin P → ℝ) l * F l = 0 := by exact_mod_cast h1
      rw [Finset.sum_eq_single k (fun l _ hl => by rw [Pi.single_eq_of_ne hl, zero_mul]) (by simp), Pi.single_eq_same, one_mul] at h2
      simpa using h2
    · intro h k
      have := hline (Pi.single k 1)
      rw [h] at this
      simpa using this
  have hreal : ∀ k l, (srMatrix dlog k l).im = 0 := by
    intro k l
    have : (starRingEnd ℂ) (srMatrix dlog k l) = srMatrix dlog k l := by
      unfold srMatrix sampleMean
      simp only [hdlog, map_div₀, map_sum, map_mul, map_sub, map_natCast, Complex.conj_ofReal]
    exact Complex.conj_eq_iff_im.mp this
  -- if the force has no real part, the part of smallest norm is imaginary
  have hFzero : F = 0 → u = 0 := by
    intro h
    have h1 := hmin (fun k => Complex.I * ((w k).im : ℂ)) (fun k => by
      have hk := heqc k
      apply Complex.ext
      · have h2 : (srForce dlog E k).re = 0 := congrFun h k
        rw [h2, Complex.re_sum]
        refine Finset.sum_eq_zero fun l _ => ?_
        simp [Complex.mul_re, hreal]
      · rw [← hk, Complex.im_sum, Complex.im_sum]
        refine Finset.sum_congr rfl fun l _ => ?_
        simp [Complex.mul_im, hreal])
    have h2 : ∑ k, (w k).re ^ 2 ≤ 0 := by
      have h3 : ∀ k, ‖w k‖ ^ 2 = (w k).re ^ 2 + ‖Complex.I * ((w k).im : ℂ)‖ ^ 2 := by
        intro k
        rw [norm_mul, Complex.norm_I, one_mul, Complex.norm_real, Real.norm_eq_abs, sq_abs, ← Complex.normSq_eq_norm_sq,
          Complex.normSq_apply]
        ring
      simp only [h3, Finset.sum_add_distrib] at h1
      linarith
    have h3 := le_antisymm h2 (Finset.sum_nonneg fun k _ => sq_nonneg _)
    rw [Finset.sum_eq_zero_iff_of_nonneg fun k _ => sq_nonneg _] at h3
    funext k
    show (w k).re = 0
    simpa using h3 k (Finset.mem_univ _)
  have hform : ∑ k, u k * F k =
      (∑ s, ‖∑ l, (dlog s l - sampleMean fun s => dlog s l) * (u l : ℂ)‖ ^ 2) / Fintype.card (MinSR.Sample R K B) := by
    rw [← tensor_form_real]
    exact Finset.sum_congr rfl fun k _ => by rw [hF]; dsimp only; rw [← heq k]
  have hpos : u ≠ 0 → 0 < ∑ k, u k * F k := by
    intro hu
    rw [hform]
    refine lt_of_le_of_ne (by positivity) fun h => hu (hFzero ?_)
    funext k
    have hz := congrArg Complex.re (tensor_zero dlog (fun l => (u l : ℂ)) h.symm hS k)
    rw [Complex.re_sum] at hz
    simp only [Complex.re_mul_ofReal, Complex.zero_re] at hz
    exact (heq k).symm.trans hz
  refine ⟨?_, fun hu => ?_⟩
  · rw [hpart]
    refine ⟨fun hu => ?_, hFzero⟩
    funext k
    have h := heq k
    change ∑ l, (srMatrix dlog k l).re * u l = F k at h
    rw [← h, hu]
    simp
  · have h := hline (-u)
    have hsum : (2 * ∑ k, (-u) k * F k : ℝ) = -(2 * ∑ k, u k * F k) := by
      simp [Finset.sum_neg_distrib]
    rw [hsum] at h
    have := lowers_of_deriv h (mul_pos two_pos (hpos hu))
    simpa [sub_eq_add_neg] using this

/-! ## Complex amplitudes with real parameters -/

/-- The logarithmic derivatives of the counterexample. -/
noncomputable def exA : Fin 3 → ℂ := ![1, -1, 0]
noncomputable def exB : Fin 3 → ℂ := ![1 + Complex.I, 1 - Complex.I, -2]
noncomputable def exE : Fin 3 → ℂ := ![-1 + 2 * Complex.I, 1 + 2 * Complex.I, -4 * Complex.I]
/-- Two real parameters, complex amplitudes on three configurations. -/
noncomputable def exPsi (θ : Fin 2 → ℝ) (c : Fin 3) : ℂ := Complex.exp ((θ 0 : ℂ) * exA c + (θ 1 : ℂ) * exB c)
noncomputable def exH (x y : Fin 3) : ℂ := (exE x + (starRingEnd ℂ) (exE y)) / 3
/-- Every configuration is sampled once. -/
def exX (s : MinSR.Sample 1 1 3) : Fin 3 := s.2.2

theorem exPsi_zero (c : Fin 3) : exPsi 0 c = 1 := by simp [exPsi]

theorem exPsi_deriv (c : Fin 3) : HasFDerivAt (fun θ => exPsi θ c)
    ((ContinuousLinearMap.proj (R := ℝ) (φ := fun _ : Fin 2 => ℝ) 0).smulRight (exA c) +
      (ContinuousLinearMap.proj (R := ℝ) (φ := fun _ : Fin 2 => ℝ) 1).smulRight (exB c)) 0 := by
  have h1 : HasFDerivAt (fun θ : Fin 2 → ℝ => (θ 0 : ℂ) * exA c + (θ 1 : ℂ) * exB c)
      ((ContinuousLinearMap.proj (R := ℝ) (φ := fun _ : Fin 2 => ℝ) 0).smulRight (exA c) +
      (ContinuousLinearMap.proj (R := ℝ) (φ := fun _ : Fin 2 => ℝ) 1).smulRight (exB c)) 0 := by
    have := ((ContinuousLinearMap.proj (R := ℝ) (φ := fun _ : Fin 2 => ℝ) 0).smulRight (exA c) +
      (ContinuousLinearMap.proj (R := ℝ) (φ := fun _ : Fin 2 => ℝ) 1).smulRight (exB c)).hasFDerivAt (x := (0 : Fin 2 → ℝ))
    refine this.congr_of_eventuallyEq (Filter.Eventually.of_forall fun θ => ?_)
    simp
  have h2 := h1.cexp
  unfold exPsi
  refine h2.congr_fderiv ?_
  simp

/-- The force and the update of the counterexample. -/
theorem ex_update (solver) (hs : ∀ A b, LeastSquares A b (solver A b)) :
    let E : MinSR.Sample 1 1 3 → ℂ := fun s => localValue exH (exPsi 0) (exX s)
    let u := MinSR.castReal (MinSR.update true solver (fun s => ![exA (exX s), exB (exX s)]) E MinSR.uniformCounts)
    Hermitian exH ∧ Represents exX (exPsi 0) ∧ u = ![1, 0] ∧ srForce (fun s => ![exA (exX s), exB (exX s)]) E 0 = -2 / 3 := by
  intro E u
  have hH : Hermitian exH := by
    intro x y
    unfold exH
    rw [map_div₀, map_add, Complex.conj_conj, add_comm, Complex.conj_ofNat]
  have hn : bornNorm (exPsi 0) = 3 := by simp [bornNorm, exPsi_zero]
  have hx : Represents exX (exPsi 0) := by
    intro c
    rw [hn, exPsi_zero]
    have : (Finset.univ.filter fun s : MinSR.Sample 1 1 3 => exX s = c).card = 1 := by revert c; decide
    rw [this]
    simp [MinSR.Sample]
  have hE : E = fun s => exE (exX s) := by
    funext s
    simp only [E, localValue, exPsi_zero, exH, Fin.sum_univ_three, exE]
    generalize exX s = c
    fin_cases c <;> simp [Complex.conj_ofNat] <;> ring
  set dlog : MinSR.Sample 1 1 3 → Fin 2 → ℂ := fun s => ![exA (exX s), exB (exX s)] with hdlog
  have hcard : 0 < Fintype.card (MinSR.Sample 1 1 3) := by decide
  have hm0 : (sampleMean fun s => dlog s 0) = 0 := by
    simp [sampleMean, hdlog, exX, exA, MinSR.Sample, Fintype.sum_prod_type, Fin.sum_univ_three]
  have hm1 : (sampleMean fun s => dlog s 1) = 0 := by
    simp [sampleMean, hdlog, exX, exB, MinSR.Sample, Fintype.sum_prod_type, Fin.sum_univ_three]; ring
  have hmE : sampleMean E = 0 := by
    rw [hE]
    simp [sampleMean, exX, exE, MinSR.Sample, Fintype.sum_prod_type, Fin.sum_univ_three]; ring
  have heq := (C47_minSR_is_SR solver dlog E hs).1
  set w := MinSR.update true solver dlog E MinSR.uniformCounts with hw
  have hF0 : srForce dlog E 0 = -2 / 3 := by
    unfold srForce; rw [hm0, hmE, hE]
    simp [sampleMean, hdlog, exX, exA, exE, MinSR.Sample, Fintype.sum_prod_type, Fin.sum_univ_three]; ring
  have hF1 : srForce dlog E 1 = 14 / 3 * Complex.I := by
    unfold srForce; rw [hm1, hmE, hE]
    simp [sampleMean, hdlog, exX, exB, exE, MinSR.Sample, Fintype.sum_prod_type, Fin.sum_univ_three, Complex.conj_ofNat]
    apply Complex.ext <;> simp
    norm_num
  have hS00 : srMatrix dlog 0 0 = 2 / 3 := by
    unfold srMatrix; rw [hm0]
    simp [sampleMean, hdlog, exX, exA, MinSR.Sample, Fintype.sum_prod_type, Fin.sum_univ_three]; norm_num
  have hS01 : srMatrix dlog 0 1 = 2 / 3 * Complex.I := by
    unfold srMatrix; rw [hm0, hm1]
    simp [sampleMean, hdlog, exX, exA, exB, MinSR.Sample, Fintype.sum_prod_type, Fin.sum_univ_three]; ring
  have hS10 : srMatrix dlog 1 0 = -2 / 3 * Complex.I := by
    unfold srMatrix; rw [hm0, hm1]
    simp [sampleMean, hdlog, exX, exA, exB, MinSR.Sample, Fintype.sum_prod_type, Fin.sum_univ_three]; ring
  have hS11 : srMatrix dlog 1 1 = 8 / 3 := by
    unfold srMatrix; rw [hm1]
    simp [sampleMean, hdlog, exX, exB, MinSR.Sample, Fintype.sum_prod_type, Fin.sum_univ_three, Complex.conj_ofNat]
    apply Complex.ext <;> simp
    norm_num
  have e0 := heq 0
  have e1 := heq 1
  rw [Fin.sum_univ_two, hS00, hS01, hF0] at e0
  rw [Fin.sum_univ_two, hS10, hS11, hF1] at e1
  have hw1 : w 1 = 2 * Complex.I := by
    linear_combination (1 / 2) * e1 + (Complex.I / 2) * e0 - (1 / 3) * w 1 * Complex.I_sq
  have hw0 : w 0 = 1 := by
    rw [hw1] at e0
    linear_combination (3 / 2) * e0 - 2 * Complex.I_sq
  have hu : u = ![1, 0] := by
    funext k
    show (w k).re = _
    fin_cases k
    · show (w 0).re = 1
      rw [hw0]; simp
    · show (w 1).re = 0
      rw [hw1]; simp
  exact ⟨hH, hx, hu, hF0⟩

/-- **C146 fails for `minSRVMC` with real parameters and complex amplitudes** (mode `complex`, the default in this case): the real part of
the complex solution need not be a direction of descent.  Here, whatever least-squares solver is used, every small step against the
update raises the energy. -/
theorem C146_minSR_complex_fails (solver) (hs : ∀ A b, LeastSquares A b (solver A b)) :
    let E : MinSR.Sample 1 1 3 → ℂ := fun s => localValue exH (exPsi 0) (exX s)
    let u := MinSR.castReal (MinSR.update true solver (fun s => ![exA (exX s), exB (exX s)]) E MinSR.uniformCounts)
    Hermitian exH ∧ Represents exX (exPsi 0) ∧
      ∃ η₀ : ℝ, 0 < η₀ ∧ ∀ η, 0 < η → η < η₀ → (rayleigh exH (exPsi 0)).re < (rayleigh exH (exPsi (0 - η • u))).re := by
  intro E u
  obtain ⟨hH, hx, hu, hF0⟩ := ex_update solver hs
  change u = _ at hu
  set dlog : MinSR.Sample 1 1 3 → Fin 2 → ℂ := fun s => ![exA (exX s), exB (exX s)] with hdlog
  have hcard : 0 < Fintype.card (MinSR.Sample 1 1 3) := by decide
  have hn : bornNorm (exPsi 0) = 3 := by simp [bornNorm, exPsi_zero]
  refine ⟨hH, hx, ?_⟩
  have h := deriv_along hcard exX exH hH (fun t => exPsi (0 + t • ![-1, 0])) (fun k c => ![exA c, exB c] k)
    (fun k => ((![-1, 0] k : ℝ) : ℂ)) (fun c => by
      have := line_real exPsi 0 _ exPsi_deriv ![-1, 0] c
      refine this.congr_deriv ?_
      simp [Fin.sum_univ_two]) (by simp [hn]) (by simpa using hx) (fun k c hc => by
        simp [exPsi_zero] at hc)
  have hO : (fun s k => ![exA (exX s), exB (exX s)] k / exPsi (0 + (0 : ℝ) • ![-1, 0]) (exX s)) = dlog := by
    funext s k
    simp [exPsi_zero, hdlog]
  have hE' : (fun s => localValue exH (exPsi (0 + (0 : ℝ) • ![-1, 0])) (exX s)) = E := by
    funext s; simp [E]
  rw [hO, hE'] at h
  have hval : (2 * (∑ k : Fin 2, (starRingEnd ℂ) ((![-1, 0] k : ℝ) : ℂ) * srForce dlog E k).re : ℝ) = 4 / 3 := by
    rw [Fin.sum_univ_two, hF0]
    simp
    norm_num
  rw [hval] at h
  obtain ⟨η₀, hη, hl⟩ := lowers_of_deriv (a := 4 / 3) (f := fun t => -rayleigh exH (exPsi (0 + t • ![-1, 0])))
    (h.fun_neg.congr_deriv (by push_cast; ring)) (by norm_num)
  refine ⟨η₀, hη, fun η h1 h2 => ?_⟩
  have h3 := hl η h1 h2
  have h4 : (0 : Fin 2 → ℝ) - η • u = 0 + η • ![-1, 0] := by
    rw [hu]; funext k; fin_cases k <;> simp
  rw [h4]
  simp only [Complex.neg_re, zero_smul, add_zero] at h3
  linarith

/-- The hypotheses of `C146_sr_rmsprop` are met by the same state. -/
example (solver) (hsolver : SolvesPosDef (P := 2) solver) :=
  C146_sr_rmsprop (N := 3) (by norm_num) exH (C146_minSR_complex_fails _ exists_leastSquares.choose_spec).1 exPsi 0 _ exPsi_deriv
    (by simp [bornNorm, exPsi_zero]) (fun c hc => by simp [exPsi_zero] at hc) id
    (fun c => by
      have : (Finset.univ.filter fun s : Fin 3 => id s = c).card = 1 := by revert c; decide
      rw [this]; simp [bornNorm, exPsi_zero]) 0 0 (1 / 100) (9 / 10) (1 / 100) (by norm_num) (by norm_num) solver hsolver

end GPSKet.Descent
