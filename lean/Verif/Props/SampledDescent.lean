import Verif.Props.SampledUpdate
import Verif.Props.Descent
import Verif.Props.Expressive
import Mathlib.Analysis.SpecialFunctions.Log.Deriv

/-!
# Property C184: with enough samples the updates lower the energy

C146 assumes that the relative frequencies of the samples are the Born probabilities.  Here the samples are random.
-/

namespace GPSKet.SampledUpdate

open GPSKet.Spec GPSKet.MinSR GPSKet.Props GPSKet.Descent

variable {C : Type} [Fintype C] [DecidableEq C] {P : ℕ}

/-- An outcome of the chains from which, for some distribution of the samples over ranks and chunks and some least-squares solver, small steps against
the update do not lower the energy.  Complex parameters, mode `holomorphic`. -/
def Misled (H : C → C → ℂ) (psi : (Fin P → ℂ) → C → ℂ) (θ : Fin P → ℂ) (D : C → (Fin P → ℂ) →L[ℂ] ℂ) : Set (List (List C)) :=
  {ls | ∃ (R K B : ℕ) (x : Sample R K B → C) (solver : _), (∀ A b, LeastSquares A b (solver A b)) ∧ Arranged x ls ∧
    ¬ Lowers fun η => rayleigh H (psi (θ - (η : ℂ) • update true solver (fun s k => D (x s) (Pi.single k 1) / psi θ (x s))
      (fun s => localValue H (psi θ) (x s)) uniformCounts))}

/-- The same for real parameters with real logarithmic derivatives `O`. -/
def MisledReal (H : C → C → ℂ) (psi : (Fin P → ℝ) → C → ℂ) (θ : Fin P → ℝ) (O : C → Fin P → ℝ) : Set (List (List C)) :=
  {ls | ∃ (R K B : ℕ) (x : Sample R K B → C) (solver : _), (∀ A b, LeastSquares A b (solver A b)) ∧ Arranged x ls ∧
    ¬ Lowers fun η => rayleigh H (psi (θ - η • castReal (update true solver (fun s k => (O (x s) k : ℂ))
      (fun s => localValue H (psi θ) (x s)) uniformCounts)))}

/-! ## The exact force is the gradient -/

theorem born_mean (H : C → C → ℂ) (psi : C → ℂ) (hn : bornNorm psi ≠ 0) :
    weightedMean (fun x => ‖psi x‖ ^ 2) (localValue H psi) = rayleigh H psi := by
  unfold weightedMean rayleigh
  change _ / ((bornNorm psi : ℝ) : ℂ) = _
  congr 1
  refine Finset.sum_congr rfl fun c _ => ?_
  by_cases h0 : psi c = 0
  · simp [h0]
  have h2 : ((‖psi c‖ ^ 2 : ℝ) : ℂ) = psi c * (starRingEnd ℂ) (psi c) := by rw [Complex.mul_conj, Complex.normSq_eq_norm_sq]
  rw [h2]
  unfold localValue
  have : ∑ y, (starRingEnd ℂ) (psi c) * H c y * psi y = (starRingEnd ℂ) (psi c) * ∑ y, H c y * psi y := by
    rw [Finset.mul_sum]; exact Finset.sum_congr rfl fun y _ => by ring
  rw [this]
  field_simp

theorem born_force (H : C → C → ℂ) (psi : C → ℂ) (d : C → ℂ) (hn : bornNorm psi ≠ 0) (h0 : ∀ c, psi c = 0 → d c = 0) :
    covariance (fun x => ‖psi x‖ ^ 2) (fun c => d c / psi c) (localValue H psi) =
      (∑ c, (starRingEnd ℂ) (d c) * ((∑ y, H c y * psi y) - rayleigh H psi * psi c)) / (bornNorm psi : ℂ) := by
  have hn' : (bornNorm psi : ℂ) ≠ 0 := by exact_mod_cast hn
  have hE := born_mean H psi hn
  unfold covariance
  rw [hE]
  set w : C → ℝ := fun x => ‖psi x‖ ^ 2 with hw
  have hsum : ((∑ x, w x : ℝ) : ℂ) = (bornNorm psi : ℂ) := rfl
  set m := weightedMean w fun c => d c / psi c
  have hz : ∑ x, (w x : ℂ) * (localValue H psi x - rayleigh H psi) = 0 := by
    simp only [mul_sub, Finset.sum_sub_distrib, ← Finset.sum_mul]
    rw [← hE]
    unfold weightedMean
    rw [← Complex.ofReal_sum, hsum]
    field_simp
    ring
  unfold weightedMean
  rw [hsum]
  congr 1
  have hsplit : ∑ x, (w x : ℂ) * ((starRingEnd ℂ) (d x / psi x - m) * (localValue H psi x - rayleigh H psi)) =
      ∑ x, (w x : ℂ) * ((starRingEnd ℂ) (d x / psi x) * (localValue H psi x - rayleigh H psi)) -
        (starRingEnd ℂ) m * ∑ x, (w x : ℂ) * (localValue H psi x - rayleigh H psi) := by
    rw [Finset.mul_sum, ← Finset.sum_sub_distrib]
    refine Finset.sum_congr rfl fun x _ => ?_
    rw [map_sub]; ring
  rw [hsplit, hz, mul_zero, sub_zero]
  refine Finset.sum_congr rfl fun c _ => ?_
  by_cases hc : psi c = 0
  · simp [hc, h0 c hc]
  have h2 : (w c : ℂ) = psi c * (starRingEnd ℂ) (psi c) := by
    show ((‖psi c‖ ^ 2 : ℝ) : ℂ) = _
    rw [Complex.mul_conj, Complex.normSq_eq_norm_sq]
  have hc' : (starRingEnd ℂ) (psi c) ≠ 0 := by simpa using hc
  rw [h2, map_div₀]
  unfold localValue
  field_simp

/-- The derivative of the energy along a path, in terms of the exact force. -/
theorem born_deriv (H : C → C → ℂ) (hH : Hermitian H) (psi : ℝ → C → ℂ) (D : Fin P → C → ℂ) (d : Fin P → ℂ)
    (hd : ∀ c, HasDerivAt (fun s => psi s c) (∑ k, d k * D k c) 0) (hn : bornNorm (psi 0) ≠ 0) (h0 : ∀ k c, psi 0 c = 0 → D k c = 0) :
    HasDerivAt (fun s => rayleigh H (psi s))
      ((2 * (∑ k, (starRingEnd ℂ) (d k) *
        covariance (fun x => ‖psi 0 x‖ ^ 2) (fun c => D k c / psi 0 c) (localValue H (psi 0))).re : ℝ) : ℂ) 0 := by
  refine (EnergyGradient.energy_deriv H hH psi _ 0 hd hn).congr_deriv ?_
  congr 3
  simp only [born_force H (psi 0) _ hn (h0 _)]
  rw [Finset.sum_div]
  simp only [← mul_div_assoc, Finset.mul_sum, ← Finset.sum_div]
  congr 1
  rw [Finset.sum_comm]
  refine Finset.sum_congr rfl fun c _ => ?_
  rw [map_sum, Finset.sum_mul]
  refine Finset.sum_congr rfl fun k _ => ?_
  rw [map_mul, mul_assoc]

/-- A solution has a positive scalar product with the force, unless the force vanishes. -/
theorem solution_positive {α : Type} [Fintype α] {w : α → ℝ} (h0 : ∀ x, 0 ≤ w x) (h : ∑ x, w x ≠ 0) {O : α → Fin P → ℂ} {E : α → ℂ}
    {u : Fin P → ℂ} (hu : SRSolution w O E u) {k : Fin P} (hk : covariance w (fun x => O x k) E ≠ 0) :
    0 < (∑ k, (starRingEnd ℂ) (u k) * covariance w (fun x => O x k) E).re := by
  have hp := normal_prob h0 h
  have h1 := ((solution_iff _ O E u).mp ((solution_normal h O E u).mp hu)).1
  simp only [covariance_normal h] at hk ⊢
  have h2 : ∑ k, (starRingEnd ℂ) (u k) * covariance (normal w) (fun x => O x k) E = covariance (normal w) (along O u) (along O u) := by
    rw [← dot_cov hp.sum, h1]
    rfl
  rw [h2]
  refine lt_of_le_of_ne (variance_nonneg hp _) fun heq => hk ?_
  have h3 := (cov_eq_zero_iff hp O u).mpr (flat_of_variance hp heq.symm)
  rw [h1] at h3
  exact congrFun h3 k

/-- Everything close to the exact update lowers the energy. -/
theorem near_lowers (H : C → C → ℂ) (hH : Hermitian H) (psi : (Fin P → ℂ) → C → ℂ) (θ : Fin P → ℂ)
    (D : C → (Fin P → ℂ) →L[ℂ] ℂ) (hd : ∀ c, HasFDerivAt (fun θ => psi θ c) (D c) θ) (hn : bornNorm (psi θ) ≠ 0)
    (h0 : ∀ c, psi θ c = 0 → D c = 0) (hg : ¬ ∀ v : Fin P → ℂ, HasDerivAt (fun t : ℝ => rayleigh H (psi (θ + (t : ℂ) • v))) 0 0)
    {u : Fin P → ℂ} (hu : SRSolution (fun x => ‖psi θ x‖ ^ 2) (fun x k => D x (Pi.single k 1) / psi θ x) (localValue H (psi θ)) u) :
    ∃ ε : ℝ, 0 < ε ∧ ∀ v, ‖v - u‖ < ε → Lowers fun η => rayleigh H (psi (θ - (η : ℂ) • v)) := by
  set F : Fin P → ℂ := fun k => covariance (fun x => ‖psi θ x‖ ^ 2) (fun c => D c (Pi.single k 1) / psi θ c) (localValue H (psi θ)) with hF
  have hline : ∀ v : Fin P → ℂ, HasDerivAt (fun t : ℝ => rayleigh H (psi (θ + (t : ℂ) • v)))
      ((2 * (∑ k, (starRingEnd ℂ) (v k) * F k).re : ℝ) : ℂ) 0 := by
    intro v
    have h := born_deriv H hH (fun t : ℝ => psi (θ + (t : ℂ) • v)) (fun k c => D c (Pi.single k 1)) v
      (fun c => line_complex psi θ D hd v c) (by simpa using hn) (fun k c hc => by rw [h0 c (by simpa using hc)]; simp)
    simpa [hF] using h
  obtain ⟨k, hk⟩ : ∃ k, F k ≠ 0 := by
    by_contra hcon
    push Not at hcon
    refine hg fun v => ?_
    have := hline v
    simpa [hcon] using this
  have hpos := solution_positive (fun x => sq_nonneg ‖psi θ x‖) (show ∑ x, ‖psi θ x‖ ^ 2 ≠ 0 from hn) hu hk
  change 0 < (∑ k, (starRingEnd ℂ) (u k) * F k).re at hpos
  have hcont : Continuous fun v : Fin P → ℂ => (∑ k, (starRingEnd ℂ) (v k) * F k).re := by
    refine Complex.continuous_re.comp (continuous_finsetSum _ fun k _ => ?_)
    exact (Complex.continuous_conj.comp (continuous_apply k)).mul continuous_const
  obtain ⟨ε, hε, hb⟩ := Metric.eventually_nhds_iff.mp (hcont.continuousAt.eventually (lt_mem_nhds hpos))
  refine ⟨ε, hε, fun v hv => ?_⟩
  have hvpos : 0 < (∑ k, (starRingEnd ℂ) (v k) * F k).re := hb (by rwa [dist_eq_norm])
  have h := hline (-v)
  have hsum : (2 * (∑ k, (starRingEnd ℂ) ((-v) k) * F k).re : ℝ) = -(2 * (∑ k, (starRingEnd ℂ) (v k) * F k).re) := by
    simp [Finset.sum_neg_distrib]
  rw [hsum] at h
  have := lowers_of_deriv h (mul_pos two_pos hvpos)
  simpa [sub_eq_add_neg] using this

/-- The same for real parameters and real logarithmic derivatives. -/
theorem near_lowers_real (H : C → C → ℂ) (hH : Hermitian H) (psi : (Fin P → ℝ) → C → ℂ) (θ : Fin P → ℝ)
    (D : C → (Fin P → ℝ) →L[ℝ] ℂ) (hd : ∀ c, HasFDerivAt (fun θ => psi θ c) (D c) θ) (hn : bornNorm (psi θ) ≠ 0)
    (h0 : ∀ c, psi θ c = 0 → D c = 0) (O : C → Fin P → ℝ) (hO : ∀ c k, D c (Pi.single k 1) / psi θ c = (O c k : ℂ))
    (hg : ¬ ∀ k, HasDerivAt (fun t : ℝ => rayleigh H (psi (θ + t • Pi.single k 1))) 0 0)
    {u : Fin P → ℝ} (hu : SRSolution (fun x => ‖psi θ x‖ ^ 2) (fun x k => (O x k : ℂ)) (fun x => ((localValue H (psi θ) x).re : ℂ))
      fun k => (u k : ℂ)) :
    ∃ ε : ℝ, 0 < ε ∧ ∀ v, ‖v - u‖ < ε → Lowers fun η => rayleigh H (psi (θ - η • v)) := by
  set w : C → ℝ := fun x => ‖psi θ x‖ ^ 2 with hw
  have hw0 : ∀ x, 0 ≤ w x := fun x => sq_nonneg _
  have hws : ∑ x, w x ≠ 0 := hn
  set F : Fin P → ℝ := fun k => (covariance w (fun c => (O c k : ℂ)) (localValue H (psi θ))).re with hF
  have hline : ∀ v : Fin P → ℝ, HasDerivAt (fun t : ℝ => rayleigh H (psi (θ + t • v))) ((2 * ∑ k, v k * F k : ℝ) : ℂ) 0 := by
    intro v
    have h := born_deriv H hH (fun t : ℝ => psi (θ + t • v)) (fun k c => D c (Pi.single k 1)) (fun k => (v k : ℂ))
      (fun c => line_real psi θ D hd v c) (by simpa using hn) (fun k c hc => by rw [h0 c (by simpa using hc)]; simp)
    refine h.congr_deriv ?_
    congr 2
    rw [Complex.re_sum]
    refine Finset.sum_congr rfl fun k _ => ?_
    rw [Complex.conj_ofReal, Complex.re_ofReal_mul]
    simp only [zero_smul, add_zero, hO]
    rfl
  obtain ⟨k, hk⟩ : ∃ k, F k ≠ 0 := by
    by_contra hcon
    push Not at hcon
    refine hg fun v => ?_
    have := hline (Pi.single v 1)
    simpa [hcon] using this
  -- the force of the real parts of the local energies
  have hre : ∀ k, covariance w (fun c => (O c k : ℂ)) (fun x => ((localValue H (psi θ) x).re : ℂ)) = ((F k : ℝ) : ℂ) := by
    intro k
    have hmean : ∀ g : C → ℂ, weightedMean w (fun x => ((g x).re : ℂ)) = (((weightedMean w g).re : ℝ) : ℂ) := by
      intro g
      unfold weightedMean
      rw [Complex.div_ofReal_re, Complex.re_sum]
      push_cast
      congr 1
      refine Finset.sum_congr rfl fun x _ => ?_
      rw [Complex.re_ofReal_mul]
      push_cast; rfl
    have hreal : ∃ r : ℝ, weightedMean w (fun c => (O c k : ℂ)) = (r : ℂ) := by
      refine ⟨(∑ x, w x * O x k) / ∑ x, w x, ?_⟩
      unfold weightedMean
      push_cast
      rfl
    obtain ⟨r, hr⟩ := hreal
    rw [hF]
    unfold covariance
    rw [← hmean]
    congr 1
    funext x
    beta_reduce
    rw [hmean, hr]
    simp only [← Complex.ofReal_sub, Complex.conj_ofReal, Complex.re_ofReal_mul, Complex.sub_re, Complex.ofReal_mul]
  have hpos := solution_positive hw0 hws hu (k := k) (by rw [hre]; exact_mod_cast hk)
  have hpos' : 0 < ∑ k, u k * F k := by
    simp only [hre, Complex.conj_ofReal, ← Complex.ofReal_mul, ← Complex.ofReal_sum, Complex.ofReal_re] at hpos
    exact hpos
  have hcont : Continuous fun v : Fin P → ℝ => ∑ k, v k * F k := by fun_prop
  obtain ⟨ε, hε, hb⟩ := Metric.eventually_nhds_iff.mp (hcont.continuousAt.eventually (lt_mem_nhds hpos'))
  refine ⟨ε, hε, fun v hv => ?_⟩
  have hvpos : 0 < ∑ k, v k * F k := hb (by rwa [dist_eq_norm])
  have h := hline (-v)
  have hsum : (2 * ∑ k, (-v) k * F k : ℝ) = -(2 * ∑ k, v k * F k) := by simp [Finset.sum_neg_distrib]
  rw [hsum] at h
  have := lowers_of_deriv h (mul_pos two_pos hvpos)
  simpa [sub_eq_add_neg] using this

/-! ## Random samples -/

/-- **C184**: for every Markov chain whose averages are consistent with the Born weights of a state without zeros, and parameters at which the gradient
of the energy does not vanish: with `m` independent chains, started anywhere, the probability that small steps against the update of
`minSRVMC` from `n` samples per chain do not lower the exact energy is at most `c / n`.  Complex parameters, holomorphic amplitudes. -/
theorem C184_holomorphic {T : Matrix C C ℝ} (hT : IsKernel T) (H : C → C → ℂ) (hH : Hermitian H) (psi : (Fin P → ℂ) → C → ℂ) (θ : Fin P → ℂ)
    (D : C → (Fin P → ℂ) →L[ℂ] ℂ) (hd : ∀ c, HasFDerivAt (fun θ => psi θ c) (D c) θ) (hpsi : ∀ c, psi θ c ≠ 0)
    (hc : ∀ f : C → ℂ, Consistent T (fun x => ‖psi θ x‖ ^ 2) f)
    (hg : ¬ ∀ v : Fin P → ℂ, HasDerivAt (fun t : ℝ => rayleigh H (psi (θ + (t : ℂ) • v))) 0 0) {m : ℕ} (hm : 0 < m) :
    ∃ c : ℝ, ∀ n : ℕ, 0 < n → ∀ starts : List C, starts.length = m →
      chainsExpect T n starts (Set.indicator (Misled H psi θ D) 1) ≤ c / n := by
  have hpos : ∀ x, 0 < ‖psi θ x‖ ^ 2 := fun x => pow_pos (norm_pos_iff.mpr (hpsi x)) 2
  rcases isEmpty_or_nonempty C with he | ⟨⟨x0⟩⟩
  · refine ⟨0, fun n hn starts hl => ?_⟩
    cases starts with
    | nil => rw [← hl] at hm; exact absurd hm (by simp)
    | cons x _ => exact he.elim x
  have hn : bornNorm (psi θ) ≠ 0 := (Finset.sum_pos (fun x _ => hpos x) ⟨x0, Finset.mem_univ x0⟩).ne'
  obtain ⟨u, hu, -⟩ := C183_exact (fun x => ‖psi θ x‖ ^ 2) (fun x => (hpos x).le) hn (fun x k => D x (Pi.single k 1) / psi θ x) (localValue H (psi θ))
  obtain ⟨ε, hε, hlow⟩ := near_lowers H hH psi θ D hd hn (fun c h => absurd h (hpsi c)) hg hu
  obtain ⟨c, hc'⟩ := C183_chains hT hpos hc _ _ hu hε hm
  refine ⟨c, fun n hn starts hl => (chainsExpect_mono hT n starts _ _ fun ls _ _ => ?_).trans (hc' n hn starts hl)⟩
  refine Set.indicator_le_indicator_of_subset ?_ (fun _ => zero_le_one) ls
  rintro ls ⟨R, K, B, x, solver, hs, hx, hbad⟩
  exact ⟨R, K, B, x, solver, hs, hx, not_lt.mp fun hlt => hbad (hlow _ hlt)⟩

/-- **C184** for real parameters with real logarithmic derivatives. -/
theorem C184_real {T : Matrix C C ℝ} (hT : IsKernel T) (H : C → C → ℂ) (hH : Hermitian H) (psi : (Fin P → ℝ) → C → ℂ) (θ : Fin P → ℝ)
    (D : C → (Fin P → ℝ) →L[ℝ] ℂ) (hd : ∀ c, HasFDerivAt (fun θ => psi θ c) (D c) θ) (hpsi : ∀ c, psi θ c ≠ 0)
    (O : C → Fin P → ℝ) (hO : ∀ c k, D c (Pi.single k 1) / psi θ c = (O c k : ℂ))
    (hc : ∀ f : C → ℂ, Consistent T (fun x => ‖psi θ x‖ ^ 2) f)
    (hg : ¬ ∀ k, HasDerivAt (fun t : ℝ => rayleigh H (psi (θ + t • Pi.single k 1))) 0 0) {m : ℕ} (hm : 0 < m) :
    ∃ c : ℝ, ∀ n : ℕ, 0 < n → ∀ starts : List C, starts.length = m →
      chainsExpect T n starts (Set.indicator (MisledReal H psi θ O) 1) ≤ c / n := by
  have hpos : ∀ x, 0 < ‖psi θ x‖ ^ 2 := fun x => pow_pos (norm_pos_iff.mpr (hpsi x)) 2
  rcases isEmpty_or_nonempty C with he | ⟨⟨x0⟩⟩
  · refine ⟨0, fun n hn starts hl => ?_⟩
    cases starts with
    | nil => rw [← hl] at hm; exact absurd hm (by simp)
    | cons x _ => exact he.elim x
  have hn : bornNorm (psi θ) ≠ 0 := (Finset.sum_pos (fun x _ => hpos x) ⟨x0, Finset.mem_univ x0⟩).ne'
  obtain ⟨uc, huc, -⟩ := C183_exact (fun x => ‖psi θ x‖ ^ 2) (fun x => (hpos x).le) hn (fun x k => (O x k : ℂ)) (localValue H (psi θ))
  have hu := (solution_normal hn _ _ _).mpr (real_part (normal_prob (fun x => (hpos x).le) hn) ((solution_normal hn _ _ _).mp huc))
  obtain ⟨ε, hε, hlow⟩ := near_lowers_real H hH psi θ D hd hn (fun c h => absurd h (hpsi c)) O hO hg hu
  obtain ⟨c, hc'⟩ := C183_chains_real hT hpos hc _ _ hu hε hm
  refine ⟨c, fun n hn starts hl => (chainsExpect_mono hT n starts _ _ fun ls _ _ => ?_).trans (hc' n hn starts hl)⟩
  refine Set.indicator_le_indicator_of_subset ?_ (fun _ => zero_le_one) ls
  rintro ls ⟨R, K, B, x, solver, hs, hx, hbad⟩
  exact ⟨R, K, B, x, solver, hs, hx, not_lt.mp fun hlt => hbad (hlow _ hlt)⟩

/-- **C184** for the hopping sampler of electrons on at least three sites, with the default `machine_pow = 2`. -/
theorem C184_hopping {L nu nd : ℕ} (hne : 0 < nu + nd) (hL : 3 ≤ L) (logpsi : Arr L → ℂ) {hop : ℝ} (h0 : 0 < hop) (h1 : hop ≤ 1)
    {sweep : ℕ} (hs : 0 < sweep) (H : HoppingChain.Sector L nu nd → HoppingChain.Sector L nu nd → ℂ) (hH : Hermitian H)
    (psi : (Fin P → ℂ) → HoppingChain.Sector L nu nd → ℂ) (θ : Fin P → ℂ) (hpsi : ∀ x, psi θ x = Complex.exp (logpsi (embed x.1)))
    (D : HoppingChain.Sector L nu nd → (Fin P → ℂ) →L[ℂ] ℂ) (hd : ∀ c, HasFDerivAt (fun θ => psi θ c) (D c) θ)
    (hg : ¬ ∀ v : Fin P → ℂ, HasDerivAt (fun t : ℝ => rayleigh H (psi (θ + (t : ℂ) • v))) 0 0) {m : ℕ} (hm : 0 < m) :
    ∃ c : ℝ, ∀ n : ℕ, 0 < n → ∀ starts : List (HoppingChain.Sector L nu nd), starts.length = m →
      chainsExpect (HoppingChain.chain logpsi 2 hop none ^ sweep) n starts (Set.indicator (Misled H psi θ D) 1) ≤ c / n := by
  have hw : (fun x => ‖psi θ x‖ ^ 2) = HoppingChain.target (nu := nu) (nd := nd) logpsi 2 := by
    funext x
    rw [hpsi]
    unfold HoppingChain.target
    exact (Real.rpow_two _).symm
  exact C184_holomorphic (Markov.pow_kernel (HoppingChain.C137_kernel hne logpsi 2 h0.le h1 (T := none) trivial) sweep) H hH psi θ D hd
    (fun x => by rw [hpsi]; exact Complex.exp_ne_zero _) (fun f => by rw [hw]; exact SampledEnergy.C144_hopping hne hL logpsi 2 h0 h1 hs f) hg hm

/-- **C184** for the exchange sampler on connected clusters, with the default `machine_pow = 2`. -/
theorem C184_exchange {S A : Type} [Fintype S] [DecidableEq S] [Fintype A] [DecidableEq A] {σ₀ : S → A} {clusters : List (S × S)}
    (hne : clusters ≠ []) (hcon : ExchangeChain.Connected clusters) (logpsi : (S → A) → ℂ) (hpair : ∃ i j, i ≠ j ∧ σ₀ i = σ₀ j)
    {sweep : ℕ} (hs : 0 < sweep) (H : ExchangeChain.Sector σ₀ → ExchangeChain.Sector σ₀ → ℂ) (hH : Hermitian H)
    (psi : (Fin P → ℂ) → ExchangeChain.Sector σ₀ → ℂ) (θ : Fin P → ℂ) (hpsi : ∀ x, psi θ x = Complex.exp (logpsi x.1))
    (D : ExchangeChain.Sector σ₀ → (Fin P → ℂ) →L[ℂ] ℂ) (hd : ∀ c, HasFDerivAt (fun θ => psi θ c) (D c) θ)
    (hg : ¬ ∀ v : Fin P → ℂ, HasDerivAt (fun t : ℝ => rayleigh H (psi (θ + (t : ℂ) • v))) 0 0) {m : ℕ} (hm : 0 < m) :
    ∃ c : ℝ, ∀ n : ℕ, 0 < n → ∀ starts : List (ExchangeChain.Sector σ₀), starts.length = m →
      chainsExpect (ExchangeChain.chain σ₀ logpsi 2 clusters ^ sweep) n starts (Set.indicator (Misled H psi θ D) 1) ≤ c / n := by
  have hw : (fun x => ‖psi θ x‖ ^ 2) = ExchangeChain.target σ₀ logpsi 2 := by
    funext x
    rw [hpsi]
    unfold ExchangeChain.target
    exact (Real.rpow_two _).symm
  exact C184_holomorphic (Markov.pow_kernel (ExchangeChain.C140_kernel hne logpsi 2) sweep) H hH psi θ D hd
    (fun x => by rw [hpsi]; exact Complex.exp_ne_zero _) (fun f => by rw [hw]; exact SampledEnergy.C144_exchange hne hcon logpsi 2 hpair hs f) hg hm

/-! ## The direct sampler -/

section direct

open GPSKet.AR

variable {L d M : ℕ} {ι : Type} [Fintype ι]

theorem bornWeight_amplitude (l : LogAmp) : bornWeight 2 l = ‖amplitude l‖ ^ 2 := by
  rw [bornWeight_eq]
  rcases l with _ | z
  · simp [weight, amplitude]
  · show Real.exp (2 * z.re) = ‖Complex.exp z‖ ^ 2
    rw [Complex.norm_exp, ← Real.exp_nat_mul]
    norm_num

/-- **C184** for batches drawn directly from a normalised autoregressive state with real parameters and real logarithmic derivatives: the
probability that small steps against the update do not lower the exact energy is at most a constant divided by the number of all samples. -/
theorem C184_direct [NeZero L] [NeZero d] [Nonempty ι] (f : Fields d M) (m : (Fin P → ℝ) → Machine L d M) (hm : ∀ θ, ProvidedAR (m θ))
    (hf : ∀ θ, (m θ).fields = f) (hn : f.normalize = true) (hp : f.machine_pow = 2) (θ : Fin P → ℝ) (hc : Continuable (m θ))
    (syms : ι → (Fin L → Fin d) → Fin L → Fin d) (inv : ι → ι) (hs : ClosedUnderInverse syms inv) (buffer : Fin L → Fin d)
    (H : (Fin L → Fin d) → (Fin L → Fin d) → ℂ) (hH : Hermitian H)
    (psi : (Fin P → ℝ) → (Fin L → Fin d) → ℂ) (hpsi : ∀ θ x, psi θ x = amplitude ((m θ).logPsi syms x))
    (D : (Fin L → Fin d) → (Fin P → ℝ) →L[ℝ] ℂ) (hd : ∀ c, HasFDerivAt (fun θ => psi θ c) (D c) θ)
    (O : (Fin L → Fin d) → Fin P → ℝ) (hO : ∀ c k, D c (Pi.single k 1) / psi θ c = (O c k : ℂ))
    (hg : ¬ ∀ k, HasDerivAt (fun t : ℝ => rayleigh H (psi (θ + t • Pi.single k 1))) 0 0) :
    ∃ c : ℝ, ∀ nc len : ℕ, 0 < nc → 0 < len →
      drawExpect (sampleBatch (m θ) syms buffer) (fun xs : Fin nc → Fin len → Fin L → Fin d =>
        Set.indicator (MisledReal H psi θ O) (1 : List (List (Fin L → Fin d)) → ℝ) (lists xs)) ≤ c / (nc * len : ℕ) := by
  have hp' : ∀ θ, (m θ).fields.machine_pow = 2 := fun θ => by rw [hf, hp]
  have hp0 : ∀ θ, (m θ).fields.machine_pow ≠ 0 := fun θ => by rw [hp']; norm_num
  have hw : ∀ θ x, bornWeight (m θ).fields.machine_pow ((m θ).logPsi syms x) = ‖psi θ x‖ ^ 2 := fun θ x => by
    rw [hp', bornWeight_amplitude, hpsi]
  have hbij : ∀ t, Function.Bijective (syms t) := fun t => by
    have h2 : ∀ x, syms t (syms (inv t) x) = x := fun x => by
      have := hs.left (inv t) x
      rwa [hs.invol] at this
    exact ⟨Function.LeftInverse.injective (hs.left t), fun x => ⟨_, h2 x⟩⟩
  have hsum : ∑ x, bornWeight (m θ).fields.machine_pow ((m θ).logPsi syms x) = 1 :=
    C28_normalised_of_continuable (m θ) (hm θ) (by rw [hf]; exact hn) (hp0 θ) hc syms hbij
  have hnorm : bornNorm (psi θ) ≠ 0 := by
    have : bornNorm (psi θ) = 1 := by rw [← hsum]; exact Finset.sum_congr rfl fun x _ => (hw θ x).symm
    rw [this]; exact one_ne_zero
  -- the zeros of the state do not depend on the parameters
  have hsupp : ∀ θ' c, psi θ' c ≠ 0 ↔ ∃ t, ∀ i, f.renormalize (spinsAt f (syms t c) i) i (syms t c i) = true := by
    intro θ' c
    obtain ⟨val, g⟩ := (hm θ').good
    have h1 : psi θ' c ≠ 0 ↔ 0 < bornWeight (m θ').fields.machine_pow ((m θ').logPsi syms c) := by
      rw [hw]
      exact ⟨fun h => pow_pos (norm_pos_iff.mpr h) 2, fun h h0 => by rw [h0] at h; simp at h⟩
    rw [h1, Good.sym_pos (hp0 θ')]
    exact exists_congr fun t => (Good.one_pos g (hp0 θ') (syms t c)).trans (by rw [hf])
  have h0 : ∀ c, psi θ c = 0 → D c = 0 := by
    intro c hc0
    have hz : (fun θ' => psi θ' c) = fun _ => 0 := by
      funext θ'
      by_contra hne
      exact ((hsupp θ c).mpr ((hsupp θ' c).mp hne)) hc0
    have := hd c
    rw [hz] at this
    exact this.unique (hasFDerivAt_const 0 θ)
  obtain ⟨uc, huc, -⟩ := C183_exact (fun x => ‖psi θ x‖ ^ 2) (fun x => sq_nonneg _) hnorm (fun x k => (O x k : ℂ)) (localValue H (psi θ))
  have hu := (solution_normal hnorm _ _ _).mpr (real_part (normal_prob (fun x => sq_nonneg _) hnorm) ((solution_normal hnorm _ _ _).mp huc))
  obtain ⟨ε, hε, hlow⟩ := near_lowers_real H hH psi θ D hd hnorm h0 O hO hg hu
  have hu' : SRSolution (fun x => bornWeight (m θ).fields.machine_pow ((m θ).logPsi syms x)) (fun x k => (O x k : ℂ))
      (fun x => ((localValue H (psi θ) x).re : ℂ)) (fun k => ((fun k => (uc k).re) k : ℂ)) := by
    have hww : (fun x => bornWeight (m θ).fields.machine_pow ((m θ).logPsi syms x)) = fun x => ‖psi θ x‖ ^ 2 := funext (hw θ)
    rw [hww]
    exact hu
  obtain ⟨c, hc'⟩ := C183_direct_real (m θ) (hm θ) (by rw [hf]; exact hn) (hp0 θ) hc syms inv hs buffer O _ hu' hε
  refine ⟨c, fun nc len h1 h2 => le_trans (Finset.sum_le_sum fun xs _ => ?_) (hc' nc len h1 h2)⟩
  refine smul_le_smul_of_nonneg_left ?_ ENNReal.toReal_nonneg
  refine Set.indicator_le_indicator_of_subset ?_ (fun _ => zero_le_one) (lists xs)
  rintro ls ⟨R, K, B, x, solver, hs, hx, hbad⟩
  exact ⟨R, K, B, x, solver, hs, hx, not_lt.mp fun hlt => hbad (hlow _ hlt)⟩

end direct

/-! ## The hypotheses are met -/

/-- Whether there is an electron on the first site. -/
def exG (x : HoppingChain.Sector 3 1 0) : ℂ := if x.1 0 = 0 then 0 else 1

/-- A state with one parameter, the weight of the first site. -/
noncomputable def exPsi (θ : Fin 1 → ℂ) (x : HoppingChain.Sector 3 1 0) : ℂ := Complex.exp (θ 0 * exG x)

/-- An energy of the first site. -/
def exH (x y : HoppingChain.Sector 3 1 0) : ℂ := if x = y then exG x else 0

/-- The derivatives. -/
noncomputable def exD (x : HoppingChain.Sector 3 1 0) : (Fin 1 → ℂ) →L[ℂ] ℂ := exG x • ContinuousLinearMap.proj 0

theorem exD_spec (x : HoppingChain.Sector 3 1 0) : HasFDerivAt (fun θ => exPsi θ x) (exD x) 0 := by
  have h1 : HasFDerivAt (fun θ : Fin 1 → ℂ => θ 0 * exG x) (exG x • (ContinuousLinearMap.proj 0 : (Fin 1 → ℂ) →L[ℂ] ℂ)) 0 :=
    (ContinuousLinearMap.proj (R := ℂ) (φ := fun _ : Fin 1 => ℂ) 0).hasFDerivAt.mul_const (exG x)
  have h2 := h1.cexp
  simp only [Pi.zero_apply, zero_mul, Complex.exp_zero, one_smul] at h2
  exact h2

theorem exH_hermitian : Hermitian exH := by
  intro x y
  unfold exH exG
  by_cases h : x = y
  · subst h; split_ifs <;> simp
  · rw [if_neg h, if_neg (Ne.symm h)]; simp

theorem ex_gradient : ¬ ∀ v : Fin 1 → ℂ, HasDerivAt (fun t : ℝ => rayleigh exH (exPsi (0 + (t : ℂ) • v))) 0 0 := by
  intro hall
  have hone : ∀ c, exPsi 0 c = 1 := fun c => by simp [exPsi]
  have hloc : ∀ c, localValue exH (exPsi 0) c = exG c := by
    intro c
    unfold localValue exH
    simp [hone]
  have hn : bornNorm (exPsi 0) ≠ 0 := by
    have : 0 < ∑ x : HoppingChain.Sector 3 1 0, ‖exPsi 0 x‖ ^ 2 :=
      Finset.sum_pos (fun x _ => by rw [hone]; norm_num) ⟨⟨![1, 0, 0], by decide⟩, Finset.mem_univ _⟩
    exact this.ne'
  have h := born_deriv exH exH_hermitian (fun t : ℝ => exPsi (0 + (t : ℂ) • (1 : Fin 1 → ℂ))) (fun k c => exD c (Pi.single k 1)) 1
    (fun c => line_complex exPsi 0 exD exD_spec 1 c) (by simpa using hn) (fun k c hc => absurd hc (by simp [hone]))
  have h2 := h.unique (hall 1)
  simp only [Complex.ofReal_zero, zero_smul, add_zero, Fin.sum_univ_one, Pi.one_apply, map_one, one_mul] at h2
  have hD : ∀ c, exD c (Pi.single 0 1) / exPsi 0 c = exG c := fun c => by simp [exD, hone]
  have hl : localValue exH (exPsi 0) = exG := funext hloc
  rw [hl] at h2
  simp only [hD] at h2
  have hz : (covariance (fun x => ‖exPsi 0 x‖ ^ 2) exG exG).re = 0 := by
    have h3 : (2 * (covariance (fun x => ‖exPsi 0 x‖ ^ 2) exG exG).re : ℝ) = 0 := by exact_mod_cast h2
    linarith
  rw [covariance_normal (show ∑ x, ‖exPsi 0 x‖ ^ 2 ≠ 0 from hn)] at hz
  have hal : along (fun x (_ : Fin 1) => exG x) 1 = exG := by funext x; simp [along]
  have hfl : (1 : Fin 1 → ℂ) ∈ flat (normal fun x => ‖exPsi 0 x‖ ^ 2) fun x (_ : Fin 1) => exG x :=
    flat_of_variance (normal_prob (fun x => sq_nonneg _) hn) (by rw [hal]; exact hz)
  have hne : ∀ x, normal (fun x => ‖exPsi 0 x‖ ^ 2) x ≠ 0 := by
    intro x
    refine div_ne_zero ?_ hn
    show ‖exPsi 0 x‖ ^ 2 ≠ 0
    rw [hone]; norm_num
  have := hfl ⟨![1, 0, 0], by decide⟩ ⟨![0, 1, 0], by decide⟩ (hne _) (hne _)
  rw [hal] at this
  simp [exG] at this

/-- The hypotheses are met: one electron on three sites, with one parameter. -/
example {m : ℕ} (hm : 0 < m) : ∃ c : ℝ, ∀ n : ℕ, 0 < n → ∀ starts : List (HoppingChain.Sector 3 1 0), starts.length = m →
    chainsExpect (HoppingChain.chain (fun _ => 0) 2 1 none ^ 3) n starts (Set.indicator (Misled exH exPsi 0 exD) 1) ≤ c / n :=
  C184_hopping (by decide) (by decide) (fun _ => 0) one_pos le_rfl (by decide) exH exH_hermitian exPsi 0 (fun x => by simp [exPsi]) exD exD_spec
    ex_gradient hm

section direct

open GPSKet.AR

/-- The fields of a model of two spins with `total_sz = 0`. -/
noncomputable def exFields : Fields 2 1 := ⟨2, true, true, defaultCountSpins, defaultRenormalize 2, sumOut⟩

/-- Parameters. -/
noncomputable def exEps (θ : Fin 1 → ℝ) (d : Fin 2) (_ : Fin 1) (i : Fin 2) : ℂ := if i = 0 ∧ d = 0 then (θ 0 : ℂ) else 0

/-- Such a model, with one real parameter for the first spin. -/
noncomputable def exMachine (θ : Fin 1 → ℝ) : Machine 2 2 1 :=
  arqGPS exFields (exEps θ)

/-- Its amplitudes. -/
noncomputable def exAR (θ : Fin 1 → ℝ) (x : Fin 2 → Fin 2) : ℂ :=
  if x 0 = x 1 then 0 else ((Real.exp ((if x 0 = 0 then θ 0 else 0) - 1 / 2 * Real.log (Real.exp (2 * θ 0) + 1)) : ℝ) : ℂ)

theorem ex_first (θ : Fin 1 → ℝ) (x : Fin 2 → Fin 2) (d : Fin 2) : maybeNormalize exFields (mask exFields (spinsAt exFields x 0) 0 (qgpsVal exFields (exEps θ) 0 x)) d =
    some (((if d = 0 then θ 0 else 0) - 1 / 2 * Real.log (Real.exp (2 * θ 0) + 1) : ℝ) : ℂ) := by
  have hv : qgpsVal exFields (exEps θ) 0 x = fun d => ((if d = 0 then θ 0 else 0 : ℝ) : ℂ) := by
    funext d
    simp [qgpsVal, exFields, sumOut, exEps, ctx]
    split_ifs <;> simp
  have hm : mask exFields (spinsAt exFields x 0) 0 (qgpsVal exFields (exEps θ) 0 x) = fun d => some ((if d = 0 then θ 0 else 0 : ℝ) : ℂ) := by
    funext d
    rw [hv]
    unfold mask
    rw [if_pos]
    simp [exFields, defaultRenormalize, spinsAt]
  rw [hm]
  simp [maybeNormalize, exFields, normalizeLog, weight]

theorem ex_second (θ : Fin 1 → ℝ) (x : Fin 2 → Fin 2) (d : Fin 2) : maybeNormalize exFields (mask exFields (spinsAt exFields x 1) 1 (qgpsVal exFields (exEps θ) 1 x)) d =
    if x 0 = d then none else some 0 := by
  have hv : qgpsVal exFields (exEps θ) 1 x = fun d => 0 := by
    funext d
    simp [qgpsVal, exFields, sumOut, exEps]
  have hm : mask exFields (spinsAt exFields x 1) 1 (qgpsVal exFields (exEps θ) 1 x) = fun d => if x 0 = d then none else some 0 := by
    rw [hv]
    have hs : spinsAt exFields x 1 = defaultCountSpins (x 0) := by
      funext d
      simp [spinsAt, exFields]
    rw [hs]
    funext d
    unfold mask
    have : exFields.renormalize (defaultCountSpins (x 0)) 1 d = decide (x 0 ≠ d) := by
      show defaultRenormalize 2 (defaultCountSpins (x 0)) 1 d = decide (x 0 ≠ d)
      generalize x 0 = a
      revert a d
      decide
    rw [this]
    by_cases h : x 0 = d <;> simp [h]
  rw [hm]
  have hw : ∑ e : Fin 2, weight 2 (if x 0 = e then none else some (0 : ℂ)) = 1 := by
    rw [Fin.sum_univ_two]
    generalize x 0 = a
    fin_cases a <;> simp [weight]
  show normalizeLog 2 (fun d => if x 0 = d then none else some (0 : ℂ)) d = _
  unfold normalizeLog
  rw [hw]
  by_cases h : x 0 = d <;> simp [h]

theorem exAR_spec (θ : Fin 1 → ℝ) (x : Fin 2 → Fin 2) : exAR θ x = amplitude ((exMachine θ).logPsi (fun (_ : Unit) y => y) x) := by
  refine (Expressive.amplitude_symmetrise _ (by change (2 : ℝ) ≠ 0; norm_num) _ _ fun _ => ?_).symm
  have hl : ∀ i, (exMachine θ).conditionalsLog x i = _ := fun i => (arqGPS_good (L := 2) exFields (exEps θ)).log x i
  have h0 : maybeNormalize (exMachine θ).fields ((exMachine θ).conditionalsLog x 0) (x 0) =
      some (((if x 0 = 0 then θ 0 else 0) - 1 / 2 * Real.log (Real.exp (2 * θ 0) + 1) : ℝ) : ℂ) := by
    rw [hl]
    exact ex_first θ x (x 0)
  have h1 : maybeNormalize (exMachine θ).fields ((exMachine θ).conditionalsLog x 1) (x 1) =
      if x 0 = x 1 then none else some 0 := by
    rw [hl]
    exact ex_second θ x (x 1)
  change amplitude ((exMachine θ).logPsiOne x) = exAR θ x
  unfold Machine.logPsiOne pickSum exAR
  by_cases h : x 0 = x 1
  · rw [if_pos h] at h1 ⊢
    rw [if_neg]
    · rfl
    · intro hall
      have := hall 1
      beta_reduce at this
      rw [h1] at this
      simp at this
  · rw [if_neg h] at h1 ⊢
    rw [if_pos]
    · rw [Fin.sum_univ_two]
      beta_reduce
      rw [h0, h1]
      simp only [Option.getD_some, add_zero]
      exact (Complex.ofReal_exp _).symm
    · intro i
      fin_cases i
      · exact (congrArg Option.isSome h0).trans rfl
      · exact (congrArg Option.isSome h1).trans rfl

/-- Logarithmic derivatives. -/
noncomputable def exO (x : Fin 2 → Fin 2) (_ : Fin 1) : ℝ := if x 0 = x 1 then 0 else (if x 0 = 0 then 1 else 0) - 1 / 2

/-- Derivatives. -/
noncomputable def exDR (x : Fin 2 → Fin 2) : (Fin 1 → ℝ) →L[ℝ] ℂ :=
  (exAR 0 x * (exO x 0 : ℂ)) • Complex.ofRealCLM.comp (ContinuousLinearMap.proj 0)

theorem exDR_spec (x : Fin 2 → Fin 2) : HasFDerivAt (fun θ => exAR θ x) (exDR x) 0 := by
  by_cases h : x 0 = x 1
  · have h1 : (fun θ => exAR θ x) = fun _ => 0 := funext fun θ => if_pos h
    have h2 : exDR x = 0 := by unfold exDR; rw [show exAR 0 x = 0 from if_pos h, zero_mul]; ext v; simp
    rw [h1, h2]
    exact hasFDerivAt_const 0 0
  set a : ℝ := if x 0 = 0 then 1 else 0 with ha
  have hd : HasDerivAt (fun s : ℝ => Real.exp (a * s - 1 / 2 * Real.log (Real.exp (2 * s) + 1)))
      (Real.exp (a * 0 - 1 / 2 * Real.log (Real.exp (2 * 0) + 1)) * (a - 1 / 2)) 0 := by
    have e1 : HasDerivAt (fun s : ℝ => Real.exp (2 * s) + 1) (Real.exp (2 * 0) * (2 * 1)) 0 :=
      (((hasDerivAt_id (0 : ℝ)).const_mul 2).exp).add_const 1
    have e2 := (e1.log (by positivity)).const_mul (1 / 2 : ℝ)
    have e3 := (((hasDerivAt_id (0 : ℝ)).const_mul a).sub e2).exp
    refine e3.congr_deriv ?_
    simp
    norm_num
  have hf : (fun θ => exAR θ x) = fun θ : Fin 1 → ℝ => ((Real.exp (a * θ 0 - 1 / 2 * Real.log (Real.exp (2 * θ 0) + 1)) : ℝ) : ℂ) := by
    funext θ
    unfold exAR
    rw [if_neg h, ha]
    split_ifs <;> simp
  have hc := (hd.hasFDerivAt (x := (0 : ℝ)))
  have hp : HasFDerivAt (fun θ : Fin 1 → ℝ => θ 0) (ContinuousLinearMap.proj 0) (0 : Fin 1 → ℝ) :=
    (ContinuousLinearMap.proj (R := ℝ) (φ := fun _ : Fin 1 => ℝ) 0).hasFDerivAt
  have h3 := Complex.ofRealCLM.hasFDerivAt.comp (0 : Fin 1 → ℝ) (HasFDerivAt.comp (0 : Fin 1 → ℝ) hc hp)
  rw [hf]
  refine h3.congr_fderiv ?_
  ext v
  have hv : exAR 0 x = ((Real.exp (a * 0 - 1 / 2 * Real.log (Real.exp (2 * 0) + 1)) : ℝ) : ℂ) := congrFun hf 0
  have ho : exO x 0 = a - 1 / 2 := if_neg h
  simp only [exDR, hv, ho]
  simp
  ring

/-- The energy of the first spin. -/
def exHR (x y : Fin 2 → Fin 2) : ℂ := if x = y ∧ x 0 = 0 then 1 else 0

theorem exHR_hermitian : Hermitian exHR := by
  intro x y
  unfold exHR
  by_cases h : x = y
  · subst h; split_ifs <;> simp
  · rw [if_neg (fun hh => h hh.1.symm), if_neg (fun hh => h hh.1)]; simp

theorem exR_energy (θ : Fin 1 → ℝ) : rayleigh exHR (exAR θ) = ((Real.exp (2 * θ 0) / (Real.exp (2 * θ 0) + 1) : ℝ) : ℂ) := by
  have hall : ∀ {E : Type} [AddCommMonoid E] (F : (Fin 2 → Fin 2) → E), ∑ x, F x = F ![0, 0] + F ![0, 1] + (F ![1, 0] + F ![1, 1]) := by
    intro E _ F
    rw [← (finTwoArrowEquiv (Fin 2)).symm.sum_comp, Fintype.sum_prod_type]
    simp [Fin.sum_univ_two, finTwoArrowEquiv]
  have hp : (0 : ℝ) < Real.exp (2 * θ 0) + 1 := by positivity
  have hsq : ∀ a : ℝ, Real.exp (a - 1 / 2 * Real.log (Real.exp (2 * θ 0) + 1)) ^ 2 = Real.exp (2 * a) / (Real.exp (2 * θ 0) + 1) := by
    intro a
    rw [← Real.exp_nat_mul]
    push_cast
    rw [mul_sub, Real.exp_sub]
    congr 1
    rw [← mul_assoc]
    norm_num
    exact Real.exp_log hp
  have v00 : exAR θ ![0, 0] = 0 := if_pos rfl
  have v11 : exAR θ ![1, 1] = 0 := if_pos rfl
  have v01 : exAR θ ![0, 1] = ((Real.exp (θ 0 - 1 / 2 * Real.log (Real.exp (2 * θ 0) + 1)) : ℝ) : ℂ) := by simp [exAR]
  have v10 : exAR θ ![1, 0] = ((Real.exp (0 - 1 / 2 * Real.log (Real.exp (2 * θ 0) + 1)) : ℝ) : ℂ) := by simp [exAR]
  have hn : bornNorm (exAR θ) = 1 := by
    unfold bornNorm
    rw [hall, v00, v11, v01, v10, Complex.norm_real, Complex.norm_real, Real.norm_eq_abs, Real.norm_eq_abs, sq_abs, sq_abs, hsq, hsq]
    simp
    field_simp
  unfold rayleigh
  rw [hn]
  have hin : ∀ x, ∑ y, (starRingEnd ℂ) (exAR θ x) * exHR x y * exAR θ y = if x 0 = 0 then (starRingEnd ℂ) (exAR θ x) * exAR θ x else 0 := by
    intro x
    unfold exHR
    rw [Finset.sum_eq_single x]
    · by_cases h : x 0 = 0 <;> simp [h]
    · intro y _ hy
      rw [if_neg fun hh => hy hh.1.symm]; simp
    · intro h; exact absurd (Finset.mem_univ x) h
  simp only [hin]
  rw [hall, v00, v01]
  rw [Complex.conj_ofReal, ← Complex.ofReal_mul, ← sq, hsq]
  simp

theorem exR_gradient : ¬ ∀ k : Fin 1, HasDerivAt (fun t : ℝ => rayleigh exHR (exAR (0 + t • Pi.single k 1))) 0 0 := by
  intro hall
  have h := hall 0
  simp only [exR_energy] at h
  have e1 : HasDerivAt (fun s : ℝ => Real.exp (2 * s)) (Real.exp (2 * 0) * (2 * 1)) 0 := ((hasDerivAt_id (0 : ℝ)).const_mul 2).exp
  have e2 := (e1.div (e1.add_const 1) (by positivity)).ofReal_comp
  have h2 : HasDerivAt (fun t : ℝ => ((Real.exp (2 * t) / (Real.exp (2 * t) + 1) : ℝ) : ℂ)) 0 0 := by simpa using h
  have := e2.unique h2
  norm_num at this

/-- The hypotheses are met: two spins with `total_sz = 0`, with one parameter. -/
example : ∃ c : ℝ, ∀ nc len : ℕ, 0 < nc → 0 < len →
    drawExpect (sampleBatch (exMachine 0) (fun (_ : Unit) y => y) fun _ => 0) (fun xs : Fin nc → Fin len → Fin 2 → Fin 2 =>
      Set.indicator (MisledReal exHR exAR 0 exO) (1 : List (List (Fin 2 → Fin 2)) → ℝ) (lists xs)) ≤ c / (nc * len : ℕ) := by
  have hm : ∀ θ, ProvidedAR (exMachine θ) := fun θ => .qgps _ _
  refine C184_direct exFields exMachine hm (fun _ => rfl) rfl rfl 0
    (spin_continuable (hm 0) (by change (2 : ℝ) ≠ 0; norm_num) ⟨rfl, rfl, rfl⟩ (by decide)) _ id ⟨fun _ => rfl, fun _ _ => rfl⟩ _ exHR exHR_hermitian
    exAR exAR_spec exDR exDR_spec exO (fun c k => ?_) exR_gradient
  obtain rfl : k = 0 := Subsingleton.elim _ _
  by_cases h : c 0 = c 1
  · rw [show exAR 0 c = 0 from if_pos h, div_zero, show exO c 0 = 0 from if_pos h]
    simp
  · have hne : exAR 0 c ≠ 0 := by
      rw [show exAR 0 c = _ from if_neg h]
      exact_mod_cast (Real.exp_pos _).ne'
    unfold exDR
    simp
    field_simp

end direct

end GPSKet.SampledUpdate
