import Verif.Lemmas.AsepSpectrum
import Verif.Lemmas.PerronFrobenius

/-!
# C168: local energies bound the spectrum of the exclusion process, and the fluctuation theorem holds

The matrix is the one given by the entries that the operator returns, `rowElem (kernel r [x]).out x'`.
-/

namespace GPSKet.AsepSpectrum
open GPSKet.Spec GPSKet.Asep

variable {n : ℕ}

/-- The local energy of the amplitudes `psi` at `x`: the sum over the entries returned for `x`. -/
noncomputable def localEnergy (r : AsepRates) (psi : Chain n → ℝ) (x : Chain n) : ℝ :=
  ((kernel r [x]).out.map fun e => e.2 * psi e.1).sum / psi x

/-- `z` is an eigenvalue of the operator. -/
def IsEigenvalue (r : AsepRates) (n : ℕ) (z : ℂ) : Prop :=
  ∃ v : Chain n → ℂ, v ≠ 0 ∧ ∀ x, ∑ x', ((rowElem (kernel r [x]).out x' : ℝ) : ℂ) * v x' = z * v x

/-- All rates are nonnegative. -/
def Nonneg (r : AsepRates) : Prop := 0 ≤ r.alpha ∧ 0 ≤ r.beta ∧ 0 ≤ r.gamma ∧ 0 ≤ r.delta ∧ 0 ≤ r.p ∧ 0 ≤ r.q

/-- C168: for positive amplitudes, no eigenvalue has a real part above the largest local energy.  Any counting field. -/
theorem C168_upper (r : AsepRates) (hr : Nonneg r) (psi : Chain n → ℝ) (hpsi : ∀ x, 0 < psi x) (b : ℝ)
    (hb : ∀ x, localEnergy r psi x ≤ b) (z : ℂ) (hz : IsEigenvalue r n z) : z.re ≤ b := by
  obtain ⟨v, hv, he⟩ := hz
  obtain ⟨x, -, hx⟩ := Finset.exists_max_image Finset.univ (fun x => ‖v x‖ / psi x) Finset.univ_nonempty
  have hx : ∀ x', ‖v x'‖ / psi x' ≤ ‖v x‖ / psi x := fun x' => hx x' (Finset.mem_univ x')
  have hpos : 0 < ‖v x‖ := by
    by_contra h
    have h0 : ‖v x‖ = 0 := le_antisymm (not_lt.mp h) (norm_nonneg _)
    apply hv
    funext x'
    have := hx x'
    rw [h0, zero_div] at this
    have h1 : ‖v x'‖ ≤ 0 := by
      by_contra h2
      exact absurd this (not_le.mpr (div_pos (not_le.mp h2) (hpsi x')))
    exact norm_le_zero_iff.mp h1
  set H := fun x' => rowElem (kernel r [x]).out x' with hH
  set u := ‖v x‖ / psi x with hu
  -- each term
  have hterm : ∀ x', ((starRingEnd ℂ) (v x) * ((H x' : ℂ) * v x')).re ≤ ‖v x‖ * (u * (H x' * psi x')) := by
    intro x'
    by_cases hxx : x' = x
    · subst hxx
      have e1 : (starRingEnd ℂ) (v x') * ((H x' : ℂ) * v x') = ((H x' * ‖v x'‖ ^ 2 : ℝ) : ℂ) := by
        rw [mul_left_comm, Complex.conj_mul']
        push_cast
        ring
      rw [e1, Complex.ofReal_re]
      have : u * psi x' = ‖v x'‖ := div_mul_cancel₀ _ (hpsi x').ne'
      rw [show u * (H x' * psi x') = H x' * (u * psi x') by ring, this]
      exact le_of_eq (by ring)
    · have hnn : 0 ≤ H x' := C08_asep_nonneg r hr.1 hr.2.1 hr.2.2.1 hr.2.2.2.1 hr.2.2.2.2.1 hr.2.2.2.2.2 x x' (Ne.symm hxx)
      refine (Complex.re_le_norm _).trans ?_
      rw [norm_mul, norm_mul, RCLike.norm_conj, Complex.norm_real, Real.norm_of_nonneg hnn]
      refine mul_le_mul_of_nonneg_left ?_ (norm_nonneg _)
      have h1 : ‖v x'‖ ≤ u * psi x' := (div_le_iff₀ (hpsi x')).mp (hx x')
      calc H x' * ‖v x'‖ ≤ H x' * (u * psi x') := mul_le_mul_of_nonneg_left h1 hnn
        _ = u * (H x' * psi x') := by ring
  have hsum : (z * (‖v x‖ ^ 2 : ℝ)).re ≤ ‖v x‖ * (u * ∑ x', H x' * psi x') := by
    have e1 : z * ((‖v x‖ ^ 2 : ℝ) : ℂ) = ∑ x', (starRingEnd ℂ) (v x) * ((H x' : ℂ) * v x') := by
      rw [← Finset.mul_sum, he x, mul_left_comm, Complex.conj_mul']
      push_cast
      rfl
    rw [e1, Complex.re_sum, Finset.mul_sum, Finset.mul_sum]
    exact Finset.sum_le_sum fun x' _ => hterm x'
  have hloc : ∑ x', H x' * psi x' = localEnergy r psi x * psi x := by
    unfold localEnergy
    rw [sum_entries, div_mul_cancel₀ _ (hpsi x).ne']
  rw [hloc, Complex.re_mul_ofReal] at hsum
  have h2 : u * psi x = ‖v x‖ := div_mul_cancel₀ _ (hpsi x).ne'
  have h3 : ‖v x‖ * (u * (localEnergy r psi x * psi x)) = localEnergy r psi x * ‖v x‖ ^ 2 := by
    rw [show u * (localEnergy r psi x * psi x) = localEnergy r psi x * (u * psi x) by ring, h2]; ring
  rw [h3] at hsum
  exact (le_of_mul_le_mul_right hsum (by positivity)).trans (hb x)

/-- C168: an eigenvalue with a nonnegative left eigenvector, such as that of the stationary distribution, is at least the smallest
local energy of any positive amplitudes; so it is between the smallest and the largest. -/
theorem C168_lower (r : AsepRates) (psi : Chain n → ℝ) (hpsi : ∀ x, 0 < psi x) (b : ℝ)
    (hb : ∀ x, b ≤ localEnergy r psi x) (z : ℝ) (u : Chain n → ℝ) (hu : ∀ x, 0 ≤ u x) (hu0 : u ≠ 0)
    (he : ∀ x', ∑ x, u x * rowElem (kernel r [x]).out x' = z * u x') : b ≤ z := by
  have h1 : z * ∑ x, u x * psi x = ∑ x, u x * (localEnergy r psi x * psi x) := by
    have : ∀ x, localEnergy r psi x * psi x = ∑ x', rowElem (kernel r [x]).out x' * psi x' := by
      intro x
      unfold localEnergy
      rw [sum_entries, div_mul_cancel₀ _ (hpsi x).ne']
    simp only [this, Finset.mul_sum]
    rw [Finset.sum_comm]
    apply Finset.sum_congr rfl
    intro x' _
    rw [← mul_assoc, ← he x', Finset.sum_mul]
    apply Finset.sum_congr rfl
    intro x _
    ring
  have h2 : b * ∑ x, u x * psi x ≤ z * ∑ x, u x * psi x := by
    rw [h1, Finset.mul_sum]
    apply Finset.sum_le_sum
    intro x _
    calc b * (u x * psi x) = u x * (b * psi x) := by ring
      _ ≤ u x * (localEnergy r psi x * psi x) :=
        mul_le_mul_of_nonneg_left (mul_le_mul_of_nonneg_right (hb x) (hpsi x).le) (hu x)
  obtain ⟨x0, hx0⟩ := Function.ne_iff.mp hu0
  have h3 : 0 < ∑ x, u x * psi x := by
    refine Finset.sum_pos' (fun x _ => mul_nonneg (hu x) (hpsi x).le) ⟨x0, Finset.mem_univ x0, ?_⟩
    exact mul_pos (lt_of_le_of_ne (hu x0) (Ne.symm hx0)) (hpsi x0)
  exact le_of_mul_le_mul_right h2 h3

/-- C168: positive amplitudes with the same local energy everywhere (zero variance) are an eigenvector of the eigenvalue with the
largest real part: what the variance certifies is the cumulant generating function, not an excited state. -/
theorem C168_top (r : AsepRates) (hr : Nonneg r) (psi : Chain n → ℝ) (hpsi : ∀ x, 0 < psi x) (c : ℝ)
    (hc : ∀ x, localEnergy r psi x = c) : IsEigenvalue r n c ∧ ∀ z, IsEigenvalue r n z → z.re ≤ c := by
  refine ⟨⟨fun x => (psi x : ℂ), ?_, ?_⟩, fun z hz => C168_upper r hr psi hpsi c (fun x => (hc x).le) z hz⟩
  · intro h
    have h1 : ((psi 0 : ℝ) : ℂ) = 0 := congrFun h 0
    exact (hpsi 0).ne' (by exact_mod_cast h1)
  · intro x
    have h := hc x
    unfold localEnergy at h
    rw [sum_entries, div_eq_iff (hpsi x).ne'] at h
    beta_reduce
    exact_mod_cast h

/-- C168: without a counting field constant amplitudes have local energy zero everywhere, zero is an eigenvalue, and all other
eigenvalues have nonpositive real parts. -/
theorem C168_stationary (r : AsepRates) (hr : Nonneg r) (h0 : r.lambd = 0) :
    (∀ x : Chain n, localEnergy r (fun _ => 1) x = 0) ∧ IsEigenvalue r n 0 ∧ ∀ z, IsEigenvalue r n z → z.re ≤ 0 := by
  have h : ∀ x : Chain n, localEnergy r (fun _ => 1) x = 0 := by
    intro x
    unfold localEnergy
    have := sum_entries (kernel r [x]).out (fun _ : Chain n => (1 : ℝ))
    rw [this]
    simp only [mul_one, div_one]
    exact (C08_asep_probability r h0 x).2
  obtain ⟨h1, h2⟩ := C168_top r hr (fun _ => 1) (fun _ => one_pos) 0 h
  exact ⟨h, by exact_mod_cast h1, h2⟩

/-- All rates are positive. -/
def Positive (r : AsepRates) : Prop := 0 < r.alpha ∧ 0 < r.beta ∧ 0 < r.gamma ∧ 0 < r.delta ∧ 0 < r.p ∧ 0 < r.q

theorem Positive.nonneg {r : AsepRates} (h : Positive r) : Nonneg r :=
  ⟨h.1.le, h.2.1.le, h.2.2.1.le, h.2.2.2.1.le, h.2.2.2.2.1.le, h.2.2.2.2.2.le⟩

/-- C168: for positive rates and any counting field there is a real eigenvalue with the largest real part, positive amplitudes have it as
their local energy everywhere, and it lies between the smallest and the largest local energy of all positive amplitudes. -/
theorem C168_perron (r : AsepRates) (hr : Positive r) (n : ℕ) :
    ∃ theta : ℝ, IsEigenvalue r n theta ∧ (∀ z, IsEigenvalue r n z → z.re ≤ theta) ∧
      (∃ psi : Chain n → ℝ, (∀ x, 0 < psi x) ∧ ∀ x, localEnergy r psi x = theta) ∧
      ∀ phi : Chain n → ℝ, (∀ x, 0 < phi x) → (∃ x, localEnergy r phi x ≤ theta) ∧ ∃ x, theta ≤ localEnergy r phi x := by
  have hoff : ∀ x x' : Chain n, x ≠ x' → 0 ≤ asepGenerator r x x' := by
    intro x x' h
    rw [← C09_asep_generator]
    exact C08_asep_nonneg r hr.1.le hr.2.1.le hr.2.2.1.le hr.2.2.2.1.le hr.2.2.2.2.1.le hr.2.2.2.2.2.le x x' h
  -- a shift makes all entries nonnegative
  obtain ⟨c, hc⟩ : ∃ c : ℝ, ∀ x : Chain n, 0 ≤ asepGenerator r x x + c := by
    obtain ⟨x0, -, h0⟩ := Finset.exists_min_image Finset.univ (fun x : Chain n => asepGenerator r x x) Finset.univ_nonempty
    refine ⟨-asepGenerator r x0 x0, fun x => ?_⟩
    have := h0 x (Finset.mem_univ x)
    linarith
  have hnn : ∀ x x' : Chain n, 0 ≤ asepGenerator r x x' + if x = x' then c else 0 := by
    intro x x'
    by_cases h : x = x'
    · subst h; rw [if_pos rfl]; exact hc x
    · rw [if_neg h, add_zero]; exact hoff x x' h
  obtain ⟨v, hv, t, ht⟩ := PF.exists_nonneg (fun x x' : Chain n => asepGenerator r x x' + if x = x' then c else 0) hnn
  obtain ⟨u, hu, s, hs⟩ := PF.exists_nonneg (fun x' x : Chain n => asepGenerator r x x' + if x = x' then c else 0) (fun x' x => hnn x x')
  have hv' : ∀ x, ∑ x', asepGenerator r x x' * v x' = (t - c) * v x := by
    intro x
    have := ht x
    simp only [add_mul, Finset.sum_add_distrib, ite_mul, zero_mul, Finset.sum_ite_eq, Finset.mem_univ, if_true] at this
    linarith
  have hu' : ∀ x', ∑ x, u x * asepGenerator r x x' = (s - c) * u x' := by
    intro x'
    have := hs x'
    simp only [add_mul, Finset.sum_add_distrib, ite_mul, zero_mul, Finset.sum_ite_eq', Finset.mem_univ, if_true] at this
    simp only [mul_comm (u _)]
    linarith
  -- the eigenvector is positive
  have hstep : ∀ (x : Chain n) (m : AsepMove n), m.enabled x → 0 < v (m.target x) → 0 < v x := by
    intro x m hm hpos
    by_contra hx
    have hx0 : v x = 0 := le_antisymm (not_lt.mp hx) (hv.1 x)
    have h1 := hv' x
    rw [hx0, mul_zero] at h1
    have hnn2 : ∀ x' ∈ Finset.univ, 0 ≤ asepGenerator r x x' * v x' := by
      intro x' _
      by_cases h : x = x'
      · rw [← h, hx0, mul_zero]
      · exact mul_nonneg (hoff x x' h) (hv.1 x')
    have h2 := (Finset.sum_eq_zero_iff_of_nonneg hnn2).mp h1 (m.target x) (Finset.mem_univ _)
    have h3 : 0 < asepGenerator r x (m.target x) := by
      rw [gen_offdiag r (target_ne hm).symm]
      have hw : ∀ m : AsepMove n, 0 < weight r m := by
        intro m
        have : 0 < m.rate r := by
          obtain ⟨h1, h2, h3, h4, h5, h6⟩ := hr
          cases m <;> assumption
        exact mul_pos this (Real.exp_pos _)
      refine Finset.sum_pos' (fun m' _ => ?_) ⟨m, Finset.mem_univ m, ?_⟩
      · split_ifs
        · exact (hw m').le
        · exact le_rfl
      · rw [if_pos ⟨hm, rfl⟩]
        exact hw m
    exact (mul_pos h3 hpos).ne' h2
  have hconn : ∀ x, 0 < v x ↔ 0 < v 0 := by
    refine connected (fun x => 0 < v x) (fun x m hm => ⟨hstep x m hm, fun h => ?_⟩)
    have h2 := rev_spec ⟨hm, rfl⟩
    exact hstep (m.target x) (rev m) h2.1 (by rw [h2.2]; exact h)
  have hpos : ∀ x, 0 < v x := by
    have h0 : 0 < v 0 := by
      by_contra h0
      have : ∀ x, v x = 0 := fun x => le_antisymm (not_lt.mp fun h => h0 ((hconn x).mp h)) (hv.1 x)
      have h1 := hv.2
      simp [this] at h1
    exact fun x => (hconn x).mpr h0
  have hloc : ∀ x, localEnergy r v x = t - c := by
    intro x
    unfold localEnergy
    rw [sum_entries, div_eq_iff (hpos x).ne']
    simp only [C09_asep_generator]
    exact hv' x
  have hu0 : u ≠ 0 := by
    intro h
    have := hu.2
    simp [h] at this
  have hleft : ∀ x', ∑ x, u x * rowElem (kernel r [x]).out x' = (s - c) * u x' := by
    simp only [C09_asep_generator]
    exact hu'
  obtain ⟨h1, h2⟩ := C168_top r hr.nonneg v hpos (t - c) hloc
  -- the left eigenvector belongs to the same eigenvalue
  have hst : s - c = t - c := by
    have e : (s - c) * ∑ x, u x * v x = (t - c) * ∑ x, u x * v x := by
      have e1 : (s - c) * ∑ x, u x * v x = ∑ x', ∑ x, u x * asepGenerator r x x' * v x' := by
        rw [Finset.mul_sum]
        apply Finset.sum_congr rfl
        intro x' _
        rw [← Finset.sum_mul, hu' x', mul_assoc]
      have e2 : (t - c) * ∑ x, u x * v x = ∑ x, ∑ x', u x * asepGenerator r x x' * v x' := by
        rw [Finset.mul_sum]
        apply Finset.sum_congr rfl
        intro x _
        rw [show (t - c) * (u x * v x) = u x * ((t - c) * v x) by ring, ← hv' x, Finset.mul_sum]
        exact Finset.sum_congr rfl fun x' _ => by ring
      rw [e1, e2, Finset.sum_comm]
    obtain ⟨x0, hx0⟩ := Function.ne_iff.mp hu0
    have h3 : 0 < ∑ x, u x * v x := by
      refine Finset.sum_pos' (fun x _ => mul_nonneg (hu.1 x) (hpos x).le) ⟨x0, Finset.mem_univ x0, ?_⟩
      exact mul_pos (lt_of_le_of_ne (hu.1 x0) (Ne.symm hx0)) (hpos x0)
    exact mul_right_cancel₀ h3.ne' e
  refine ⟨t - c, h1, h2, ⟨v, hpos, hloc⟩, fun phi hphi => ⟨?_, ?_⟩⟩
  · obtain ⟨x, -, hx⟩ := Finset.exists_min_image Finset.univ (localEnergy r phi) Finset.univ_nonempty
    refine ⟨x, ?_⟩
    rw [← hst]
    exact C168_lower r phi hphi _ (fun y => hx y (Finset.mem_univ y)) (s - c) u hu.1 hu0 hleft
  · obtain ⟨x, -, hx⟩ := Finset.exists_max_image Finset.univ (localEnergy r phi) Finset.univ_nonempty
    refine ⟨x, ?_⟩
    have := C168_upper r hr.nonneg phi hphi _ (fun y => hx y (Finset.mem_univ y)) _ h1
    rwa [Complex.ofReal_re] at this

/-- C168, the fluctuation theorem: for positive rates, the operators with counting fields `lambda` and `E - lambda` have the same
eigenvalues, with `E` the logarithm of the ratio of the products of the rates against and along the current, divided by the number
`L + 1` of bonds and boundaries. -/
theorem C168_fluctuation (r : AsepRates) (hr : Positive r) (n : ℕ) :
    let E := Real.log ((r.gamma * r.beta * r.q ^ n) / (r.alpha * r.delta * r.p ^ n)) / (n + 2)
    (Matrix.of fun x x' : Chain n => rowElem (kernel r [x]).out x').charpoly
      = (Matrix.of fun x x' : Chain n => rowElem (kernel { r with lambd := E - r.lambd } [x]).out x').charpoly := by
  obtain ⟨ha, hb, hg, hd, hp, hq⟩ := hr
  intro E
  set r' : AsepRates := { r with lambd := E - r.lambd } with hr'
  have hE : (n + 2) * E = Real.log (r.gamma / r.alpha) + n * Real.log (r.q / r.p) + Real.log (r.beta / r.delta) := by
    have hn : (n : ℝ) + 2 ≠ 0 := by positivity
    simp only [E]
    rw [mul_div_cancel₀ _ hn, Real.log_div (by positivity) (by positivity), Real.log_mul (by positivity) (by positivity),
      Real.log_mul (by positivity) (by positivity), Real.log_mul (by positivity) (by positivity),
      Real.log_mul (by positivity) (by positivity), Real.log_pow, Real.log_pow, Real.log_div hg.ne' ha.ne',
      Real.log_div hq.ne' hp.ne', Real.log_div hb.ne' hd.ne']
    ring
  -- the levels
  set h : Fin (n + 1) → ℝ := fun j => (Real.log (r.gamma / r.alpha) - E) + (j.val : ℝ) * (Real.log (r.q / r.p) - E) with hh
  have hlast : h (Fin.last n) = E - Real.log (r.beta / r.delta) := by
    simp only [hh, Fin.val_last]
    linarith
  have h0 : h 0 = Real.log (r.gamma / r.alpha) - E := by simp [hh]
  have hstep : ∀ i : Fin n, h i.succ - h i.castSucc = Real.log (r.q / r.p) - E := by
    intro i
    simp only [hh, Fin.val_succ, Fin.val_castSucc]
    push_cast
    ring
  -- a right move with rate `a` and its reverse with rate `b`
  have hpair : ∀ a b : ℝ, 0 < a → 0 < b →
      b * Real.exp (r.lambd * -1) = Real.exp (Real.log (b / a) - E) * (a * Real.exp ((E - r.lambd) * 1)) := by
    intro a b ha hb
    rw [Real.exp_sub, Real.exp_log (div_pos hb ha), mul_one, Real.exp_sub, mul_neg_one, Real.exp_neg]
    have := Real.exp_pos E
    have := Real.exp_pos r.lambd
    field_simp
  have hpair' : ∀ a b : ℝ, 0 < a → 0 < b →
      a * Real.exp (r.lambd * 1) = Real.exp (-(Real.log (b / a) - E)) * (b * Real.exp ((E - r.lambd) * -1)) := by
    intro a b ha hb
    rw [neg_sub, Real.exp_sub, Real.exp_log (div_pos hb ha), mul_one, mul_neg_one, neg_sub, Real.exp_sub]
    have := Real.exp_pos E
    have := Real.exp_pos r.lambd
    field_simp
  have key : ∀ x x' : Chain n, asepGenerator r x' x = Real.exp (level h x' - level h x) * asepGenerator r' x x' := by
    refine gen_transpose r r' h (fun m => by cases m <;> rfl) ?_
    intro m
    cases m with
    | injectLeft =>
      show r.gamma * Real.exp (r.lambd * -1) = Real.exp (h 0) * (r.alpha * Real.exp ((E - r.lambd) * 1))
      rw [h0]; exact hpair _ _ ha hg
    | ejectLeft =>
      show r.alpha * Real.exp (r.lambd * 1) = Real.exp (-h 0) * (r.gamma * Real.exp ((E - r.lambd) * -1))
      rw [h0]; exact hpair' _ _ ha hg
    | injectRight =>
      show r.delta * Real.exp (r.lambd * 1) = Real.exp (h (Fin.last n)) * (r.beta * Real.exp ((E - r.lambd) * -1))
      rw [hlast, ← neg_sub]; exact hpair' _ _ hd hb
    | ejectRight =>
      show r.beta * Real.exp (r.lambd * -1) = Real.exp (-h (Fin.last n)) * (r.delta * Real.exp ((E - r.lambd) * 1))
      rw [hlast, neg_sub]; exact hpair _ _ hd hb
    | hopRight i =>
      show r.q * Real.exp (r.lambd * -1) = Real.exp (h i.succ - h i.castSucc) * (r.p * Real.exp ((E - r.lambd) * 1))
      rw [hstep]; exact hpair _ _ hp hq
    | hopLeft i =>
      show r.p * Real.exp (r.lambd * 1) = Real.exp (h i.castSucc - h i.succ) * (r.q * Real.exp ((E - r.lambd) * -1))
      rw [← neg_sub, hstep]; exact hpair' _ _ hp hq
  simp only [C09_asep_generator]
  set A : Matrix (Chain n) (Chain n) ℝ := Matrix.of fun x x' => asepGenerator r x x'
  set B : Matrix (Chain n) (Chain n) ℝ := Matrix.of fun x x' => asepGenerator r' x x'
  let U : (Matrix (Chain n) (Chain n) ℝ)ˣ :=
    { val := Matrix.diagonal fun x => Real.exp (-level h x)
      inv := Matrix.diagonal fun x => Real.exp (level h x)
      val_inv := by
        rw [Matrix.diagonal_mul_diagonal, ← Matrix.diagonal_one]
        congr 1; funext x; rw [← Real.exp_add, neg_add_cancel, Real.exp_zero]
      inv_val := by
        rw [Matrix.diagonal_mul_diagonal, ← Matrix.diagonal_one]
        congr 1; funext x; rw [← Real.exp_add, add_neg_cancel, Real.exp_zero] }
  have hsim : A.transpose = U.val * B * (U⁻¹).val := by
    ext x x'
    show asepGenerator r x' x = _
    rw [key]
    show _ = ((Matrix.diagonal fun x => Real.exp (-level h x)) * B * Matrix.diagonal fun x => Real.exp (level h x)) x x'
    rw [Matrix.mul_diagonal, Matrix.diagonal_mul, sub_eq_add_neg, Real.exp_add]
    show _ = Real.exp (-level h x) * asepGenerator r' x x' * Real.exp (level h x')
    ring
  rw [← Matrix.charpoly_transpose A, hsim, Matrix.coe_units_inv, Matrix.charpoly_units_conj]

/-- Rates and a counting field that meet the hypotheses: those of the tutorial, two sites, amplitudes that are not constant. -/
example : Nonneg ⟨1/5, 1/2, 1/2, 1/2, 1/2, 1/2, 1/2⟩ ∧ Positive ⟨1/5, 1/2, 1/2, 1/2, 1/2, 1/2, 1/2⟩ ∧ (∀ x : Chain 1, (0 : ℝ) < 1 + (x 0).val) ∧
    ∃ b, ∀ x : Chain 1, localEnergy ⟨1/5, 1/2, 1/2, 1/2, 1/2, 1/2, 1/2⟩ (fun x => 1 + ((x 0).val : ℝ)) x ≤ b := by
  refine ⟨by unfold Nonneg; norm_num, by unfold Positive; norm_num, fun x => by positivity, ?_⟩
  obtain ⟨x, -, hx⟩ := Finset.exists_max_image (Finset.univ : Finset (Chain 1))
    (localEnergy ⟨1/5, 1/2, 1/2, 1/2, 1/2, 1/2, 1/2⟩ (fun x => 1 + ((x 0).val : ℝ))) Finset.univ_nonempty
  exact ⟨_, fun x' => hx x' (Finset.mem_univ x')⟩

/-- The fluctuation theorem relates different operators: with rate 2 of injection and 1 otherwise, and without counting field, the
other counting field is not zero. -/
example : Real.log ((1 * 1 * 1 ^ 0) / (2 * 1 * 1 ^ 0)) / ((0 : ℕ) + 2) - 0 ≠ 0 := by
  have : Real.log ((1 * 1 * 1 ^ 0) / (2 * 1 * 1 ^ 0)) < 0 := Real.log_neg (by norm_num) (by norm_num)
  have h2 : Real.log ((1 * 1 * 1 ^ 0) / (2 * 1 * 1 ^ 0)) / ((0 : ℕ) + 2) - 0 < 0 := by
    rw [sub_zero]
    exact div_neg_of_neg_of_pos this (by norm_num)
  exact h2.ne

end GPSKet.AsepSpectrum
