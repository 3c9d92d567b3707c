import Verif.Props.Descent

/-!
# The updates of the drivers are projected imaginary-time steps (C164)

A step of imaginary time changes a state along `-H ψ`.  A step `-η u` of the parameters changes it along `-∑ k, u k * ∂ψ/∂θ k`.  Changes of the
norm and of the global phase (multiples of `ψ`) do not matter.  If the relative frequencies of the samples are the Born probabilities, then
the update is the change of the parameters which approximates the step of imaginary time best.
-/

namespace GPSKet.ImagProjection

open GPSKet.Spec GPSKet.Props GPSKet.RMSProp GPSKet.Descent

variable {C S : Type} [Fintype C] [DecidableEq C] [Fintype S] {P : ℕ}

/-- Specification: the squared distance, per norm of the state, between the change `∑ k, v k * D k` of the state together with the multiple
`α` of the state, and `τ` times the change `H ψ`. -/
noncomputable def distance (H : C → C → ℂ) (psi : C → ℂ) (D : Fin P → C → ℂ) (τ : ℝ) (v : Fin P → ℂ) (α : ℂ) : ℝ :=
  (∑ c, ‖(∑ k, v k * D k c) + α * psi c - (τ : ℂ) * ∑ y, H c y * psi y‖ ^ 2) / bornNorm psi

/-! ## Sample averages as inner products -/

/-- The operator `|φ⟩⟨ψ| / ⟨ψ|ψ⟩`, which maps `ψ` to `φ`. -/
noncomputable def rankOne (psi phi : C → ℂ) (x y : C) : ℂ := phi x * (starRingEnd ℂ) (psi y) / (bornNorm psi : ℂ)

omit [DecidableEq C] in
theorem norm_sum (psi : C → ℂ) : ∑ y, (starRingEnd ℂ) (psi y) * psi y = (bornNorm psi : ℂ) := by
  unfold bornNorm
  rw [Complex.ofReal_sum]
  refine Finset.sum_congr rfl fun y _ => ?_
  rw [mul_comm, Complex.mul_conj, Complex.normSq_eq_norm_sq]

omit [DecidableEq C] in
theorem rankOne_apply (psi phi : C → ℂ) (hn : bornNorm psi ≠ 0) (c : C) : ∑ y, rankOne psi phi c y * psi y = phi c := by
  have hn' : (bornNorm psi : ℂ) ≠ 0 := by exact_mod_cast hn
  have : ∑ y, rankOne psi phi c y * psi y = phi c / (bornNorm psi : ℂ) * ∑ y, (starRingEnd ℂ) (psi y) * psi y := by
    rw [Finset.mul_sum]
    exact Finset.sum_congr rfl fun y _ => by unfold rankOne; ring
  rw [this, norm_sum]
  field_simp

/-- The mean of a derivative along `ψ`. -/
noncomputable def overlap (psi phi : C → ℂ) : ℂ := (∑ c, (starRingEnd ℂ) (psi c) * phi c) / (bornNorm psi : ℂ)

omit [DecidableEq C] in
theorem rayleigh_eq (H : C → C → ℂ) (psi : C → ℂ) : rayleigh H psi = overlap psi fun c => ∑ y, H c y * psi y := by
  unfold rayleigh overlap
  congr 1
  refine Finset.sum_congr rfl fun c _ => ?_
  rw [Finset.mul_sum]
  exact Finset.sum_congr rfl fun y _ => by ring

/-- The geometric tensor in terms of the derivatives of the amplitudes. -/
theorem matrix_eq (hS : 0 < Fintype.card S) (x : S → C) (psi : C → ℂ) (hn : bornNorm psi ≠ 0) (D : Fin P → C → ℂ) (hx : Represents x psi)
    (h0 : ∀ k c, psi c = 0 → D k c = 0) (k l : Fin P) :
    srMatrix (fun s k => D k (x s) / psi (x s)) k l =
      (∑ c, (starRingEnd ℂ) (D k c) * (D l c - overlap psi (D l) * psi c)) / (bornNorm psi : ℂ) := by
  have h1 := force_eq hS x (rankOne psi (D l)) psi D hx h0 k
  rw [rayleigh_eq] at h1
  simp only [rankOne_apply psi (D l) hn] at h1
  rw [← h1]
  have h2 : (fun s => localValue (rankOne psi (D l)) psi (x s)) = fun s => D l (x s) / psi (x s) := by
    funext s
    unfold localValue
    rw [rankOne_apply psi (D l) hn]
  rw [h2]
  rfl

/-- The residual of the best approximation. -/
noncomputable def residual (H : C → C → ℂ) (psi : C → ℂ) (D : Fin P → C → ℂ) (τ : ℝ) (v : Fin P → ℂ) (α : ℂ) (c : C) : ℂ :=
  (∑ k, v k * D k c) + α * psi c - (τ : ℂ) * ∑ y, H c y * psi y

/-- The best multiple of the state. -/
noncomputable def bestScale (H : C → C → ℂ) (psi : C → ℂ) (D : Fin P → C → ℂ) (τ : ℝ) (v : Fin P → ℂ) : ℂ :=
  (τ : ℂ) * rayleigh H psi - ∑ l, v l * overlap psi (D l)

omit [DecidableEq C] in
theorem overlap_residual (H : C → C → ℂ) (psi : C → ℂ) (hn : bornNorm psi ≠ 0) (D : Fin P → C → ℂ) (τ : ℝ) (v : Fin P → ℂ) (α : ℂ) :
    ∑ c, (starRingEnd ℂ) (psi c) * residual H psi D τ v α c = (bornNorm psi : ℂ) * (α - bestScale H psi D τ v) := by
  have hn' : (bornNorm psi : ℂ) ≠ 0 := by exact_mod_cast hn
  have h1 : ∀ c, (starRingEnd ℂ) (psi c) * residual H psi D τ v α c = (∑ l, v l * ((starRingEnd ℂ) (psi c) * D l c)) +
      α * ((starRingEnd ℂ) (psi c) * psi c) - (τ : ℂ) * ((starRingEnd ℂ) (psi c) * ∑ y, H c y * psi y) := by
    intro c
    unfold residual
    rw [mul_sub, mul_add, Finset.mul_sum]
    congr 1
    · congr 1
      · exact Finset.sum_congr rfl fun l _ => by ring
      · ring
    · ring
  simp only [h1]
  rw [Finset.sum_sub_distrib, Finset.sum_add_distrib, Finset.sum_comm, ← Finset.mul_sum, ← Finset.mul_sum, norm_sum]
  simp only [← Finset.mul_sum]
  unfold bestScale
  rw [rayleigh_eq]
  unfold overlap
  generalize ∑ c, (starRingEnd ℂ) (psi c) * ∑ y, H c y * psi y = h
  generalize hA : (fun l => ∑ c, (starRingEnd ℂ) (psi c) * D l c) = A
  have hA' : ∀ l, ∑ c, (starRingEnd ℂ) (psi c) * D l c = A l := fun l => congrFun hA l
  simp only [hA']
  have h2 : ∑ l, v l * (A l / (bornNorm psi : ℂ)) = (∑ l, v l * A l) / (bornNorm psi : ℂ) := by
    rw [Finset.sum_div]; exact Finset.sum_congr rfl fun l _ => by ring
  rw [h2]
  field_simp
  ring

theorem tangent_residual (hS : 0 < Fintype.card S) (x : S → C) (H : C → C → ℂ) (psi : C → ℂ) (hn : bornNorm psi ≠ 0) (D : Fin P → C → ℂ)
    (hx : Represents x psi) (h0 : ∀ k c, psi c = 0 → D k c = 0) (τ : ℝ) (v : Fin P → ℂ) (k : Fin P) :
    ∑ c, (starRingEnd ℂ) (D k c) * residual H psi D τ v (bestScale H psi D τ v) c =
      (bornNorm psi : ℂ) * ((∑ l, srMatrix (fun s k => D k (x s) / psi (x s)) k l * v l) -
        (τ : ℂ) * srForce (fun s k => D k (x s) / psi (x s)) (fun s => localValue H psi (x s)) k) := by
  have hn' : (bornNorm psi : ℂ) ≠ 0 := by exact_mod_cast hn
  rw [force_eq hS x H psi D hx h0]
  simp only [matrix_eq hS x psi hn D hx h0]
  have h1 : ∀ c, (starRingEnd ℂ) (D k c) * residual H psi D τ v (bestScale H psi D τ v) c =
      (∑ l, (starRingEnd ℂ) (D k c) * (D l c - overlap psi (D l) * psi c) * v l) -
        (τ : ℂ) * ((starRingEnd ℂ) (D k c) * ((∑ y, H c y * psi y) - rayleigh H psi * psi c)) := by
    intro c
    unfold residual bestScale
    have : ∑ l, (starRingEnd ℂ) (D k c) * (D l c - overlap psi (D l) * psi c) * v l =
        (starRingEnd ℂ) (D k c) * ((∑ l, v l * D l c) - (∑ l, v l * overlap psi (D l)) * psi c) := by
      rw [Finset.sum_mul, ← Finset.sum_sub_distrib, Finset.mul_sum]
      exact Finset.sum_congr rfl fun l _ => by ring
    rw [this]
    ring
  simp only [h1]
  rw [Finset.sum_sub_distrib, Finset.sum_comm, ← Finset.mul_sum, mul_sub]
  congr 1
  · rw [Finset.mul_sum]
    refine Finset.sum_congr rfl fun l _ => ?_
    rw [← Finset.sum_mul]
    field_simp
  · generalize ∑ c, (starRingEnd ℂ) (D k c) * ((∑ y, H c y * psi y) - rayleigh H psi * psi c) = h
    field_simp

/-- Pythagoras: the squared norm of a sum. -/
theorem sq_add (a b : ℂ) : ‖a + b‖ ^ 2 = ‖a‖ ^ 2 + ‖b‖ ^ 2 + 2 * ((starRingEnd ℂ) b * a).re := by
  simp only [← Complex.normSq_eq_norm_sq, Complex.normSq_apply, Complex.mul_re, Complex.conj_re, Complex.conj_im, Complex.add_re, Complex.add_im]
  ring

/-- The change of the state which a change of the parameters causes. -/
noncomputable def change (psi : C → ℂ) (D : Fin P → C → ℂ) (w : Fin P → ℂ) (β : ℂ) (c : C) : ℂ := (∑ k, w k * D k c) + β * psi c

omit [DecidableEq C] in
theorem distance_split (H : C → C → ℂ) (psi : C → ℂ) (D : Fin P → C → ℂ) (τ : ℝ) (u v : Fin P → ℂ) (α₀ α : ℂ) :
    distance H psi D τ v α = distance H psi D τ u α₀ + (∑ c, ‖change psi D (v - u) (α - α₀) c‖ ^ 2) / bornNorm psi +
      2 * ((∑ k, (starRingEnd ℂ) (v k - u k) * ∑ c, (starRingEnd ℂ) (D k c) * residual H psi D τ u α₀ c) +
        (starRingEnd ℂ) (α - α₀) * ∑ c, (starRingEnd ℂ) (psi c) * residual H psi D τ u α₀ c).re / bornNorm psi := by
  unfold distance
  rw [← add_div, ← add_div]
  congr 1
  have h1 : ∀ c, (∑ k, v k * D k c) + α * psi c - (τ : ℂ) * ∑ y, H c y * psi y =
      residual H psi D τ u α₀ c + change psi D (v - u) (α - α₀) c := by
    intro c
    unfold residual change
    simp only [Pi.sub_apply, sub_mul, Finset.sum_sub_distrib]
    ring
  simp only [h1, sq_add, Finset.sum_add_distrib, ← Finset.mul_sum]
  congr 2
  rw [← Complex.re_sum]
  congr 1
  unfold change
  have h2 : ∀ c, (starRingEnd ℂ) ((∑ k, (v - u) k * D k c) + (α - α₀) * psi c) * residual H psi D τ u α₀ c =
      (∑ k, (starRingEnd ℂ) (v k - u k) * ((starRingEnd ℂ) (D k c) * residual H psi D τ u α₀ c)) +
        (starRingEnd ℂ) (α - α₀) * ((starRingEnd ℂ) (psi c) * residual H psi D τ u α₀ c) := by
    intro c
    rw [map_add, map_sum, add_mul, Finset.sum_mul, map_mul]
    congr 1
    · refine Finset.sum_congr rfl fun k _ => ?_
      rw [map_mul, Pi.sub_apply]; ring
    · ring
  simp only [h2, Finset.sum_add_distrib]
  rw [Finset.sum_comm]
  simp only [← Finset.mul_sum]

omit [DecidableEq C] in
theorem norm_pos_of_ne {psi : C → ℂ} (hn : bornNorm psi ≠ 0) : 0 < bornNorm psi :=
  lt_of_le_of_ne (Finset.sum_nonneg fun _ _ => sq_nonneg _) (Ne.symm hn)

omit [DecidableEq C] in
theorem change_nonneg (psi : C → ℂ) (hn : bornNorm psi ≠ 0) (D : Fin P → C → ℂ) (w : Fin P → ℂ) (β : ℂ) :
    0 ≤ (∑ c, ‖change psi D w β c‖ ^ 2) / bornNorm psi :=
  div_nonneg (Finset.sum_nonneg fun _ _ => sq_nonneg _) (norm_pos_of_ne hn).le

/-- A minimum-norm solution of a linear system is the only one of its norm. -/
theorem strict_of_min (A : Fin P → Fin P → ℂ) (b u : Fin P → ℂ) (hu : ∀ k, ∑ l, A k l * u l = b k)
    (hmin : ∀ y : Fin P → ℂ, (∀ k, ∑ l, A k l * y l = b k) → ∑ k, ‖u k‖ ^ 2 ≤ ∑ k, ‖y k‖ ^ 2) (v : Fin P → ℂ)
    (hv : ∀ k, ∑ l, A k l * v l = b k) (hne : v ≠ u) : ∑ k, ‖u k‖ ^ 2 < ∑ k, ‖v k‖ ^ 2 := by
  have hw := hmin (fun k => (u k + v k) / 2) (fun k => by
    have : ∑ l, A k l * ((u l + v l) / 2) = ((∑ l, A k l * u l) + ∑ l, A k l * v l) / 2 := by
      rw [← Finset.sum_add_distrib, Finset.sum_div]
      exact Finset.sum_congr rfl fun l _ => by ring
    rw [this, hu, hv]; ring)
  have hpar : ∀ k, ‖(u k + v k) / 2‖ ^ 2 = (‖u k‖ ^ 2 + ‖v k‖ ^ 2) / 2 - ‖v k - u k‖ ^ 2 / 4 := by
    intro k
    have : (u k + v k) / 2 = ((1 / 2 : ℝ) : ℂ) * (u k + v k) := by push_cast; ring
    rw [this]
    simp only [← Complex.normSq_eq_norm_sq, Complex.normSq_apply, Complex.re_ofReal_mul, Complex.im_ofReal_mul, Complex.add_re, Complex.add_im,
      Complex.sub_re, Complex.sub_im]
    ring
  simp only [hpar, Finset.sum_sub_distrib, ← Finset.sum_div, Finset.sum_add_distrib] at hw
  have hpos : 0 < ∑ k, ‖v k - u k‖ ^ 2 := by
    obtain ⟨k, hk⟩ := Function.ne_iff.mp hne
    refine Finset.sum_pos' (fun _ _ => sq_nonneg _) ⟨k, Finset.mem_univ _, ?_⟩
    exact pow_pos (norm_pos_iff.mpr (sub_ne_zero.mpr hk)) 2
  linarith

/-! ## The theorems -/

/-- **C164**, `minSRVMC` with complex parameters on which the amplitudes depend holomorphically: no change of the parameters, of the norm and of the
phase approximates the step of imaginary time better than the update, and every other change which is as good is longer.  For every
least-squares solver, number of ranks, chunks and samples. -/
theorem C164_minSR_holomorphic {R K B : ℕ} (hS : 0 < Fintype.card (MinSR.Sample R K B)) (H : C → C → ℂ)
    (psi : (Fin P → ℂ) → C → ℂ) (θ : Fin P → ℂ) (D : C → (Fin P → ℂ) →L[ℂ] ℂ) (_hd : ∀ c, HasFDerivAt (fun θ => psi θ c) (D c) θ)
    (hn : bornNorm (psi θ) ≠ 0) (h0 : ∀ c, psi θ c = 0 → D c = 0) (x : MinSR.Sample R K B → C) (hx : Represents x (psi θ))
    (solver) (hs : ∀ A b, LeastSquares A b (solver A b)) :
    let E : MinSR.Sample R K B → ℂ := fun s => localValue H (psi θ) (x s)
    let u := MinSR.update true solver (fun s k => D (x s) (Pi.single k 1) / psi θ (x s)) E MinSR.uniformCounts
    let dist := distance H (psi θ) (fun k c => D c (Pi.single k 1)) 1
    ∃ α₀, ∀ v α, dist u α₀ ≤ dist v α ∧ (dist v α = dist u α₀ → v ≠ u → ∑ k, ‖u k‖ ^ 2 < ∑ k, ‖v k‖ ^ 2) := by
  intro E u dist
  set T : Fin P → C → ℂ := fun k c => D c (Pi.single k 1) with hT
  have hT0 : ∀ k c, psi θ c = 0 → T k c = 0 := fun k c hc => by rw [hT]; simp [h0 c hc]
  obtain ⟨heq, hmin⟩ := C47_minSR_is_SR solver (fun s k => T k (x s) / psi θ (x s)) E hs
  change ∀ k, ∑ l, srMatrix (fun s k => T k (x s) / psi θ (x s)) k l * u l = _ at heq
  change ∀ y : Fin P → ℂ, _ → ∑ k, ‖u k‖ ^ 2 ≤ _ at hmin
  have hD : ∀ k, ∑ c, (starRingEnd ℂ) (T k c) * residual H (psi θ) T 1 u (bestScale H (psi θ) T 1 u) c = 0 := by
    intro k
    rw [tangent_residual hS x H (psi θ) hn T hx hT0, heq k, Complex.ofReal_one, one_mul]
    exact mul_eq_zero_of_right _ (sub_self _)
  have hP : ∑ c, (starRingEnd ℂ) (psi θ c) * residual H (psi θ) T 1 u (bestScale H (psi θ) T 1 u) c = 0 := by
    rw [overlap_residual H (psi θ) hn, sub_self, mul_zero]
  have hsplit : ∀ v α, dist v α = dist u (bestScale H (psi θ) T 1 u) +
      (∑ c, ‖change (psi θ) T (v - u) (α - bestScale H (psi θ) T 1 u) c‖ ^ 2) / bornNorm (psi θ) := by
    intro v α
    have := distance_split H (psi θ) T 1 u v (bestScale H (psi θ) T 1 u) α
    simpa [hD, hP] using this
  refine ⟨bestScale H (psi θ) T 1 u, fun v α => ⟨?_, fun hv hne => ?_⟩⟩
  · rw [hsplit v α]
    linarith [change_nonneg (psi θ) hn T (v - u) (α - bestScale H (psi θ) T 1 u)]
  · have h1 := hsplit v α
    rw [hv] at h1
    have h2 : (∑ c, ‖change (psi θ) T (v - u) (α - bestScale H (psi θ) T 1 u) c‖ ^ 2) / bornNorm (psi θ) = 0 := by linarith
    have h3 : ∀ c, change (psi θ) T (v - u) (α - bestScale H (psi θ) T 1 u) c = 0 := by
      have h4 := (div_eq_zero_iff.mp h2).resolve_right hn
      rw [Finset.sum_eq_zero_iff_of_nonneg fun c _ => sq_nonneg _] at h4
      exact fun c => by simpa using h4 c (Finset.mem_univ _)
    have hres : residual H (psi θ) T 1 v α = residual H (psi θ) T 1 u (bestScale H (psi θ) T 1 u) := by
      funext c
      have := h3 c
      unfold change at this
      unfold residual
      simp only [Pi.sub_apply, sub_mul, Finset.sum_sub_distrib] at this
      linear_combination this
    have hα : α = bestScale H (psi θ) T 1 v := by
      have h5 := overlap_residual H (psi θ) hn T 1 v α
      rw [hres, hP] at h5
      have hn' : (bornNorm (psi θ) : ℂ) ≠ 0 := by exact_mod_cast hn
      exact sub_eq_zero.mp ((mul_eq_zero.mp h5.symm).resolve_left hn')
    refine strict_of_min _ _ u heq hmin v (fun k => ?_) hne
    have h6 := tangent_residual hS x H (psi θ) hn T hx hT0 1 v k
    rw [← hα, hres, hD k] at h6
    have hn' : (bornNorm (psi θ) : ℂ) ≠ 0 := by exact_mod_cast hn
    have h7 := (mul_eq_zero.mp h6.symm).resolve_left hn'
    rw [Complex.ofReal_one, one_mul] at h7
    exact sub_eq_zero.mp h7

/-- The same with real parameters: the real parts of the conditions of the minimum suffice. -/
theorem real_minimum (hS : 0 < Fintype.card S) (x : S → C) (H : C → C → ℂ) (psi : C → ℂ) (hn : bornNorm psi ≠ 0) (T : Fin P → C → ℂ)
    (hx : Represents x psi) (hT0 : ∀ k c, psi c = 0 → T k c = 0) (τ : ℝ) (u v : Fin P → ℝ) (α : ℂ) :
    distance H psi T τ (fun k => (v k : ℂ)) α = distance H psi T τ (fun k => (u k : ℂ)) (bestScale H psi T τ fun k => (u k : ℂ)) +
      (∑ c, ‖change psi T (fun k => (v k : ℂ) - (u k : ℂ)) (α - bestScale H psi T τ fun k => (u k : ℂ)) c‖ ^ 2) / bornNorm psi +
      2 * ∑ k, (v k - u k) * ((∑ l, (srMatrix (fun s k => T k (x s) / psi (x s)) k l).re * u l) -
        τ * (srForce (fun s k => T k (x s) / psi (x s)) (fun s => localValue H psi (x s)) k).re) := by
  rw [distance_split H psi T τ (fun k => (u k : ℂ)) (fun k => (v k : ℂ)) (bestScale H psi T τ fun k => (u k : ℂ)) α]
  rw [overlap_residual H psi hn, sub_self, mul_zero, mul_zero, add_zero]
  simp only [tangent_residual hS x H psi hn T hx hT0]
  have hz : (∑ k, (starRingEnd ℂ) ((v k : ℂ) - (u k : ℂ)) * ((bornNorm psi : ℂ) *
      ((∑ l, srMatrix (fun s k => T k (x s) / psi (x s)) k l * (u l : ℂ)) -
        (τ : ℂ) * srForce (fun s k => T k (x s) / psi (x s)) (fun s => localValue H psi (x s)) k))).re =
      bornNorm psi * ∑ k, (v k - u k) * ((∑ l, (srMatrix (fun s k => T k (x s) / psi (x s)) k l).re * u l) -
        τ * (srForce (fun s k => T k (x s) / psi (x s)) (fun s => localValue H psi (x s)) k).re) := by
    rw [Complex.re_sum, Finset.mul_sum]
    refine Finset.sum_congr rfl fun k _ => ?_
    rw [← Complex.ofReal_sub, Complex.conj_ofReal, Complex.re_ofReal_mul, Complex.re_ofReal_mul, Complex.sub_re, Complex.re_sum,
      Complex.re_ofReal_mul]
    simp only [Complex.re_mul_ofReal]
    ring
  rw [hz]
  have : 2 * (bornNorm psi * ∑ k, (v k - u k) * ((∑ l, (srMatrix (fun s k => T k (x s) / psi (x s)) k l).re * u l) -
        τ * (srForce (fun s k => T k (x s) / psi (x s)) (fun s => localValue H psi (x s)) k).re)) / bornNorm psi =
      2 * ∑ k, (v k - u k) * ((∑ l, (srMatrix (fun s k => T k (x s) / psi (x s)) k l).re * u l) -
        τ * (srForce (fun s k => T k (x s) / psi (x s)) (fun s => localValue H psi (x s)) k).re) := by
    field_simp
  rw [this]
  rfl

/-- **C164**, `VMC_SRRMSProp` with real coordinates (a complex parameter counts as two): the update is the only change of the parameters with the
smallest sum of `N²` times the distance from twice the step of imaginary time and of the penalty `shift * (√ema + eps)` on the squares of the
changes.  In every step of every training run (any moving average and step number). -/
theorem C164_sr_rmsprop {N : ℕ} (hN : 0 < N) (H : C → C → ℂ) (psi : (Fin P → ℝ) → C → ℂ) (θ : Fin P → ℝ)
    (D : C → (Fin P → ℝ) →L[ℝ] ℂ) (_hd : ∀ c, HasFDerivAt (fun θ => psi θ c) (D c) θ) (hn : bornNorm (psi θ) ≠ 0)
    (h0 : ∀ c, psi θ c = 0 → D c = 0) (x : Fin N → C) (hx : Represents x (psi θ)) (ema : Fin P → ℝ) (step : ℕ)
    (shift decay eps : ℝ) (hs : 0 < shift) (he : 0 < eps)
    (solver : Matrix (Fin P) (Fin P) ℝ → (Fin P → ℝ) → (Fin P → ℝ)) (hsolver : SolvesPosDef solver) :
    let E : Fin N → ℂ := fun s => localValue H (psi θ) (x s)
    let dlog : Fin N → Fin P → ℂ := fun s k => D (x s) (Pi.single k 1) / psi θ (x s)
    let out := srComplex (fun s => ![fun k => (dlog s k).re, fun k => (dlog s k).im]) E (sampleMean E) ema step shift decay eps solver
    let cost : (Fin P → ℝ) → ℂ → ℝ := fun v α =>
      N ^ 2 * distance H (psi θ) (fun k c => D c (Pi.single k 1)) 2 (fun k => (v k : ℂ)) α +
        ∑ k, shift * (Real.sqrt (out.2 k / (1 - decay ^ (step + 1))) + eps) * v k ^ 2
    ∃ α₀, ∀ v α, cost out.1 α₀ ≤ cost v α ∧ (v ≠ out.1 → cost out.1 α₀ < cost v α) := by
  intro E dlog out cost
  set T : Fin P → C → ℂ := fun k c => D c (Pi.single k 1) with hT
  have hT0 : ∀ k c, psi θ c = 0 → T k c = 0 := fun k c hc => by rw [hT]; simp [h0 c hc]
  have hO : complexRows (fun s => ![fun k => (dlog s k).re, fun k => (dlog s k).im]) = dlog := by
    funext s k
    unfold complexRows
    simp only [Matrix.cons_val_zero, Matrix.cons_val_one]
    rw [mul_comm Complex.I]; exact Complex.re_add_im _
  have heq := (C49_sr_equation (fun s => ![fun k => (dlog s k).re, fun k => (dlog s k).im]) E ema step shift decay eps hs he
    solver hsolver).2
  rw [hO] at heq
  set w : Fin P → ℝ := fun k => shift * (Real.sqrt (out.2 k / (1 - decay ^ (step + 1))) + eps) with hw
  have hwpos : ∀ k, 0 < w k := fun k => mul_pos hs (add_pos_of_nonneg_of_pos (Real.sqrt_nonneg _) he)
  set u := out.1 with hu
  have heq' : ∀ k, (N : ℝ) ^ 2 * ((∑ l, (srMatrix dlog k l).re * u l) - 2 * (srForce dlog E k).re) = -(w k * u k) := by
    intro k
    have h := heq k
    change ∑ l, (N : ℝ) ^ 2 * (srMatrix dlog k l).re * u l + w k * u k = 2 * N ^ 2 * (srForce dlog E k).re at h
    simp only [mul_assoc ((N : ℝ) ^ 2)] at h
    rw [← Finset.mul_sum] at h
    rw [mul_sub]
    linarith
  have key : ∀ v α, cost v α = cost u (bestScale H (psi θ) T 2 fun k => (u k : ℂ)) +
      (N : ℝ) ^ 2 * ((∑ c, ‖change (psi θ) T (fun k => (v k : ℂ) - (u k : ℂ)) (α - bestScale H (psi θ) T 2 fun k => (u k : ℂ)) c‖ ^ 2) /
        bornNorm (psi θ)) + ∑ k, w k * (v k - u k) ^ 2 := by
    intro v α
    have h1 := real_minimum (S := Fin N) (by simpa using hN) x H (psi θ) hn T hx hT0 2 u v α
    have h2 : (N : ℝ) ^ 2 * (2 * ∑ k, (v k - u k) * ((∑ l, (srMatrix dlog k l).re * u l) - 2 * (srForce dlog E k).re)) =
        -2 * ∑ k, w k * u k * (v k - u k) := by
      rw [← mul_assoc, Finset.mul_sum, Finset.mul_sum]
      refine Finset.sum_congr rfl fun k _ => ?_
      linear_combination 2 * (v k - u k) * heq' k
    have h3 : ∑ k, w k * v k ^ 2 = ∑ k, w k * u k ^ 2 + ∑ k, w k * (v k - u k) ^ 2 + 2 * ∑ k, w k * u k * (v k - u k) := by
      rw [Finset.mul_sum, ← Finset.sum_add_distrib, ← Finset.sum_add_distrib]
      exact Finset.sum_congr rfl fun k _ => by ring
    change (N : ℝ) ^ 2 * distance H (psi θ) T 2 (fun k => (v k : ℂ)) α + ∑ k, w k * v k ^ 2 =
      (N : ℝ) ^ 2 * distance H (psi θ) T 2 (fun k => (u k : ℂ)) _ + ∑ k, w k * u k ^ 2 + _ + _
    rw [h1, h3, mul_add, mul_add]
    linarith [h2]
  refine ⟨bestScale H (psi θ) T 2 fun k => (u k : ℂ), fun v α => ⟨?_, fun hne => ?_⟩⟩
  · rw [key v α]
    have h1 := change_nonneg (psi θ) hn T (fun k => (v k : ℂ) - (u k : ℂ)) (α - bestScale H (psi θ) T 2 fun k => (u k : ℂ))
    have h2 : 0 ≤ ∑ k, w k * (v k - u k) ^ 2 := Finset.sum_nonneg fun k _ => mul_nonneg (hwpos k).le (sq_nonneg _)
    have h3 := mul_nonneg (sq_nonneg (N : ℝ)) h1
    linarith
  · rw [key v α]
    have h1 := change_nonneg (psi θ) hn T (fun k => (v k : ℂ) - (u k : ℂ)) (α - bestScale H (psi θ) T 2 fun k => (u k : ℂ))
    have h2 : 0 < ∑ k, w k * (v k - u k) ^ 2 := by
      obtain ⟨k, hk⟩ := Function.ne_iff.mp hne
      exact Finset.sum_pos' (fun k _ => mul_nonneg (hwpos k).le (sq_nonneg _)) ⟨k, Finset.mem_univ _, mul_pos (hwpos k) (sq_pos_of_ne_zero (sub_ne_zero.mpr hk))⟩
    have h3 := mul_nonneg (sq_nonneg (N : ℝ)) h1
    linarith

/-- **C164**, `minSRVMC` with real parameters and real logarithmic derivatives (mode `real`): the same as for complex parameters, for the real
part that is applied and all real changes of the parameters. -/
theorem C164_minSR_real {R K B : ℕ} (hS : 0 < Fintype.card (MinSR.Sample R K B)) (H : C → C → ℂ)
    (psi : (Fin P → ℝ) → C → ℂ) (θ : Fin P → ℝ) (D : C → (Fin P → ℝ) →L[ℝ] ℂ) (_hd : ∀ c, HasFDerivAt (fun θ => psi θ c) (D c) θ)
    (hn : bornNorm (psi θ) ≠ 0) (h0 : ∀ c, psi θ c = 0 → D c = 0) (x : MinSR.Sample R K B → C) (hx : Represents x (psi θ))
    (O : MinSR.Sample R K B → Fin P → ℝ) (hO : ∀ s k, D (x s) (Pi.single k 1) / psi θ (x s) = (O s k : ℂ))
    (solver) (hs : ∀ A b, LeastSquares A b (solver A b)) :
    let E : MinSR.Sample R K B → ℂ := fun s => localValue H (psi θ) (x s)
    let u := MinSR.castReal (MinSR.update true solver (fun s k => (O s k : ℂ)) E MinSR.uniformCounts)
    let dist : (Fin P → ℝ) → ℂ → ℝ := fun v => distance H (psi θ) (fun k c => D c (Pi.single k 1)) 1 fun k => (v k : ℂ)
    ∃ α₀, ∀ v α, dist u α₀ ≤ dist v α ∧ (dist v α = dist u α₀ → v ≠ u → ∑ k, u k ^ 2 < ∑ k, v k ^ 2) := by
  intro E u dist
  set T : Fin P → C → ℂ := fun k c => D c (Pi.single k 1) with hT
  have hT0 : ∀ k c, psi θ c = 0 → T k c = 0 := fun k c hc => by rw [hT]; simp [h0 c hc]
  have hdl : (fun s k => (O s k : ℂ)) = fun s k => T k (x s) / psi θ (x s) := by funext s k; rw [hT]; exact (hO s k).symm
  have heq := C47_real_mode solver O E hs
  obtain ⟨heqc, hmin⟩ := C47_minSR_is_SR solver (fun s k => (O s k : ℂ)) E hs
  set dlog : MinSR.Sample R K B → Fin P → ℂ := fun s k => (O s k : ℂ) with hdlog
  set w := MinSR.update true solver dlog E MinSR.uniformCounts with hw
  change ∀ k, ∑ l, (srMatrix dlog k l).re * u l = (srForce dlog E k).re at heq
  have hreal : ∀ k l, (srMatrix dlog k l).im = 0 := by
    intro k l
    have : (starRingEnd ℂ) (srMatrix dlog k l) = srMatrix dlog k l := by
      unfold srMatrix sampleMean
      simp only [hdlog, map_div₀, map_sum, map_mul, map_sub, map_natCast, Complex.conj_ofReal]
    exact Complex.conj_eq_iff_im.mp this
  have hsplit : ∀ v α, dist v α = dist u (bestScale H (psi θ) T 1 fun k => (u k : ℂ)) +
      (∑ c, ‖change (psi θ) T (fun k => (v k : ℂ) - (u k : ℂ)) (α - bestScale H (psi θ) T 1 fun k => (u k : ℂ)) c‖ ^ 2) /
        bornNorm (psi θ) := by
    intro v α
    have h := real_minimum hS x H (psi θ) hn T hx hT0 1 u v α
    rw [← hdl] at h
    have hz : ∑ k, (v k - u k) * ((∑ l, (srMatrix dlog k l).re * u l) - 1 * (srForce dlog E k).re) = 0 :=
      Finset.sum_eq_zero fun k _ => by rw [heq k, one_mul, sub_self, mul_zero]
    change _ = _ + 2 * ∑ k, (v k - u k) * ((∑ l, (srMatrix dlog k l).re * u l) - 1 * (srForce dlog E k).re) at h
    rw [hz, mul_zero, add_zero] at h
    exact h
  refine ⟨bestScale H (psi θ) T 1 fun k => (u k : ℂ), fun v α => ⟨?_, fun hv hne => ?_⟩⟩
  · rw [hsplit v α]
    linarith [change_nonneg (psi θ) hn T (fun k => (v k : ℂ) - (u k : ℂ)) (α - bestScale H (psi θ) T 1 fun k => (u k : ℂ))]
  · have h1 := hsplit v α
    rw [hv] at h1
    have h2 : (∑ c, ‖change (psi θ) T (fun k => (v k : ℂ) - (u k : ℂ)) (α - bestScale H (psi θ) T 1 fun k => (u k : ℂ)) c‖ ^ 2) /
        bornNorm (psi θ) = 0 := by linarith
    have h3 : ∀ c, change (psi θ) T (fun k => (v k : ℂ) - (u k : ℂ)) (α - bestScale H (psi θ) T 1 fun k => (u k : ℂ)) c = 0 := by
      have h4 := (div_eq_zero_iff.mp h2).resolve_right hn
      rw [Finset.sum_eq_zero_iff_of_nonneg fun c _ => sq_nonneg _] at h4
      exact fun c => by simpa using h4 c (Finset.mem_univ _)
    have hres : residual H (psi θ) T 1 (fun k => (v k : ℂ)) α =
        residual H (psi θ) T 1 (fun k => (u k : ℂ)) (bestScale H (psi θ) T 1 fun k => (u k : ℂ)) := by
      funext c
      have := h3 c
      unfold change at this
      unfold residual
      simp only [sub_mul, Finset.sum_sub_distrib] at this
      linear_combination this
    have hn' : (bornNorm (psi θ) : ℂ) ≠ 0 := by exact_mod_cast hn
    have hα : α = bestScale H (psi θ) T 1 fun k => (v k : ℂ) := by
      have h5 := overlap_residual H (psi θ) hn T 1 (fun k => (v k : ℂ)) α
      rw [hres, overlap_residual H (psi θ) hn, sub_self, mul_zero] at h5
      exact sub_eq_zero.mp ((mul_eq_zero.mp h5.symm).resolve_left hn')
    have hvre : ∀ k, ∑ l, (srMatrix dlog k l).re * v l = (srForce dlog E k).re := by
      intro k
      have h6 := tangent_residual hS x H (psi θ) hn T hx hT0 1 (fun k => (v k : ℂ)) k
      rw [← hα, hres, tangent_residual hS x H (psi θ) hn T hx hT0, ← hdl] at h6
      have h7 := congrArg Complex.re (mul_left_cancel₀ hn' h6)
      rw [Complex.sub_re, Complex.sub_re, Complex.re_sum, Complex.re_sum] at h7
      simp only [Complex.re_mul_ofReal] at h7
      rw [heq k] at h7
      linarith
    have hy : ∀ k, ∑ l, srMatrix dlog k l * ((v l : ℂ) + Complex.I * ((w l).im : ℂ)) = srForce dlog E k := by
      intro k
      apply Complex.ext
      · rw [← hvre k, Complex.re_sum]
        exact Finset.sum_congr rfl fun l _ => by simp [Complex.mul_re, hreal]
      · rw [← heqc k, Complex.im_sum, Complex.im_sum]
        exact Finset.sum_congr rfl fun l _ => by simp [Complex.mul_im, hreal]
    have hlt := strict_of_min _ _ w heqc hmin (fun l => (v l : ℂ) + Complex.I * ((w l).im : ℂ)) hy (fun h => hne (by
      funext k
      have := congrArg Complex.re (congrFun h k)
      show v k = (w k).re
      simpa using this))
    have e1 : ∀ k, ‖(v k : ℂ) + Complex.I * ((w k).im : ℂ)‖ ^ 2 = v k ^ 2 + (w k).im ^ 2 := by
      intro k
      rw [← Complex.normSq_eq_norm_sq, Complex.normSq_apply]
      simp
      ring
    have e2 : ∀ k, ‖w k‖ ^ 2 = u k ^ 2 + (w k).im ^ 2 := by
      intro k
      rw [← Complex.normSq_eq_norm_sq, Complex.normSq_apply]
      change (w k).re * (w k).re + _ = (w k).re ^ 2 + _
      ring
    simp only [e1, e2, Finset.sum_add_distrib] at hlt
    linarith

/-- **C164**, consequence: if some change of the parameters reproduces the step of imaginary time up to norm and phase, the update of
`minSRVMC` reproduces it. -/
theorem C164_exact {R K B : ℕ} (hS : 0 < Fintype.card (MinSR.Sample R K B)) (H : C → C → ℂ)
    (psi : (Fin P → ℂ) → C → ℂ) (θ : Fin P → ℂ) (D : C → (Fin P → ℂ) →L[ℂ] ℂ) (hd : ∀ c, HasFDerivAt (fun θ => psi θ c) (D c) θ)
    (hn : bornNorm (psi θ) ≠ 0) (h0 : ∀ c, psi θ c = 0 → D c = 0) (x : MinSR.Sample R K B → C) (hx : Represents x (psi θ))
    (solver) (hs : ∀ A b, LeastSquares A b (solver A b))
    (hv : ∃ (v : Fin P → ℂ) (α : ℂ), ∀ c, D c v + α * psi θ c = ∑ y, H c y * psi θ y) :
    let E : MinSR.Sample R K B → ℂ := fun s => localValue H (psi θ) (x s)
    let u := MinSR.update true solver (fun s k => D (x s) (Pi.single k 1) / psi θ (x s)) E MinSR.uniformCounts
    ∃ α : ℂ, ∀ c, D c u + α * psi θ c = ∑ y, H c y * psi θ y := by
  intro E u
  have hlin : ∀ (v : Fin P → ℂ) c, ∑ k, v k * D c (Pi.single k 1) = D c v := by
    intro v c
    conv_rhs => rw [← Finset.univ_sum_single v]
    rw [map_sum]
    refine Finset.sum_congr rfl fun k _ => ?_
    rw [show (Pi.single k (v k) : Fin P → ℂ) = v k • Pi.single k 1 by rw [← Pi.single_smul]; simp, map_smul, smul_eq_mul]
  obtain ⟨v, α, hv⟩ := hv
  obtain ⟨α₀, h⟩ := C164_minSR_holomorphic hS H psi θ D hd hn h0 x hx solver hs
  have h1 := (h v α).1
  have h2 : distance H (psi θ) (fun k c => D c (Pi.single k 1)) 1 v α = 0 := by
    unfold distance
    simp [hlin, hv]
  rw [h2] at h1
  unfold distance at h1
  have h3 : ∑ c, ‖(∑ k, u k * D c (Pi.single k 1)) + α₀ * psi θ c - ((1 : ℝ) : ℂ) * ∑ y, H c y * psi θ y‖ ^ 2 ≤ 0 := by
    by_contra hlt
    exact absurd h1 (not_le.mpr (div_pos (not_le.mp hlt) (norm_pos_of_ne hn)))
  have h4 := le_antisymm h3 (Finset.sum_nonneg fun c _ => sq_nonneg _)
  rw [Finset.sum_eq_zero_iff_of_nonneg fun c _ => sq_nonneg _] at h4
  refine ⟨α₀, fun c => ?_⟩
  have h5 := h4 c (Finset.mem_univ _)
  rw [hlin] at h5
  have h6 : D c u + α₀ * psi θ c - ((1 : ℝ) : ℂ) * ∑ y, H c y * psi θ y = 0 := by simpa using h5
  rw [Complex.ofReal_one, one_mul] at h6
  exact sub_eq_zero.mp h6

/-- **C164 fails for `minSRVMC` with real parameters and complex amplitudes** (mode `complex`): here the update is `(1, 0)`, and its negative is a
better approximation, whatever is done with the norm and the phase. -/
theorem C164_minSR_complex_fails (solver) (hs : ∀ A b, LeastSquares A b (solver A b)) :
    let E : MinSR.Sample 1 1 3 → ℂ := fun s => localValue exH (exPsi 0) (exX s)
    let u := MinSR.castReal (MinSR.update true solver (fun s => ![exA (exX s), exB (exX s)]) E MinSR.uniformCounts)
    let dist : (Fin 2 → ℝ) → ℂ → ℝ := fun v => distance exH (exPsi 0) ![exA, exB] 1 fun k => (v k : ℂ)
    (∀ k c, HasDerivAt (fun t : ℝ => exPsi (t • Pi.single k 1) c) (![exA, exB] k c) 0) ∧ Represents exX (exPsi 0) ∧
      ∀ α, dist (-u) 0 < dist u α := by
  intro E u dist
  obtain ⟨hH, hx, hu, hF0⟩ := ex_update solver hs
  change u = _ at hu
  refine ⟨fun k c => ?_, hx, fun α => ?_⟩
  · have := line_real exPsi 0 _ exPsi_deriv (Pi.single k 1) c
    simp only [zero_add] at this
    refine this.congr_deriv ?_
    fin_cases k <;> simp [Fin.sum_univ_two]
  have hE : ∀ c, ∑ y, exH c y * exPsi 0 y = exE c := by
    intro c
    simp only [exPsi_zero, exH, Fin.sum_univ_three, exE]
    fin_cases c <;> simp [Complex.conj_ofNat] <;> ring
  have hn : bornNorm (exPsi 0) = 3 := by simp [bornNorm, exPsi_zero]
  change distance exH (exPsi 0) ![exA, exB] 1 (fun k => ((-u) k : ℂ)) 0 < distance exH (exPsi 0) ![exA, exB] 1 (fun k => (u k : ℂ)) α
  rw [hu]
  unfold distance
  simp only [hE]
  simp only [hn, exPsi_zero]
  refine div_lt_div_of_pos_right ?_ (by norm_num)
  simp only [Fin.sum_univ_three, Fin.sum_univ_two, ← Complex.normSq_eq_norm_sq, Complex.normSq_apply]
  simp [exA, exB, exE]
  nlinarith [sq_nonneg α.re, sq_nonneg α.im]

/-! ## The hypotheses can be met -/

example (solver) (hsolver : SolvesPosDef (P := 2) solver) :=
  C164_sr_rmsprop (N := 3) (by norm_num) exH exPsi 0 _ exPsi_deriv
    (by simp [bornNorm, exPsi_zero]) (fun c hc => by simp [exPsi_zero] at hc) id
    (fun c => by
      have : (Finset.univ.filter fun s : Fin 3 => id s = c).card = 1 := by revert c; decide
      rw [this]; simp [bornNorm, exPsi_zero]) 0 0 (1 / 100) (9 / 10) (1 / 100) (by norm_num) (by norm_num) solver hsolver

/-- A holomorphic state for which some change of the parameters reproduces the step of imaginary time: two configurations, the
logarithms of the amplitudes as parameters, an exchange as Hamiltonian. -/
noncomputable def exHol (θ : Fin 2 → ℂ) (c : Fin 2) : ℂ := Complex.exp (θ c)

theorem exHol_deriv (c : Fin 2) : HasFDerivAt (fun θ => exHol θ c) (ContinuousLinearMap.proj (R := ℂ) (φ := fun _ : Fin 2 => ℂ) c) 0 := by
  have h := (ContinuousLinearMap.proj (R := ℂ) (φ := fun _ : Fin 2 => ℂ) c).hasFDerivAt (x := (0 : Fin 2 → ℂ))
  have h2 := h.cexp
  unfold exHol
  refine h2.congr_fderiv ?_
  simp

theorem exHol_represents : Represents (fun s : MinSR.Sample 1 2 1 => s.2.1) (exHol 0) := by
  intro c
  have : (Finset.univ.filter fun s : MinSR.Sample 1 2 1 => s.2.1 = c).card = 1 := by revert c; decide
  rw [this]; simp [bornNorm, exHol, MinSR.Sample]

example : ∃ solver, ∃ α : ℂ, ∀ c, (MinSR.update (R := 1) (K := 2) (B := 1) true solver
    (fun s k => (ContinuousLinearMap.proj (R := ℂ) (φ := fun _ : Fin 2 => ℂ) s.2.1) (Pi.single k 1) / exHol 0 s.2.1)
    (fun s => localValue (fun a b : Fin 2 => if a = b then 0 else 1) (exHol 0) s.2.1) MinSR.uniformCounts) c + α * exHol 0 c =
      ∑ y, (if c = y then 0 else 1) * exHol 0 y := by
  obtain ⟨solver, hs⟩ := exists_leastSquares (n := Fin (2 * 1 * 1))
  refine ⟨solver, ?_⟩
  exact C164_exact (by decide) (fun a b : Fin 2 => if a = b then 0 else 1) exHol 0 _ exHol_deriv
    (by simp [bornNorm, exHol]) (fun c hc => by simp [exHol] at hc) (fun s => s.2.1) exHol_represents solver hs
    ⟨fun _ => 0, 1, fun c => by fin_cases c <;> simp [exHol]⟩

end GPSKet.ImagProjection
