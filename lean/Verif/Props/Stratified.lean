import Verif.Model.Stratified
import Verif.Props.UniqueSamples

/-! # Property C51: stratified sampling states -/

namespace GPSKet.Props
open Stratified

variable {C : Type} [DecidableEq C]

/-! ## Sampling -/

theorem sampleStep_not_mem (det : List C) {chains : ℕ} (old proposed : Fin chains → C) (h : ∀ i, old i ∉ det) :
    ∀ i, sampleStep det old proposed i ∉ det := by
  intro i
  unfold sampleStep inDet
  by_cases hp : proposed i ∈ det
  · simpa [hp] using h i
  · simpa [hp] using hp

theorem steps_not_mem (det : List C) {chains : ℕ} (sampler : ℕ → (Fin chains → C) → Fin chains → C) (k : ℕ)
    (s : ℕ × (Fin chains → C)) (h : ∀ i, s.2 i ∉ det) : ∀ i, (steps det sampler k s).2 i ∉ det := by
  induction k generalizing s with
  | zero => exact h
  | succ k ih => exact ih _ (sampleStep_not_mem det _ _ h)

/-- C51: whatever the sampler and the Hilbert space return, no recorded configuration and no configuration used for the norm
estimate is in the deterministic set. -/
theorem C51_outside_deterministic_set (det : List C) {chains : ℕ} (sampler : ℕ → (Fin chains → C) → Fin chains → C)
    (nDiscard nSweeps chainLength : ℕ) (init : Fin chains → List C) (start : Fin chains → C)
    (hstart : ∀ i, initialSample det (init i) = some (start i)) :
    (∀ c ∈ complementSamples det sampler nDiscard nSweeps chainLength start, c ∉ det) ∧
      (complementSamples det sampler nDiscard nSweeps chainLength start).length = chainLength * chains := by
  have h0 : ∀ i, start i ∉ det := by
    intro i
    have : ∀ (l : List C) (c : C), initialSample det l = some c → c ∉ det := by
      intro l c
      induction l with
      | nil => simp [initialSample]
      | cons a l ih =>
        simp only [initialSample, inDet, decide_eq_true_eq]
        split
        · exact ih
        · rename_i h; intro he; rw [← Option.some.inj he]; exact h
    exact this _ _ (hstart i)
  have hs : ∀ (k : ℕ) (s : ℕ × (Fin chains → C)), (∀ i, s.2 i ∉ det) →
      (∀ x ∈ sampleChain det sampler nSweeps k s, ∀ i, x i ∉ det) ∧ (sampleChain det sampler nSweeps k s).length = k := by
    intro k
    induction k with
    | zero => intro s _; simp [sampleChain]
    | succ k ih =>
      intro s h
      have h1 := steps_not_mem det sampler nSweeps s h
      obtain ⟨i1, i2⟩ := ih _ h1
      refine ⟨?_, by simp [sampleChain, i2]⟩
      intro x hx
      simp only [sampleChain, List.mem_cons] at hx
      rcases hx with rfl | hx
      · exact h1
      · exact i1 x hx
  obtain ⟨h1, h2⟩ := hs chainLength _ (steps_not_mem det sampler (nDiscard * nSweeps) (0, start) h0)
  refine ⟨?_, ?_⟩
  · intro c hc
    unfold complementSamples at hc
    rw [List.mem_flatMap] at hc
    obtain ⟨x, hx, hc⟩ := hc
    obtain ⟨i, _, rfl⟩ := List.mem_map.mp hc
    exact h1 x hx i
  · unfold complementSamples
    rw [List.length_flatMap]
    simp [h2]

theorem takeRandom_eq (det : List C) (n : ℕ) (l : List C) : takeRandom det n l = (l.filter fun c => decide (c ∉ det)).take n := by
  induction l generalizing n with
  | nil => cases n <;> simp [takeRandom]
  | cons c l ih =>
    cases n with
    | zero => simp [takeRandom]
    | succ n =>
      simp only [takeRandom, inDet, decide_eq_true_eq]
      by_cases h : c ∈ det
      · rw [if_pos h, ih, List.filter_cons_of_neg (by simpa using h)]
      · rw [if_neg h, ih, List.filter_cons_of_pos (by simpa using h), List.take_succ_cons]

/-- C51: the random samples for the norm estimate are the first `n` draws that are outside the deterministic set. -/
theorem C51_random_samples (det : List C) (n : ℕ) (batches : List (List C)) :
    randomSamples det n batches =
      if n ≤ (batches.flatten.filter fun c => decide (c ∉ det)).length
      then some ((batches.flatten.filter fun c => decide (c ∉ det)).take n) else none := by
  induction batches generalizing n with
  | nil => cases n <;> simp [randomSamples]
  | cons b rest ih =>
    cases n with
    | zero => simp [randomSamples]
    | succ n =>
      simp only [randomSamples]
      rw [ih, takeRandom_eq, List.flatten_cons, List.filter_append, List.length_append, List.length_take]
      set F := b.filter fun c => decide (c ∉ det)
      set G := rest.flatten.filter fun c => decide (c ∉ det)
      rcases Nat.le_total (n + 1) F.length with h | h
      · rw [Nat.min_eq_left h]
        simp only [Nat.sub_self, Nat.zero_le, if_true, Option.map_some, List.take_zero, List.append_nil]
        rw [if_pos (by omega), List.take_append_of_le_length h]
      · rw [Nat.min_eq_right h, List.take_of_length_le h, List.take_append, List.take_of_length_le h]
        by_cases h2 : n + 1 - F.length ≤ G.length
        · rw [if_pos h2, if_pos (by omega)]; rfl
        · rw [if_neg h2, if_neg (by omega)]; rfl

/-- C51: rejecting the moves into the deterministic set keeps detailed balance on the complement.  `K x z` is the probability that
the sampler moves from `x` to `z`, `π` an (unnormalised) distribution it is reversible for. -/
theorem C51_detailed_balance [Fintype C] (det : List C) (K : C → C → ℝ) (π : C → ℝ)
    (hK : ∀ x y, π x * K x y = π y * K y x) (x y : C) (hx : x ∉ det) (hy : y ∉ det) :
    π x * ∑ z, (if sampleStep det (chains := 1) (fun _ => x) (fun _ => z) 0 = y then K x z else 0) =
      π y * ∑ z, (if sampleStep det (chains := 1) (fun _ => y) (fun _ => z) 0 = x then K y z else 0) := by
  by_cases hxy : x = y
  · subst hxy; rfl
  have h : ∀ a b : C, a ∉ det → b ∉ det → a ≠ b →
      ∑ z, (if sampleStep det (chains := 1) (fun _ => a) (fun _ => z) 0 = b then K a z else 0) = K a b := by
    intro a b _ hb hab
    rw [Finset.sum_eq_single b]
    · simp [sampleStep, inDet, hb]
    · intro z _ hz
      by_cases hzd : z ∈ det
      · simp [sampleStep, inDet, hzd, hab]
      · simp [sampleStep, inDet, hzd, hz]
    · simp
  rw [h x y hx hy hxy, h y x hy hx (Ne.symm hxy), hK]

/-! ## Weights -/

/-- Specification: the unnormalised probability of a configuration. -/
noncomputable def prob (lp : Option ℝ) : ℝ := match lp with | none => 0 | some x => Real.exp x

/-- Specification: the weight of the deterministic set. -/
noncomputable def zDet {R : ℕ} (lp : C → Option ℝ) (det : Fin R → List C) : ℝ := ∑ r, ((det r).map fun c => prob (lp c)).sum

open Classical in
/-- Specification: the estimated weight of the complement: its size times the mean probability of the uniformly drawn samples, or
its size times the harmonic mean of the probabilities of the importance-sampled configurations; for a normalised wave function
the rest of the probability. -/
noncomputable def zComp {R : ℕ} (lp : C → Option ℝ) (nComp : ℕ) (det comp : Fin R → List C) : Mode C R → ℝ
  | .randNorm random => nComp * ((∑ r, ((random r).map fun c => prob (lp c)).sum) / ((∑ r, (random r).length : ℕ) : ℝ))
  | .importance =>
    if ∃ r, ∃ c ∈ comp r, lp c = none then 0
    else nComp * (((∑ r, (comp r).length : ℕ) : ℝ) / ∑ r, ((comp r).map fun c => (prob (lp c))⁻¹).sum)
  | .normalized => 1 - zDet lp det

theorem expo_eq (lp : Option ℝ) (s : ℝ) : expo lp s = Real.exp (-s) * prob lp := by
  cases lp with
  | none => simp [expo, prob]
  | some x => simp only [expo, prob]; rw [← Real.exp_add]; congr 1; ring

theorem prob_nonneg (lp : Option ℝ) : 0 ≤ prob lp := by
  cases lp with
  | none => simp [prob]
  | some x => exact (Real.exp_pos x).le

theorem list_sum_mul {α : Type} (l : List α) (f : α → ℝ) (k : ℝ) : (l.map fun c => k * f c).sum = k * (l.map f).sum := by
  induction l with
  | nil => simp
  | cons a l ih => rw [List.map_cons, List.sum_cons, ih, List.map_cons, List.sum_cons, mul_add]

theorem mpiSum_expo {R : ℕ} (lp : C → Option ℝ) (l : Fin R → List C) (s : ℝ) :
    (mpiSum fun r => (l r).map fun c => expo (lp c) s) = Real.exp (-s) * ∑ r, ((l r).map fun c => prob (lp c)).sum := by
  unfold mpiSum
  rw [Finset.mul_sum]
  apply Finset.sum_congr rfl
  intro r _
  simp only [expo_eq]
  exact list_sum_mul _ _ _

theorem normEstimate_eq {R : ℕ} (lp : C → Option ℝ) (nComp : ℕ) (det comp : Fin R → List C) (mode : Mode C R) :
    normEstimate lp nComp det comp (shiftOf lp det comp mode) mode =
      Real.exp (-(shiftOf lp det comp mode)) * (zDet lp det + zComp lp nComp det comp mode) := by
  cases mode with
  | randNorm random =>
    simp only [normEstimate, normDeterministic, mpiSum_expo, zComp, zDet]
    ring
  | importance =>
    simp only [normEstimate, normDeterministic, mpiSum_expo, zComp, zDet]
    split
    · ring
    · rename_i h
      have h1 : (mpiSum fun r => (comp r).map fun c => Real.exp (-((lp c).getD 0 - shiftOf lp det comp Mode.importance))) =
          Real.exp (shiftOf lp det comp Mode.importance) * ∑ r, ((comp r).map fun c => (prob (lp c))⁻¹).sum := by
        unfold mpiSum
        rw [Finset.mul_sum]
        apply Finset.sum_congr rfl
        intro r _
        rw [← list_sum_mul]
        congr 1
        apply List.map_congr_left
        intro c hc
        cases hl : lp c with
        | none => exact absurd ⟨r, c, hc, hl⟩ h
        | some x =>
          simp only [Option.getD_some, prob]
          rw [← Real.exp_neg, ← Real.exp_add]
          congr 1; ring
      rw [h1, Real.exp_neg, mul_add]
      unfold totalSamples
      congr 1
      rw [div_eq_mul_inv, mul_inv]
      ring
  | normalized => simp [normEstimate, shiftOf, zComp]

/-- C51: the weights in terms of the probabilities of the unnormalised wave function: a deterministic configuration has its
probability divided by the estimated norm, a sampled one an equal share of the estimated weight of the complement. -/
theorem C51_weights {R : ℕ} (lp : C → Option ℝ) (nComp : ℕ) (det comp : Fin R → List C) (mode : Mode C R)
    (hZ : zDet lp det + zComp lp nComp det comp mode ≠ 0) (r : Fin R) :
    weights lp nComp det comp mode r =
      (det r).map (fun c => (c, prob (lp c) / (zDet lp det + zComp lp nComp det comp mode))) ++
      (comp r).map (fun c => (c, zComp lp nComp det comp mode / (zDet lp det + zComp lp nComp det comp mode) /
        ((∑ r, (comp r).length : ℕ) : ℝ))) := by
  unfold weights
  simp only [normEstimate_eq]
  have he := Real.exp_ne_zero (-(shiftOf lp det comp mode))
  congr 1
  · apply List.map_congr_left
    intro c _
    rw [expo_eq, mul_div_mul_left _ _ he]
  · apply List.map_congr_left
    intro c _
    unfold normDeterministic totalSamples
    rw [mpiSum_expo, one_mul]
    change (c, (1 - Real.exp _ * zDet lp det / _) / _) = _
    rw [mul_div_mul_left _ _ he]
    congr 2
    rw [eq_div_iff hZ, sub_mul, div_mul_cancel₀ _ hZ]
    ring

theorem prob_add (lp : Option ℝ) (k : ℝ) : prob (lp.map (· + k)) = Real.exp k * prob lp := by
  cases lp with
  | none => simp [prob]
  | some x => simp only [prob, Option.map_some]; rw [← Real.exp_add]; congr 1; ring

/-- C51: multiplying the wave function by a non-zero constant (adding a constant to the log-probabilities) leaves the weights as
they are, with `renormalize=True`. -/
theorem C51_shift {R : ℕ} (lp : C → Option ℝ) (nComp : ℕ) (det comp : Fin R → List C) (mode : Mode C R)
    (hmode : ∀ h : mode = Mode.normalized, False) (hZ : zDet lp det + zComp lp nComp det comp mode ≠ 0) (k : ℝ) :
    weights (fun c => (lp c).map (· + k)) nComp det comp mode = weights lp nComp det comp mode := by
  have hd : zDet (fun c => (lp c).map (· + k)) det = Real.exp k * zDet lp det := by
    unfold zDet
    rw [Finset.mul_sum]
    apply Finset.sum_congr rfl
    intro r _
    simp only [prob_add]
    exact list_sum_mul _ _ _
  have hc : zComp (fun c => (lp c).map (· + k)) nComp det comp mode = Real.exp k * zComp lp nComp det comp mode := by
    cases mode with
    | randNorm random =>
      simp only [zComp, prob_add, list_sum_mul]
      rw [← Finset.mul_sum]; ring
    | importance =>
      simp only [zComp, prob_add, Option.map_eq_none_iff, mul_inv, list_sum_mul]
      rw [← Finset.mul_sum]
      split
      · simp
      · rw [← Real.exp_neg, div_mul_eq_div_div, Real.exp_neg]
        rw [div_inv_eq_mul]; ring
    | normalized => exact (hmode rfl).elim
  have he := Real.exp_ne_zero k
  funext r
  rw [C51_weights _ _ _ _ _ (by rw [hd, hc, ← mul_add]; exact mul_ne_zero he hZ), C51_weights _ _ _ _ _ hZ, hd, hc]
  simp only [prob_add, ← mul_add, mul_div_mul_left _ _ he]

theorem zDet_nonneg {R : ℕ} (lp : C → Option ℝ) (det : Fin R → List C) : 0 ≤ zDet lp det :=
  Finset.sum_nonneg fun r _ => List.sum_nonneg (by
    intro x hx
    obtain ⟨c, _, rfl⟩ := List.mem_map.mp hx
    exact prob_nonneg _)

theorem zComp_nonneg {R : ℕ} (lp : C → Option ℝ) (nComp : ℕ) (det comp : Fin R → List C) (mode : Mode C R)
    (hnorm : mode = Mode.normalized → zDet lp det ≤ 1) : 0 ≤ zComp lp nComp det comp mode := by
  cases mode with
  | randNorm random => exact mul_nonneg (Nat.cast_nonneg _) (div_nonneg (zDet_nonneg lp random) (Nat.cast_nonneg _))
  | importance =>
    simp only [zComp]
    split
    · exact le_refl 0
    · refine mul_nonneg (Nat.cast_nonneg _) (div_nonneg (Nat.cast_nonneg _) (Finset.sum_nonneg fun r _ => List.sum_nonneg ?_))
      intro x hx
      obtain ⟨c, _, rfl⟩ := List.mem_map.mp hx
      exact inv_nonneg.mpr (prob_nonneg _)
  | normalized => simp only [zComp]; linarith [hnorm rfl]

/-- C51: the weights are non-negative and sum to one over all ranks (for a wave function declared to be normalised: provided the
deterministic set has at most probability one). -/
theorem C51_distribution {R : ℕ} (lp : C → Option ℝ) (nComp : ℕ) (det comp : Fin R → List C) (mode : Mode C R)
    (hZ : zDet lp det + zComp lp nComp det comp mode ≠ 0) (hnorm : mode = Mode.normalized → zDet lp det ≤ 1)
    (hsamples : ∃ r, comp r ≠ []) :
    (∀ r, ∀ e ∈ weights lp nComp det comp mode r, 0 ≤ e.2) ∧
      ∑ r, ((weights lp nComp det comp mode r).map Prod.snd).sum = 1 := by
  have hd := zDet_nonneg lp det
  have hc := zComp_nonneg lp nComp det comp mode hnorm
  have hn : ((∑ r, (comp r).length : ℕ) : ℝ) ≠ 0 := by
    obtain ⟨r, hr⟩ := hsamples
    rw [Nat.cast_ne_zero]
    have : (comp r).length ≤ ∑ r, (comp r).length := Finset.single_le_sum (f := fun r => (comp r).length) (fun _ _ => Nat.zero_le _) (Finset.mem_univ r)
    have := List.length_pos_iff.mpr hr
    omega
  set D := zDet lp det with hD
  set Z := zComp lp nComp det comp mode with hZZ
  set n := ((∑ r, (comp r).length : ℕ) : ℝ) with hnn
  constructor
  · intro r e he
    rw [C51_weights _ _ _ _ _ hZ, List.mem_append] at he
    rcases he with he | he
    · obtain ⟨c, _, rfl⟩ := List.mem_map.mp he
      exact div_nonneg (prob_nonneg _) (add_nonneg hd hc)
    · obtain ⟨c, _, rfl⟩ := List.mem_map.mp he
      exact div_nonneg (div_nonneg hc (add_nonneg hd hc)) (Nat.cast_nonneg _)
  · have h1 : ∀ r, ((weights lp nComp det comp mode r).map Prod.snd).sum =
        ((det r).map fun c => prob (lp c)).sum / (D + Z) + (comp r).length * (Z / (D + Z) / n) := by
      intro r
      rw [C51_weights _ _ _ _ _ hZ, List.map_append, List.sum_append, List.map_map, List.map_map]
      congr 1
      · simp only [Function.comp_def, div_eq_inv_mul]
        rw [list_sum_mul]
      · simp only [Function.comp_def]
        rw [List.map_const', List.sum_replicate, nsmul_eq_mul]
    simp only [h1]
    rw [Finset.sum_add_distrib, ← Finset.sum_div, ← Finset.sum_mul]
    have h2 : ∑ r, ((comp r).length : ℝ) = n := by rw [hnn]; push_cast; rfl
    rw [h2]
    change D / (D + Z) + _ = 1
    field_simp

/-- C51: when the wave function vanishes on all sampled (and, for the norm, all drawn) configurations outside the deterministic
set, expectation values are the exact sums over the deterministic set. -/
theorem C51_exact {R : ℕ} (lp : C → Option ℝ) (nComp : ℕ) (det comp : Fin R → List C) (mode : Mode C R)
    (hdet : zDet lp det ≠ 0) (hsamples : ∃ r, comp r ≠ []) (hcomp : ∀ r, ∀ c ∈ comp r, lp c = none)
    (hmode : match mode with
      | .randNorm random => ∀ r, ∀ c ∈ random r, lp c = none
      | .importance => True
      | .normalized => zDet lp det = 1) (loc : C → ℂ) :
    UniqueSamples.mean (weights lp nComp det comp mode) loc =
      (∑ r, ((det r).map fun c => (prob (lp c) : ℂ) * loc c).sum) / (zDet lp det : ℂ) := by
  have hz : zComp lp nComp det comp mode = 0 := by
    cases mode with
    | randNorm random =>
      simp only at hmode
      simp only [zComp]
      have : ∑ r, ((random r).map fun c => prob (lp c)).sum = 0 := by
        apply Finset.sum_eq_zero
        intro r _
        apply List.sum_eq_zero
        intro x hx
        obtain ⟨c, hc, rfl⟩ := List.mem_map.mp hx
        rw [hmode r c hc]; rfl
      rw [this]; simp
    | importance =>
      simp only [zComp]
      obtain ⟨r, hr⟩ := hsamples
      obtain ⟨c, hc⟩ := List.exists_mem_of_ne_nil _ hr
      rw [if_pos ⟨r, c, hc, hcomp r c hc⟩]
    | normalized => simp only at hmode; simp [zComp, hmode]
  unfold UniqueSamples.mean
  rw [Finset.sum_div]
  apply Finset.sum_congr rfl
  intro r _
  rw [C51_weights _ _ _ _ _ (by rw [hz, add_zero]; exact hdet), hz, List.map_append, List.sum_append, List.map_map, List.map_map]
  have h0 : ((comp r).map ((fun e : C × ℝ => (e.2 : ℂ) * loc e.1) ∘ fun c => (c, 0 / (zDet lp det + 0) /
      ((∑ r, (comp r).length : ℕ) : ℝ)))).sum = 0 := by
    apply List.sum_eq_zero
    intro x hx
    obtain ⟨c, _, rfl⟩ := List.mem_map.mp hx
    simp
  rw [h0, add_zero, add_zero]
  generalize det r = l
  induction l with
  | nil => simp
  | cons c l ih =>
    rw [List.map_cons, List.sum_cons, ih, List.map_cons, List.sum_cons, add_div]
    congr 1
    simp only [Function.comp_apply]
    push_cast
    ring

/-- C51: with the exact weight `1 - zDet` of the complement (a normalised wave function) and samples that follow, each on its own,
the distribution of the wave function on the complement, the expectation value is unbiased: its average over all outcomes `s` of
the `n` samples of a single rank (with any joint probability `P s`, e.g. of a correlated Markov chain) is the exact expectation
value. -/
theorem C51_unbiased [Fintype C] (lp : C → Option ℝ) (nComp : ℕ) (det : List C) (hnodup : det.Nodup)
    (hnorm : ∑ c, prob (lp c) = 1) (n : ℕ) (hn : 0 < n) (P : (Fin n → C) → ℝ) (hP1 : ∑ s, P s = 1)
    (hmarg : ∀ i c, (1 - (det.map fun c => prob (lp c)).sum) * (∑ s, if s i = c then P s else 0) =
      if c ∈ det then 0 else prob (lp c)) (loc : C → ℂ) :
    ∑ s, (P s : ℂ) * UniqueSamples.mean (ranks := 1) (weights lp nComp (fun _ => det) (fun _ => List.ofFn s) Mode.normalized) loc =
      ∑ c, (prob (lp c) : ℂ) * loc c := by
  set D : ℝ := (det.map fun c => prob (lp c)).sum with hD
  have hz : zDet (R := 1) lp (fun _ => det) = D := by simp [zDet, hD]
  have hn' : (n : ℂ) ≠ 0 := by exact_mod_cast hn.ne'
  have hmean : ∀ s : Fin n → C, UniqueSamples.mean (ranks := 1)
      (weights lp nComp (fun _ => det) (fun _ => List.ofFn s) Mode.normalized) loc =
      (det.map fun c => (prob (lp c) : ℂ) * loc c).sum + ∑ i, ((1 - D : ℝ) : ℂ) / n * loc (s i) := by
    intro s
    unfold UniqueSamples.mean
    rw [Fin.sum_univ_one, C51_weights _ _ _ _ _ (by simp [zComp])]
    simp only [zComp, hz, add_sub_cancel, div_one, List.map_append, List.map_map, Function.comp_def, List.sum_append]
    congr 1
    rw [List.map_ofFn, List.sum_ofFn]
    apply Finset.sum_congr rfl
    intro i _
    simp
  simp only [hmean, mul_add, Finset.sum_add_distrib]
  rw [← Finset.sum_mul, ← Complex.ofReal_sum, hP1, Complex.ofReal_one, one_mul]
  have hmarg' : ∀ i : Fin n, ((1 - D : ℝ) : ℂ) * ∑ s, (P s : ℂ) * loc (s i) = ∑ c, (if c ∈ det then 0 else (prob (lp c) : ℂ)) * loc c := by
    intro i
    have h1 : ∑ s, (P s : ℂ) * loc (s i) = ∑ c, ((∑ s, if s i = c then P s else 0 : ℝ) : ℂ) * loc c := by
      simp only [Complex.ofReal_sum, Finset.sum_mul]
      rw [Finset.sum_comm]
      apply Finset.sum_congr rfl
      intro s _
      rw [Finset.sum_eq_single (s i)]
      · simp
      · intro c _ hc; simp [Ne.symm hc]
      · simp
    rw [h1, Finset.mul_sum]
    apply Finset.sum_congr rfl
    intro c _
    rw [← mul_assoc, ← Complex.ofReal_mul, hmarg i c]
    split <;> simp
  have h2 : ∑ s, (P s : ℂ) * ∑ i, ((1 - D : ℝ) : ℂ) / n * loc (s i) = ∑ c, (if c ∈ det then 0 else (prob (lp c) : ℂ)) * loc c := by
    simp only [Finset.mul_sum]
    rw [Finset.sum_comm]
    have : ∀ i : Fin n, ∑ s, (P s : ℂ) * (((1 - D : ℝ) : ℂ) / n * loc (s i)) =
        (n : ℂ)⁻¹ * ∑ c, (if c ∈ det then 0 else (prob (lp c) : ℂ)) * loc c := by
      intro i
      rw [← hmarg' i, Finset.mul_sum, Finset.mul_sum]
      apply Finset.sum_congr rfl
      intro s _
      ring
    simp only [this, Finset.sum_const, Finset.card_univ, Fintype.card_fin, nsmul_eq_mul]
    rw [← mul_assoc, mul_inv_cancel₀ hn', one_mul]
  rw [h2, ← List.sum_toFinset _ hnodup, Finset.sum_subset (Finset.subset_univ det.toFinset) (f := fun c => if c ∈ det then (prob (lp c) : ℂ) * loc c else 0)
    |> fun h => (Finset.sum_congr rfl (fun c hc => by rw [if_pos (List.mem_toFinset.mp hc)])).symm.trans (h (fun c _ hc => by
      rw [if_neg (fun h => hc (List.mem_toFinset.mpr h))]))]
  rw [← Finset.sum_add_distrib]
  apply Finset.sum_congr rfl
  intro c _
  split <;> simp

/-- C51: the norm estimate from `m` uniformly drawn configurations of the complement is unbiased: its average over all outcomes is
the exact weight of the complement, when `N_complement` is the number of configurations outside the deterministic set. -/
theorem C51_norm_unbiased [Fintype C] (lp : C → Option ℝ) (det : List C) (hnodup : det.Nodup) (m : ℕ) (hm : 0 < m)
    (hne : ∃ c, c ∉ det) (detR comp : Fin 1 → List C) :
    (∑ s : Fin m → {c // c ∉ det}, zComp lp (Fintype.card C - det.length) detR comp
        (Mode.randNorm fun _ => List.ofFn fun i => (s i).val)) / (Fintype.card (Fin m → {c // c ∉ det}) : ℝ) =
      ∑ c : {c // c ∉ det}, prob (lp c.val) := by
  have hcard : Fintype.card C - det.length = Fintype.card {c // c ∉ det} := by
    rw [Fintype.card_subtype_compl, Fintype.card_subtype]
    congr 1
    rw [← List.toFinset_card_of_nodup hnodup]
    congr 1
    ext c; simp
  set N := Fintype.card {c // c ∉ det} with hN
  have hNpos : 0 < N := Fintype.card_pos_iff.mpr ⟨⟨hne.choose, hne.choose_spec⟩⟩
  have hN0 : (N : ℝ) ≠ 0 := by exact_mod_cast hNpos.ne'
  have hm0 : (m : ℝ) ≠ 0 := by exact_mod_cast hm.ne'
  have hz : ∀ s : Fin m → {c // c ∉ det}, zComp lp (Fintype.card C - det.length) detR comp
        (Mode.randNorm fun _ => List.ofFn fun i => (s i).val) = N / m * ∑ i, prob (lp (s i).val) := by
    intro s
    simp only [zComp, hcard, Finset.univ_unique, Finset.sum_const, Finset.card_singleton, one_smul, List.length_ofFn, List.map_ofFn,
      List.sum_ofFn, Function.comp_def]
    ring
  simp only [hz]
  rw [← Finset.mul_sum, Finset.sum_comm]
  obtain ⟨k, rfl⟩ : ∃ k, m = k + 1 := ⟨m - 1, by omega⟩
  have hi : ∀ i : Fin (k + 1), ∑ s : Fin (k + 1) → {c // c ∉ det}, prob (lp (s i).val) =
      (N : ℝ) ^ k * ∑ c : {c // c ∉ det}, prob (lp c.val) := by
    intro i
    rw [← Equiv.sum_comp (Fin.insertNthEquiv (fun _ => {c // c ∉ det}) i) (fun s => prob (lp (s i).val)), Fintype.sum_prod_type,
      Finset.mul_sum]
    apply Finset.sum_congr rfl
    intro c _
    simp [Fin.insertNthEquiv, hN]
  simp only [hi, Finset.sum_const, Finset.card_univ, Fintype.card_fin, nsmul_eq_mul, Fintype.card_fun]
  rw [← hN]
  push_cast at hm0 ⊢
  field_simp
  ring

/-- The ranks together have exactly the deterministic set. -/
theorem C51_array_split {α : Type} (l : List α) (R : ℕ) (hR : 0 < R) :
    (List.finRange R).flatMap (fun r : Fin R => arraySplit l R r) = l := by
  set q := l.length / R with hq
  set m := l.length % R with hm
  have hlen : l.length = R * q + m := (Nat.div_add_mod l.length R).symm
  have hmR : m < R := Nat.mod_lt _ hR
  have key : ∀ k : ℕ, k ≤ R → (List.finRange k).flatMap (fun r : Fin k => arraySplit l R r.val) = l.take (k * q + min k m) := by
    intro k
    induction k with
    | zero => intro _; simp
    | succ k ih =>
      intro hk
      have h : (List.finRange (k + 1)) = (List.finRange k).map Fin.castSucc ++ [Fin.last k] := List.finRange_succ_last
      rw [h, List.flatMap_append, List.flatMap_map]
      simp only [Fin.val_castSucc]
      rw [ih (by omega), List.flatMap_singleton, Fin.val_last]
      unfold arraySplit
      rw [← hq, ← hm, ← List.take_add]
      congr 1
      rw [Nat.succ_mul]
      split <;> omega
  rw [key R le_rfl, Nat.min_eq_right hmR.le, ← hlen, List.take_length]

/-- The exponents that are evaluated are at most zero. -/
theorem C51_no_overflow {R : ℕ} (lp : C → Option ℝ) (det comp : Fin R → List C) (r : Fin R) (c : C) (hc : c ∈ det r ++ comp r)
    (x : ℝ) (hx : lp c = some x) : x - rescaleShift lp det comp ≤ 0 := by
  have hmax : ∀ (l : List ℝ) (y : ℝ), y ∈ l → y ≤ maxOf l := by
    intro l y hy
    cases l with
    | nil => simp at hy
    | cons a l =>
      simp only [maxOf]
      have : ∀ (l : List ℝ) (a : ℝ), a ≤ l.foldl max a ∧ ∀ y ∈ l, y ≤ l.foldl max a := by
        intro l
        induction l with
        | nil => intro a; simp
        | cons b l ih =>
          intro a
          obtain ⟨h1, h2⟩ := ih (max a b)
          refine ⟨(le_max_left a b).trans h1, ?_⟩
          intro y hy
          rcases List.mem_cons.mp hy with rfl | hy
          · exact (le_max_right a y).trans h1
          · exact h2 y hy
      rcases List.mem_cons.mp hy with rfl | hy
      · exact (this l y).1
      · exact (this l a).2 y hy
  have := hmax ((List.finRange R).flatMap fun r => (det r ++ comp r).filterMap lp) x
    (List.mem_flatMap.mpr ⟨r, List.mem_finRange r, List.mem_filterMap.mpr ⟨c, hc, hx⟩⟩)
  unfold rescaleShift
  linarith

/-- The hypotheses are met by three configurations with probabilities `1, e, 0` and the deterministic set `{0}`. -/
example : zDet (R := 1) (fun c : Fin 3 => if c = 0 then some 0 else if c = 1 then some 1 else none) (fun _ => [0]) +
    zComp (R := 1) (fun c : Fin 3 => if c = 0 then some 0 else if c = 1 then some 1 else none) 2 (fun _ => [0]) (fun _ => [1])
      (Mode.randNorm fun _ => [1, 2]) ≠ 0 := by
  have h : (0 : ℝ) < Real.exp 1 := Real.exp_pos 1
  simp [zDet, zComp, prob]
  positivity

example : initialSample [0, 1] [1, 0, 2] = some 2 := by decide

end GPSKet.Props
