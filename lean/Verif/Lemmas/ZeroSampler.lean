import Verif.Spec.ZeroSampler
import Verif.Model.ZeroSampler
import Verif.Lemmas.SamplerChain

/-! # Metropolis chains for wave functions with zeros -/

namespace GPSKet.ZeroSampler
open Spec Floats Floats.F MeasureTheory Filter

/-! ## Markov chains with zero weights -/

/-- A Metropolis chain `P` with proposals `q` for weights `w` that may be zero: from zero weight, positive weight is always accepted and zero weight never. -/
structure Zeros {α : Type} [Fintype α] (P q : Matrix α α ℝ) (w : α → ℝ) : Prop where
  kernel : IsKernel P
  proposals : IsKernel q
  symm : ∀ x y, q x y = q y x
  nonneg : ∀ x, 0 ≤ w x
  move : ∀ x y, x ≠ y → P x y = q x y * if w x = 0 then (if w y = 0 then 0 else 1) else min 1 (w y / w x)

section
variable {α : Type} [Fintype α] [DecidableEq α] {P q : Matrix α α ℝ} {w : α → ℝ}

omit [DecidableEq α] in
theorem Zeros.support (h : Zeros P q w) {x y : α} (hx : w x ≠ 0) (hy : w y = 0) : P x y = 0 := by
  have hne : x ≠ y := fun e => hx (e ▸ hy)
  rw [h.move x y hne, if_neg hx, hy, zero_div, min_eq_right zero_le_one, mul_zero]

omit [DecidableEq α] in
theorem Zeros.frozen (h : Zeros P q w) {x y : α} (hne : x ≠ y) (hx : w x = 0) (hy : w y = 0) : P x y = 0 := by
  rw [h.move x y hne, if_pos hx, if_pos hy, mul_zero]

omit [DecidableEq α] in
theorem Zeros.enter (h : Zeros P q w) {x y : α} (hx : w x = 0) (hy : w y ≠ 0) : P x y = q x y := by
  have hne : x ≠ y := fun e => hy (e ▸ hx)
  rw [h.move x y hne, if_pos hx, if_neg hy, mul_one]

omit [DecidableEq α] in
theorem Zeros.reversible (h : Zeros P q w) (x y : α) : w x * P x y = w y * P y x := by
  by_cases hxy : x = y
  · rw [hxy]
  by_cases hx : w x = 0
  · by_cases hy : w y = 0
    · rw [hx, hy, zero_mul, zero_mul]
    · rw [hx, zero_mul, h.support hy hx, mul_zero]
  · by_cases hy : w y = 0
    · rw [hy, zero_mul, h.support hx hy, mul_zero]
    · have h1 : 0 < w x := lt_of_le_of_ne (h.nonneg x) (Ne.symm hx)
      have h2 : 0 < w y := lt_of_le_of_ne (h.nonneg y) (Ne.symm hy)
      rw [h.move x y hxy, h.move y x (Ne.symm hxy), if_neg hx, if_neg hy, h.symm x y]
      have e1 : w x * min 1 (w y / w x) = min (w x) (w y) := by
        rw [mul_min_of_nonneg _ _ h1.le, mul_one, mul_div_cancel₀ _ h1.ne']
      have e2 : w y * min 1 (w x / w y) = min (w y) (w x) := by
        rw [mul_min_of_nonneg _ _ h2.le, mul_one, mul_div_cancel₀ _ h2.ne']
      rw [min_comm (w y) (w x)] at e2
      linear_combination q y x * e1 - q y x * e2

omit [DecidableEq α] in
theorem Zeros.invariant (h : Zeros P q w) : Invariant P w := Markov.invariant_of_reversible h.kernel h.reversible

/-- The chain does not leave the support. -/
theorem Zeros.pow_support (h : Zeros P q w) {x y : α} (hx : w x ≠ 0) (hy : w y = 0) (n : ℕ) : (P ^ n) x y = 0 := by
  induction n generalizing x with
  | zero =>
    have hne : x ≠ y := fun e => hx (e ▸ hy)
    rw [pow_zero, Matrix.one_apply_ne hne]
  | succ n ih =>
    rw [pow_succ', Matrix.mul_apply]
    refine Finset.sum_eq_zero fun z _ => ?_
    by_cases hz : w z = 0
    · rw [h.support hx hz, zero_mul]
    · rw [ih hz, mul_zero]

/-- A row with a one on the diagonal. -/
theorem frozen_of_row (hk : IsKernel P) {x : α} (hx : ∀ y, x ≠ y → P x y = 0) : Frozen P x := by
  have h1 : P x x = 1 := by
    rw [← hk.sum x, Finset.sum_eq_single x]
    · exact fun y _ hy => hx y (Ne.symm hy)
    · exact fun h => absurd (Finset.mem_univ x) h
  intro n
  induction n with
  | zero => simp
  | succ n ih =>
    rw [pow_succ', Matrix.mul_apply, Finset.sum_eq_single x, h1, ih, mul_one]
    · intro y _ hy
      rw [hx y (Ne.symm hy), zero_mul]
    · exact fun h => absurd (Finset.mem_univ x) h

theorem Zeros.stuck (h : Zeros P q w) {x : α} (hx : w x = 0) (hq : ∀ y, x ≠ y → q x y ≠ 0 → w y = 0) : Frozen P x := by
  refine frozen_of_row h.kernel fun y hy => ?_
  by_cases hq0 : q x y = 0
  · rw [h.move x y hy, hq0, zero_mul]
  · exact h.frozen hy hx (hq y hy hq0)

/-- Inside the support likewise. -/
theorem Zeros.stuck_inside (h : Zeros P q w) {x : α} (hx : w x ≠ 0) (hq : ∀ y, x ≠ y → q x y ≠ 0 → w y = 0) : Frozen P x := by
  refine frozen_of_row h.kernel fun y hy => ?_
  by_cases hq0 : q x y = 0
  · rw [h.move x y hy, hq0, zero_mul]
  · exact h.support hx (hq y hy hq0)

omit [DecidableEq α] in
/-- The chain may stay next to a configuration of zero weight. -/
theorem Zeros.loop (h : Zeros P q w) {x y : α} (hx : w x ≠ 0) (hy : w y = 0) (hq : 0 < q x y) : 0 < P x x := by
  classical
  have hne : x ≠ y := fun e => hx (e ▸ hy)
  have hP := h.kernel.sum x
  have hQ := h.proposals.sum x
  rw [← Finset.add_sum_erase _ _ (Finset.mem_univ x)] at hP hQ
  have hlt : ∑ z ∈ Finset.univ.erase x, P x z < ∑ z ∈ Finset.univ.erase x, q x z := by
    refine Finset.sum_lt_sum ?_ ⟨y, Finset.mem_erase.mpr ⟨Ne.symm hne, Finset.mem_univ y⟩, ?_⟩
    · intro z hz
      rw [h.move x z (Ne.symm (Finset.ne_of_mem_erase hz)), if_neg hx]
      exact mul_le_of_le_one_right (h.proposals.nonneg x z) (min_le_left _ _)
    · rw [h.support hx hy]
      exact hq
  have := h.proposals.nonneg x x
  linarith

/-- The chain restricted to the support. -/
def restrict (P : Matrix α α ℝ) (w : α → ℝ) : Matrix {x // w x ≠ 0} {x // w x ≠ 0} ℝ := Matrix.of fun x y => P x.1 y.1

omit [DecidableEq α] in
theorem sum_support (f : α → ℝ) (hf : ∀ z, w z = 0 → f z = 0) [Fintype {x // w x ≠ 0}] : ∑ z, f z = ∑ z : {x // w x ≠ 0}, f z.1 := by
  classical
  have h1 : ∑ z ∈ Finset.univ.filter (fun z => w z ≠ 0), f z = ∑ z, f z := by
    refine Finset.sum_subset (Finset.subset_univ _) fun z _ hz => hf z ?_
    by_contra h0
    exact hz (Finset.mem_filter.mpr ⟨Finset.mem_univ z, h0⟩)
  rw [← h1]
  exact Finset.sum_subtype (Finset.univ.filter fun z => w z ≠ 0) (fun x => by simp) f

theorem Zeros.pow_restrict (h : Zeros P q w) [Fintype {x // w x ≠ 0}] [DecidableEq {x // w x ≠ 0}] (x y : {x // w x ≠ 0}) (n : ℕ) :
    (restrict P w ^ n) x y = (P ^ n) x.1 y.1 := by
  induction n generalizing x with
  | zero =>
    rw [pow_zero, pow_zero]
    by_cases hxy : x = y
    · rw [hxy, Matrix.one_apply_eq, Matrix.one_apply_eq]
    · rw [Matrix.one_apply_ne hxy, Matrix.one_apply_ne fun e => hxy (Subtype.ext e)]
  | succ n ih =>
    rw [pow_succ', pow_succ', Matrix.mul_apply, Matrix.mul_apply, sum_support (w := w) (fun z => P x.1 z * (P ^ n) z y.1)]
    · exact Finset.sum_congr rfl fun z _ => by rw [ih z]; rfl
    · intro z hz
      rw [h.support x.2 hz, zero_mul]

omit [DecidableEq α] in
theorem Zeros.restrict_kernel (h : Zeros P q w) [Fintype {x // w x ≠ 0}] : IsKernel (restrict P w) := by
  refine ⟨fun a b => h.kernel.nonneg _ _, fun a => ?_⟩
  rw [← h.kernel.sum a.1, sum_support (w := w) (fun z => P a.1 z) fun z hz => h.support a.2 hz]
  rfl

omit [DecidableEq α] in
theorem Zeros.pos (h : Zeros P q w) (a : {x // w x ≠ 0}) : 0 < w a.1 := lt_of_le_of_ne (h.nonneg _) (Ne.symm a.2)

omit [DecidableEq α] in
theorem Zeros.restrict_invariant (h : Zeros P q w) [Fintype {x // w x ≠ 0}] : Invariant (restrict P w) fun a => w a.1 := by
  intro y
  show ∑ a : {x // w x ≠ 0}, w a.1 * P a.1 y.1 = w y.1
  rw [← h.invariant y.1, sum_support (w := w) (fun z => w z * P z y.1) fun z hz => by rw [hz, zero_mul]]

theorem Zeros.restrict_irreducible (h : Zeros P q w)
    (hc : ∀ x y, w x ≠ 0 → w y ≠ 0 → Relation.ReflTransGen (fun a b => 0 < q a b ∧ w b ≠ 0) x y) [Fintype {x // w x ≠ 0}]
    [DecidableEq {x // w x ≠ 0}] : Spec.Irreducible (restrict P w) := by
  intro a b
  apply Markov.reach_pow h.restrict_kernel
  have lift : ∀ c, Relation.ReflTransGen (fun a b => 0 < q a b ∧ w b ≠ 0) a.1 c →
      ∃ hc : w c ≠ 0, Relation.ReflTransGen (fun x y => 0 < restrict P w x y) a ⟨c, hc⟩ := by
    intro c hac
    induction hac with
    | refl => exact ⟨a.2, Relation.ReflTransGen.refl⟩
    | @tail u v _ huv ih =>
      obtain ⟨hu, hr⟩ := ih
      refine ⟨huv.2, ?_⟩
      by_cases huv' : u = v
      · subst huv'
        exact hr
      · refine hr.tail ?_
        show 0 < P u v
        rw [h.move u v huv', if_neg hu]
        exact mul_pos huv.1 (lt_min one_pos (div_pos (h.pos ⟨v, huv.2⟩) (h.pos ⟨u, hu⟩)))
  obtain ⟨_, hr⟩ := lift b.1 (hc a.1 b.1 a.2 b.2)
  exact hr

theorem Zeros.restrict_converges (h : Zeros P q w)
    (hc : ∀ x y, w x ≠ 0 → w y ≠ 0 → Relation.ReflTransGen (fun a b => 0 < q a b ∧ w b ≠ 0) x y)
    {s z : α} (hs : w s ≠ 0) (hz : w z = 0) (hsz : 0 < q s z) [Fintype {x // w x ≠ 0}] [DecidableEq {x // w x ≠ 0}] :
    Converges (restrict P w) fun a => w a.1 :=
  Markov.converges_of_loop h.restrict_kernel h.restrict_invariant h.pos (h.restrict_irreducible hc) ⟨s, hs⟩ (h.loop hs hz hsz)

/-- If the support is connected by proposals and there is a configuration of zero weight next to it, the chain converges from everywhere in the support. -/
theorem Zeros.converges_inside (h : Zeros P q w) (hc : ∀ x y, w x ≠ 0 → w y ≠ 0 → Relation.ReflTransGen (fun a b => 0 < q a b ∧ w b ≠ 0) x y)
    {s z : α} (hs : w s ≠ 0) (hz : w z = 0) (hsz : 0 < q s z) {x : α} (hx : w x ≠ 0) : ConvergesFrom P w x := by
  classical
  have hconv := h.restrict_converges hc hs hz hsz
  intro y
  by_cases hy : w y = 0
  · rw [hy, zero_div]
    refine tendsto_const_nhds.congr fun n => ?_
    rw [h.pow_support hx hy n]
  · have := hconv ⟨x, hx⟩ ⟨y, hy⟩
    simp only [h.pow_restrict] at this
    rw [sum_support (w := w) w fun z hz => hz]
    exact this

/-- A sequence that forgets where it started. -/
theorem tendsto_of_rec {a b : ℕ → ℝ} {r l : ℝ} (h0 : 0 ≤ r) (h1 : r < 1) (hb : Tendsto b atTop (nhds ((1 - r) * l)))
    (ha : ∀ n, a (n + 1) = r * a n + b n) : Tendsto a atTop (nhds l) := by
  -- the distance to the limit
  rw [Metric.tendsto_atTop] at hb ⊢
  intro ε hε
  have hr : 0 < 1 - r := by linarith
  obtain ⟨N, hN⟩ := hb ((1 - r) * (ε / 2)) (by positivity)
  have hstep : ∀ n, N ≤ n → |a (n + 1) - l| ≤ r * |a n - l| + (1 - r) * (ε / 2) := by
    intro n hn
    have hbn := hN n hn
    rw [Real.dist_eq] at hbn
    have e : a (n + 1) - l = r * (a n - l) + (b n - (1 - r) * l) := by rw [ha]; ring
    rw [e]
    refine (abs_add_le _ _).trans ?_
    rw [abs_mul, abs_of_nonneg h0]
    linarith
  have hbound : ∀ k, |a (N + k) - l| ≤ r ^ k * |a N - l| + ε / 2 := by
    intro k
    induction k with
    | zero => simp; positivity
    | succ k ih =>
      have := hstep (N + k) (Nat.le_add_right _ _)
      rw [show N + (k + 1) = N + k + 1 by ring]
      refine this.trans ?_
      have h2 := mul_le_mul_of_nonneg_left ih h0
      rw [pow_succ']
      nlinarith
  have hlim : Tendsto (fun k : ℕ => r ^ k * |a N - l|) atTop (nhds 0) := by
    have := (tendsto_pow_atTop_nhds_zero_of_lt_one h0 h1).mul_const |a N - l|
    rwa [zero_mul] at this
  rw [Metric.tendsto_atTop] at hlim
  obtain ⟨K, hK⟩ := hlim (ε / 2) (by positivity)
  refine ⟨N + K, fun n hn => ?_⟩
  obtain ⟨k, rfl⟩ : ∃ k, n = N + k := ⟨n - N, by omega⟩
  have h3 := hK k (by omega)
  rw [Real.dist_eq, sub_zero] at h3
  have h4 := le_abs_self (r ^ k * |a N - l|)
  have h5 := hbound k
  rw [Real.dist_eq]
  linarith

/-- From a configuration of zero weight next to the support the chain converges as well. -/
theorem Zeros.converges (h : Zeros P q w) (hc : ∀ x y, w x ≠ 0 → w y ≠ 0 → Relation.ReflTransGen (fun a b => 0 < q a b ∧ w b ≠ 0) x y)
    {s z : α} (hs : w s ≠ 0) (hz : w z = 0) (hsz : 0 < q s z) {x : α} (hx : w x ≠ 0 ∨ ∃ y, 0 < q x y ∧ w y ≠ 0) : ConvergesFrom P w x := by
  by_cases hx0 : w x ≠ 0
  · exact h.converges_inside hc hs hz hsz hx0
  push Not at hx0
  obtain ⟨y0, hq0, hy0⟩ := hx.resolve_left (not_not.mpr hx0)
  have hP0 : P x y0 = q x y0 := h.enter hx0 hy0
  have hne0 : x ≠ y0 := fun e => hy0 (e ▸ hx0)
  have hsum := h.kernel.sum x
  rw [← Finset.add_sum_erase _ _ (Finset.mem_univ x)] at hsum
  have hr1 : P x x < 1 := by
    have : P x y0 ≤ ∑ z ∈ Finset.univ.erase x, P x z :=
      Finset.single_le_sum (f := fun z => P x z) (fun z _ => h.kernel.nonneg x z) (Finset.mem_erase.mpr ⟨Ne.symm hne0, Finset.mem_univ _⟩)
    rw [hP0] at this
    linarith
  intro y
  refine tendsto_of_rec (b := fun n => ∑ z ∈ Finset.univ.erase x, P x z * (P ^ n) z y) (h.kernel.nonneg x x) hr1 ?_ ?_
  · have e : (1 - P x x) * (w y / ∑ z, w z) = ∑ z ∈ Finset.univ.erase x, P x z * (w y / ∑ z, w z) := by
      rw [← Finset.sum_mul]
      congr 1
      linarith
    rw [e]
    refine tendsto_finsetSum _ fun z hz' => ?_
    by_cases hwz : w z = 0
    · rw [h.frozen (Ne.symm (Finset.ne_of_mem_erase hz')) hx0 hwz]
      simp
    · exact (h.converges_inside hc hs hz hsz hwz y).const_mul _
  · intro n
    rw [pow_succ', Matrix.mul_apply, ← Finset.add_sum_erase _ _ (Finset.mem_univ x)]

end

/-! ## The accept test -/

/-- The probability of the test for a uniform variate. -/
noncomputable def accept (new old : F) : ℝ :=
  match F.exp (new + -old) with
  | fin e => min 1 e
  | pinf => 1
  | ninf => 0
  | nan => 0

theorem accept_nan (old : F) : accept nan old = 0 := by cases old <;> rfl

theorem accept_nonneg (new old : F) : 0 ≤ accept new old := by
  unfold accept
  cases h : new + -old <;> simp only [F.exp]
  · exact le_min zero_le_one (Real.exp_pos _).le
  all_goals first | exact zero_le_one | simp

theorem accept_le (new old : F) : accept new old ≤ 1 := by
  unfold accept
  cases h : new + -old <;> simp only [F.exp]
  · exact min_le_left _ _
  all_goals first | exact zero_le_one | simp

theorem below_iff (new old : F) {u : ℝ} (h0 : 0 ≤ u) (h1 : u < 1) : below u (F.exp (new + -old)) ↔ u < accept new old := by
  unfold accept
  cases h : new + -old <;> simp only [F.exp, below]
  · rw [lt_min_iff]
    exact ⟨fun h => ⟨h1, h⟩, fun h => h.2⟩
  · simp [h1]
  · rw [min_eq_right zero_le_one]
  · simp [h0]

open Classical in
theorem volume_select {X : Type} (new old : F) (p x y : X) :
    (volume {u : ℝ | u ∈ Set.Ico (0 : ℝ) 1 ∧ select new old p x u = y}).toReal =
      (if p = y then accept new old else 0) + (if x = y then 1 - accept new old else 0) := by
  set r := accept new old with hr
  have hr0 : 0 ≤ r := accept_nonneg new old
  have hr1 : r ≤ 1 := accept_le new old
  have hstep : ∀ u : ℝ, u ∈ Set.Ico (0 : ℝ) 1 → select new old p x u = if u < r then p else x := by
    intro u hu
    unfold select
    by_cases h : u < r
    · rw [if_pos h, if_pos ((below_iff new old hu.1 hu.2).mpr h)]
    · rw [if_neg h, if_neg fun h' => h ((below_iff new old hu.1 hu.2).mp h')]
  have hset : {u : ℝ | u ∈ Set.Ico (0 : ℝ) 1 ∧ select new old p x u = y} = {u : ℝ | u ∈ Set.Ico (0 : ℝ) 1 ∧ (if u < r then p else x) = y} := by
    ext u
    constructor
    · rintro ⟨h1, h2⟩; exact ⟨h1, by rw [← hstep u h1]; exact h2⟩
    · rintro ⟨h1, h2⟩; exact ⟨h1, by rw [hstep u h1]; exact h2⟩
  rw [hset]
  by_cases h1 : p = y
  · by_cases h2 : x = y
    · have : {u : ℝ | u ∈ Set.Ico (0 : ℝ) 1 ∧ (if u < r then p else x) = y} = Set.Ico 0 1 := by
        ext u
        simp only [h1, h2, ite_self, and_true, Set.mem_ofPred_eq]
      rw [this, Real.volume_Ico, if_pos h1, if_pos h2]
      simp
    · have : {u : ℝ | u ∈ Set.Ico (0 : ℝ) 1 ∧ (if u < r then p else x) = y} = Set.Ico 0 r := by
        ext u
        simp only [Set.mem_ofPred_eq, Set.mem_Ico]
        constructor
        · rintro ⟨⟨a, b⟩, c⟩
          refine ⟨a, ?_⟩
          by_contra h
          rw [if_neg h] at c
          exact h2 c
        · rintro ⟨a, b⟩
          exact ⟨⟨a, lt_of_lt_of_le b hr1⟩, by rw [if_pos b, h1]⟩
      rw [this, Real.volume_Ico, if_pos h1, if_neg h2]
      simp [hr0]
  · by_cases h2 : x = y
    · have : {u : ℝ | u ∈ Set.Ico (0 : ℝ) 1 ∧ (if u < r then p else x) = y} = Set.Ico r 1 := by
        ext u
        simp only [Set.mem_ofPred_eq, Set.mem_Ico]
        constructor
        · rintro ⟨⟨a, b⟩, c⟩
          refine ⟨?_, b⟩
          by_contra h
          rw [if_pos (not_le.mp h)] at c
          exact h1 c
        · rintro ⟨a, b⟩
          exact ⟨⟨hr0.trans a, b⟩, by rw [if_neg (not_lt.mpr a), h2]⟩
      rw [this, Real.volume_Ico, if_neg h1, if_pos h2, ENNReal.toReal_ofReal (by linarith)]
      simp
    · have : {u : ℝ | u ∈ Set.Ico (0 : ℝ) 1 ∧ (if u < r then p else x) = y} = ∅ := by
        ext u
        simp only [Set.mem_ofPred_eq, Set.mem_empty_iff_false, iff_false, not_and]
        intro _ c
        split_ifs at c
        · exact h1 c
        · exact h2 c
      rw [this, if_neg h1, if_neg h2]
      simp

/-- The acceptance for amplitudes, with a positive power. -/
theorem accept_amp {pow : ℝ} (hp : 0 < pow) (a b : ℂ) : accept (logProb pow b) (logProb pow a) =
    if ‖a‖ ^ pow = 0 then (if ‖b‖ ^ pow = 0 then 0 else 1) else min 1 (‖b‖ ^ pow / ‖a‖ ^ pow) := by
  have hz : ∀ c : ℂ, ‖c‖ ^ pow = 0 ↔ c = 0 := fun c => by rw [Real.rpow_eq_zero (norm_nonneg c) hp.ne', norm_eq_zero]
  have hlog0 : ∀ c : ℂ, c = 0 → logProb pow c = ninf := by
    rintro c rfl
    show F.mul (fin pow) (F.log (fin ‖(0 : ℂ)‖)) = _
    rw [norm_zero]
    simp only [F.log, lt_irrefl, if_false, if_true, F.mul, timesInf, if_pos hp, F.neg]
  have hlog1 : ∀ c : ℂ, c ≠ 0 → logProb pow c = fin (pow * Real.log ‖c‖) := by
    intro c hc
    show F.mul (fin pow) (F.log (fin ‖c‖)) = _
    simp only [F.log, if_pos (norm_pos_iff.mpr hc), F.mul]
  by_cases ha : a = 0
  · rw [if_pos ((hz a).mpr ha), hlog0 a ha]
    by_cases hb : b = 0
    · rw [if_pos ((hz b).mpr hb), hlog0 b hb]
      rfl
    · rw [if_neg (fun h => hb ((hz b).mp h)), hlog1 b hb]
      rfl
  · rw [if_neg (fun h => ha ((hz a).mp h)), hlog1 a ha]
    by_cases hb : b = 0
    · rw [hlog0 b hb, (hz b).mpr hb, zero_div]
      rfl
    · rw [hlog1 b hb]
      show min 1 (Real.exp (pow * Real.log ‖b‖ + -(pow * Real.log ‖a‖))) = _
      rw [← sub_eq_add_neg, Real.exp_sub, Real.rpow_def_of_pos (norm_pos_iff.mpr hb), Real.rpow_def_of_pos (norm_pos_iff.mpr ha), mul_comm pow,
        mul_comm pow]

/-! ## The kernel -/

variable {S A D : Type} [Fintype D] {old : (S → A) → F} {new : (S → A) → (S → A) → F} {law : (S → A) → D → ℝ}
  {proposal : D → (S → A) → (S → A) × S × S}

theorem stepProb_ne {x y : S → A} (h : x ≠ y) :
    stepProb old new law proposal x y = SamplerChain.proposed law proposal x y * accept (new x y) (old x) := by
  classical
  unfold stepProb SamplerChain.proposed
  rw [Finset.sum_mul]
  apply Finset.sum_congr rfl
  intro d _
  rw [volume_select, if_neg h, add_zero]
  by_cases h1 : (proposal d x).1 = y <;> simp [h1]

variable {α : Type} [Fintype α] {emb : α → S → A}

theorem kernel (hinj : Function.Injective emb) (hl : ∀ x d, 0 ≤ law (emb x) d) (hs : ∀ x, ∑ d, law (emb x) d = 1)
    (hc : ∀ x d, law (emb x) d ≠ 0 → ∃ x', (proposal d (emb x)).1 = emb x') :
    IsKernel (Matrix.of fun x y => stepProb old new law proposal (emb x) (emb y)) := by
  classical
  refine ⟨fun x y => Finset.sum_nonneg fun d _ => mul_nonneg (hl x d) ENNReal.toReal_nonneg, fun x => ?_⟩
  simp only [Matrix.of_apply]
  unfold stepProb
  rw [Finset.sum_comm]
  refine Eq.trans ?_ (hs x)
  apply Finset.sum_congr rfl
  intro d _
  rw [← Finset.mul_sum]
  by_cases h0 : law (emb x) d = 0
  · rw [h0, zero_mul]
  obtain ⟨x', hx'⟩ := hc x d h0
  have e : ∀ y, (volume {u : ℝ | u ∈ Set.Ico (0 : ℝ) 1 ∧
      select (new (emb x) (proposal d (emb x)).1) (old (emb x)) (proposal d (emb x)).1 (emb x) u = emb y}).toReal =
      (if x' = y then accept (new (emb x) (emb x')) (old (emb x)) else 0) +
      (if x = y then 1 - accept (new (emb x) (emb x')) (old (emb x)) else 0) := by
    intro y
    rw [volume_select, hx']
    simp only [hinj.eq_iff]
  rw [Finset.sum_congr rfl fun y _ => e y, Finset.sum_add_distrib, Finset.sum_ite_eq, Finset.sum_ite_eq]
  simp

/-- The proposals are a kernel. -/
theorem proposed_kernel (hinj : Function.Injective emb) (hl : ∀ x d, 0 ≤ law (emb x) d) (hs : ∀ x, ∑ d, law (emb x) d = 1)
    (hc : ∀ x d, law (emb x) d ≠ 0 → ∃ x', (proposal d (emb x)).1 = emb x') :
    IsKernel (Matrix.of fun x y => SamplerChain.proposed law proposal (emb x) (emb y)) := by
  classical
  refine ⟨fun x y => Finset.sum_nonneg fun d _ => ?_, fun x => ?_⟩
  · split
    · exact hl x d
    · exact le_rfl
  · simp only [Matrix.of_apply]
    unfold SamplerChain.proposed
    rw [Finset.sum_comm]
    refine Eq.trans ?_ (hs x)
    apply Finset.sum_congr rfl
    intro d _
    by_cases h0 : law (emb x) d = 0
    · rw [h0]
      simp
    obtain ⟨x', hx'⟩ := hc x d h0
    simp only [hx', hinj.eq_iff]
    rw [Finset.sum_ite_eq, if_pos (Finset.mem_univ _)]

/-- The chain of the plain sampler. -/
theorem plain_zeros {psi : (S → A) → ℂ} {pow : ℝ} (hp : 0 < pow) (hinj : Function.Injective emb) (hl : ∀ x d, 0 ≤ law (emb x) d)
    (hs : ∀ x, ∑ d, law (emb x) d = 1) (hc : ∀ x d, law (emb x) d ≠ 0 → ∃ x', (proposal d (emb x)).1 = emb x')
    (hsym : ∀ x y, SamplerChain.proposed law proposal (emb x) (emb y) = SamplerChain.proposed law proposal (emb y) (emb x)) :
    Zeros (Matrix.of fun x y => plainStep psi pow law proposal (emb x) (emb y))
      (Matrix.of fun x y => SamplerChain.proposed law proposal (emb x) (emb y)) (fun x => ‖psi (emb x)‖ ^ pow) where
  kernel := kernel hinj hl hs hc
  proposals := proposed_kernel hinj hl hs hc
  symm := hsym
  nonneg := fun x => Real.rpow_nonneg (norm_nonneg _) _
  move := fun x y h => by
    have e := stepProb_ne (old := fun x => logProb pow (psi x)) (new := fun _ p => logProb pow (psi p)) (law := law) (proposal := proposal)
      (x := emb x) (y := emb y) fun e => h (hinj e)
    rw [accept_amp hp] at e
    exact e

end GPSKet.ZeroSampler
