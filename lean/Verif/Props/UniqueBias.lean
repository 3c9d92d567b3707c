import Verif.Props.UniqueSamples
import Mathlib.Data.Fintype.Pi
import Mathlib.Algebra.BigOperators.Field
import Mathlib.Tactic.FieldSimp
import Mathlib.Tactic.LinearCombination
import Mathlib.Data.Complex.BigOperators
import Mathlib.Tactic.FinCases
import Mathlib.Tactic.NormNum

/-!
# Expected values reported by states with unique samples (C141)

The sampler is a random source of batches: a finite probability space `Ω` with weights `w`, on which draw `j` of batch `i` is
`draw ω i j`.  No independence is assumed, only that every single draw has the law `law`.
-/

namespace GPSKet.UniqueBias

open GPSKet.UniqueSamples GPSKet.Props

variable {C Ω : Type} [Fintype C] [DecidableEq C] [Fintype Ω]

/-- Every draw has the law `law` under the weights `w`. -/
def Marginals {m b : ℕ} (w : Ω → ℝ) (draw : Ω → Fin m → Fin b → C) (law : C → ℝ) : Prop :=
  ∀ i j c, ∑ ω, (if draw ω i j = c then w ω else 0) = law c

/-- The merged batches of an outcome. -/
def batches {m b : ℕ} (draw : Fin m → Fin b → C) : List (List C) := List.ofFn fun i => List.ofFn (draw i)

omit [Fintype C] in
theorem processBatch_ne_nil (n : ℕ) (d : Dict C) (b : List C) (h : b ≠ []) : processBatch n d b ≠ [] := by
  have ha : ∀ (d : Dict C) c, addSample d c ≠ [] := by
    intro d c
    cases d with
    | nil => simp [addSample]
    | cons e d => unfold addSample; split_ifs <;> simp
  induction b generalizing d with
  | nil => exact absurd rfl h
  | cons c rest ih =>
    unfold processBatch
    split_ifs
    · exact ha d c
    · cases rest with
      | nil => exact ha d c
      | cons c' r => exact ih _ (by simp)

omit [Fintype C] in
theorem loop_total (n m : ℕ) (bs : List (List C)) (count : ℕ) (d : Dict C) (hb : bs ≠ []) (hm : m = count + bs.length) :
    ∃ d' b u, sampleLoop n (some m) count d bs = some (d', b, u) ∧ b ∈ bs := by
  induction bs generalizing count d with
  | nil => exact absurd rfl hb
  | cons b rest ih =>
    unfold sampleLoop
    dsimp only
    by_cases hs : stops n (some m) (count + 1) (processBatch n d b).length = true
    · rw [if_pos hs]; exact ⟨_, _, _, rfl, by simp⟩
    · rw [if_neg hs]
      have hr : rest ≠ [] := by
        rintro rfl
        apply hs
        simp [stops, hm]
      obtain ⟨d', b', u, h1, h2⟩ := ih (count + 1) (processBatch n d b) hr (by rw [hm]; simp; omega)
      exact ⟨d', b', u, h1, by simp [h2]⟩

omit [Fintype C] in
/-- C141: with a limit on the number of batches the state always ends up with samples. -/
theorem C141_total {m b : ℕ} (ranks perRank : ℕ) (hm : 0 < m) (hb : 0 < b) (draw : Fin m → Fin b → C) :
    ∃ sw, samplesWithCounts ranks perRank (some m) (batches draw) = some sw := by
  unfold samplesWithCounts
  rw [if_neg (by simpa using hm.ne')]
  have hne : batches draw ≠ [] := by
    intro h
    have := congrArg List.length h
    simp [batches] at this
    omega
  obtain ⟨d, bt, u, h1, h2⟩ := loop_total (ranks * perRank) m (batches draw) 0 [] hne (by simp [batches])
  rw [h1]
  dsimp only
  obtain ⟨i, rfl⟩ : ∃ i, List.ofFn (draw i) = bt := by
    simpa [batches, List.mem_ofFn] using h2
  cases hh : (List.ofFn (draw i)).head? with
  | none =>
    rw [List.head?_eq_none_iff] at hh
    have := congrArg List.length hh
    simp at this
    omega
  | some pad => exact ⟨_, rfl⟩

omit [Fintype C] [DecidableEq C] in
theorem sum_batches {m b : ℕ} (draw : Fin m → Fin b → C) (f : C → ℂ) :
    ((batches draw).flatten.map f).sum = ∑ i, ∑ j, f (draw i j) := by
  unfold batches
  rw [List.map_flatten, List.sum_flatten, List.map_map, List.map_ofFn, List.sum_ofFn]
  refine Finset.sum_congr rfl fun i _ => ?_
  simp [List.map_ofFn, List.sum_ofFn]

omit [Fintype C] [DecidableEq C] in
theorem length_batches {m b : ℕ} (draw : Fin m → Fin b → C) : (batches draw).flatten.length = m * b := by
  unfold batches
  rw [List.length_flatten, List.map_ofFn, List.sum_ofFn]
  simp

/-- Sampling runs through all batches: the mean is the average over all draws, and no weight is negative. -/
theorem all_draws {m b : ℕ} (hm : 0 < m) (hb : 0 < b) (ranks perRank : ℕ) (hn : Fintype.card C < ranks * perRank ∨ m * b ≤ ranks * perRank)
    (draw : Fin m → Fin b → C) (sw : Fin ranks → List (C × ℝ)) (hsw : samplesWithCounts ranks perRank (some m) (batches draw) = some sw) :
    (∀ loc : C → ℂ, mean sw loc = (∑ i, ∑ j, loc (draw i j)) / ((m * b : ℕ) : ℂ)) ∧ ∀ r, ∀ e ∈ sw r, 0 ≤ e.2 := by
  have hmb := Nat.mul_pos hm hb
  obtain ⟨P, used, -, hpre, -, -, hP, -, hnn, -, -, -, hval⟩ :=
    C50_unique_samples ranks perRank (by omega) (some m) (batches draw) sw hsw
  refine ⟨fun loc => ?_, fun r e he => (hnn r e he).1⟩
  rcases hP with h | ⟨-, h, hu⟩
  · rcases hn with hn | hn
    · have h1 : P.dedup.length ≤ Fintype.card C := (List.nodup_dedup P).length_le_card
      omega
    · have h1 : P.dedup.length ≤ P.length := (List.dedup_sublist P).length_le
      have hpre' : P <+: (batches draw).flatten := by
        refine hpre.trans ?_
        conv_rhs => rw [← List.take_append_drop used (batches draw), List.flatten_append]
        exact List.prefix_append _ _
      have h2 : P = (batches draw).flatten := hpre'.eq_of_length_le (by rw [length_batches]; omega)
      rw [(hval loc loc).1, h2, sum_batches, length_batches]
  · have hu' : used = m := by simpa using hu.symm
    have ht : (batches draw).take used = batches draw := by
      rw [hu']; exact List.take_of_length_le (by simp [batches])
    rw [ht] at h
    rw [(hval loc loc).1, h, sum_batches, length_batches]

/-- C141: when more unique samples are asked for than there are configurations, or at least as many as the permitted batches hold,
so that sampling always runs through all batches, the expected reported mean of every local value is its average in the law of the single draws. -/
theorem C141_unbiased {m b : ℕ} (hm : 0 < m) (hb : 0 < b) (ranks perRank : ℕ) (hn : Fintype.card C < ranks * perRank ∨ m * b ≤ ranks * perRank)
    (w : Ω → ℝ) (draw : Ω → Fin m → Fin b → C) (law : C → ℝ) (hlaw : Marginals w draw law)
    (sw : Ω → Fin ranks → List (C × ℝ)) (hsw : ∀ ω, samplesWithCounts ranks perRank (some m) (batches (draw ω)) = some (sw ω))
    (loc : C → ℂ) :
    ∑ ω, (w ω : ℂ) * mean (sw ω) loc = ∑ c, (law c : ℂ) * loc c := by
  have hmean : ∀ ω, mean (sw ω) loc = (∑ i, ∑ j, loc (draw ω i j)) / ((m * b : ℕ) : ℂ) :=
    fun ω => (all_draws hm hb ranks perRank hn (draw ω) (sw ω) (hsw ω)).1 loc
  have hdraw : ∀ i j, ∑ ω, (w ω : ℂ) * loc (draw ω i j) = ∑ c, (law c : ℂ) * loc c := by
    intro i j
    have h1 : ∀ ω, (w ω : ℂ) * loc (draw ω i j) = ∑ c, ((if draw ω i j = c then w ω else 0 : ℝ) : ℂ) * loc c := by
      intro ω
      rw [Finset.sum_eq_single (draw ω i j)]
      · simp
      · intro c _ hc; rw [if_neg (Ne.symm hc)]; simp
      · simp
    simp only [h1]
    rw [Finset.sum_comm]
    refine Finset.sum_congr rfl fun c _ => ?_
    rw [← Finset.sum_mul, ← hlaw i j c]
    rw [Complex.ofReal_sum]
  have hmb : ((m * b : ℕ) : ℂ) ≠ 0 := by exact_mod_cast (Nat.mul_pos hm hb).ne'
  simp only [hmean, mul_div_assoc']
  rw [← Finset.sum_div]
  have hs : ∑ ω, (w ω : ℂ) * ∑ i, ∑ j, loc (draw ω i j) = ((m * b : ℕ) : ℂ) * ∑ c, (law c : ℂ) * loc c := by
    simp only [Finset.mul_sum (s := Finset.univ (α := Fin m)), Finset.mul_sum (s := Finset.univ (α := Fin b))]
    rw [Finset.sum_comm]
    have : ∀ i : Fin m, ∑ ω, ∑ j, (w ω : ℂ) * loc (draw ω i j) = (b : ℂ) * ∑ c, (law c : ℂ) * loc c := by
      intro i
      rw [Finset.sum_comm]
      simp only [hdraw]
      simp
    simp only [this]
    simp
    ring
  rw [hs, mul_div_cancel_left₀ _ hmb]

/-! ## The stopping rule biases the mean -/

/-- The weight of three independent draws of `true` with probability `p`. -/
def coin (p : ℝ) (ω : Fin 3 → Bool) : ℝ := ∏ i, if ω i then p else 1 - p

/-- Batches of one draw. -/
def tosses (ω : Fin 3 → Bool) : Fin 3 → Fin 1 → Bool := fun i _ => ω i

theorem univ_tosses : (Finset.univ : Finset (Fin 3 → Bool)) =
    {![true, true, true], ![true, true, false], ![true, false, true], ![true, false, false],
     ![false, true, true], ![false, true, false], ![false, false, true], ![false, false, false]} := by decide

theorem sum_tosses {M : Type} [AddCommMonoid M] (f : (Fin 3 → Bool) → M) : ∑ ω, f ω =
    f ![true, true, true] + (f ![true, true, false] + (f ![true, false, true] + (f ![true, false, false] +
    (f ![false, true, true] + (f ![false, true, false] + (f ![false, false, true] + f ![false, false, false])))))) := by
  rw [univ_tosses]
  repeat rw [Finset.sum_insert (by decide)]
  rw [Finset.sum_singleton]

theorem coin_marginals (p : ℝ) : Marginals (coin p) tosses (fun c => if c then p else 1 - p) := by
  intro i j c
  rw [sum_tosses]
  fin_cases i <;> cases c <;> simp [coin, tosses, Fin.prod_univ_three] <;> ring

/-- The share of `true` in the samples that were kept. -/
theorem kept (ω : Fin 3 → Bool) (sw : Fin 1 → List (Bool × ℝ)) (h : samplesWithCounts 1 2 (some 3) (batches (tosses ω)) = some sw) :
    mean sw (fun c => if c then 1 else 0) =
      if ω 0 = ω 1 then (if ω 1 = ω 2 then (if ω 0 then 1 else 0) else (if ω 0 then 2 / 3 else 1 / 3)) else 1 / 2 := by
  have hω : ω = ![ω 0, ω 1, ω 2] := by funext i; fin_cases i <;> rfl
  generalize ω 0 = a, ω 1 = b, ω 2 = c at *
  subst hω
  cases a <;> cases b <;> cases c <;>
    · simp [samplesWithCounts, sampleLoop, processBatch, addSample, stops, arrays, rankSlice, batches, tosses, List.ofFn_succ] at h
      subst h
      norm_num [mean]

/-- C141: stopping as soon as enough different configurations are known biases the mean.  A sampler that draws one of two
configurations independently with probabilities `p` and `1 - p`, two unique samples, batches of one sample and at most three of
them: the expected reported share of the first configuration is not `p`, unless `p` is 0, 1/2 or 1. -/
theorem C141_biased_fails (p : ℝ) (sw : (Fin 3 → Bool) → Fin 1 → List (Bool × ℝ))
    (hsw : ∀ ω, samplesWithCounts 1 2 (some 3) (batches (tosses ω)) = some (sw ω)) :
    ∑ ω, (coin p ω : ℂ) * mean (sw ω) (fun c => if c then 1 else 0) = ((p + p * (1 - p) * (1 - 2 * p) / 3 : ℝ) : ℂ) ∧
      (0 < p → p < 1 → p ≠ 1 / 2 →
        ∑ ω, (coin p ω : ℂ) * mean (sw ω) (fun c => if c then 1 else 0) ≠ ∑ c : Bool, ((if c then p else 1 - p : ℝ) : ℂ) * (if c then 1 else 0)) := by
  have h : ∑ ω, (coin p ω : ℂ) * mean (sw ω) (fun c => if c then 1 else 0) = ((p + p * (1 - p) * (1 - 2 * p) / 3 : ℝ) : ℂ) := by
    rw [Finset.sum_congr rfl fun ω _ => by rw [kept ω _ (hsw ω)], sum_tosses]
    simp [coin, Fin.prod_univ_three]
    ring
  refine ⟨h, fun h0 h1 h2 => ?_⟩
  rw [h]
  simp only [Fintype.sum_bool, if_true, Bool.false_eq_true, if_false, mul_one, mul_zero, add_zero]
  intro he
  have he' : p + p * (1 - p) * (1 - 2 * p) / 3 = p := by exact_mod_cast he
  have hz : p * (1 - p) * (1 - 2 * p) = 0 := by linarith
  rcases mul_eq_zero.mp hz with hz | hz
  · rcases mul_eq_zero.mp hz with hz | hz <;> linarith
  · apply h2; linarith

/-- hypotheses met: such samples exist for every outcome, the draws have the stated law, and so they do when three unique samples
are asked for, where the mean is unbiased for either reason -/
example (p : ℝ) : (∀ ω, ∃ sw, samplesWithCounts 1 2 (some 3) (batches (tosses ω)) = some sw) ∧
    (∀ ω, ∃ sw, samplesWithCounts 1 3 (some 3) (batches (tosses ω)) = some sw) ∧ Fintype.card Bool < 1 * 3 ∧ 3 * 1 ≤ 1 * 3 ∧
    Marginals (coin p) tosses (fun c => if c then p else 1 - p) :=
  ⟨fun ω => C141_total 1 2 (by omega) (by omega) (tosses ω), fun ω => C141_total 1 3 (by omega) (by omega) (tosses ω),
    by simp, by simp, coin_marginals p⟩

end GPSKet.UniqueBias
