import Verif.Lemmas.SampledUpdate
import Mathlib.Algebra.BigOperators.Group.Finset.Basic
import Mathlib.Data.Multiset.Count
import Mathlib.Algebra.Order.BigOperators.Group.Multiset

/-! # Lemmas for C183: relative frequencies of the states of several chains -/

namespace GPSKet.SampledUpdate

open GPSKet.Spec GPSKet.Spec.Markov

variable {α : Type} [Fintype α]

section expect

variable {T : Matrix α α ℝ}

theorem chainsExpect_mono (h : IsKernel T) (n : ℕ) (starts : List α) (F G : List (List α) → ℝ)
    (hFG : ∀ ls, ls.length = starts.length → (∀ l ∈ ls, l.length = n) → F ls ≤ G ls) : chainsExpect T n starts F ≤ chainsExpect T n starts G := by
  induction starts generalizing F G with
  | nil => exact hFG [] rfl (by simp)
  | cons x xs ih =>
    refine pathExpect_mono h n _ _ (fun l hl => ih _ _ fun ls h1 h2 => hFG _ (by simp [h1]) ?_) x
    intro l' hl'
    rcases List.mem_cons.mp hl' with rfl | h'
    · exact hl
    · exact h2 l' h'

theorem chainsExpect_add_const (h : IsKernel T) (n : ℕ) (starts : List α) (c : ℝ) (F : List (List α) → ℝ) :
    chainsExpect T n starts (fun ls => c + F ls) = c + chainsExpect T n starts F := by
  induction starts generalizing F with
  | nil => rfl
  | cons x xs ih =>
    show pathExpect T n (fun l => chainsExpect T n xs fun ls => c + F (l :: ls)) x = _
    simp only [ih]
    rw [pathExpect_add, pathExpect_const h]
    rfl

/-- The probability that one of the chains is in a bad set. -/
theorem chains_union (h : IsKernel T) (n : ℕ) (bad : Set (List α)) (b : ℝ) (hb : ∀ x, pathExpect T n (Set.indicator bad 1) x ≤ b)
    (starts : List α) : chainsExpect T n starts (Set.indicator {ls | ∃ l ∈ ls, l ∈ bad} 1) ≤ starts.length * b := by
  classical
  induction starts with
  | nil => simp [chainsExpect]
  | cons x xs ih =>
    have h1 : chainsExpect T n (x :: xs) (Set.indicator {ls | ∃ l ∈ ls, l ∈ bad} 1) ≤
        pathExpect T n (fun l => Set.indicator bad 1 l + chainsExpect T n xs (Set.indicator {ls | ∃ l ∈ ls, l ∈ bad} 1)) x := by
      refine pathExpect_mono h n _ _ (fun l _ => ?_) x
      rw [← chainsExpect_add_const h]
      refine chainsExpect_mono h n xs _ _ fun ls _ _ => ?_
      simp only [Set.indicator_apply, Set.mem_ofPred_eq, List.mem_cons, exists_eq_or_imp, Pi.one_apply]
      by_cases hl : l ∈ bad
      · simp only [hl, true_or, if_true]
        split_ifs <;> norm_num
      · simp only [hl, false_or, if_false, zero_add]
        exact le_refl _
    rw [pathExpect_add, pathExpect_const h] at h1
    refine h1.trans ?_
    have := hb x
    rw [List.length_cons]
    push_cast
    linarith

/-- The probability of a union of finitely many sets. -/
theorem path_union (h : IsKernel T) (n : ℕ) {β : Type} [Fintype β] (bad : β → Set (List α)) (b : β → ℝ) (x : α)
    (hb : ∀ c, pathExpect T n (Set.indicator (bad c) 1) x ≤ b c) : pathExpect T n (Set.indicator {l | ∃ c, l ∈ bad c} 1) x ≤ ∑ c, b c := by
  classical
  have hsum : ∀ (s : Finset β), pathExpect T n (fun l => ∑ c ∈ s, Set.indicator (bad c) 1 l) x = ∑ c ∈ s, pathExpect T n (Set.indicator (bad c) 1) x := by
    intro s
    induction s using Finset.induction_on with
    | empty => simp only [Finset.sum_empty]; exact pathExpect_const h n 0 x
    | insert a s ha ih =>
      simp only [Finset.sum_insert ha]
      rw [pathExpect_add, ih]
  refine le_trans ?_ ((hsum Finset.univ).le.trans (Finset.sum_le_sum fun c _ => hb c))
  refine pathExpect_mono h n _ _ (fun l _ => ?_) x
  by_cases hl : ∃ c, l ∈ bad c
  · obtain ⟨c, hc⟩ := hl
    rw [Set.indicator_of_mem (show l ∈ {l | ∃ c, l ∈ bad c} from ⟨c, hc⟩)]
    refine le_trans ?_ (Finset.single_le_sum (fun c _ => Set.indicator_nonneg (fun _ _ => zero_le_one) l) (Finset.mem_univ c))
    rw [Set.indicator_of_mem hc]
    exact le_refl _
  · rw [Set.indicator_of_notMem (show l ∉ {l | ∃ c, l ∈ bad c} from hl)]
    exact Finset.sum_nonneg fun c _ => Set.indicator_nonneg (fun _ _ => zero_le_one) l

end expect

section frequency

variable [DecidableEq α]

/-- The relative frequency of a state in a list. -/
noncomputable def freq (l : List α) (c : α) : ℝ := (l.count c : ℝ) / l.length

omit [Fintype α] in
theorem sum_indicator (l : List α) (c : α) : (l.map fun a => if a = c then (1 : ℂ) else 0).sum = (l.count c : ℂ) := by
  induction l with
  | nil => simp
  | cons a l ih =>
    rw [List.map_cons, List.sum_cons, ih, List.count_cons]
    by_cases h : a = c
    · simp [h]; ring
    · simp [h]

theorem freq_prob {l : List α} (hl : l ≠ []) : Prob (freq l) := by
  have hlen : (l.length : ℝ) ≠ 0 := by exact_mod_cast (List.length_pos_iff.mpr hl).ne'
  refine ⟨fun x => div_nonneg (Nat.cast_nonneg _) (Nat.cast_nonneg _), ?_⟩
  unfold freq
  rw [← Finset.sum_div, div_eq_one_iff_eq hlen, ← Nat.cast_sum]
  congr 1
  have := Multiset.sum_count_eq_card (s := Finset.univ) (m := (l : Multiset α)) fun a _ => Finset.mem_univ a
  simpa using this

theorem averageError_freq {w : α → ℝ} (h : ∑ x, w x ≠ 0) (c : α) (l : List α) :
    averageError w (fun a => if a = c then 1 else 0) l = |freq l c - normal w c| := by
  unfold averageError
  rw [sum_indicator, weightedMean_normal h, weightedMean_prob (by unfold normal; rw [← Finset.sum_div, div_self h])]
  simp only [mul_ite, mul_one, mul_zero, Finset.sum_ite_eq', Finset.mem_univ, if_true]
  rw [← Real.norm_eq_abs, ← Complex.norm_real]
  unfold freq
  push_cast
  rfl

/-- If the frequencies of all chains are close to given numbers, so are those of all samples together. -/
theorem freq_flatten {ls : List (List α)} {n : ℕ} (hn : 0 < n) (hne : ls ≠ []) (hlen : ∀ l ∈ ls, l.length = n) {c : α} {p δ : ℝ}
    (hd : ∀ l ∈ ls, |freq l c - p| ≤ δ) : |freq ls.flatten c - p| ≤ δ := by
  have hn' : (0 : ℝ) < n := by exact_mod_cast hn
  have key : ∀ ls : List (List α), (∀ l ∈ ls, l.length = n) → (∀ l ∈ ls, |freq l c - p| ≤ δ) →
      ls.flatten.length = ls.length * n ∧ |(ls.flatten.count c : ℝ) - p * (ls.length * n)| ≤ δ * (ls.length * n) := by
    intro ls
    induction ls with
    | nil => intro _ _; simp
    | cons l ls ih =>
      intro h1 h2
      obtain ⟨i1, i2⟩ := ih (fun l hl => h1 l (List.mem_cons_of_mem _ hl)) fun l hl => h2 l (List.mem_cons_of_mem _ hl)
      have hl := h1 l List.mem_cons_self
      have hd := h2 l List.mem_cons_self
      unfold freq at hd
      rw [hl] at hd
      constructor
      · rw [List.flatten_cons, List.length_append, i1, hl, List.length_cons]; ring
      · rw [List.flatten_cons, List.count_append, List.length_cons]
        push_cast
        have e : (l.count c : ℝ) / n - p = ((l.count c : ℝ) - p * n) / n := by field_simp
        rw [e, abs_div, abs_of_pos hn', div_le_iff₀ hn'] at hd
        calc |(l.count c : ℝ) + ls.flatten.count c - p * ((ls.length + 1) * n)|
            = |((l.count c : ℝ) - p * n) + (ls.flatten.count c - p * (ls.length * n))| := by congr 1; ring
          _ ≤ _ := abs_add_le _ _
          _ ≤ δ * n + δ * (ls.length * n) := add_le_add hd i2
          _ = _ := by ring
  obtain ⟨k1, k2⟩ := key ls hlen hd
  have hm : (0 : ℝ) < ls.length * n := mul_pos (by exact_mod_cast List.length_pos_iff.mpr hne) hn'
  unfold freq
  rw [k1]
  push_cast
  have e : (ls.flatten.count c : ℝ) / (ls.length * n) - p = ((ls.flatten.count c : ℝ) - p * (ls.length * n)) / (ls.length * n) := by
    rw [sub_div, mul_div_cancel_right₀ _ hm.ne']
  rw [e, abs_div, abs_of_pos hm, div_le_iff₀ hm]
  exact k2

/-- The mean over samples, in terms of the frequencies. -/
theorem mean_freq {S : Type} [Fintype S] (x : S → α) (l : List α) (h : Multiset.map x Finset.univ.val = (l : Multiset α)) (f : α → ℂ) :
    (∑ s, f (x s)) / (Fintype.card S : ℂ) = ∑ c, (freq l c : ℂ) * f c := by
  have hcard : Fintype.card S = l.length := by
    have := congrArg Multiset.card h
    simpa using this
  have hsum : ∑ s, f (x s) = ∑ c, (l.count c : ℂ) * f c := by
    have h1 : ∑ s, f (x s) = (Multiset.map f (l : Multiset α)).sum := by
      rw [← h, Multiset.map_map]; rfl
    rw [h1, Finset.sum_multiset_map_count]
    refine Finset.sum_subset_zero_on_sdiff (Finset.subset_univ _) ?_ ?_
    · intro c hc
      have : (l : Multiset α).count c = 0 := by
        rw [Multiset.count_eq_zero]
        intro hm
        simp at hc hm
        exact hc hm
      rw [Multiset.coe_count] at this
      simp [this]
    · intro c _
      rw [Multiset.coe_count, nsmul_eq_mul]
  rw [hsum, hcard, Finset.sum_div]
  refine Finset.sum_congr rfl fun c _ => ?_
  unfold freq
  push_cast
  ring

end frequency

end GPSKet.SampledUpdate
