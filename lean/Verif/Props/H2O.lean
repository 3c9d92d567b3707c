import Verif.Model.H2O
import Mathlib.Data.List.Sort
import Mathlib.Data.List.NodupEquivFin
import Mathlib.Data.Real.Basic
import Mathlib.Data.Nat.Bitwise

/-! # Property C53: the H2O data set -/

namespace GPSKet.H2O
open Spec

theorem zeros_getD (m k : ℕ) : (List.replicate m 0).getD k 0 = 0 := by
  rw [List.getD_eq_getElem?_getD, List.getElem?_replicate]
  split_ifs <;> rfl

theorem bitString_getD (a n i : ℕ) : (bitString a n).getD i 0 = a / 2 ^ i % 2 := by
  have key : bitString a n = (binDigits a).reverse ++ List.replicate (n - (binDigits a).length) 0 := by
    unfold bitString
    rw [List.reverse_append, List.reverse_replicate]
  rw [key]
  unfold binDigits
  split_ifs with h
  · subst h
    rw [Nat.zero_div, Nat.zero_mod]
    rcases i with _ | i
    · rfl
    · exact zeros_getD _ _
  · rw [List.reverse_reverse]
    by_cases hi : i < (Nat.digits 2 a).length
    · rw [List.getD_append _ _ _ _ hi, Nat.getD_digits _ _ (le_refl 2)]
    · rw [List.getD_append_right _ _ _ _ (by omega), zeros_getD, ← Nat.getD_digits a i (le_refl 2),
        List.getD_eq_default (Nat.digits 2 a) _ (by omega)]

theorem bitString_length (a n : ℕ) (hn : 0 < n) (ha : a < 2 ^ n) : (bitString a n).length = n := by
  unfold bitString
  rw [List.length_reverse, List.length_append, List.length_replicate]
  have : (binDigits a).length ≤ n := by
    unfold binDigits
    split_ifs with h
    · exact hn
    · rw [List.length_reverse]
      exact Nat.digits_length_le_iff (by norm_num) a |>.mpr ha
  omega

/-- **C53**: for all bit strings with at most `n` bits, the decoded configuration has `n` entries, and entry `i` is
`alpha_i + 2 beta_i` where `alpha_i`, `beta_i` are the bits of weight `2^i`. -/
theorem C53_to_config (alpha beta n : ℕ) (hn : 0 < n) (ha : alpha < 2 ^ n) (hb : beta < 2 ^ n) :
    (toConfig alpha beta n).length = n ∧
    ∀ i, i < n → (toConfig alpha beta n).getD i 0 = (if alpha.testBit i then 1 else 0) + 2 * (if beta.testBit i then 1 else 0) := by
  have hla := bitString_length alpha n hn ha
  have hlb := bitString_length beta n hn hb
  have hlen : (toConfig alpha beta n).length = n := by
    unfold toConfig; rw [List.length_zipWith, hla, hlb, Nat.min_self]
  refine ⟨hlen, ?_⟩
  intro i hi
  have bit : ∀ a, a / 2 ^ i % 2 = if a.testBit i then 1 else 0 := by
    intro a
    rw [Nat.testBit_eq_decide_div_mod_eq]
    rcases Nat.mod_two_eq_zero_or_one (a / 2 ^ i) with h | h <;> simp [h]
  rw [← bit, ← bit, ← bitString_getD alpha n, ← bitString_getD beta n]
  rw [List.getD_eq_getElem _ _ (by omega), List.getD_eq_getElem _ _ (by omega), List.getD_eq_getElem _ _ (by omega)]
  unfold toConfig
  rw [List.getElem_zipWith]

/-- **C53**: different pairs of determinants give different configurations, so no configuration is listed twice. -/
theorem C53_injective (alpha beta alpha' beta' n : ℕ) (hn : 0 < n) (ha : alpha < 2 ^ n) (hb : beta < 2 ^ n) (ha' : alpha' < 2 ^ n)
    (hb' : beta' < 2 ^ n) (h : toConfig alpha beta n = toConfig alpha' beta' n) : alpha = alpha' ∧ beta = beta' := by
  have key : ∀ i, alpha.testBit i = alpha'.testBit i ∧ beta.testBit i = beta'.testBit i := by
    intro i
    by_cases hi : i < n
    · have h1 := (C53_to_config alpha beta n hn ha hb).2 i hi
      have h2 := (C53_to_config alpha' beta' n hn ha' hb').2 i hi
      rw [h, h2] at h1
      revert h1
      cases alpha.testBit i <;> cases alpha'.testBit i <;> cases beta.testBit i <;> cases beta'.testBit i <;> simp
    · have hz : ∀ a, a < 2 ^ n → a.testBit i = false := by
        intro a h
        apply Nat.testBit_lt_two_pow
        exact lt_of_lt_of_le h (Nat.pow_le_pow_right (by norm_num) (by omega))
      rw [hz _ ha, hz _ hb, hz _ ha', hz _ hb']
      exact ⟨rfl, rfl⟩
  exact ⟨Nat.eq_of_testBit_eq fun i => (key i).1, Nat.eq_of_testBit_eq fun i => (key i).2⟩

/-- **C53**: the data set lists, for every pair of determinants, the decoded configuration with its amplitude; if `addr2str` enumerates
bit strings without repetition, every configuration is listed once. -/
theorem C53_all_configs {K : Type} (norb na nb : ℕ) (hn : 0 < norb) (addr2str : ℕ → ℕ) (c : ℕ → ℕ → K)
    (hs : ∀ i, i < max na nb → addr2str i < 2 ^ norb) (hinj : ∀ i j, i < max na nb → j < max na nb → addr2str i = addr2str j → i = j) :
    (∀ conf amp, (conf, amp) ∈ allConfigs norb na nb addr2str c ↔
      ∃ i j, i < na ∧ j < nb ∧ conf = toConfig (addr2str i) (addr2str j) norb ∧ amp = c i j) ∧
    ((allConfigs norb na nb addr2str c).map Prod.fst).Nodup := by
  constructor
  · intro conf amp
    unfold allConfigs
    simp only [List.mem_flatMap, List.mem_range, List.mem_map, Prod.mk.injEq]
    constructor
    · rintro ⟨i, hi, j, hj, rfl, rfl⟩; exact ⟨i, j, hi, hj, rfl, rfl⟩
    · rintro ⟨i, j, hi, hj, rfl, rfl⟩; exact ⟨i, hi, j, hj, rfl, rfl⟩
  · unfold allConfigs
    rw [List.map_flatMap]
    simp only [List.map_map, Function.comp_def]
    rw [List.nodup_flatMap]
    constructor
    · intro i hi
      rw [List.mem_range] at hi
      apply List.Nodup.map_on _ List.nodup_range
      intro j hj j' hj' h
      rw [List.mem_range] at hj hj'
      have h2 := (C53_injective _ _ _ _ norb hn (hs i (by omega)) (hs j (by omega)) (hs i (by omega)) (hs j' (by omega)) h).2
      exact hinj j j' (by omega) (by omega) h2
    · apply List.Pairwise.imp_of_mem _ (List.nodup_range (n := na))
      intro i i' hi hi' hne
      rw [List.mem_range] at hi hi'
      rw [Function.onFun, List.disjoint_left]
      intro conf h1 h2
      simp only [List.mem_map, List.mem_range] at h1 h2
      obtain ⟨j, hj, rfl⟩ := h1
      obtain ⟨j', hj', h⟩ := h2
      have h3 := (C53_injective _ _ _ _ norb hn (hs i' (by omega)) (hs j' (by omega)) (hs i (by omega)) (hs j (by omega)) h).1
      exact hne (hinj i' i (by omega) (by omega) h3).symm

/-- `order` sorts the entries by increasing `key` (what `argsort` returns, with any treatment of ties). -/
structure Sorts {α : Type} (key : α → ℝ) (data : List α) (order : List ℕ) : Prop where
  perm : order.Perm (List.range data.length)
  sorted : (order.filterMap fun i => data[i]?).Pairwise fun a b => key a ≤ key b

/-- **C53**, selection: for every positive `k` the selected entries are entries of the data set (configuration and amplitude stay
together), `min k n` of them, together with the dropped ones they are the whole data set, and none of the dropped entries has a larger
weight than a selected one. -/
theorem C53_select {α : Type} (key : α → ℝ) (data : List α) (order : List ℕ) (h : Sorts key data order) (k : ℕ) (hk : 0 < k) :
    ∃ dropped, (dropped ++ selectLargest order (some k) data).Perm data ∧
      (selectLargest order (some k) data).length = min k data.length ∧
      ∀ a ∈ dropped, ∀ b ∈ selectLargest order (some k) data, key a ≤ key b := by
  obtain ⟨k, rfl⟩ : ∃ j, k = j + 1 := ⟨k - 1, by omega⟩
  have hlen : order.length = data.length := by rw [h.perm.length_eq, List.length_range]
  have hin : ∀ i ∈ order, i < data.length := by
    intro i hi
    have := h.perm.mem_iff.mp hi
    exact List.mem_range.mp this
  have hfm : ∀ l : List ℕ, (∀ i ∈ l, i < data.length) → (l.filterMap fun i => data[i]?).length = l.length := by
    intro l hl
    induction l with
    | nil => rfl
    | cons i l ih =>
      have : data[i]? = some (data[i]'(hl i (by simp))) := List.getElem?_eq_getElem (hl i (by simp))
      rw [List.filterMap_cons, this]
      simp [ih fun j hj => hl j (by simp [hj])]
  have hsplit : (order.take (order.length - (k + 1))).filterMap (fun i => data[i]?) ++
      (order.drop (order.length - (k + 1))).filterMap (fun i => data[i]?) = order.filterMap fun i => data[i]? := by
    rw [← List.filterMap_append, List.take_append_drop]
  have hsel : selectLargest order (some (k + 1)) data = (order.drop (order.length - (k + 1))).filterMap fun i => data[i]? := by
    unfold selectLargest lastK
    rfl
  refine ⟨(order.take (order.length - (k + 1))).filterMap (fun i => data[i]?), ?_, ?_, ?_⟩
  · rw [hsel, hsplit]
    have h1 := h.perm.filterMap fun i => data[i]?
    refine h1.trans ?_
    have : (List.range data.length).filterMap (fun i => data[i]?) = data := by
      clear h hlen hin hfm hsplit hsel h1
      induction data with
      | nil => rfl
      | cons a data ih =>
        rw [List.length_cons, List.range_succ_eq_map, List.filterMap_cons]
        simp only [List.getElem?_cons_zero, List.filterMap_map]
        congr 1
    rw [this]
  · rw [hsel, hfm _ fun i hi => hin i (List.mem_of_mem_drop hi), List.length_drop, hlen]
    omega
  · rw [hsel]
    have := h.sorted
    rw [← hsplit, List.pairwise_append] at this
    exact fun a ha b hb => this.2.2 a ha b hb

/-- `select_largest=0` returns everything, like `None`. -/
theorem C53_select_zero {α : Type} (data : List α) (order : List ℕ) : selectLargest order (some 0) data = data := rfl

/-- four orbitals, two electrons of each spin -/
example : toConfig 0b0011 0b0101 4 = [3, 1, 2, 0] := by
  unfold toConfig bitString binDigits
  norm_num
  rfl

/-- selection of the two largest of three -/
example : selectLargest [2, 0, 1] (some 2) [(10, 0.5), (11, 0.8), (12, 0.1)] = [(10, 0.5), (11, 0.8)] := by
  rfl

end GPSKet.H2O
