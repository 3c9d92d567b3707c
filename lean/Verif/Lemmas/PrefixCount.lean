import Mathlib.Algebra.BigOperators.Fin
import Mathlib.Data.Fintype.BigOperators
import Mathlib.Algebra.Order.BigOperators.Group.Finset
import Mathlib.Tactic.Ring
import Mathlib.Tactic.Linarith

/-! # Counting in prefixes -/

namespace GPSKet

variable {L : ℕ}

/-- Number of marked positions before `k`. -/
def pc (b : Fin L → Bool) (k : ℕ) : ℤ := ∑ j : Fin L, if j.val < k ∧ b j = true then 1 else 0

theorem pc_zero (b : Fin L → Bool) : pc b 0 = 0 := by simp [pc]

theorem pc_succ (b : Fin L → Bool) (κ : Fin L) : pc b (κ.val + 1) = pc b κ.val + if b κ = true then 1 else 0 := by
  unfold pc
  rw [← Finset.add_sum_erase Finset.univ _ (Finset.mem_univ κ),
    ← Finset.add_sum_erase Finset.univ (fun j : Fin L => if j.val < κ.val ∧ b j = true then (1 : ℤ) else 0) (Finset.mem_univ κ)]
  have : ∑ j ∈ Finset.univ.erase κ, (if j.val < κ.val + 1 ∧ b j = true then (1 : ℤ) else 0) =
      ∑ j ∈ Finset.univ.erase κ, (if j.val < κ.val ∧ b j = true then (1 : ℤ) else 0) := by
    apply Finset.sum_congr rfl
    intro j hj
    have hne : j.val ≠ κ.val := fun h => Finset.ne_of_mem_erase hj (Fin.ext h)
    congr 1
    exact propext ⟨fun h => ⟨by omega, h.2⟩, fun h => ⟨by omega, h.2⟩⟩
  rw [this]
  simp only [Nat.lt_succ_self, Nat.lt_irrefl, true_and, false_and, if_false]
  ring

theorem pc_mono (b : Fin L → Bool) {k l : ℕ} (h : k ≤ l) : pc b k ≤ pc b l := by
  unfold pc
  apply Finset.sum_le_sum
  intro j _
  by_cases hk : j.val < k ∧ b j = true
  · rw [if_pos hk, if_pos ⟨by omega, hk.2⟩]
  · rw [if_neg hk]; split <;> omega

theorem pc_full (b : Fin L → Bool) : pc b L = (Finset.univ.filter fun j => b j = true).card := by
  unfold pc
  rw [Finset.card_filter]
  push_cast
  apply Finset.sum_congr rfl
  intro j _
  simp [j.isLt]

theorem pc_compl (b : Fin L → Bool) (k : ℕ) (hk : k ≤ L) : pc b k + pc (fun j => !b j) k = k := by
  induction k with
  | zero => simp [pc_zero]
  | succ k ih =>
    have h1 := pc_succ b ⟨k, hk⟩
    have h2 := pc_succ (fun j => !b j) ⟨k, hk⟩
    dsimp only at h1 h2
    rw [h1, h2]
    have := ih (by omega)
    push_cast
    cases b ⟨k, hk⟩ <;> simp <;> linarith

theorem pc_lip (b : Fin L → Bool) {k l : ℕ} (h : k ≤ l) (hl : l ≤ L) : pc b l - pc b k ≤ (l : ℤ) - k := by
  have h1 := pc_compl b l hl
  have h2 := pc_compl b k (by omega)
  have h3 := pc_mono (fun j => !b j) h
  omega

theorem pc_congr (b b' : Fin L → Bool) (k : ℕ) (h : ∀ j : Fin L, j.val < k → b j = b' j) : pc b k = pc b' k := by
  unfold pc
  apply Finset.sum_congr rfl
  intro j _
  by_cases hj : j.val < k
  · rw [h j hj]
  · rw [if_neg (fun hh => hj hh.1), if_neg (fun hh => hj hh.1)]

/-- A number of marks fixed in advance is met exactly if no site exceeds it and no site gives it up too early. -/
theorem pc_exact (b : Fin L → Bool) (n : ℤ) (h0 : 0 ≤ n) (hL : n ≤ L) :
    (∀ i : Fin L, (b i = true → n - pc b i ≠ 0) ∧ (b i = false → n - pc b i < (L : ℤ) - i.val)) ↔ pc b L = n := by
  constructor
  · intro h
    have inv : ∀ k : ℕ, k ≤ L → 0 ≤ n - pc b k ∧ n - pc b k ≤ (L : ℤ) - k := by
      intro k
      induction k with
      | zero => intro _; rw [pc_zero]; constructor <;> push_cast <;> omega
      | succ k ih =>
        intro hk
        have := ih (by omega)
        have hs := pc_succ b ⟨k, hk⟩
        have hi := h ⟨k, hk⟩
        dsimp only at hs hi
        rw [hs]
        cases hb : b ⟨k, hk⟩ with
        | true =>
          have := hi.1 hb
          simp only [if_true]
          push_cast
          omega
        | false =>
          have := hi.2 hb
          simp
          omega
    have := inv L (le_refl L)
    omega
  · intro h i
    have hs := pc_succ b i
    have hm := pc_mono b (show i.val + 1 ≤ L from i.isLt)
    have hl := pc_lip b (show i.val + 1 ≤ L from i.isLt) (le_refl L)
    push_cast at hl
    constructor
    · intro hb
      rw [hb, if_pos rfl] at hs
      omega
    · intro hb
      rw [hb] at hs
      simp at hs
      omega

/-- The invariant of the previous lemma along a prefix. -/
theorem pc_inv (b : Fin L → Bool) (n : ℤ) (h0 : 0 ≤ n) (hL : n ≤ L) (i : ℕ) (hi : i ≤ L)
    (h : ∀ j : Fin L, j.val < i → (b j = true → n - pc b j ≠ 0) ∧ (b j = false → n - pc b j < (L : ℤ) - j.val)) :
    0 ≤ n - pc b i ∧ n - pc b i ≤ (L : ℤ) - i := by
  induction i with
  | zero => rw [pc_zero]; constructor <;> push_cast <;> omega
  | succ k ih =>
    have := ih (by omega) (fun j hj => h j (by omega))
    have hs := pc_succ b ⟨k, hi⟩
    have hi' := h ⟨k, hi⟩ (Nat.lt_succ_self k)
    dsimp only at hs hi'
    rw [hs]
    cases hb : b ⟨k, hi⟩ with
    | true =>
      have := hi'.1 hb
      simp only [if_true]
      push_cast
      omega
    | false =>
      have := hi'.2 hb
      simp
      omega

/-- A cap is respected exactly if no marked position comes after the cap is reached. -/
theorem pc_cap (b : Fin L → Bool) (h : ℤ) (h0 : 0 ≤ h) (k : ℕ) (hk : k ≤ L) :
    (∀ i : Fin L, i.val < k → b i = true → pc b i < h) ↔ pc b k ≤ h := by
  induction k with
  | zero => simp [pc_zero, h0]
  | succ k ih =>
    have hs := pc_succ b ⟨k, hk⟩
    dsimp only at hs
    constructor
    · intro hh
      have hle := (ih (by omega)).mp (fun i hi => hh i (by omega))
      rw [hs]
      by_cases hb : b ⟨k, hk⟩ = true
      · have := hh ⟨k, hk⟩ (Nat.lt_succ_self k) hb
        rw [if_pos hb]
        dsimp only at this
        omega
      · rw [if_neg hb]; omega
    · intro hle i hi hb
      have h1 := pc_succ b i
      rw [if_pos hb] at h1
      have h2 := pc_mono b (show i.val + 1 ≤ k + 1 by omega)
      omega

end GPSKet
