import Verif.Model.Fermion
import Verif.Lemmas.Fock
import Mathlib.Algebra.BigOperators.Fin

/-! # Lemmas about `apply_hopping` -/

namespace GPSKet
open Spec
variable {L : ℕ}

theorem hasSpin_iff : ∀ (s : Bool) (v : Fin 4), hasSpin s v = true ↔ ¬ (v &&& spinInt s = 0) := by decide

theorem hasSpin_sub : ∀ (s s' : Bool) (v : Fin 4), hasSpin s v = true →
    hasSpin s' (v - spinInt s) = if s' = s then false else hasSpin s' v := by decide

theorem hasSpin_add : ∀ (s s' : Bool) (v : Fin 4), hasSpin s v = false →
    hasSpin s' (v + spinInt s) = if s' = s then true else hasSpin s' v := by decide

theorem fin4_sub_add : ∀ v w : Fin 4, v - w + w = v := by decide

theorem hasSpin_ext : ∀ (v w : Fin 4), (hasSpin false v = hasSpin false w) → (hasSpin true v = hasSpin true w) →
    v = w := by decide

@[simp] theorem occOf_mode (x : Cfg L) (s : Bool) (i : Fin L) : occOf x (mode s i) = hasSpin s (x i) := rfl

theorem occOf_injective : Function.Injective (occOf (L := L)) := by
  intro x y h
  funext i
  apply hasSpin_ext
  · have := congrFun h (mode false i); simpa using this
  · have := congrFun h (mode true i); simpa using this

theorem mode_inj {s s' : Bool} {i j : Fin L} : mode s i = mode s' j ↔ s = s' ∧ i = j := by
  unfold mode
  rw [toLex_inj, Prod.mk.injEq]

theorem mode_lt {s : Bool} {i j : Fin L} : mode s i < mode s j ↔ i < j := by
  unfold mode
  rw [Prod.Lex.toLex_lt_toLex]
  simp

theorem mode_ind {P : Mode L → Prop} (h : ∀ s i, P (mode s i)) (m : Mode L) : P m := h (ofLex m).1 (ofLex m).2

theorem occOf_update_sub (x : Cfg L) (s : Bool) (i : Fin L) (h : hasSpin s (x i) = true) :
    occOf (Function.update x i (x i - spinInt s)) = Function.update (occOf x) (mode s i) false := by
  funext m
  induction m using mode_ind with
  | _ s' j =>
  simp only [occOf_mode, Function.update_apply, mode_inj]
  by_cases hj : j = i
  · subst hj
    simp only [if_true, and_true, hasSpin_sub s s' _ h]
  · simp [hj]

theorem occOf_update_add (x : Cfg L) (s : Bool) (i : Fin L) (h : hasSpin s (x i) = false) :
    occOf (Function.update x i (x i + spinInt s)) = Function.update (occOf x) (mode s i) true := by
  funext m
  induction m using mode_ind with
  | _ s' j =>
  simp only [occOf_mode, Function.update_apply, mode_inj]
  by_cases hj : j = i
  · subst hj
    simp only [if_true, and_true, hasSpin_add s s' _ h]
  · simp [hj]

/-- number of electrons of spin `s` strictly between two sites -/
def siteBetween (x : Cfg L) (s : Bool) (a i : Fin L) : Finset (Fin L) :=
  Finset.univ.filter fun j => min a i < j ∧ j < max a i ∧ hasSpin s (x j) = true

theorem between_card (x : Cfg L) (s : Bool) (a i : Fin L) :
    (between (mode s a) (mode s i) (occOf x)).card = (siteBetween x s a i).card := by
  have hmin : ∀ a i : Fin L, min (mode s a) (mode s i) = mode s (min a i) := by
    intro a i
    rcases le_total a i with h | h
    · rw [min_eq_left h, min_eq_left]
      rw [← not_lt, mode_lt]; exact h.not_gt
    · rw [min_eq_right h, min_eq_right]
      rw [← not_lt, mode_lt]; exact h.not_gt
  have hmax : ∀ a i : Fin L, max (mode s a) (mode s i) = mode s (max a i) := by
    intro a i
    rcases le_total a i with h | h
    · rw [max_eq_right h, max_eq_right]
      rw [← not_lt, mode_lt]; exact h.not_gt
    · rw [max_eq_left h, max_eq_left]
      rw [← not_lt, mode_lt]; exact h.not_gt
  unfold between
  rw [hmin, hmax]
  symm
  refine Finset.card_bij (fun j _ => mode s j) ?_ ?_ ?_
  · intro j hj
    simp only [siteBetween, Finset.mem_filter, Finset.mem_univ, true_and] at hj
    simp only [Finset.mem_filter, Finset.mem_univ, true_and, mode_lt, occOf_mode]
    exact hj
  · intro j _ k _ h
    exact (mode_inj.mp h).2
  · intro m hm
    induction m using mode_ind with
    | _ s' j =>
    simp only [Finset.mem_filter, Finset.mem_univ, true_and, occOf_mode] at hm
    have hs : s' = s := by
      obtain ⟨h1, h2, _⟩ := hm
      unfold mode at h1 h2
      rw [Prod.Lex.toLex_lt_toLex] at h1 h2
      revert h1 h2
      cases s <;> cases s' <;> simp
    subst hs
    rw [mode_lt, mode_lt] at hm
    exact ⟨j, by simp only [siteBetween, Finset.mem_filter, Finset.mem_univ, true_and]; exact hm, rfl⟩

theorem isOcc_eq (x : Cfg L) (s : Bool) (j : Fin L) :
    isOcc x (spinInt s) j = if hasSpin s (x j) = true then 1 else 0 := by
  unfold isOcc
  by_cases h : hasSpin s (x j) = true
  · rw [if_pos h, if_neg ((hasSpin_iff s _).mp h)]
  · rw [if_neg h]
    rw [hasSpin_iff, not_not] at h
    rw [if_pos h]

/-- difference of prefix counts = number of electrons in `(l, r]` -/
theorem cumsum_sub (x : Cfg L) (s : Bool) {l r : ℕ} (h : l ≤ r) :
    cumsum (isOcc x (spinInt s)) r - cumsum (isOcc x (spinInt s)) l =
      ((Finset.univ.filter fun j : Fin L => l < j.val ∧ j.val ≤ r ∧ hasSpin s (x j) = true).card : ℤ) := by
  unfold cumsum
  rw [← Finset.sum_sub_distrib, Finset.card_filter, Nat.cast_sum]
  apply Finset.sum_congr rfl
  intro j _
  rw [isOcc_eq]
  by_cases h1 : j.val ≤ l
  · simp [h1, h1.trans h, Nat.not_lt.mpr h1]
  · by_cases h2 : j.val ≤ r
    · simp [h1, h2, Nat.lt_of_not_le h1]
    · simp [h1, h2]

theorem parity_cum (x : Cfg L) (s : Bool) {a i : Fin L} (h : a ≠ i) :
    cumsum (isOcc x (spinInt s)) (max i.val a.val - 1) - cumsum (isOcc x (spinInt s)) (min i.val a.val)
      = ((siteBetween x s a i).card : ℤ) := by
  have hne : a.val ≠ i.val := fun h' => h (Fin.ext h')
  rw [cumsum_sub x s (by omega)]
  congr 2
  unfold siteBetween
  ext j
  simp only [Finset.mem_filter, Finset.mem_univ, true_and, Fin.lt_def, Fin.coe_min, Fin.coe_max]
  constructor
  · rintro ⟨h1, h2, h3⟩; exact ⟨by omega, by omega, h3⟩
  · rintro ⟨h1, h2, h3⟩; exact ⟨by omega, by omega, h3⟩

theorem neg_one_pow_eq_ite (n : ℕ) : ((-1 : ℤ)) ^ n = if (n : ℤ) % 2 = 1 then -1 else 1 := by
  rcases Nat.even_or_odd n with h | h
  · rw [h.neg_one_pow, if_neg]
    obtain ⟨k, hk⟩ := h; omega
  · rw [h.neg_one_pow, if_pos]
    obtain ⟨k, hk⟩ := h; omega

/-- complete description of the counted hop: action of `c†_a c_i` on the Fock state -/
theorem applyHopping_hopS (x : Cfg L) (i a : Fin L) (s : Bool) :
    hopS (mode s a) (mode s i) (occOf x) =
      (let r := applyHopping i a x (spinInt s) (some (cumsum (isOcc x (spinInt s))))
       if r.1 = 0 then none else some (r.1, occOf r.2)) := by
  by_cases hi : hasSpin s (x i) = true
  · have hi' := (hasSpin_iff s _).mp hi
    by_cases hai : a = i
    · subst hai
      rw [hopS_self]
      simp only [occOf_mode, hi, if_true]
      simp only [applyHopping, hi', if_true, if_false]
      simp [fin4_sub_add]
    · have hm : mode s a ≠ mode s i := fun h => hai (mode_inj.mp h).2
      rw [hopS_of_ne hm]
      simp only [occOf_mode, hi, true_and]
      by_cases ha : hasSpin s (x a) = true
      · rw [if_neg (by simp [ha])]
        have ha' := (hasSpin_iff s _).mp ha
        simp [applyHopping, hi', hai, ha']
      · have ha2 : hasSpin s (x a) = false := by simpa using ha
        have ha' : x a &&& spinInt s = 0 := by
          rw [hasSpin_iff, not_not] at ha; exact ha
        rw [if_pos ha2, between_card, neg_one_pow_eq_ite]
        simp only [applyHopping, hi', hai, ha', if_false, if_true]
        simp only [parity_cum x s hai]
        have key : occOf (Function.update (Function.update x i (x i - spinInt s)) a
            (Function.update x i (x i - spinInt s) a + spinInt s))
            = Function.update (Function.update (occOf x) (mode s i) false) (mode s a) true := by
          rw [occOf_update_add, occOf_update_sub x s i hi]
          rw [Function.update_of_ne hai]; exact ha2
        by_cases hp : ((siteBetween x s a i).card : ℤ) % 2 = 1
        · simp [hp, key]
        · simp [hp, key]
  · have hi' : x i &&& spinInt s = 0 := by
      rw [hasSpin_iff, not_not] at hi; exact hi
    have : hopS (mode s a) (mode s i) (occOf x) = none := by
      by_cases hai : a = i
      · subst hai; rw [hopS_self]; simp [hi]
      · rw [hopS_of_ne (fun h => hai (mode_inj.mp h).2)]; simp [hi]
    rw [this]
    simp [applyHopping, hi']

theorem applyHopping_zero (x : Cfg L) (i a : Fin L) (v : Fin 4) (c : Option (ℕ → ℤ))
    (h : (applyHopping i a x v c).1 = 0) : (applyHopping i a x v c).2 = x := by
  unfold applyHopping at *
  dsimp only at *
  split_ifs at h ⊢ <;> simp_all

end GPSKet
