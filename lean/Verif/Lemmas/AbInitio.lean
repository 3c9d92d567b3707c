import Verif.Model.AbInitioOnTheFly
import Verif.Lemmas.FockAct
import Verif.Lemmas.Hubbard
import Mathlib.Algebra.BigOperators.Group.Finset.Basic

/-! # Lemmas about the ab-initio model -/

namespace GPSKet
open Spec

section
variable {C K : Type} [CommRing K]

theorem rowApply_append (r s : List (C × K)) (f : C → K) : rowApply (r ++ s) f = rowApply r f + rowApply s f := by
  simp [rowApply]

theorem rowApply_single (e : C × K) (f : C → K) : rowApply [e] f = e.2 * f e.1 := by simp [rowApply]

theorem rowApply_map {α : Type} (l : List α) (h : α → C × K) (f : C → K) :
    rowApply (l.map h) f = (l.map fun u => (h u).2 * f (h u).1).sum := by
  simp [rowApply, Function.comp_def]

theorem rowApply_flatMap {α : Type} (l : List α) (h : α → List (C × K)) (f : C → K) :
    rowApply (l.flatMap h) f = (l.map fun u => rowApply (h u) f).sum := by
  induction l with
  | nil => simp [rowApply]
  | cons u l ih => rw [List.flatMap_cons, rowApply_append, ih, List.map_cons, List.sum_cons]

theorem rowApply_ite (p : Prop) [Decidable p] (e : C × K) (f : C → K) :
    rowApply (if p then [e] else []) f = if p then e.2 * f e.1 else 0 := by
  by_cases h : p <;> simp [h, rowApply]

end

variable {L : ℕ}

theorem occInds_nodup (x : Cfg L) (v : Fin 4) : (occInds x v).Nodup := (List.nodup_finRange L).filter _
theorem unoccInds_nodup (x : Cfg L) (v : Fin 4) : (unoccInds x v).Nodup := (List.nodup_finRange L).filter _

theorem occInds_toFinset (x : Cfg L) (s : Bool) : (occInds x (spinInt s)).toFinset = occSet s (occOf x) := by
  ext i
  rw [mem_occ, occOf_mode, hasSpin_iff]
  simp [occInds]

theorem unoccInds_toFinset (x : Cfg L) (s : Bool) : (unoccInds x (spinInt s)).toFinset = emptySet s (occOf x) := by
  ext i
  rw [mem_empty, occOf_mode]
  have := hasSpin_iff s (x i)
  simp only [unoccInds, List.mem_toFinset, List.mem_filter, List.mem_finRange, true_and, decide_eq_true_eq]
  by_cases h : x i &&& spinInt s = 0
  · simp [h] at this ⊢; simpa using this
  · simp [h] at this ⊢; simpa using this

variable {M : Type} [AddCommMonoid M]

theorem occInds_sum (x : Cfg L) (s : Bool) (f : Fin L → M) :
    ((occInds x (spinInt s)).map f).sum = ∑ i ∈ occSet s (occOf x), f i := by
  rw [← occInds_toFinset, List.sum_toFinset f (occInds_nodup _ _)]

theorem unoccInds_sum (x : Cfg L) (s : Bool) (f : Fin L → M) :
    ((unoccInds x (spinInt s)).map f).sum = ∑ i ∈ emptySet s (occOf x), f i := by
  rw [← unoccInds_toFinset, List.sum_toFinset f (unoccInds_nodup _ _)]

theorem filter_ne_sum {l : List (Fin L)} (hl : l.Nodup) (i : Fin L) (f : Fin L → M) :
    ((l.filter fun j => decide (j ≠ i)).map f).sum = ∑ j ∈ l.toFinset.erase i, f j := by
  rw [← List.sum_toFinset f (hl.filter _)]
  congr 1
  ext j
  simp [and_comm]

/-! ### Hops as functionals -/

variable {K : Type} [CommRing K]

theorem T_hop (g : Occ (Mode L) → K) (x : Cfg L) (s : Bool) (i a : Fin L) :
    T (mode s i) (mode s a) g (occOf x) =
      (let r := applyHopping i a x (spinInt s) (some (cumsum (isOcc x (spinInt s))))
       (r.1 : K) * g (occOf r.2)) := by
  unfold T SMap.act
  rw [applyHopping_hopS]
  dsimp only
  by_cases h : (applyHopping i a x (spinInt s) (some (cumsum (isOcc x (spinInt s))))).1 = 0
  · simp [h]
  · simp [h]

/-- A possible hop with arbitrary counts. -/
theorem applyHopping_valid_count (y : Cfg L) (s : Bool) {i a : Fin L} (h : a ≠ i) (hi : hasSpin s (y i) = true)
    (ha : hasSpin s (y a) = false) (c : ℕ → ℤ) :
    applyHopping i a y (spinInt s) (some c) =
      (if (c (max i.val a.val - 1) - c (min i.val a.val)) % 2 = 1 then -1 else 1,
        Function.update (Function.update y i (y i - spinInt s)) a (y a + spinInt s)) := by
  have hi' := (hasSpin_iff s _).mp hi
  have ha' : y a &&& spinInt s = 0 := by
    have : ¬ (hasSpin s (y a) = true) := by simp [ha]
    rw [hasSpin_iff, not_not] at this; exact this
  unfold applyHopping
  simp only [hi', h, ha', if_false, if_true]
  by_cases hp : (c (max i.val a.val - 1) - c (min i.val a.val)) % 2 = 1 <;> simp [hp, Function.update_of_ne h]

theorem applyHopping_valid_cum (x y : Cfg L) (s : Bool) {i a : Fin L} (h : a ≠ i) (hi : hasSpin s (y i) = true)
    (ha : hasSpin s (y a) = false) :
    applyHopping i a y (spinInt s) (some (cumsum (isOcc x (spinInt s)))) =
      ((-1) ^ (siteBetween x s a i).card,
        Function.update (Function.update y i (y i - spinInt s)) a (y a + spinInt s)) := by
  rw [applyHopping_valid_count y s h hi ha, parity_cum x s h, neg_one_pow_eq_ite]

/-- The configuration after a possible hop. -/
def hopCfg (x : Cfg L) (s : Bool) (i a : Fin L) : Cfg L := Function.update (Function.update x i (x i - spinInt s)) a (x a + spinInt s)

theorem hopCfg_spin (x : Cfg L) {s : Bool} (s' : Bool) {i a : Fin L} (h : a ≠ i) (hi : hasSpin s (x i) = true)
    (ha : hasSpin s (x a) = false) (j : Fin L) :
    hasSpin s' (hopCfg x s i a j) = if s' = s ∧ j = a then true else if s' = s ∧ j = i then false else hasSpin s' (x j) := by
  unfold hopCfg
  by_cases hja : j = a
  · subst hja; simp [hasSpin_add s s' _ ha, h]
  · by_cases hji : j = i
    · subst hji; simp [hja, hasSpin_sub s s' _ hi]
    · simp [hja, hji]

theorem sign_after_hop (x : Cfg L) {s : Bool} {i a j b : Fin L} (h : a ≠ i) (hi : hasSpin s (x i) = true)
    (ha : hasSpin s (x a) = false) :
    ((-1 : ℤ)) ^ (siteBetween (hopCfg x s i a) s b j).card =
      (-1) ^ (siteBetween x s b j).card * (if min j b < i ∧ i < max j b then -1 else 1) * (if min j b < a ∧ a < max j b then -1 else 1) := by
  have e : siteBetween (hopCfg x s i a) s b j =
      if min j b < a ∧ a < max j b then insert a ((siteBetween x s b j).erase i) else (siteBetween x s b j).erase i := by
    have key : ∀ k, k ∈ siteBetween (hopCfg x s i a) s b j ↔
        (min b j < k ∧ k < max b j) ∧ (k = a ∨ k ≠ i ∧ hasSpin s (x k) = true) := by
      intro k
      simp only [siteBetween, Finset.mem_filter, Finset.mem_univ, true_and, hopCfg_spin x s h hi ha, and_assoc]
      by_cases hka : k = a
      · simp [hka]
      · by_cases hki : k = i
        · simp [hki, Ne.symm h]
        · simp [hka, hki]
    ext k
    rw [key, min_comm b j, max_comm b j]
    by_cases hb : min j b < a ∧ a < max j b
    · rw [if_pos hb, Finset.mem_insert, Finset.mem_erase]
      simp only [siteBetween, Finset.mem_filter, Finset.mem_univ, true_and, min_comm b j, max_comm b j]
      constructor
      · rintro ⟨h1, h2 | h2⟩
        · exact Or.inl h2
        · exact Or.inr ⟨h2.1, h1.1, h1.2, h2.2⟩
      · rintro (rfl | h1)
        · exact ⟨hb, Or.inl rfl⟩
        · exact ⟨⟨h1.2.1, h1.2.2.1⟩, Or.inr ⟨h1.1, h1.2.2.2⟩⟩
    · rw [if_neg hb, Finset.mem_erase]
      simp only [siteBetween, Finset.mem_filter, Finset.mem_univ, true_and, min_comm b j, max_comm b j]
      constructor
      · rintro ⟨h1, rfl | h2⟩
        · exact absurd h1 hb
        · exact ⟨h2.1, h1.1, h1.2, h2.2⟩
      · rintro h1
        exact ⟨⟨h1.2.1, h1.2.2.1⟩, Or.inr ⟨h1.1, h1.2.2.2⟩⟩
  have hno : a ∉ (siteBetween x s b j).erase i := by
    simp [siteBetween, ha]
  have herase : ((-1 : ℤ)) ^ ((siteBetween x s b j).erase i).card =
      (-1) ^ (siteBetween x s b j).card * (if min j b < i ∧ i < max j b then -1 else 1) := by
    by_cases hb : min j b < i ∧ i < max j b
    · have hm : i ∈ siteBetween x s b j := by
        simp only [siteBetween, Finset.mem_filter, Finset.mem_univ, true_and, min_comm b j, max_comm b j]
        exact ⟨hb.1, hb.2, hi⟩
      rw [if_pos hb, ← Finset.card_erase_add_one hm, pow_succ]; ring
    · rw [if_neg hb, Finset.erase_eq_of_notMem, mul_one]
      simp only [siteBetween, Finset.mem_filter, Finset.mem_univ, true_and, min_comm b j, max_comm b j]
      tauto
  rw [e]
  by_cases hb : min j b < a ∧ a < max j b
  · rw [if_pos hb, if_pos hb, Finset.card_insert_of_notMem hno, pow_succ, herase]
  · rw [if_neg hb, if_neg hb, herase, mul_one]

theorem between_iff {j b i : Fin L} (h : b ≠ j) :
    (i.val ≤ max j.val b.val - 1 ∧ i.val > min j.val b.val) ↔ (min j b < i ∧ i < max j b) := by
  have : b.val ≠ j.val := fun h' => h (Fin.ext h')
  simp only [Fin.lt_def, Fin.coe_min, Fin.coe_max]
  omega

theorem hop_val {x : Cfg L} {s : Bool} {i a : Fin L} (h : a ≠ i) (hi : hasSpin s (x i) = true) (ha : hasSpin s (x a) = false) :
    applyHopping i a x (spinInt s) (some (cumsum (isOcc x (spinInt s)))) = ((-1) ^ (siteBetween x s a i).card, hopCfg x s i a) :=
  applyHopping_valid x s h hi ha

theorem T_one (g : Occ (Mode L) → K) (x : Cfg L) {s : Bool} {i a : Fin L} (h : a ≠ i) (hi : hasSpin s (x i) = true)
    (ha : hasSpin s (x a) = false) :
    T (mode s i) (mode s a) g (occOf x) = (((-1) ^ (siteBetween x s a i).card : ℤ) : K) * g (occOf (hopCfg x s i a)) := by
  rw [T_hop, hop_val h hi ha]

/-- Sign of two hops of the same spin in terms of the original configuration. -/
def sameSign (x : Cfg L) (s : Bool) (i a j b : Fin L) : ℤ :=
  (-1) ^ (siteBetween x s a i).card * (-1) ^ (siteBetween x s b j).card
    * (if min j b < i ∧ i < max j b then -1 else 1) * (if min j b < a ∧ a < max j b then -1 else 1)

theorem T_same (g : Occ (Mode L) → K) (x : Cfg L) {s : Bool} {i a j b : Fin L} (hi : hasSpin s (x i) = true)
    (ha : hasSpin s (x a) = false) (hj : hasSpin s (x j) = true) (hb : hasSpin s (x b) = false) (hij : j ≠ i) (hab : b ≠ a) :
    T (mode s i) (mode s a) (T (mode s j) (mode s b) g) (occOf x) =
      (sameSign x s i a j b : K) * g (occOf (hopCfg (hopCfg x s i a) s j b)) := by
  have hai : a ≠ i := by rintro rfl; simp [hi] at ha
  have hbj : b ≠ j := by rintro rfl; simp [hj] at hb
  have haj : j ≠ a := by rintro rfl; simp [hj] at ha
  have hbi : b ≠ i := by rintro rfl; simp [hi] at hb
  rw [T_one _ x hai hi ha, T_one _ (hopCfg x s i a) hbj, sign_after_hop x hai hi ha]
  · unfold sameSign; push_cast; ring
  · rw [hopCfg_spin x s hai hi ha]; simp [hij, haj, hj]
  · rw [hopCfg_spin x s hai hi ha]; simp [hab, hbi, hb]

theorem siteBetween_other (x : Cfg L) {s s' : Bool} (hs : s' ≠ s) {i a : Fin L} (h : a ≠ i) (hi : hasSpin s (x i) = true)
    (ha : hasSpin s (x a) = false) (b j : Fin L) : siteBetween (hopCfg x s i a) s' b j = siteBetween x s' b j := by
  unfold siteBetween
  congr 1
  funext k
  rw [hopCfg_spin x s' h hi ha]
  simp [hs]

theorem T_mixed (g : Occ (Mode L) → K) (x : Cfg L) {s s' : Bool} (hs : s' ≠ s) {i a j b : Fin L} (hi : hasSpin s (x i) = true)
    (ha : hasSpin s (x a) = false) (hj : hasSpin s' (x j) = true) (hb : hasSpin s' (x b) = false) :
    T (mode s i) (mode s a) (T (mode s' j) (mode s' b) g) (occOf x) =
      (((-1) ^ (siteBetween x s a i).card * (-1) ^ (siteBetween x s' b j).card : ℤ) : K) * g (occOf (hopCfg (hopCfg x s i a) s' j b)) := by
  have hai : a ≠ i := by rintro rfl; simp [hi] at ha
  have hbj : b ≠ j := by rintro rfl; simp [hj] at hb
  rw [T_one _ x hai hi ha, T_one _ (hopCfg x s i a) hbj, siteBetween_other x hs hai hi ha]
  · push_cast; ring
  · rw [hopCfg_spin x s' hai hi ha]; simp [hs, hj]
  · rw [hopCfg_spin x s' hai hi ha]; simp [hs, hb]

/-! ### The rows of the kernel -/

section
variable {K : Type} [Field K]

theorem abSameRow_eq (e : Fin L → Fin L → Fin L → Fin L → K) (x : Cfg L) {s : Bool} {i a j b : Fin L} (hi : hasSpin s (x i) = true)
    (ha : hasSpin s (x a) = false) (hj : hasSpin s (x j) = true) (hb : hasSpin s (x b) = false) (hij : j ≠ i) (hab : b ≠ a) :
    abSameRow e x (spinInt s) (cumsum (isOcc x (spinInt s))) i a j b =
      (hopCfg (hopCfg x s i a) s j b, 1 / 2 * (sameSign x s i a j b : K) * e i a j b) := by
  have hai : a ≠ i := by rintro rfl; simp [hi] at ha
  have hbj : b ≠ j := by rintro rfl; simp [hj] at hb
  have haj : j ≠ a := by rintro rfl; simp [hj] at ha
  have hbi : b ≠ i := by rintro rfl; simp [hi] at hb
  unfold abSameRow
  rw [hop_val hai hi ha]
  dsimp only
  rw [applyHopping_valid_cum x (hopCfg x s i a) s hbj]
  · simp only [between_iff hbj]
    refine Prod.ext rfl ?_
    dsimp only
    congr 3
    unfold sameSign
    by_cases h1 : min j b < i ∧ i < max j b <;> by_cases h2 : min j b < a ∧ a < max j b <;> simp [h1, h2]
  · rw [hopCfg_spin x s hai hi ha]; simp [hij, haj, hj]
  · rw [hopCfg_spin x s hai hi ha]; simp [hab, hbi, hb]

theorem abMixedRow_eq (e : Fin L → Fin L → Fin L → Fin L → K) (x : Cfg L) {i a j b : Fin L} (hi : hasSpin false (x i) = true)
    (ha : hasSpin false (x a) = false) (hj : hasSpin true (x j) = true) (hb : hasSpin true (x b) = false) :
    abMixedRow e x (cumsum (isOcc x (spinInt false))) (cumsum (isOcc x (spinInt true))) i a j b =
      (hopCfg (hopCfg x false i a) true j b,
        (((-1) ^ (siteBetween x false a i).card * (-1) ^ (siteBetween x true b j).card : ℤ) : K) * e i a j b) := by
  have hai : a ≠ i := by rintro rfl; simp [hi] at ha
  have hbj : b ≠ j := by rintro rfl; simp [hj] at hb
  unfold abMixedRow
  have h1 := hop_val hai hi ha
  rw [show (1 : Fin 4) = spinInt false from rfl, h1]
  dsimp only
  rw [show (2 : Fin 4) = spinInt true from rfl, applyHopping_valid_cum x (hopCfg x false i a) true hbj]
  · rfl
  · rw [hopCfg_spin x true hai hi ha]; simp [hj]
  · rw [hopCfg_spin x true hai hi ha]; simp [hb]

variable (t : Fin L → Fin L → K) (e : Fin L → Fin L → Fin L → Fin L → K) (x : Cfg L) (g : Occ (Mode L) → K)

theorem abOneRows_apply (s : Bool) (O O' V : List (Fin L)) (hO : O = occInds x (spinInt s)) (hV : V = unoccInds x (spinInt s)) :
    rowApply (abOneRows t e x (spinInt s) (cumsum (isOcc x (spinInt s))) O O' V) (fun y => g (occOf y)) =
      ∑ i ∈ occSet s (occOf x), ∑ a ∈ emptySet s (occOf x), abOneValue t e O O' V i a * T (mode s i) (mode s a) g (occOf x) := by
  unfold abOneRows
  rw [rowApply_flatMap]
  simp only [rowApply_map]
  rw [← occInds_sum, ← hO]
  congr 1
  apply List.map_congr_left
  intro i _
  rw [← unoccInds_sum, ← hV]
  congr 1
  apply List.map_congr_left
  intro a _
  rw [T_hop]
  simp only [abOneRow]
  ring

theorem abSameRows_apply (s : Bool) :
    rowApply (abSameRows e x (spinInt s) (cumsum (isOcc x (spinInt s))) (occInds x (spinInt s)) (unoccInds x (spinInt s)))
        (fun y => g (occOf y)) =
      ∑ i ∈ occSet s (occOf x), ∑ a ∈ emptySet s (occOf x), ∑ j ∈ (occSet s (occOf x)).erase i, ∑ b ∈ (emptySet s (occOf x)).erase a,
        1 / 2 * (e i a j b * T (mode s i) (mode s a) (T (mode s j) (mode s b) g) (occOf x)) := by
  unfold abSameRows
  simp only [rowApply_flatMap, rowApply_ite, occInds_sum, unoccInds_sum]
  apply Finset.sum_congr rfl
  intro i hi
  apply Finset.sum_congr rfl
  intro a ha
  rw [← Finset.sum_erase (s := occSet s (occOf x)) (a := i)]
  · apply Finset.sum_congr rfl
    intro j hj
    rw [← Finset.sum_erase (s := emptySet s (occOf x)) (a := a)]
    · apply Finset.sum_congr rfl
      intro b hb
      rw [Finset.mem_erase] at hj hb
      rw [if_pos ⟨hj.1.symm, hb.1.symm⟩]
      have hi' := mem_occ.mp hi
      have ha' := mem_empty.mp ha
      have hj' := mem_occ.mp hj.2
      have hb' := mem_empty.mp hb.2
      rw [occOf_mode] at hi' ha' hj' hb'
      rw [abSameRow_eq e x hi' ha' hj' hb' hj.1 hb.1, T_same g x hi' ha' hj' hb' hj.1 hb.1]
      dsimp only
      ring
    · simp
  · simp

theorem abMixedRows_apply :
    rowApply ((occInds x (spinInt false)).flatMap fun i => (unoccInds x (spinInt false)).flatMap fun a =>
        (occInds x (spinInt true)).flatMap fun j => (unoccInds x (spinInt true)).map fun b =>
          abMixedRow e x (cumsum (isOcc x (spinInt false))) (cumsum (isOcc x (spinInt true))) i a j b) (fun y => g (occOf y)) =
      ∑ i ∈ occSet false (occOf x), ∑ a ∈ emptySet false (occOf x), ∑ j ∈ occSet true (occOf x), ∑ b ∈ emptySet true (occOf x),
        e i a j b * T (mode false i) (mode false a) (T (mode true j) (mode true b) g) (occOf x) := by
  simp only [rowApply_flatMap, rowApply_map, occInds_sum, unoccInds_sum]
  apply Finset.sum_congr rfl
  intro i hi
  apply Finset.sum_congr rfl
  intro a ha
  apply Finset.sum_congr rfl
  intro j hj
  apply Finset.sum_congr rfl
  intro b hb
  rw [mem_occ, occOf_mode] at hi hj
  rw [mem_empty, occOf_mode] at ha hb
  rw [abMixedRow_eq e x hi ha hj hb, T_mixed g x (by simp) hi ha hj hb]
  dsimp only
  ring

theorem abRows_split :
    rowApply (abRows t e x) (fun y => g (occOf y)) =
      abDiag t e x * g (occOf x)
      + (∑ i ∈ occSet false (occOf x), ∑ a ∈ emptySet false (occOf x),
          abOneValue t e (occInds x (spinInt false)) (occInds x (spinInt true)) (unoccInds x (spinInt false)) i a
            * T (mode false i) (mode false a) g (occOf x))
      + (∑ i ∈ occSet true (occOf x), ∑ a ∈ emptySet true (occOf x),
          abOneValue t e (occInds x (spinInt true)) (occInds x (spinInt false)) (unoccInds x (spinInt true)) i a
            * T (mode true i) (mode true a) g (occOf x))
      + (∑ i ∈ occSet false (occOf x), ∑ a ∈ emptySet false (occOf x), ∑ j ∈ (occSet false (occOf x)).erase i,
          ∑ b ∈ (emptySet false (occOf x)).erase a,
            1 / 2 * (e i a j b * T (mode false i) (mode false a) (T (mode false j) (mode false b) g) (occOf x)))
      + (∑ i ∈ occSet true (occOf x), ∑ a ∈ emptySet true (occOf x), ∑ j ∈ (occSet true (occOf x)).erase i,
          ∑ b ∈ (emptySet true (occOf x)).erase a,
            1 / 2 * (e i a j b * T (mode true i) (mode true a) (T (mode true j) (mode true b) g) (occOf x)))
      + ∑ i ∈ occSet false (occOf x), ∑ a ∈ emptySet false (occOf x), ∑ j ∈ occSet true (occOf x), ∑ b ∈ emptySet true (occOf x),
        e i a j b * T (mode false i) (mode false a) (T (mode true j) (mode true b) g) (occOf x) := by
  rw [← abMixedRows_apply, ← abSameRows_apply, ← abSameRows_apply, ← abOneRows_apply t e x g false _ _ _ rfl rfl,
    ← abOneRows_apply t e x g true _ _ _ rfl rfl]
  unfold abRows
  simp only [rowApply_append, rowApply_single]
  rfl

theorem abDiag_eq (h2 : (2 : K) ≠ 0) :
    2 * abDiag t e x = (∑ σ : Bool, ∑ i ∈ occSet σ (occOf x), 2 * t i i)
      + 2 * (∑ i ∈ occSet false (occOf x), ∑ j ∈ occSet true (occOf x), e i i j j)
      + ∑ σ : Bool, (∑ i ∈ occSet σ (occOf x), ∑ j ∈ occSet σ (occOf x), e i i j j
        + ∑ i ∈ occSet σ (occOf x), ∑ a ∈ emptySet σ (occOf x), e i a a i) := by
  unfold abDiag
  rw [show (1 : Fin 4) = spinInt false from rfl, show (2 : Fin 4) = spinInt true from rfl]
  simp only [occInds_sum, unoccInds_sum, Fintype.sum_bool, ← Finset.mul_sum]
  field_simp
  ring

theorem abOneValue_eq (h2 : (2 : K) ≠ 0) (s : Bool) (i a : Fin L) :
    2 * abOneValue t e (occInds x (spinInt s)) (occInds x (spinInt (!s))) (unoccInds x (spinInt s)) i a =
      2 * t i a + 2 * (∑ k ∈ occSet s (occOf x), e i a k k) + 2 * (∑ k ∈ occSet (!s) (occOf x), e i a k k)
        + ∑ k ∈ emptySet s (occOf x), e i k k a - ∑ k ∈ occSet s (occOf x), e k a i k := by
  unfold abOneValue
  simp only [occInds_sum, unoccInds_sum, ← Finset.mul_sum]
  field_simp

/-- The rows of the kernel pair with an amplitude as twice the Hamiltonian does. -/
theorem abRows_apply (h2 : (2 : K) ≠ 0) (h : Fin L → Fin L → K) (hsym : ∀ p q r s, e p q r s = e r s p q) :
    2 * rowApply (abRows (abT h e) e x) (fun y => g (occOf y)) = hTwice h e g (occOf x) := by
  have ht : ∀ p q, 2 * abT h e p q = 2 * h p q - ∑ r, e p r r q := by
    intro p q; unfold abT; field_simp
  have hone : ∀ s : Bool, 2 * (∑ i ∈ occSet s (occOf x), ∑ a ∈ emptySet s (occOf x),
      abOneValue (abT h e) e (occInds x (spinInt s)) (occInds x (spinInt (!s))) (unoccInds x (spinInt s)) i a
            * T (mode s i) (mode s a) g (occOf x)) =
      ∑ i ∈ occSet s (occOf x), ∑ a ∈ emptySet s (occOf x), (2 * h i a - ∑ r, e i r r a + 2 * (∑ k ∈ occSet s (occOf x), e i a k k)
        + 2 * (∑ k ∈ occSet (!s) (occOf x), e i a k k)
        + ∑ k ∈ emptySet s (occOf x), e i k k a - ∑ k ∈ occSet s (occOf x), e k a i k) * T (mode s i) (mode s a) g (occOf x) := by
    intro s
    rw [Finset.mul_sum]
    apply Finset.sum_congr rfl; intro i _
    rw [Finset.mul_sum]
    apply Finset.sum_congr rfl; intro a _
    rw [← mul_assoc, abOneValue_eq _ _ _ h2, ht]
  have hsame : ∀ s : Bool, 2 * (∑ i ∈ occSet s (occOf x), ∑ a ∈ emptySet s (occOf x), ∑ j ∈ (occSet s (occOf x)).erase i,
          ∑ b ∈ (emptySet s (occOf x)).erase a,
            1 / 2 * (e i a j b * T (mode s i) (mode s a) (T (mode s j) (mode s b) g) (occOf x))) =
      ∑ i ∈ occSet s (occOf x), ∑ a ∈ emptySet s (occOf x), ∑ j ∈ (occSet s (occOf x)).erase i,
          ∑ b ∈ (emptySet s (occOf x)).erase a, e i a j b * T (mode s i) (mode s a) (T (mode s j) (mode s b) g) (occOf x) := by
    intro s
    simp only [← Finset.mul_sum]
    field_simp
  have hf := hone false
  have htr := hone true
  simp only [Bool.not_false, Bool.not_true] at hf htr
  rw [abRows_split, hTwice_eq h e hsym, mul_add, mul_add, mul_add, mul_add, mul_add, hf, htr, hsame, hsame, ← mul_assoc, abDiag_eq _ _ _ h2]
  simp only [ht, Fintype.sum_bool, Bool.not_false, Bool.not_true]
  ring

end

end GPSKet
