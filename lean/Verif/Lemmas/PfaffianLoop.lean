import Verif.Lemmas.Pfaffian
import Verif.Model.Pfaffian

/-! # Lemmas about the loop of `log_pfaffian` -/

namespace GPSKet.Pfaffian
open Spec

theorem argmaxFirst_spec (l : List ℝ) (hl : l ≠ []) :
    ∃ h : argmaxFirst l < l.length, ∀ w ∈ l, w ≤ l[argmaxFirst l] := by
  have hex : ∃ v ∈ l, ∀ w ∈ l, w ≤ v := by
    induction l with
    | nil => exact absurd rfl hl
    | cons u l ih =>
      by_cases h : l = []
      · subst h; exact ⟨u, by simp, by simp⟩
      · obtain ⟨v, hv, hm⟩ := ih h
        rcases le_total u v with huv | huv
        · exact ⟨v, by simp [hv], by intro w hw; rcases List.mem_cons.mp hw with rfl | hw; exacts [huv, hm w hw]⟩
        · exact ⟨u, by simp, by intro w hw; rcases List.mem_cons.mp hw with rfl | hw; exacts [le_rfl, (hm w hw).trans huv]⟩
  obtain ⟨v, hv, hm⟩ := hex
  have hlt : argmaxFirst l < l.length := by
    unfold argmaxFirst
    rw [List.findIdx_lt_length]
    exact ⟨v, hv, by simpa using hm⟩
  refine ⟨hlt, ?_⟩
  have := List.findIdx_getElem (w := hlt)
  rw [decide_eq_true_eq] at this
  exact this

/-- The trailing block of the array. -/
def blk (mat : ℕ → ℕ → ℂ) (off r : ℕ) : Matrix (Fin (2 * r)) (Fin (2 * r)) ℂ := fun i j => mat (off + i.val) (off + j.val)

/-- The array after the exchange of rows and columns. -/
noncomputable def swapped (mat : ℕ → ℕ → ℂ) (index largest : ℕ) : ℕ → ℕ → ℂ := fun i j =>
  let m1 : ℕ → ℕ → ℂ := fun i j =>
    if j ≥ index then
      if i = index + largest + 1 then mat (index + 1) j
      else if i = index + 1 then mat (index + largest + 1) j
      else mat i j
    else mat i j
  if i ≥ index then
    if j = index + largest + 1 then m1 i (index + 1)
    else if j = index + 1 then m1 i (index + largest + 1)
    else m1 i j
  else m1 i j

/-- The array after the elimination. -/
noncomputable def eliminated (m2 : ℕ → ℕ → ℂ) (index : ℕ) : ℕ → ℕ → ℂ :=
  let t : ℕ → ℂ := fun a => m2 index a / m2 index (index + 1)
  let m3 : ℕ → ℕ → ℂ := fun i j => if i ≥ index + 2 ∧ j ≥ index + 2 then m2 i j + t i * m2 j (index + 1) else m2 i j
  fun i j => if i ≥ index + 2 ∧ j ≥ index + 2 then m3 i j + -(m3 i (index + 1) * t j) else m3 i j

theorem step_eq (m : ℕ) (mat : ℕ → ℕ → ℂ) (v : LogNum) (count : ℕ) :
    let largest := argmaxFirst ((List.range (m - (count * 2 + 1))).map fun a => ‖mat (count * 2 + 1 + a) (count * 2)‖)
    let m2 := swapped mat (count * 2) largest
    step m { matrix := mat, value := v, nan := false } count =
      { matrix := eliminated m2 (count * 2)
        value := if m2 (count * 2 + 1) (count * 2) ≠ 0 then
            (if largest ≠ 0 then v.add (Complex.log (-1)) else v).add (Complex.log (m2 (count * 2) (count * 2 + 1))) else .negInf
        nan := decide (m2 (count * 2) (count * 2 + 1) = 0) } := rfl

theorem swapped_eq (mat : ℕ → ℕ → ℂ) (index largest i j : ℕ) (hi : index ≤ i) (hj : index ≤ j) :
    swapped mat index largest i j = mat (Equiv.swap (index + 1) (index + largest + 1) i) (Equiv.swap (index + 1) (index + largest + 1) j) := by
  unfold swapped
  dsimp only
  rw [if_pos hi]
  simp only [Equiv.swap_apply_def]
  have e1 : ∀ j', index ≤ j' → (if j' ≥ index then
      if i = index + largest + 1 then mat (index + 1) j'
      else if i = index + 1 then mat (index + largest + 1) j'
      else mat i j'
    else mat i j') = mat (if i = index + 1 then index + largest + 1 else if i = index + largest + 1 then index + 1 else i) j' := by
    intro j' hj'
    rw [if_pos hj']
    by_cases h1 : i = index + largest + 1
    · by_cases h2 : i = index + 1
      · have : largest = 0 := by omega
        subst this; simp [h2]
      · rw [if_pos h1, if_neg h2, if_pos h1]
    · simp only [h1, if_false]
      split_ifs <;> rfl
  rw [e1 (index + 1) (by omega), e1 (index + largest + 1) (by omega), e1 j hj]
  by_cases h1 : j = index + largest + 1
  · by_cases h2 : j = index + 1
    · have : largest = 0 := by omega
      subst this; simp [h2]
    · rw [if_pos h1, if_neg h2, if_pos h1]
  · simp only [h1, if_false]
    split_ifs <;> rfl

/-- The exchange as a permutation of the block. -/
def blkPerm {r : ℕ} (largest : ℕ) (h : largest + 1 < 2 * (r + 1)) : Equiv.Perm (Fin (2 * (r + 1))) := Equiv.swap 1 ⟨largest + 1, h⟩

theorem blk_swapped (mat : ℕ → ℕ → ℂ) (index largest : ℕ) {r : ℕ} (h : largest + 1 < 2 * (r + 1)) :
    blk (swapped mat index largest) index (r + 1) = (blk mat index (r + 1)).submatrix (blkPerm largest h) (blkPerm largest h) := by
  ext i j
  have key : ∀ i : Fin (2 * (r + 1)), Equiv.swap (index + 1) (index + largest + 1) (index + i.val) = index + (blkPerm largest h i).val := by
    intro i
    unfold blkPerm
    rw [Equiv.swap_apply_def, Equiv.swap_apply_def]
    have h1 : (index + i.val = index + 1) ↔ i = 1 := by
      constructor
      · intro h; apply Fin.ext; rw [one_val]; omega
      · rintro rfl; rw [one_val]
    have h2 : (index + i.val = index + largest + 1) ↔ i = ⟨largest + 1, h⟩ := by
      constructor
      · intro h; apply Fin.ext; simp only; omega
      · rintro rfl; simp only; omega
    simp only [h1, h2]
    split_ifs
    · simp only; omega
    · rw [one_val]
    · rfl
  unfold blk
  rw [swapped_eq _ _ _ _ _ (by omega) (by omega), key, key]
  rfl

theorem blk_eliminated (m2 : ℕ → ℕ → ℂ) (index r : ℕ) : blk (eliminated m2 index) (index + 2) r = elim (blk m2 index (r + 1)) := by
  ext i j
  unfold blk eliminated elim
  simp only [up2_val, one_val]
  rw [if_pos ⟨by omega, by omega⟩, if_pos ⟨by omega, by omega⟩, if_neg (by omega)]
  rw [show index + 2 + i.val = index + (i.val + 2) by omega, show index + 2 + j.val = index + (j.val + 2) by omega]
  simp only [Fin.val_zero, add_zero]
  rw [sub_eq_add_neg]

/-- NaN entries make the result NaN. -/
theorem loop_nan (m : ℕ) (counts : List ℕ) (hc : counts ≠ []) (s : State) (hs : s.nan = true) :
    (counts.foldl (step m) s).value = .nan := by
  have h1 : ∀ (counts : List ℕ) (s : State), s.nan = true → s.value = .nan → (counts.foldl (step m) s).value = .nan := by
    intro counts
    induction counts with
    | nil => intro s _ hv; exact hv
    | cons c l ih =>
      intro s hs _
      rw [List.foldl_cons]
      apply ih
      · unfold step; simp [hs]
      · unfold step; simp [hs]
  cases counts with
  | nil => exact absurd rfl hc
  | cons c l =>
    rw [List.foldl_cons]
    apply h1
    · unfold step; simp [hs]
    · unfold step; simp [hs]

theorem loop_spec (r : ℕ) : ∀ (k : ℕ) (mat : ℕ → ℕ → ℂ) (v : ℂ), Skew (blk mat (k * 2) r) →
    let out := ((List.range' k r).foldl (step (2 * (k + r))) { matrix := mat, value := .fin v, nan := false }).value
    (pfaffian (blk mat (k * 2) r) ≠ 0 → ∃ w, out = .fin w ∧ Complex.exp w = Complex.exp v * pfaffian (blk mat (k * 2) r)) ∧
    (pfaffian (blk mat (k * 2) r) = 0 → out = .negInf ∨ (out = .nan ∧ 2 ≤ r)) := by
  induction r with
  | zero =>
    intro k mat v _
    rw [pf_empty]
    exact ⟨fun _ => ⟨v, rfl, by ring⟩, fun h => absurd h one_ne_zero⟩
  | succ r ih =>
    intro k mat v hA
    intro out
    have hstep := step_eq (2 * (k + (r + 1))) mat (.fin v) k
    set largest := argmaxFirst ((List.range (2 * (k + (r + 1)) - (k * 2 + 1))).map fun a => ‖mat (k * 2 + 1 + a) (k * 2)‖) with hlargest
    set m2 := swapped mat (k * 2) largest with hm2
    dsimp only at hstep
    rw [← hm2] at hstep
    have hlen : 2 * (k + (r + 1)) - (k * 2 + 1) = 2 * r + 1 := by omega
    obtain ⟨hlt, hmax⟩ := argmaxFirst_spec ((List.range (2 * (k + (r + 1)) - (k * 2 + 1))).map fun a => ‖mat (k * 2 + 1 + a) (k * 2)‖) (by
      rw [hlen]; simp [List.range_succ])
    have hl : largest + 1 < 2 * (r + 1) := by
      have hlt' := hlt
      rw [List.length_map, List.length_range, ← hlargest] at hlt'
      omega
    set A := blk mat (k * 2) (r + 1) with hAdef
    have hblk : blk m2 (k * 2) (r + 1) = A.submatrix (blkPerm largest hl) (blkPerm largest hl) := blk_swapped mat _ _ hl
    have hA2 : Skew (blk m2 (k * 2) (r + 1)) := by rw [hblk]; exact skew_perm hA _
    have hp01 : m2 (k * 2) (k * 2 + 1) = blk m2 (k * 2) (r + 1) 0 1 := by
      unfold blk; rw [one_val]; rfl
    have hp10 : m2 (k * 2 + 1) (k * 2) = -(blk m2 (k * 2) (r + 1) 0 1) := by
      rw [← hA2]; unfold blk; rw [one_val]; rfl
    have hpf : pfaffian (blk m2 (k * 2) (r + 1)) = (if largest ≠ 0 then -1 else 1) * pfaffian A := by
      rw [hblk, pf_perm]
      congr 1
      unfold blkPerm
      by_cases h0 : largest = 0
      · have : (⟨largest + 1, hl⟩ : Fin (2 * (r + 1))) = 1 := Fin.ext (by rw [one_val]; simp [h0])
        rw [this, Equiv.swap_self]; simp [h0]
      · have : (1 : Fin (2 * (r + 1))) ≠ ⟨largest + 1, hl⟩ := by
          intro h; have := congrArg Fin.val h; rw [one_val] at this; simp only at this; omega
        rw [Equiv.Perm.sign_swap this]; simp [h0]
    -- the pivot is the largest entry of the row
    have hpiv : blk m2 (k * 2) (r + 1) 0 1 = 0 → ∀ j, A 0 j = 0 := by
      intro h0 j
      have h10 : (1 : Fin (2 * (r + 1))) ≠ 0 := by intro h; have := congrArg Fin.val h; rw [one_val] at this; simp at this
      have hval : blk m2 (k * 2) (r + 1) 0 1 = A 0 ⟨largest + 1, hl⟩ := by
        rw [hblk, Matrix.submatrix_apply]
        unfold blkPerm
        rw [Equiv.swap_apply_left, Equiv.swap_apply_of_ne_of_ne h10.symm (by intro h; have := congrArg Fin.val h; simp at this)]
      rw [hval] at h0
      have hz : mat (k * 2 + 1 + largest) (k * 2) = 0 := by
        have h1 := hA ⟨largest + 1, hl⟩ 0
        rw [h0, neg_zero] at h1
        unfold A blk at h1
        rw [show k * 2 + 1 + largest = k * 2 + (largest + 1) by omega]
        exact h1
      by_cases hj : j = 0
      · rw [hj]; exact skew_diag hA 0
      · have hj1 : 1 ≤ j.val := by
          rcases Nat.eq_zero_or_pos j.val with h | h
          · exact absurd (Fin.ext h) hj
          · exact h
        have hm := hmax ‖mat (k * 2 + 1 + (j.val - 1)) (k * 2)‖ (by
          rw [List.mem_map]
          exact ⟨j.val - 1, by rw [List.mem_range, hlen]; have := j.isLt; omega, rfl⟩)
        rw [List.getElem_map, List.getElem_range] at hm
        change _ ≤ ‖mat (k * 2 + 1 + largest) (k * 2)‖ at hm
        rw [hz, norm_zero] at hm
        have := norm_le_zero_iff.mp hm
        rw [hA 0 j]
        unfold A blk
        rw [show k * 2 + j.val = k * 2 + 1 + (j.val - 1) by omega]
        simp only [Fin.val_zero, add_zero]
        rw [this, neg_zero]
    have hout : out = ((List.range' (k + 1) r).foldl (step (2 * (k + (r + 1))))
        (step (2 * (k + (r + 1))) { matrix := mat, value := .fin v, nan := false } k)).value := by
      simp only [out]
      rw [List.range'_succ, List.foldl_cons]
    rw [hstep] at hout
    by_cases hp : blk m2 (k * 2) (r + 1) 0 1 = 0
    · -- zero pivot
      have hpf0 : pfaffian A = 0 := pf_row_zero hA (hpiv hp)
      refine ⟨fun h => absurd hpf0 h, fun _ => ?_⟩
      rw [hp01, hp10, hp] at hout
      simp only [neg_zero, ne_eq, not_true, if_false, decide_true] at hout
      by_cases hr : r = 0
      · subst hr
        left; rw [hout]; rfl
      · right
        refine ⟨?_, by omega⟩
        rw [hout]
        exact loop_nan _ _ (by intro h; exact hr (by simpa using congrArg List.length h)) _ rfl
    · have hne : m2 (k * 2 + 1) (k * 2) ≠ 0 := by rw [hp10]; simpa using hp
      have hd : decide (m2 (k * 2) (k * 2 + 1) = 0) = false := by rw [hp01]; simpa using hp
      rw [if_pos hne, hd] at hout
      have hv : ∃ v', ((if largest ≠ 0 then (LogNum.fin v).add (Complex.log (-1)) else LogNum.fin v).add (Complex.log (m2 (k * 2) (k * 2 + 1)))) = .fin v' ∧
          Complex.exp v' = Complex.exp v * (if largest ≠ 0 then -1 else 1) * blk m2 (k * 2) (r + 1) 0 1 := by
        by_cases h0 : largest = 0
        · refine ⟨v + Complex.log (m2 (k * 2) (k * 2 + 1)), by simp [h0, LogNum.add], ?_⟩
          rw [Complex.exp_add, hp01, Complex.exp_log hp]; simp [h0]
        · refine ⟨v + Complex.log (-1) + Complex.log (m2 (k * 2) (k * 2 + 1)), by simp [h0, LogNum.add], ?_⟩
          rw [Complex.exp_add, Complex.exp_add, hp01, Complex.exp_log hp, Complex.exp_log (by simp)]; simp [h0]
      obtain ⟨v', hv1, hv2⟩ := hv
      rw [hv1] at hout
      have hb : blk (eliminated m2 (k * 2)) ((k + 1) * 2) r = elim (blk m2 (k * 2) (r + 1)) := by
        rw [show (k + 1) * 2 = k * 2 + 2 by ring]; exact blk_eliminated _ _ _
      have hi := ih (k + 1) (eliminated m2 (k * 2)) v' (by rw [hb]; exact elim_skew hA2)
      dsimp only at hi
      rw [hb, show 2 * (k + 1 + r) = 2 * (k + (r + 1)) by ring, ← hout] at hi
      have hpe := pf_elim hA2 hp
      have hss : ((if largest ≠ 0 then -1 else 1 : ℂ)) * (if largest ≠ 0 then -1 else 1) = 1 := by split_ifs <;> norm_num
      have hs0 : (if largest ≠ 0 then -1 else 1 : ℂ) ≠ 0 := by split_ifs <;> norm_num
      have hpA : pfaffian A = (if largest ≠ 0 then -1 else 1) * (blk m2 (k * 2) (r + 1) 0 1 * pfaffian (elim (blk m2 (k * 2) (r + 1)))) := by
        rw [← hpe, hpf, ← mul_assoc, hss, one_mul]
      constructor
      · intro hA0
        have : pfaffian (elim (blk m2 (k * 2) (r + 1))) ≠ 0 := by
          intro h; apply hA0; rw [hpA, h]; ring
        obtain ⟨w, hw1, hw2⟩ := hi.1 this
        refine ⟨w, hw1, ?_⟩
        rw [hw2, hv2, hpA]; ring
      · intro hA0
        have : pfaffian (elim (blk m2 (k * 2) (r + 1))) = 0 := by
          rw [hpA] at hA0
          rcases mul_eq_zero.mp hA0 with h | h
          · exact absurd h hs0
          · exact (mul_eq_zero.mp h).resolve_left hp
        rcases hi.2 this with h | ⟨h, h2⟩
        · exact Or.inl h
        · exact Or.inr ⟨h, by omega⟩

end GPSKet.Pfaffian
