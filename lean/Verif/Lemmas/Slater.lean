import Verif.Model.Slater
import Mathlib.GroupTheory.Perm.Fin
import Mathlib.LinearAlgebra.Matrix.SchurComplement
import Mathlib.Data.Int.ModEq
import Mathlib.Tactic.Ring
import Mathlib.Tactic.Linarith

/-! # Lemmas for the Slater determinant model: signs of moved electrons and low-rank updates -/

namespace GPSKet.Slater

variable {N : ℕ}

/-- The sign of the permutation that sorts the positions, by counting inversions. -/
def invSign (p : Fin N → ℤ) : ℤ := ∏ j, ∏ i ∈ Finset.Iio j, if p i < p j then 1 else -1

theorem invSign_strictMono {p : Fin N → ℤ} (h : StrictMono p) : invSign p = 1 := by
  unfold invSign
  apply Finset.prod_eq_one
  intro j _
  apply Finset.prod_eq_one
  intro i hi
  rw [if_pos (h (Finset.mem_Iio.mp hi))]

/-- `q` lies strictly between `r` and `a`. -/
def Between (q r a : ℤ) : Prop := (r < q ∧ q < a) ∨ (a < q ∧ q < r)

instance (q r a : ℤ) : Decidable (Between q r a) := inferInstanceAs (Decidable (_ ∨ _))

theorem invSign_eq (p : Fin N → ℤ) : invSign p = ∏ j, ∏ i, if i < j then (if p i < p j then 1 else -1) else 1 := by
  unfold invSign
  apply Finset.prod_congr rfl
  intro j _
  rw [← Finset.prod_filter]
  apply Finset.prod_congr _ (fun _ _ => rfl)
  ext i; simp

theorem invSign_update (p : Fin N → ℤ) (e : Fin N) (a : ℤ) (hinj : Function.Injective p) (ha : ∀ n, p n ≠ a) :
    invSign (Function.update p e a) = invSign p * (-1) ^ (Finset.univ.filter fun n => Between (p n) (p e) a).card := by
  set b : Fin N → ℤ := fun q => if Between (p q) (p e) a then -1 else 1 with hb
  have hpt : ∀ i j : Fin N, (if i < j then (if Function.update p e a i < Function.update p e a j then (1:ℤ) else -1) else 1) =
      (if i < j then (if p i < p j then 1 else -1) else 1) *
        ((if i < j then (if i = e then b j else 1) else 1) * (if i < j then (if j = e then b i else 1) else 1)) := by
    intro i j
    by_cases hij : i < j
    · simp only [hij, if_true]
      by_cases hi : i = e
      · have hj : j ≠ e := by rintro rfl; exact absurd hij (by rw [hi]; exact lt_irrefl _)
        subst hi
        rw [Function.update_self, Function.update_of_ne hj, if_pos rfl, if_neg hj]
        have h1 := ha j
        have h2 : p i ≠ p j := fun h => hj (hinj h).symm
        simp only [hb]
        split_ifs <;> first | rfl | (exfalso; unfold Between at *; omega)
      · by_cases hj : j = e
        · subst hj
          rw [Function.update_self, Function.update_of_ne hi, if_neg hi, if_pos rfl]
          have h1 := ha i
          have h2 : p i ≠ p j := fun h => hi (hinj h)
          simp only [hb]
          split_ifs <;> first | rfl | (exfalso; unfold Between at *; omega)
        · rw [Function.update_of_ne hi, Function.update_of_ne hj, if_neg hi, if_neg hj]
          ring
    · simp [hij]
  rw [invSign_eq, invSign_eq]
  simp only [hpt, Finset.prod_mul_distrib]
  congr 1
  have h1 : (∏ j, ∏ i, if i < j then (if i = e then b j else 1) else (1:ℤ)) = ∏ j, if e < j then b j else 1 := by
    apply Finset.prod_congr rfl
    intro j _
    rw [Finset.prod_eq_single e]
    · simp
    · intro i _ hi; simp [hi]
    · simp
  have h2 : (∏ j, ∏ i, if i < j then (if j = e then b i else 1) else (1:ℤ)) = ∏ i, if i < e then b i else 1 := by
    rw [Finset.prod_comm]
    apply Finset.prod_congr rfl
    intro i _
    rw [Finset.prod_eq_single e]
    · simp
    · intro j _ hj; simp [hj]
    · simp
  rw [h1, h2, ← Finset.prod_mul_distrib]
  have h3 : ∀ q : Fin N, (if e < q then b q else 1) * (if q < e then b q else 1) = b q := by
    intro q
    rcases lt_trichotomy q e with h | h | h
    · simp [h, not_lt.mpr h.le]
    · subst h; simp [hb, Between]
    · simp [h, not_lt.mpr h.le]
  rw [Finset.prod_congr rfl fun q _ => h3 q]
  simp only [hb]
  rw [Finset.prod_ite, Finset.prod_const_one, mul_one, Finset.prod_const]

variable {k : ℕ}

/-- Positions after the first `j` moves: electron `els i` goes to `add i`. -/
def posAfter (pos : Fin N → ℤ) (els : Fin k → Fin N) (add : ℕ → ℤ) : ℕ → Fin N → ℤ
  | 0 => pos
  | j + 1 => if h : j < k then Function.update (posAfter pos els add j) (els ⟨j, h⟩) (add j) else posAfter pos els add j

/-- Number of electrons at positions up to `s`. -/
def cnt (p : Fin N → ℤ) (s : ℤ) : ℤ := (Finset.univ.filter fun n => p n ≤ s).card

theorem cnt_update (p : Fin N → ℤ) (e : Fin N) (a s : ℤ) :
    cnt (Function.update p e a) s = cnt p s + (if a ≤ s then 1 else 0) - (if p e ≤ s then 1 else 0) := by
  unfold cnt
  have h : ∀ q : Fin N → ℤ, ((Finset.univ.filter fun n => q n ≤ s).card : ℤ) =
      (if q e ≤ s then 1 else 0) + ∑ n ∈ Finset.univ.erase e, if q n ≤ s then 1 else 0 := by
    intro q
    rw [Finset.card_filter, Nat.cast_sum, ← Finset.add_sum_erase _ _ (Finset.mem_univ e)]
    simp
  rw [h, h p, Function.update_self]
  have : ∑ n ∈ Finset.univ.erase e, (if Function.update p e a n ≤ s then (1:ℤ) else 0) =
      ∑ n ∈ Finset.univ.erase e, if p n ≤ s then 1 else 0 := by
    apply Finset.sum_congr rfl
    intro n hn
    rw [Function.update_of_ne (Finset.ne_of_mem_erase hn)]
  rw [this]; ring

/-- The number of electrons passed, by cumulative counts. -/
theorem between_card (p : Fin N → ℤ) (e : Fin N) (a : ℤ) (hinj : Function.Injective p) (ha : ∀ n, p n ≠ a) :
    ((Finset.univ.filter fun n => Between (p n) (p e) a).card : ℤ) =
      if p e > a then cnt p (p e) - cnt p a - 1 else cnt p a - cnt p (p e) := by
  have hc : ∀ q : Fin N → Prop, ∀ [DecidablePred q], ((Finset.univ.filter q).card : ℤ) = ∑ n, if q n then 1 else 0 := by
    intro q _; rw [Finset.card_filter]; push_cast; rfl
  unfold cnt
  rw [hc, hc, hc]
  by_cases h : p e > a
  · rw [if_pos h]
    have : (1 : ℤ) = ∑ n, if n = e then 1 else 0 := by simp
    rw [this, ← Finset.sum_sub_distrib, ← Finset.sum_sub_distrib]
    apply Finset.sum_congr rfl
    intro n _
    have h1 := ha n
    by_cases hn : n = e
    · subst hn; split_ifs <;> first | rfl | omega | (exfalso; unfold Between at *; omega)
    · have h2 : p n ≠ p e := fun h => hn (hinj h)
      simp only [hn, if_false]
      split_ifs <;> first | rfl | omega | (exfalso; unfold Between at *; omega)
  · rw [if_neg h, ← Finset.sum_sub_distrib]
    apply Finset.sum_congr rfl
    intro n _
    have h1 := ha n
    have h3 := ha e
    by_cases hn : n = e
    · subst hn; split_ifs <;> first | rfl | omega | (exfalso; unfold Between at *; omega)
    · have h2 : p n ≠ p e := fun h => hn (hinj h)
      split_ifs <;> first | rfl | omega | (exfalso; unfold Between at *; omega)

section Moves
variable (pos : Fin N → ℤ) (els : Fin k → Fin N) (add : ℕ → ℤ)

/-- Where an electron is after `j` moves. -/
theorem posAfter_cases (hels : Function.Injective els) (j : ℕ) (n : Fin N) :
    (∃ i : Fin k, i.val < j ∧ els i = n ∧ posAfter pos els add j n = add i) ∨
    ((∀ i : Fin k, i.val < j → els i ≠ n) ∧ posAfter pos els add j n = pos n) := by
  induction j with
  | zero => right; exact ⟨fun i hi => absurd hi (Nat.not_lt_zero _), rfl⟩
  | succ j ih =>
    simp only [posAfter]
    split
    · rename_i hj
      by_cases hn : els ⟨j, hj⟩ = n
      · left; exact ⟨⟨j, hj⟩, Nat.lt_succ_self j, hn, by rw [← hn, Function.update_self]⟩
      · rw [Function.update_of_ne (Ne.symm hn)]
        rcases ih with ⟨i, h1, h2, h3⟩ | ⟨h1, h2⟩
        · left; exact ⟨i, Nat.lt_succ_of_lt h1, h2, h3⟩
        · right
          refine ⟨fun i hi => ?_, h2⟩
          rcases Nat.lt_succ_iff_lt_or_eq.mp hi with h | h
          · exact h1 i h
          · intro h'; apply hn; rw [← h']; congr 1; exact Fin.ext h.symm
    · rename_i hj
      rcases ih with ⟨i, h1, h2, h3⟩ | ⟨h1, h2⟩
      · left; exact ⟨i, Nat.lt_succ_of_lt h1, h2, h3⟩
      · right
        refine ⟨fun i hi => h1 i ?_, h2⟩
        have := i.isLt; omega

variable (hpos : Function.Injective pos) (hels : Function.Injective els)
  (hadd : ∀ i j, i < k → j < k → add i = add j → i = j) (hnew : ∀ i < k, ∀ n, pos n ≠ add i)

include hpos hels hadd hnew in
theorem posAfter_injective (j : ℕ) : Function.Injective (posAfter pos els add j) := by
  intro n n' h
  rcases posAfter_cases pos els add hels j n with ⟨i, h1, h2, h3⟩ | ⟨h1, h2⟩ <;>
  rcases posAfter_cases pos els add hels j n' with ⟨i', h1', h2', h3'⟩ | ⟨h1', h2'⟩
  · rw [h3, h3'] at h
    have := hadd i i' i.isLt i'.isLt h
    rw [← h2, ← h2', Fin.ext this]
  · rw [h3, h2'] at h
    exact absurd h.symm (hnew i i.isLt n')
  · rw [h2, h3'] at h
    exact absurd h (hnew i' i'.isLt n)
  · rw [h2, h2'] at h; exact hpos h

include hels hadd hnew in
theorem posAfter_ne (j : ℕ) (hj : j < k) (n : Fin N) : posAfter pos els add j n ≠ add j := by
  rcases posAfter_cases pos els add hels j n with ⟨i, h1, h2, h3⟩ | ⟨h1, h2⟩
  · rw [h3]; intro h; have := hadd i j i.isLt hj h; omega
  · rw [h2]; exact hnew j hj n

include hels in
theorem posAfter_els (j : ℕ) (hj : j < k) : posAfter pos els add j (els ⟨j, hj⟩) = pos (els ⟨j, hj⟩) := by
  rcases posAfter_cases pos els add hels j (els ⟨j, hj⟩) with ⟨i, h1, h2, h3⟩ | ⟨h1, h2⟩
  · have := congrArg Fin.val (hels h2); simp at this; omega
  · exact h2

theorem neg_one_pow_of_parity (a : ℤ) (c : ℕ) (h : a % 2 = (c : ℤ) % 2) : (-1 : ℤ) ^ (a % 2).toNat = (-1) ^ c := by
  rw [h]
  have : ((c : ℤ) % 2).toNat = c % 2 := by omega
  rw [this]
  exact (neg_one_pow_eq_pow_mod_two c).symm

include hpos hels hadd hnew in
/-- The loop computes the sign of the permutation that sorts the moved electrons. -/
theorem signLoop (rm : ℕ → ℤ) (hmono : StrictMono pos) (hrm : ∀ i : Fin k, rm i = pos (els i))
    (hpad : ∀ i, k ≤ i → add i = -1 ∧ rm i = -1) (hge : ∀ i, -1 ≤ add i ∧ -1 ≤ rm i)
    (cumA cumR : ℕ → ℤ) (hA : ∀ i < k, cumA i = cnt pos (add i)) (hR : ∀ i < k, cumR i = cnt pos (rm i))
    (hAR : ∀ i, k ≤ i → cumA i = cumR i) (U : ℕ) (hU : k ≤ U) :
    ((List.range U).foldl (signStep add rm) (1, cumA, cumR)).1 = invSign (posAfter pos els add k) := by
  have key : ∀ j, let st := (List.range j).foldl (signStep add rm) (1, cumA, cumR)
      st.1 = invSign (posAfter pos els add j) ∧
      (∀ i < k, st.2.1 i % 2 = cnt (posAfter pos els add j) (add i) % 2) ∧
      (∀ i < k, st.2.2 i % 2 = cnt (posAfter pos els add j) (rm i) % 2) ∧
      (∀ i, k ≤ i → st.2.1 i = st.2.2 i) := by
    intro j
    induction j with
    | zero =>
      refine ⟨?_, fun i hi => ?_, fun i hi => ?_, hAR⟩
      · exact (invSign_strictMono hmono).symm
      · exact congrArg (· % 2) (hA i hi)
      · exact congrArg (· % 2) (hR i hi)
    | succ j ih =>
      dsimp only at ih ⊢
      rw [List.range_succ, List.foldl_append, List.foldl_cons, List.foldl_nil]
      set st := (List.range j).foldl (signStep add rm) (1, cumA, cumR)
      obtain ⟨h1, h2, h3, h4⟩ := ih
      have hpa : ∀ i, k ≤ i → (signStep add rm st j).2.1 i = (signStep add rm st j).2.2 i := by
        intro i hi
        simp only [signStep, h4 i hi, (hpad i hi).1, (hpad i hi).2]
      by_cases hj : j < k
      · simp only [posAfter, hj, dif_pos]
        set p := posAfter pos els add j with hp
        have hin := posAfter_injective pos els add hpos hels hadd hnew j
        have hne := posAfter_ne pos els add hels hadd hnew j hj
        have hpe : p (els ⟨j, hj⟩) = rm j := by rw [hrm ⟨j, hj⟩]; exact posAfter_els pos els add hels j hj
        have hcnt : ∀ s, cnt (Function.update p (els ⟨j, hj⟩) (add j)) s =
            cnt p s + (if add j ≤ s then 1 else 0) - (if rm j ≤ s then 1 else 0) := by
          intro s; rw [cnt_update, hpe]
        refine ⟨?_, ?_, ?_, hpa⟩
        · rw [invSign_update p _ _ hin hne]
          simp only [signStep]
          rw [h1]
          congr 1
          apply neg_one_pow_of_parity
          rw [between_card p _ _ hin hne, hpe]
          have e2 := h2 j hj
          have e3 := h3 j hj
          rcases abs_cases (st.2.2 j - st.2.1 j) with ⟨ha, _⟩ | ⟨ha, _⟩ <;> rw [ha] <;> split_ifs <;> omega
        · intro i hi
          rw [hcnt]
          have e2 := h2 i hi
          simp only [signStep]
          split_ifs <;> omega
        · intro i hi
          rw [hcnt]
          have e2 := h3 i hi
          simp only [signStep]
          split_ifs <;> omega
      · simp only [posAfter, hj, dif_neg, not_false_iff]
        obtain ⟨ea, er⟩ := hpad j (not_lt.mp hj)
        refine ⟨?_, ?_, ?_, hpa⟩
        · simp only [signStep, ea, er, h4 j (not_lt.mp hj), sub_self, abs_zero, gt_iff_lt, lt_irrefl, if_false]
          simpa using h1
        · intro i hi
          simp only [signStep, ea, er, ge_iff_le, (hge i).1, if_true]
          exact h2 i hi
        · intro i hi
          simp only [signStep, ea, er, ge_iff_le, (hge i).2, if_true]
          exact h3 i hi
  have hconst : ∀ j, k ≤ j → posAfter pos els add j = posAfter pos els add k := by
    intro j hj
    induction j, hj using Nat.le_induction with
    | base => rfl
    | succ j hj ih => simp only [posAfter, not_lt.mpr hj, dif_neg, not_false_iff]; exact ih
  rw [(key U).1, hconst U hU]

end Moves

/-- Determinant of the rows at given positions, sorted or not. -/
theorem det_sorted (F : ℤ → Fin N → ℂ) (p q : Fin N → ℤ) (hq : StrictMono q) (σ : Equiv.Perm (Fin N)) (h : ∀ n, p n = q (σ n)) :
    (Matrix.of fun i j => F (p i) j).det = (invSign p : ℂ) * (Matrix.of fun i j => F (q i) j).det := by
  have h1 : (Matrix.of fun i j => F (p i) j) = (Matrix.of fun i j => F (q i) j).submatrix σ id := by
    ext i j; simp [h]
  rw [h1, Matrix.det_permute]
  congr 1
  have : invSign p = ((Equiv.Perm.sign σ : ℤˣ) : ℤ) := by
    rw [Equiv.Perm.sign_eq_prod_prod_Iio, Units.coe_prod]
    unfold invSign
    apply Finset.prod_congr rfl
    intro j _
    rw [Units.coe_prod]
    apply Finset.prod_congr rfl
    intro i _
    rw [h, h]
    by_cases hl : σ i < σ j
    · rw [if_pos hl, if_pos (hq hl)]; rfl
    · rw [if_neg hl, if_neg (fun hc => hl (hq.lt_iff_lt.mp hc))]; rfl
  rw [this]

theorem invSign_sq (p : Fin N → ℤ) : invSign p * invSign p = 1 := by
  unfold invSign
  rw [← Finset.prod_mul_distrib]
  apply Finset.prod_eq_one
  intro j _
  rw [← Finset.prod_mul_distrib]
  apply Finset.prod_eq_one
  intro i _
  split <;> rfl

section LowRank
variable {L k : ℕ} (U : ℕ) (els : Fin k → Fin N) (A : Matrix (Fin N) (Fin N) ℂ) (rows : ℕ → Fin N → ℂ)

/-- Column `i` is the unit vector of the `i`-th moving electron (0 for padding). -/
def eMat : Matrix (Fin N) (Fin U) ℂ := Matrix.of fun n i => if h : i.val < k then (if els ⟨i, h⟩ = n then 1 else 0) else 0

/-- Row `i` is the change of the row of the `i`-th moving electron (0 for padding). -/
def vMat : Matrix (Fin U) (Fin N) ℂ := Matrix.of fun i c => if h : i.val < k then rows i c - A (els ⟨i, h⟩) c else 0

theorem mul_eMat (X : Matrix (Fin U) (Fin N) ℂ) (i j : Fin U) :
    (X * eMat U els) i j = if h : j.val < k then X i (els ⟨j, h⟩) else 0 := by
  rw [Matrix.mul_apply]
  by_cases h : j.val < k
  · simp [eMat, h]
  · simp [eMat, h]

/-- Adding the changes replaces the rows of the moving electrons. -/
theorem add_changes (hU : k ≤ U) (hels : Function.Injective els) (n c : Fin N) :
    (∀ i : Fin k, els i = n → (A + eMat U els * vMat U els A rows) n c = rows i c) ∧
    ((∀ i : Fin k, els i ≠ n) → (A + eMat U els * vMat U els A rows) n c = A n c) := by
  constructor
  · intro i hi
    rw [Matrix.add_apply, Matrix.mul_apply, Finset.sum_eq_single (⟨i.val, by have := i.isLt; omega⟩ : Fin U)]
    · simp [eMat, vMat, hi]
    · intro j _ hj
      by_cases h : j.val < k
      · have : els ⟨j, h⟩ ≠ n := by
          intro h'
          apply hj
          have := congrArg Fin.val (hels (h'.trans hi.symm))
          exact Fin.ext this
        simp [eMat, h, this]
      · simp [eMat, h]
    · simp
  · intro hn
    rw [Matrix.add_apply, Matrix.mul_apply, Finset.sum_eq_zero, add_zero]
    intro j _
    by_cases h : j.val < k
    · simp [eMat, h, hn ⟨j, h⟩]
    · simp [eMat, h]

variable (hA : IsUnit A)

include hA in
theorem vMat_mul_inv (i : Fin U) (n : Fin N) :
    (vMat U els A rows * A⁻¹) i n = if h : i.val < k then (∑ c, rows i c * A⁻¹ c n) - (if els ⟨i, h⟩ = n then 1 else 0) else 0 := by
  rw [Matrix.mul_apply]
  by_cases h : i.val < k
  · have h1 : (A * A⁻¹) (els ⟨i, h⟩) n = if els ⟨i, h⟩ = n then 1 else 0 := by
      rw [Matrix.mul_nonsing_inv A ((Matrix.isUnit_iff_isUnit_det A).mp hA), Matrix.one_apply]
    rw [dif_pos h, ← h1, Matrix.mul_apply, ← Finset.sum_sub_distrib]
    apply Finset.sum_congr rfl
    intro c _
    simp [vMat, h, sub_mul]
  · simp [vMat, h]

include hA in
theorem determinantUpdate_eq (hels : Function.Injective els) (add el : ℕ → ℤ) (entry : ℤ → ℤ → ℂ)
    (hmask : ∀ i < U, add i ≠ -1 ↔ i < k)
    (hentry : ∀ i (j : Fin k), i < k → entry (add i) (el j) = ∑ c, rows i c * A⁻¹ c (els j)) :
    determinantUpdate U add el entry = (1 + vMat U els A rows * A⁻¹ * eMat U els).det := by
  unfold determinantUpdate
  congr 1
  ext i j
  rw [Matrix.add_apply, mul_eMat]
  simp only [Matrix.of_apply, Matrix.one_apply]
  by_cases hj : j.val < k
  · rw [dif_pos hj, if_pos ((hmask j j.isLt).mpr hj), vMat_mul_inv U els A rows hA]
    by_cases hi : i.val < k
    · rw [if_pos ((hmask i i.isLt).mpr hi), dif_pos hi, hentry i ⟨j, hj⟩ hi]
      by_cases hij : i = j
      · subst hij; simp
      · have : els ⟨i, hi⟩ ≠ els ⟨j, hj⟩ := by
          intro h; apply hij; have := congrArg Fin.val (hels h); exact Fin.ext this
        simp [hij, this]
    · rw [if_neg (fun h => hi ((hmask i i.isLt).mp h)), dif_neg hi, add_zero]
  · rw [dif_neg hj, if_neg (fun h => hj ((hmask j j.isLt).mp h)), add_zero]

include hA in
/-- The update formula of the determinant. -/
theorem det_update (hels : Function.Injective els) (add el : ℕ → ℤ) (entry : ℤ → ℤ → ℂ)
    (hmask : ∀ i < U, add i ≠ -1 ↔ i < k)
    (hentry : ∀ i (j : Fin k), i < k → entry (add i) (el j) = ∑ c, rows i c * A⁻¹ c (els j)) :
    determinantUpdate U add el entry * A.det = (A + eMat U els * vMat U els A rows).det := by
  rw [determinantUpdate_eq U els A rows hA hels add el entry hmask hentry,
    Matrix.det_add_mul _ _ ((Matrix.isUnit_iff_isUnit_det A).mp hA), mul_comm]

include hA in
/-- The update formula of the inverse. -/
theorem inverse_update (add rm el : ℕ → ℤ) (orbitals : Fin (L + L) → Fin N → ℂ)
    (hmask : ∀ i < U, add i ≠ -1 ↔ i < k) (hel : ∀ i : Fin k, pyIdx N (el i) = some (els i))
    (hrows : ∀ i < k, ∀ c, get (fun r => orbitals r c) (add i) = rows i c)
    (hold : ∀ (i : Fin k) c, get (fun r => orbitals r c) (rm i) = A (els i) c)
    (hnew : IsUnit (A + eMat U els * vMat U els A rows)) :
    updateInverse U add rm el orbitals A⁻¹ = (A + eMat U els * vMat U els A rows)⁻¹ := by
  have hV : (Matrix.of fun (i : Fin U) c =>
      if add i ≠ -1 then get (fun r => orbitals r c) (add i) - get (fun r => orbitals r c) (rm i) else 0) = vMat U els A rows := by
    ext i c
    simp only [Matrix.of_apply, vMat]
    by_cases hi : i.val < k
    · rw [if_pos ((hmask i i.isLt).mpr hi), dif_pos hi, hrows i hi, hold ⟨i, hi⟩]
    · rw [if_neg (fun h => hi ((hmask i i.isLt).mp h)), dif_neg hi]
  have hget : ∀ (f : Fin N → ℂ) (i : Fin k), get f (el i) = f (els i) := by
    intro f i; simp [get, hel i]
  have hVU : (Matrix.of fun i j : Fin U => if add j ≠ -1 then get ((vMat U els A rows * A⁻¹) i) (el j) else 0) =
      vMat U els A rows * A⁻¹ * eMat U els := by
    ext i j
    rw [mul_eMat]
    simp only [Matrix.of_apply]
    by_cases hj : j.val < k
    · rw [if_pos ((hmask j j.isLt).mpr hj), dif_pos hj, hget _ ⟨j, hj⟩]
    · rw [if_neg (fun h => hj ((hmask j j.isLt).mp h)), dif_neg hj]
  have hAd := (Matrix.isUnit_iff_isUnit_det A).mp hA
  have hdet : IsUnit (1 + vMat U els A rows * A⁻¹ * eMat U els) := by
    rw [Matrix.isUnit_iff_isUnit_det] at hnew ⊢
    rw [Matrix.det_add_mul _ _ hAd] at hnew
    exact isUnit_of_mul_isUnit_right hnew
  have hw := Matrix.add_mul_mul_inv_eq_sub A (eMat U els) 1 (vMat U els A rows) hA isUnit_one
    (by rw [inv_one]; exact hdet)
  rw [Matrix.mul_one, inv_one] at hw
  rw [hw]
  unfold updateInverse
  dsimp only
  rw [hV, hVU]
  congr 1
  -- padding rows of the product vanish
  set Q := (1 + vMat U els A rows * A⁻¹ * eMat U els)⁻¹ * (vMat U els A rows * A⁻¹) with hQ
  have hpad : ∀ (i : Fin U), ¬ i.val < k → ∀ n, Q i n = 0 := by
    intro i hi n
    have h1 : (1 + vMat U els A rows * A⁻¹ * eMat U els) * Q = vMat U els A rows * A⁻¹ := by
      rw [hQ, ← Matrix.mul_assoc, Matrix.mul_nonsing_inv _ ((Matrix.isUnit_iff_isUnit_det _).mp hdet), Matrix.one_mul]
    have h2 := congrFun (congrFun h1 i) n
    rw [Matrix.add_mul, Matrix.one_mul, Matrix.add_apply, vMat_mul_inv U els A rows hA, dif_neg hi] at h2
    have h3 : (vMat U els A rows * A⁻¹ * eMat U els * Q) i n = 0 := by
      rw [Matrix.mul_apply]
      apply Finset.sum_eq_zero
      intro j _
      rw [mul_eMat]
      split
      · rw [vMat_mul_inv U els A rows hA, dif_neg hi, zero_mul]
      · rw [zero_mul]
    rw [h3, add_zero] at h2
    exact h2
  have hE : A⁻¹ * eMat U els * (1 + vMat U els A rows * A⁻¹ * eMat U els)⁻¹ * vMat U els A rows * A⁻¹ =
      A⁻¹ * eMat U els * Q := by
    rw [hQ]; simp only [Matrix.mul_assoc]
  rw [hE]
  ext a n
  rw [Matrix.mul_apply, Matrix.mul_apply]
  apply Finset.sum_congr rfl
  intro j _
  by_cases hj : j.val < k
  · congr 1
    rw [Matrix.mul_apply]
    simp only [Matrix.of_apply]
    rw [hget _ ⟨j, hj⟩]
    simp [eMat, hj]
  · rw [hpad j hj, mul_zero, mul_zero]

end LowRank

end GPSKet.Slater
