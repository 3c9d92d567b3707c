import Verif.Lemmas.Fock
import Mathlib.Algebra.BigOperators.Group.Finset.Piecewise
import Mathlib.Tactic.LinearCombination

/-! # A permutation of the modes acts on Fock space, with the signs of the electrons passing each other -/

namespace GPSKet.Spec.ModePerm

open Matrix GPSKet.Spec

variable {ι : Type} [Fintype ι] [LinearOrder ι] (g : Equiv.Perm ι)

/-- minus one for each pair of particles whose order the permutation exchanges -/
def inv (n : Occ ι) : ℤ := ∏ a, ∏ b, if a < b ∧ n a = true ∧ n b = true ∧ g b < g a then -1 else 1

/-- the particles move along -/
def move (n : Occ ι) : Occ ι := fun p => n (g.symm p)

theorem jwSign_prod (p : ι) (n : Occ ι) : jwSign p n = ∏ q, if q < p ∧ n q = true then -1 else 1 := by
  unfold jwSign
  rw [Finset.prod_ite, Finset.prod_const, Finset.prod_const_one, mul_one]

theorem jwSign_move (p : ι) (n : Occ ι) : jwSign (g p) (move g n) = ∏ q, if g q < g p ∧ n q = true then -1 else 1 := by
  rw [jwSign_prod, ← Equiv.prod_comp g]
  simp [move]

theorem inv_remove (n : Occ ι) (p : ι) (hp : n p = true) :
    inv g n = inv g (Function.update n p false) * jwSign p n * jwSign (g p) (move g n) := by
  have h1 : ∀ a b : ι, (if a < b ∧ n a = true ∧ n b = true ∧ g b < g a then (-1 : ℤ) else 1) =
      (if a < b ∧ Function.update n p false a = true ∧ Function.update n p false b = true ∧ g b < g a then (-1 : ℤ) else 1) *
      ((if b = p then (if a < p ∧ n a = true ∧ g p < g a then (-1 : ℤ) else 1) else 1) *
        (if a = p then (if p < b ∧ n b = true ∧ g b < g p then (-1 : ℤ) else 1) else 1)) := by
    intro a b
    by_cases ha : a = p
    · subst ha
      by_cases hb : b = a
      · subst hb; simp
      · simp [hb, hp]
    · by_cases hb : b = p
      · subst hb; simp [ha, hp]
      · simp [ha, hb]
  unfold inv
  simp only [h1, Finset.prod_mul_distrib, Finset.prod_ite_eq', Finset.mem_univ, if_true]
  rw [mul_assoc]
  congr 1
  have h2 : (∏ x, ∏ x_1, if x = p then (if p < x_1 ∧ n x_1 = true ∧ g x_1 < g p then (-1 : ℤ) else 1) else 1) =
      ∏ b, if p < b ∧ n b = true ∧ g b < g p then (-1 : ℤ) else 1 := by
    rw [Finset.prod_comm]
    simp
  rw [h2, jwSign_prod, jwSign_move, ← Finset.prod_mul_distrib, ← Finset.prod_mul_distrib]
  refine Finset.prod_congr rfl fun a _ => ?_
  rcases lt_trichotomy a p with h | h | h
  · rcases lt_trichotomy (g a) (g p) with h' | h' | h'
    · cases hn : n a <;> simp [h, h', h.not_gt, h'.not_gt]
    · exact absurd (g.injective h') h.ne
    · cases hn : n a <;> simp [h, h', h.not_gt, h'.not_gt]
  · subst h; simp
  · rcases lt_trichotomy (g a) (g p) with h' | h' | h'
    · cases hn : n a <;> simp [h, h', h.not_gt]
    · exact absurd (g.injective h') h.ne'
    · cases hn : n a <;> simp [h.not_gt, h'.not_gt]

/-- the operator of the permutation -/
def mapS : SMap ι := fun n => some (inv g n, move g n)

def W : Matrix (Occ ι) (Occ ι) ℤ := (mapS g).mat

theorem W_apply (n' n : Occ ι) : W g n' n = if n' = move g n then inv g n else 0 := rfl

omit [Fintype ι] in
theorem move_update (n : Occ ι) (p : ι) (b : Bool) : move g (Function.update n p b) = Function.update (move g n) (g p) b := by
  funext q
  unfold move
  by_cases h : q = g p
  · subst h; simp
  · have : g.symm q ≠ p := fun h' => h (by rw [← h']; simp)
    rw [Function.update_of_ne h, Function.update_of_ne this]

theorem W_ann (p : ι) : W g * ann p = ann (g p) * W g := by
  rw [ann_eq, ann_eq, W, ← SMap.mat_comp, ← SMap.mat_comp]
  congr 1
  funext n
  unfold SMap.comp annS mapS
  have hm : move g n (g p) = n p := by simp [move]
  by_cases hp : n p = true
  · simp only [hp, hm, if_true, move_update]
    rw [Option.some.injEq, Prod.mk.injEq]
    refine ⟨?_, rfl⟩
    have h1 := jwSign_mul_self p n
    have h2 := jwSign_mul_self (g p) (move g n)
    rw [inv_remove g n p hp]
    linear_combination (-(inv g (Function.update n p false) * jwSign p n)) * h2
  · simp [hp, hm]

theorem W_cre (p : ι) : W g * cre p = cre (g p) * W g := by
  rw [cre_eq, cre_eq, W, ← SMap.mat_comp, ← SMap.mat_comp]
  congr 1
  funext n
  unfold SMap.comp creS mapS
  have hm : move g n (g p) = n p := by simp [move]
  by_cases hp : n p = true
  · simp [hp, hm]
  · have hp' : n p = false := by simpa using hp
    simp only [hp', hm, move_update, Bool.false_eq_true, if_false]
    rw [Option.some.injEq, Prod.mk.injEq]
    refine ⟨?_, rfl⟩
    have h := inv_remove g (Function.update n p true) p (by simp)
    rw [Function.update_idem, upd_self hp', jwSign_update_of_le le_rfl, move_update, jwSign_update_of_le le_rfl] at h
    rw [h]
    have h1 := jwSign_mul_self p n
    linear_combination (inv g n * jwSign (g p) (move g n)) * h1

theorem W_bil (p q : ι) : W g * (cre p * ann q) = cre (g p) * ann (g q) * W g := by
  rw [← mul_assoc, W_cre, mul_assoc, W_ann, ← mul_assoc]

end GPSKet.Spec.ModePerm
