import Verif.Lemmas.Sector
import Mathlib.Tactic.LinearCombination

/-! # Expectation values of spin operators in singlets -/

namespace GPSKet.Spec

open Matrix

variable {L : ℕ}

theorem occOf_bijective : Function.Bijective (occOf (L := L)) := by
  rw [Fintype.bijective_iff_injective_and_card]
  refine ⟨occOf_injective, ?_⟩
  have : Fintype.card (Mode L) = 2 * L := by
    show Fintype.card (Bool × Fin L) = _
    rw [Fintype.card_prod, Fintype.card_bool, Fintype.card_fin]
  rw [Fintype.card_fun, Fintype.card_fun, Fintype.card_fin, Fintype.card_fin, Fintype.card_bool, this, pow_mul]
  norm_num

theorem sum_occ {M : Type} [AddCommMonoid M] (f : Occ (Mode L) → M) : ∑ n, f n = ∑ x : Cfg L, f (occOf x) :=
  (Fintype.sum_bijective _ occOf_bijective _ _ fun _ => rfl).symm

theorem braket_add (A B : Op L) (psi : Cfg L → ℂ) : braket (A + B) psi = braket A psi + braket B psi := by
  unfold braket
  rw [← Finset.sum_add_distrib]
  refine Finset.sum_congr rfl fun x _ => ?_
  rw [← Finset.sum_add_distrib]
  refine Finset.sum_congr rfl fun x' _ => ?_
  rw [Matrix.add_apply]; push_cast; ring

theorem braket_smul (k : ℤ) (A : Op L) (psi : Cfg L → ℂ) : braket (k • A) psi = k * braket A psi := by
  unfold braket
  rw [Finset.mul_sum]
  refine Finset.sum_congr rfl fun x _ => ?_
  rw [Finset.mul_sum]
  refine Finset.sum_congr rfl fun x' _ => ?_
  rw [Matrix.smul_apply, smul_eq_mul]; push_cast; ring

theorem braket_neg (A : Op L) (psi : Cfg L → ℂ) : braket (-A) psi = -braket A psi := by
  have := braket_smul (-1) A psi
  rw [neg_one_smul] at this
  rw [this]; push_cast; ring

theorem braket_sub (A B : Op L) (psi : Cfg L → ℂ) : braket (A - B) psi = braket A psi - braket B psi := by
  rw [sub_eq_add_neg, braket_add, braket_neg, sub_eq_add_neg]

theorem braket_ite (P : Prop) [Decidable P] (A : Op L) (psi : Cfg L → ℂ) :
    braket (if P then A else 0) psi = if P then braket A psi else 0 := by
  by_cases h : P
  · simp only [if_pos h]
  · simp only [if_neg h]
    simp [braket]

theorem braket_mul_right {S : Op L} {psi : Cfg L → ℂ} (h : ∀ x, ∑ x', (S (occOf x) (occOf x') : ℂ) * psi x' = 0) (A : Op L) :
    braket (A * S) psi = 0 := by
  unfold braket
  refine Finset.sum_eq_zero fun x _ => ?_
  have h1 : ∀ x', star (psi x) * (((A * S) (occOf x) (occOf x') : ℤ) : ℂ) * psi x'
      = ∑ y, star (psi x) * (A (occOf x) (occOf y) : ℂ) * ((S (occOf y) (occOf x') : ℂ) * psi x') := by
    intro x'
    rw [Matrix.mul_apply, sum_occ, Int.cast_sum, Finset.mul_sum, Finset.sum_mul]
    refine Finset.sum_congr rfl fun y _ => ?_
    push_cast; ring
  rw [Finset.sum_congr rfl fun x' _ => h1 x', Finset.sum_comm]
  refine Finset.sum_eq_zero fun y _ => ?_
  rw [← Finset.mul_sum, h y, mul_zero]

theorem braket_mul_left {S : Op L} {psi : Cfg L → ℂ} (h : ∀ x, ∑ x', (Sᵀ (occOf x) (occOf x') : ℂ) * psi x' = 0) (A : Op L) :
    braket (S * A) psi = 0 := by
  unfold braket
  rw [Finset.sum_comm]
  refine Finset.sum_eq_zero fun x' _ => ?_
  have h1 : ∀ x, star (psi x) * (((S * A) (occOf x) (occOf x') : ℤ) : ℂ) * psi x'
      = ∑ y, (A (occOf y) (occOf x') : ℂ) * psi x' * star ((Sᵀ (occOf y) (occOf x) : ℂ) * psi x) := by
    intro x
    rw [Matrix.mul_apply, sum_occ, Int.cast_sum, Finset.mul_sum, Finset.sum_mul]
    refine Finset.sum_congr rfl fun y _ => ?_
    rw [star_mul', Matrix.transpose_apply]
    have : star ((S (occOf x) (occOf y) : ℤ) : ℂ) = S (occOf x) (occOf y) := by simp
    rw [this]
    push_cast; ring
  rw [Finset.sum_congr rfl fun x _ => h1 x, Finset.sum_comm]
  refine Finset.sum_eq_zero fun y _ => ?_
  rw [← Finset.mul_sum, ← star_sum, h y, star_zero, mul_zero]

theorem up_transpose : (∑ i, spinUp i i : Op L)ᵀ = ∑ i, spinDown i i := by
  rw [transpose_sum]
  exact Finset.sum_congr rfl fun i _ => cre_mul_ann_transpose _ _

theorem down_transpose : (∑ i, spinDown i i : Op L)ᵀ = ∑ i, spinUp i i := by
  rw [transpose_sum]
  exact Finset.sum_congr rfl fun i _ => cre_mul_ann_transpose _ _

variable {psi : Cfg L → ℂ}

theorem singlet_up (h : IsSinglet psi) (A : Op L) : braket ((∑ i, spinUp i i) * A - A * ∑ i, spinUp i i) psi = 0 := by
  rw [braket_sub, braket_mul_right h.1, braket_mul_left (by rw [up_transpose]; exact h.2), sub_zero]

theorem singlet_down (h : IsSinglet psi) (A : Op L) : braket ((∑ i, spinDown i i) * A - A * ∑ i, spinDown i i) psi = 0 := by
  rw [braket_sub, braket_mul_right h.2, braket_mul_left (by rw [down_transpose]; exact h.1), sub_zero]

theorem comm_sum (F : Fin L → Op L) (A : Op L) : (∑ k, F k) * A - A * (∑ k, F k) = ∑ k, (F k * A - A * F k) := by
  rw [Finset.sum_mul, Finset.mul_sum, Finset.sum_sub_distrib]

theorem comm_down_up (i j : Fin L) : (∑ k, spinDown k k : Op L) * spinUp i j - spinUp i j * ∑ k, spinDown k k = -spinZ2 i j := by
  rw [comm_sum]
  simp only [spinDown, spinUp, spinZ2, bil_comm, mode_inj, true_and, Finset.sum_sub_distrib, Finset.sum_ite_eq, Finset.sum_ite_eq',
    Finset.mem_univ, if_true]
  abel

theorem comm_down_z (i j : Fin L) : (∑ k, spinDown k k : Op L) * spinZ2 i j - spinZ2 i j * ∑ k, spinDown k k = (2 : ℤ) • spinDown i j := by
  rw [comm_sum]
  have h : ∀ A B C : Op L, A * (B - C) - (B - C) * A = (A * B - B * A) - (A * C - C * A) := by intros; noncomm_ring
  simp only [spinDown, spinZ2, h, bil_comm, mode_inj, true_and, Finset.sum_sub_distrib, Finset.sum_ite_eq, Finset.sum_ite_eq',
    Finset.mem_univ, if_true, reduceCtorEq, false_and, if_false, Finset.sum_const_zero, Bool.true_eq_false, Bool.false_eq_true]
  rw [two_smul]; abel

theorem comm_up_down (i j : Fin L) : (∑ k, spinUp k k : Op L) * spinDown i j - spinDown i j * ∑ k, spinUp k k = spinZ2 i j := by
  rw [comm_sum]
  simp only [spinDown, spinUp, spinZ2, bil_comm, mode_inj, true_and, Finset.sum_sub_distrib, Finset.sum_ite_eq, Finset.sum_ite_eq',
    Finset.mem_univ, if_true]

theorem comm_up_z (i j : Fin L) : (∑ k, spinUp k k : Op L) * spinZ2 i j - spinZ2 i j * ∑ k, spinUp k k = -((2 : ℤ) • spinUp i j) := by
  rw [comm_sum]
  have h : ∀ A B C : Op L, A * (B - C) - (B - C) * A = (A * B - B * A) - (A * C - C * A) := by intros; noncomm_ring
  simp only [spinUp, spinZ2, h, bil_comm, mode_inj, true_and, Finset.sum_sub_distrib, Finset.sum_ite_eq, Finset.sum_ite_eq',
    Finset.mem_univ, if_true, reduceCtorEq, false_and, if_false, Finset.sum_const_zero, Bool.true_eq_false, Bool.false_eq_true]
  rw [two_smul]; abel

theorem comm_product (S A B : Op L) : S * (A * B) - A * B * S = (S * A - A * S) * B + A * (S * B - B * S) := by noncomm_ring

/-- In a singlet, `⟨S^+_ij S^-_kl⟩ = 2 ⟨S^z_ij S^z_kl⟩`. -/
theorem singlet_up_down (h : IsSinglet psi) (i j k l : Fin L) :
    2 * braket (spinUp i j * spinDown k l) psi = braket (spinZ2 i j * spinZ2 k l) psi := by
  have := singlet_down h (spinUp i j * spinZ2 k l)
  rw [comm_product, comm_down_up, comm_down_z, braket_add, neg_mul, braket_neg, mul_smul_comm, braket_smul] at this
  push_cast at this
  linear_combination this

/-- In a singlet, `⟨S^-_ij S^+_kl⟩ = 2 ⟨S^z_ij S^z_kl⟩`. -/
theorem singlet_down_up (h : IsSinglet psi) (i j k l : Fin L) :
    2 * braket (spinDown i j * spinUp k l) psi = braket (spinZ2 i j * spinZ2 k l) psi := by
  have := singlet_up h (spinDown i j * spinZ2 k l)
  rw [comm_product, comm_up_down, comm_up_z, braket_add, mul_neg, braket_neg, mul_smul_comm, braket_smul] at this
  push_cast at this
  linear_combination -this

/-- The exchange identity. -/
theorem exchange (i j k l : Fin L) :
    (2 : ℤ) • (spinUp i j * spinDown k l) + (2 : ℤ) • (spinDown i j * spinUp k l) + exc i j * exc k l + spinZ2 i j * spinZ2 k l
      = (4 : ℤ) • (if j = k then exc i l else 0) - (2 : ℤ) • pairOp i l k j := by
  unfold spinUp spinDown exc spinZ2 pairOp
  simp only [Fintype.sum_bool]
  have h : ∀ A B C D : Op L, (A + B) * (C + D) + (B - A) * (D - C) = (2 : ℤ) • (A * C) + (2 : ℤ) • (B * D) := by
    intros; noncomm_ring
  rw [add_assoc, h]
  simp only [bil_mul, mode_inj, true_and]
  have hs : ∀ a b c d : Mode L, cre a * cre b * ann c * ann d = -(cre a * cre b * ann d * ann c) := by
    intro a b c d
    rw [Matrix.mul_assoc, ann_anti c d, Matrix.mul_neg, ← Matrix.mul_assoc]
  rw [hs (mode true i) (mode true k) (mode true j) (mode true l), hs (mode true i) (mode false k) (mode false j) (mode true l),
    hs (mode false i) (mode true k) (mode true j) (mode false l), hs (mode false i) (mode false k) (mode false j) (mode false l)]
  by_cases e : j = k
  · simp only [if_pos e]
    simp only [two_smul, show (4 : ℤ) = 2 + 2 from rfl, add_smul]
    abel
  · simp only [if_neg e]
    simp only [two_smul, smul_zero]
    abel

end GPSKet.Spec
