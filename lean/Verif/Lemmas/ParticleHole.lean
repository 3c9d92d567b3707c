import Verif.Lemmas.ModePerm
import Mathlib.Algebra.BigOperators.Group.Finset.Piecewise

/-! # Exchanging particles and holes in a set of modes -/

namespace GPSKet.Spec.ParticleHole

open Matrix GPSKet.Spec

variable {ι : Type} [Fintype ι] [LinearOrder ι] (S : ι → Bool) (σ : ι → ℤ)

/-- particles and holes exchanged in the modes of the set -/
def flip (n : Occ ι) : Occ ι := fun p => n p ^^ S p

/-- a sign for each particle -/
def sgn (n : Occ ι) : ℤ := ∏ p, if n p = true then σ p else 1

/-- the number of modes of the set before a mode, as a sign -/
def count (p : ι) : ℤ := ∏ q, if q < p ∧ S q = true then -1 else 1

omit [Fintype ι] [LinearOrder ι] in
theorem flip_flip (n : Occ ι) : flip S (flip S n) = n := by
  funext p
  unfold flip
  cases n p <;> cases S p <;> rfl

omit [Fintype ι] in
theorem flip_update (n : Occ ι) (p : ι) (b : Bool) : flip S (Function.update n p b) = Function.update (flip S n) p (b ^^ S p) := by
  funext q
  unfold flip
  by_cases h : q = p
  · subst h; simp
  · simp [h]

theorem jwSign_flip (p : ι) (n : Occ ι) : jwSign p (flip S n) = count S p * jwSign p n := by
  rw [ModePerm.jwSign_prod, ModePerm.jwSign_prod, count, ← Finset.prod_mul_distrib]
  refine Finset.prod_congr rfl fun q _ => ?_
  unfold flip
  by_cases h : q < p
  · cases n q <;> cases S q <;> simp [h]
  · simp [h]

theorem sgn_remove (n : Occ ι) (p : ι) (hp : n p = true) : sgn σ n = σ p * sgn σ (Function.update n p false) := by
  unfold sgn
  rw [← Finset.mul_prod_erase Finset.univ _ (Finset.mem_univ p),
    ← Finset.mul_prod_erase Finset.univ (fun q => if Function.update n p false q = true then σ q else 1) (Finset.mem_univ p)]
  simp only [hp, if_true, Function.update_self, Bool.false_eq_true, if_false, one_mul]
  congr 1
  refine Finset.prod_congr rfl fun q hq => ?_
  rw [Function.update_of_ne (Finset.ne_of_mem_erase hq)]

/-- the operator -/
def mapS : SMap ι := fun n => some (sgn σ n, flip S n)

def V : Matrix (Occ ι) (Occ ι) ℤ := (mapS S σ).mat

theorem V_apply (n' n : Occ ι) : V S σ n' n = if n' = flip S n then sgn σ n else 0 := rfl

/-- the factor an operator of a mode gets -/
def fac (p : ι) : ℤ := σ p * count S p

variable {S σ} (hσ : ∀ p, σ p * σ p = 1)
include hσ

theorem V_ann (p : ι) : V S σ * ann p = fac S σ p • ((if S p then cre p else ann p) * V S σ) := by
  ext n' n
  rw [Matrix.smul_apply, smul_eq_mul]
  have h1 : (V S σ * ann p) n' n = ((mapS S σ).comp (annS p)).mat n' n := by rw [ann_eq, V, SMap.mat_comp]
  rw [h1]
  by_cases hS : S p = true
  · have h2 : ((if S p then cre p else ann p) * V S σ) n' n = ((creS p).comp (mapS S σ)).mat n' n := by
      rw [if_pos hS, cre_eq, V, SMap.mat_comp]
    rw [h2]
    unfold SMap.mat SMap.comp annS creS mapS
    have hf : flip S n p = !(n p) := by simp [flip, hS]
    by_cases hp : n p = true
    · simp only [hp, if_true, hf, flip_update, hS, Bool.not_true, Bool.false_eq_true, if_false, Bool.false_xor]
      by_cases hn : n' = Function.update (flip S n) p true
      · rw [if_pos hn, if_pos hn, jwSign_flip, sgn_remove σ n p hp]
        unfold fac
        have hc : count S p * count S p = 1 := by
          unfold count
          rw [← Finset.prod_mul_distrib]
          exact Finset.prod_eq_one fun q _ => by split_ifs <;> norm_num
        linear_combination (-(sgn σ (Function.update n p false) * jwSign p n) * (σ p * σ p)) * hc - (sgn σ (Function.update n p false) * jwSign p n) * hσ p
      · rw [if_neg hn, if_neg hn, mul_zero]
    · have hp' : n p = false := by simpa using hp
      simp [hp', hf]
  · have hS' : S p = false := by simpa using hS
    have h2 : ((if S p then cre p else ann p) * V S σ) n' n = ((annS p).comp (mapS S σ)).mat n' n := by
      rw [if_neg hS, ann_eq, V, SMap.mat_comp]
    rw [h2]
    unfold SMap.mat SMap.comp annS mapS
    have hf : flip S n p = n p := by simp [flip, hS']
    by_cases hp : n p = true
    · simp only [hp, if_true, hf, flip_update, hS', Bool.xor_false]
      by_cases hn : n' = Function.update (flip S n) p false
      · rw [if_pos hn, if_pos hn, jwSign_flip, sgn_remove σ n p hp]
        unfold fac
        have hc : count S p * count S p = 1 := by
          unfold count
          rw [← Finset.prod_mul_distrib]
          exact Finset.prod_eq_one fun q _ => by split_ifs <;> norm_num
        linear_combination (-(sgn σ (Function.update n p false) * jwSign p n) * (σ p * σ p)) * hc - (sgn σ (Function.update n p false) * jwSign p n) * hσ p
      · rw [if_neg hn, if_neg hn, mul_zero]
    · have hp' : n p = false := by simpa using hp
      simp [hp', hf]

theorem V_cre (p : ι) : V S σ * cre p = fac S σ p • ((if S p then ann p else cre p) * V S σ) := by
  ext n' n
  rw [Matrix.smul_apply, smul_eq_mul]
  have h1 : (V S σ * cre p) n' n = ((mapS S σ).comp (creS p)).mat n' n := by rw [cre_eq, V, SMap.mat_comp]
  rw [h1]
  have hr : ∀ n : Occ ι, n p = false → sgn σ (Function.update n p true) = σ p * sgn σ n := by
    intro n hn
    rw [sgn_remove σ _ p (by simp), Function.update_idem, upd_self hn]
  by_cases hS : S p = true
  · have h2 : ((if S p then ann p else cre p) * V S σ) n' n = ((annS p).comp (mapS S σ)).mat n' n := by
      rw [if_pos hS, ann_eq, V, SMap.mat_comp]
    rw [h2]
    unfold SMap.mat SMap.comp annS creS mapS
    have hf : flip S n p = !(n p) := by simp [flip, hS]
    by_cases hp : n p = true
    · simp [hp, hf]
    · have hp' : n p = false := by simpa using hp
      simp only [hp', hf, flip_update, hS, Bool.not_false, Bool.false_eq_true, if_true, if_false, Bool.true_xor, Bool.not_true]
      by_cases hn : n' = Function.update (flip S n) p false
      · rw [if_pos hn, if_pos hn, jwSign_flip, hr n hp']
        unfold fac
        have hc : count S p * count S p = 1 := by
          unfold count
          rw [← Finset.prod_mul_distrib]
          exact Finset.prod_eq_one fun q _ => by split_ifs <;> norm_num
        linear_combination (-(sgn σ n * jwSign p n) * σ p) * hc
      · rw [if_neg hn, if_neg hn, mul_zero]
  · have hS' : S p = false := by simpa using hS
    have h2 : ((if S p then ann p else cre p) * V S σ) n' n = ((creS p).comp (mapS S σ)).mat n' n := by
      rw [if_neg hS, cre_eq, V, SMap.mat_comp]
    rw [h2]
    unfold SMap.mat SMap.comp creS mapS
    have hf : flip S n p = n p := by simp [flip, hS']
    by_cases hp : n p = true
    · simp [hp, hf]
    · have hp' : n p = false := by simpa using hp
      simp only [hp', hf, flip_update, hS', Bool.false_eq_true, if_false, Bool.xor_false]
      by_cases hn : n' = Function.update (flip S n) p true
      · rw [if_pos hn, if_pos hn, jwSign_flip, hr n hp']
        unfold fac
        have hc : count S p * count S p = 1 := by
          unfold count
          rw [← Finset.prod_mul_distrib]
          exact Finset.prod_eq_one fun q _ => by split_ifs <;> norm_num
        linear_combination (-(sgn σ n * jwSign p n) * σ p) * hc
      · rw [if_neg hn, if_neg hn, mul_zero]

/-- hops in the set go the other way, with a minus sign -/
theorem V_hop {p q : ι} (hpq : p ≠ q) (hS : S p = S q) : V S σ * (cre p * ann q) =
    (fac S σ p * fac S σ q * if S p then -1 else 1) • ((if S p then cre q * ann p else cre p * ann q) * V S σ) := by
  rw [← mul_assoc, V_cre hσ, Matrix.smul_mul, mul_assoc, V_ann hσ, Matrix.mul_smul, smul_smul, ← mul_assoc, ← hS]
  by_cases h : S p = true
  · simp only [h, if_true]
    have := car_ann_cre hpq
    rw [show ann p * cre q = -(cre q * ann p) from eq_neg_of_add_eq_zero_left this]
    rw [neg_mul, smul_neg, mul_neg, mul_one, neg_smul]
  · simp only [h, if_false, mul_one]
    simp

end GPSKet.Spec.ParticleHole
