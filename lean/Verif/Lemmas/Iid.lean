import Mathlib.Analysis.Complex.Norm
import Mathlib.Algebra.BigOperators.Field
import Mathlib.Data.Fintype.BigOperators
import Mathlib.Data.Complex.BigOperators

/-! # Averages over independent draws from a finite law -/

namespace GPSKet.Iid

variable {κ X : Type} [Fintype κ] [DecidableEq κ] [Fintype X]

theorem expect_prod (p : X → ℝ) (h : κ → X → ℂ) : ∑ xs : κ → X, (∏ b, (p (xs b) : ℂ)) * ∏ b, h b (xs b) = ∏ b, ∑ x, (p x : ℂ) * h b x := by
  rw [Finset.prod_univ_sum, Fintype.piFinset_univ]
  exact Finset.sum_congr rfl fun xs _ => (Finset.prod_mul_distrib).symm

theorem expect_one (p : X → ℝ) (hp : ∑ x, p x = 1) (h : X → ℂ) (b : κ) :
    ∑ xs : κ → X, (∏ c, (p (xs c) : ℂ)) * h (xs b) = ∑ x, (p x : ℂ) * h x := by
  have := expect_prod (κ := κ) p fun c x => if c = b then h x else 1
  simp only [Finset.prod_ite_eq', Finset.mem_univ, if_true] at this
  rw [this, Finset.prod_eq_single b]
  · simp
  · intro c _ hc
    simp only [hc, if_false, mul_one]
    exact_mod_cast hp
  · simp

theorem expect_two (p : X → ℝ) (hp : ∑ x, p x = 1) (g h : X → ℂ) {b c : κ} (hbc : b ≠ c) :
    ∑ xs : κ → X, (∏ d, (p (xs d) : ℂ)) * (g (xs b) * h (xs c)) = (∑ x, (p x : ℂ) * g x) * ∑ x, (p x : ℂ) * h x := by
  have := expect_prod (κ := κ) p fun d x => (if d = b then g x else 1) * (if d = c then h x else 1)
  simp only [Finset.prod_mul_distrib, Finset.prod_ite_eq', Finset.mem_univ, if_true] at this
  rw [this, ← Finset.mul_prod_erase Finset.univ _ (Finset.mem_univ b),
    ← Finset.mul_prod_erase (Finset.univ.erase b) _ (Finset.mem_erase.mpr ⟨hbc.symm, Finset.mem_univ c⟩)]
  simp only [if_true, if_neg hbc, mul_one, if_neg hbc.symm, one_mul]
  rw [← mul_assoc, Finset.prod_eq_one, mul_one]
  intro d hd
  rw [Finset.mem_erase, Finset.mem_erase] at hd
  simp only [hd.1, hd.2.1, if_false, mul_one]
  exact_mod_cast hp

/-- The mean of the average is the mean. -/
theorem mean_average [Nonempty κ] (p : X → ℝ) (hp : ∑ x, p x = 1) (f : X → ℂ) :
    ∑ xs : κ → X, (∏ b, (p (xs b) : ℂ)) * ((∑ b, f (xs b)) / (Fintype.card κ : ℂ)) = ∑ x, (p x : ℂ) * f x := by
  simp only [← mul_div_assoc, ← Finset.sum_div, Finset.mul_sum]
  rw [Finset.sum_comm]
  simp only [expect_one p hp f]
  rw [Finset.sum_const, Finset.card_univ, nsmul_eq_mul]
  exact mul_div_cancel_left₀ _ (by exact_mod_cast Fintype.card_ne_zero)

/-- The mean squared error of the average is the variance divided by the number of draws. -/
theorem mse_average [Nonempty κ] (p : X → ℝ) (hp : ∑ x, p x = 1) (f : X → ℂ) (mu : ℂ) (hmu : mu = ∑ x, (p x : ℂ) * f x) :
    ∑ xs : κ → X, (∏ b, p (xs b)) * ‖(∑ b, f (xs b)) / (Fintype.card κ : ℂ) - mu‖ ^ 2 =
      (∑ x, p x * ‖f x - mu‖ ^ 2) / Fintype.card κ := by
  have hcard : (Fintype.card κ : ℂ) ≠ 0 := by exact_mod_cast Fintype.card_ne_zero
  set g : X → ℂ := fun x => f x - mu with hg
  have hg0 : ∑ x, (p x : ℂ) * g x = 0 := by
    simp only [hg, mul_sub, Finset.sum_sub_distrib, ← Finset.sum_mul]
    rw [← hmu]
    have : (∑ x, (p x : ℂ)) = 1 := by exact_mod_cast hp
    rw [this, one_mul, sub_self]
  have hd : ∀ xs : κ → X, (∑ b, f (xs b)) / (Fintype.card κ : ℂ) - mu = (∑ b, g (xs b)) / (Fintype.card κ : ℂ) := by
    intro xs
    simp only [hg, Finset.sum_sub_distrib, Finset.sum_const, Finset.card_univ, nsmul_eq_mul]
    field_simp
  have hsq : ∀ z : ℂ, ((‖z‖ ^ 2 : ℝ) : ℂ) = z * (starRingEnd ℂ) z := by
    intro z
    rw [Complex.mul_conj, Complex.normSq_eq_norm_sq]
  rw [← Complex.ofReal_inj]
  push_cast
  simp only [hd]
  have h1 : ∀ xs : κ → X, ((‖(∑ b, g (xs b)) / (Fintype.card κ : ℂ)‖ : ℂ)) ^ 2 =
      (∑ b, ∑ c, g (xs b) * (starRingEnd ℂ) (g (xs c))) / ((Fintype.card κ : ℂ) * (Fintype.card κ : ℂ)) := by
    intro xs
    have := hsq ((∑ b, g (xs b)) / (Fintype.card κ : ℂ))
    push_cast at this
    rw [this, map_div₀, map_sum, Complex.conj_natCast, div_mul_div_comm, Finset.sum_mul_sum]
  simp only [h1, ← mul_div_assoc, ← Finset.sum_div]
  simp only [Finset.mul_sum]
  rw [Finset.sum_comm]
  have h2 : ∀ b : κ, ∑ xs : κ → X, ∑ c, (∏ d, (p (xs d) : ℂ)) * (g (xs b) * (starRingEnd ℂ) (g (xs c))) =
      ∑ x, (p x : ℂ) * (g x * (starRingEnd ℂ) (g x)) := by
    intro b
    rw [Finset.sum_comm, Finset.sum_eq_single b]
    · exact expect_one p hp (fun x => g x * (starRingEnd ℂ) (g x)) b
    · intro c _ hc
      rw [expect_two p hp g (fun x => (starRingEnd ℂ) (g x)) hc.symm, hg0, zero_mul]
    · simp
  simp only [h2]
  rw [Finset.sum_const, Finset.card_univ, nsmul_eq_mul, mul_div_mul_left _ _ hcard]
  congr 1
  refine Finset.sum_congr rfl fun x _ => ?_
  have := hsq (g x)
  push_cast at this
  rw [this]

/-- The mean of the product of two averages. -/
theorem mean_product [Nonempty κ] (p : X → ℝ) (hp : ∑ x, p x = 1) (f g : X → ℂ) :
    ∑ xs : κ → X, (∏ b, (p (xs b) : ℂ)) * (((∑ b, f (xs b)) / (Fintype.card κ : ℂ)) * ((∑ b, g (xs b)) / (Fintype.card κ : ℂ))) =
      ((∑ x, (p x : ℂ) * (f x * g x)) + ((Fintype.card κ : ℂ) - 1) * ((∑ x, (p x : ℂ) * f x) * ∑ x, (p x : ℂ) * g x)) / (Fintype.card κ : ℂ) := by
  have hcard : (Fintype.card κ : ℂ) ≠ 0 := by exact_mod_cast Fintype.card_ne_zero
  have h1 : ∀ xs : κ → X, ((∑ b, f (xs b)) / (Fintype.card κ : ℂ)) * ((∑ b, g (xs b)) / (Fintype.card κ : ℂ)) =
      (∑ b, ∑ c, f (xs b) * g (xs c)) / ((Fintype.card κ : ℂ) * (Fintype.card κ : ℂ)) := by
    intro xs
    rw [div_mul_div_comm, Finset.sum_mul_sum]
  simp only [h1, ← mul_div_assoc, ← Finset.sum_div]
  simp only [Finset.mul_sum]
  rw [Finset.sum_comm]
  have h2 : ∀ b : κ, ∑ xs : κ → X, ∑ c, (∏ d, (p (xs d) : ℂ)) * (f (xs b) * g (xs c)) =
      (∑ x, (p x : ℂ) * (f x * g x)) + ((Fintype.card κ : ℂ) - 1) * ((∑ x, (p x : ℂ) * f x) * ∑ x, (p x : ℂ) * g x) := by
    intro b
    rw [Finset.sum_comm, ← Finset.add_sum_erase _ _ (Finset.mem_univ b), expect_one p hp (fun x => f x * g x) b]
    congr 1
    rw [Finset.sum_congr rfl fun c hc => expect_two p hp f g (Finset.ne_of_mem_erase hc).symm, Finset.sum_const,
      Finset.card_erase_of_mem (Finset.mem_univ b), Finset.card_univ, nsmul_eq_mul, Nat.cast_sub Fintype.card_pos, Nat.cast_one]
  rw [Finset.sum_congr rfl fun b _ => h2 b, Finset.sum_const, Finset.card_univ, nsmul_eq_mul, mul_div_mul_left _ _ hcard]
  simp only [Finset.mul_sum]

end GPSKet.Iid
