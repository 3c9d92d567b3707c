import Verif.Props.AsepSpectrum
import Verif.Spec.Rayleigh
import Mathlib.Tactic.LinearCombination
import Mathlib.Algebra.BigOperators.Field

/-! # Lemmas for C181: quadratic forms of matrices with positive eigenvectors, rows and columns of the generator -/

namespace GPSKet.AsepMaximum
open GPSKet.Spec GPSKet.Asep GPSKet.AsepSpectrum

section Forms
variable {C : Type} [Fintype C]

/-- If a positive right eigenvector is not a left eigenvector, some positive vector has a larger quotient. -/
theorem improve (A : C → C → ℝ) (theta : ℝ) (v : C → ℝ) (hv : ∀ x, 0 < v x) (hr : ∀ x, ∑ y, A x y * v y = theta * v x)
    (hl : ¬ ∀ y, ∑ x, v x * A x y = theta * v y) :
    ∃ psi : C → ℝ, (∀ x, 0 < psi x) ∧ theta * ∑ x, psi x ^ 2 < ∑ x, ∑ y, psi x * A x y * psi y := by
  classical
  set g : C → ℝ := fun y => ∑ x, v x * A x y - theta * v y with hg
  obtain ⟨y0, hy0⟩ : ∃ y, g y ≠ 0 := by
    by_contra h
    push Not at h
    exact hl fun y => sub_eq_zero.mp (h y)
  set b := ∑ y, g y ^ 2 with hb
  have hbpos : 0 < b := Finset.sum_pos' (fun y _ => sq_nonneg _) ⟨y0, Finset.mem_univ y0, by positivity⟩
  set a := ∑ x, ∑ y, g x * A x y * g y - theta * ∑ x, g x ^ 2 with ha
  -- the form along the line
  have hform : ∀ t : ℝ, ∑ x, ∑ y, (v x + t * g x) * A x y * (v y + t * g y) - theta * ∑ x, (v x + t * g x) ^ 2
      = t * b + t ^ 2 * a := by
    intro t
    have e1 : ∑ x, ∑ y, (v x + t * g x) * A x y * (v y + t * g y)
        = ∑ x, (v x * ∑ y, A x y * v y) + t * ∑ y, (∑ x, v x * A x y) * g y + t * ∑ x, g x * ∑ y, A x y * v y
          + t ^ 2 * ∑ x, ∑ y, g x * A x y * g y := by
      have e2 : ∑ y, (∑ x, v x * A x y) * g y = ∑ x, ∑ y, v x * A x y * g y := by
        simp only [Finset.sum_mul]
        rw [Finset.sum_comm]
      rw [e2]
      simp only [Finset.mul_sum]
      rw [← Finset.sum_add_distrib, ← Finset.sum_add_distrib, ← Finset.sum_add_distrib]
      refine Finset.sum_congr rfl fun x _ => ?_
      rw [← Finset.sum_add_distrib, ← Finset.sum_add_distrib, ← Finset.sum_add_distrib]
      refine Finset.sum_congr rfl fun y _ => ?_
      ring
    have e3 : ∀ y, ∑ x, v x * A x y = g y + theta * v y := fun y => by simp only [hg]; ring
    rw [e1, ha, hb]
    simp only [hr, e3, Finset.mul_sum, mul_sub]
    have e4 : ∑ x, v x * (theta * v x) + ∑ x, t * ((g x + theta * v x) * g x) + ∑ x, t * (g x * (theta * v x))
        + ∑ x, t ^ 2 * (theta * g x ^ 2) = ∑ x, theta * (v x + t * g x) ^ 2 + ∑ x, t * g x ^ 2 := by
      simp only [← Finset.sum_add_distrib]
      exact Finset.sum_congr rfl fun x _ => by ring
    linarith
  obtain ⟨x1, -, hx1⟩ := Finset.exists_min_image Finset.univ v ⟨y0, Finset.mem_univ y0⟩
  obtain ⟨x2, -, hx2⟩ := Finset.exists_max_image Finset.univ (fun x => |g x|) ⟨y0, Finset.mem_univ y0⟩
  set t := min (v x1 / (2 * (|g x2| + 1))) (b / (2 * (|a| + 1))) with ht
  have htpos : 0 < t := lt_min (div_pos (hv x1) (by positivity)) (div_pos hbpos (by positivity))
  refine ⟨fun x => v x + t * g x, fun x => ?_, ?_⟩
  · have h1 : t * |g x| ≤ v x1 / 2 := by
      calc t * |g x| ≤ t * (|g x2| + 1) := mul_le_mul_of_nonneg_left ((hx2 x (Finset.mem_univ x)).trans (by linarith)) htpos.le
        _ ≤ v x1 / (2 * (|g x2| + 1)) * (|g x2| + 1) := mul_le_mul_of_nonneg_right (min_le_left _ _) (by positivity)
        _ = v x1 / 2 := by field_simp
    have h2 : -(t * |g x|) ≤ t * g x := by
      rw [← mul_neg]
      exact mul_le_mul_of_nonneg_left (neg_abs_le _) htpos.le
    have h3 := hx1 x (Finset.mem_univ x)
    have h4 := hv x1
    linarith
  · have h1 : t * |a| ≤ b / 2 := by
      calc t * |a| ≤ t * (|a| + 1) := mul_le_mul_of_nonneg_left (by linarith) htpos.le
        _ ≤ b / (2 * (|a| + 1)) * (|a| + 1) := mul_le_mul_of_nonneg_right (min_le_right _ _) (by positivity)
        _ = b / 2 := by field_simp
    have h2 : -(t * |a|) ≤ t * a := by
      rw [← mul_neg]
      exact mul_le_mul_of_nonneg_left (neg_abs_le _) htpos.le
    have h3 : 0 < t * b + t ^ 2 * a := by
      rw [show t * b + t ^ 2 * a = t * (b + t * a) by ring]
      exact mul_pos htpos (by linarith)
    have := hform t
    linarith

/-- If a positive vector is an eigenvector from both sides and the matrix is nonnegative off the diagonal, no vector has a larger quotient. -/
theorem bounded (A : C → C → ℝ) (hA : ∀ x y, x ≠ y → 0 ≤ A x y) (theta : ℝ) (v : C → ℝ) (hv : ∀ x, 0 < v x)
    (hr : ∀ x, ∑ y, A x y * v y = theta * v x) (hl : ∀ y, ∑ x, v x * A x y = theta * v y) (phi : C → ℂ) :
    (∑ x, ∑ y, (starRingEnd ℂ) (phi x) * (A x y : ℂ) * phi y).re ≤ theta * ∑ x, ‖phi x‖ ^ 2 := by
  have hterm : ∀ x y, ((starRingEnd ℂ) (phi x) * (A x y : ℂ) * phi y).re ≤
      (‖phi x‖ ^ 2 / v x) * (A x y * v y) / 2 + (‖phi y‖ ^ 2 / v y) * (v x * A x y) / 2 := by
    intro x y
    by_cases hxy : x = y
    · subst hxy
      have e : (starRingEnd ℂ) (phi x) * (A x x : ℂ) * phi x = ((A x x * ‖phi x‖ ^ 2 : ℝ) : ℂ) := by
        rw [mul_right_comm, Complex.conj_mul']
        push_cast
        ring
      rw [e, Complex.ofReal_re]
      have := (hv x).ne'
      refine le_of_eq ?_
      field_simp
      ring
    · have h0 := hA x y hxy
      have h1 : ((starRingEnd ℂ) (phi x) * (A x y : ℂ) * phi y).re ≤ A x y * (‖phi x‖ * ‖phi y‖) := by
        refine (Complex.re_le_norm _).trans (le_of_eq ?_)
        rw [norm_mul, norm_mul, RCLike.norm_conj, Complex.norm_real, Real.norm_of_nonneg h0]
        ring
      refine h1.trans ?_
      have hx := hv x
      have hy := hv y
      have h2 : ‖phi x‖ * ‖phi y‖ ≤ ‖phi x‖ ^ 2 / v x * v y / 2 + ‖phi y‖ ^ 2 / v y * v x / 2 := by
        rw [div_mul_eq_mul_div, div_mul_eq_mul_div, div_div, div_div, div_add_div _ _ (by positivity) (by positivity), le_div_iff₀ (by positivity)]
        nlinarith [sq_nonneg (‖phi x‖ * v y - ‖phi y‖ * v x)]
      calc A x y * (‖phi x‖ * ‖phi y‖) ≤ A x y * (‖phi x‖ ^ 2 / v x * v y / 2 + ‖phi y‖ ^ 2 / v y * v x / 2) :=
            mul_le_mul_of_nonneg_left h2 h0
        _ = _ := by ring
  rw [Complex.re_sum]
  simp only [Complex.re_sum]
  calc ∑ x, ∑ y, ((starRingEnd ℂ) (phi x) * (A x y : ℂ) * phi y).re
      ≤ ∑ x, ∑ y, ((‖phi x‖ ^ 2 / v x) * (A x y * v y) / 2 + (‖phi y‖ ^ 2 / v y) * (v x * A x y) / 2) :=
        Finset.sum_le_sum fun x _ => Finset.sum_le_sum fun y _ => hterm x y
    _ = ∑ x, (‖phi x‖ ^ 2 / v x) * (∑ y, A x y * v y) / 2 + ∑ y, (‖phi y‖ ^ 2 / v y) * (∑ x, v x * A x y) / 2 := by
        simp only [Finset.sum_add_distrib]
        congr 1
        · refine Finset.sum_congr rfl fun x _ => ?_
          rw [← Finset.sum_div, Finset.mul_sum]
        · rw [Finset.sum_comm]
          refine Finset.sum_congr rfl fun y _ => ?_
          rw [← Finset.sum_div, Finset.mul_sum]
    _ = theta * ∑ x, ‖phi x‖ ^ 2 := by
        simp only [hr, hl]
        rw [← Finset.sum_add_distrib, Finset.mul_sum]
        refine Finset.sum_congr rfl fun x _ => ?_
        have := (hv x).ne'
        field_simp
        ring

end Forms

variable {n : ℕ}

/-- A row of the generator applied to a function: a sum over the moves out of `x`. -/
theorem row_sum (r : AsepRates) (f : Chain n → ℝ) (x : Chain n) :
    ∑ y, asepGenerator r x y * f y =
      ∑ m : AsepMove n, if m.enabled x then weight r m * f (m.target x) - m.rate r * f x else 0 := by
  unfold asepGenerator
  simp only [Finset.sum_mul]
  rw [Finset.sum_comm]
  refine Finset.sum_congr rfl fun m _ => ?_
  by_cases h : m.enabled x
  · simp [h, sub_mul, Finset.sum_sub_distrib, weight]
  · simp [h]

/-- A column: a sum over the reversed moves. -/
theorem column_sum (r : AsepRates) (u : Chain n → ℝ) (y : Chain n) :
    ∑ x, u x * asepGenerator r x y =
      ∑ m : AsepMove n, if m.enabled y then weight r (rev m) * u (m.target y) - m.rate r * u y else 0 := by
  have h1 : ∀ x, u x * asepGenerator r x y =
      ∑ m : AsepMove n, ((if m.enabled x ∧ m.target x = y then weight r m * u x else 0) -
        if m.enabled x ∧ x = y then m.rate r * u x else 0) := by
    intro x
    unfold asepGenerator
    rw [Finset.mul_sum]
    refine Finset.sum_congr rfl fun m _ => ?_
    simp only [weight]
    split_ifs <;> first | ring1 | (exfalso; tauto)
  simp only [h1]
  rw [Finset.sum_comm]
  simp only [Finset.sum_sub_distrib]
  have h2 : ∑ m : AsepMove n, ∑ x, (if m.enabled x ∧ m.target x = y then weight r m * u x else 0)
      = ∑ m : AsepMove n, if m.enabled y then weight r (rev m) * u (m.target y) else 0 := by
    refine Finset.sum_equiv ⟨rev, rev, rev_rev, rev_rev⟩ (by simp) ?_
    intro m _
    change _ = if (rev m).enabled y then weight r (rev (rev m)) * u ((rev m).target y) else 0
    rw [rev_rev]
    have h3 : ∀ x, (m.enabled x ∧ m.target x = y) ↔ ((rev m).enabled y ∧ (rev m).target y = x) := by
      intro x
      constructor
      · exact rev_spec
      · intro h
        have := rev_spec h
        rwa [rev_rev] at this
    simp only [h3]
    by_cases h : (rev m).enabled y
    · simp [h]
    · simp [h]
  rw [h2, ← Finset.sum_sub_distrib]
  refine Finset.sum_congr rfl fun m _ => ?_
  have h4 : ∑ x, (if m.enabled x ∧ x = y then m.rate r * u x else 0) = if m.enabled y then m.rate r * u y else 0 := by
    rw [Finset.sum_eq_single y]
    · simp
    · intro x _ hx
      simp [hx]
    · simp
  rw [h4]
  by_cases h : m.enabled y <;> simp [h]

end GPSKet.AsepMaximum
