import Verif.Spec.Markov
import Mathlib.Analysis.SpecificLimits.Basic
import Mathlib.Algebra.BigOperators.Field
import Mathlib.Algebra.Order.BigOperators.Group.Finset
import Mathlib.Tactic.Positivity
import Mathlib.Tactic.FieldSimp
import Mathlib.Tactic.Linarith
import Mathlib.Tactic.LinearCombination

/-! # Finite Markov chains: uniqueness of the invariant law and convergence to it -/

namespace GPSKet.Spec.Markov
open Filter

variable {α : Type} [Fintype α] [DecidableEq α] {P : Matrix α α ℝ} {w : α → ℝ}

theorem pow_kernel (h : IsKernel P) (n : ℕ) : IsKernel (P ^ n) := by
  induction n with
  | zero =>
    refine ⟨fun x y => ?_, fun x => ?_⟩
    · rw [pow_zero, Matrix.one_apply]; split_ifs <;> norm_num
    · simp [Matrix.one_apply]
  | succ n ih =>
    refine ⟨fun x y => ?_, fun x => ?_⟩
    · rw [pow_succ, Matrix.mul_apply]
      exact Finset.sum_nonneg fun z _ => mul_nonneg (ih.nonneg _ _) (h.nonneg _ _)
    · rw [pow_succ]
      simp only [Matrix.mul_apply]
      rw [Finset.sum_comm]
      simp only [← Finset.mul_sum, h.sum, mul_one, ih.sum]

theorem pow_add_pos (h : IsKernel P) {m n : ℕ} {x y z : α} (h1 : 0 < (P ^ m) x y) (h2 : 0 < (P ^ n) y z) :
    0 < (P ^ (m + n)) x z := by
  rw [pow_add, Matrix.mul_apply]
  exact Finset.sum_pos' (fun v _ => mul_nonneg ((pow_kernel h m).nonneg _ _) ((pow_kernel h n).nonneg _ _))
    ⟨y, Finset.mem_univ y, mul_pos h1 h2⟩

/-- Steps of positive probability add up. -/
theorem reach_pow (h : IsKernel P) {x y : α} (hr : Relation.ReflTransGen (fun x y => 0 < P x y) x y) :
    ∃ n, 0 < (P ^ n) x y := by
  induction hr with
  | refl => exact ⟨0, by simp⟩
  | tail _ hs ih =>
    obtain ⟨n, hn⟩ := ih
    exact ⟨n + 1, pow_add_pos h hn (by simpa using hs)⟩

theorem pow_invariant (hw : Invariant P w) (n : ℕ) : Invariant (P ^ n) w := by
  induction n with
  | zero => intro y; simp [Matrix.one_apply]
  | succ n ih =>
    intro y
    rw [pow_succ]
    simp only [Matrix.mul_apply, Finset.mul_sum]
    rw [Finset.sum_comm]
    simp only [← mul_assoc, ← Finset.sum_mul]
    simp only [ih _]
    exact hw y

omit [DecidableEq α] in
theorem invariant_of_reversible (h : IsKernel P) (hr : ∀ x y, w x * P x y = w y * P y x) : Invariant P w := by
  intro y
  simp only [hr _ y, ← Finset.mul_sum, h.sum, mul_one]

/-- In an irreducible reversible chain all invariant weights are proportional. -/
theorem unique (h : IsKernel P) (hr : ∀ x y, w x * P x y = w y * P y x) (hw : ∀ x, 0 < w x)
    (hc : Irreducible P) {μ : α → ℝ} (hμ : Invariant P μ) (x y : α) : μ x * w y = μ y * w x := by
  have harm : ∀ x, ∑ y, P x y * (μ y / w y) = μ x / w x := by
    intro x
    rw [← hμ x, Finset.sum_div]
    apply Finset.sum_congr rfl
    intro y _
    have h1 := (hw x).ne'
    have h2 := (hw y).ne'
    have := hr x y
    field_simp
    linear_combination μ y * this
  have harmn : ∀ n x, ∑ y, (P ^ n) x y * (μ y / w y) = μ x / w x := by
    intro n
    induction n with
    | zero => intro x; simp [Matrix.one_apply]
    | succ n ih =>
      intro x
      rw [pow_succ']
      simp only [Matrix.mul_apply, Finset.sum_mul]
      rw [Finset.sum_comm]
      simp only [mul_assoc, ← Finset.mul_sum, ih]
      exact harm x
  obtain ⟨x0, _, hx0⟩ := Finset.exists_max_image Finset.univ (fun x => μ x / w x) ⟨x, Finset.mem_univ x⟩
  have const : ∀ y, μ y / w y = μ x0 / w x0 := by
    intro y
    obtain ⟨n, hn⟩ := hc x0 y
    have hk := pow_kernel h n
    have hz : ∑ y, (P ^ n) x0 y * (μ x0 / w x0 - μ y / w y) = 0 := by
      simp only [mul_sub, Finset.sum_sub_distrib, harmn, ← Finset.sum_mul, hk.sum]
      ring
    have := (Finset.sum_eq_zero_iff_of_nonneg (fun y _ =>
      mul_nonneg (hk.nonneg x0 y) (sub_nonneg.mpr (hx0 y (Finset.mem_univ y))))).mp hz y (Finset.mem_univ y)
    rcases mul_eq_zero.mp this with h0 | h0
    · exact absurd h0 hn.ne'
    · linarith
  have e := (const x).trans (const y).symm
  rw [div_eq_div_iff (hw x).ne' (hw y).ne'] at e
  exact e

omit [DecidableEq α] in
/-- A kernel bounded below by `δ` contracts differences. -/
theorem contract (h : IsKernel P) {δ : ℝ} (hδ : ∀ x y, δ ≤ P x y) (f : α → ℝ) {D : ℝ} (hD : ∀ x y, f x - f y ≤ D)
    (hδ1 : δ ≤ 1) (x y : α) : ∑ z, P x z * f z - ∑ z, P y z * f z ≤ (1 - δ) * D := by
  obtain ⟨M, _, hM⟩ := Finset.exists_max_image Finset.univ f ⟨x, Finset.mem_univ x⟩
  obtain ⟨m, _, hm⟩ := Finset.exists_min_image Finset.univ f ⟨x, Finset.mem_univ x⟩
  have h1 : δ * (f M - f m) ≤ ∑ z, P x z * (f M - f z) := by
    calc δ * (f M - f m) ≤ P x m * (f M - f m) :=
          mul_le_mul_of_nonneg_right (hδ x m) (sub_nonneg.mpr (hM m (Finset.mem_univ m)))
      _ ≤ _ := Finset.single_le_sum (f := fun z => P x z * (f M - f z))
          (fun z _ => mul_nonneg (h.nonneg _ _) (sub_nonneg.mpr (hM z (Finset.mem_univ z)))) (Finset.mem_univ m)
  have h2 : 0 ≤ ∑ z, P y z * (f z - f m) :=
    Finset.sum_nonneg fun z _ => mul_nonneg (h.nonneg _ _) (sub_nonneg.mpr (hm z (Finset.mem_univ z)))
  simp only [mul_sub, Finset.sum_sub_distrib, ← Finset.sum_mul, h.sum, one_mul] at h1 h2
  have h3 := mul_le_mul_of_nonneg_left (hD M m) (sub_nonneg.mpr hδ1)
  nlinarith [h3]

/-- If from every state every state is reached in exactly `N` steps, the chain converges to its invariant law. -/
theorem converges (h : IsKernel P) (hi : Invariant P w) (hw : ∀ x, 0 < w x) (N : ℕ) (hN : ∀ x y, 0 < (P ^ N) x y) :
    Converges P w := by
  intro x y
  have hk := pow_kernel h
  -- a positive lower bound
  obtain ⟨δ, hδ0, hδ1, hδ⟩ : ∃ δ : ℝ, 0 < δ ∧ δ ≤ 1 ∧ ∀ x y, δ ≤ (P ^ N) x y := by
    obtain ⟨p, _, hp⟩ := Finset.exists_min_image (Finset.univ : Finset (α × α)) (fun p => (P ^ N) p.1 p.2)
      ⟨(x, y), Finset.mem_univ _⟩
    refine ⟨(P ^ N) p.1 p.2, hN _ _, ?_, fun a b => hp (a, b) (Finset.mem_univ _)⟩
    rw [← (hk N).sum p.1]
    exact Finset.single_le_sum (f := fun z => (P ^ N) p.1 z) (fun z _ => (hk N).nonneg _ _) (Finset.mem_univ _)
  have key : ∀ (f : α → ℝ) (D : ℝ), (∀ a b, f a - f b ≤ D) → ∀ k a b,
      ∑ z, ((P ^ N) ^ k) a z * f z - ∑ z, ((P ^ N) ^ k) b z * f z ≤ (1 - δ) ^ k * D := by
    intro f D hD k
    induction k with
    | zero => intro a b; simpa [Matrix.one_apply] using hD a b
    | succ k ih =>
      intro a b
      have := contract (hk N) hδ (fun z => ∑ u, ((P ^ N) ^ k) z u * f u) ih hδ1 a b
      rw [pow_succ' (P ^ N), pow_succ' (1 - δ), mul_assoc]
      simp only [Matrix.mul_apply, Finset.sum_mul]
      rw [Finset.sum_comm, Finset.sum_comm (s := Finset.univ (α := α)) (f := fun u z => (P ^ N) b z * ((P ^ N) ^ k) z u * f u)]
      simp only [mul_assoc, ← Finset.mul_sum]
      exact this
  have diff : ∀ n a b, (P ^ n) a y - (P ^ n) b y ≤ (1 - δ) ^ (n / N) := by
    intro n a b
    have hD : ∀ a b, (P ^ (n % N)) a y - (P ^ (n % N)) b y ≤ 1 := by
      intro a b
      have h1 := (hk (n % N)).nonneg b y
      have h2 : (P ^ (n % N)) a y ≤ 1 := by
        rw [← (hk (n % N)).sum a]
        exact Finset.single_le_sum (f := fun z => (P ^ (n % N)) a z) (fun z _ => (hk _).nonneg _ _) (Finset.mem_univ y)
      linarith
    have := key (fun a => (P ^ (n % N)) a y) 1 hD (n / N) a b
    rw [mul_one] at this
    have e : P ^ n = (P ^ N) ^ (n / N) * P ^ (n % N) := by
      rw [← pow_mul, ← pow_add, Nat.div_add_mod]
    rw [e]
    simpa only [Matrix.mul_apply] using this
  have hZ : 0 < ∑ z, w z := Finset.sum_pos (fun z _ => hw z) ⟨x, Finset.mem_univ x⟩
  have bound : ∀ n, |(P ^ n) x y - w y / ∑ z, w z| ≤ (1 - δ) ^ (n / N) := by
    intro n
    have e : (P ^ n) x y - w y / ∑ z, w z = (∑ z, w z * ((P ^ n) x y - (P ^ n) z y)) / ∑ z, w z := by
      simp only [mul_sub, Finset.sum_sub_distrib, ← Finset.sum_mul, pow_invariant hi n y]
      field_simp
    rw [e, abs_le]
    constructor
    · rw [le_div_iff₀ hZ, Finset.mul_sum]
      apply Finset.sum_le_sum
      intro z _
      have := diff n z x
      nlinarith [hw z, this]
    · rw [div_le_iff₀ hZ, Finset.mul_sum]
      apply Finset.sum_le_sum
      intro z _
      have := diff n x z
      nlinarith [hw z, this]
  rw [tendsto_iff_dist_tendsto_zero]
  by_cases hN0 : N = 0
  · -- a single state
    have hs : ∀ a b : α, a = b := by
      intro a b
      by_contra hab
      have := hN a b
      rw [hN0, pow_zero, Matrix.one_apply_ne hab] at this
      exact lt_irrefl _ this
    have hu : (Finset.univ : Finset α) = {y} := by
      ext a; simp [hs a y]
    have : ∀ n, (P ^ n) x y = 1 := by
      intro n
      have := (hk n).sum x
      rwa [hu, Finset.sum_singleton] at this
    simp only [this, hu, Finset.sum_singleton, div_self (hw y).ne', dist_self]
    exact tendsto_const_nhds
  · have hl : Tendsto (fun n : ℕ => (1 - δ) ^ (n / N)) atTop (nhds 0) :=
      (tendsto_pow_atTop_nhds_zero_of_lt_one (r := 1 - δ) (by linarith) (by linarith)).comp
        (Nat.tendsto_div_const_atTop hN0)
    exact squeeze_zero (fun _ => dist_nonneg) bound hl

/-- An irreducible chain one of whose states is revisited after every sufficiently large number of steps converges. -/
theorem converges_of_return (h : IsKernel P) (hi : Invariant P w) (hw : ∀ x, 0 < w x) (hc : Irreducible P) (z : α)
    (m : ℕ) (hz : ∀ n, m ≤ n → 0 < (P ^ n) z z) : Converges P w := by
  choose k hk using fun x => hc x z
  choose l hl using fun y => hc z y
  obtain ⟨a, _, ha⟩ := Finset.exists_max_image Finset.univ k ⟨z, Finset.mem_univ z⟩
  obtain ⟨b, _, hb⟩ := Finset.exists_max_image Finset.univ l ⟨z, Finset.mem_univ z⟩
  apply converges h hi hw (k a + (l b + m))
  intro x y
  have h1 := ha x (Finset.mem_univ x)
  have h2 := hb y (Finset.mem_univ y)
  have e : k a + (l b + m) = k x + ((k a - k x + (l b - l y) + m) + l y) := by omega
  rw [e]
  exact pow_add_pos h (hk x) (pow_add_pos h (hz _ (by omega)) (hl y))

/-- In particular if some state may be kept. -/
theorem converges_of_loop (h : IsKernel P) (hi : Invariant P w) (hw : ∀ x, 0 < w x) (hc : Irreducible P) (z : α)
    (hz : 0 < P z z) : Converges P w := by
  refine converges_of_return h hi hw hc z 0 fun n _ => ?_
  induction n with
  | zero => simp
  | succ n ih => exact pow_add_pos h (ih (Nat.zero_le n)) (by simpa using hz)

end GPSKet.Spec.Markov
