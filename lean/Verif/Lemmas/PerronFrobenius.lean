import Mathlib.Analysis.Convex.StdSimplex
import Mathlib.Analysis.RCLike.Basic
import Mathlib.Topology.Algebra.Order.Field
import Mathlib.Topology.Order.Compact
import Mathlib.Topology.Order.DenselyOrdered
import Mathlib.Tactic.Linarith
import Mathlib.Tactic.Positivity

/-!
# Nonnegative matrices have nonnegative eigenvectors

The part of the Perron–Frobenius theorem that C168 uses.
-/

namespace GPSKet.PF

variable {ι : Type*} [Fintype ι] [Nonempty ι]

omit [Nonempty ι] in
/-- A bound on the ratio of `A x` and `x`. -/
theorem bound (A : ι → ι → ℝ) (hA : ∀ i j, 0 ≤ A i j) (x : ι → ℝ) (hx : x ∈ stdSimplex ℝ ι) (t : ℝ)
    (h : ∀ i, t * x i ≤ ∑ j, A i j * x j) : t ≤ ∑ i, ∑ j, A i j := by
  calc t = ∑ i, t * x i := by rw [← Finset.mul_sum, hx.2, mul_one]
    _ ≤ ∑ i, ∑ j, A i j * x j := Finset.sum_le_sum fun i _ => h i
    _ ≤ ∑ i, ∑ j, A i j := by
      refine Finset.sum_le_sum fun i _ => Finset.sum_le_sum fun j _ => ?_
      have : x j ≤ 1 := by
        rw [← hx.2]
        exact Finset.single_le_sum (fun k _ => hx.1 k) (Finset.mem_univ j)
      nlinarith [hA i j, hx.1 j]

/-- A matrix with positive entries has a nonnegative eigenvector. -/
theorem exists_pos (A : ι → ι → ℝ) (hA : ∀ i j, 0 < A i j) :
    ∃ x ∈ stdSimplex ℝ ι, ∃ t : ℝ, ∀ i, ∑ j, A i j * x j = t * x i := by
  classical
  set K : Set ((ι → ℝ) × ℝ) := {p | p.1 ∈ stdSimplex ℝ ι ∧ p.2 ∈ Set.Icc 0 (∑ i, ∑ j, A i j) ∧ ∀ i, p.2 * p.1 i ≤ ∑ j, A i j * p.1 j}
    with hK
  have hcomp : IsCompact K := by
    have h1 : IsCompact (stdSimplex ℝ ι ×ˢ Set.Icc (0 : ℝ) (∑ i, ∑ j, A i j)) := (isCompact_stdSimplex ℝ ι).prod isCompact_Icc
    have h2 : IsClosed {p : (ι → ℝ) × ℝ | ∀ i, p.2 * p.1 i ≤ ∑ j, A i j * p.1 j} := by
      simp only [Set.setOf_forall]
      refine isClosed_iInter fun i => isClosed_le (by fun_prop) (by fun_prop)
    have h3 : K = (stdSimplex ℝ ι ×ˢ Set.Icc (0 : ℝ) (∑ i, ∑ j, A i j)) ∩ {p | ∀ i, p.2 * p.1 i ≤ ∑ j, A i j * p.1 j} := by
      ext p
      simp only [hK, Set.mem_inter_iff, Set.mem_prod]
      exact ⟨fun h => ⟨⟨h.1, h.2.1⟩, h.2.2⟩, fun h => ⟨h.1.1, h.1.2, h.2⟩⟩
    rw [h3]
    exact h1.inter_right h2
  have hne : K.Nonempty := by
    refine ⟨(Pi.single (Classical.arbitrary ι) 1, 0), single_mem_stdSimplex ℝ _, ⟨le_rfl, ?_⟩, fun i => ?_⟩
    · exact Finset.sum_nonneg fun i _ => Finset.sum_nonneg fun j _ => (hA i j).le
    · rw [zero_mul]
      exact Finset.sum_nonneg fun j _ => mul_nonneg (hA i j).le ((single_mem_stdSimplex ℝ (Classical.arbitrary ι)).1 j)
  obtain ⟨⟨x, t⟩, ⟨hx, ht, hxt⟩, hmax⟩ := hcomp.exists_isMaxOn hne (continuous_snd.continuousOn (s := K))
  refine ⟨x, hx, t, ?_⟩
  by_contra hcon
  have hx : x ∈ stdSimplex ℝ ι := hx
  have hxt : ∀ i, t * x i ≤ ∑ j, A i j * x j := hxt
  have ht : 0 ≤ t := ht.1
  set w : ι → ℝ := fun i => ∑ j, A i j * x j with hw
  obtain ⟨k, hk⟩ : ∃ k, 0 < x k := by
    by_contra h
    have h0 : ∀ k, x k = 0 := fun k => le_antisymm (not_lt.mp fun h' => h ⟨k, h'⟩) (hx.1 k)
    have := hx.2
    simp [h0] at this
  have hwpos : ∀ i, 0 < w i := fun i => Finset.sum_pos' (fun j _ => mul_nonneg (hA i j).le (hx.1 j))
    ⟨k, Finset.mem_univ k, mul_pos (hA i k) hk⟩
  have hAy : ∀ i, 0 < ∑ j, A i j * (w j - t * x j) := by
    push Not at hcon
    obtain ⟨i0, hi0⟩ := hcon
    intro i
    refine Finset.sum_pos' (fun j _ => mul_nonneg (hA i j).le (sub_nonneg.mpr (hxt j))) ⟨i0, Finset.mem_univ i0, ?_⟩
    exact mul_pos (hA i i0) (sub_pos.mpr (lt_of_le_of_ne (hxt i0) (Ne.symm hi0)))
  obtain ⟨i1, -, hi1⟩ := Finset.exists_min_image Finset.univ (fun i => (∑ j, A i j * (w j - t * x j)) / w i) Finset.univ_nonempty
  set e := (∑ j, A i1 j * (w j - t * x j)) / w i1
  have he : 0 < e := div_pos (hAy i1) (hwpos i1)
  have hAw : ∀ i, (t + e) * w i ≤ ∑ j, A i j * w j := by
    intro i
    have h1 : e * w i ≤ ∑ j, A i j * (w j - t * x j) := (le_div_iff₀ (hwpos i)).mp (hi1 i (Finset.mem_univ i))
    have h2 : ∑ j, A i j * (w j - t * x j) = ∑ j, A i j * w j - t * w i := by
      rw [hw, Finset.mul_sum, ← Finset.sum_sub_distrib]
      exact Finset.sum_congr rfl fun j _ => by ring
    linarith
  set s := ∑ i, w i with hs
  have hspos : 0 < s := Finset.sum_pos (fun i _ => hwpos i) Finset.univ_nonempty
  have hmem : (fun i => w i / s) ∈ stdSimplex ℝ ι :=
    ⟨fun i => (div_pos (hwpos i) hspos).le, by
      have : ∑ i, w i / s = (∑ i, w i) * s⁻¹ := by rw [Finset.sum_mul]; rfl
      rw [this, ← hs, mul_inv_cancel₀ hspos.ne']⟩
  have hle : ∀ i, (t + e) * (w i / s) ≤ ∑ j, A i j * (w j / s) := by
    intro i
    have : ∑ j, A i j * (w j / s) = (∑ j, A i j * w j) * s⁻¹ := by
      rw [Finset.sum_mul]
      exact Finset.sum_congr rfl fun j _ => by rw [div_eq_mul_inv, mul_assoc]
    rw [this, div_eq_mul_inv, ← mul_assoc]
    exact mul_le_mul_of_nonneg_right (hAw i) (inv_pos.mpr hspos).le
  have hin : ((fun i => w i / s, t + e) : (ι → ℝ) × ℝ) ∈ K :=
    ⟨hmem, ⟨by linarith, bound A (fun i j => (hA i j).le) _ hmem _ hle⟩, hle⟩
  have := hmax hin
  simp only [Set.mem_setOf_eq] at this
  linarith

/-- A matrix with nonnegative entries has a nonnegative eigenvector. -/
theorem exists_nonneg (A : ι → ι → ℝ) (hA : ∀ i j, 0 ≤ A i j) :
    ∃ x ∈ stdSimplex ℝ ι, ∃ t : ℝ, ∀ i, ∑ j, A i j * x j = t * x i := by
  set C : Set ((ι → ℝ) × ℝ) := (stdSimplex ℝ ι ×ˢ Set.Icc (0 : ℝ) 1) ∩
    {p | ∀ i, ∑ j, (A i j + p.2) * p.1 j = (∑ k, ∑ j, (A k j + p.2) * p.1 j) * p.1 i} with hC
  have hcomp : IsCompact C := by
    refine IsCompact.inter_right ((isCompact_stdSimplex ℝ ι).prod isCompact_Icc) ?_
    simp only [Set.setOf_forall]
    exact isClosed_iInter fun i => isClosed_eq (by fun_prop) (by fun_prop)
  have hsub : Set.Ioc (0 : ℝ) 1 ⊆ Prod.snd '' C := by
    intro t ht
    obtain ⟨x, hx, l, hl⟩ := exists_pos (fun i j => A i j + t) (fun i j => by have := hA i j; have := ht.1; linarith)
    refine ⟨(x, t), ⟨⟨hx, ⟨ht.1.le, ht.2⟩⟩, fun i => ?_⟩, rfl⟩
    simp only
    rw [hl i]
    congr 1
    simp only [hl]
    rw [← Finset.mul_sum, hx.2, mul_one]
  have h0 : (0 : ℝ) ∈ Prod.snd '' C := by
    have hcl : IsClosed (Prod.snd '' C) := (hcomp.image continuous_snd).isClosed
    have := closure_minimal hsub hcl
    rw [closure_Ioc (by norm_num)] at this
    exact this ⟨le_rfl, by norm_num⟩
  obtain ⟨⟨x, t⟩, ⟨⟨hx, -⟩, h⟩, rfl⟩ := h0
  refine ⟨x, hx, ∑ k, ∑ j, A k j * x j, fun i => ?_⟩
  have := h i
  simpa only [add_zero] using this

end GPSKet.PF
