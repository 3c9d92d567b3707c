import Verif.Props.Asep
import Mathlib.LinearAlgebra.Matrix.Charpoly.Basic
import Mathlib.LinearAlgebra.Matrix.Charpoly.Coeff
import Mathlib.Analysis.SpecialFunctions.Log.Basic
import Mathlib.Analysis.Complex.Norm
import Mathlib.Data.Complex.BigOperators

/-! # Lemmas for C168: reversed moves, and sums over the entries of a row -/

namespace GPSKet.AsepSpectrum
open GPSKet.Spec GPSKet.Asep

variable {n : ℕ}

/-- Sums over the entries returned for a configuration. -/
theorem sum_entries {C K : Type} [DecidableEq C] [Fintype C] [CommSemiring K] (out : List (C × K)) (f : C → K) :
    (out.map fun e => e.2 * f e.1).sum = ∑ x', rowElem out x' * f x' := by
  induction out with
  | nil => simp [rowElem]
  | cons e out ih =>
    have h : ∀ x', rowElem (e :: out) x' = (if e.1 = x' then e.2 else 0) + rowElem out x' := by
      intro x'
      unfold rowElem
      by_cases he : e.1 = x' <;> simp [he]
    simp only [List.map_cons, List.sum_cons, ih, h, add_mul, Finset.sum_add_distrib, ite_mul, zero_mul]
    congr 1
    rw [Finset.sum_ite_eq Finset.univ e.1]
    simp

/-- The weight of a move in the generator. -/
noncomputable def weight (r : AsepRates) (m : AsepMove n) : ℝ := m.rate r * Real.exp (r.lambd * m.current)

theorem gen_offdiag (r : AsepRates) {x x' : Chain n} (h : x ≠ x') :
    asepGenerator r x x' = ∑ m : AsepMove n, if m.enabled x ∧ m.target x = x' then weight r m else 0 := by
  unfold asepGenerator
  apply Finset.sum_congr rfl
  intro m _
  by_cases h1 : m.enabled x <;> by_cases h2 : m.target x = x' <;> simp [h, h1, h2, weight]

/-- The reversed move. -/
def rev : AsepMove n → AsepMove n
  | .injectLeft => .ejectLeft
  | .ejectLeft => .injectLeft
  | .injectRight => .ejectRight
  | .ejectRight => .injectRight
  | .hopRight i => .hopLeft i
  | .hopLeft i => .hopRight i

theorem rev_rev (m : AsepMove n) : rev (rev m) = m := by cases m <;> rfl

theorem rev_spec {m : AsepMove n} {x x' : Chain n} (h : m.enabled x ∧ m.target x = x') :
    (rev m).enabled x' ∧ (rev m).target x' = x := by
  obtain ⟨h1, rfl⟩ := h
  cases m with
  | injectLeft => simp_all [AsepMove.enabled, AsepMove.target, rev]
  | ejectLeft => simp_all [AsepMove.enabled, AsepMove.target, rev]
  | injectRight => simp_all [AsepMove.enabled, AsepMove.target, rev]
  | ejectRight => simp_all [AsepMove.enabled, AsepMove.target, rev]
  | hopRight i =>
    simp only [AsepMove.enabled] at h1
    have hne : i.castSucc ≠ i.succ := (Fin.castSucc_lt_succ).ne
    refine ⟨by simp [AsepMove.enabled, AsepMove.target, rev, hne], ?_⟩
    funext j
    simp only [AsepMove.target, rev, Function.update_apply]
    split_ifs <;> simp_all
  | hopLeft i =>
    simp only [AsepMove.enabled] at h1
    have hne : i.castSucc ≠ i.succ := (Fin.castSucc_lt_succ).ne
    refine ⟨by simp [AsepMove.enabled, AsepMove.target, rev, hne.symm], ?_⟩
    funext j
    simp only [AsepMove.target, rev, Function.update_apply]
    split_ifs <;> simp_all

theorem target_ne {m : AsepMove n} {x : Chain n} (h : m.enabled x) : m.target x ≠ x := by
  intro he
  have h2 := rev_spec ⟨h, he⟩
  cases m with
  | injectLeft => simp_all [AsepMove.enabled, rev]
  | ejectLeft => simp_all [AsepMove.enabled, rev]
  | injectRight => simp_all [AsepMove.enabled, rev]
  | ejectRight => simp_all [AsepMove.enabled, rev]
  | hopRight i => simp_all [AsepMove.enabled, rev]
  | hopLeft i => simp_all [AsepMove.enabled, rev]

/-- The diagonal does not depend on the counting field. -/
theorem gen_diag (r : AsepRates) (x : Chain n) :
    asepGenerator r x x = ∑ m : AsepMove n, if m.enabled x then -(m.rate r) else 0 := by
  unfold asepGenerator
  apply Finset.sum_congr rfl
  intro m _
  by_cases h1 : m.enabled x
  · simp [h1, target_ne h1]
  · simp [h1]

/-- Energy of a configuration: `h j` for a particle at site `j`. -/
noncomputable def level (h : Fin (n + 1) → ℝ) (x : Chain n) : ℝ := ∑ j, ((x j).val : ℝ) * h j

theorem level_update (h : Fin (n + 1) → ℝ) (x : Chain n) (j : Fin (n + 1)) (v : Fin 2) :
    level h (Function.update x j v) = level h x + ((v.val : ℝ) - (x j).val) * h j := by
  unfold level
  rw [← Finset.add_sum_erase _ _ (Finset.mem_univ j), ← Finset.add_sum_erase Finset.univ (fun j => ((x j).val : ℝ) * h j)
    (Finset.mem_univ j)]
  have : ∑ k ∈ Finset.univ.erase j, ((Function.update x j v k).val : ℝ) * h k = ∑ k ∈ Finset.univ.erase j, ((x k).val : ℝ) * h k := by
    apply Finset.sum_congr rfl
    intro k hk
    rw [Function.update_of_ne (Finset.ne_of_mem_erase hk)]
  rw [this, Function.update_self]
  ring

/-- How much the level rises in a move. -/
noncomputable def rise (h : Fin (n + 1) → ℝ) : AsepMove n → ℝ
  | .injectLeft => h 0
  | .ejectLeft => -h 0
  | .injectRight => h (Fin.last n)
  | .ejectRight => -h (Fin.last n)
  | .hopRight i => h i.succ - h i.castSucc
  | .hopLeft i => h i.castSucc - h i.succ

theorem level_target (h : Fin (n + 1) → ℝ) {m : AsepMove n} {x : Chain n} (hm : m.enabled x) :
    level h (m.target x) = level h x + rise h m := by
  cases m with
  | injectLeft =>
    simp only [AsepMove.enabled] at hm
    rw [AsepMove.target, level_update, hm]; simp [rise]
  | ejectLeft =>
    simp only [AsepMove.enabled] at hm
    rw [AsepMove.target, level_update, hm]; simp [rise]
  | injectRight =>
    simp only [AsepMove.enabled] at hm
    rw [AsepMove.target, level_update, hm]; simp [rise]
  | ejectRight =>
    simp only [AsepMove.enabled] at hm
    rw [AsepMove.target, level_update, hm]; simp [rise]
  | hopRight i =>
    simp only [AsepMove.enabled] at hm
    have hne : i.succ ≠ i.castSucc := (Fin.castSucc_lt_succ).ne'
    rw [AsepMove.target, level_update, level_update, Function.update_of_ne hne, hm.1, hm.2]
    simp [rise]; ring
  | hopLeft i =>
    simp only [AsepMove.enabled] at hm
    have hne : i.castSucc ≠ i.succ := (Fin.castSucc_lt_succ).ne
    rw [AsepMove.target, level_update, level_update, Function.update_of_ne hne, hm.1, hm.2]
    simp [rise]; ring

/-- If every move and its reverse are related by the rise of a level, the transposed generator is similar to the generator. -/
theorem gen_transpose (r r' : AsepRates) (h : Fin (n + 1) → ℝ) (hrate : ∀ m : AsepMove n, m.rate r = m.rate r')
    (hw : ∀ m : AsepMove n, weight r (rev m) = Real.exp (rise h m) * weight r' m) (x x' : Chain n) :
    asepGenerator r x' x = Real.exp (level h x' - level h x) * asepGenerator r' x x' := by
  by_cases hx : x = x'
  · subst hx
    rw [sub_self, Real.exp_zero, one_mul, gen_diag, gen_diag]
    simp only [hrate]
  rw [gen_offdiag r (Ne.symm hx), gen_offdiag r' hx, Finset.mul_sum]
  refine Finset.sum_equiv ⟨rev, rev, rev_rev, rev_rev⟩ (by simp) ?_
  intro m _
  change (if m.enabled x' ∧ m.target x' = x then weight r m else 0) =
    Real.exp (level h x' - level h x) * if (rev m).enabled x ∧ (rev m).target x = x' then weight r' (rev m) else 0
  by_cases h1 : m.enabled x' ∧ m.target x' = x
  · have h2 := rev_spec h1
    rw [if_pos h1, if_pos h2]
    have h3 := level_target h h2.1
    rw [h2.2] at h3
    have h4 := hw (rev m)
    rw [rev_rev] at h4
    rw [h4, h3]
    congr 2
    ring
  · rw [if_neg h1, if_neg, mul_zero]
    intro h2
    have := rev_spec h2
    rw [rev_rev] at this
    exact h1 this

/-- A property that moves preserve in both directions holds everywhere if it holds anywhere. -/
theorem connected (P : Chain n → Prop) (hP : ∀ (x : Chain n) (m : AsepMove n), m.enabled x → (P (m.target x) ↔ P x)) (x : Chain n) :
    P x ↔ P 0 := by
  set h : Fin (n + 1) → ℝ := fun j => (j.val : ℝ) + 1 with hh
  have key : ∀ (N : ℕ) (x : Chain n), level h x ≤ N → (P x ↔ P 0) := by
    intro N
    induction N with
    | zero =>
      intro x hx
      have h0 : x = 0 := by
        funext j
        have hnn : ∀ k ∈ Finset.univ, 0 ≤ ((x k).val : ℝ) * h k := fun k _ => by simp only [hh]; positivity
        have h1 : ((x j).val : ℝ) * h j ≤ level h x := Finset.single_le_sum hnn (Finset.mem_univ j)
        have h2 : ((x j).val : ℝ) * h j ≤ 0 := by
          have : ((0 : ℕ) : ℝ) = 0 := Nat.cast_zero
          linarith
        have h3 : (0 : ℝ) < h j := by simp only [hh]; positivity
        have h4 : ((x j).val : ℝ) ≤ 0 := by
          by_contra hc
          exact absurd h2 (not_le.mpr (mul_pos (not_le.mp hc) h3))
        have h5 : (x j).val = 0 := by
          have : (x j).val ≤ 0 := by exact_mod_cast h4
          omega
        exact Fin.ext h5
      rw [h0]
    | succ N ih =>
      intro x hx
      by_cases hx0 : x = 0
      · rw [hx0]
      obtain ⟨j0, hj0⟩ := Function.ne_iff.mp hx0
      obtain ⟨j, hj, hmin⟩ := Finset.exists_min_image (Finset.univ.filter fun j => x j ≠ 0) id ⟨j0, by simpa using hj0⟩
      have hj : x j ≠ 0 := by simpa using hj
      have hj1 : x j = 1 := by
        generalize x j = y at hj
        revert y
        decide
      have hbelow : ∀ k, k < j → x k = 0 := by
        intro k hk
        by_contra hc
        exact absurd (hmin k (by simpa using hc)) (not_le.mpr hk)
      have step : ∀ m : AsepMove n, m.enabled x → rise h m = -1 → (P x ↔ P 0) := by
        intro m hm hr
        rw [← hP x m hm]
        apply ih
        rw [level_target h hm, hr]
        push_cast at hx
        linarith
      refine Fin.cases (motive := fun j => x j = 1 → (∀ k, k < j → x k = 0) → (P x ↔ P 0)) ?_ ?_ j hj1 hbelow
      · intro h1 _
        exact step .ejectLeft h1 (by simp [rise, hh])
      · intro i h1 h2
        refine step (.hopLeft i) ⟨h1, h2 _ Fin.castSucc_lt_succ⟩ ?_
        simp only [rise, hh, Fin.val_succ, Fin.val_castSucc]
        push_cast
        ring
  obtain ⟨N, hN⟩ := exists_nat_ge (level h x)
  exact key N x hN

end GPSKet.AsepSpectrum
