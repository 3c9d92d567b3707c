import Verif.Lemmas.Asep

/-!
# Properties C08–C10: the asymmetric simple exclusion process

Specification used: `Verif/Spec/Asep.lean` (`asepGenerator`), `rowElem` (`Verif/Spec/Occupation.lean`).
-/

namespace GPSKet
open Spec Asep

variable {n : ℕ}

/-! ## C09 -/

/-- **C09**: for every sample the entries returned for `x'` sum to the element of the tilted generator. -/
theorem C09_asep_generator (r : AsepRates) (x x' : Chain n) :
    rowElem (kernel r [x]).out x' = asepGenerator r x x' := by
  rw [kernel_eq]
  simp [row_elem]

/-- **C09**: exactly `4(L+1)` entries per configuration in the whole batch, `sections` marks their ends, the
allocated buffer is filled, and the entries of sample `b` are those of that sample alone. -/
theorem C09_asep_entries (r : AsepRates) (xs : List (Chain n)) :
    (kernel r xs).out.length = alloc xs.length (n + 1) ∧
    (∀ x : Chain n, (kernel r [x]).out.length = 4 * ((n + 1) + 1)) ∧
    ∀ b (hb : b < xs.length),
      (kernel r xs).sections b = some ((b + 1) * (4 * ((n + 1) + 1))) ∧
      ((kernel r xs).out.drop (b * (4 * ((n + 1) + 1)))).take (4 * ((n + 1) + 1)) = (kernel r [xs[b]]).out := by
  simp only [kernel_eq]
  have hm : 4 * ((n + 1) + 1) = 4 * (1 + (n + 1)) := by ring
  rw [hm]
  set m := 4 * (1 + (n + 1)) with hmdef
  have hlen : ∀ ys : List (Chain n), (ys.flatMap (row r)).length = ys.length * m := by
    intro ys
    induction ys with
    | nil => simp
    | cons y ys ih => rw [List.flatMap_cons, List.length_append, ih, row_length, List.length_cons]; ring
  refine ⟨?_, ?_, ?_⟩
  · rw [hlen, alloc, hmdef]; ring
  · intro x; rw [hlen]; simp
  · intro b hb
    refine ⟨by simp [hb], ?_⟩
    have hsplit : xs = xs.take b ++ xs[b] :: xs.drop (b + 1) := by simp
    conv_lhs => rw [hsplit]
    rw [List.flatMap_append, List.flatMap_cons]
    have hl1 : ((xs.take b).flatMap (row r)).length = b * m := by
      rw [hlen, List.length_take, min_eq_left hb.le]
    rw [List.drop_append_of_le_length (by rw [hl1]), List.drop_eq_nil_of_le (by rw [hl1]), List.nil_append,
      List.take_append_of_le_length (by rw [row_length]), List.take_of_length_le (by rw [row_length])]
    simp

/-- the generator is not trivial: injection on the left of an empty chain of two sites -/
example : asepGenerator ⟨0, 1/2, 1/3, 1/4, 1/5, 1/6, 1/7⟩ (![0, 0] : Chain 1) ![1, 0] = 1/2 := by
  unfold asepGenerator
  rw [sum_moves]
  have h : (Function.update (![0, 0] : Chain 1) 1 1) ≠ ![1, 0] := by decide
  have h2 : (Function.update (![0, 0] : Chain 1) 0 1) = ![1, 0] := by decide
  simp [AsepMove.enabled, AsepMove.target, AsepMove.rate, AsepMove.current, h, h2]

/-! ## C08 -/

/-- **C08**: without counting field the rates out of every configuration sum to zero — over the returned entries
and over the final states. -/
theorem C08_asep_probability (r : AsepRates) (h0 : r.lambd = 0) (x : Chain n) :
    ((kernel r [x]).out.map Prod.snd).sum = 0 ∧ ∑ x', rowElem (kernel r [x]).out x' = 0 := by
  have key : ∑ x', rowElem (kernel r [x]).out x' = 0 := by
    simp only [C09_asep_generator, asepGenerator]
    rw [Finset.sum_comm]
    apply Finset.sum_eq_zero
    intro m _
    by_cases h : m.enabled x
    · simp only [h, if_true, Finset.sum_sub_distrib, h0]
      simp
    · simp [h]
  refine ⟨?_, key⟩
  have := rowApply_eq (kernel r [x]).out (fun _ => (1 : ℝ))
  simp only [mul_one, key] at this
  rw [this, rowApply]
  simp

/-- **C08**: with non-negative rates all off-diagonal elements are non-negative (for any counting field). -/
theorem C08_asep_nonneg (r : AsepRates) (ha : 0 ≤ r.alpha) (hb : 0 ≤ r.beta) (hg : 0 ≤ r.gamma)
    (hd : 0 ≤ r.delta) (hp : 0 ≤ r.p) (hq : 0 ≤ r.q) (x x' : Chain n) (hx : x ≠ x') :
    0 ≤ rowElem (kernel r [x]).out x' := by
  rw [C09_asep_generator, asepGenerator]
  apply Finset.sum_nonneg
  intro m _
  have hr : 0 ≤ m.rate r := by cases m <;> assumption
  simp only [hx, if_false, sub_zero]
  split_ifs
  · exact mul_nonneg hr (Real.exp_pos _).le
  · exact le_rfl
  · exact le_rfl

/-- the hypotheses hold for the constructor's default parameters -/
example : (⟨0, 1/2, 1/2, 1/2, 1/2, 1/2, 1/2⟩ : AsepRates).lambd = 0 ∧ (![0, 1] : Chain 1) ≠ ![1, 0] := by
  refine ⟨rfl, by decide⟩

/-! ## C10 -/

/-- weight of a move in the generator -/
private noncomputable def wt (r : AsepRates) (m : AsepMove n) : ℝ := m.rate r * Real.exp (r.lambd * m.current)

private theorem gen_offdiag (r : AsepRates) {x x' : Chain n} (h : x ≠ x') :
    asepGenerator r x x' = ∑ m : AsepMove n, if m.enabled x ∧ m.target x = x' then wt r m else 0 := by
  unfold asepGenerator
  apply Finset.sum_congr rfl
  intro m _
  by_cases h1 : m.enabled x <;> by_cases h2 : m.target x = x' <;> simp [h, h1, h2, wt]

private def rev : AsepMove n → AsepMove n
  | .injectLeft => .ejectLeft
  | .ejectLeft => .injectLeft
  | .injectRight => .ejectRight
  | .ejectRight => .injectRight
  | .hopRight i => .hopLeft i
  | .hopLeft i => .hopRight i

private theorem rev_rev (m : AsepMove n) : rev (rev m) = m := by cases m <;> rfl

private theorem rev_spec {m : AsepMove n} {x x' : Chain n} (h : m.enabled x ∧ m.target x = x') :
    (rev m).enabled x' ∧ (rev m).target x' = x := by
  obtain ⟨h1, rfl⟩ := h
  cases m with
  | injectLeft => simp_all [AsepMove.enabled, AsepMove.target, rev]
  | ejectLeft => simp_all [AsepMove.enabled, AsepMove.target, rev]
  | injectRight => simp_all [AsepMove.enabled, AsepMove.target, rev]
  | ejectRight => simp_all [AsepMove.enabled, AsepMove.target, rev]
  | hopRight i =>
    simp only [AsepMove.enabled] at h1
    have hne : i.castSucc ≠ i.succ := (Fin.castSucc_lt_succ).ne
    refine ⟨by simp [AsepMove.enabled, AsepMove.target, rev, hne], ?_⟩
    funext j
    simp only [AsepMove.target, rev, Function.update_apply]
    split_ifs <;> simp_all
  | hopLeft i =>
    simp only [AsepMove.enabled] at h1
    have hne : i.castSucc ≠ i.succ := (Fin.castSucc_lt_succ).ne
    refine ⟨by simp [AsepMove.enabled, AsepMove.target, rev, hne.symm], ?_⟩
    funext j
    simp only [AsepMove.target, rev, Function.update_apply]
    split_ifs <;> simp_all

private theorem symm_of_wt (r : AsepRates) (h : ∀ m : AsepMove n, wt r m = wt r (rev m)) (x x' : Chain n) :
    asepGenerator r x x' = asepGenerator r x' x := by
  by_cases hx : x = x'
  · rw [hx]
  rw [gen_offdiag r hx, gen_offdiag r (Ne.symm hx)]
  refine Finset.sum_equiv ⟨rev, rev, rev_rev, rev_rev⟩ (by simp) ?_
  intro m _
  change (if m.enabled x ∧ m.target x = x' then wt r m else 0) =
    if (rev m).enabled x' ∧ (rev m).target x' = x then wt r (rev m) else 0
  by_cases h1 : m.enabled x ∧ m.target x = x'
  · rw [if_pos h1, if_pos (rev_spec h1), h m]
  · rw [if_neg h1, if_neg]
    intro h2
    have := rev_spec h2
    rw [rev_rev] at this
    exact h1 this

private theorem gen_single (r : AsepRates) {x x' : Chain n} (h : x ≠ x') (m : AsepMove n)
    (hm : m.enabled x ∧ m.target x = x')
    (hu : ∀ m' : AsepMove n, m'.enabled x ∧ m'.target x = x' → m' = m) : asepGenerator r x x' = wt r m := by
  rw [gen_offdiag r h, Finset.sum_eq_single m]
  · rw [if_pos hm]
  · intro b _ hb
    rw [if_neg]
    intro h'
    exact hb (hu b h')
  · simp

/-- sites changed by a move -/
private def sig : AsepMove n → Fin (n + 1) → Prop
  | .injectLeft, j => j.val = 0
  | .ejectLeft, j => j.val = 0
  | .injectRight, j => j.val = n
  | .ejectRight, j => j.val = n
  | .hopRight i, j => j.val = i.val ∨ j.val = i.val + 1
  | .hopLeft i, j => j.val = i.val ∨ j.val = i.val + 1

private theorem sig_spec {m : AsepMove n} {x : Chain n} (h : m.enabled x) (j : Fin (n + 1)) :
    m.target x j ≠ x j ↔ sig m j := by
  have e0 : j.val = 0 ↔ j = 0 := by rw [Fin.ext_iff]; rfl
  have el : j.val = n ↔ j = Fin.last n := by rw [Fin.ext_iff]; rfl
  have ec : ∀ i : Fin n, j.val = i.val ↔ j = i.castSucc := fun i => by rw [Fin.ext_iff]; rfl
  have es : ∀ i : Fin n, j.val = i.val + 1 ↔ j = i.succ := fun i => by rw [Fin.ext_iff]; rfl
  have hb : ∀ i : Fin n, i.castSucc ≠ i.succ := fun i => (Fin.castSucc_lt_succ).ne
  cases m with
  | injectLeft => by_cases hj : j = 0 <;> simp_all [AsepMove.enabled, AsepMove.target, sig]
  | ejectLeft => by_cases hj : j = 0 <;> simp_all [AsepMove.enabled, AsepMove.target, sig]
  | injectRight => by_cases hj : j = Fin.last n <;> simp_all [AsepMove.enabled, AsepMove.target, sig]
  | ejectRight => by_cases hj : j = Fin.last n <;> simp_all [AsepMove.enabled, AsepMove.target, sig]
  | hopRight i =>
    have hb := hb i
    simp only [sig, ec, es, AsepMove.target]
    simp only [AsepMove.enabled] at h
    by_cases h1 : j = i.succ
    · subst h1; simp [h]
    · by_cases h2 : j = i.castSucc
      · subst h2; simp [h, hb]
      · simp [h1, h2]
  | hopLeft i =>
    have hb := hb i
    simp only [sig, ec, es, AsepMove.target]
    simp only [AsepMove.enabled] at h
    by_cases h1 : j = i.succ
    · subst h1; simp [h, hb.symm]
    · by_cases h2 : j = i.castSucc
      · subst h2; simp [h]
      · simp [h1, h2]

private theorem sig_rev {k : ℕ} (m m' : AsepMove (k + 1)) (h : ∀ j, sig m j ↔ sig m' j) : m' = m ∨ m' = rev m := by
  have h0 := h 0
  have hl := h (Fin.last _)
  cases m <;> cases m' <;> simp only [sig, Fin.val_zero, Fin.val_last, true_iff, iff_true] at h h0 hl <;>
    simp only [rev, true_or, or_true, reduceCtorEq, or_false, false_or, AsepMove.hopRight.injEq,
      AsepMove.hopLeft.injEq, or_self] <;>
    try omega
  all_goals first
    | (rename_i i j
       have h1 := h i.castSucc
       have h2 := h i.succ
       have h3 := h j.castSucc
       have h4 := h j.succ
       simp only [Fin.val_castSucc, Fin.val_succ, true_or, or_true, true_iff, iff_true] at h1 h2 h3 h4
       first | exact Fin.ext (by omega) | omega)
    | (rename_i i
       have h1 := h i.castSucc
       have h2 := h i.succ
       simp only [Fin.val_castSucc, Fin.val_succ, true_or, or_true, true_iff, iff_true] at h1 h2
       omega)

private theorem not_enabled_rev {m : AsepMove n} {x : Chain n} (h : m.enabled x) : ¬ (rev m).enabled x := by
  cases m <;> simp_all [AsepMove.enabled, rev]

/-- In a chain of at least two sites different enabled moves lead to different configurations. -/
private theorem target_inj {k : ℕ} {x : Chain (k + 1)} {m m' : AsepMove (k + 1)} (h : m.enabled x)
    (h' : m'.enabled x) (he : m'.target x = m.target x) : m' = m := by
  rcases sig_rev m m' (fun j => by rw [← sig_spec h, ← sig_spec h', he]) with e | e
  · exact e
  · exact absurd (e ▸ h') (not_enabled_rev h)

private theorem gen_move {k : ℕ} (r : AsepRates) {x : Chain (k + 1)} {m : AsepMove (k + 1)} (h : m.enabled x)
    (hne : x ≠ m.target x) : asepGenerator r x (m.target x) = wt r m :=
  gen_single r hne m ⟨h, rfl⟩ fun _ h' => target_inj h h'.1 h'.2

private theorem move_ne {m : AsepMove n} {x : Chain n} (h : m.enabled x) : x ≠ m.target x := by
  intro he
  have : ∃ j, sig m j := by
    cases m with
    | injectLeft => exact ⟨0, rfl⟩
    | ejectLeft => exact ⟨0, rfl⟩
    | injectRight => exact ⟨Fin.last n, rfl⟩
    | ejectRight => exact ⟨Fin.last n, rfl⟩
    | hopRight i => exact ⟨i.castSucc, Or.inl rfl⟩
    | hopLeft i => exact ⟨i.castSucc, Or.inl rfl⟩
  obtain ⟨j, hj⟩ := this
  exact (sig_spec h j).mpr hj (congrFun he j).symm

private theorem wt_of_symm {k : ℕ} (r : AsepRates)
    (h : ∀ x x' : Chain (k + 1), asepGenerator r x x' = asepGenerator r x' x) (m : AsepMove (k + 1)) :
    wt r m = wt r (rev m) := by
  have : ∃ x, m.enabled x := by
    cases m with
    | injectLeft => exact ⟨fun _ => 0, rfl⟩
    | ejectLeft => exact ⟨fun _ => 1, rfl⟩
    | injectRight => exact ⟨fun _ => 0, rfl⟩
    | ejectRight => exact ⟨fun _ => 1, rfl⟩
    | hopRight i =>
      refine ⟨fun j => if j = i.castSucc then 1 else 0, ?_⟩
      have : i.succ ≠ i.castSucc := (Fin.castSucc_lt_succ).ne'
      simp [AsepMove.enabled, this]
    | hopLeft i =>
      refine ⟨fun j => if j = i.succ then 1 else 0, ?_⟩
      have : i.castSucc ≠ i.succ := (Fin.castSucc_lt_succ).ne
      simp [AsepMove.enabled, this]
  obtain ⟨x, hx⟩ := this
  have hr := rev_spec (m := m) ⟨hx, rfl⟩
  have e1 := gen_move r hx (move_ne hx)
  have e2 := gen_move r hr.1 (move_ne hr.1)
  rw [hr.2] at e2
  rw [← e1, ← e2, h]

/-- **C10 is false**: `is_hermitian` is `True` for rates whose generator is not symmetric, and `False` for rates whose
generator is symmetric (on chains of every length from 2 sites on). -/
theorem C10_is_hermitian_fails :
    (∃ r : AsepRates, isHermitian r = true ∧ ∀ k, ¬ ∀ x x' : Chain (k + 1),
      rowElem (kernel r [x]).out x' = rowElem (kernel r [x']).out x) ∧
    (∃ r : AsepRates, isHermitian r = false ∧ ∀ k, ∀ x x' : Chain (k + 1),
      rowElem (kernel r [x]).out x' = rowElem (kernel r [x']).out x) := by
  constructor
  · refine ⟨⟨0, 1, 1, 0, 0, 1/2, 1/2⟩, ?_, ?_⟩
    · norm_num [isHermitian]
    · intro k h
      simp only [C09_asep_generator] at h
      have := wt_of_symm _ h .injectLeft
      simp [wt, rev, AsepMove.rate] at this
  · refine ⟨⟨0, 1/4, 1/4, 1/4, 1/4, 1/2, 1/2⟩, ?_, ?_⟩
    · norm_num [isHermitian]
    · intro k x x'
      simp only [C09_asep_generator]
      apply symm_of_wt
      intro m
      cases m <;> simp [wt, rev, AsepMove.rate]

/-- **C10 (partial)**: what symmetry really requires.  The full property (`is_hermitian` true exactly then) is false,
see `C10_is_hermitian_fails`. On every chain with at least two sites the operator is symmetric exactly if the tilted
rates of each move and its reverse agree; in particular, when `is_hermitian` is `True`, the operator is symmetric
exactly if moreover `alpha = gamma` and `beta = delta`. -/
theorem C10_symmetric_iff_partial (r : AsepRates) (k : ℕ) :
    ((∀ x x' : Chain (k + 1), rowElem (kernel r [x]).out x' = rowElem (kernel r [x']).out x) ↔
      r.alpha * Real.exp r.lambd = r.gamma * Real.exp (-r.lambd) ∧
      r.beta * Real.exp (-r.lambd) = r.delta * Real.exp r.lambd ∧
      r.p * Real.exp r.lambd = r.q * Real.exp (-r.lambd)) ∧
    (isHermitian r = true →
      ((∀ x x' : Chain (k + 1), rowElem (kernel r [x]).out x' = rowElem (kernel r [x']).out x) ↔
        r.alpha = r.gamma ∧ r.beta = r.delta)) := by
  simp only [C09_asep_generator]
  have main : (∀ x x' : Chain (k + 1), asepGenerator r x x' = asepGenerator r x' x) ↔
      r.alpha * Real.exp r.lambd = r.gamma * Real.exp (-r.lambd) ∧
      r.beta * Real.exp (-r.lambd) = r.delta * Real.exp r.lambd ∧
      r.p * Real.exp r.lambd = r.q * Real.exp (-r.lambd) := by
    constructor
    · intro h
      have h1 := wt_of_symm r h .injectLeft
      have h2 := wt_of_symm r h .injectRight
      have h3 := wt_of_symm r h (.hopRight 0)
      simp only [wt, rev, AsepMove.rate, AsepMove.current, mul_one, mul_neg] at h1 h2 h3
      exact ⟨h1, h2, h3⟩
    · rintro ⟨h1, h2, h3⟩
      apply symm_of_wt
      intro m
      cases m <;> simp only [wt, rev, AsepMove.rate, AsepMove.current, mul_one, mul_neg] <;>
        first | assumption | (symm; assumption)
  refine ⟨main, ?_⟩
  intro hh
  rw [main]
  simp only [isHermitian, decide_eq_true_eq] at hh
  split_ifs at hh with hc
  obtain ⟨h0, _, hpq⟩ := hc
  simp [h0, hpq]

/-- the constructor's default parameters: `is_hermitian` is `True` and the matrix is symmetric -/
example : isHermitian ⟨0, 1/2, 1/2, 1/2, 1/2, 1/2, 1/2⟩ = true := by norm_num [isHermitian]

end GPSKet
