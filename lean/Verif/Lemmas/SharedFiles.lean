import Verif.Model.SharedFiles
import Mathlib.Tactic.Linarith

/-!
# Invariants of processes that share a directory
-/

namespace GPSKet.SharedFiles

variable {n : ℕ} {K V : Type}

theorem callsBefore_succ {l : List (Act K V)} {p : ℕ} {a : Act K V} (h : l[p]? = some a) :
    callsBefore l (p + 1) = callsBefore l p + if a.isCall then 1 else 0 := by
  unfold callsBefore
  rw [List.take_add_one, h, List.filter_append, List.length_append]
  cases a <;> rfl

theorem callsBefore_mono (l : List (Act K V)) {p q : ℕ} (h : p ≤ q) : callsBefore l p ≤ callsBefore l q := by
  unfold callsBefore
  exact (List.Sublist.filter _ (List.take_prefix_take_left h).sublist).length_le

theorem callsBefore_append (l l' : List (Act K V)) : callsBefore (l ++ l') l.length = (l.filter Act.isCall).length := by
  unfold callsBefore
  rw [List.take_left']
  rfl

theorem entered_mono {acts : Fin (n + 1) → List (Act K V)} {m m' : State n K V} (h : Step acts m m') (s : Fin (n + 1)) :
    entered acts m s ≤ entered acts m' s := by
  unfold entered
  cases h with
  | enter r b ha hi =>
    by_cases hs : s = r
    · subst hs
      simp [hi]
    · simp [Function.update_of_ne hs]
  | leave r b ha hi hs' =>
    by_cases hs : s = r
    · subst hs
      simp only [Function.update_self]
      rw [callsBefore_succ ha, hi]
      simp [Act.isCall]
    · simp [Function.update_of_ne hs]
  | file r f ha hi =>
    by_cases hs : s = r
    · subst hs
      simp only [Function.update_self]
      rw [callsBefore_succ ha]
      simp [Act.isCall]
    · simp [Function.update_of_ne hs]

/-- What an action does to the directory. -/
def effect (k : K) : Act K V → K
  | .call _ => k
  | .file f => (f k).1

structure Inv (acts : Fin (n + 1) → List (Act K V)) (k : K) (m : State n K V) : Prop where
  call : ∀ r, m.inside r = true → ∃ b, (acts r)[m.pos r]? = some (.call b)
  passed : ∀ r p, p < m.pos r → (acts r)[p]? = some (.call true) → ∀ s, callsBefore (acts r) p + 1 ≤ entered acts m s
  disk : m.disk = ((acts 0).take (m.pos 0)).foldl effect k

/-- All processes but the root only read. -/
def ReadOnly (acts : Fin (n + 1) → List (Act K V)) : Prop := ∀ r, r ≠ 0 → ∀ f, Act.file f ∈ acts r → ∀ k, (f k).1 = k

theorem Inv.start (acts : Fin (n + 1) → List (Act K V)) (k : K) : Inv acts k (start k) where
  call := fun r h => by cases h
  passed := fun r p h => absurd h (Nat.not_lt_zero p)
  disk := rfl

theorem Inv.step {acts : Fin (n + 1) → List (Act K V)} (hro : ReadOnly acts) {k : K} {m m' : State n K V} (hi : Inv acts k m)
    (h : Step acts m m') : Inv acts k m' := by
  have hmono := entered_mono h
  cases h with
  | enter r b ha hin =>
    refine ⟨?_, fun s p hp hc t => (hi.passed s p hp hc t).trans (hmono t), hi.disk⟩
    intro s hs
    by_cases hsr : s = r
    · subst hsr
      exact ⟨b, ha⟩
    · exact hi.call s (by simpa [Function.update_of_ne hsr] using hs)
  | leave r b ha hin hs' =>
    refine ⟨?_, ?_, ?_⟩
    · intro s hs
      by_cases hsr : s = r
      · subst hsr
        simp at hs
      · simp only [Function.update_of_ne hsr] at hs ⊢
        exact hi.call s hs
    · intro s p hp hc t
      by_cases hsr : s = r
      · subst hsr
        simp only [Function.update_self] at hp
        rcases Nat.lt_or_eq_of_le (Nat.le_of_lt_succ hp) with h | h
        · exact (hi.passed s p h hc t).trans (hmono t)
        · subst h
          rw [ha] at hc
          cases hc
          exact (hs' t (Or.inl rfl)).trans (hmono t)
      · simp only [Function.update_of_ne hsr] at hp
        exact (hi.passed s p hp hc t).trans (hmono t)
    · by_cases h0 : r = 0
      · subst h0
        simp only [Function.update_self]
        rw [List.take_add_one, ha, List.foldl_append, hi.disk]
        rfl
      · simp only [Function.update_of_ne (Ne.symm h0)]
        exact hi.disk
  | file r f ha hin =>
    refine ⟨?_, ?_, ?_⟩
    · intro s hs
      by_cases hsr : s = r
      · subst hsr
        simp only at hs
        rw [hin] at hs
        cases hs
      · simp only [Function.update_of_ne hsr]
        exact hi.call s hs
    · intro s p hp hc t
      by_cases hsr : s = r
      · subst hsr
        simp only [Function.update_self] at hp
        rcases Nat.lt_or_eq_of_le (Nat.le_of_lt_succ hp) with h | h
        · exact (hi.passed s p h hc t).trans (hmono t)
        · subst h
          rw [ha] at hc
          cases hc
      · simp only [Function.update_of_ne hsr] at hp
        exact (hi.passed s p hp hc t).trans (hmono t)
    · by_cases h0 : r = 0
      · subst h0
        simp only [Function.update_self]
        rw [List.take_add_one, ha, List.foldl_append, ← hi.disk]
        rfl
      · simp only [Function.update_of_ne (Ne.symm h0)]
        rw [hro r h0 f (List.mem_of_getElem? ha)]
        exact hi.disk

theorem Inv.reachable {acts : Fin (n + 1) → List (Act K V)} (hro : ReadOnly acts) {k : K} {m : State n K V} (h : Reachable acts k m) :
    Inv acts k m := by
  unfold Reachable at h
  induction h with
  | refl => exact Inv.start acts k
  | tail _ hs ih => exact ih.step hro hs

/-- What is seen was seen in some reachable state. -/
theorem seen_of_reachable {acts : Fin (n + 1) → List (Act K V)} {k : K} {m : State n K V} (h : Reachable acts k m) (r : Fin (n + 1)) (v : V)
    (hv : v ∈ m.seen r) :
    ∃ m0 f, Reachable acts k m0 ∧ (acts r)[m0.pos r]? = some (.file f) ∧ m0.inside r = false ∧ v = (f m0.disk).2 := by
  unfold Reachable at h
  induction h with
  | refl => cases hv
  | @tail m1 m2 hr hs ih =>
    cases hs with
    | enter s b ha hin => exact ih hv
    | leave s b ha hin hs' => exact ih hv
    | file s f ha hin =>
      by_cases hsr : r = s
      · subst hsr
        simp only [Function.update_self, List.mem_append, List.mem_singleton] at hv
        rcases hv with hv | hv
        · exact ih hv
        · exact ⟨m1, f, hr, ha, hin, hv⟩
      · simp only [Function.update_of_ne hsr] at hv
        exact ih hv

/-- A part of the directory that is not changed by any action of a list. -/
theorem foldl_keep {X : Type} (g : K → X) (l : List (Act K V)) (h : ∀ a ∈ l, ∀ k, g (effect k a) = g k) (k : K) :
    g (l.foldl effect k) = g k := by
  induction l generalizing k with
  | nil => rfl
  | cons a l ih =>
    rw [List.foldl_cons, ih (fun b hb => h b (List.mem_cons_of_mem _ hb)), h a List.mem_cons_self]

/-- If the root changes something only after a reduction that process `s` has not yet entered, it has not changed. -/
theorem Inv.before {acts : Fin (n + 1) → List (Act K V)} {k : K} {m : State n K V} (hi : Inv acts k m) {X : Type} (g : K → X)
    (s : Fin (n + 1)) (c : ℕ) (hc : entered acts m s ≤ c)
    (h : ∀ p a, (acts 0)[p]? = some a → (∃ k, g (effect k a) ≠ g k) →
      ∃ q, q < p ∧ (acts 0)[q]? = some (.call true) ∧ c ≤ callsBefore (acts 0) q) :
    g m.disk = g k := by
  rw [hi.disk]
  apply foldl_keep
  intro a ha
  by_contra hne
  push Not at hne
  obtain ⟨p, hp⟩ := List.getElem?_of_mem ha
  have hlt : p < m.pos 0 := by
    by_contra hge
    rw [List.getElem?_eq_none (by rw [List.length_take]; omega)] at hp
    cases hp
  rw [List.getElem?_take_of_lt hlt] at hp
  obtain ⟨q, hq, hq1, hq2⟩ := h p a hp hne
  have := hi.passed 0 q (lt_trans hq hlt) hq1 s
  omega

/-- If the root has entered a call, what it changes only before that call has its final value. -/
theorem Inv.after {acts : Fin (n + 1) → List (Act K V)} {k : K} {m : State n K V} (hi : Inv acts k m) {X : Type} (g : K → X) (i : ℕ)
    (hent : callsBefore (acts 0) i + 1 ≤ entered acts m 0) (h : ∀ p a, i ≤ p → (acts 0)[p]? = some a → ∀ k, g (effect k a) = g k) :
    g m.disk = g ((acts 0).foldl effect k) := by
  have hpos : i ≤ m.pos 0 := by
    by_contra hlt
    push Not at hlt
    have h2 : entered acts m 0 ≤ callsBefore (acts 0) i := by
      unfold entered
      by_cases hin : m.inside 0 = true
      · obtain ⟨b, hb⟩ := hi.call 0 hin
        have h1 := callsBefore_succ hb
        rw [hin, if_pos rfl]
        have h3 := callsBefore_mono (acts 0) (show m.pos 0 + 1 ≤ i from hlt)
        simp only [Act.isCall, if_true] at h1
        omega
      · rw [if_neg hin, Nat.add_zero]
        exact callsBefore_mono _ hlt.le
    omega
  rw [hi.disk]
  conv_rhs => rw [← List.take_append_drop (m.pos 0) (acts 0), List.foldl_append]
  refine (foldl_keep g _ ?_ _).symm
  intro a ha k'
  obtain ⟨p, hp⟩ := List.getElem?_of_mem ha
  rw [List.getElem?_drop] at hp
  exact h (m.pos 0 + p) a (by omega) hp k'

/-- Every change of `g` in the list comes after a reduction. -/
def Guarded {X : Type} (g : K → X) (l : List (Act K V)) : Prop :=
  ∀ (p : ℕ) (a : Act K V), l[p]? = some a → (∃ k, g (effect k a) ≠ g k) → ∃ q, q < p ∧ l[q]? = some (Act.call true)

/-- No change of `g` in the list. -/
def Keeps {X : Type} (g : K → X) (l : List (Act K V)) : Prop := ∀ a ∈ l, ∀ k, g (effect k a) = g k

variable {X : Type} {g : K → X}

theorem Keeps.guarded {l : List (Act K V)} (h : Keeps g l) : Guarded g l := fun _ a hp ⟨k, hk⟩ => absurd (h a (List.mem_of_getElem? hp) k) hk

theorem Keeps.append {l l' : List (Act K V)} (h : Keeps g l) (h' : Keeps g l') : Keeps g (l ++ l') := by
  intro a ha
  rcases List.mem_append.mp ha with ha | ha
  · exact h a ha
  · exact h' a ha

theorem Keeps.cons {l : List (Act K V)} {a : Act K V} (ha : ∀ k, g (effect k a) = g k) (h' : Keeps g l) : Keeps g (a :: l) := by
  intro b hb
  rcases List.mem_cons.mp hb with hb | hb
  · exact hb ▸ ha
  · exact h' b hb

theorem Keeps.nil : Keeps g ([] : List (Act K V)) := fun _ h => absurd h List.not_mem_nil

theorem Keeps.flatMap {ι : Type} {f : ι → List (Act K V)} {l : List ι} (h : ∀ i ∈ l, Keeps g (f i)) : Keeps g (l.flatMap f) := by
  intro a ha
  obtain ⟨i, hi, ha⟩ := List.mem_flatMap.mp ha
  exact h i hi a ha

theorem Guarded.append {l l' : List (Act K V)} (h : Guarded g l) (h' : Guarded g l') : Guarded g (l ++ l') := by
  intro p a hp hk
  by_cases hl : p < l.length
  · rw [List.getElem?_append_left hl] at hp
    obtain ⟨q, hq, hq'⟩ := h p a hp hk
    exact ⟨q, hq, by rw [List.getElem?_append_left (hq.trans hl)]; exact hq'⟩
  · rw [List.getElem?_append_right (by omega)] at hp
    obtain ⟨q, hq, hq'⟩ := h' _ a hp hk
    refine ⟨l.length + q, by omega, ?_⟩
    rw [List.getElem?_append_right (by omega), Nat.add_sub_cancel_left]
    exact hq'

theorem Guarded.call (l : List (Act K V)) : Guarded g (.call true :: l) := by
  intro p a hp hk
  rcases p with _ | p
  · simp only [List.getElem?_cons_zero, Option.some.injEq] at hp
    subst hp
    obtain ⟨k, hk⟩ := hk
    exact absurd rfl hk
  · exact ⟨0, by omega, rfl⟩

theorem Guarded.flatMap {ι : Type} {f : ι → List (Act K V)} (h : ∀ i, Guarded g (f i)) (l : List ι) : Guarded g (l.flatMap f) := by
  induction l with
  | nil => exact fun p a hp => by simp at hp
  | cons i l ih => rw [List.flatMap_cons]; exact (h i).append ih

/-- The last call in the list is a reduction and `g` is not changed after it. -/
def Settled (g : K → X) (l : List (Act K V)) : Prop :=
  ∃ x y, l = x ++ .call true :: y ∧ (∀ a ∈ y, a.isCall = false) ∧ Keeps g y

theorem Settled.append_right {l l' : List (Act K V)} (h : Settled g l) (hc : ∀ a ∈ l', a.isCall = false) (hk : Keeps g l') : Settled g (l ++ l') := by
  obtain ⟨x, y, rfl, hy, hy'⟩ := h
  refine ⟨x, y ++ l', by simp, ?_, hy'.append hk⟩
  intro a ha
  rcases List.mem_append.mp ha with ha | ha
  · exact hy a ha
  · exact hc a ha

theorem Settled.append_left {l : List (Act K V)} (h : Settled g l) (l' : List (Act K V)) : Settled g (l' ++ l) := by
  obtain ⟨x, y, rfl, hy, hy'⟩ := h
  exact ⟨l' ++ x, y, by simp, hy, hy'⟩

theorem length_filter_append_call {x y : List (Act K V)} (h : ∀ a ∈ y, a.isCall = false) :
    ((x ++ .call true :: y).filter Act.isCall).length = (x.filter Act.isCall).length + 1 := by
  rw [List.filter_append, List.length_append, List.filter_cons_of_pos (by rfl), List.length_cons, (List.filter_eq_nil_iff (l := y)).mpr (by simpa using h)]
  rfl

/-- The only place of an action with a property. -/
theorem index_of_split {A B : List (Act K V)} {x : Act K V} (φ : Act K V → Prop) (hA : ∀ a ∈ A, ¬φ a) (hB : ∀ a ∈ B, ¬φ a) {p : ℕ}
    {a : Act K V} (hp : (A ++ x :: B)[p]? = some a) (ha : φ a) : p = A.length := by
  by_cases hl : p < A.length
  · rw [List.getElem?_append_left hl] at hp
    exact absurd ha (hA a (List.mem_of_getElem? hp))
  · rw [List.getElem?_append_right (by omega)] at hp
    rcases hq : p - A.length with _ | q
    · omega
    · rw [hq, List.getElem?_cons_succ] at hp
      exact absurd ha (hB a (List.mem_of_getElem? hp))

end GPSKet.SharedFiles
