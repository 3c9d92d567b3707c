import Verif.Model.AbInitioRun
import Verif.Spec.EarlyStopping
import Mathlib.Tactic.Basic
import Mathlib.Tactic.Use
import Mathlib.Data.List.Induction
import Mathlib.Data.List.Basic

/-!
Lemmas on the place of the smallest variance.
-/

namespace GPSKet.AbInitioRun

open EarlyStopping

variable {P S V T D : Type}

section
variable [LinearOrder V]

theorem foldl_better_length (l : List V) : (l.foldl better (0, none)).1 = l.length := by
  induction l using List.reverseRecOn with
  | nil => rfl
  | append_singleton l v ih => simp [List.foldl_append, better, ih]

@[simp] theorem argmin_nil : argmin ([] : List V) = none := rfl

theorem argmin_append (l : List V) (v : V) :
    argmin (l ++ [v]) = match argmin l with
      | none => some (l.length, v)
      | some (b, w) => if v < w then some (l.length, v) else some (b, w) := by
  have := foldl_better_length l
  unfold argmin
  rw [List.foldl_append]
  simp only [List.foldl_cons, List.foldl_nil, better]
  rw [this]
  cases (List.foldl better (0, none) l).2 <;> rfl

theorem argmin_eq_none {l : List V} : argmin l = none ↔ l = [] := by
  induction l using List.reverseRecOn with
  | nil => simp
  | append_singleton l v ih =>
    rw [argmin_append]
    cases argmin l with
    | none => simp
    | some x => by_cases h : v < x.2 <;> simp [h]

theorem argmin_get {l : List V} {b : Nat} {w : V} (h : argmin l = some (b, w)) : l[b]? = some w := by
  induction l using List.reverseRecOn generalizing b w with
  | nil => simp at h
  | append_singleton l v ih =>
    rw [argmin_append] at h
    cases hl : argmin l with
    | none =>
      rw [hl] at h
      simp only [Option.some.injEq, Prod.mk.injEq] at h
      obtain ⟨rfl, rfl⟩ := h
      simp
    | some x =>
      obtain ⟨b', w'⟩ := x
      rw [hl] at h
      dsimp only at h
      by_cases hv : v < w'
      · rw [if_pos hv] at h
        simp only [Option.some.injEq, Prod.mk.injEq] at h
        obtain ⟨rfl, rfl⟩ := h
        simp
      · rw [if_neg hv] at h
        simp only [Option.some.injEq, Prod.mk.injEq] at h
        obtain ⟨rfl, rfl⟩ := h
        have := ih hl
        have hb : b' < l.length := by
          rw [List.getElem?_eq_some_iff] at this
          exact this.1
        rw [List.getElem?_append_left hb]
        exact this

theorem argmin_lt {l : List V} {b : Nat} {w : V} (h : argmin l = some (b, w)) : b < l.length := by
  have := argmin_get h
  rw [List.getElem?_eq_some_iff] at this
  exact this.1

theorem argmin_le {l : List V} {b : Nat} {w : V} (h : argmin l = some (b, w)) : ∀ v ∈ l, w ≤ v := by
  induction l using List.reverseRecOn generalizing b w with
  | nil => simp
  | append_singleton l v ih =>
    rw [argmin_append] at h
    cases hl : argmin l with
    | none =>
      rw [argmin_eq_none] at hl
      subst hl
      simp at h
      simp [h.2]
    | some x =>
      obtain ⟨b', w'⟩ := x
      rw [hl] at h
      dsimp only at h
      by_cases hv : v < w'
      · rw [if_pos hv] at h
        simp only [Option.some.injEq, Prod.mk.injEq] at h
        obtain ⟨rfl, rfl⟩ := h
        intro x hx
        rw [List.mem_append, List.mem_singleton] at hx
        rcases hx with hx | rfl
        · exact le_trans (le_of_lt hv) (ih hl x hx)
        · exact le_refl _
      · rw [if_neg hv] at h
        simp only [Option.some.injEq, Prod.mk.injEq] at h
        obtain ⟨rfl, rfl⟩ := h
        intro x hx
        rw [List.mem_append, List.mem_singleton] at hx
        rcases hx with hx | rfl
        · exact ih hl x hx
        · exact not_lt.mp hv

theorem argmin_first {l : List V} {b : Nat} {w : V} (h : argmin l = some (b, w)) :
    ∀ (i : Nat) (v : V), i < b → l[i]? = some v → w < v := by
  induction l using List.reverseRecOn generalizing b w with
  | nil => simp
  | append_singleton l v ih =>
    intro i x hi hx
    have hb := argmin_lt h
    rw [argmin_append] at h
    cases hl : argmin l with
    | none =>
      rw [argmin_eq_none] at hl
      subst hl
      simp at h
      omega
    | some y =>
      obtain ⟨b', w'⟩ := y
      rw [hl] at h
      dsimp only at h
      by_cases hv : v < w'
      · rw [if_pos hv] at h
        simp only [Option.some.injEq, Prod.mk.injEq] at h
        obtain ⟨rfl, rfl⟩ := h
        rw [List.getElem?_append_left hi] at hx
        exact lt_of_lt_of_le hv (argmin_le hl x (List.mem_of_getElem? hx))
      · rw [if_neg hv] at h
        simp only [Option.some.injEq, Prod.mk.injEq] at h
        obtain ⟨rfl, rfl⟩ := h
        have := argmin_lt hl
        rw [List.getElem?_append_left (by omega)] at hx
        exact ih hl i x hi hx

/-- `argmin` finds the first smallest value. -/
theorem argmin_spec {l : List V} {b : Nat} {w : V} (h : argmin l = some (b, w)) : IsFirstMin l b :=
  ⟨w, argmin_get h, argmin_le h, argmin_first h⟩

theorem isFirstMin_unique {l : List V} {b b' : Nat} (h : IsFirstMin l b) (h' : IsFirstMin l b') : b = b' := by
  obtain ⟨v, h1, h2, h3⟩ := h
  obtain ⟨v', h1', h2', h3'⟩ := h'
  rcases Nat.lt_trichotomy b b' with hb | hb | hb
  · exact absurd (h3' b v hb h1) (not_lt.mpr (h2 v' (List.mem_of_getElem? h1')))
  · exact hb
  · exact absurd (h3 b' v' hb h1') (not_lt.mpr (h2' v (List.mem_of_getElem? h1)))

theorem argmin_of_isFirstMin {l : List V} {b : Nat} (h : IsFirstMin l b) : ∃ w, argmin l = some (b, w) := by
  cases ha : argmin l with
  | none =>
    rw [argmin_eq_none] at ha
    subst ha
    obtain ⟨v, h1, _⟩ := h
    simp at h1
  | some x =>
    obtain ⟨b', w⟩ := x
    have := isFirstMin_unique h (argmin_spec ha)
    exact ⟨w, by rw [this]⟩

end

/-- One optimisation step, as in the specification. -/
abbrev stepOf (u : P → S → Eval P S V T D) (θ : P) (s : S) : P × S := ((u θ s).next, (u θ s).sampler)

/-- The row of an evaluation. -/
abbrev rowOf (u : P → S → Eval P S V T D) (x : P × S) : V × T := ((u x.1 x.2).var, (u x.1 x.2).stats)

/-- The variance of an evaluation. -/
abbrev varOf (u : P → S → Eval P S V T D) (x : P × S) : V := (u x.1 x.2).var

theorem reset_eq (r : Rules) (g : Nat) (b : Option V) :
    reset r g b = if g < r.minGlobal.getD 0 then none else b := by
  unfold reset
  cases r.minGlobal <;> simp

end GPSKet.AbInitioRun
