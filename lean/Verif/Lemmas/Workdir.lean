import Verif.Model.Workdir
import Mathlib.Data.List.Basic
import Mathlib.Data.List.Induction
import Mathlib.Tactic.Basic

/-! Facts about the checkpoints of the training scripts. -/

namespace GPSKet.Workdir

variable {α R : Type}

theorem resolve_resolve (c : Config R) (a b : Nat) : resolve (resolve c a) b = resolve c a := by
  simp [resolve]

theorem resolve_steps (c : Config R) (a : Nat) : (resolve c a).steps = c.steps := rfl
theorem resolve_every (c : Config R) (a : Nat) : (resolve c a).every = c.every := rfl
theorem resolve_finishing (c : Config R) (a : Nat) : (resolve c a).finishing = c.finishing := rfl

/-- Choosing the later of two checkpoints. -/
def later (b : Option (Nat × α)) (c : Nat × α) : Option (Nat × α) :=
  match b with
  | none => some c
  | some b => if b.1 < c.1 then some c else some b

theorem latest_eq (cs : List (Nat × α)) : latest cs = cs.foldl later none := rfl

theorem latest_concat (cs : List (Nat × α)) (c : Nat × α) : latest (cs ++ [c]) = later (latest cs) c := by
  simp [latest_eq]

theorem latest_none {cs : List (Nat × α)} : latest cs = none ↔ cs = [] := by
  induction cs using List.reverseRecOn with
  | nil => simp [latest]
  | append_singleton cs c ih =>
    rw [latest_concat]
    cases h : latest cs with
    | none => simp [later]
    | some b => by_cases hb : b.1 < c.1 <;> simp [later, hb]

theorem latest_spec {cs : List (Nat × α)} {c : Nat × α} (h : latest cs = some c) :
    c ∈ cs ∧ ∀ c' ∈ cs, c'.1 ≤ c.1 := by
  induction cs using List.reverseRecOn generalizing c with
  | nil => simp [latest] at h
  | append_singleton cs d ih =>
    rw [latest_concat] at h
    cases hl : latest cs with
    | none =>
      rw [hl] at h
      rw [latest_none] at hl
      subst hl
      simp only [later, Option.some.injEq] at h
      subst h
      simp
    | some b =>
      obtain ⟨hb, hm⟩ := ih hl
      rw [hl] at h
      by_cases hlt : b.1 < d.1
      · simp only [later, hlt, if_true, Option.some.injEq] at h
        subst h
        refine ⟨by simp, fun c' hc' => ?_⟩
        rcases List.mem_append.mp hc' with h' | h'
        · have := hm c' h'; omega
        · rw [List.mem_singleton.mp h']; exact Nat.le_refl _
      · simp only [later, hlt, if_false, Option.some.injEq] at h
        subst h
        refine ⟨by simp [hb], fun c' hc' => ?_⟩
        rcases List.mem_append.mp hc' with h' | h'
        · exact hm c' h'
        · rw [List.mem_singleton.mp h']; omega

theorem latest_max {cs : List (Nat × α)} {c : Nat × α} (hc : c ∈ cs) (hm : ∀ c' ∈ cs, c' ≠ c → c'.1 < c.1) :
    latest cs = some c := by
  cases h : latest cs with
  | none => rw [latest_none] at h; subst h; simp at hc
  | some b =>
    obtain ⟨hb, hle⟩ := latest_spec h
    by_contra hne
    have hne' : b ≠ c := fun h' => hne (by rw [h'])
    exact absurd (hm b hb hne') (by have := hle c hc; omega)

theorem save_some {cs cs' : List (Nat × α)} {step : Nat} {a : α} :
    saveCheckpoint cs step a = some cs' ↔ (∀ c ∈ cs, c.1 < step) ∧ cs' = cs ++ [(step, a)] := by
  unfold saveCheckpoint
  by_cases h : cs.any (fun c => decide (step ≤ c.1)) = true
  · simp only [h, if_true, reduceCtorEq, false_iff, not_and]
    intro hall
    obtain ⟨c, hc, hs⟩ := List.any_eq_true.mp h
    have := hall c hc
    simp at hs
    omega
  · simp only [h, Bool.false_eq_true, if_false, Option.some.injEq]
    constructor
    · intro h'
      refine ⟨fun c hc => ?_, h'.symm⟩
      by_contra hlt
      exact h (List.any_eq_true.mpr ⟨c, hc, by simp; omega⟩)
    · rintro ⟨-, h'⟩; exact h'.symm

theorem save_ok {cs : List (Nat × α)} {step : Nat} (h : ∀ c ∈ cs, c.1 < step) (a : α) :
    saveCheckpoint cs step a = some (cs ++ [(step, a)]) := save_some.mpr ⟨h, rfl⟩

theorem latest_save {cs : List (Nat × α)} {step : Nat} (h : ∀ c ∈ cs, c.1 < step) (a : α) :
    latest (cs ++ [(step, a)]) = some (step, a) :=
  latest_max (by simp) fun c' hc' hne => by
    rcases List.mem_append.mp hc' with h' | h'
    · exact h c' h'
    · exact absurd (List.mem_singleton.mp h') hne

theorem readConfig_cases {arg : Option (Config R)} {file : Option (Option (Config R))} {c : Config R}
    (h : readConfig arg file = some c) : arg = some c ∨ file = some (some c) := by
  cases arg with
  | some a => left; simpa [readConfig] using h
  | none =>
    right
    cases file with
    | none => simp [readConfig] at h
    | some f => cases f with
      | none => simp [readConfig] at h
      | some f => simpa [readConfig] using h

end GPSKet.Workdir
