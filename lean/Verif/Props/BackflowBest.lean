import Verif.Props.BackflowRun
import Mathlib.Order.Basic

/-!
C102: what `best_params.mpack` holds in every history of the training script for backflow states.
-/

namespace GPSKet.BackflowRun

open Workdir TrainingSpec
open ArgpsRun (IsConfig Start)

variable {V O E S T R X : Type} [LinearOrder X]

/-- Energy and variance `e`, `v` were seen, and nothing was seen with both a lower energy and a lower
variance. -/
def NotDominated (P : Setup V O E S T R X) (seen : List T) (e v : X) : Prop :=
  (∃ t ∈ seen, P.energy t = e ∧ P.variance t = v) ∧ ∀ t ∈ seen, ¬ (P.energy t < e ∧ P.variance t < v)

/-- The parameters `p` are the result of a step whose statistics are `t`. -/
def After (P : Setup V O E S T R X) (t : T) (p : V) : Prop :=
  ∃ v o e n s o' e' s', P.train v o e n s = (p, o', e', s', t) ∨ P.finish v o e n s = (p, o', e', s', t)

/-- Invariant of the file. -/
def BestOk (P : Setup V O E S T R X) (seen : List T) (k : Disk V O T R X) : Prop :=
  match k.best with
  | none => seen = []
  | some none => True
  | some (some b) => NotDominated P seen b.1 b.2.1 ∧
      ∃ t, P.energy t = b.1 ∧ P.variance t = b.2.1 ∧ After P t b.2.2

/-- The program remembers what is in the file. -/
def Remembers (k : Disk V O T R X) (b : Option (X × X)) : Prop :=
  (b = none ∧ k.best = none) ∨ ∃ e v p, b = some (e, v) ∧ k.best = some (some (e, v, p))

/-- Invariant of the file and of the process. -/
def BInv (P : Setup V O E S T R X) (seen : List T) (k : Disk V O T R X) : Option (Proc V O E S T R X) → Prop
  | some (.loop f _ _ _ _) => BestOk P seen k ∧ Remembers k f.best
  | some (.advanced f _ d _ t) => BestOk P seen k ∧ Remembers k f.best ∧ After P t d.vars
  | some (.logged f _ d _ t) => BestOk P seen k ∧ Remembers k f.best ∧ After P t d.vars
  | some (.bestOpen f _ d _ e v) => k.best = some none ∧ f.best = some (e, v) ∧ NotDominated P seen e v ∧
      ∃ t, P.energy t = e ∧ P.variance t = v ∧ After P t d.vars
  | some (.bestDone f _ _ _) => BestOk P seen k ∧ Remembers k f.best
  | _ => BestOk P seen k

theorem BInv.weaken {P : Setup V O E S T R X} {seen : List T} {k : Disk V O T R X}
    {p : Option (Proc V O E S T R X)} (h : BInv P seen k p) : BestOk P seen k := by
  match p, h with
  | none, h => exact h
  | some (.boot _ _), h => exact h
  | some (.configOpen _), h => exact h
  | some (.restoring _), h => exact h
  | some (.logging _ _ _), h => exact h
  | some (.logOpen _ _ _), h => exact h
  | some (.training _ _ _), h => exact h
  | some (.loop _ _ _ _ _), h => exact h.1
  | some (.advanced _ _ _ _ _), h => exact h.1
  | some (.logged _ _ _ _ _), h => exact h.1
  | some (.bestOpen _ _ _ _ _ _), h =>
    unfold BestOk
    rw [h.1]
    trivial
  | some (.bestDone _ _ _ _), h => exact h.1
  | some (.descent _ _ _ _ _), h => exact h
  | some (.finished _ _), h => exact h
  | some .raised, h => exact h

omit [LinearOrder X] in
theorem after_advance {P : Setup V O E S T R X} (b : Bool) (d : Driver V O E) (s : S) :
    After P (advance (if b then P.finish else P.train) d s).2.2 (advance (if b then P.finish else P.train) d s).1.vars := by
  cases b
  · exact ⟨d.vars, d.opt, d.ema, d.count, s, _, _, _, Or.inl rfl⟩
  · exact ⟨d.vars, d.opt, d.ema, d.count, s, _, _, _, Or.inr rfl⟩

theorem binv_exec {P : Setup V O E S T R X} {seen : List T} {k : Disk V O T R X} {p : Proc V O E S T R X}
    (h : BInv P seen k (some p)) :
    BInv P (seen ++ compares p) (exec P k p).1 (some (exec P k p).2) := by
  cases p with
  | boot arg drawn =>
    simp only [exec, compares, List.append_nil]
    cases readConfig arg k.config <;> exact h
  | configOpen c => (simp only [compares, List.append_nil]; exact h)
  | restoring c => (simp only [compares, List.append_nil]; exact h)
  | logging c d s =>
    simp only [exec, compares, List.append_nil]
    cases k.metrics <;> exact h
  | logOpen c d s => (simp only [compares, List.append_nil]; exact h)
  | training c d s =>
    have h' : BestOk P seen k := h
    simp only [exec, compares, List.append_nil]
    split
    · cases hb : k.best with
      | none => exact ⟨h', Or.inl ⟨rfl, hb⟩⟩
      | some b => cases b with
        | none => exact h'
        | some b => exact ⟨h', Or.inr ⟨b.1, b.2.1, b.2.2, rfl, hb⟩⟩
    · exact h'
  | loop f step next d s =>
    obtain ⟨h1, h2⟩ := h
    simp only [exec, compares, List.append_nil]
    have hadv := after_advance (P := P) f.finishing d s
    cases hf : f.finishing <;> simp only [hf, if_true, if_false, Bool.false_eq_true] at hadv ⊢
    · split
      · exact ⟨h1, h2, hadv⟩
      · exact h1
    · split
      · exact ⟨h1, h2, hadv⟩
      · exact h1
  | advanced f step d s t => (simp only [compares, List.append_nil]; exact h)
  | logged f step d s t =>
    obtain ⟨h1, h2, h3⟩ := h
    simp only [exec, compares]
    by_cases hb : better (P.energy t) (P.variance t) f.best = true
    · rw [if_pos hb]
      refine ⟨rfl, rfl, ⟨⟨t, by simp, rfl, rfl⟩, fun t' ht' => ?_⟩, t, rfl, rfl, h3⟩
      rcases List.mem_append.mp ht' with ht' | ht'
      · rcases h2 with ⟨-, h4⟩ | ⟨e, v, p, h4, h5⟩
        · unfold BestOk at h1
          rw [h4] at h1
          simp only at h1
          rw [h1] at ht'
          simp at ht'
        · unfold BestOk at h1
          rw [h5] at h1
          obtain ⟨⟨-, hnd⟩, -⟩ := h1
          rw [h4] at hb
          simp only [better, Bool.and_eq_true, decide_eq_true_eq] at hb
          exact fun hlt => hnd t' ht' ⟨hlt.1.trans hb.1, hlt.2.trans hb.2⟩
      · rw [List.mem_singleton.mp ht']
        exact fun hlt => lt_irrefl _ hlt.1
    · rw [if_neg hb]
      rcases h2 with ⟨h4, -⟩ | ⟨e, v, p, h4, h5⟩
      · rw [h4] at hb; simp [better] at hb
      · refine ⟨?_, Or.inr ⟨e, v, p, h4, h5⟩⟩
        unfold BestOk at h1 ⊢
        rw [h5] at h1 ⊢
        obtain ⟨⟨⟨t', ht', he⟩, hnd⟩, hp⟩ := h1
        rw [h4] at hb
        simp only [better, Bool.and_eq_true, decide_eq_true_eq] at hb
        refine ⟨⟨⟨t', by simp [ht'], he⟩, fun t'' ht'' => ?_⟩, hp⟩
        rcases List.mem_append.mp ht'' with ht'' | ht''
        · exact hnd t'' ht''
        · rw [List.mem_singleton.mp ht'']
          exact hb
  | bestOpen f step d s e v =>
    obtain ⟨h1, h2, h3, h4⟩ := h
    simp only [exec, compares, List.append_nil]
    exact ⟨⟨h3, h4⟩, Or.inr ⟨e, v, d.vars, h2, rfl⟩⟩
  | bestDone f step d s =>
    simp only [exec, compares, List.append_nil]
    split
    · cases saveCheckpoint k.ckpts step (serialize d) with
      | none => exact h.1
      | some cs => exact h
    · exact h
  | descent c init step d s =>
    have h' : BestOk P seen k := h
    simp only [exec, compares, List.append_nil]
    split
    · cases hb : k.best with
      | none => exact ⟨h', Or.inl ⟨rfl, hb⟩⟩
      | some b => cases b with
        | none => exact h'
        | some b => exact ⟨h', Or.inr ⟨b.1, b.2.1, b.2.2, rfl, hb⟩⟩
    · exact h'
  | finished c d => (simp only [compares, List.append_nil]; exact h)
  | raised => (simp only [compares, List.append_nil]; exact h)

theorem binv_reach {P : Setup V O E S T R X} {c₀ : Config R} {n : Nat} {seen : List T} {k : Disk V O T R X}
    {p : Option (Proc V O E S T R X)} (h : Reach P c₀ n seen k p) : BInv P seen k p := by
  induction h with
  | empty => rfl
  | start arg drawn _ _ ih => exact ih
  | run _ ih => exact binv_exec ih
  | kill _ ih => exact ih.weaken
  | exit _ ih => exact ih.weaken

/-- **C102** (part): in every history, if `best_params.mpack` is not empty, its energy and variance belong
together and were seen; no step of any of the processes was seen to have both a lower energy and a lower
variance; and its parameters are the result of a step with these statistics. -/
theorem C102_partial {P : Setup V O E S T R X} {c₀ : Config R} {n : Nat} {seen : List T} {k : Disk V O T R X}
    {p : Option (Proc V O E S T R X)} (h : Reach P c₀ n seen k p) {e v : X} {q : V}
    (hb : k.best = some (some (e, v, q))) :
    (∃ t ∈ seen, P.energy t = e ∧ P.variance t = v) ∧
    (∀ t ∈ seen, ¬ (P.energy t < e ∧ P.variance t < v)) ∧
    ∃ t v₀ o₀ e₀ m s₀ o' e' s', P.energy t = e ∧ P.variance t = v ∧
      (P.train v₀ o₀ e₀ m s₀ = (q, o', e', s', t) ∨ P.finish v₀ o₀ e₀ m s₀ = (q, o', e', s', t)) := by
  have := (binv_reach h).weaken
  unfold BestOk at this
  rw [hb] at this
  obtain ⟨⟨h1, h2⟩, t, h3, h4, v₀, o₀, e₀, m, s₀, o', e', s', h5⟩ := this
  exact ⟨h1, h2, t, v₀, o₀, e₀, m, s₀, o', e', s', h3, h4, h5⟩

/-- In every history, once a step was compared, the file exists. -/
theorem C102_exists {P : Setup V O E S T R X} {c₀ : Config R} {n : Nat} {seen : List T} {k : Disk V O T R X}
    {p : Option (Proc V O E S T R X)} (h : Reach P c₀ n seen k p) (hs : seen ≠ []) : k.best ≠ none := by
  have := (binv_reach h).weaken
  unfold BestOk at this
  intro hb
  rw [hb] at this
  exact hs this

end GPSKet.BackflowRun
