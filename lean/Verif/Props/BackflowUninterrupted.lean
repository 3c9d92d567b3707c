import Verif.Props.BackflowRun

/-!
C101 for the training script for backflow states when no process is killed: with at least two training steps,
all steps are done.
-/

namespace GPSKet.BackflowRun

open Workdir TrainingSpec
open ArgpsRun (IsConfig Start)

variable {V O E S T R X : Type}

/-- The driver is in the training loop of the uninterrupted run. -/
def Run1 (P : Setup V O E S T R X) (c₀ : Config R) (d : Driver V O E) (s : S) : Prop :=
  ∃ v o e s₀, Start P.fresh c₀ v o e s₀ ∧ continued P.train 0 (v, o, e, s₀) d.count = (d.vars, d.opt, d.ema, s)

/-- The driver is in descent finishing of the uninterrupted run. -/
def Run2 (P : Setup V O E S T R X) (c₀ : Config R) (d : Driver V O E) (s : S) : Prop :=
  ∃ v o e s₀, Start P.fresh c₀ v o e s₀ ∧ c₀.steps ≤ d.count ∧
    twoPhases P.train P.finish P.newOpt (v, o, e, s₀) c₀.steps (d.count - c₀.steps) = (d.vars, d.opt, d.ema, s)

/-- The variables are the result of the uninterrupted run. -/
def Result (P : Setup V O E S T R X) (c₀ : Config R) (v' : V) : Prop :=
  ∃ v o e s₀, Start P.fresh c₀ v o e s₀ ∧
    (twoPhases P.train P.finish P.newOpt (v, o, e, s₀) c₀.steps (c₀.finishing.getD 0)).1 = v'

theorem Run1.advance {P : Setup V O E S T R X} {c₀ : Config R} {d : Driver V O E} {s : S} (h : Run1 P c₀ d s) :
    Run1 P c₀ (Workdir.advance P.train d s).1 (Workdir.advance P.train d s).2.1 := by
  obtain ⟨v, o, e, s₀, h1, h2⟩ := h
  exact ⟨v, o, e, s₀, h1, by simp only [Workdir.advance, continued, h2, Nat.zero_add]⟩

theorem Run2.advance {P : Setup V O E S T R X} {c₀ : Config R} {d : Driver V O E} {s : S} (h : Run2 P c₀ d s) :
    Run2 P c₀ (Workdir.advance P.finish d s).1 (Workdir.advance P.finish d s).2.1 := by
  obtain ⟨v, o, e, s₀, h1, h2, h3⟩ := h
  refine ⟨v, o, e, s₀, h1, by simp only [Workdir.advance]; omega, ?_⟩
  have e1 : d.count + 1 - c₀.steps = (d.count - c₀.steps) + 1 := by omega
  have e2 : c₀.steps + (d.count - c₀.steps) = d.count := by omega
  unfold twoPhases at h3 ⊢
  simp only [Workdir.advance, continued, e1, h3, e2]

theorem Run1.switch {P : Setup V O E S T R X} {c₀ : Config R} {d : Driver V O E} {s : S} (h : Run1 P c₀ d s)
    (hd : d.count = c₀.steps) : Run2 P c₀ { d with opt := P.newOpt d.vars } s := by
  obtain ⟨v, o, e, s₀, h1, h2⟩ := h
  refine ⟨v, o, e, s₀, h1, by simp [hd], ?_⟩
  rw [hd] at h2
  simp [twoPhases, h2, hd, continued]

theorem Run2.result {P : Setup V O E S T R X} {c₀ : Config R} {d : Driver V O E} {s : S} (h : Run2 P c₀ d s)
    (hd : d.count = total c₀) : Result P c₀ d.vars := by
  obtain ⟨v, o, e, s₀, h1, h2, h3⟩ := h
  refine ⟨v, o, e, s₀, h1, ?_⟩
  have : d.count - c₀.steps = c₀.finishing.getD 0 := by unfold total at hd; omega
  rw [← this, h3]

/-- The directory of a complete run, with a driver as at its end. -/
def Complete (P : Setup V O E S T R X) (c₀ : Config R) (k : Disk V O T R X) (d : Driver V O E) : Prop :=
  (∃ o, latest k.ckpts = some (total c₀, (d.vars, o, total c₀))) ∧ d.count = total c₀ ∧ Result P c₀ d.vars

/-- The invariant of the body of the loops. -/
def UBody (P : Setup V O E S T R X) (c₀ : Config R) (f : Frame R X) (step : Nat) (d : Driver V O E) (s : S) : Prop :=
  step = d.count ∧ if f.finishing then Run2 P c₀ d s else Run1 P c₀ d s

/-- The invariant of histories in which no process is killed. -/
def UInv (P : Setup V O E S T R X) (c₀ : Config R) (k : Disk V O T R X) : Option (Proc V O E S T R X) → Prop
  | some (.logging _ d s) => (k.ckpts = [] ∧ Run1 P c₀ d s ∧ d.count = 0) ∨ Complete P c₀ k d
  | some (.logOpen _ d s) => (k.ckpts = [] ∧ Run1 P c₀ d s ∧ d.count = 0) ∨ Complete P c₀ k d
  | some (.training _ d s) => (k.ckpts = [] ∧ Run1 P c₀ d s ∧ d.count = 0) ∨ Complete P c₀ k d
  | some (.loop f _ next d s) => next = d.count + 1 ∧
      (d.count = c₀.steps ∨ f.finishing = true → ∃ o, latest k.ckpts = some (d.count, (d.vars, o, d.count))) ∧
      if f.finishing then Run2 P c₀ d s else Run1 P c₀ d s
  | some (.advanced f step d s _) => UBody P c₀ f step d s
  | some (.logged f step d s _) => UBody P c₀ f step d s
  | some (.bestOpen f step d s _ _) => UBody P c₀ f step d s
  | some (.bestDone f step d s) => UBody P c₀ f step d s
  | some (.descent _ init step d s) => (Run1 P c₀ d s ∧ d.count = c₀.steps ∧ step = d.count ∧ init < c₀.steps ∧
      ∃ o, latest k.ckpts = some (d.count, (d.vars, o, d.count))) ∨ (Complete P c₀ k d ∧ total c₀ ≤ init)
  | some (.finished _ d) => Complete P c₀ k d
  | some .raised => True
  | _ => k.ckpts = [] ∨ ∃ d : Driver V O E, Complete P c₀ k d

theorem start_of {P : Setup V O E S T R X} {c₀ c : Config R}
    (hfresh : ∀ c, (P.fresh c).1.count = 0) (h : IsConfig c₀ c) : Run1 P c₀ (P.fresh c).1 (P.fresh c).2 := by
  obtain ⟨seed, hs, hc⟩ := h.eq
  have h0 := hfresh c
  refine ⟨(P.fresh c).1.vars, (P.fresh c).1.opt, (P.fresh c).1.ema, (P.fresh c).2, ⟨seed, hs, ?_⟩, ?_⟩
  · rw [← hc]
    generalize P.fresh c = x at h0
    obtain ⟨⟨v, o, e, n⟩, s⟩ := x
    simp only at h0
    simp [h0]
  · rw [h0]; rfl

theorem uinv_exec [LinearOrder X] {P : Setup V O E S T R X} {c₀ : Config R}
    (hfresh : ∀ c, (P.fresh c).1.count = 0) (h2s : 2 ≤ c₀.steps) {k : Disk V O T R X} {p : Proc V O E S T R X}
    (hI : Inv c₀ k (some p)) (h : UInv P c₀ k (some p)) :
    UInv P c₀ (exec P k p).1 (some (exec P k p).2) := by
  obtain ⟨hc, hk, hp⟩ := hI
  have htot : c₀.steps ≤ total c₀ := by unfold total; omega
  cases p with
  | boot arg drawn =>
    simp only [exec]
    cases readConfig arg k.config with
    | none => trivial
    | some c => exact h
  | configOpen c => exact h
  | restoring c =>
    simp only [exec, restore]
    rcases h with h | ⟨d, ⟨o, h1⟩, h2, h3⟩
    · left
      have : latest k.ckpts = none := latest_none.mpr h
      rw [this]
      exact ⟨h, start_of hfresh hp, hfresh c⟩
    · right
      rw [h1]
      exact ⟨⟨o, h1⟩, rfl, h3⟩
  | logging c d s =>
    simp only [exec]
    cases k.metrics <;> exact h
  | logOpen c d s => exact h
  | training c d s =>
    simp only [exec]
    have hs := hp.1.steps
    rcases h with ⟨h1, h2, h3⟩ | h
    · rw [if_pos (by omega)]
      cases k.best with
      | none => exact ⟨rfl, fun h => absurd h (by simp; omega), by simpa using h2⟩
      | some b => cases b with
        | none => trivial
        | some b => exact ⟨rfl, fun h => absurd h (by simp; omega), by simpa using h2⟩
    · have hcount := h.2.1
      rw [if_neg (by omega)]
      exact Or.inr ⟨h, by omega⟩
  | loop f step next d s =>
    obtain ⟨h1, h2, h3⟩ := h
    obtain ⟨hcfg, -, hf1, hf2⟩ := hp
    have hs := hcfg.steps
    have htc := IsConfig.total hcfg
    simp only [exec]
    cases hf : f.finishing with
    | true =>
      obtain ⟨-, h6, h7⟩ := hf2 hf
      simp only [hf, if_true] at h3
      simp only [if_true, htc]
      by_cases hn : next ≤ total c₀
      · rw [if_pos hn]
        exact ⟨h1, by simpa [hf] using h3.advance⟩
      · rw [if_neg hn]
        have hd : d.count = total c₀ := by omega
        obtain ⟨o, ho⟩ := h2 (Or.inr hf)
        exact ⟨⟨o, by rw [← hd]; exact ho⟩, hd, h3.result hd⟩
    | false =>
      obtain ⟨h5, h6, h7, h8⟩ := hf1 hf
      simp only [hf, if_false, Bool.false_eq_true] at h3
      simp only [if_false, Bool.false_eq_true, hs]
      by_cases hn : next ≤ c₀.steps
      · rw [if_pos hn]
        exact ⟨h1, by simpa [hf] using h3.advance⟩
      · rw [if_neg hn]
        exact Or.inl ⟨h3, by omega, by omega, h7, h2 (Or.inl (by omega))⟩
  | advanced f step d s t => exact h
  | logged f step d s t =>
    simp only [exec]
    split <;> exact h
  | bestOpen f step d s e v => exact h
  | bestDone f step d s =>
    obtain ⟨h1, h2⟩ := h
    obtain ⟨hcfg, -, hlt, hf1, hf2⟩ := hp
    have hs := hcfg.steps
    simp only [exec]
    split
    · rw [save_ok (fun b hb => hlt b.1 b.2 hb)]
      refine ⟨by omega, fun _ => ⟨d.opt, ?_⟩, h2⟩
      rw [← h1]
      have := latest_save (fun b hb => hlt b.1 b.2 hb) (serialize d)
      rw [this, serialize, ← h1]
    · rename_i hsave
      push Not at hsave
      refine ⟨by omega, fun h => absurd h ?_, h2⟩
      simp only [not_or]
      exact ⟨by rw [← h1, ← hs]; exact hsave.2.2, hsave.1⟩
  | descent c init step d s =>
    have htc := IsConfig.total hp.1
    simp only [exec]
    rcases h with ⟨h1, h2, h3, h4, h5⟩ | ⟨h1, h2⟩
    · split
      · have hloop : ∀ (b : Option (X × X)), UInv P c₀ k (some (.loop ⟨c, init, true, b⟩ step (step + 1)
            { d with opt := P.newOpt d.vars } s : Proc V O E S T R X)) := by
          intro b
          exact ⟨by simp [h3], fun _ => h5, by simpa using h1.switch h2⟩
        cases k.best with
        | none => exact hloop none
        | some b => cases b with
          | none => trivial
          | some b => exact hloop _
      · rename_i hcond
        rw [htc, IsConfig.fin hp.1] at hcond
        have hnone : c₀.finishing = none := by
          by_contra hne
          exact hcond ⟨hne, by omega⟩
        have ht : total c₀ = c₀.steps := by simp [total, hnone]
        have hd : d.count = total c₀ := by omega
        obtain ⟨o, ho⟩ := h5
        exact ⟨⟨o, by rw [← hd]; exact ho⟩, hd, by simpa using (h1.switch h2).result hd⟩
    · rw [if_neg (by rw [htc]; omega)]
      exact h1
  | finished c d => exact h
  | raised => exact h

theorem uinv_reach [LinearOrder X] {P : Setup V O E S T R X} {c₀ : Config R}
    (hfresh : ∀ c, (P.fresh c).1.count = 0) (h2s : 2 ≤ c₀.steps) {n : Nat} {seen : List T} {k : Disk V O T R X}
    {p : Option (Proc V O E S T R X)} (h : Reach P c₀ n seen k p) (hn : n = 0) : UInv P c₀ k p := by
  induction h with
  | empty => exact Or.inl rfl
  | start arg drawn _ _ ih => exact ih hn
  | run hr ih => exact uinv_exec hfresh h2s (inv_reach hfresh hr) (ih hn)
  | kill _ _ => simp at hn
  | exit _ ih => exact Or.inr ⟨_, ih hn⟩

/-- **C101** (part): if no process is killed and there are at least two training steps, then at the end all
steps of both loops have been done without interruption, and their result is the latest checkpoint. -/
theorem C101_not_killed [LinearOrder X] {P : Setup V O E S T R X} {c₀ : Config R}
    (hfresh : ∀ c, (P.fresh c).1.count = 0) (h2s : 2 ≤ c₀.steps) {seen : List T} {k : Disk V O T R X} {c : Config R}
    {d : Driver V O E} (h : Reach P c₀ 0 seen k (some (.finished c d))) :
    d.count = c₀.steps + c₀.finishing.getD 0 ∧
    (∃ v o e s₀, Start P.fresh c₀ v o e s₀ ∧
      (twoPhases P.train P.finish P.newOpt (v, o, e, s₀) c₀.steps (c₀.finishing.getD 0)).1 = d.vars) ∧
    ∃ o, latest k.ckpts = some (c₀.steps + c₀.finishing.getD 0, (d.vars, o, d.count)) := by
  obtain ⟨⟨o, h1⟩, h2, h3⟩ := uinv_reach hfresh h2s h rfl
  exact ⟨h2, h3, o, by rw [h2]; exact h1⟩

end GPSKet.BackflowRun
