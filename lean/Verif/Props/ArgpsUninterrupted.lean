import Verif.Props.ArgpsMetrics

/-!
C98 and C99 for the training script of ARGPS when no process is killed: the parameters are those of the
optimisation without interruption, and `metrics.csv` is a header followed by one row for each step.
C98 also for optimisations in which the samples do not matter.
-/

namespace GPSKet.ArgpsRun

open Workdir TrainingSpec

variable {V O E S T R : Type}

/-- `metrics.csv` is a header followed by the rows of the steps 1 to `n`, in this order. -/
def Exact (k : Disk V O E T R) (n : Nat) : Prop :=
  ∃ rs : List (Nat × T), k.metrics = some (.header :: rs.map (fun r => .row r.1 r.2)) ∧ rs.map Prod.fst = List.range' 1 n

/-- The driver and the sampler are what `d.count` steps without interruption give. -/
def Straight (fresh : Config R → Driver V O E × S) (u : Update V O E S T) (c₀ : Config R) (d : Driver V O E) (s : S) :
    Prop :=
  ∃ v o e s₀, Start fresh c₀ v o e s₀ ∧ uninterrupted u v o e s₀ d.count = (d.vars, d.opt, d.ema, s)

theorem Straight.advance {fresh : Config R → Driver V O E × S} {u : Update V O E S T} {c₀ : Config R}
    {d : Driver V O E} {s : S} (h : Straight fresh u c₀ d s) :
    Straight fresh u c₀ (Workdir.advance u d s).1 (Workdir.advance u d s).2.1 := by
  obtain ⟨v, o, e, s₀, h1, h2⟩ := h
  refine ⟨v, o, e, s₀, h1, ?_⟩
  simp only [Workdir.advance, uninterrupted, h2]

/-- The checkpoints of a complete run. -/
def Final (c₀ : Config R) (k : Disk V O E T R) (d : Driver V O E) : Prop :=
  (c₀.steps = 0 ∧ k.ckpts = []) ∨ (c₀.steps ≠ 0 ∧ latest k.ckpts = some (c₀.steps, serialize d))

/-- A directory in which nothing has happened or which holds a complete run. -/
def Idle (fresh : Config R → Driver V O E × S) (u : Update V O E S T) (c₀ : Config R) (k : Disk V O E T R) : Prop :=
  (k.ckpts = [] ∧ k.metrics = none) ∨
  (Exact k c₀.steps ∧ ∃ d s, Straight fresh u c₀ d s ∧ d.count = c₀.steps ∧ Final c₀ k d)

/-- The invariant of histories in which no process is killed. -/
def UInv (fresh : Config R → Driver V O E × S) (u : Update V O E S T) (c₀ : Config R) (k : Disk V O E T R) :
    Option (Proc V O E S T R) → Prop
  | some (.logging _ d s) => (k.ckpts = [] ∧ k.metrics = none ∧ Straight fresh u c₀ d s ∧ d.count = 0) ∨
      (Exact k c₀.steps ∧ d.count = c₀.steps ∧ (∃ s', Straight fresh u c₀ d s') ∧ Final c₀ k d)
  | some (.logOpen _ d s) => k.ckpts = [] ∧ Straight fresh u c₀ d s ∧ d.count = 0
  | some (.loop _ step d s) => Exact k d.count ∧ (d.count ≠ c₀.steps → Straight fresh u c₀ d s) ∧
      (∃ s', Straight fresh u c₀ d s') ∧ (d.count = c₀.steps → Final c₀ k d) ∧ step = d.count + 1
  | some (.advanced _ step d s _) => Exact k (step - 1) ∧ Straight fresh u c₀ d s ∧ step = d.count
  | some (.logged _ step d s) => Exact k step ∧ Straight fresh u c₀ d s ∧ step = d.count
  | some (.finished _ d) => Exact k c₀.steps ∧ (∃ s', Straight fresh u c₀ d s') ∧ d.count = c₀.steps ∧ Final c₀ k d
  | some .raised => True
  | _ => Idle fresh u c₀ k

theorem start_of {fresh : Config R → Driver V O E × S} {u : Update V O E S T} {c₀ c : Config R}
    (hfresh : ∀ c, (fresh c).1.count = 0) (h : IsConfig c₀ c) : Straight fresh u c₀ (fresh c).1 (fresh c).2 := by
  obtain ⟨seed, hs, hc⟩ := h.eq
  have h0 := hfresh c
  refine ⟨(fresh c).1.vars, (fresh c).1.opt, (fresh c).1.ema, (fresh c).2, ⟨seed, hs, ?_⟩, ?_⟩
  · rw [← hc]
    generalize fresh c = x at h0
    obtain ⟨⟨v, o, e, n⟩, s⟩ := x
    simp only at h0
    simp [h0]
  · rw [h0]; rfl

theorem uinv_exec {fresh : Config R → Driver V O E × S} {u : Update V O E S T} {c₀ : Config R}
    (hfresh : ∀ c, (fresh c).1.count = 0) {k : Disk V O E T R} {p : Proc V O E S T R}
    (hI : Inv fresh u c₀ k (some p)) (h : UInv fresh u c₀ k (some p)) :
    UInv fresh u c₀ (exec fresh u k p).1 (some (exec fresh u k p).2) := by
  obtain ⟨hc, hk, hp⟩ := hI
  cases p with
  | boot arg drawn =>
    simp only [exec]
    cases readConfig arg k.config with
    | none => trivial
    | some c => exact h
  | configOpen c => exact h
  | restoring c =>
    simp only [exec, restore]
    rcases h with ⟨h1, h2⟩ | ⟨h1, d, s, h2, h3, h4⟩
    · left
      have : latest k.ckpts = none := latest_none.mpr h1
      rw [this]
      exact ⟨h1, h2, start_of hfresh hp, hfresh c⟩
    · right
      rcases h4 with ⟨h5, h6⟩ | ⟨h5, h6⟩
      · have : latest k.ckpts = none := latest_none.mpr h6
        rw [this]
        exact ⟨h1, by rw [hfresh, h5], ⟨_, start_of hfresh hp⟩, Or.inl ⟨h5, h6⟩⟩
      · have hd : deserialize (fresh c).1 (serialize d) = d := rfl
        rw [h6]
        simp only [hd]
        exact ⟨h1, h3, ⟨s, h2⟩, Or.inr ⟨h5, h6⟩⟩
  | logging c d s =>
    simp only [exec]
    rcases h with ⟨h1, h2, h3, h4⟩ | ⟨⟨rs, h1, h1'⟩, h2, h3, h4⟩
    · rw [h2]
      exact ⟨h1, h3, h4⟩
    · rw [h1]
      exact ⟨⟨rs, h1, h2 ▸ h1'⟩, fun hne => absurd h2 hne, h3, fun _ => h4, rfl⟩
  | logOpen c d s =>
    obtain ⟨h1, h2, h3⟩ := h
    simp only [exec]
    refine ⟨⟨[], rfl, by simp [h3]⟩, fun _ => h2, ⟨s, h2⟩, fun he => Or.inl ⟨by omega, h1⟩, rfl⟩
  | loop c step d s =>
    obtain ⟨h1, h2, h3, h4, h5⟩ := h
    obtain ⟨hcfg, -, hle, -⟩ := hp
    simp only [exec]
    by_cases hstep : step ≤ c.steps
    · rw [if_pos hstep]
      rw [hcfg.steps] at hstep
      refine ⟨?_, (h2 (by omega)).advance, h5⟩
      rw [h5]; exact h1
    · rw [if_neg hstep]
      rw [hcfg.steps] at hstep
      have he : d.count = c₀.steps := by omega
      exact ⟨he ▸ h1, h3, he, h4 he⟩
  | advanced c step d s t =>
    obtain ⟨⟨rs, h1, h1'⟩, h2, h3⟩ := h
    obtain ⟨-, -, -, -, -, hone⟩ := hp
    refine ⟨⟨rs ++ [(step, t)], ?_, ?_⟩, h2, h3⟩
    · simp [exec, h1]
    · rw [List.map_append, h1']
      obtain ⟨m, rfl⟩ : ∃ m, step = m + 1 := ⟨step - 1, by omega⟩
      simp [List.range'_concat, Nat.add_comm]
  | logged c step d s =>
    obtain ⟨h1, h2, h3⟩ := h
    obtain ⟨hcfg, -, hle, hlt, -, hone⟩ := hp
    simp only [exec]
    by_cases hsave : (c.every ≠ 0 ∧ step % c.every = 0) ∨ step = c.steps
    · have hlt' : ∀ b ∈ k.ckpts, b.1 < step := fun b hb => by have := hlt b.1 b.2 hb; omega
      rw [if_pos hsave, save_ok hlt']
      refine ⟨?_, fun _ => h2, ⟨s, h2⟩, fun he => Or.inr ⟨by omega, ?_⟩, by omega⟩
      · rw [← h3]; exact h1
      · rw [← he, ← h3]
        exact latest_save hlt' _
    · rw [if_neg hsave]
      push Not at hsave
      rw [hcfg.steps] at hsave
      exact ⟨h3 ▸ h1, fun _ => h2, ⟨s, h2⟩, fun he => absurd he (by omega), by omega⟩
  | finished c d => exact h
  | raised => exact h

theorem uinv_reach {fresh : Config R → Driver V O E × S} {u : Update V O E S T} {c₀ : Config R}
    (hfresh : ∀ c, (fresh c).1.count = 0) {n : Nat} {k : Disk V O E T R} {p : Option (Proc V O E S T R)}
    (h : Reach fresh u c₀ n k p) (hn : n = 0) : UInv fresh u c₀ k p := by
  induction h with
  | empty => exact Or.inl ⟨rfl, rfl⟩
  | start arg drawn _ _ ih => exact ih hn
  | run hr ih => exact uinv_exec hfresh (inv_reach hfresh hr) (ih hn)
  | kill _ _ => simp at hn
  | exit _ ih =>
    obtain ⟨h1, ⟨s, h2⟩, h3, h4⟩ := ih hn
    exact Or.inr ⟨h1, _, s, h2, h3, h4⟩

/-- **C98** (part): if no process is killed, the parameters at the end are those of the optimisation
without interruption. -/
theorem C98_not_killed {fresh : Config R → Driver V O E × S} {u : Update V O E S T} {c₀ : Config R}
    (hfresh : ∀ c, (fresh c).1.count = 0) {k : Disk V O E T R} {c : Config R} {d : Driver V O E}
    (h : Reach fresh u c₀ 0 k (some (.finished c d))) :
    ∃ v o e s₀ s, Start fresh c₀ v o e s₀ ∧ uninterrupted u v o e s₀ c₀.steps = (d.vars, d.opt, d.ema, s) := by
  obtain ⟨-, ⟨s, v, o, e, s₀, h1, h2⟩, h3, -⟩ := uinv_reach hfresh h rfl
  exact ⟨v, o, e, s₀, s, h1, by rw [← h3]; exact h2⟩

/-- **C99** (part): if no process is killed, `metrics.csv` is at the end a header followed by one row for
each of the steps 1 to `max_steps` in this order. -/
theorem C99_not_killed {fresh : Config R → Driver V O E × S} {u : Update V O E S T} {c₀ : Config R}
    (hfresh : ∀ c, (fresh c).1.count = 0) {k : Disk V O E T R} {c : Config R} {d : Driver V O E}
    (h : Reach fresh u c₀ 0 k (some (.finished c d))) :
    ∃ rs : List (Nat × T), k.metrics = some (.header :: rs.map (fun r => .row r.1 r.2)) ∧
      rs.map Prod.fst = List.range' 1 c₀.steps :=
  (uinv_reach hfresh h rfl).1

/-- Without influence of the samples, any sequence of steps and restarts gives the same. -/
theorem trained_eq {u : Update V O E S T} {start : V → O → E → S → Prop} {samplers : S → Prop}
    (hu : ∀ v o e n s s', ((u v o e n s).1, (u v o e n s).2.1, (u v o e n s).2.2.1)
      = ((u v o e n s').1, (u v o e n s').2.1, (u v o e n s').2.2.1))
    {v₀ : V} {o₀ : O} {e₀ : E} {s₀ : S} (hstart : ∀ v o e s, start v o e s → v = v₀ ∧ o = o₀ ∧ e = e₀)
    {n : Nat} {v : V} {o : O} {e : E} {s : S} (h : Trained u start samplers n v o e s) :
    (v, o, e) = ((uninterrupted u v₀ o₀ e₀ s₀ n).1, (uninterrupted u v₀ o₀ e₀ s₀ n).2.1,
      (uninterrupted u v₀ o₀ e₀ s₀ n).2.2.1) := by
  induction h with
  | start h =>
    obtain ⟨rfl, rfl, rfl⟩ := hstart _ _ _ _ h
    rfl
  | step _ hs ih =>
    rename_i n v o e s v' o' e' s' t _
    simp only [Prod.mk.injEq] at ih
    obtain ⟨rfl, rfl, rfl⟩ := ih
    simp only [uninterrupted]
    rw [← hu _ _ _ n s, hs]
  | sampler _ _ ih => exact ih

/-- **C98** (part): if the samples have no influence on the steps (all configurations are summed over, say)
and the configuration has a seed, then whatever the history, the parameters at the end are those of the
optimisation without interruption. -/
theorem C98_partial {fresh : Config R → Driver V O E × S} {u : Update V O E S T} {c₀ : Config R}
    (hfresh : ∀ c, (fresh c).1.count = 0)
    (hu : ∀ v o e n s s', ((u v o e n s).1, (u v o e n s).2.1, (u v o e n s).2.2.1)
      = ((u v o e n s').1, (u v o e n s').2.1, (u v o e n s').2.2.1))
    {seed : Nat} (hseed : c₀.seed = some seed)
    {n : Nat} {k : Disk V O E T R} {c : Config R} {d : Driver V O E}
    (h : Reach fresh u c₀ n k (some (.finished c d))) :
    ∃ s, uninterrupted u (fresh c₀).1.vars (fresh c₀).1.opt (fresh c₀).1.ema (fresh c₀).2 c₀.steps
      = (d.vars, d.opt, d.ema, s) := by
  obtain ⟨⟨s, hs⟩, -⟩ := C97_finished hfresh h
  have hstart : ∀ v o e s, Start fresh c₀ v o e s →
      v = (fresh c₀).1.vars ∧ o = (fresh c₀).1.opt ∧ e = (fresh c₀).1.ema := by
    rintro v o e s ⟨seed', h1, h2⟩
    have : seed' = seed := by rw [hseed] at h1; simpa [eq_comm] using h1
    have hc : ({ c₀ with seed := some seed' } : Config R) = c₀ := by rw [this, ← hseed]
    rw [hc] at h2
    rw [h2]
    exact ⟨rfl, rfl, rfl⟩
  have := trained_eq hu (s₀ := (fresh c₀).2) hstart hs
  simp only [Prod.mk.injEq] at this
  obtain ⟨h1, h2, h3⟩ := this
  exact ⟨_, by rw [h1, h2, h3]⟩

end GPSKet.ArgpsRun
