import Verif.Model.ArgpsRun
import Verif.Spec.Training
import Verif.Lemmas.Workdir
import Mathlib.Tactic.Basic
import Mathlib.Tactic.Use

/-!
C97: whenever the training script of ARGPS is killed and however often it is started again, no optimisation
step is lost or done twice in the parameters that it stores, and it ends with the checkpoint of the last step.
-/

namespace GPSKet.ArgpsRun

open Workdir TrainingSpec

variable {V O E S T R : Type}

/-- The starting points of a run with configuration `c₀`: what is built for some seed (the one of `c₀` if it
has one). -/
def Start (fresh : Config R → Driver V O E × S) (c₀ : Config R) (v : V) (o : O) (e : E) (s : S) : Prop :=
  ∃ seed, (c₀.seed = none ∨ c₀.seed = some seed) ∧ fresh { c₀ with seed := some seed } = (⟨v, o, e, 0⟩, s)

/-- The samplers that are built for some seed. -/
def Sampler (fresh : Config R → Driver V O E × S) (c₀ : Config R) (s : S) : Prop :=
  ∃ seed, (c₀.seed = none ∨ c₀.seed = some seed) ∧ (fresh { c₀ with seed := some seed }).2 = s

/-- The configuration of a running process. -/
def IsConfig (c₀ c : Config R) : Prop := ∃ drawn, c = resolve c₀ drawn

theorem IsConfig.eq {c₀ c : Config R} (h : IsConfig c₀ c) :
    ∃ seed, (c₀.seed = none ∨ c₀.seed = some seed) ∧ c = { c₀ with seed := some seed } := by
  obtain ⟨n, rfl⟩ := h
  cases hs : c₀.seed with
  | none => exact ⟨n, by simp, by simp [resolve, hs]⟩
  | some k => exact ⟨k, by simp, by simp [resolve, hs]⟩

theorem IsConfig.steps {c₀ c : Config R} (h : IsConfig c₀ c) : c.steps = c₀.steps := by
  obtain ⟨n, rfl⟩ := h; rfl

theorem IsConfig.every {c₀ c : Config R} (h : IsConfig c₀ c) : c.every = c₀.every := by
  obtain ⟨n, rfl⟩ := h; rfl

/-- The driver `d` with sampler `s` has done `d.count` steps. -/
def Done (fresh : Config R → Driver V O E × S) (u : Update V O E S T) (c₀ : Config R) (d : Driver V O E) (s : S) :
    Prop :=
  Trained u (Start fresh c₀) (Sampler fresh c₀) d.count d.vars d.opt d.ema s

theorem Done.advance {fresh : Config R → Driver V O E × S} {u : Update V O E S T} {c₀ : Config R}
    {d : Driver V O E} {s : S} (h : Done fresh u c₀ d s) :
    Done fresh u c₀ (Workdir.advance u d s).1 (Workdir.advance u d s).2.1 :=
  Trained.step h rfl

/-- Invariant of the checkpoints. -/
def CkptsOk (fresh : Config R → Driver V O E × S) (u : Update V O E S T) (c₀ : Config R) (k : Disk V O E T R) : Prop :=
  ∀ l sd, (l, sd) ∈ k.ckpts → 1 ≤ l ∧ l ≤ c₀.steps ∧ sd.2.2.2 = l ∧ (l = c₀.steps ∨ c₀.every ∣ l) ∧
    ∃ s, Trained u (Start fresh c₀) (Sampler fresh c₀) l sd.1 sd.2.1 sd.2.2.1 s

/-- Invariant of the process. -/
def ProcOk (fresh : Config R → Driver V O E × S) (u : Update V O E S T) (c₀ : Config R) (k : Disk V O E T R) :
    Option (Proc V O E S T R) → Prop
  | none => True
  | some (.boot arg _) => arg = none ∨ arg = some c₀
  | some (.configOpen c) => IsConfig c₀ c
  | some (.restoring c) => IsConfig c₀ c
  | some (.logging c d s) => IsConfig c₀ c ∧ Done fresh u c₀ d s ∧ d.count ≤ c₀.steps ∧
      (∀ l sd, (l, sd) ∈ k.ckpts → l ≤ d.count) ∧ (d.count ≠ 0 → (d.count, serialize d) ∈ k.ckpts)
  | some (.logOpen c d s) => IsConfig c₀ c ∧ Done fresh u c₀ d s ∧ d.count ≤ c₀.steps ∧
      (∀ l sd, (l, sd) ∈ k.ckpts → l ≤ d.count) ∧ (d.count ≠ 0 → (d.count, serialize d) ∈ k.ckpts)
  | some (.loop c step d s) => IsConfig c₀ c ∧ Done fresh u c₀ d s ∧ d.count ≤ c₀.steps ∧
      (∀ l sd, (l, sd) ∈ k.ckpts → l ≤ d.count) ∧ step = d.count + 1 ∧
      (d.count = c₀.steps → d.count ≠ 0 → (d.count, serialize d) ∈ k.ckpts)
  | some (.advanced c step d s _) => IsConfig c₀ c ∧ Done fresh u c₀ d s ∧ d.count ≤ c₀.steps ∧
      (∀ l sd, (l, sd) ∈ k.ckpts → l < d.count) ∧ step = d.count ∧ 1 ≤ step
  | some (.logged c step d s) => IsConfig c₀ c ∧ Done fresh u c₀ d s ∧ d.count ≤ c₀.steps ∧
      (∀ l sd, (l, sd) ∈ k.ckpts → l < d.count) ∧ step = d.count ∧ 1 ≤ step
  | some (.finished c d) => IsConfig c₀ c ∧ d.count = c₀.steps ∧ (∃ s, Done fresh u c₀ d s) ∧
      (∀ l sd, (l, sd) ∈ k.ckpts → l ≤ d.count) ∧ (d.count ≠ 0 → (d.count, serialize d) ∈ k.ckpts)
  | some .raised => True

/-- The invariant of all histories. -/
def Inv (fresh : Config R → Driver V O E × S) (u : Update V O E S T) (c₀ : Config R) (k : Disk V O E T R)
    (p : Option (Proc V O E S T R)) : Prop :=
  (∀ c, k.config = some (some c) → IsConfig c₀ c) ∧ CkptsOk fresh u c₀ k ∧ ProcOk fresh u c₀ k p

theorem inv_exec {fresh : Config R → Driver V O E × S} {u : Update V O E S T} {c₀ : Config R}
    (hfresh : ∀ c, (fresh c).1.count = 0) {k : Disk V O E T R} {p : Proc V O E S T R}
    (h : Inv fresh u c₀ k (some p)) :
    Inv fresh u c₀ (exec fresh u k p).1 (some (exec fresh u k p).2) := by
  obtain ⟨hc, hk, hp⟩ := h
  cases p with
  | boot arg drawn =>
    simp only [exec]
    cases hr : readConfig arg k.config with
    | none => exact ⟨hc, hk, trivial⟩
    | some c =>
      refine ⟨by simp, hk, ?_⟩
      rcases readConfig_cases hr with h | h
      · rcases hp with h' | h'
        · rw [h] at h'; simp at h'
        · rw [h] at h'
          obtain rfl : c = c₀ := by simpa using h'
          exact ⟨drawn, rfl⟩
      · obtain ⟨n, rfl⟩ := hc c h
        exact ⟨n, resolve_resolve _ _ _⟩
  | configOpen c =>
    refine ⟨fun c' h' => ?_, hk, hp⟩
    simp only [exec, Option.some.injEq] at h'
    exact h' ▸ hp
  | restoring c =>
    refine ⟨hc, hk, hp, ?_⟩
    obtain ⟨seed, hseed, hce⟩ := hp.eq
    have hS : Sampler fresh c₀ (fresh c).2 := ⟨seed, hseed, by rw [hce]⟩
    simp only [exec, restore]
    cases hl : latest k.ckpts with
    | none =>
      rw [latest_none] at hl
      have h0 := hfresh c
      simp only [hl, List.not_mem_nil, false_imp_iff, implies_true, true_and]
      refine ⟨?_, by omega, by omega⟩
      unfold Done
      rw [h0]
      refine Trained.start ⟨seed, hseed, ?_⟩
      rw [← hce]
      generalize fresh c = x at h0
      obtain ⟨⟨v, o, e, n⟩, s⟩ := x
      simp only at h0
      simp [h0]
    | some b =>
      obtain ⟨l, sd⟩ := b
      obtain ⟨hm, hmax⟩ := latest_spec hl
      obtain ⟨h1, h2, h3, h4, s, hs⟩ := hk l sd hm
      refine ⟨?_, by simp [deserialize]; omega, ?_, fun _ => ?_⟩
      · show Trained _ _ _ sd.2.2.2 _ _ _ _
        rw [h3]
        exact Trained.sampler hs hS
      · intro l' sd' h'
        have := hmax _ h'
        simp only [deserialize] at this ⊢
        omega
      · have : ((deserialize (fresh c).1 sd).count, serialize (deserialize (fresh c).1 sd)) = (l, sd) := by
          obtain ⟨v, o, e, m⟩ := sd
          simp only at h3
          simp [deserialize, serialize, h3]
        rw [this]
        exact hm
  | logging c d s =>
    obtain ⟨h1, h2, h3, h4, h5⟩ := hp
    simp only [exec]
    cases k.metrics with
    | none => exact ⟨hc, hk, h1, h2, h3, h4, h5⟩
    | some m => exact ⟨hc, hk, h1, h2, h3, h4, rfl, fun _ => h5⟩
  | logOpen c d s =>
    obtain ⟨h1, h2, h3, h4, h5⟩ := hp
    exact ⟨hc, hk, h1, h2, h3, h4, rfl, fun _ => h5⟩
  | loop c step d s =>
    obtain ⟨h1, h2, h3, h4, h5, h6⟩ := hp
    simp only [exec]
    by_cases hstep : step ≤ c.steps
    · rw [if_pos hstep]
      rw [h1.steps] at hstep
      refine ⟨hc, hk, h1, h2.advance, ?_, fun l sd hl => ?_, ?_, by omega⟩
      · simp only [advance]; omega
      · have := h4 l sd hl
        simp only [advance]; omega
      · simp only [advance]; omega
    · rw [if_neg hstep]
      rw [h1.steps] at hstep
      have he : d.count = c₀.steps := by omega
      exact ⟨hc, hk, h1, he, ⟨s, h2⟩, h4, h6 he⟩
  | advanced c step d s t =>
    exact ⟨hc, hk, hp⟩
  | logged c step d s =>
    obtain ⟨h1, h2, h3, h4, h5, h6⟩ := hp
    simp only [exec]
    by_cases hsave : (c.every ≠ 0 ∧ step % c.every = 0) ∨ step = c.steps
    · rw [if_pos hsave, save_ok (fun b hb => by have := h4 b.1 b.2 hb; omega)]
      rw [h1.steps, h1.every] at hsave
      refine ⟨hc, ?_, h1, h2, h3, ?_, by omega, fun _ _ => ?_⟩
      · intro l sd hl
        rcases List.mem_append.mp hl with hl | hl
        · exact hk l sd hl
        · obtain ⟨rfl, rfl⟩ : l = step ∧ sd = serialize d := by simpa using hl
          refine ⟨h6, by omega, h5.symm, ?_, s, ?_⟩
          · rcases hsave with h | h
            · exact Or.inr (Nat.dvd_of_mod_eq_zero h.2)
            · exact Or.inl h
          · rw [h5]; exact h2
      · intro l sd hl
        rcases List.mem_append.mp hl with hl | hl
        · exact Nat.le_of_lt (h4 l sd hl)
        · obtain ⟨rfl, rfl⟩ : l = step ∧ sd = serialize d := by simpa using hl
          omega
      · simp [h5]
    · rw [if_neg hsave]
      push Not at hsave
      rw [h1.steps] at hsave
      exact ⟨hc, hk, h1, h2, h3, fun l sd hl => Nat.le_of_lt (h4 l sd hl), by omega, fun he => absurd he (by omega)⟩
  | finished c d => exact ⟨hc, hk, hp⟩
  | raised => exact ⟨hc, hk, hp⟩

theorem inv_reach {fresh : Config R → Driver V O E × S} {u : Update V O E S T} {c₀ : Config R}
    (hfresh : ∀ c, (fresh c).1.count = 0) {n : Nat} {k : Disk V O E T R} {p : Option (Proc V O E S T R)}
    (h : Reach fresh u c₀ n k p) : Inv fresh u c₀ k p := by
  induction h with
  | empty => exact ⟨by simp, by simp [CkptsOk], trivial⟩
  | start arg drawn _ harg ih => exact ⟨ih.1, ih.2.1, harg⟩
  | run _ ih => exact inv_exec hfresh ih
  | kill _ ih => exact ⟨ih.1, ih.2.1, trivial⟩
  | exit _ ih => exact ⟨ih.1, ih.2.1, trivial⟩

/-- **C97**, first part: in every history of the work directory, with processes killed at any points, a
checkpoint labelled `l` holds the variables, the optimiser state and the running average after exactly `l`
optimisation steps from a starting point, and the step count `l`. -/
theorem C97_checkpoints {fresh : Config R → Driver V O E × S} {u : Update V O E S T} {c₀ : Config R}
    (hfresh : ∀ c, (fresh c).1.count = 0) {n : Nat} {k : Disk V O E T R} {p : Option (Proc V O E S T R)}
    (h : Reach fresh u c₀ n k p) {l : Nat} {v : V} {o : O} {e : E} {count : Nat}
    (hl : (l, (v, o, e, count)) ∈ k.ckpts) :
    count = l ∧ 1 ≤ l ∧ l ≤ c₀.steps ∧ ∃ s, Trained u (Start fresh c₀) (Sampler fresh c₀) l v o e s := by
  obtain ⟨h1, h2, h3, -, h4⟩ := (inv_reach hfresh h).2.1 l _ hl
  exact ⟨h3, h1, h2, h4⟩

/-- **C97**, second part: when `main` returns, exactly `max_steps` optimisation steps have been done, and
(unless `max_steps` is zero) their result is the checkpoint labelled `max_steps`, which is the latest. -/
theorem C97_finished {fresh : Config R → Driver V O E × S} {u : Update V O E S T} {c₀ : Config R}
    (hfresh : ∀ c, (fresh c).1.count = 0) {n : Nat} {k : Disk V O E T R} {c : Config R} {d : Driver V O E}
    (h : Reach fresh u c₀ n k (some (.finished c d))) :
    (∃ s, Trained u (Start fresh c₀) (Sampler fresh c₀) c₀.steps d.vars d.opt d.ema s) ∧
    (c₀.steps ≠ 0 → (c₀.steps, (d.vars, d.opt, d.ema, c₀.steps)) ∈ k.ckpts ∧
      ∀ l sd, (l, sd) ∈ k.ckpts → l ≤ c₀.steps) := by
  obtain ⟨-, -, -, he, ⟨s, hs⟩, hle, hmem⟩ := inv_reach hfresh h
  refine ⟨⟨s, he ▸ hs⟩, fun h0 => ⟨?_, fun l sd hl => he ▸ hle l sd hl⟩⟩
  have := hmem (by omega)
  rwa [serialize, he] at this

/-- With the configuration on the command line of every process, no process ends with an exception. -/
theorem no_exception {fresh : Config R → Driver V O E × S} {u : Update V O E S T} {c₀ : Config R} {k : Disk V O E T R} {p : Proc V O E S T R}
    (h : Inv fresh u c₀ k (some p)) (hne : p ≠ .raised) (hb : ∀ arg drawn, p = .boot arg drawn → arg = some c₀) :
    (exec fresh u k p).2 ≠ .raised := by
  obtain ⟨-, -, hp⟩ := h
  cases p with
  | boot arg drawn =>
    simp [exec, hb arg drawn rfl, readConfig]
  | logging c d s =>
    simp only [exec]
    cases k.metrics <;> simp
  | loop c step d s =>
    simp only [exec]
    split <;> simp
  | logged c step d s =>
    obtain ⟨h1, h2, h3, h4, h5, h6⟩ := hp
    simp only [exec]
    split
    · rw [save_ok (fun b hb => by have := h4 b.1 b.2 hb; omega)]
      simp
    · simp
  | raised => exact absurd rfl hne
  | configOpen c => simp [exec]
  | restoring c => simp [exec]
  | logOpen c d s => simp [exec]
  | advanced c step d s t => simp [exec]
  | finished c d => simp [exec]

/-- Further operations of a process. -/
inductive Runs (fresh : Config R → Driver V O E × S) (u : Update V O E S T) :
    Disk V O E T R → Proc V O E S T R → Disk V O E T R → Proc V O E S T R → Prop
  | refl {k p} : Runs fresh u k p k p
  | head {k p k' p'} : Runs fresh u (exec fresh u k p).1 (exec fresh u k p).2 k' p' → Runs fresh u k p k' p'

theorem Runs.reach {fresh : Config R → Driver V O E × S} {u : Update V O E S T} {c₀ : Config R} {n : Nat}
    {k k' : Disk V O E T R} {p p' : Proc V O E S T R} (h : Runs fresh u k p k' p')
    (hr : Reach fresh u c₀ n k (some p)) : Reach fresh u c₀ n k' (some p') := by
  induction h with
  | refl => exact hr
  | head _ ih => exact ih hr.run

theorem runs_loop {fresh : Config R → Driver V O E × S} {u : Update V O E S T} {c₀ : Config R}
    (hfresh : ∀ c, (fresh c).1.count = 0) (m : Nat) (k : Disk V O E T R) (c : Config R) (step : Nat)
    (d : Driver V O E) (s : S) (h : Inv fresh u c₀ k (some (.loop c step d s))) (hm : c₀.steps + 1 - step = m) :
    ∃ k' c' d', Runs fresh u k (.loop c step d s) k' (.finished c' d') := by
  induction m generalizing k step d s with
  | zero =>
    refine ⟨k, c, d, .head ?_⟩
    have hs := h.2.2.1.steps
    simp only [exec]
    rw [if_neg (by omega)]
    exact .refl
  | succ m ih =>
    have hs := h.2.2.1.steps
    have i1 := inv_exec hfresh h
    have i2 := inv_exec hfresh i1
    have i3 := inv_exec hfresh i2
    have e1 : exec fresh u k (.loop c step d s) = (k, .advanced c step (advance u d s).1 (advance u d s).2.1
        (advance u d s).2.2) := by
      simp only [exec]
      rw [if_pos (by omega)]
    rw [e1] at i1 i2 i3
    simp only at i1
    have hne := no_exception i2 (by simp [exec]) (by simp [exec])
    suffices h3 : ∃ k₃, exec fresh u (exec fresh u k (.advanced c step (advance u d s).1 (advance u d s).2.1
        (advance u d s).2.2)).1 (.logged c step (advance u d s).1 (advance u d s).2.1)
        = (k₃, .loop c (step + 1) (advance u d s).1 (advance u d s).2.1) by
      obtain ⟨k₃, h3⟩ := h3
      have i3' := i3
      simp only [exec] at i3' h3
      rw [h3] at i3'
      obtain ⟨k', c', d', hr⟩ := ih k₃ (step + 1) _ _ i3' (by omega)
      refine ⟨k', c', d', .head ?_⟩
      rw [e1]
      refine .head (.head ?_)
      simp only [exec]
      rw [h3]
      exact hr
    simp only [exec] at hne ⊢
    split at hne
    · rename_i hsave
      rw [if_pos hsave]
      revert hne
      cases saveCheckpoint k.ckpts step (serialize (advance u d s).1) with
      | none => simp
      | some cs => simp
    · rename_i hsave
      rw [if_neg hsave]
      exact ⟨_, rfl⟩

/-- **C97**, third part: after any history, a process that is started with the configuration and is not
killed comes to its end. -/
theorem C97_completes {fresh : Config R → Driver V O E × S} {u : Update V O E S T} {c₀ : Config R}
    (hfresh : ∀ c, (fresh c).1.count = 0) {n : Nat} {k : Disk V O E T R} (h : Reach fresh u c₀ n k none)
    (drawn : Nat) :
    ∃ k' c d, Runs fresh u k (.boot (some c₀) drawn) k' (.finished c d) := by
  have r0 := Reach.start (some c₀) drawn h (Or.inr rfl)
  have e1 : exec fresh u k (.boot (some c₀) drawn) = ({ k with config := some none }, .configOpen (resolve c₀ drawn)) := by
    simp [exec, readConfig]
  have r1 := r0.run
  rw [e1] at r1
  have r2 := r1.run.run
  simp only [exec] at r2
  generalize hd : restore (fresh (resolve c₀ drawn)).1 k.ckpts = d at r2
  have key : ∀ k₁ : Disk V O E T R, Reach fresh u c₀ n k₁
      (some (.logging (resolve c₀ drawn) d (fresh (resolve c₀ drawn)).2)) →
      ∃ k' c d', Runs fresh u k₁ (.logging (resolve c₀ drawn) d (fresh (resolve c₀ drawn)).2) k' (.finished c d') := by
    intro k₁ r
    cases hm : k₁.metrics with
    | none =>
      have r' := r.run.run
      simp only [exec, hm] at r'
      obtain ⟨k', c, d', hr⟩ := runs_loop hfresh _ _ _ _ _ _ (inv_reach hfresh r') rfl
      refine ⟨k', c, d', .head (.head ?_)⟩
      simp only [exec, hm]
      exact hr
    | some m =>
      have r' := r.run
      simp only [exec, hm] at r'
      obtain ⟨k', c, d', hr⟩ := runs_loop hfresh _ _ _ _ _ _ (inv_reach hfresh r') rfl
      refine ⟨k', c, d', .head ?_⟩
      simp only [exec, hm]
      exact hr
  obtain ⟨k', c, d', hr⟩ := key _ r2
  refine ⟨k', c, d', .head ?_⟩
  rw [e1]
  refine .head (.head ?_)
  simp only [exec]
  rw [hd]
  exact hr

end GPSKet.ArgpsRun
