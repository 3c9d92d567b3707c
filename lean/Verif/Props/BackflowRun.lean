import Verif.Model.BackflowRun
import Verif.Props.ArgpsRun

/-!
C101: the number of optimisation steps of the training script for backflow states.  Whatever the history, at
most one step is missing at the end and none is done twice; that one can be missing is shown in
`BackflowFails`.
-/

namespace GPSKet.BackflowRun

open Workdir
open ArgpsRun (IsConfig)

variable {V O E S T R X : Type}

/-- Invariant of the checkpoints: the label is the number of steps, or one more in descent finishing. -/
def CkptsOk (c₀ : Config R) (k : Disk V O T R X) : Prop :=
  ∀ l sd, (l, sd) ∈ k.ckpts → 1 ≤ sd.2.2 ∧ sd.2.2 ≤ l ∧ l ≤ sd.2.2 + 1 ∧ (l ≤ c₀.steps → sd.2.2 = l) ∧ l ≤ total c₀

/-- Invariant of a restored driver. -/
def Restored (c₀ : Config R) (k : Disk V O T R X) (c : Config R) (d : Driver V O E) : Prop :=
  IsConfig c₀ c ∧ d.count ≤ total c₀ ∧ ∀ l sd, (l, sd) ∈ k.ckpts → l ≤ d.count + 1 ∧ (l = d.count + 1 → c₀.steps < l)

/-- Invariant of the body of the loops. -/
def Body (c₀ : Config R) (k : Disk V O T R X) (f : Frame R X) (step : Nat) (d : Driver V O E) : Prop :=
  IsConfig c₀ f.c ∧ 1 ≤ d.count ∧ (∀ l sd, (l, sd) ∈ k.ckpts → l < step) ∧
  (f.finishing = false → step = d.count ∧ step ≤ c₀.steps ∧ f.init < c₀.steps) ∧
  (f.finishing = true → (step = d.count ∨ step = d.count + 1) ∧ c₀.steps < step ∧ step ≤ total c₀)

/-- Invariant of the process. -/
def ProcOk (c₀ : Config R) (k : Disk V O T R X) : Option (Proc V O E S T R X) → Prop
  | none => True
  | some (.boot arg _) => arg = none ∨ arg = some c₀
  | some (.configOpen c) => IsConfig c₀ c
  | some (.restoring c) => IsConfig c₀ c
  | some (.logging c d _) => Restored c₀ k c d
  | some (.logOpen c d _) => Restored c₀ k c d
  | some (.training c d _) => Restored c₀ k c d
  | some (.loop f step next d _) => IsConfig c₀ f.c ∧ (∀ l sd, (l, sd) ∈ k.ckpts → l < next) ∧
      (f.finishing = false → next = d.count + 1 ∧ next ≤ c₀.steps + 1 ∧ f.init < c₀.steps ∧
        (step = d.count ∨ next = f.init)) ∧
      (f.finishing = true → (next = d.count + 1 ∨ next = d.count + 2) ∧ c₀.steps < next ∧ next ≤ total c₀ + 1)
  | some (.advanced f step d _ _) => Body c₀ k f step d
  | some (.logged f step d _ _) => Body c₀ k f step d
  | some (.bestOpen f step d _ _ _) => Body c₀ k f step d
  | some (.bestDone f step d _) => Body c₀ k f step d
  | some (.descent c init step d _) => IsConfig c₀ c ∧ (∀ l sd, (l, sd) ∈ k.ckpts → l ≤ step) ∧ d.count ≤ total c₀ ∧
      ((init < c₀.steps ∧ step = d.count ∧ d.count = c₀.steps) ∨ (c₀.steps ≤ init ∧ step = init ∧ init = d.count + 1))
  | some (.finished c d) => IsConfig c₀ c ∧ d.count ≤ total c₀ ∧ total c₀ ≤ d.count + 1
  | some .raised => True

/-- The invariant of all histories. -/
def Inv (c₀ : Config R) (k : Disk V O T R X) (p : Option (Proc V O E S T R X)) : Prop :=
  (∀ c, k.config = some (some c) → IsConfig c₀ c) ∧ CkptsOk c₀ k ∧ ProcOk c₀ k p

theorem IsConfig.total {c₀ c : Config R} (h : IsConfig c₀ c) : total c = total c₀ := by
  obtain ⟨n, rfl⟩ := h; rfl

theorem IsConfig.fin {c₀ c : Config R} (h : IsConfig c₀ c) : c.finishing = c₀.finishing := by
  obtain ⟨n, rfl⟩ := h; rfl

theorem inv_exec [LinearOrder X] {P : Setup V O E S T R X} {c₀ : Config R}
    (hfresh : ∀ c, (P.fresh c).1.count = 0) {k : Disk V O T R X} {p : Proc V O E S T R X}
    (h : Inv c₀ k (some p)) : Inv c₀ (exec P k p).1 (some (exec P k p).2) := by
  obtain ⟨hc, hk, hp⟩ := h
  have htot : c₀.steps ≤ total c₀ := by unfold total; omega
  cases p with
  | boot arg drawn =>
    simp only [exec]
    cases hr : readConfig arg k.config with
    | none => exact ⟨hc, hk, trivial⟩
    | some c =>
      refine ⟨by simp, hk, ?_⟩
      rcases readConfig_cases hr with h | h
      · rcases hp with h' | h'
        · rw [h] at h'; simp at h'
        · rw [h] at h'
          obtain rfl : c = c₀ := by simpa using h'
          exact ⟨drawn, rfl⟩
      · obtain ⟨n, rfl⟩ := hc c h
        exact ⟨n, resolve_resolve _ _ _⟩
  | configOpen c =>
    refine ⟨fun c' h' => ?_, hk, hp⟩
    simp only [exec, Option.some.injEq] at h'
    exact h' ▸ hp
  | restoring c =>
    refine ⟨hc, hk, hp, ?_⟩
    simp only [exec, restore]
    cases hl : latest k.ckpts with
    | none =>
      rw [latest_none] at hl
      have h0 := hfresh c
      simp [hl, h0]
    | some b =>
      obtain ⟨l, sd⟩ := b
      obtain ⟨hm, hmax⟩ := latest_spec hl
      obtain ⟨h1, h2, h3, h4, h5⟩ := hk l sd hm
      simp only [deserialize]
      refine ⟨by omega, fun l' sd' h' => ?_⟩
      have hle := hmax _ h'
      simp only at hle
      refine ⟨by omega, fun he => ?_⟩
      by_contra hn
      have := h4 (by omega)
      omega
  | logging c d s =>
    simp only [exec]
    cases k.metrics <;> exact ⟨hc, hk, hp⟩
  | logOpen c d s => exact ⟨hc, hk, hp⟩
  | training c d s =>
    obtain ⟨h1, h2, h3⟩ := hp
    have hs := h1.steps
    simp only [exec]
    by_cases ht : d.count + 1 < c.steps
    · rw [if_pos ht]
      rw [hs] at ht
      have hl : ∀ l sd, (l, sd) ∈ k.ckpts → l < d.count + 1 := fun l sd hl => by
        have := h3 l sd hl
        by_contra hn
        have := this.2 (by omega)
        omega
      cases hb : k.best with
      | none => exact ⟨hc, hk, h1, hl, fun _ => ⟨rfl, by omega, by simpa using ht, Or.inr rfl⟩, by simp⟩
      | some b =>
        cases b with
        | none => exact ⟨hc, hk, trivial⟩
        | some b => exact ⟨hc, hk, h1, hl, fun _ => ⟨rfl, by omega, by simpa using ht, Or.inr rfl⟩, by simp⟩
    · rw [if_neg ht]
      rw [hs] at ht
      exact ⟨hc, hk, h1, fun l sd hl => (h3 l sd hl).1, h2, Or.inr ⟨by omega, rfl, rfl⟩⟩
  | loop f step next d s =>
    obtain ⟨h1, h2, h3, h4⟩ := hp
    have hs := h1.steps
    have htc := IsConfig.total h1
    simp only [exec]
    cases hf : f.finishing with
    | true =>
      obtain ⟨h5, h6, h7⟩ := h4 hf
      simp only [if_true, htc]
      by_cases hn : next ≤ total c₀
      · rw [if_pos hn]
        refine ⟨hc, hk, h1, by simp [advance], h2, by simp [hf], fun _ => ⟨?_, h6, hn⟩⟩
        simp only [advance]
        omega
      · rw [if_neg hn]
        exact ⟨hc, hk, h1, by omega, by omega⟩
    | false =>
      obtain ⟨h5, h6, h7, h8⟩ := h3 hf
      simp only [if_false, Bool.false_eq_true, hs]
      by_cases hn : next ≤ c₀.steps
      · rw [if_pos hn]
        refine ⟨hc, hk, h1, by simp [advance], h2, fun _ => ⟨?_, hn, h7⟩, by simp [hf]⟩
        simp only [advance]
        omega
      · rw [if_neg hn]
        have hsd : step = d.count := by omega
        refine ⟨hc, hk, h1, fun l sd hl => ?_, by omega, Or.inl ⟨h7, hsd, by omega⟩⟩
        have := h2 l sd hl
        omega
  | advanced f step d s t => exact ⟨hc, hk, hp⟩
  | logged f step d s t =>
    simp only [exec]
    split
    · exact ⟨hc, hk, hp⟩
    · exact ⟨hc, hk, hp⟩
  | bestOpen f step d s e v => exact ⟨hc, hk, hp⟩
  | bestDone f step d s =>
    obtain ⟨h1, h2, h3, h4, h5⟩ := hp
    simp only [exec]
    have hloop : ∀ k' : Disk V O T R X, (∀ l sd, (l, sd) ∈ k'.ckpts → l < step + 1) →
        ProcOk c₀ k' (some (.loop f step (step + 1) d s : Proc V O E S T R X)) := by
      intro k' hk'
      refine ⟨h1, hk', fun hf => ?_, fun hf => ?_⟩
      · obtain ⟨h6, h7, h8⟩ := h4 hf
        exact ⟨by omega, by omega, h8, Or.inl h6⟩
      · obtain ⟨h6, h7, h8⟩ := h5 hf
        exact ⟨by omega, by omega, by omega⟩
    split
    · rw [save_ok (fun b hb => h3 b.1 b.2 hb)]
      refine ⟨hc, fun l sd hl => ?_, hloop _ fun l sd hl => ?_⟩
      · rcases List.mem_append.mp hl with hl | hl
        · exact hk l sd hl
        · obtain ⟨rfl, rfl⟩ : l = step ∧ sd = serialize d := by simpa using hl
          simp only [serialize]
          cases hf : f.finishing with
          | true =>
            obtain ⟨h6, h7, h8⟩ := h5 hf
            exact ⟨h2, by omega, by omega, by omega, h8⟩
          | false =>
            obtain ⟨h6, h7, h8⟩ := h4 hf
            exact ⟨h2, by omega, by omega, by omega, by omega⟩
      · rcases List.mem_append.mp hl with hl | hl
        · have := h3 l sd hl; omega
        · obtain ⟨rfl, rfl⟩ : l = step ∧ sd = serialize d := by simpa using hl
          omega
    · refine ⟨hc, hk, hloop _ fun l sd hl => ?_⟩
      have := h3 l sd hl
      omega
  | descent c init step d s =>
    obtain ⟨h1, h2, h3, h4⟩ := hp
    have htc := IsConfig.total h1
    simp only [exec]
    split
    · rename_i hcond
      rw [htc] at hcond
      have hloop : ∀ (b : Option (X × X)), Inv c₀ k (some (.loop ⟨c, init, true, b⟩ step (step + 1)
          { d with opt := P.newOpt d.vars } s : Proc V O E S T R X)) := by
        intro b
        refine ⟨hc, hk, h1, fun l sd hl => ?_, by simp, fun _ => ?_⟩
        · have := h2 l sd hl; omega
        · rcases h4 with ⟨a, b, c⟩ | ⟨a, b, c⟩
          · exact ⟨Or.inl (by simp [b]), by omega, by omega⟩
          · exact ⟨Or.inr (by simp [b, c]), by omega, by omega⟩
      cases k.best with
      | none => exact hloop none
      | some b =>
        cases b with
        | none => exact ⟨hc, hk, trivial⟩
        | some b => exact hloop _
    · rename_i hcond
      refine ⟨hc, hk, h1, h3, ?_⟩
      rw [htc, IsConfig.fin h1] at hcond
      rcases h4 with ⟨a, b, c'⟩ | ⟨a, b, c'⟩
      · have hnone : c₀.finishing = none := by
          by_contra hne
          exact hcond ⟨hne, by omega⟩
        have : total c₀ = c₀.steps := by simp [total, hnone]
        omega
      · by_cases hnone : c₀.finishing = none
        · have : total c₀ = c₀.steps := by simp [total, hnone]
          omega
        · have : ¬ init < total c₀ := fun h => hcond ⟨hnone, h⟩
          omega
  | finished c d => exact ⟨hc, hk, hp⟩
  | raised => exact ⟨hc, hk, hp⟩

theorem inv_reach [LinearOrder X] {P : Setup V O E S T R X} {c₀ : Config R}
    (hfresh : ∀ c, (P.fresh c).1.count = 0) {n : Nat} {seen : List T} {k : Disk V O T R X}
    {p : Option (Proc V O E S T R X)} (h : Reach P c₀ n seen k p) : Inv c₀ k p := by
  induction h with
  | empty => exact ⟨by simp, by simp [CkptsOk], trivial⟩
  | start arg drawn _ harg ih => exact ⟨ih.1, ih.2.1, harg⟩
  | run _ ih => exact inv_exec hfresh ih
  | kill _ ih => exact ⟨ih.1, ih.2.1, trivial⟩
  | exit _ ih => exact ⟨ih.1, ih.2.1, trivial⟩

/-- **C101** (part): in every history, when `main` reaches the evaluation, the driver has done all of
`total_steps` and the steps of descent finishing or all but one of them, and never more. -/
theorem C101_partial [LinearOrder X] {P : Setup V O E S T R X} {c₀ : Config R}
    (hfresh : ∀ c, (P.fresh c).1.count = 0) {n : Nat} {seen : List T} {k : Disk V O T R X} {c : Config R}
    {d : Driver V O E} (h : Reach P c₀ n seen k (some (.finished c d))) :
    d.count = c₀.steps + c₀.finishing.getD 0 ∨ d.count + 1 = c₀.steps + c₀.finishing.getD 0 := by
  obtain ⟨-, -, -, h1, h2⟩ := inv_reach hfresh h
  unfold total at h1 h2
  omega

/-- **C101** (part): in every history, a checkpoint of the training loop holds the number of steps of its
label; a checkpoint of descent finishing holds that number or one less. -/
theorem C101_labels [LinearOrder X] {P : Setup V O E S T R X} {c₀ : Config R}
    (hfresh : ∀ c, (P.fresh c).1.count = 0) {n : Nat} {seen : List T} {k : Disk V O T R X}
    {p : Option (Proc V O E S T R X)} (h : Reach P c₀ n seen k p) {l : Nat} {v : V} {o : O} {count : Nat}
    (hl : (l, (v, o, count)) ∈ k.ckpts) :
    (l ≤ c₀.steps → count = l) ∧ (count = l ∨ count + 1 = l) := by
  obtain ⟨-, h2, h3, h4, -⟩ := (inv_reach hfresh h).2.1 l _ hl
  exact ⟨h4, by simp only at h2 h3; omega⟩

/-- In every history the script ends with an exception only because of an empty file: `config.yaml` (or none)
when it is started without a configuration, or `best_params.mpack`. -/
theorem C101_exceptions [LinearOrder X] {P : Setup V O E S T R X} {c₀ : Config R}
    (hfresh : ∀ c, (P.fresh c).1.count = 0) {n : Nat} {seen : List T} {k : Disk V O T R X} {p : Proc V O E S T R X}
    (h : Reach P c₀ n seen k (some p)) (hp : p ≠ .raised) (he : (exec P k p).2 = .raised) :
    (∃ drawn, p = .boot none drawn ∧ (k.config = none ∨ k.config = some none)) ∨ k.best = some none := by
  obtain ⟨-, -, hok⟩ := inv_reach hfresh h
  cases p with
  | boot arg drawn =>
    left
    simp only [exec] at he
    cases hr : readConfig arg k.config with
    | some c => simp [hr] at he
    | none =>
      cases arg with
      | some a => simp [readConfig] at hr
      | none =>
        refine ⟨drawn, rfl, ?_⟩
        cases hkc : k.config with
        | none => simp
        | some f => cases f with
          | none => simp
          | some f => simp [readConfig, hkc] at hr
  | training c d s =>
    right
    simp only [exec] at he
    split at he
    · cases hb : k.best with
      | none => simp [hb] at he
      | some b => cases b with
        | none => rfl
        | some b => simp [hb] at he
    · simp at he
  | descent c init step d s =>
    right
    simp only [exec] at he
    split at he
    · cases hb : k.best with
      | none => simp [hb] at he
      | some b => cases b with
        | none => rfl
        | some b => simp [hb] at he
    · simp at he
  | bestDone f step d s =>
    obtain ⟨h1, h2, h3, h4, h5⟩ := hok
    simp only [exec] at he
    rw [save_ok (fun b hb => h3 b.1 b.2 hb)] at he
    split at he <;> simp at he
  | logging c d s =>
    simp only [exec] at he
    cases hm : k.metrics <;> simp [hm] at he
  | loop f step next d s =>
    simp only [exec] at he
    cases hf : f.finishing <;> simp only [hf, if_true, if_false, Bool.false_eq_true] at he <;> split at he <;> simp at he
  | logged f step d s t =>
    simp only [exec] at he
    split at he <;> simp at he
  | configOpen c => simp [exec] at he
  | restoring c => simp [exec] at he
  | logOpen c d s => simp [exec] at he
  | advanced f step d s t => simp [exec] at he
  | bestOpen f step d s e v => simp [exec] at he
  | finished c d => simp [exec] at he
  | raised => exact absurd rfl hp

end GPSKet.BackflowRun
