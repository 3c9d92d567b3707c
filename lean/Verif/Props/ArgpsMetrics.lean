import Verif.Props.ArgpsRun
import Mathlib.Data.List.Basic
import Mathlib.Data.List.Induction
import Mathlib.Data.List.Range

/-!
C99: the file `metrics.csv` of the training script of ARGPS.  Whatever the history, no step is missing in it;
steps may be repeated, and the header may be missing (`ArgpsFails`).
-/

namespace GPSKet.ArgpsRun

open Workdir TrainingSpec

variable {V O E S T R : Type}

/-- The rows of a list of steps with their statistics. -/
def rowsOf (rs : List (Nat × T)) : List (Line T) := rs.map fun r => Line.row r.1 r.2

theorem rowsOf_append (rs : List (Nat × T)) (n : Nat) (t : T) : rowsOf rs ++ [.row n t] = rowsOf (rs ++ [(n, t)]) := by
  simp [rowsOf]

/-- The rows `rs` have no gaps, only steps from 1 to `max_steps`, and everything up to step `m`, with a
last row of step at least `m`. -/
structure Rows (c₀ : Config R) (rs : List (Nat × T)) (m : Nat) : Prop where
  nogaps : NoGaps c₀.every (rs.map Prod.fst)
  range : ∀ r ∈ rs, 1 ≤ r.1 ∧ r.1 ≤ c₀.steps
  all : ∀ j, 1 ≤ j → j ≤ m → ∃ t, (j, t) ∈ rs
  last : m ≠ 0 → ∃ l a, rs.map Prod.fst = l ++ [a] ∧ m ≤ a

/-- `metrics.csv` consists of rows, possibly after a header. -/
def MetricsOk (c₀ : Config R) (k : Disk V O E T R) (m : Nat) : Prop :=
  match k.metrics with
  | none => m = 0
  | some ls => ∃ rs, (ls = rowsOf rs ∨ ls = .header :: rowsOf rs) ∧ Rows c₀ rs m

/-- The step `n` may be the next row. -/
def NextOk (c₀ : Config R) (k : Disk V O E T R) (n : Nat) : Prop :=
  ∃ ls rs, k.metrics = some ls ∧ (ls = rowsOf rs ∨ ls = .header :: rowsOf rs) ∧ Rows c₀ rs (n - 1) ∧
    (n ≤ c₀.steps → NoGaps c₀.every (rs.map Prod.fst ++ [n]))

theorem Rows.mono {c₀ : Config R} {rs : List (Nat × T)} {m n : Nat} (h : Rows c₀ rs m) (hn : n ≤ m) : Rows c₀ rs n :=
  ⟨h.nogaps, h.range, fun j h1 h2 => h.all j h1 (h2.trans hn), fun h0 => by
    obtain ⟨l, a, h1, h2⟩ := h.last (by omega)
    exact ⟨l, a, h1, hn.trans h2⟩⟩

/-- After a restart, the next row follows a checkpoint or is that of step 1. -/
theorem Rows.next {c₀ : Config R} {rs : List (Nat × T)} {m : Nat} (h : Rows c₀ rs m)
    (hm : m = 0 ∨ m = c₀.steps ∨ c₀.every ∣ m) (hlt : m + 1 ≤ c₀.steps) :
    NoGaps c₀.every (rs.map Prod.fst ++ [m + 1]) := by
  rcases List.eq_nil_or_concat (rs.map Prod.fst) with h0 | ⟨l, a, hl⟩
  · have : m = 0 := by
      by_contra hne
      obtain ⟨l, a, h1, -⟩ := h.last hne
      rw [h0] at h1
      simp at h1
    subst this
    rw [h0]
    exact NoGaps.first
  · rw [List.concat_eq_append] at hl
    have hg := h.nogaps
    rw [hl] at hg ⊢
    rw [List.append_assoc]
    have ha1 : 1 ≤ a := by
      have : a ∈ rs.map Prod.fst := by rw [hl]; simp
      obtain ⟨r, hr, rfl⟩ := List.mem_map.mp this
      exact (h.range r hr).1
    have ha : m ≤ a := by
      by_cases h0 : m = 0
      · omega
      · obtain ⟨l', a', h1, h2⟩ := h.last h0
        rw [hl] at h1
        have := List.append_inj_right' h1 rfl
        simp at this
        omega
    rcases Nat.lt_or_ge m a with h1 | h1
    · refine NoGaps.back hg (by omega) (by omega) ?_
      rcases hm with h | h | h
      · left; omega
      · omega
      · right; simpa using h
    · have : m = a := by omega
      subst this
      exact NoGaps.next hg

/-- The largest label of the checkpoints. -/
def Below (k : Disk V O E T R) (m : Nat) : Prop := ∀ l sd, (l, sd) ∈ k.ckpts → l ≤ m

/-- The invariant of `metrics.csv`. -/
def MInv (c₀ : Config R) (k : Disk V O E T R) : Option (Proc V O E S T R) → Prop
  | some (.logging _ d _) => MetricsOk c₀ k d.count ∧ (d.count = 0 ∨ d.count = c₀.steps ∨ c₀.every ∣ d.count) ∧
      Below k d.count
  | some (.logOpen _ d _) => d.count = 0 ∧ k.metrics = some [] ∧ Below k 0
  | some (.loop _ step d _) => NextOk c₀ k (d.count + 1) ∧ step = d.count + 1 ∧ Below k d.count
  | some (.advanced _ step _ _ _) => NextOk c₀ k step ∧ 1 ≤ step ∧ step ≤ c₀.steps ∧ Below k (step - 1)
  | some (.logged _ step d _) => step = d.count ∧ Below k (step - 1) ∧
      ∃ ls rs, k.metrics = some ls ∧ (ls = rowsOf rs ∨ ls = .header :: rowsOf rs) ∧ Rows c₀ rs step ∧
        ∃ l, rs.map Prod.fst = l ++ [step]
  | some (.finished _ _) => ∃ m, MetricsOk c₀ k m ∧ Below k m ∧ m = c₀.steps
  | _ => ∃ m, MetricsOk c₀ k m ∧ Below k m

theorem MInv.weaken {c₀ : Config R} {k : Disk V O E T R} {p : Option (Proc V O E S T R)} (h : MInv c₀ k p) :
    ∃ m, MetricsOk c₀ k m ∧ Below k m := by
  have next : ∀ n, NextOk c₀ k n → MetricsOk c₀ k (n - 1) := by
    rintro n ⟨ls, rs, hm, hl, hr, -⟩
    unfold MetricsOk
    rw [hm]
    exact ⟨rs, hl, hr⟩
  match p, h with
  | none, h => exact h
  | some (.boot _ _), h => exact h
  | some (.configOpen _), h => exact h
  | some (.restoring _), h => exact h
  | some .raised, h => exact h
  | some (.finished _ _), ⟨m, h1, h2, _⟩ => exact ⟨m, h1, h2⟩
  | some (.logging _ d _), h => exact ⟨_, h.1, h.2.2⟩
  | some (.logOpen _ d _), ⟨h1, h2, h3⟩ =>
    refine ⟨0, ?_, h3⟩
    unfold MetricsOk
    rw [h2]
    exact ⟨[], Or.inl rfl, NoGaps.nil, by simp, by omega, by simp⟩
  | some (.loop _ step d _), h => exact ⟨_, next _ h.1, h.2.2⟩
  | some (.advanced _ step _ _ _), h => exact ⟨_, next _ h.1, h.2.2.2⟩
  | some (.logged _ step d _), ⟨h1, h2, ls, rs, h3, h4, h5, h6⟩ =>
    refine ⟨step - 1, ?_, h2⟩
    unfold MetricsOk
    rw [h3]
    exact ⟨rs, h4, h5.mono (by omega)⟩

theorem minv_exec {fresh : Config R → Driver V O E × S} {u : Update V O E S T} {c₀ : Config R}
    (hfresh : ∀ c, (fresh c).1.count = 0) {k : Disk V O E T R} {p : Proc V O E S T R}
    (hI : Inv fresh u c₀ k (some p)) (h : MInv c₀ k (some p)) :
    MInv c₀ (exec fresh u k p).1 (some (exec fresh u k p).2) := by
  obtain ⟨hc, hk, hp⟩ := hI
  cases p with
  | boot arg drawn =>
    simp only [exec]
    cases readConfig arg k.config <;> exact h
  | configOpen c => exact h
  | restoring c =>
    obtain ⟨m, hm, hb⟩ := h
    simp only [exec, restore]
    cases hl : latest k.ckpts with
    | none =>
      rw [latest_none] at hl
      have h0 := hfresh c
      refine ⟨?_, Or.inl h0, by simp [Below, hl]⟩
      simp only [h0]
      unfold MetricsOk at hm ⊢
      cases hmm : k.metrics with
      | none => trivial
      | some ls =>
        rw [hmm] at hm
        obtain ⟨rs, h1, h2⟩ := hm
        exact ⟨rs, h1, h2.mono (by omega)⟩
    | some b =>
      obtain ⟨l, sd⟩ := b
      obtain ⟨hmem, hmax⟩ := latest_spec hl
      obtain ⟨h1, h2, h3, h4, -⟩ := hk l sd hmem
      have hml := hb l sd hmem
      have hcount : (deserialize (fresh c).1 sd).count = l := h3
      simp only
      refine ⟨?_, ?_, ?_⟩
      · simp only [hcount]
        unfold MetricsOk at hm ⊢
        cases hmm : k.metrics with
        | none => rw [hmm] at hm; simp only at hm; omega
        | some ls =>
          rw [hmm] at hm
          obtain ⟨rs, h1, h2⟩ := hm
          exact ⟨rs, h1, h2.mono (by omega)⟩
      · rw [hcount]; exact Or.inr h4
      · intro l' sd' h'
        rw [hcount]
        exact hmax _ h'
  | logging c d s =>
    obtain ⟨hm, h1, h2⟩ := h
    obtain ⟨-, -, hle, -⟩ := hp
    simp only [exec]
    unfold MetricsOk at hm
    cases hmm : k.metrics with
    | none =>
      rw [hmm] at hm
      simp only at hm
      exact ⟨hm, rfl, hm ▸ h2⟩
    | some ls =>
      rw [hmm] at hm
      obtain ⟨rs, h3, h4⟩ := hm
      exact ⟨⟨ls, rs, hmm, h3, h4, fun hlt => h4.next h1 hlt⟩, rfl, h2⟩
  | logOpen c d s =>
    obtain ⟨h1, h2, h3⟩ := h
    simp only [exec]
    refine ⟨⟨[.header], [], rfl, Or.inr rfl, ⟨NoGaps.nil, by simp, fun j a b => by omega, fun h => ?_⟩, fun _ => ?_⟩, rfl, ?_⟩
    · omega
    · rw [h1]; exact NoGaps.first
    · rw [h1]; exact h3
  | loop c step d s =>
    obtain ⟨⟨ls, rs, h1, h2, h3, h4⟩, h5, h6⟩ := h
    obtain ⟨hcfg, -, hle, -⟩ := hp
    simp only [exec]
    by_cases hstep : step ≤ c.steps
    · rw [if_pos hstep]
      rw [hcfg.steps] at hstep
      refine ⟨⟨ls, rs, h1, h2, h5 ▸ h3, fun h => h5 ▸ h4 (h5 ▸ h)⟩, by omega, hstep, ?_⟩
      rw [h5]; exact h6
    · rw [if_neg hstep]
      rw [hcfg.steps] at hstep
      refine ⟨d.count, ?_, h6, by omega⟩
      unfold MetricsOk
      simp only [h1]
      exact ⟨rs, h2, h3⟩
  | advanced c step d s t =>
    obtain ⟨⟨ls, rs, h1, h2, h3, h4⟩, h5, h6, h7⟩ := h
    obtain ⟨-, -, -, -, he, -⟩ := hp
    refine ⟨he, h7, ?_⟩
    simp only [exec, h1, Option.getD_some]
    refine ⟨_, rs ++ [(step, t)], rfl, ?_, ⟨?_, ?_, ?_, ?_⟩, rs.map Prod.fst, by simp⟩
    · rcases h2 with rfl | rfl
      · exact Or.inl (rowsOf_append _ _ _)
      · right
        rw [List.cons_append, rowsOf_append]
    · rw [List.map_append]
      exact h4 h6
    · intro r hr
      rcases List.mem_append.mp hr with hr | hr
      · exact h3.range r hr
      · rw [List.mem_singleton.mp hr]; exact ⟨h5, h6⟩
    · intro j hj1 hj2
      rcases Nat.lt_or_ge j step with hj | hj
      · obtain ⟨t', ht'⟩ := h3.all j hj1 (by omega)
        exact ⟨t', by simp [ht']⟩
      · obtain rfl : j = step := by omega
        exact ⟨t, by simp⟩
    · intro _
      exact ⟨rs.map Prod.fst, step, by simp, Nat.le_refl _⟩
  | logged c step d s =>
    obtain ⟨h1, h2, ls, rs, h3, h4, h5, l, h6⟩ := h
    have next : NoGaps c₀.every (rs.map Prod.fst ++ [step + 1]) := by
      have := h5.nogaps
      rw [h6] at this ⊢
      rw [List.append_assoc]
      exact NoGaps.next this
    obtain ⟨hcfg, -, hle, hlt, he, hone⟩ := hp
    simp only [exec]
    have hn : ∀ cs, NextOk c₀ (⟨k.config, cs, k.metrics⟩ : Disk V O E T R) (d.count + 1) := fun cs =>
      ⟨ls, rs, h3, h4, by rw [← h1]; exact h5, fun _ => by rw [← h1]; exact next⟩
    by_cases hsave : (c.every ≠ 0 ∧ step % c.every = 0) ∨ step = c.steps
    · rw [if_pos hsave, save_ok (fun b hb => by have := hlt b.1 b.2 hb; omega)]
      refine ⟨hn _, by omega, ?_⟩
      intro l' sd' hl'
      rcases List.mem_append.mp hl' with hl' | hl'
      · have := h2 l' sd' hl'; omega
      · obtain ⟨rfl, -⟩ : l' = step ∧ sd' = serialize d := by simpa using hl'
        omega
    · rw [if_neg hsave]
      refine ⟨hn k.ckpts, by omega, fun l' sd' hl' => ?_⟩
      have := h2 l' sd' hl'
      omega
  | finished c d => exact h
  | raised => exact h

theorem minv_reach {fresh : Config R → Driver V O E × S} {u : Update V O E S T} {c₀ : Config R}
    (hfresh : ∀ c, (fresh c).1.count = 0) {n : Nat} {k : Disk V O E T R} {p : Option (Proc V O E S T R)}
    (h : Reach fresh u c₀ n k p) : MInv c₀ k p := by
  induction h with
  | empty => exact ⟨0, rfl, by simp [Below]⟩
  | start arg drawn _ _ ih => exact ih
  | run hr ih => exact minv_exec hfresh (inv_reach hfresh hr) ih
  | kill _ ih => exact ih.weaken
  | exit _ ih => exact ih.weaken

/-- **C99** (part): in every history, `metrics.csv` consists of rows of steps between 1 and `max_steps`,
possibly after a header, and their step numbers have no gaps: each row is followed by that of the next step,
of step 1, or of a step after a multiple of `checkpoint_every`. -/
theorem C99_partial {fresh : Config R → Driver V O E × S} {u : Update V O E S T} {c₀ : Config R}
    (hfresh : ∀ c, (fresh c).1.count = 0) {n : Nat} {k : Disk V O E T R} {p : Option (Proc V O E S T R)}
    (h : Reach fresh u c₀ n k p) {ls : List (Line T)} (hls : k.metrics = some ls) :
    ∃ rs : List (Nat × T), (ls = rs.map (fun r => .row r.1 r.2) ∨ ls = .header :: rs.map (fun r => .row r.1 r.2)) ∧
      NoGaps c₀.every (rs.map Prod.fst) ∧ ∀ r ∈ rs, 1 ≤ r.1 ∧ r.1 ≤ c₀.steps := by
  obtain ⟨m, hm, -⟩ := (minv_reach hfresh h).weaken
  unfold MetricsOk at hm
  rw [hls] at hm
  obtain ⟨rs, h1, h2⟩ := hm
  exact ⟨rs, h1, h2.nogaps, h2.range⟩

/-- **C99** (part): when `main` returns, every step from 1 to `max_steps` has a row, and every checkpoint
that was ever stored had its rows before. -/
theorem C99_complete {fresh : Config R → Driver V O E × S} {u : Update V O E S T} {c₀ : Config R}
    (hfresh : ∀ c, (fresh c).1.count = 0) {n : Nat} {k : Disk V O E T R} {c : Config R} {d : Driver V O E}
    (h : Reach fresh u c₀ n k (some (.finished c d))) {j : Nat} (h1 : 1 ≤ j) (h2 : j ≤ c₀.steps) :
    ∃ ls t, k.metrics = some ls ∧ Line.row j t ∈ ls := by
  obtain ⟨m, hm, -, he⟩ := minv_reach hfresh h
  subst he
  unfold MetricsOk at hm
  cases hmm : k.metrics with
  | none => rw [hmm] at hm; simp only at hm; omega
  | some ls =>
    rw [hmm] at hm
    obtain ⟨rs, h3, h4⟩ := hm
    obtain ⟨t, ht⟩ := h4.all j h1 h2
    have hmem : Line.row j t ∈ rowsOf rs := List.mem_map.mpr ⟨(j, t), ht, rfl⟩
    rcases h3 with rfl | rfl
    · exact ⟨_, t, rfl, hmem⟩
    · exact ⟨_, t, rfl, List.mem_cons_of_mem _ hmem⟩

/-- In every state, the rows reach up to the latest checkpoint. -/
theorem C99_checkpoints {fresh : Config R → Driver V O E × S} {u : Update V O E S T} {c₀ : Config R}
    (hfresh : ∀ c, (fresh c).1.count = 0) {n : Nat} {k : Disk V O E T R} {p : Option (Proc V O E S T R)}
    (h : Reach fresh u c₀ n k p) {l : Nat} {sd : V × O × E × Nat} (hl : (l, sd) ∈ k.ckpts) {j : Nat}
    (h1 : 1 ≤ j) (h2 : j ≤ l) : ∃ ls t, k.metrics = some ls ∧ Line.row j t ∈ ls := by
  obtain ⟨m, hm, hb⟩ := (minv_reach hfresh h).weaken
  have := hb l sd hl
  unfold MetricsOk at hm
  cases hmm : k.metrics with
  | none => rw [hmm] at hm; simp only at hm; omega
  | some ls =>
    rw [hmm] at hm
    obtain ⟨rs, h3, h4⟩ := hm
    obtain ⟨t, ht⟩ := h4.all j h1 (by omega)
    have hmem : Line.row j t ∈ rowsOf rs := List.mem_map.mpr ⟨(j, t), ht, rfl⟩
    rcases h3 with rfl | rfl
    · exact ⟨_, t, rfl, hmem⟩
    · exact ⟨_, t, rfl, List.mem_cons_of_mem _ hmem⟩

end GPSKet.ArgpsRun
