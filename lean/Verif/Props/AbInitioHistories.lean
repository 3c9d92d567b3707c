import Verif.Lemmas.AbInitioRun
import Mathlib.Order.Nat

/-!
C115, C118: what the rows, the stored parameters and the density-matrix files of the `GPS_for_ab_initio` scripts
mean in every history of kills and restarts.
-/

namespace GPSKet.AbInitioRun

open EarlyStopping

variable {P S V T D : Type} [LinearOrder V]

/-- `θ` has been trained by about as many steps as there are rows: at most `L` and at least `L + d - n`. -/
def Depth (u : P → S → Eval P S V T D) (Init : P → Prop) (θ : P) (L n d : Nat) : Prop :=
  ∃ m, Trained (stepOf u) Init m θ ∧ m ≤ L ∧ L + d ≤ m + n

/-- Invariant of the files. -/
structure FilesOk (r : Rules) (u : P → S → Eval P S V T D) (Init : P → Prop) (n : Nat) (es ls : List (P × S))
    (k : Disk P V T D) : Prop where
  absent : k.out = none → ls = [] ∧ k.pars = none
  rows : ∀ rows, k.out = some rows → rows = ls.map (rowOf u)
  sub : ∀ x ∈ ls, x ∈ es
  pars : ∀ θ, k.pars = some (some θ) → Depth u Init θ ls.length n 0
  each : ∀ i x, ls[i]? = some x → Depth u Init x.1 i n 1
  rdms : r.minGlobal ≠ none → ∀ i x, ls[i]? = some x → k.rdms i = some (some (u x.1 x.2).rdm)

/-- Invariant of the process. -/
def ProcOk (r : Rules) (u : P → S → Eval P S V T D) (Init : P → Prop) (n : Nat) (es ls : List (P × S))
    (k : Disk P V T D) : Option (Proc P S V) → Prop
  | none => True
  | some (.boot θ _) => Init θ ∧ (∀ θ', k.pars = some (some θ') → Depth u Init θ' ls.length n 1) ∧ 1 ≤ n
  | some (.newBest θ _) => Init θ ∧ k.out = none ∧ 1 ≤ n
  | some (.newOut θ _) => Init θ ∧ k.out = none ∧ 1 ≤ n
  | some (.loop θ _ _ c g) => k.out ≠ none ∧ g = ls.length ∧ (c < r.maxCount → Depth u Init θ ls.length n 1) ∧
      (r.maxCount ≤ c → k.pars = some (some θ))
  | some (.saving θ _ _ c g) => k.out ≠ none ∧ g = ls.length ∧ c < r.maxCount ∧ Depth u Init θ ls.length n 1
  | some (.evaluate θ _ _ c g) => k.out ≠ none ∧ g = ls.length ∧ c < r.maxCount ∧
      Depth u Init θ ls.length n 1 ∧ k.pars = some (some θ)
  | some (.improving θ s g) => k.out ≠ none ∧ g = ls.length ∧ Depth u Init θ ls.length n 1 ∧
      k.pars = some (some θ) ∧ (θ, s) ∈ es
  | some (.decided θ s _ _ g) => k.out ≠ none ∧ g = ls.length ∧ Depth u Init θ ls.length n 1 ∧
      k.pars = some (some θ) ∧ (θ, s) ∈ es
  | some (.rdmOpen θ s _ _ g) => k.out ≠ none ∧ g = ls.length ∧ Depth u Init θ ls.length n 1 ∧
      k.pars = some (some θ) ∧ (θ, s) ∈ es
  | some (.logging θ s _ _ g) => k.out ≠ none ∧ g = ls.length ∧ Depth u Init θ ls.length n 1 ∧
      k.pars = some (some θ) ∧ (θ, s) ∈ es ∧ (r.minGlobal ≠ none → k.rdms g = some (some (u θ s).rdm))
  | some .finished => k.out ≠ none ∧ ∃ θ, k.pars = some (some θ)
  | some .raised => k.out ≠ none ∧ ((∀ θ, k.pars ≠ some (some θ)) ∨ ls.length = 1)

omit [LinearOrder V] in
theorem Depth.mono {u : P → S → Eval P S V T D} {Init : P → Prop} {θ : P} {L n d n' d' : Nat}
    (h : Depth u Init θ L n d) (hn : n + d' ≤ n' + d) : Depth u Init θ L n' d' := by
  obtain ⟨m, h1, h2, h3⟩ := h
  exact ⟨m, h1, h2, by omega⟩

theorem resume_count {r : Rules} {rows : List V} {b : Option V} {c g : Nat} (h : resume r rows = some (b, c, g)) :
    g = rows.length := by
  unfold resume at h
  split at h
  · simp at h; simp [h.2.2]
  · simp at h
  · split at h
    · simp at h
    · split at h
      · simp at h; exact h.2.2.symm
      · split at h
        · simp at h; exact h.2.2.symm
        · simp at h; exact h.2.2.symm

theorem resume_none {r : Rules} {rows : List V} (h : resume r rows = none) : rows.length = 1 := by
  unfold resume at h
  split at h
  · simp at h
  · simp
  · rename_i h0 h1
    split at h
    · rename_i ha
      rw [argmin_eq_none] at ha
      exact absurd ha h0
    · split at h
      · simp at h
      · split at h <;> simp at h

theorem inv_exec {r : Rules} {u : P → S → Eval P S V T D} {Init : P → Prop} (hr : 0 < r.maxCount) {n : Nat}
    {es ls : List (P × S)} {k : Disk P V T D} {p : Proc P S V} (hk : FilesOk r u Init n es ls k)
    (hp : ProcOk r u Init n es ls k (some p)) :
    FilesOk r u Init n (es ++ evaluates p) (ls ++ logs p) (exec r u k p).1 ∧
      ProcOk r u Init n (es ++ evaluates p) (ls ++ logs p) (exec r u k p).1 (some (exec r u k p).2) := by
  cases p with
  | boot θ s =>
    simp only [evaluates, logs, List.append_nil]
    obtain ⟨h1, h2, h3⟩ := hp
    simp only [exec]
    cases ho : k.out with
    | none =>
      exact ⟨⟨fun _ => hk.absent ho, by simp, hk.sub, hk.pars, hk.each, hk.rdms⟩, h1, rfl, h3⟩
    | some rows =>
      have hrows := hk.rows _ ho
      dsimp only
      cases hpar : k.pars with
      | none => exact ⟨hk, by simp [ho], Or.inl (by simp [hpar])⟩
      | some q =>
        cases q with
        | none => exact ⟨hk, by simp [ho], Or.inl (by simp [hpar])⟩
        | some θ' =>
          dsimp only
          cases hres : resume r (rows.map Prod.fst) with
          | none =>
            refine ⟨hk, by simp [ho], Or.inr ?_⟩
            have := resume_none hres
            simpa [hrows] using this
          | some x =>
            obtain ⟨b, c, g⟩ := x
            have := resume_count hres
            refine ⟨hk, by simp [ho], ?_, fun _ => h2 θ' hpar, fun _ => hpar⟩
            simpa [hrows] using this
  | newBest θ s =>
    simp only [evaluates, logs, List.append_nil]
    exact ⟨⟨hk.absent, hk.rows, hk.sub, hk.pars, hk.each, hk.rdms⟩, hp⟩
  | newOut θ s =>
    simp only [evaluates, logs, List.append_nil]
    obtain ⟨h1, h2, h3⟩ := hp
    obtain ⟨hls, hpar⟩ := hk.absent h2
    subst hls
    refine ⟨⟨by simp [exec], ?_, hk.sub, hk.pars, hk.each, hk.rdms⟩, by simp [exec], rfl, fun _ => ?_, fun h => by omega⟩
    · intro rows h
      simp [exec] at h
      simp [h]
    · exact ⟨0, Trained.start h1, by simp, by simpa using h3⟩
  | loop θ s b c g =>
    simp only [evaluates, logs, List.append_nil]
    obtain ⟨h1, h2, h3, h4⟩ := hp
    simp only [exec]
    by_cases hc : c < r.maxCount
    · rw [if_pos hc]
      exact ⟨⟨fun h => absurd h h1, hk.rows, hk.sub, by simp, hk.each, hk.rdms⟩, h1, h2, hc, h3 hc⟩
    · rw [if_neg hc]
      exact ⟨hk, h1, θ, h4 (Nat.le_of_not_lt hc)⟩
  | saving θ s b c g =>
    simp only [evaluates, logs, List.append_nil]
    obtain ⟨h1, h2, h3, h4⟩ := hp
    refine ⟨⟨fun h => absurd h h1, hk.rows, hk.sub, ?_, hk.each, hk.rdms⟩, h1, h2, h3, h4, rfl⟩
    intro θ' h
    simp only [exec, Option.some.injEq] at h
    exact h ▸ h4.mono (by omega)
  | evaluate θ s b c g =>
    simp only [evaluates, logs, List.append_nil]
    obtain ⟨h1, h2, h3, h4, h5⟩ := hp
    have hsub : ∀ x ∈ ls, x ∈ es ++ [(θ, s)] := fun x hx => List.mem_append_left _ (hk.sub x hx)
    have hmem : (θ, s) ∈ es ++ [(θ, s)] := by simp
    cases b with
    | none => exact ⟨⟨hk.absent, hk.rows, hsub, hk.pars, hk.each, hk.rdms⟩, h1, h2, h4, h5, hmem⟩
    | some w =>
      simp only [exec]
      by_cases hw : (u θ s).var < w
      · rw [if_pos hw]
        exact ⟨⟨hk.absent, hk.rows, hsub, hk.pars, hk.each, hk.rdms⟩, h1, h2, h4, h5, hmem⟩
      · rw [if_neg hw]
        exact ⟨⟨hk.absent, hk.rows, hsub, hk.pars, hk.each, hk.rdms⟩, h1, h2, h4, h5, hmem⟩
  | improving θ s g =>
    simp only [evaluates, logs, List.append_nil]
    exact ⟨⟨hk.absent, hk.rows, hk.sub, hk.pars, hk.each, hk.rdms⟩, hp⟩
  | decided θ s b c g =>
    simp only [evaluates, logs, List.append_nil]
    obtain ⟨h1, h2, h3, h4, h5⟩ := hp
    simp only [exec]
    cases hm : r.minGlobal with
    | none => exact ⟨hk, h1, h2, h3, h4, h5, fun h => absurd hm h⟩
    | some m =>
      refine ⟨⟨hk.absent, hk.rows, hk.sub, hk.pars, hk.each, fun hne i x hx => ?_⟩, h1, h2, h3, h4, h5⟩
      have hi : i < ls.length := by
        rw [List.getElem?_eq_some_iff] at hx
        exact hx.1
      show Function.update _ _ _ _ = _
      rw [Function.update_of_ne (by omega)]
      exact hk.rdms hne i x hx
  | rdmOpen θ s b c g =>
    simp only [evaluates, logs, List.append_nil]
    obtain ⟨h1, h2, h3, h4, h5⟩ := hp
    refine ⟨⟨hk.absent, hk.rows, hk.sub, hk.pars, hk.each, fun hne i x hx => ?_⟩, h1, h2, h3, h4, h5, fun _ => ?_⟩
    · have hi : i < ls.length := by
        rw [List.getElem?_eq_some_iff] at hx
        exact hx.1
      show Function.update _ _ _ _ = _
      rw [Function.update_of_ne (by omega)]
      exact hk.rdms hne i x hx
    · show Function.update _ _ _ _ = _
      rw [Function.update_self]
  | logging θ s b c g =>
    simp only [evaluates, logs, List.append_nil]
    obtain ⟨h1, h2, h3, h4, h5, h6⟩ := hp
    obtain ⟨m, hm1, hm2, hm3⟩ := h3
    refine ⟨⟨by simp [exec], ?_, ?_, ?_, ?_, ?_⟩, by simp [exec], by simp [h2], ?_, ?_⟩
    · intro rows hrows
      simp only [exec, Option.some.injEq] at hrows
      rw [← hrows]
      cases ho : k.out with
      | none => exact absurd ho h1
      | some rows' =>
        rw [hk.rows _ ho]
        simp [rowOf]
    · intro x hx
      rw [List.mem_append, List.mem_singleton] at hx
      rcases hx with hx | rfl
      · exact hk.sub x hx
      · exact h5
    · intro θ' hθ
      have : k.pars = some (some θ') := hθ
      rw [h4] at this
      obtain rfl : θ = θ' := by simpa using this
      exact ⟨m, hm1, by simp; omega, by simp; omega⟩
    · intro i x hx
      rw [List.getElem?_append] at hx
      split at hx
      · exact hk.each i x hx
      · rename_i hi
        have hi' : i - ls.length = 0 := by
          by_contra h
          rw [List.getElem?_eq_none (by simp; omega)] at hx
          simp at hx
        rw [hi'] at hx
        simp at hx
        subst hx
        have : i = ls.length := by omega
        subst this
        exact ⟨m, hm1, hm2, hm3⟩
    · intro hne i x hx
      show k.rdms i = _
      rw [List.getElem?_append] at hx
      split at hx
      · exact hk.rdms hne i x hx
      · rename_i hi
        have hi' : i - ls.length = 0 := by
          by_contra h
          rw [List.getElem?_eq_none (by simp; omega)] at hx
          simp at hx
        rw [hi'] at hx
        simp at hx
        subst hx
        have : i = g := by omega
        subst this
        exact h6 hne
    · intro hc
      rw [if_pos hc]
      exact ⟨m + 1, Trained.step (step := stepOf u) s hm1, by simp; omega, by simp; omega⟩
    · intro hc
      rw [if_neg (by omega)]
      exact h4
  | finished =>
    simp only [evaluates, logs, List.append_nil]
    exact ⟨hk, hp⟩
  | raised =>
    simp only [evaluates, logs, List.append_nil]
    exact ⟨hk, hp⟩

theorem reach_inv {r : Rules} {u : P → S → Eval P S V T D} {Init : P → Prop} {Killed : Proc P S V → Prop}
    (hr : 0 < r.maxCount) {n : Nat} {es ls : List (P × S)} {k : Disk P V T D} {p : Option (Proc P S V)}
    (h : Reach r u Init Killed n es ls k p) : FilesOk r u Init n es ls k ∧ ProcOk r u Init n es ls k p := by
  induction h with
  | empty => exact ⟨⟨fun _ => ⟨rfl, rfl⟩, by simp [Disk.empty], by simp, by simp [Disk.empty], by simp, by simp⟩, trivial⟩
  | @start n es ls k θ s h hθ ih =>
    obtain ⟨hk, -⟩ := ih
    refine ⟨⟨hk.absent, hk.rows, hk.sub, fun θ hθ => (hk.pars θ hθ).mono (by omega),
      fun i x hx => (hk.each i x hx).mono (by omega), hk.rdms⟩, hθ, fun θ' h' => (hk.pars θ' h').mono (by omega), by omega⟩
  | run h ih => exact inv_exec hr ih.1 ih.2
  | kill h _ ih => exact ⟨ih.1, trivial⟩
  | exit h _ ih => exact ⟨ih.1, trivial⟩

/-- C115 (partial): in every history, `out.txt` lists evaluations that were done, in the order in which they were
written; the parameters evaluated in row `i` were trained by at most `i` steps, and by fewer only as often as the
script was started again; and those in `parameters.pickle`, if it can be read, are trained by at most as many steps
as there are rows, and by fewer at most once per start.  The full statement — row `i` belongs to step `i` — is
refuted by `C115_fails`. -/
theorem C115_partial {r : Rules} {u : P → S → Eval P S V T D} {Init : P → Prop} {Killed : Proc P S V → Prop}
    (hr : 0 < r.maxCount) {n : Nat} {es ls : List (P × S)} {k : Disk P V T D} {p : Option (Proc P S V)}
    (h : Reach r u Init Killed n es ls k p) :
    (∀ rows, k.out = some rows → rows = ls.map (rowOf u)) ∧ (∀ x ∈ ls, x ∈ es) ∧
    (∀ i x, ls[i]? = some x → ∃ m, Trained (stepOf u) Init m x.1 ∧ m ≤ i ∧ i ≤ m + (n - 1)) ∧
    (∀ θ, k.pars = some (some θ) → ∃ m, Trained (stepOf u) Init m θ ∧ m ≤ ls.length ∧ ls.length ≤ m + n) := by
  obtain ⟨hk, -⟩ := reach_inv hr h
  refine ⟨hk.rows, hk.sub, fun i x hx => ?_, fun θ hθ => ?_⟩
  · obtain ⟨m, h1, h2, h3⟩ := hk.each i x hx
    exact ⟨m, h1, h2, by omega⟩
  · obtain ⟨m, h1, h2, h3⟩ := hk.pars θ hθ
    exact ⟨m, h1, h2, by omega⟩

/-- While only one process has been started, row `i` belongs to step `i`. -/
theorem C115_one_process {r : Rules} {u : P → S → Eval P S V T D} {Init : P → Prop} {Killed : Proc P S V → Prop}
    (hr : 0 < r.maxCount) {es ls : List (P × S)} {k : Disk P V T D} {p : Option (Proc P S V)}
    (h : Reach r u Init Killed 1 es ls k p) (i : Nat) (x : P × S) (hx : ls[i]? = some x) :
    Trained (stepOf u) Init i x.1 := by
  obtain ⟨m, h1, h2, h3⟩ := (C115_partial hr h).2.2.1 i x hx
  obtain rfl : m = i := by omega
  exact h1

/-- C118: in every history of `H4x4x4.py`, the file `oneBRDM_i.npy` can be read and contains the density matrix of the
evaluation that row `i` of `out.txt` reports, for every row. -/
theorem C118 {r : Rules} {u : P → S → Eval P S V T D} {Init : P → Prop} {Killed : Proc P S V → Prop}
    (hr : 0 < r.maxCount) (hm : r.minGlobal ≠ none) {n : Nat} {es ls : List (P × S)} {k : Disk P V T D}
    {p : Option (Proc P S V)} (h : Reach r u Init Killed n es ls k p) {rows : List (V × T)} (ho : k.out = some rows)
    (i : Nat) (row : V × T) (hi : rows[i]? = some row) :
    ∃ x ∈ es, row = ((u x.1 x.2).var, (u x.1 x.2).stats) ∧ k.rdms i = some (some (u x.1 x.2).rdm) := by
  obtain ⟨hk, -⟩ := reach_inv hr h
  have := hk.rows rows ho
  subst this
  rw [List.getElem?_map, Option.map_eq_some_iff] at hi
  obtain ⟨x, hx, hrow⟩ := hi
  exact ⟨x, hk.sub x (List.mem_of_getElem? hx), hrow.symm, hk.rdms hm i x hx⟩

end GPSKet.AbInitioRun
