import Verif.Props.AbInitioHistories
import Mathlib.Logic.Function.Iterate

/-!
C116, C117: the best parameters, the end of the optimisation and the restarts of `H2O.py` and `H50_1D.py`
(`GPS_for_ab_initio`) in every history of kills and restarts.
-/

namespace GPSKet.AbInitioRun

open EarlyStopping

variable {P S V T D : Type} [LinearOrder V]

/-- The count of steps since the best row, up to one step too many. -/
def CountOk (u : P → S → Eval P S V T D) (ls : List (P × S)) (c : Nat) : Prop :=
  match argmin (ls.map (varOf u)) with
  | none => c = 0
  | some (b, _) => ls.length - 1 - b ≤ c ∧ c ≤ ls.length - b

/-- `θ` was evaluated with a variance that no row of `ls` is below. -/
def NotAbove (u : P → S → Eval P S V T D) (es ls : List (P × S)) (θ : P) : Prop :=
  ∃ s, (θ, s) ∈ es ∧ ∀ x ∈ ls, varOf u (θ, s) ≤ varOf u x

/-- Invariant of `best_pars.pickle`. -/
def BestFile (u : P → S → Eval P S V T D) (es ls : List (P × S)) (k : Disk P V T D) : Prop :=
  k.out ≠ none → (ls = [] → ∃ θ, k.best = some (some θ) ∧ ∀ θ', k.pars = some (some θ') → θ' = θ) ∧
    (ls ≠ [] → ∀ θ, k.best = some (some θ) → NotAbove u es ls θ)

/-- Invariant of `best_var`, `count` and the parameters of the process. -/
def BestProc (u : P → S → Eval P S V T D) (es ls : List (P × S)) (k : Disk P V T D) : Option (Proc P S V) → Prop
  | some (.newOut θ _) => k.best = some (some θ)
  | some (.loop θ _ b c _) => b = (argmin (ls.map (varOf u))).map Prod.snd ∧ CountOk u ls c ∧
      (ls = [] → k.best = some (some θ))
  | some (.saving θ _ b c _) => b = (argmin (ls.map (varOf u))).map Prod.snd ∧ CountOk u ls c ∧
      (ls = [] → k.best = some (some θ))
  | some (.evaluate θ _ b c _) => b = (argmin (ls.map (varOf u))).map Prod.snd ∧ CountOk u ls c ∧
      (ls = [] → k.best = some (some θ))
  | some (.improving θ s _) => ls ≠ [] ∧ (∀ x ∈ ls, varOf u (θ, s) < varOf u x) ∧
      argmin ((ls ++ [(θ, s)]).map (varOf u)) = some (ls.length, varOf u (θ, s))
  | some (.decided θ s b c _) => b = (argmin ((ls ++ [(θ, s)]).map (varOf u))).map Prod.snd ∧
      CountOk u (ls ++ [(θ, s)]) c ∧ ∀ θ', k.best = some (some θ') → NotAbove u es (ls ++ [(θ, s)]) θ'
  | some (.rdmOpen _ _ _ _ _) => False
  | some (.logging θ s b c _) => b = (argmin ((ls ++ [(θ, s)]).map (varOf u))).map Prod.snd ∧
      CountOk u (ls ++ [(θ, s)]) c ∧ ∀ θ', k.best = some (some θ') → NotAbove u es (ls ++ [(θ, s)]) θ'
  | _ => True

theorem argmin_map_append (u : P → S → Eval P S V T D) (ls : List (P × S)) (x : P × S) :
    argmin ((ls ++ [x]).map (varOf u)) = match argmin (ls.map (varOf u)) with
      | none => some (ls.length, varOf u x)
      | some (b, w) => if varOf u x < w then some (ls.length, varOf u x) else some (b, w) := by
  rw [List.map_append]
  show argmin (ls.map (varOf u) ++ [varOf u x]) = _
  rw [argmin_append, List.length_map]
  cases argmin (ls.map (varOf u)) <;> rfl

theorem argmin_map_none {u : P → S → Eval P S V T D} {ls : List (P × S)} :
    argmin (ls.map (varOf u)) = none ↔ ls = [] := by
  rw [argmin_eq_none, List.map_eq_nil_iff]

theorem resume_ok {r : Rules} (hm : r.minGlobal = none) (u : P → S → Eval P S V T D) (ls : List (P × S))
    {b : Option V} {c g : Nat} (h : resume r (ls.map (varOf u)) = some (b, c, g)) :
    b = (argmin (ls.map (varOf u))).map Prod.snd ∧ CountOk u ls c := by
  unfold resume at h
  split at h
  · rename_i he
    have : ls = [] := by simpa using he
    subst this
    simp only [Option.some.injEq, Prod.mk.injEq] at h
    obtain ⟨rfl, rfl, rfl⟩ := h
    exact ⟨rfl, rfl⟩
  · simp at h
  · split at h
    · simp at h
    · rename_i b' w ha
      rw [hm] at h
      simp only [Option.some.injEq, Prod.mk.injEq, List.length_map] at h
      obtain ⟨rfl, rfl, rfl⟩ := h
      refine ⟨by rw [ha]; rfl, ?_⟩
      simp only [CountOk, ha]
      omega

theorem best_exec {r : Rules} (hm : r.minGlobal = none) {u : P → S → Eval P S V T D} {Init : P → Prop} {n : Nat}
    {es ls : List (P × S)} {k : Disk P V T D} {p : Proc P S V} (hk : FilesOk r u Init n es ls k)
    (hp : ProcOk r u Init n es ls k (some p)) (hbf : BestFile u es ls k) (hbp : BestProc u es ls k (some p)) :
    BestFile u (es ++ evaluates p) (ls ++ logs p) (exec r u k p).1 ∧
      BestProc u (es ++ evaluates p) (ls ++ logs p) (exec r u k p).1 (some (exec r u k p).2) := by
  cases p with
  | boot θ s =>
    simp only [evaluates, logs, List.append_nil, exec]
    cases ho : k.out with
    | none => exact ⟨fun h => absurd rfl h, trivial⟩
    | some rows =>
      have hrows := hk.rows _ ho
      have hne : k.out ≠ none := by simp [ho]
      dsimp only
      cases hpar : k.pars with
      | none => exact ⟨hbf, trivial⟩
      | some q =>
        cases q with
        | none => exact ⟨hbf, trivial⟩
        | some θ' =>
          dsimp only
          cases hres : resume r (rows.map Prod.fst) with
          | none => exact ⟨hbf, trivial⟩
          | some x =>
            obtain ⟨b, c, g⟩ := x
            have he : rows.map Prod.fst = ls.map (varOf u) := by
              rw [hrows]; simp [Function.comp_def]
            rw [he] at hres
            obtain ⟨h1, h2⟩ := resume_ok hm u ls hres
            refine ⟨hbf, h1, h2, fun hls => ?_⟩
            obtain ⟨θb, hb1, hb2⟩ := (hbf hne).1 hls
            rw [hb2 θ' hpar]
            exact hb1
  | newBest θ s =>
    simp only [evaluates, logs, List.append_nil]
    exact ⟨fun h => absurd hp.2.1 h, rfl⟩
  | newOut θ s =>
    simp only [evaluates, logs, List.append_nil]
    obtain ⟨hls, hpar⟩ := hk.absent hp.2.1
    subst hls
    refine ⟨fun _ => ⟨fun _ => ⟨θ, hbp, fun θ' h => ?_⟩, fun h => absurd rfl h⟩, rfl, rfl, fun _ => hbp⟩
    have : k.pars = some (some θ') := h
    rw [hpar] at this
    simp at this
  | loop θ s b c g =>
    simp only [evaluates, logs, List.append_nil, exec]
    obtain ⟨h1, h2, h3⟩ := hbp
    by_cases hc : c < r.maxCount
    · rw [if_pos hc]
      refine ⟨fun hne => ⟨fun hls => ⟨θ, h3 hls, by simp⟩, (hbf hne).2⟩, h1, h2, h3⟩
    · rw [if_neg hc]
      exact ⟨hbf, trivial⟩
  | saving θ s b c g =>
    simp only [evaluates, logs, List.append_nil]
    obtain ⟨h1, h2, h3⟩ := hbp
    refine ⟨fun hne => ⟨fun hls => ⟨θ, h3 hls, fun θ' h => ?_⟩, (hbf hne).2⟩, h1, h2, h3⟩
    simp only [exec, Option.some.injEq] at h
    exact h.symm
  | evaluate θ s b c g =>
    simp only [evaluates, logs, List.append_nil]
    obtain ⟨h1, h2, h3⟩ := hbp
    obtain ⟨hp1, hp2, hp3, hp4, hp5⟩ := hp
    have hmono : ∀ {l θ'}, NotAbove u es l θ' → NotAbove u (es ++ [(θ, s)]) l θ' := by
      rintro l θ' ⟨s', hs', hl⟩
      exact ⟨s', List.mem_append_left _ hs', hl⟩
    cases ha : argmin (ls.map (varOf u)) with
    | none =>
      have hls := argmin_map_none.mp ha
      subst hls
      rw [ha] at h1
      subst h1
      have hb := h3 rfl
      refine ⟨fun hne => ⟨(hbf hne).1, fun h => absurd rfl h⟩, ?_, ?_, ?_⟩
      · rw [argmin_map_append, ha]; rfl
      · unfold CountOk
        rw [argmin_map_append, ha]
        simp
      · intro θ' h'
        have : k.best = some (some θ') := h'
        rw [hb] at this
        obtain rfl : θ = θ' := by simpa using this
        exact ⟨s, by simp, by simp⟩
    | some y =>
      obtain ⟨b', w⟩ := y
      rw [ha] at h1
      subst h1
      have hls : ls ≠ [] := fun h => by
        rw [argmin_map_none.mpr h] at ha
        simp at ha
      have hmin := argmin_le ha
      have hlt := argmin_lt ha
      rw [List.length_map] at hlt
      simp only [exec, Option.map_some]
      by_cases hw : (u θ s).var < w
      · rw [if_pos hw]
        refine ⟨fun hne => ⟨fun h => absurd h hls, fun _ θ' h' => by simp at h'⟩, hls, ?_, ?_⟩
        · intro x hx
          exact lt_of_lt_of_le hw (hmin _ (List.mem_map_of_mem hx))
        · rw [argmin_map_append, ha]
          exact if_pos hw
      · rw [if_neg hw]
        have ha' : argmin ((ls ++ [(θ, s)]).map (varOf u)) = some (b', w) := by
          rw [argmin_map_append, ha]
          exact if_neg hw
        refine ⟨fun hne => ⟨fun h => absurd h hls, fun _ θ' h' => hmono ((hbf hne).2 hls θ' h')⟩, ?_, ?_, ?_⟩
        · rw [ha']; rfl
        · unfold CountOk at h2 ⊢
          rw [ha'] 
          rw [ha] at h2
          simp only [List.length_append, List.length_singleton] at h2 ⊢
          omega
        · intro θ' h'
          obtain ⟨s', hs', hl⟩ := (hbf hp1).2 hls θ' h'
          refine ⟨s', List.mem_append_left _ hs', fun x hx => ?_⟩
          rw [List.mem_append, List.mem_singleton] at hx
          rcases hx with hx | rfl
          · exact hl x hx
          · have hget := argmin_get ha
            rw [List.getElem?_map, Option.map_eq_some_iff] at hget
            obtain ⟨y, hy, hyw⟩ := hget
            have := hl y (List.mem_of_getElem? hy)
            rw [hyw] at this
            exact le_trans this (not_lt.mp hw)
  | improving θ s g =>
    simp only [evaluates, logs, List.append_nil]
    obtain ⟨h1, h2, h3⟩ := hbp
    obtain ⟨hp1, hp2, hp3, hp4, hp5⟩ := hp
    have hna : NotAbove u es (ls ++ [(θ, s)]) θ := by
      refine ⟨s, hp5, fun x hx => ?_⟩
      rw [List.mem_append, List.mem_singleton] at hx
      rcases hx with hx | rfl
      · exact le_of_lt (h2 x hx)
      · exact le_refl _
    refine ⟨fun hne => ⟨fun h => absurd h h1, fun _ θ' h' => ?_⟩, ?_, ?_, fun θ' h' => ?_⟩
    · simp only [exec, Option.some.injEq] at h'
      subst h'
      obtain ⟨s', hs', hl⟩ := hna
      exact ⟨s', hs', fun x hx => hl x (List.mem_append_left _ hx)⟩
    · rw [h3]; rfl
    · unfold CountOk
      rw [h3]
      simp
    · simp only [exec, Option.some.injEq] at h'
      exact h' ▸ hna
  | decided θ s b c g =>
    simp only [evaluates, logs, List.append_nil, exec, hm]
    have hres : reset r g b = b := by rw [reset_eq, hm]; rfl
    rw [hres]
    exact ⟨hbf, hbp⟩
  | rdmOpen θ s b c g => exact absurd hbp id
  | logging θ s b c g =>
    simp only [evaluates, logs, List.append_nil]
    obtain ⟨h1, h2, h3⟩ := hbp
    exact ⟨fun _ => ⟨fun h => absurd h (by simp), fun _ => h3⟩, h1, h2, fun h => absurd h (by simp)⟩
  | finished =>
    simp only [evaluates, logs, List.append_nil]
    exact ⟨hbf, hbp⟩
  | raised =>
    simp only [evaluates, logs, List.append_nil]
    exact ⟨hbf, hbp⟩

theorem reach_best {r : Rules} (hm : r.minGlobal = none) {u : P → S → Eval P S V T D} {Init : P → Prop}
    {Killed : Proc P S V → Prop} (hr : 0 < r.maxCount) {n : Nat} {es ls : List (P × S)} {k : Disk P V T D}
    {p : Option (Proc P S V)} (h : Reach r u Init Killed n es ls k p) :
    BestFile u es ls k ∧ BestProc u es ls k p := by
  induction h with
  | empty => exact ⟨fun h => absurd rfl h, trivial⟩
  | start θ s h hθ ih => exact ⟨ih.1, trivial⟩
  | run h ih => exact best_exec hm (reach_inv hr h).1 (reach_inv hr h).2 ih.1 ih.2
  | kill h _ ih => exact ⟨ih.1, trivial⟩
  | exit h _ ih => exact ⟨ih.1, trivial⟩

/-- C116 (partial): in every history of `H2O.py` and `H50_1D.py`, the parameters in `best_pars.pickle`, if it can be
read, were evaluated, with a variance that no row of `out.txt` is below.  The full statement — the file can always be
read and belongs to the best row — is refuted by `C116_fails`; `C116_partial_exact` says when it holds. -/
theorem C116_partial {r : Rules} (hm : r.minGlobal = none) {u : P → S → Eval P S V T D} {Init : P → Prop}
    {Killed : Proc P S V → Prop} (hr : 0 < r.maxCount) {n : Nat} {es ls : List (P × S)} {k : Disk P V T D}
    {p : Option (Proc P S V)} (h : Reach r u Init Killed n es ls k p) {rows : List (V × T)} (ho : k.out = some rows)
    (hne : rows ≠ []) {θ : P} (hb : k.best = some (some θ)) :
    ∃ s, (θ, s) ∈ es ∧ ∀ row ∈ rows, (u θ s).var ≤ row.1 := by
  have hrows := (reach_inv hr h).1.rows rows ho
  subst hrows
  obtain ⟨s, hs, hl⟩ := ((reach_best hm hr h).1 (by simp [ho])).2 (by simpa using hne) θ hb
  refine ⟨s, hs, fun row hrow => ?_⟩
  obtain ⟨x, hx, rfl⟩ := List.mem_map.mp hrow
  exact hl x hx

/-- Points of the programs at which a kill does no harm to `best_pars.pickle`: not between the evaluation and the
row. -/
def Safe : Proc P S V → Prop
  | .improving _ _ _ => False
  | .decided _ _ _ _ _ => False
  | .rdmOpen _ _ _ _ _ => False
  | .logging _ _ _ _ _ => False
  | _ => True

/-- `best_pars.pickle` has the parameters of the best row. -/
def Exact (u : P → S → Eval P S V T D) (ls : List (P × S)) (k : Disk P V T D) : Prop :=
  ∃ b x, IsFirstMin (ls.map (varOf u)) b ∧ ls[b]? = some x ∧ k.best = some (some x.1)

/-- Invariant of the histories with kills at safe points only. -/
def ExactInv (u : P → S → Eval P S V T D) (ls : List (P × S)) (k : Disk P V T D) : Option (Proc P S V) → Prop
  | some (.improving θ s _) => argmin ((ls ++ [(θ, s)]).map (varOf u)) = some (ls.length, varOf u (θ, s))
  | some (.decided θ s _ _ _) => Exact u (ls ++ [(θ, s)]) k
  | some (.rdmOpen _ _ _ _ _) => False
  | some (.logging θ s _ _ _) => Exact u (ls ++ [(θ, s)]) k
  | _ => k.out ≠ none → ls ≠ [] → Exact u ls k

theorem exact_exec {r : Rules} (hm : r.minGlobal = none) {u : P → S → Eval P S V T D} {Init : P → Prop} {n : Nat}
    {es ls : List (P × S)} {k : Disk P V T D} {p : Proc P S V} (hk : FilesOk r u Init n es ls k)
    (hp : ProcOk r u Init n es ls k (some p)) (hbp : BestProc u es ls k (some p))
    (h : ExactInv u ls k (some p)) :
    ExactInv u (ls ++ logs p) (exec r u k p).1 (some (exec r u k p).2) := by
  cases p with
  | boot θ s =>
    simp only [logs, List.append_nil, exec]
    cases ho : k.out with
    | none => exact fun h => absurd rfl h
    | some rows =>
      dsimp only
      cases hpar : k.pars with
      | none => exact h
      | some q =>
        cases q with
        | none => exact h
        | some θ' =>
          dsimp only
          cases hres : resume r (rows.map Prod.fst) with
          | none => exact h
          | some x => exact h
  | newBest θ s =>
    simp only [logs, List.append_nil]
    exact fun h => absurd hp.2.1 h
  | newOut θ s =>
    simp only [logs, List.append_nil]
    obtain ⟨hls, hpar⟩ := hk.absent hp.2.1
    exact fun _ h => absurd hls h
  | loop θ s b c g =>
    simp only [logs, List.append_nil, exec]
    by_cases hc : c < r.maxCount
    · rw [if_pos hc]; exact h
    · rw [if_neg hc]; exact h
  | saving θ s b c g =>
    simp only [logs, List.append_nil]
    exact h
  | evaluate θ s b c g =>
    simp only [logs, List.append_nil]
    obtain ⟨h1, h2, h3⟩ := hbp
    cases ha : argmin (ls.map (varOf u)) with
    | none =>
      have hls := argmin_map_none.mp ha
      subst hls
      rw [ha] at h1
      subst h1
      refine ⟨0, (θ, s), ?_, by simp, h3 rfl⟩
      exact argmin_spec (w := varOf u (θ, s)) (by rw [argmin_map_append, ha]; rfl)
    | some y =>
      obtain ⟨b', w⟩ := y
      rw [ha] at h1
      subst h1
      have hls : ls ≠ [] := fun h => by
        rw [argmin_map_none.mpr h] at ha
        simp at ha
      simp only [exec, Option.map_some]
      by_cases hw : (u θ s).var < w
      · rw [if_pos hw]
        show argmin _ = _
        rw [argmin_map_append, ha]
        exact if_pos hw
      · rw [if_neg hw]
        obtain ⟨b'', x, e1, e2, e3⟩ := h hp.1 hls
        have hb : b' = b'' := isFirstMin_unique (argmin_spec ha) e1
        subst hb
        refine ⟨b', x, argmin_spec (w := w) ?_, ?_, e3⟩
        · rw [argmin_map_append, ha]
          exact if_neg hw
        · rw [List.getElem?_append_left, e2]
          rw [List.getElem?_eq_some_iff] at e2
          exact e2.1
  | improving θ s g =>
    simp only [logs, List.append_nil]
    exact ⟨ls.length, (θ, s), argmin_spec h, by simp, rfl⟩
  | decided θ s b c g =>
    simp only [logs, List.append_nil, exec, hm]
    exact h
  | rdmOpen θ s b c g => exact absurd h id
  | logging θ s b c g => exact fun _ _ => h
  | finished =>
    simp only [logs, List.append_nil]
    exact h
  | raised =>
    simp only [logs, List.append_nil]
    exact h

theorem reach_exact {r : Rules} (hm : r.minGlobal = none) {u : P → S → Eval P S V T D} {Init : P → Prop}
    (hr : 0 < r.maxCount) {n : Nat} {es ls : List (P × S)} {k : Disk P V T D} {p : Option (Proc P S V)}
    (h : Reach r u Init Safe n es ls k p) : ExactInv u ls k p := by
  induction h with
  | empty => exact fun h => absurd rfl h
  | start θ s h hθ ih => exact ih
  | run h ih => exact exact_exec hm (reach_inv hr h).1 (reach_inv hr h).2 (reach_best hm hr h).2 ih
  | @kill n es ls k p h hs ih =>
    cases p <;> first | exact ih | exact absurd hs id
  | exit h hp ih =>
    rcases hp with rfl | rfl
    · exact ih
    · exact ih

/-- C116 (when it holds): if no process is killed between an evaluation and its row, then in the directory left behind
`best_pars.pickle` can be read and has the parameters of the row with the smallest variance (the first such row),
however often the script is killed and started again. -/
theorem C116_partial_exact {r : Rules} (hm : r.minGlobal = none) {u : P → S → Eval P S V T D} {Init : P → Prop}
    (hr : 0 < r.maxCount) {n : Nat} {es ls : List (P × S)} {k : Disk P V T D}
    (h : Reach r u Init Safe n es ls k none) {rows : List (V × T)} (ho : k.out = some rows) (hne : rows ≠ []) :
    ∃ b x, IsFirstMin (rows.map Prod.fst) b ∧ ls[b]? = some x ∧ rows = ls.map (rowOf u) ∧
      k.best = some (some x.1) := by
  have hrows := (reach_inv hr h).1.rows rows ho
  subst hrows
  obtain ⟨b, x, h1, h2, h3⟩ := reach_exact hm hr h (by simp [ho]) (by simpa using hne)
  refine ⟨b, x, ?_, h2, rfl, h3⟩
  simpa [Function.comp_def, rowOf, varOf] using h1

/-- What is known when the loop is left. -/
def EndProc (u : P → S → Eval P S V T D) (r : Rules) (ls : List (P × S)) : Option (Proc P S V) → Prop
  | some .finished => ∃ b w, argmin (ls.map (varOf u)) = some (b, w) ∧ b + r.maxCount ≤ ls.length
  | _ => True

theorem reach_end {r : Rules} (hm : r.minGlobal = none) {u : P → S → Eval P S V T D} {Init : P → Prop}
    {Killed : Proc P S V → Prop} (hr : 0 < r.maxCount) {n : Nat} {es ls : List (P × S)} {k : Disk P V T D}
    {p : Option (Proc P S V)} (h : Reach r u Init Killed n es ls k p) : EndProc u r ls p := by
  induction h with
  | empty => trivial
  | start θ s h hθ ih => trivial
  | @run n es ls k p h ih =>
    have hb := (reach_best hm hr h).2
    cases p with
    | loop θ s b c g =>
      simp only [logs, List.append_nil, exec]
      by_cases hc : c < r.maxCount
      · rw [if_pos hc]; trivial
      · rw [if_neg hc]
        obtain ⟨-, h2, -⟩ := hb
        unfold CountOk at h2
        cases ha : argmin (ls.map (varOf u)) with
        | none => rw [ha] at h2; omega
        | some y =>
          obtain ⟨b', w⟩ := y
          rw [ha] at h2
          have := argmin_lt ha
          rw [List.length_map] at this
          exact ⟨b', w, ha, by omega⟩
    | finished =>
      simp only [logs, List.append_nil]
      exact ih
    | boot θ s =>
      simp only [exec]
      split
      · trivial
      · split
        · split <;> trivial
        · trivial
    | evaluate θ s b c g =>
      simp only [exec]
      split
      · trivial
      · split <;> trivial
    | decided θ s b c g => simp only [exec]; split <;> trivial
    | _ => trivial
  | kill h _ ih => trivial
  | exit h _ ih => trivial

/-- C117 (partial, end of the optimisation): in every history, when the loop is left there are at least
`max_count - 1` rows after the best one.  The full statement asks for `max_count` rows (as in an uninterrupted run) and
is refuted by `C117_fails`. -/
theorem C117_partial {r : Rules} (hm : r.minGlobal = none) {u : P → S → Eval P S V T D} {Init : P → Prop}
    {Killed : Proc P S V → Prop} (hr : 0 < r.maxCount) {n : Nat} {es ls : List (P × S)} {k : Disk P V T D}
    (h : Reach r u Init Killed n es ls k (some .finished)) :
    ∃ rows b, k.out = some rows ∧ IsFirstMin (rows.map Prod.fst) b ∧ b + 1 + (r.maxCount - 1) ≤ rows.length := by
  obtain ⟨b, w, ha, hb⟩ := reach_end hm hr h
  obtain ⟨hk, hp⟩ := reach_inv hr h
  cases ho : k.out with
  | none => exact absurd ho hp.1
  | some rows =>
    have := hk.rows rows ho
    subst this
    refine ⟨_, b, rfl, ?_, by simp; omega⟩
    have := argmin_spec ha
    simpa [Function.comp_def, rowOf, varOf] using this

/-- C117 (a finished run stays finished): when the loop has been left, starting the script again in the same directory
ends at once and changes no file. -/
theorem C117_finished {r : Rules} (hm : r.minGlobal = none) {u : P → S → Eval P S V T D} {Init : P → Prop}
    {Killed : Proc P S V → Prop} (hr : 2 ≤ r.maxCount) {n : Nat} {es ls : List (P × S)} {k : Disk P V T D}
    (h : Reach r u Init Killed n es ls k (some .finished)) (θ : P) (s : S) :
    (fun x => exec r u x.1 x.2)^[2] (k, .boot θ s) = (k, .finished) := by
  obtain ⟨b, w, ha, hb⟩ := reach_end hm (by omega) h
  obtain ⟨hk, hp⟩ := reach_inv (by omega) h
  obtain ⟨hout, θ', hpar⟩ := hp
  cases ho : k.out with
  | none => exact absurd ho hout
  | some rows =>
    have := hk.rows rows ho
    subst this
    have he : (ls.map (rowOf u)).map Prod.fst = ls.map (varOf u) := by simp [Function.comp_def]
    have hlen : 2 ≤ ls.length := by omega
    have hres : resume r (ls.map (varOf u)) = some (some w, ls.length - b, ls.length) := by
      match ls, hlen with
      | x :: y :: l, _ =>
        simp only [resume, List.map_cons] at ha ⊢
        rw [ha, hm]
        simp
    show exec r u (exec r u k (.boot θ s)).1 (exec r u k (.boot θ s)).2 = _
    have : exec r u k (.boot θ s) = (k, .loop θ' s (some w) (ls.length - b) ls.length) := by
      simp only [exec, ho, hpar]
      rw [he, hres]
    rw [this]
    simp only [exec]
    rw [if_neg (by omega)]

/-- C117 (partial, restarts): a process ends with an exception only if `out.txt` exists and `parameters.pickle` cannot be
read or there is exactly one row.  The full statement — a killed run can always be continued — is refuted by
`C117_fails_unreadable` and `C117_fails_one_row`. -/
theorem C117_partial_raises {r : Rules} {u : P → S → Eval P S V T D} {Init : P → Prop} {Killed : Proc P S V → Prop}
    (hr : 0 < r.maxCount) {n : Nat} {es ls : List (P × S)} {k : Disk P V T D}
    (h : Reach r u Init Killed n es ls k (some .raised)) :
    ∃ rows, k.out = some rows ∧ ((∀ θ, k.pars ≠ some (some θ)) ∨ rows.length = 1) := by
  obtain ⟨hk, hp⟩ := reach_inv hr h
  cases ho : k.out with
  | none => exact absurd ho hp.1
  | some rows =>
    have := hk.rows rows ho
    subst this
    exact ⟨_, rfl, by simpa using hp.2⟩

/-- In such a directory every start ends with the exception, and nothing changes. -/
theorem C117_stuck {r : Rules} {u : P → S → Eval P S V T D} {k : Disk P V T D} {rows : List (V × T)}
    (ho : k.out = some rows) (h : (∀ θ, k.pars ≠ some (some θ)) ∨ rows.length = 1) (θ : P) (s : S) :
    exec r u k (.boot θ s) = (k, .raised) := by
  simp only [exec, ho]
  cases hpar : k.pars with
  | none => rfl
  | some q =>
    cases q with
    | none => rfl
    | some θ' =>
      rcases h with h | h
      · exact absurd hpar (h θ')
      · match rows, h with
        | [x], _ => rfl

end GPSKet.AbInitioRun
