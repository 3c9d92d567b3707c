import Verif.Props.AbInitioFails

/-!
C119: the end of the optimisation, the restarts and the best parameters of `H4x4x4.py` (`GPS_for_ab_initio`), which is
meant to ignore the first `min_global_count` rows.
-/

namespace GPSKet.AbInitioRun

open EarlyStopping

variable {P S V T D : Type} [LinearOrder V]

/-- At least `c` rows, the first of them excepted, have not improved on the variance of the first. -/
def Stale (u : P → S → Eval P S V T D) (ls : List (P × S)) (c : Nat) (w : V) : Prop :=
  ∃ i x, ls[i]? = some x ∧ varOf u x = w ∧ i + c ≤ ls.length ∧ ∀ y ∈ ls.drop i, w ≤ varOf u y

/-- Invariant of `best_var` and `count`. -/
def StaleOk (u : P → S → Eval P S V T D) (ls : List (P × S)) (b : Option V) (c : Nat) : Prop :=
  (c = 0 ∨ ∃ w, Stale u ls c w) ∧ ∀ w, b = some w → Stale u ls c w

/-- Invariant of the process, for all scripts. -/
def StaleProc (r : Rules) (u : P → S → Eval P S V T D) (ls : List (P × S)) : Option (Proc P S V) → Prop
  | some (.loop _ _ b c _) => StaleOk u ls b c
  | some (.saving _ _ b c _) => StaleOk u ls b c
  | some (.evaluate _ _ b c _) => StaleOk u ls b c
  | some (.decided θ s b c _) => StaleOk u (ls ++ [(θ, s)]) b c
  | some (.rdmOpen θ s b c _) => StaleOk u (ls ++ [(θ, s)]) b c
  | some (.logging θ s b c _) => StaleOk u (ls ++ [(θ, s)]) b c
  | some .finished => ∃ w, Stale u ls r.maxCount w
  | _ => True

theorem Stale.new (u : P → S → Eval P S V T D) (ls : List (P × S)) (x : P × S) :
    Stale u (ls ++ [x]) 0 (varOf u x) :=
  ⟨ls.length, x, by simp, rfl, by simp, by simp⟩

theorem Stale.next {u : P → S → Eval P S V T D} {ls : List (P × S)} {x : P × S} {c : Nat} {w : V}
    (h : Stale u ls c w) (hx : ¬ varOf u x < w) : Stale u (ls ++ [x]) (c + 1) w := by
  obtain ⟨i, y, h1, h2, h3, h4⟩ := h
  have hi : i < ls.length := by
    rw [List.getElem?_eq_some_iff] at h1
    exact h1.1
  refine ⟨i, y, by rw [List.getElem?_append_left hi]; exact h1, h2, by simp; omega, fun z hz => ?_⟩
  rw [List.drop_append_of_le_length (by omega), List.mem_append, List.mem_singleton] at hz
  rcases hz with hz | rfl
  · exact h4 z hz
  · exact not_lt.mp hx

theorem Stale.mono {u : P → S → Eval P S V T D} {ls : List (P × S)} {c c' : Nat} {w : V} (h : Stale u ls c w)
    (hc : c' ≤ c) : Stale u ls c' w := by
  obtain ⟨i, y, h1, h2, h3, h4⟩ := h
  exact ⟨i, y, h1, h2, by omega, h4⟩

theorem stale_resume {r : Rules} (u : P → S → Eval P S V T D) (ls : List (P × S)) {b : Option V} {c g : Nat}
    (h : resume r (ls.map (varOf u)) = some (b, c, g)) : StaleOk u ls b c := by
  have key : ∀ {b w}, argmin (ls.map (varOf u)) = some (b, w) → Stale u ls (ls.length - b) w := by
    intro b w ha
    have hlt := argmin_lt ha
    rw [List.length_map] at hlt
    have hget := argmin_get ha
    rw [List.getElem?_map, Option.map_eq_some_iff] at hget
    obtain ⟨x, hx, hxw⟩ := hget
    exact ⟨b, x, hx, hxw, by omega, fun y hy => argmin_le ha _ (List.mem_map_of_mem (List.mem_of_mem_drop hy))⟩
  unfold resume at h
  split at h
  · simp only [Option.some.injEq, Prod.mk.injEq] at h
    obtain ⟨rfl, rfl, rfl⟩ := h
    exact ⟨Or.inl rfl, by simp⟩
  · simp at h
  · split at h
    · simp at h
    · rename_i b' w ha
      split at h
      · simp only [Option.some.injEq, Prod.mk.injEq, List.length_map] at h
        obtain ⟨rfl, rfl, rfl⟩ := h
        exact ⟨Or.inr ⟨w, key ha⟩, fun w' h' => by cases h'; exact key ha⟩
      · split at h
        · simp only [Option.some.injEq, Prod.mk.injEq, List.length_map] at h
          obtain ⟨rfl, rfl, rfl⟩ := h
          exact ⟨Or.inr ⟨w, key ha⟩, fun w' h' => by cases h'; exact key ha⟩
        · simp only [Option.some.injEq, Prod.mk.injEq] at h
          obtain ⟨rfl, rfl, rfl⟩ := h
          exact ⟨Or.inl rfl, by simp⟩

theorem StaleOk.reset {u : P → S → Eval P S V T D} {ls : List (P × S)} {b : Option V} {c : Nat}
    (h : StaleOk u ls b c) (r : Rules) (g : Nat) : StaleOk u ls (AbInitioRun.reset r g b) c := by
  rw [reset_eq]
  split
  · exact ⟨h.1, by simp⟩
  · exact h

theorem reach_stale {r : Rules} {u : P → S → Eval P S V T D} {Init : P → Prop} {Killed : Proc P S V → Prop}
    (hr : 0 < r.maxCount) {n : Nat} {es ls : List (P × S)} {k : Disk P V T D} {p : Option (Proc P S V)}
    (h : Reach r u Init Killed n es ls k p) : StaleProc r u ls p := by
  induction h with
  | empty => trivial
  | start θ s h hθ ih => trivial
  | @run n es ls k p h ih =>
    obtain ⟨hk, hp⟩ := reach_inv hr h
    cases p with
    | boot θ s =>
      simp only [logs, List.append_nil, exec]
      cases ho : k.out with
      | none => trivial
      | some rows =>
        have hrows := hk.rows _ ho
        dsimp only
        cases hpar : k.pars with
        | none => trivial
        | some q =>
          cases q with
          | none => trivial
          | some θ' =>
            dsimp only
            cases hres : resume r (rows.map Prod.fst) with
            | none => trivial
            | some x =>
              obtain ⟨b, c, g⟩ := x
              have he : rows.map Prod.fst = ls.map (varOf u) := by
                rw [hrows]; simp [Function.comp_def]
              rw [he] at hres
              exact stale_resume u ls hres
    | newBest θ s => trivial
    | newOut θ s => exact ⟨Or.inl rfl, by simp⟩
    | loop θ s b c g =>
      simp only [logs, List.append_nil, exec]
      by_cases hc : c < r.maxCount
      · rw [if_pos hc]; exact ih
      · rw [if_neg hc]
        rcases ih.1 with h0 | ⟨w, hw⟩
        · omega
        · exact ⟨w, hw.mono (by omega)⟩
    | saving θ s b c g =>
      simp only [logs, List.append_nil]
      exact ih
    | evaluate θ s b c g =>
      simp only [logs, List.append_nil]
      cases b with
      | none => exact ⟨Or.inl rfl, fun w hw => by cases hw; exact Stale.new u ls (θ, s)⟩
      | some w =>
        simp only [exec]
        by_cases hw : (u θ s).var < w
        · rw [if_pos hw]; trivial
        · rw [if_neg hw]
          have := (ih.2 w rfl).next (x := (θ, s)) hw
          exact ⟨Or.inr ⟨w, this⟩, fun w' h' => by cases h'; exact this⟩
    | improving θ s g =>
      simp only [logs, List.append_nil]
      exact ⟨Or.inl rfl, fun w hw => by cases hw; exact Stale.new u ls (θ, s)⟩
    | decided θ s b c g =>
      simp only [logs, List.append_nil, exec]
      cases hm : r.minGlobal with
      | none => exact StaleOk.reset ih r g
      | some m => exact StaleOk.reset ih r g
    | rdmOpen θ s b c g =>
      simp only [logs, List.append_nil]
      exact ih
    | logging θ s b c g => exact ih
    | finished =>
      simp only [logs, List.append_nil]
      exact ih
    | raised => trivial
  | kill h _ ih => trivial
  | exit h _ ih => trivial

/-- C119 (partial): in every history of any of the three scripts, when the loop is left there is a row with at least
`max_count - 1` rows after it, none of which has a smaller variance.  The full statement asks that this row is not among
the first `min_global_count`, that a finished run stays finished and that the best parameters are kept; it is refuted by
`C119_fails_early`, `C119_fails_again` and `C119_fails_best`. -/
theorem C119_partial {r : Rules} {u : P → S → Eval P S V T D} {Init : P → Prop} {Killed : Proc P S V → Prop}
    (hr : 0 < r.maxCount) {n : Nat} {es ls : List (P × S)} {k : Disk P V T D}
    (h : Reach r u Init Killed n es ls k (some .finished)) :
    ∃ rows i row, k.out = some rows ∧ rows[i]? = some row ∧ i + 1 + (r.maxCount - 1) ≤ rows.length ∧
      ∀ row' ∈ rows.drop i, row.1 ≤ row'.1 := by
  obtain ⟨w, i, x, h1, h2, h3, h4⟩ := reach_stale hr h
  obtain ⟨hk, hp⟩ := reach_inv hr h
  cases ho : k.out with
  | none => exact absurd ho hp.1
  | some rows =>
    have := hk.rows rows ho
    subst this
    refine ⟨_, i, rowOf u x, rfl, by rw [List.getElem?_map, h1]; rfl, by simp; omega, ?_⟩
    intro row' hrow
    rw [← List.map_drop] at hrow
    obtain ⟨y, hy, rfl⟩ := List.mem_map.mp hrow
    show varOf u x ≤ varOf u y
    rw [h2]
    exact h4 y hy

theorem since_start {r : Rules} (u : P → S → Eval P S V T D) (θ : P) (s : S) {n : Nat} (h : n ≤ r.minGlobal.getD 0) :
    since r u θ s n = 0 := by
  have : bestAt r u θ s n = none := bestAt_none.mpr h
  simp [since, this]

/-- C119 does not hold in full: a run that is killed within the first `min_global_count` rows, when the smallest variance
is `max_count` rows ago, ends at once when it is started again, although an uninterrupted run would have continued for
more than `min_global_count` rows. -/
theorem C119_fails_early (c m : Nat) (hc : 2 ≤ c) (hm : c ≤ m) :
    ∃ n es ls, ∃ k : Disk Nat Nat Unit Unit,
      Reach ⟨c, some m⟩ (spike 0) (· = 0) (fun _ => True) n es ls k (some .finished) ∧
      ∃ rows, k.out = some rows ∧ rows.length = c ∧
        ∀ j, (runs ⟨c, some m⟩ (spike 0) 0 () j).2 = .finished →
          ∃ rows', (runs ⟨c, some m⟩ (spike 0) 0 () j).1.out = some rows' ∧ m + 1 + c ≤ rows'.length := by
  have hr : 0 < (⟨c, some m⟩ : Rules).maxCount := by show 0 < c; omega
  obtain ⟨j, θ', s', b', c', hj⟩ := reaches_loop (r := ⟨c, some m⟩) (spike 0) 0 () hr c (by
    intro i hi
    rw [since_start (r := ⟨c, some m⟩) (spike 0) 0 () (by show i ≤ m; omega)]
    exact hr)
  have hu := uinv_runs (r := ⟨c, some m⟩) (spike 0) 0 () hr j
  rw [hj] at hu
  obtain ⟨hat, -, -, hc', -, -⟩ := hu
  rw [since_start (r := ⟨c, some m⟩) (spike 0) 0 () (by show c ≤ m; omega)] at hc'
  subst hc'
  have e1 := runs_succ ⟨c, some m⟩ (spike 0) 0 () j
  rw [hj] at e1
  simp only [exec] at e1
  rw [if_pos hr] at e1
  have e2 := runs_succ ⟨c, some m⟩ (spike 0) 0 () (j + 1)
  rw [e1] at e2
  simp only [exec] at e2
  have hout : (runs ⟨c, some m⟩ (spike 0) 0 () (j + 2)).1.out =
      some ((history (spike 0) 0 () c).map (rowOf (spike 0))) := by
    rw [e2]; exact hat.1
  have hpar : (runs ⟨c, some m⟩ (spike 0) 0 () (j + 2)).1.pars = some (some θ') := by rw [e2]
  obtain ⟨es, ls, hreach⟩ := reach_runs (r := ⟨c, some m⟩) (u := spike 0) (Init := (· = 0)) (Killed := fun _ => True)
    (θ := 0) rfl () (j + 2)
  generalize (runs ⟨c, some m⟩ (spike 0) 0 () (j + 2)).1 = k at hreach hout hpar
  have hstart := Reach.start 0 () (Reach.kill hreach trivial) rfl
  have hfst : ((history (spike 0) 0 () c).map (rowOf (spike 0))).map Prod.fst =
      (List.range c).map (fun i => if i = 0 then 0 else 1) := by
    rw [← vars_spike]; simp [history, Function.comp_def]
  have hmin := isFirstMin_spike (m := 0) (n := c) (by omega)
  obtain ⟨w, hw⟩ := argmin_of_isFirstMin hmin
  have hres : resume ⟨c, some m⟩ (((history (spike 0) 0 () c).map (rowOf (spike 0))).map Prod.fst) =
      some (some w, c, c) := by
    rw [hfst]
    have hlen : ((List.range c).map (fun i => if i = 0 then 0 else 1)).length = c := by simp
    generalize (List.range c).map (fun i => if i = 0 then 0 else 1) = l at hw hlen
    match l, hlen with
    | [], h => simp at h; omega
    | [x], h => simp at h; omega
    | x :: y :: l, h =>
      simp only [resume, hw, h]
      rw [if_pos (by omega)]
      simp
  have e3 : exec ⟨c, some m⟩ (spike 0) k (.boot 0 ()) = (k, .loop θ' () (some w) c c) := by
    simp only [exec, hout, hpar, hres]
  have h1 := Reach.run hstart
  rw [e3] at h1
  have h2 := Reach.run h1
  have e4 : exec ⟨c, some m⟩ (spike 0) k (.loop θ' () (some w) c c) = (k, .finished) := by
    simp only [exec]
    rw [if_neg (by show ¬ c < c; omega)]
  rw [e4] at h2
  refine ⟨_, _, _, _, h2, _, hout, by simp, fun i hi => ?_⟩
  obtain ⟨n, b, hn, -, -, ho, -⟩ := C114_uninterrupted (r := ⟨c, some m⟩) (spike 0) 0 () hr hi
  refine ⟨_, ho, ?_⟩
  replace hn : n = m + b + 1 + c := hn
  simp only [List.length_map, List.length_range]
  omega

/-- The uninterrupted run of the counterexamples. -/
theorem spike_finished (c m : Nat) (hc : 1 ≤ c) :
    ∃ j, (runs ⟨c, some m⟩ (spike m) 0 () j).2 = .finished ∧
      (runs ⟨c, some m⟩ (spike m) 0 () j).1.out =
        some (((List.range (m + 1 + c)).map (traj (stepOf (spike m)) 0 ())).map (rowOf (spike m))) ∧
      (runs ⟨c, some m⟩ (spike m) 0 () j).1.best = some (some 0) ∧
      (runs ⟨c, some m⟩ (spike m) 0 () j).1.pars = some (some (m + c)) := by
  have hr : 0 < (⟨c, some m⟩ : Rules).maxCount := hc
  obtain ⟨j, hj⟩ := C114_terminates (r := ⟨c, some m⟩) (spike m) 0 () hr (m + 1 + c) (by
    rw [vars_spike]
    refine ⟨0, isFirstMin_drop_spike (m := m) (by omega), ?_⟩
    show 0 + 1 + c ≤ (List.drop m _).length
    rw [List.length_drop, List.length_map, List.length_range]
    omega)
  obtain ⟨n, b, hn, hb, -, ho, hp, hbest, -⟩ := C114_uninterrupted (r := ⟨c, some m⟩) (spike m) 0 () hr hj
  replace hn : n = m + b + 1 + c := hn
  rw [vars_spike] at hb
  have hb0 : b = 0 := isFirstMin_unique hb (isFirstMin_drop_spike (m := m) (by omega))
  subst hb0
  have hn' : n = m + 1 + c := by omega
  subst hn'
  refine ⟨j, hj, ho, by rw [hbest]; rfl, ?_⟩
  rw [hp, traj_spike]
  show some (some (m + 1 + c - 1)) = _
  congr 2
  omega

/-- C119 does not hold in full: if the first row that counts remains the best, `best_pars.pickle` still has the initial
parameters at the end, although the best variance of the whole run is the one of row `min_global_count`. -/
theorem C119_fails_best (c m : Nat) (hc : 1 ≤ c) (hm : 1 ≤ m) :
    ∃ n es ls, ∃ k : Disk Nat Nat Unit Unit,
      Reach ⟨c, some m⟩ (spike m) (· = 0) (fun _ => True) n es ls k (some .finished) ∧ n = 1 ∧
      ∃ rows, k.out = some rows ∧ IsFirstMin (rows.map Prod.fst) m ∧ k.best = some (some 0) ∧
        ∀ x, ls[m]? = some x → x.1 ≠ 0 := by
  obtain ⟨j, h1, h2, h3, -⟩ := spike_finished c m hc
  obtain ⟨es, ls, hreach⟩ := reach_runs (r := ⟨c, some m⟩) (u := spike m) (Init := (· = 0)) (Killed := fun _ => True)
    (θ := 0) rfl () j
  rw [h1] at hreach
  refine ⟨1, es, ls, _, hreach, rfl, _, h2, ?_, h3, fun x hx hx0 => ?_⟩
  · have := isFirstMin_spike (m := m) (n := m + 1 + c) (by omega)
    rw [← vars_spike] at this
    simpa [Function.comp_def] using this
  · have htr := C115_one_process (r := ⟨c, some m⟩) (show 0 < c from hc) hreach m x hx
    rw [hx0] at htr
    have : ∀ {n θ}, Trained (stepOf (spike m)) (· = 0) n θ → θ = n := by
      intro n θ h
      induction h with
      | start h => exact h
      | step s h ih => simp [spike, ih]
    have := this htr
    omega

/-- C119 does not hold in full: when a run has ended with its best row after the first `min_global_count`, starting it
again does not end at once: it goes on training, with the count and the best variance forgotten. -/
theorem C119_fails_again (c m : Nat) (hc : 1 ≤ c) :
    ∃ n es ls, ∃ k : Disk Nat Nat Unit Unit,
      Reach ⟨c, some m⟩ (spike m) (· = 0) (fun _ => True) n es ls k (some .finished) ∧
      ∀ s, exec ⟨c, some m⟩ (spike m) k (.boot 0 s) = (k, .loop (m + c) s none 0 (m + 1 + c)) := by
  obtain ⟨j, h1, h2, h3, h4⟩ := spike_finished c m hc
  obtain ⟨es, ls, hreach⟩ := reach_runs (r := ⟨c, some m⟩) (u := spike m) (Init := (· = 0)) (Killed := fun _ => True)
    (θ := 0) rfl () j
  rw [h1] at hreach
  refine ⟨1, es, ls, _, hreach, fun s => ?_⟩
  have hmin := isFirstMin_spike (m := m) (n := m + 1 + c) (by omega)
  obtain ⟨w, hw⟩ := argmin_of_isFirstMin hmin
  have hfst : (((List.range (m + 1 + c)).map (traj (stepOf (spike m)) 0 ())).map (rowOf (spike m))).map Prod.fst =
      (List.range (m + 1 + c)).map (fun i => if i = m then 0 else 1) := by
    rw [← vars_spike]; simp [Function.comp_def]
  have hres : resume ⟨c, some m⟩ ((List.range (m + 1 + c)).map (fun i => if i = m then 0 else 1)) =
      some (none, 0, m + 1 + c) := by
    have hlen : ((List.range (m + 1 + c)).map (fun i => if i = m then 0 else 1)).length = m + 1 + c := by simp
    generalize (List.range (m + 1 + c)).map (fun i => if i = m then 0 else 1) = l at hw hlen
    match l, hlen with
    | [], h => simp at h; omega
    | [x], h => simp at h; omega
    | x :: y :: l, h =>
      simp only [resume, hw, h]
      rw [if_neg (by omega)]
  simp only [exec, h2, h4]
  rw [hfst, hres]

end GPSKet.AbInitioRun
