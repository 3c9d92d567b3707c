import Verif.Lemmas.AbInitioRun
import Mathlib.Logic.Function.Iterate
import Mathlib.Order.Nat

/-!
C114: an uninterrupted run of the optimisation scripts of `GPS_for_ab_initio` writes one row per optimisation step,
stops after the stated number of steps without an improvement of the variance and not before, and keeps the
parameters of the best step.
-/

namespace GPSKet.AbInitioRun

open EarlyStopping

variable {P S V T D : Type} [LinearOrder V]

/-- The first `n` evaluations of the uninterrupted optimisation. -/
def history (u : P → S → Eval P S V T D) (θ : P) (s : S) (n : Nat) : List (P × S) :=
  (List.range n).map (traj (stepOf u) θ s)

omit [LinearOrder V] in
theorem history_succ (u : P → S → Eval P S V T D) (θ : P) (s : S) (n : Nat) :
    history u θ s (n + 1) = history u θ s n ++ [traj (stepOf u) θ s n] := by
  simp [history, List.range_succ]

omit [LinearOrder V] in
@[simp] theorem history_length (u : P → S → Eval P S V T D) (θ : P) (s : S) (n : Nat) :
    (history u θ s n).length = n := by
  simp [history]

/-- The variances among which the best is sought: those from `min_global_count` on. -/
def counted (r : Rules) (u : P → S → Eval P S V T D) (θ : P) (s : S) (n : Nat) : List V :=
  ((history u θ s n).map (varOf u)).drop (r.minGlobal.getD 0)

/-- Place and value of the best. -/
def bestAt (r : Rules) (u : P → S → Eval P S V T D) (θ : P) (s : S) (n : Nat) : Option (Nat × V) :=
  argmin (counted r u θ s n)

/-- Steps since the best. -/
def since (r : Rules) (u : P → S → Eval P S V T D) (θ : P) (s : S) (n : Nat) : Nat :=
  match bestAt r u θ s n with
  | none => 0
  | some (b, _) => n - r.minGlobal.getD 0 - 1 - b

/-- What `best_pars.pickle` contains. -/
def kept (r : Rules) (u : P → S → Eval P S V T D) (θ : P) (s : S) (n : Nat) : P :=
  match bestAt r u θ s n with
  | none => θ
  | some (b, _) => if b = 0 then θ else (traj (stepOf u) θ s (r.minGlobal.getD 0 + b)).1

omit [LinearOrder V] in
theorem counted_length (r : Rules) (u : P → S → Eval P S V T D) (θ : P) (s : S) (n : Nat) :
    (counted r u θ s n).length = n - r.minGlobal.getD 0 := by
  simp [counted]

omit [LinearOrder V] in
theorem counted_succ_lt {r : Rules} {u : P → S → Eval P S V T D} {θ : P} {s : S} {n : Nat}
    (h : n < r.minGlobal.getD 0) : counted r u θ s (n + 1) = [] := by
  rw [← List.length_eq_zero_iff, counted_length]
  omega

omit [LinearOrder V] in
theorem counted_succ_ge {r : Rules} {u : P → S → Eval P S V T D} {θ : P} {s : S} {n : Nat}
    (h : r.minGlobal.getD 0 ≤ n) :
    counted r u θ s (n + 1) = counted r u θ s n ++ [varOf u (traj (stepOf u) θ s n)] := by
  unfold counted
  rw [history_succ, List.map_append, List.drop_append_of_le_length (by simpa using h)]
  rfl

theorem bestAt_none {r : Rules} {u : P → S → Eval P S V T D} {θ : P} {s : S} {n : Nat} :
    bestAt r u θ s n = none ↔ n ≤ r.minGlobal.getD 0 := by
  unfold bestAt
  rw [argmin_eq_none, ← List.length_eq_zero_iff, counted_length]
  omega

theorem bestAt_succ {r : Rules} {u : P → S → Eval P S V T D} {θ : P} {s : S} {n : Nat}
    (h : r.minGlobal.getD 0 ≤ n) :
    bestAt r u θ s (n + 1) = match bestAt r u θ s n with
      | none => some (n - r.minGlobal.getD 0, varOf u (traj (stepOf u) θ s n))
      | some (b, w) => if varOf u (traj (stepOf u) θ s n) < w
          then some (n - r.minGlobal.getD 0, varOf u (traj (stepOf u) θ s n)) else some (b, w) := by
  unfold bestAt
  rw [counted_succ_ge h, argmin_append, counted_length]
  cases argmin (counted r u θ s n) <;> rfl

theorem bestAt_lt {r : Rules} {u : P → S → Eval P S V T D} {θ : P} {s : S} {n b : Nat} {w : V}
    (h : bestAt r u θ s n = some (b, w)) : b < n - r.minGlobal.getD 0 := by
  have := argmin_lt h
  rwa [counted_length] at this

theorem since_succ_le (r : Rules) (u : P → S → Eval P S V T D) (θ : P) (s : S) (n : Nat) :
    since r u θ s (n + 1) ≤ since r u θ s n + 1 := by
  rcases Nat.lt_or_ge n (r.minGlobal.getD 0) with h | h
  · have : bestAt r u θ s (n + 1) = none := bestAt_none.mpr h
    simp [since, this]
  · unfold since
    rw [bestAt_succ h]
    cases hb : bestAt r u θ s n with
    | none => simp; omega
    | some x =>
      obtain ⟨b, w⟩ := x
      have := bestAt_lt hb
      by_cases hv : varOf u (traj (stepOf u) θ s n) < w
      · simp only [if_pos hv]; omega
      · simp only [if_neg hv]; omega

/-- Files and variables after `g` rows. -/
def At (r : Rules) (u : P → S → Eval P S V T D) (θ : P) (s : S) (k : Disk P V T D) (g : Nat) : Prop :=
  k.out = some ((history u θ s g).map (rowOf u)) ∧ (∀ m < g, since r u θ s m < r.maxCount) ∧
    (r.minGlobal ≠ none → ∀ i < g,
      k.rdms i = some (some (u (traj (stepOf u) θ s i).1 (traj (stepOf u) θ s i).2).rdm))

/-- Invariant of an uninterrupted run. -/
def UInv (r : Rules) (u : P → S → Eval P S V T D) (θ : P) (s : S) (k : Disk P V T D) : Proc P S V → Prop
  | .boot θ' s' => θ' = θ ∧ s' = s ∧ k = Disk.empty
  | .newBest θ' s' => θ' = θ ∧ s' = s ∧ k.out = none
  | .newOut θ' s' => θ' = θ ∧ s' = s ∧ k.out = none ∧ k.best = some (some θ)
  | .loop θ' s' b c g => At r u θ s k g ∧ k.best = some (some (kept r u θ s g)) ∧
      b = (bestAt r u θ s g).map Prod.snd ∧ c = since r u θ s g ∧
      (c < r.maxCount → (θ', s') = traj (stepOf u) θ s g) ∧
      (r.maxCount ≤ c → 1 ≤ g ∧ k.pars = some (some (traj (stepOf u) θ s (g - 1)).1))
  | .saving θ' s' b c g => At r u θ s k g ∧ k.best = some (some (kept r u θ s g)) ∧
      b = (bestAt r u θ s g).map Prod.snd ∧ c = since r u θ s g ∧ c < r.maxCount ∧
      (θ', s') = traj (stepOf u) θ s g
  | .evaluate θ' s' b c g => At r u θ s k g ∧ k.best = some (some (kept r u θ s g)) ∧
      b = (bestAt r u θ s g).map Prod.snd ∧ c = since r u θ s g ∧ c < r.maxCount ∧
      (θ', s') = traj (stepOf u) θ s g ∧ k.pars = some (some θ')
  | .improving θ' s' g => At r u θ s k g ∧ since r u θ s g < r.maxCount ∧ r.minGlobal.getD 0 < g ∧
      bestAt r u θ s (g + 1) = some (g - r.minGlobal.getD 0, (u θ' s').var) ∧
      (θ', s') = traj (stepOf u) θ s g ∧ k.pars = some (some θ')
  | .decided θ' s' b c g => At r u θ s k g ∧ since r u θ s g < r.maxCount ∧
      k.best = some (some (kept r u θ s (g + 1))) ∧ reset r g b = (bestAt r u θ s (g + 1)).map Prod.snd ∧
      c = since r u θ s (g + 1) ∧ (θ', s') = traj (stepOf u) θ s g ∧ k.pars = some (some θ')
  | .rdmOpen θ' s' b c g => At r u θ s k g ∧ since r u θ s g < r.maxCount ∧
      k.best = some (some (kept r u θ s (g + 1))) ∧ b = (bestAt r u θ s (g + 1)).map Prod.snd ∧
      c = since r u θ s (g + 1) ∧ (θ', s') = traj (stepOf u) θ s g ∧ k.pars = some (some θ')
  | .logging θ' s' b c g => At r u θ s k g ∧ since r u θ s g < r.maxCount ∧
      k.best = some (some (kept r u θ s (g + 1))) ∧ b = (bestAt r u θ s (g + 1)).map Prod.snd ∧
      c = since r u θ s (g + 1) ∧ (θ', s') = traj (stepOf u) θ s g ∧ k.pars = some (some θ') ∧
      (r.minGlobal ≠ none → k.rdms g = some (some (u θ' s').rdm))
  | .finished => ∃ g, 1 ≤ g ∧ At r u θ s k g ∧ k.best = some (some (kept r u θ s g)) ∧
      r.maxCount ≤ since r u θ s g ∧ k.pars = some (some (traj (stepOf u) θ s (g - 1)).1)
  | .raised => False

theorem uinv_exec {r : Rules} {u : P → S → Eval P S V T D} {θ : P} {s : S} (hr : 0 < r.maxCount)
    {k : Disk P V T D} {p : Proc P S V} (h : UInv r u θ s k p) :
    UInv r u θ s (exec r u k p).1 (exec r u k p).2 := by
  cases p with
  | boot θ' s' =>
    obtain ⟨rfl, rfl, rfl⟩ := h
    exact ⟨rfl, rfl, rfl⟩
  | newBest θ' s' =>
    obtain ⟨rfl, rfl, h⟩ := h
    exact ⟨rfl, rfl, h, rfl⟩
  | newOut θ' s' =>
    obtain ⟨rfl, rfl, h, hb⟩ := h
    have h0 : bestAt r u θ' s' 0 = none := bestAt_none.mpr (Nat.zero_le _)
    refine ⟨⟨rfl, by simp, by simp⟩, ?_, ?_, ?_, fun _ => rfl, ?_⟩
    · show k.best = _
      rw [hb]; simp [kept, h0]
    · rw [h0]; rfl
    · simp [since, h0]
    · intro h; omega
  | loop θ' s' b c g =>
    obtain ⟨h1, h2, h3, h4, h5, h6⟩ := h
    simp only [exec]
    by_cases hc : c < r.maxCount
    · rw [if_pos hc]
      exact ⟨h1, h2, h3, h4, hc, h5 hc⟩
    · rw [if_neg hc]
      obtain ⟨h7, h8⟩ := h6 (Nat.le_of_not_lt hc)
      exact ⟨g, h7, h1, h2, by rw [← h4]; exact Nat.le_of_not_lt hc, h8⟩
  | saving θ' s' b c g =>
    obtain ⟨h1, h2, h3, h4, h5, h6⟩ := h
    exact ⟨h1, h2, h3, h4, h5, h6, rfl⟩
  | evaluate θ' s' b c g =>
    obtain ⟨h1, h2, h3, h4, h5, h6, h7⟩ := h
    have hv : (u θ' s').var = varOf u (traj (stepOf u) θ s g) := by rw [← h6]
    cases hb : bestAt r u θ s g with
    | none =>
      rw [hb] at h3
      subst h3
      have hg := bestAt_none.mp hb
      have hk : kept r u θ s g = θ := by simp [kept, hb]
      simp only [exec]
      rcases Nat.lt_or_ge g (r.minGlobal.getD 0) with hg' | hg'
      · have hb' : bestAt r u θ s (g + 1) = none := bestAt_none.mpr hg'
        refine ⟨h1, h4 ▸ h5, ?_, ?_, ?_, h6, h7⟩
        · show k.best = _
          rw [h2, hk]; simp [kept, hb']
        · rw [reset_eq, if_pos hg', hb']; rfl
        · simp [since, hb']
      · have hb' := bestAt_succ (u := u) (θ := θ) (s := s) hg'
        rw [hb] at hb'
        dsimp only at hb'
        have h0 : g - r.minGlobal.getD 0 = 0 := by omega
        rw [h0, ← hv] at hb'
        refine ⟨h1, h4 ▸ h5, ?_, ?_, ?_, h6, h7⟩
        · show k.best = _
          rw [h2, hk]; simp [kept, hb']
        · rw [reset_eq, if_neg (by omega), hb']; rfl
        · simp [since, hb']; omega
    | some x =>
      obtain ⟨b', w⟩ := x
      rw [hb] at h3
      subst h3
      have hlt := bestAt_lt hb
      have hb' := bestAt_succ (r := r) (u := u) (θ := θ) (s := s) (n := g) (by omega)
      rw [hb, ← hv] at hb'
      dsimp only at hb'
      simp only [exec, Option.map_some]
      by_cases hw : (u θ' s').var < w
      · rw [if_pos hw] at hb' ⊢
        exact ⟨h1, h4 ▸ h5, by omega, hb', h6, h7⟩
      · rw [if_neg hw] at hb' ⊢
        refine ⟨h1, h4 ▸ h5, ?_, ?_, ?_, h6, h7⟩
        · show k.best = _
          rw [h2]; simp [kept, hb, hb']
        · rw [reset_eq, if_neg (by omega), hb']; rfl
        · rw [h4]; simp [since, hb, hb']; omega
  | improving θ' s' g =>
    obtain ⟨h1, h2, h3, h4, h5, h6⟩ := h
    refine ⟨h1, h2, ?_, ?_, ?_, h5, h6⟩
    · have : r.minGlobal.getD 0 + (g - r.minGlobal.getD 0) = g := by omega
      have hne : g - r.minGlobal.getD 0 ≠ 0 := by omega
      show some (some θ') = _
      simp only [kept, h4, if_neg hne, this]
      rw [← h5]
    · rw [reset_eq, if_neg (by omega), h4]; rfl
    · simp only [since, h4]; omega
  | decided θ' s' b c g =>
    obtain ⟨h1, h2, h3, h4, h5, h6, h7⟩ := h
    simp only [exec]
    cases hm : r.minGlobal with
    | none => exact ⟨h1, h2, h3, h4, h5, h6, h7, fun h => absurd hm h⟩
    | some m =>
      refine ⟨⟨h1.1, h1.2.1, fun hne i hi => ?_⟩, h2, h3, h4, h5, h6, h7⟩
      show Function.update _ _ _ _ = _
      rw [Function.update_of_ne (by omega)]
      exact h1.2.2 hne i hi
  | rdmOpen θ' s' b c g =>
    obtain ⟨h1, h2, h3, h4, h5, h6, h7⟩ := h
    refine ⟨⟨h1.1, h1.2.1, fun hne i hi => ?_⟩, h2, h3, h4, h5, h6, h7, fun _ => ?_⟩
    · show Function.update _ _ _ _ = _
      rw [Function.update_of_ne (by omega)]
      exact h1.2.2 hne i hi
    · show Function.update _ _ _ _ = _
      rw [Function.update_self]
  | logging θ' s' b c g =>
    obtain ⟨h1, h2, h3, h4, h5, h6, h7, h8⟩ := h
    refine ⟨⟨?_, ?_, ?_⟩, h3, h4, h5, ?_, ?_⟩
    · show some (k.out.getD [] ++ _) = _
      rw [h1.1, history_succ, ← h6]
      simp [rowOf]
    · intro m hm
      rcases Nat.lt_succ_iff_lt_or_eq.mp hm with hm | rfl
      · exact h1.2.1 m hm
      · exact h2
    · intro hne i hi
      rcases Nat.lt_succ_iff_lt_or_eq.mp hi with hi | rfl
      · exact h1.2.2 hne i hi
      · have := h8 hne
        rw [← h6]
        exact this
    · intro hc
      rw [if_pos hc]
      show stepOf u θ' s' = _
      simp only [traj]
      rw [← h6]
    · intro _
      refine ⟨by omega, ?_⟩
      show k.pars = _
      rw [h7, Nat.add_sub_cancel, ← h6]
  | finished => exact h
  | raised => exact h

/-- A process that runs without being killed: `j` operations from a start in an empty directory. -/
def runs (r : Rules) (u : P → S → Eval P S V T D) (θ : P) (s : S) (j : Nat) : Disk P V T D × Proc P S V :=
  (fun x => exec r u x.1 x.2)^[j] (Disk.empty, .boot θ s)

theorem runs_succ (r : Rules) (u : P → S → Eval P S V T D) (θ : P) (s : S) (j : Nat) :
    runs r u θ s (j + 1) = exec r u (runs r u θ s j).1 (runs r u θ s j).2 := by
  unfold runs
  rw [Function.iterate_succ_apply']

theorem uinv_runs {r : Rules} (u : P → S → Eval P S V T D) (θ : P) (s : S) (hr : 0 < r.maxCount) (j : Nat) :
    UInv r u θ s (runs r u θ s j).1 (runs r u θ s j).2 := by
  induction j with
  | zero => exact ⟨rfl, rfl, rfl⟩
  | succ j ih =>
    rw [runs_succ]
    exact uinv_exec hr ih

theorem since_of_exhausted {r : Rules} {u : P → S → Eval P S V T D} {θ : P} {s : S} {n : Nat}
    (h : Exhausted r.maxCount (counted r u θ s n)) : r.maxCount ≤ since r u θ s n := by
  obtain ⟨b, hb, hlen⟩ := h
  obtain ⟨w, hw⟩ := argmin_of_isFirstMin hb
  rw [counted_length] at hlen
  have : bestAt r u θ s n = some (b, w) := hw
  simp only [since, this]
  omega

/-- C114 (what has happened when the loop is left).  An uninterrupted run that has ended has done `n` steps, where the
smallest variance from row `min_global_count` on (from the first row in `H2O.py` and `H50_1D.py`) is the one in row
`min_global_count + b`, exactly `max_count` rows before the last one, and at no earlier time were there `max_count`
rows without an improvement.  `out.txt` has one row per step, in order, `parameters.pickle` has the parameters of
the last row, `best_pars.pickle` has those of the best row — except that it has the initial ones when the best row is
the first that counts — and there is one file with a density matrix per row (`H4x4x4.py`). -/
theorem C114_uninterrupted {r : Rules} (u : P → S → Eval P S V T D) (θ : P) (s : S) (hr : 0 < r.maxCount) {j : Nat}
    (hf : (runs r u θ s j).2 = .finished) :
    ∃ n b, n = r.minGlobal.getD 0 + b + 1 + r.maxCount ∧
      IsFirstMin ((((List.range n).map (traj (stepOf u) θ s)).map (varOf u)).drop (r.minGlobal.getD 0)) b ∧
      (∀ m < n, ¬ Exhausted r.maxCount
        ((((List.range m).map (traj (stepOf u) θ s)).map (varOf u)).drop (r.minGlobal.getD 0))) ∧
      (runs r u θ s j).1.out = some (((List.range n).map (traj (stepOf u) θ s)).map (rowOf u)) ∧
      (runs r u θ s j).1.pars = some (some (traj (stepOf u) θ s (n - 1)).1) ∧
      (runs r u θ s j).1.best =
        some (some (if b = 0 then θ else (traj (stepOf u) θ s (r.minGlobal.getD 0 + b)).1)) ∧
      (r.minGlobal ≠ none → ∀ i < n, (runs r u θ s j).1.rdms i =
        some (some (u (traj (stepOf u) θ s i).1 (traj (stepOf u) θ s i).2).rdm)) := by
  have h := uinv_runs u θ s hr j
  rw [hf] at h
  obtain ⟨g, hg, hat, hb, hs, hp⟩ := h
  obtain ⟨m, rfl⟩ : ∃ m, g = m + 1 := ⟨g - 1, by omega⟩
  have h1 := since_succ_le r u θ s m
  have h2 := hat.2.1 m (by omega)
  have h3 : since r u θ s (m + 1) = r.maxCount := by omega
  cases hbest : bestAt r u θ s (m + 1) with
  | none => simp [since, hbest] at h3; omega
  | some x =>
    obtain ⟨b, w⟩ := x
    simp only [since, hbest] at h3
    simp only [kept, hbest] at hb
    refine ⟨m + 1, b, by omega, argmin_spec hbest, ?_, hat.1, hp, hb, hat.2.2⟩
    intro i hi hex
    have := since_of_exhausted (u := u) (θ := θ) (s := s) hex
    have := hat.2.1 i hi
    omega

/-- In `H2O.py` and `H50_1D.py` the parameters kept are those of the row with the smallest variance. -/
theorem C114_best {r : Rules} (u : P → S → Eval P S V T D) (θ : P) (s : S) (hr : 0 < r.maxCount)
    (hm : r.minGlobal = none) {j : Nat} (hf : (runs r u θ s j).2 = .finished) :
    ∃ b, IsFirstMin (((runs r u θ s j).1.out.getD []).map Prod.fst) b ∧
      (runs r u θ s j).1.best = some (some (traj (stepOf u) θ s b).1) := by
  obtain ⟨n, b, -, h1, -, h2, -, h3, -⟩ := C114_uninterrupted u θ s hr hf
  refine ⟨b, ?_, ?_⟩
  · rw [hm] at h1
    rw [h2]
    simpa [Function.comp_def, rowOf, varOf] using h1
  · rw [h3, hm]
    by_cases hb : b = 0
    · subst hb; rfl
    · simp [hb]

/-- Example: variances 5, 3, 4, 5, ... and parameters counted by steps. -/
def sampleEval (θ : Nat) (_ : Unit) : Eval Nat Unit Nat Unit Unit :=
  ⟨if θ = 0 then 5 else θ + 2, (), (), θ + 1, ()⟩

/-- With `max_count = 2` the run ends after four rows, with the parameters of the second kept. -/
example : (runs ⟨2, none⟩ sampleEval 0 () 25).2 = .finished ∧
    (runs ⟨2, none⟩ sampleEval 0 () 25).1.out = some [(5, ()), (3, ()), (4, ()), (5, ())] ∧
    (runs ⟨2, none⟩ sampleEval 0 () 25).1.best = some (some 1) := ⟨rfl, rfl, rfl⟩

/-- The same with `min_global_count = 1`: the run ends at the same row, but the initial parameters are kept. -/
example : (runs ⟨2, some 1⟩ sampleEval 0 () 28).2 = .finished ∧
    (runs ⟨2, some 1⟩ sampleEval 0 () 28).1.out = some [(5, ()), (3, ()), (4, ()), (5, ())] ∧
    (runs ⟨2, some 1⟩ sampleEval 0 () 28).1.best = some (some 0) := ⟨rfl, rfl, rfl⟩

/-- From the condition of the loop with `g` rows the process comes to the condition with `g + 1` rows. -/
theorem loop_next {r : Rules} {u : P → S → Eval P S V T D} {θ : P} {s : S} {j g c : Nat} {θ' : P} {s' : S}
    {b : Option V} (h : (runs r u θ s j).2 = .loop θ' s' b c g) (hc : c < r.maxCount) :
    ∃ j' θ'' s'' b' c', (runs r u θ s j').2 = .loop θ'' s'' b' c' (g + 1) := by
  have e1 := runs_succ r u θ s j
  rw [h] at e1
  simp only [exec, if_pos hc] at e1
  have e2 := runs_succ r u θ s (j + 1)
  rw [e1] at e2
  simp only [exec] at e2
  have e3 := runs_succ r u θ s (j + 2)
  rw [e2] at e3
  have key : ∃ j' b' c', (runs r u θ s j').2 = .decided θ' s' b' c' g := by
    cases b with
    | none => simp only [exec] at e3; exact ⟨j + 3, _, _, by rw [e3]⟩
    | some w =>
      simp only [exec] at e3
      by_cases hw : (u θ' s').var < w
      · rw [if_pos hw] at e3
        have e4 := runs_succ r u θ s (j + 3)
        rw [e3] at e4
        exact ⟨j + 4, _, _, by rw [e4]; rfl⟩
      · rw [if_neg hw] at e3
        exact ⟨j + 3, _, _, by rw [e3]⟩
  obtain ⟨i, b', c', hi⟩ := key
  have f1 := runs_succ r u θ s i
  rw [hi] at f1
  have key' : ∃ j' b' c', (runs r u θ s j').2 = .logging θ' s' b' c' g := by
    cases hm : r.minGlobal with
    | none => simp only [exec, hm] at f1; exact ⟨i + 1, _, _, by rw [f1]⟩
    | some m =>
      simp only [exec, hm] at f1
      have f2 := runs_succ r u θ s (i + 1)
      rw [f1] at f2
      exact ⟨i + 2, _, _, by rw [f2]; rfl⟩
  obtain ⟨i', b'', c'', hi'⟩ := key'
  have f2 := runs_succ r u θ s i'
  rw [hi'] at f2
  exact ⟨i' + 1, _, _, _, _, by rw [f2]; rfl⟩

/-- As long as there are fewer than `max_count` steps since the best, the next row comes. -/
theorem reaches_loop {r : Rules} (u : P → S → Eval P S V T D) (θ : P) (s : S) (hr : 0 < r.maxCount) (g : Nat)
    (h : ∀ m < g, since r u θ s m < r.maxCount) :
    ∃ j' θ'' s'' b' c', (runs r u θ s j').2 = .loop θ'' s'' b' c' g := by
  induction g with
  | zero => exact ⟨3, θ, s, none, 0, rfl⟩
  | succ g ih =>
    obtain ⟨j, θ', s', b', c', hj⟩ := ih (fun m hm => h m (by omega))
    have hi := uinv_runs u θ s hr j
    rw [hj] at hi
    exact loop_next hj (by rw [hi.2.2.2.1]; exact h g (by omega))

/-- C114 (the loop is left).  If at some time of the optimisation there are `max_count` rows without an improvement,
then an uninterrupted run ends. -/
theorem C114_terminates {r : Rules} (u : P → S → Eval P S V T D) (θ : P) (s : S) (hr : 0 < r.maxCount) (n : Nat)
    (h : Exhausted r.maxCount
      ((((List.range n).map (traj (stepOf u) θ s)).map (varOf u)).drop (r.minGlobal.getD 0))) :
    ∃ j, (runs r u θ s j).2 = .finished := by
  have h' := since_of_exhausted (u := u) (θ := θ) (s := s) h
  have hex : ∃ n, r.maxCount ≤ since r u θ s n := ⟨n, h'⟩
  classical
  obtain ⟨j, θ', s', b', c', hj⟩ := reaches_loop u θ s hr (Nat.find hex)
    (fun m hm => Nat.lt_of_not_le (Nat.find_min hex hm))
  have hi := uinv_runs u θ s hr j
  rw [hj] at hi
  have := Nat.find_spec hex
  refine ⟨j + 1, ?_⟩
  rw [runs_succ, hj]
  simp only [exec]
  rw [if_neg (by rw [hi.2.2.2.1]; omega)]

end GPSKet.AbInitioRun
