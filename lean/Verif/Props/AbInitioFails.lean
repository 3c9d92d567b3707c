import Verif.Props.AbInitioBest
import Verif.Props.AbInitioUninterrupted

/-!
C115, C116, C117, C119: histories of the `GPS_for_ab_initio` scripts in which a killed run does not continue as an
uninterrupted one.
-/

namespace GPSKet.AbInitioRun

open EarlyStopping

variable {P S V T D : Type} [LinearOrder V]

/-- One operation, with the records of the theorems. -/
def gstep (r : Rules) (u : P → S → Eval P S V T D)
    (x : List (P × S) × List (P × S) × Disk P V T D × Proc P S V) :
    List (P × S) × List (P × S) × Disk P V T D × Proc P S V :=
  (x.1 ++ evaluates x.2.2.2, x.2.1 ++ logs x.2.2.2, exec r u x.2.2.1 x.2.2.2)

theorem reach_gsteps {r : Rules} {u : P → S → Eval P S V T D} {Init : P → Prop} {Killed : Proc P S V → Prop}
    {n : Nat} (j : Nat) {x : List (P × S) × List (P × S) × Disk P V T D × Proc P S V}
    (h : Reach r u Init Killed n x.1 x.2.1 x.2.2.1 (some x.2.2.2)) :
    Reach r u Init Killed n ((gstep r u)^[j] x).1 ((gstep r u)^[j] x).2.1 ((gstep r u)^[j] x).2.2.1
      (some ((gstep r u)^[j] x).2.2.2) := by
  induction j with
  | zero => exact h
  | succ j ih =>
    rw [Function.iterate_succ_apply']
    exact Reach.run ih

theorem gsteps_runs {r : Rules} {u : P → S → Eval P S V T D} (θ : P) (s : S) (j : Nat) :
    ((gstep r u)^[j] ([], [], Disk.empty, .boot θ s)).2.2 = runs r u θ s j := by
  induction j with
  | zero => rfl
  | succ j ih =>
    rw [Function.iterate_succ_apply', runs_succ, ← ih]
    rfl

/-- An uninterrupted run is a history. -/
theorem reach_runs {r : Rules} {u : P → S → Eval P S V T D} {Init : P → Prop} {Killed : Proc P S V → Prop} {θ : P}
    (hθ : Init θ) (s : S) (j : Nat) :
    ∃ es ls, Reach r u Init Killed 1 es ls (runs r u θ s j).1 (some (runs r u θ s j).2) := by
  have h := reach_gsteps (r := r) (u := u) (Init := Init) (Killed := Killed) (n := 1) j
    (x := ([], [], Disk.empty, .boot θ s)) (Reach.start θ s Reach.empty hθ)
  rw [gsteps_runs] at h
  exact ⟨_, _, h⟩

/-- The rules of `H2O.py`. -/
def h2oRules : Rules := ⟨200, none⟩

/-- Parameters count their steps; each step has a smaller variance than the one before. -/
def falling (θ : Nat) (_ : Unit) : Eval Nat Unit Nat Unit Unit := ⟨100 - θ, (), (), θ + 1, ()⟩

theorem trained_falling {m θ : Nat} (h : Trained (stepOf falling) (· = 0) m θ) : θ = m := by
  induction h with
  | start h => exact h
  | step s h ih => simp [falling, ih]

/-- The state after `i` operations of a first process and, after a kill, `j` operations of a second. -/
def twice (i j : Nat) : List (Nat × Unit) × List (Nat × Unit) × Disk Nat Nat Unit Unit × Proc Nat Unit Nat :=
  let x := (gstep h2oRules falling)^[i] ([], [], Disk.empty, .boot 0 ())
  (gstep h2oRules falling)^[j] (x.1, x.2.1, x.2.2.1, .boot 0 ())

theorem reach_once (i : Nat) :
    let x := (gstep h2oRules falling)^[i] ([], [], Disk.empty, .boot 0 ())
    Reach h2oRules falling (· = 0) (fun _ => True) 1 x.1 x.2.1 x.2.2.1 none := by
  have h := reach_gsteps (r := h2oRules) (u := falling) (Init := (· = 0)) (Killed := fun _ => True) (n := 1) i
    (x := ([], [], Disk.empty, .boot 0 ())) (Reach.start 0 () Reach.empty rfl)
  exact Reach.kill h trivial

theorem reach_twice (i j : Nat) :
    Reach h2oRules falling (· = 0) (fun _ => True) 2 (twice i j).1 (twice i j).2.1 (twice i j).2.2.1
      (some (twice i j).2.2.2) :=
  reach_gsteps j (Reach.start 0 () (reach_once i) rfl)

/-- C115 does not hold in full: after a kill between the second row and the next write of `parameters.pickle`, the second
step is repeated, and the third row belongs to the same parameters as the second. -/
theorem C115_fails :
    ¬ ∀ n es ls (k : Disk Nat Nat Unit Unit) p,
      Reach h2oRules falling (· = 0) (fun _ => True) n es ls k p →
        ∀ i x, ls[i]? = some x → Trained (stepOf falling) (· = 0) i x.1 := by
  intro h
  have := trained_falling (h _ _ _ _ _ (reach_twice 14 7) 2 (1, ()) rfl)
  simp at this

/-- C116 does not hold in full: after a kill while `best_pars.pickle` is written, the file is empty although there are
rows. -/
theorem C116_fails :
    ¬ ∀ n es ls (k : Disk Nat Nat Unit Unit),
      Reach h2oRules falling (· = 0) (fun _ => True) n es ls k none → ∀ rows, k.out = some rows → rows ≠ [] →
        ∃ b x, IsFirstMin (rows.map Prod.fst) b ∧ ls[b]? = some x ∧ k.best = some (some x.1) := by
  intro h
  obtain ⟨b, x, -, -, h3⟩ := h _ _ _ _ (reach_once 17) [(100, ()), (99, ())] rfl (by simp)
  have : (some none : Option (Option Nat)) = some (some x.1) := h3
  simp at this

/-- And after a kill between the write of `best_pars.pickle` and the row, the file has parameters that belong to no
row (and the run can be continued from there). -/
theorem C116_fails_unlogged :
    ∃ n es ls, ∃ k : Disk Nat Nat Unit Unit, Reach h2oRules falling (· = 0) (fun _ => True) n es ls k none ∧
      k.out = some [(100, ()), (99, ())] ∧ k.pars = some (some 2) ∧ k.best = some (some 2) ∧
      ∀ x ∈ ls, x.1 ≠ 2 :=
  ⟨_, _, _, _, reach_once 18, rfl, rfl, rfl, by decide⟩

/-- C117 does not hold in full: after a kill while `parameters.pickle` is written, starting the script again ends with
an exception (and, by `C117_stuck`, so does every later start). -/
theorem C117_fails_unreadable :
    ∃ n es ls, ∃ k : Disk Nat Nat Unit Unit,
      Reach h2oRules falling (· = 0) (fun _ => True) n es ls k (some .raised) ∧
      k.out = some [(100, ()), (99, ())] ∧ k.pars = some none :=
  ⟨_, _, _, _, reach_twice 15 1, rfl, rfl⟩

/-- The same after a kill with exactly one row, although both files with parameters can be read. -/
theorem C117_fails_one_row :
    ∃ n es ls, ∃ k : Disk Nat Nat Unit Unit,
      Reach h2oRules falling (· = 0) (fun _ => True) n es ls k (some .raised) ∧
      k.out = some [(100, ())] ∧ k.pars = some (some 0) ∧ k.best = some (some 0) :=
  ⟨_, _, _, _, reach_twice 8 1, rfl, rfl, rfl⟩

/-- Variance 0 for the parameters `m`, 1 for all others. -/
def spike (m : Nat) (θ : Nat) (_ : Unit) : Eval Nat Unit Nat Unit Unit := ⟨if θ = m then 0 else 1, (), (), θ + 1, ()⟩

theorem traj_spike (m n : Nat) : traj (stepOf (spike m)) 0 () n = (n, ()) := by
  induction n with
  | zero => rfl
  | succ n ih => simp [traj, ih, spike]

/-- The variances of the uninterrupted optimisation. -/
theorem vars_spike (m n : Nat) :
    ((List.range n).map (traj (stepOf (spike m)) 0 ())).map (varOf (spike m)) =
      (List.range n).map (fun i => if i = m then 0 else 1) := by
  rw [List.map_map]
  apply List.map_congr_left
  intro i _
  simp only [Function.comp_apply, traj_spike]
  rfl

theorem isFirstMin_spike {m n : Nat} (h : m < n) :
    IsFirstMin ((List.range n).map (fun i => if i = m then 0 else 1)) m := by
  refine ⟨0, by simp [h], by simp, ?_⟩
  intro i w hi hw
  simp only [List.getElem?_map, Option.map_eq_some_iff] at hw
  obtain ⟨a, ha, rfl⟩ := hw
  rw [List.getElem?_range (by omega)] at ha
  obtain rfl : i = a := by simpa using ha
  rw [if_neg (by omega)]
  exact Nat.one_pos

theorem isFirstMin_drop_spike {m n : Nat} (h : m < n) :
    IsFirstMin (((List.range n).map (fun i => if i = m then 0 else 1)).drop m) 0 := by
  refine ⟨0, ?_, by simp, by simp⟩
  rw [List.getElem?_drop]
  simp [h]

/-- C117 does not hold in full: with one kill, the run ends with only `max_count - 1` rows after the best one, whatever
`max_count` is. -/
theorem C117_fails (c : Nat) (hc : 2 ≤ c) :
    ∃ n es ls, ∃ k : Disk Nat Nat Unit Unit,
      Reach ⟨c, none⟩ (spike 0) (· = 0) (fun _ => True) n es ls k (some .finished) ∧
      ∃ rows, k.out = some rows ∧ IsFirstMin (rows.map Prod.fst) 0 ∧ rows.length = 1 + (c - 1) := by
  have hb : ∀ m, 0 < m → since ⟨c, none⟩ (spike 0) 0 () m = m - 1 := by
    intro m hm
    have h1 := isFirstMin_spike hm
    rw [← vars_spike] at h1
    obtain ⟨w, hw⟩ := argmin_of_isFirstMin h1
    have : bestAt ⟨c, none⟩ (spike 0) 0 () m = some (0, w) := hw
    simp [since, this]
  have h0 : since ⟨c, none⟩ (spike 0) 0 () 0 = 0 := by
    have : bestAt ⟨c, none⟩ (spike 0) 0 () 0 = none := bestAt_none.mpr (Nat.zero_le _)
    simp [since, this]
  obtain ⟨j, θ', s', b', c', hj⟩ := reaches_loop (r := ⟨c, none⟩) (spike 0) 0 () (by show 0 < c; omega) c (by
    intro m hm
    show _ < c
    rcases Nat.eq_zero_or_pos m with rfl | hm'
    · rw [h0]; omega
    · rw [hb m hm']; omega)
  have hi := uinv_runs (r := ⟨c, none⟩) (spike 0) 0 () (by show 0 < c; omega) (j + 2)
  have hu := uinv_runs (r := ⟨c, none⟩) (spike 0) 0 () (by show 0 < c; omega) j
  rw [hj] at hu
  obtain ⟨hat, -, -, hc', -, -⟩ := hu
  rw [hb c (by omega)] at hc'
  have e1 := runs_succ ⟨c, none⟩ (spike 0) 0 () j
  rw [hj] at e1
  simp only [exec] at e1
  rw [if_pos (by show c' < c; omega)] at e1
  have e2 := runs_succ ⟨c, none⟩ (spike 0) 0 () (j + 1)
  rw [e1] at e2
  simp only [exec] at e2
  have hout : (runs ⟨c, none⟩ (spike 0) 0 () (j + 2)).1.out =
      some ((history (spike 0) 0 () c).map (rowOf (spike 0))) := by
    rw [e2]; exact hat.1
  have hpar : (runs ⟨c, none⟩ (spike 0) 0 () (j + 2)).1.pars = some (some θ') := by rw [e2]
  obtain ⟨es, ls, hreach⟩ := reach_runs (r := ⟨c, none⟩) (u := spike 0) (Init := (· = 0)) (Killed := fun _ => True)
    (θ := 0) rfl () (j + 2)
  generalize (runs ⟨c, none⟩ (spike 0) 0 () (j + 2)).1 = k at hreach hout hpar
  have hstart := Reach.start 0 () (Reach.kill hreach trivial) rfl
  have hfst : ((history (spike 0) 0 () c).map (rowOf (spike 0))).map Prod.fst =
      (List.range c).map (fun i => if i = 0 then 0 else 1) := by
    rw [← vars_spike]; simp [history, Function.comp_def]
  have hmin := isFirstMin_spike (m := 0) (n := c) (by omega)
  obtain ⟨w, hw⟩ := argmin_of_isFirstMin hmin
  have hres : resume ⟨c, none⟩ (((history (spike 0) 0 () c).map (rowOf (spike 0))).map Prod.fst) =
      some (some w, c, c) := by
    rw [hfst]
    have hlen : ((List.range c).map (fun i => if i = 0 then 0 else 1)).length = c := by simp
    generalize (List.range c).map (fun i => if i = 0 then 0 else 1) = l at hw hlen
    match l, hlen with
    | [], h => simp at h; omega
    | [x], h => simp at h; omega
    | x :: y :: l, h =>
      simp only [resume, hw, h]
      simp
  have e3 : exec ⟨c, none⟩ (spike 0) k (.boot 0 ()) = (k, .loop θ' () (some w) c c) := by
    simp only [exec, hout, hpar, hres]
  have h1 := Reach.run hstart
  rw [e3] at h1
  have h2 := Reach.run h1
  have e4 : exec ⟨c, none⟩ (spike 0) k (.loop θ' () (some w) c c) = (k, .finished) := by
    simp only [exec]
    rw [if_neg (by show ¬ c < c; omega)]
  rw [e4] at h2
  refine ⟨_, _, _, _, h2, _, hout, ?_, ?_⟩
  · rw [hfst]; exact hmin
  · simp; omega

end GPSKet.AbInitioRun
