import Verif.Model.Timer
import Mathlib.Tactic.Linarith
import Mathlib.Tactic.Ring
import Mathlib.Tactic.NormNum
import Mathlib.Tactic.Positivity
import Mathlib.Tactic.Push
import Mathlib.Data.List.Basic

/-!
C104: what the timer of the training scripts reports.
-/

namespace GPSKet.Timer

/-- The seconds that a string `[days]d hours:minutes:seconds` stands for. -/
def secondsOf (s : Option ℤ × ℤ × ℤ × ℤ) : ℤ := 86400 * s.1.getD 0 + 3600 * s.2.1 + 60 * s.2.2.1 + s.2.2.2

/-- **C104**, the strings: for a time that is not negative, the string stands for its whole seconds, with
fewer than 24 hours, 60 minutes and 60 seconds; days are printed if there are any. -/
theorem C104_format (delta : ℚ) (h : 0 ≤ delta) :
    secondsOf (format delta) = ⌊delta⌋ ∧
    (0 ≤ (format delta).2.1 ∧ (format delta).2.1 < 24) ∧ (0 ≤ (format delta).2.2.1 ∧ (format delta).2.2.1 < 60) ∧
    (0 ≤ (format delta).2.2.2 ∧ (format delta).2.2.2 < 60) ∧ ((format delta).1 = none ↔ delta < 86400) := by
  have hd : 0 ≤ ⌊delta / 86400⌋ := Int.floor_nonneg.mpr (by positivity)
  have h1 : (86400 * (⌊delta / 86400⌋ : ℚ)) ≤ delta := by
    have := Int.floor_le (delta / 86400)
    rw [le_div_iff₀ (by norm_num)] at this
    linarith
  have h2 : delta < 86400 * (⌊delta / 86400⌋ : ℚ) + 86400 := by
    have := Int.lt_floor_add_one (delta / 86400)
    rw [div_lt_iff₀ (by norm_num)] at this
    linarith
  have e : ⌊delta - 86400 * (⌊delta / 86400⌋ : ℚ)⌋ = ⌊delta⌋ - 86400 * ⌊delta / 86400⌋ := by
    have : (86400 * (⌊delta / 86400⌋ : ℚ)) = ((86400 * ⌊delta / 86400⌋ : ℤ) : ℚ) := by push_cast; ring
    rw [this, Int.floor_sub_intCast]
  have hs0 : 0 ≤ ⌊delta - 86400 * (⌊delta / 86400⌋ : ℚ)⌋ := Int.floor_nonneg.mpr (by linarith)
  have hs1 : ⌊delta - 86400 * (⌊delta / 86400⌋ : ℚ)⌋ < 86400 := Int.floor_lt.mpr (by push_cast; linarith)
  have hday : ⌊delta / 86400⌋ > 0 ↔ ¬ delta < 86400 := by
    rw [not_lt, gt_iff_lt, Int.floor_pos, le_div_iff₀ (by norm_num), one_mul]
  generalize hD : ⌊delta / 86400⌋ = D at *
  generalize hS : ⌊delta - 86400 * (D : ℚ)⌋ = s at *
  have hf : format delta = (if D > 0 then some D else none, s / 3600, s % 3600 / 60, s % 60) := by
    simp only [format, hD, hS]
  rw [hf]
  refine ⟨?_, ⟨?_, ?_⟩, ⟨?_, ?_⟩, ⟨?_, ?_⟩, ?_⟩ <;> simp only [secondsOf]
  · split
    · simp only [Option.getD_some]; omega
    · simp only [Option.getD_none]; omega
  · omega
  · omega
  · omega
  · omega
  · omega
  · omega
  · by_cases hp : D > 0
    · rw [if_pos hp]
      simp [hday.mp hp]
    · rw [if_neg hp]
      have : delta < 86400 := by
        by_contra hn
        exact hp (hday.mpr hn)
      simp [this]

/-- After the updates of a loop from step `first`, the timer knows the last step and the last time. -/
theorem loop_concat (t : State) (first : ℤ) (times : List ℚ) (now : ℚ) :
    loop t first (times ++ [now]) = (loop t first times).bind fun t' => update t' now (first + times.length) := by
  induction times generalizing t first with
  | nil =>
    simp only [List.nil_append, loop, Option.bind_some, List.length_nil, Nat.cast_zero, add_zero]
    cases update t now first <;> rfl
  | cons a times ih =>
    simp only [List.cons_append, loop]
    cases update t a first with
    | none => rfl
    | some t' =>
      simp only [Option.bind_some, ih, List.length_cons]
      congr 1
      funext t''
      congr 1
      push_cast
      ring

theorem loop_state (total : ℤ) (begin' : ℚ) (times : List ℚ) :
    ∃ t, loop (new total begin') 1 times = some t ∧ t.total = total ∧ t.prevStep = times.length ∧ t.start = begin' ∧
      t.prev = (begin' :: times).getLast (by simp) := by
  induction times using List.reverseRecOn with
  | nil => exact ⟨_, rfl, rfl, rfl, rfl, rfl⟩
  | append_singleton times now ih =>
    obtain ⟨t, h1, h2, h3, h4, h5⟩ := ih
    rw [loop_concat, h1]
    have : ¬ (1 + (times.length : ℤ) - t.prevStep = 0) := by rw [h3]; omega
    simp only [Option.bind_some, update, if_neg this]
    refine ⟨_, rfl, h2, ?_, h4, ?_⟩
    · simp only [List.length_append, List.length_singleton]; push_cast; ring
    · rw [List.getLast_cons (by simp)]; simp

/-- **C104** for a loop from step 1: after every step, the elapsed time is that since the construction of the
timer, the runtime is that of the last step, and the remaining time is the runtime times the number of steps
left. -/
theorem C104_partial (total : ℤ) (begin' : ℚ) (times : List ℚ) (now : ℚ) :
    ∃ t, loop (new total begin') 1 (times ++ [now]) = some t ∧
      t.elapsed = some (now - begin') ∧
      t.runtime = some (now - (begin' :: times).getLast (by simp)) ∧
      t.remaining = some ((now - (begin' :: times).getLast (by simp)) * (total - (times.length + 1 : ℤ) : ℤ)) := by
  obtain ⟨t, h1, h2, h3, h4, h5⟩ := loop_state total begin' times
  rw [loop_concat, h1]
  have hone : 1 + (times.length : ℤ) - t.prevStep = 1 := by rw [h3]; ring
  simp only [Option.bind_some, update, hone, one_ne_zero, if_false]
  refine ⟨_, rfl, by rw [h4], ?_, ?_⟩
  · simp [h5]
  · simp only [h5, h2]
    congr 1
    push_cast
    ring

/-- With times that do not decrease and not more than `total_steps` steps, no reported time is negative. -/
theorem C104_nonneg (total : ℤ) (begin' : ℚ) (times : List ℚ) (now : ℚ)
    (hnow : (begin' :: times).getLast (by simp) ≤ now) (hb : begin' ≤ now) (htot : (times.length : ℤ) + 1 ≤ total) :
    ∃ t e r m, loop (new total begin') 1 (times ++ [now]) = some t ∧ t.elapsed = some e ∧ t.runtime = some r ∧
      t.remaining = some m ∧ 0 ≤ e ∧ 0 ≤ r ∧ 0 ≤ m := by
  obtain ⟨t, h1, h2, h3, h4⟩ := C104_partial total begin' times now
  refine ⟨t, _, _, _, h1, h2, h3, h4, by linarith, by linarith, ?_⟩
  refine mul_nonneg (by linarith) ?_
  exact_mod_cast (by omega : (0 : ℤ) ≤ total - (times.length + 1))

/-- Two steps of 3 and 5 seconds out of ten. -/
example : ∃ t, loop (new 10 0) 1 ([3] ++ [8]) = some t ∧ t.runtime = some 5 ∧ t.remaining = some 40 := by
  obtain ⟨t, h1, -, h2, h3⟩ := C104_partial 10 0 [3] 8
  exact ⟨t, h1, by rw [h2]; norm_num, by rw [h3]; norm_num⟩

/-- **C104 fails** after a restart: the runtime of the first step is divided by its number.  Here a step of
100 seconds is reported as 1 second, with 9 instead of 900 seconds left. -/
theorem C104_restart_fails : ¬ ∀ (total first : ℤ) (begin' now : ℚ) (t : State), 1 ≤ first → first ≤ total →
    loop (new total begin') first [now] = some t → t.runtime = some (now - begin') := by
  intro h
  have := h 109 100 0 100 ⟨109, 100, 0, 100, some 100, some 1, some 9⟩ (by norm_num) (by norm_num) (by
    simp only [loop, update, new]
    norm_num)
  norm_num at this

/-- **C104 fails** in descent finishing, whose timer is made for the steps of descent finishing alone while
the steps are numbered on from those of training: the remaining time is negative, and is printed as a time of
almost a day.  Here 1000 training steps are done, and the first of 10 steps of descent finishing has taken
1001 seconds. -/
theorem C104_descent_fails : ∃ t m, loop (new 10 0) 1001 [1001] = some t ∧ t.remaining = some m ∧ m < 0 ∧
    format m = (none, 23, 43, 29) := by
  refine ⟨⟨10, 1001, 0, 1001, some 1001, some 1, some (-991)⟩, -991, ?_, rfl, by norm_num, ?_⟩
  · simp only [loop, update, new]
    norm_num
  · norm_num [format]

end GPSKet.Timer
