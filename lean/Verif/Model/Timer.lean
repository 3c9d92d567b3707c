import Mathlib.Data.Rat.Floor

/-!
Model of the class `Timer` of the training scripts (`scripts/ARGPS/argps/utils.py` lines 48-99,
`scripts/cpd-backflow/cpd_backflow/utils.py` lines 50-101).  Times are rational numbers of seconds; the rounding
of `timedelta` to microseconds is not modelled.
-/

namespace GPSKet.Timer

/-- The attributes of a timer.  The three times are `None` before the first update. -/
structure State where
  total : ℤ
  prevStep : ℤ
  start : ℚ
  prev : ℚ
  elapsed : Option ℚ
  runtime : Option ℚ
  remaining : Option ℚ

/-- `Timer(total_steps)`, constructed at the time `now`.  `utils.py` lines 53-60 (ARGPS). -/
def new (total : ℤ) (now : ℚ) : State := ⟨total, 0, now, now, none, none, none⟩

/-- `update(step)` at the time `now`; dividing a `timedelta` by zero raises `ZeroDivisionError`.
`utils.py` lines 62-69 (ARGPS). -/
def update (t : State) (now : ℚ) (step : ℤ) : Option State :=
  if step - t.prevStep = 0 then none
  else
    let runtime := (now - t.prev) / (step - t.prevStep : ℤ)
    some { t with
      elapsed := some (now - t.start)
      runtime := some runtime
      remaining := some (runtime * (t.total - step : ℤ))
      prev := now
      prevStep := step }

/-- `_strftimedelta`: the days (`none` if they are not printed), hours, minutes and seconds of the string.
`timedelta.days` is the floor of the days and `timedelta.seconds` the rest, without the microseconds.
`utils.py` lines 89-99 (ARGPS). -/
def format (delta : ℚ) : Option ℤ × ℤ × ℤ × ℤ :=
  let days := ⌊delta / 86400⌋
  let seconds := ⌊delta - 86400 * days⌋
  let hours := seconds / 3600
  let minutes := (seconds % 3600) / 60
  let seconds := seconds % 60
  (if days > 0 then some days else none, hours, minutes, seconds)

/-- The updates of a loop over the steps `first`, `first + 1`, ... at the given times, starting from a timer;
`scripts/ARGPS/argps/vmc.py` lines 135-147, `scripts/cpd-backflow/cpd_backflow/vmc.py` lines 156-172 and 213-230. -/
def loop (t : State) (first : ℤ) : List ℚ → Option State
  | [] => some t
  | now :: rest => (update t now first).bind fun t' => loop t' (first + 1) rest

end GPSKet.Timer
