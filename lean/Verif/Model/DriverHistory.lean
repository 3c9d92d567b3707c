import Verif.Model.RMSProp

/-!
# The running average of `GPSKet/driver/VMC_SRRMSProp.py` over the life of a driver

One parameter.  NetKet's `AbstractVariationalDriver` counts the steps in `step_count`, which the driver passes on as `step`
(VMC_SRRMSProp.py:221), and its `reset()`, which the class does not override, sets the count to zero.  A checkpoint of the training script
holds the count but not the average (scripts/cpd-backflow/cpd_backflow/vmc.py:39-45, 47-62, 92-96), and a process that continues from it
builds a new driver first (vmc.py:131-141).
-/

namespace GPSKet.DriverHistory
open RMSProp

/-- What happens to a driver: a step with a gradient, `reset()`, or a new process continuing from the checkpoint of the last step. -/
inductive Event
  | step (g : ℝ)
  | reset
  | restart

/-- `_ema` and `step_count`. -/
structure State where
  ema : ℝ
  count : ℕ

/-- The constructor (VMC_SRRMSProp.py:150), with the default `initial_scale = 0`. -/
noncomputable def fresh : State := ⟨0, 0⟩

/-- The effect of an event on the driver (VMC_SRRMSProp.py:217-229, 54). -/
noncomputable def handle (decay : ℝ) (s : State) : Event → State
  | .step g => ⟨updateEma decay s.ema g, s.count + 1⟩
  | .reset => ⟨s.ema, 0⟩
  | .restart => ⟨fresh.ema, s.count⟩

/-- The state of the driver after a history. -/
noncomputable def after (decay : ℝ) (h : List Event) : State := h.foldl (handle decay) fresh

/-- `ema_hat` in a step with gradient `g` (VMC_SRRMSProp.py:54-55): its root regularises the step. -/
noncomputable def regulariser (decay : ℝ) (s : State) (g : ℝ) : ℝ := biasCorrected decay (updateEma decay s.ema g) s.count

end GPSKet.DriverHistory
