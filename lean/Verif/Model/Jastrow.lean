import Verif.Model.Electrons
import Mathlib.Data.Complex.BigOperators
import Mathlib.Data.Fintype.BigOperators

/-!
# Model of `GPSKet/models/jastrow.py`

One sample of the batch.
-/

namespace GPSKet.Jastrow

variable {L : ℕ} {ι : Type}

/-- `up_down_occupancies` (jastrow.py:10-23): `x & 1` and `(x & 2) / 2`. -/
def upOcc (x : Cfg L) (i : Fin L) : ℤ := if Electrons.bit false (x i) then 1 else 0

/-- Second component of `up_down_occupancies` (jastrow.py:22). -/
def dnOcc (x : Cfg L) (i : Fin L) : ℤ := if Electrons.bit true (x i) then 1 else 0

/-- The field `apply_symmetries` (jastrow.py:37) gives the `t`-th image of a configuration; `kernel` is the parameter of
line 43. -/
structure Module (L : ℕ) (ι : Type) where
  kernel : Fin L → Fin L → ℂ
  apply_symmetries : Cfg L → ι → Cfg L

/-- The default `apply_symmetries` (jastrow.py:37). -/
def noSymmetries (x : Cfg L) (_ : Unit) : Cfg L := x

/-- `Jastrow.__call__` (jastrow.py:40-53). -/
def call [Fintype ι] (mod : Module L ι) (x : Cfg L) : ℂ :=
  let kernel := fun i j => mod.kernel i j + mod.kernel j i
  ∑ t, let xt := mod.apply_symmetries x t
    ∑ i, ∑ j, (1 - (upOcc xt i : ℂ)) * kernel i j * (1 - (dnOcc xt j : ℂ))

end GPSKet.Jastrow
