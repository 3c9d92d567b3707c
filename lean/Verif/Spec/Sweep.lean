import Verif.Spec.Supervised
import Mathlib.Algebra.BigOperators.Fin

/-! # Specification: the error of a qGPS on a data set, plus a penalty on its parameters -/

namespace GPSKet.Spec

/-- The sum over the data of an error `err` of the log-amplitude, plus the sum over all parameters of a penalty `pen`. -/
noncomputable def penalisedError {D M L N : ℕ} (data : Fin N → List (Fin L → Fin D)) (err : Fin N → ℂ → ℝ)
    (pen : Fin D → Fin M → Fin L → ℂ → ℝ) (eps : Fin D → Fin M → Fin L → ℂ) (bias : ℂ) : ℝ :=
  ∑ i, err i (qgpsLog eps bias (data i)) + ∑ w, ∑ d, ∑ j, pen d w j (eps d w j)

/-- The weight with which the parameter of local state `d`, support index `w` and site `r` occurs in the data. -/
noncomputable def paramWeight {D M L N : ℕ} (data : Fin N → List (Fin L → Fin D)) (S : Fin N → ℝ)
    (eps : Fin D → Fin M → Fin L → ℂ) (r : Fin L) (w : Fin M) (d : Fin D) : ℝ :=
  ∑ i, S i * ‖feature eps r w d (data i)‖ ^ 2

end GPSKet.Spec
