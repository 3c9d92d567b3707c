import Mathlib.Analysis.SpecialFunctions.Exp
import Mathlib.Algebra.BigOperators.Fin

/-!
# Specification of the supervised qGPS

A data point is the list of the configurations obtained from one configuration by the symmetry operations.  The logarithm of the
amplitude is the sum, over these configurations and over the support index, of the product over the sites of the parameters, plus
the bias.
-/

namespace GPSKet.Spec

/-- The log-amplitude of a qGPS with parameters `eps` (local state, support index, site) at one data point. -/
def qgpsLog {D M L : ℕ} (eps : Fin D → Fin M → Fin L → ℂ) (bias : ℂ) (row : List (Fin L → Fin D)) : ℂ :=
  (row.map fun x => ∑ w, ∏ j, eps (x j) w j).sum + bias

/-- The feature of local state `d` and support index `w` at one data point, for the reference site `r`: the sum of the products over
all other sites, over those configurations with state `d` at the reference site.  The log-amplitude is linear in the
parameters of the reference sites, and these are its coefficients. -/
def feature {D M L : ℕ} (eps : Fin D → Fin M → Fin L → ℂ) (r : Fin L) (w : Fin M) (d : Fin D) (row : List (Fin L → Fin D)) : ℂ :=
  (row.map fun x => if x r = d then ∏ j ∈ Finset.univ.erase r, eps (x j) w j else 0).sum

end GPSKet.Spec
