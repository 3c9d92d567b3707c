import Mathlib.Data.Real.Basic
import Mathlib.Data.List.OfFn
import Mathlib.Data.List.GetD
import Mathlib.Logic.Function.Basic

/-!
# Model of `GPSKet/supervised/supervised_qgps.py`: the prior precisions

Vectors are lists, so that the layout of concatenated vectors is the one of the code.
-/

namespace GPSKet.SupervisedAlpha

variable {D M L : ℕ}

/-- The precisions kept by a learner (supervised_qgps.py:39-68).  `expand` is `complex_expand and dtype == complex`.  With
precomputed features `alpha_mat` is a vector, here the row of every site. -/
structure State (L : ℕ) where
  precomputed : Bool
  expand : Bool
  includeBias : Bool
  /-- site, feature -/
  alphaMat : Fin L → ℕ → ℝ
  alphaBias : List ℝ

/-- The number of features (supervised_qgps.py:86-89). -/
def nFeatures (D M : ℕ) (expand : Bool) : ℕ :=
  if expand then 2 * D * M else D * M

/-- The length of `alpha_bias` (supervised_qgps.py:41, 44, 55, 66). -/
def nBias (expand : Bool) : ℕ := if expand then 2 else 1

/-- `_ref_sites_incr_dim[f]` (supervised_qgps.py:104-108): each reference site is repeated for all local states, and all this twice
for real and imaginary parts. -/
def siteOf (D M : ℕ) (refs : ℕ → Fin L) (f : ℕ) : Fin L :=
  refs ((f % (D * M)) / D)

/-- The getter of `alpha_mat_ref_sites` (supervised_qgps.py:110-118). -/
def State.get (D M : ℕ) (refs : ℕ → Fin L) (s : State L) : List ℝ :=
  ((List.range (nFeatures D M s.expand)).map fun f => s.alphaMat (siteOf D M refs f) f)
    ++ (if s.includeBias then s.alphaBias else [])

/-- The setter of `alpha_mat_ref_sites` (supervised_qgps.py:120-135), for a vector of the length that the getter returns. -/
def State.set (D M : ℕ) (refs : ℕ → Fin L) (s : State L) (alpha : List ℝ) : State L :=
  let k := alpha.length - nBias s.expand
  let alphaEps := if s.includeBias then alpha.take k else alpha
  { s with
    alphaBias := if s.includeBias then alpha.drop k else s.alphaBias
    alphaMat := fun j f =>
      if f < nFeatures D M s.expand ∧ siteOf D M refs f = j then alphaEps.getD f 0 else s.alphaMat j f }

/-- `np.copyto(self.alpha_mat_ref_sites, alpha)` (supervised_qgps.py:826, 835, 868).  The getter indexes with integer arrays or
concatenates, and then its result is a new array; only for precomputed features without bias is it the attribute itself. -/
def State.copyto (D M : ℕ) (refs : ℕ → Fin L) (s : State L) (alpha : List ℝ) : State L :=
  if s.precomputed && !s.includeBias then s.set D M refs alpha else s

/-- The components of the parameters at the reference sites that a weight can stand for. -/
inductive Component
  /-- real part of the parameter of the feature (or the parameter itself, if real or not expanded) -/
  | re (f : ℕ)
  /-- imaginary part of the parameter of the feature -/
  | im (f : ℕ)
  | biasRe
  | biasIm
  deriving DecidableEq

/-- What each entry of `self.weights` is written to by `update_epsilon_with_weights` (supervised_qgps.py:471-513), which is also what
each column of the features belongs to (supervised_qgps.py:251-252, 594-598). -/
def weightLayout (D M : ℕ) (expand includeBias : Bool) : List Component :=
  (List.range (D * M)).map Component.re ++ (if includeBias then [.biasRe] else [])
    ++ (if expand then (List.range (D * M)).map Component.im ++ (if includeBias then [.biasIm] else []) else [])

/-- What each entry of `alpha_mat_ref_sites` is kept for: entry `f` of a row of `alpha_mat` of twice the number of parameters, then the
entries of `alpha_bias` (supervised_qgps.py:110-135). -/
def alphaLayout (D M : ℕ) (expand includeBias : Bool) : List Component :=
  ((List.range (nFeatures D M expand)).map fun f => if f < D * M then Component.re f else Component.im (f - D * M))
    ++ (if includeBias then (if expand then [.biasRe, .biasIm] else [.biasRe]) else [])

end GPSKet.SupervisedAlpha
