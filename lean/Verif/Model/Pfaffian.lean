import Mathlib.Analysis.SpecialFunctions.Complex.Log
import Mathlib.Analysis.SpecialFunctions.Trigonometric.Basic
import Mathlib.LinearAlgebra.Matrix.Defs
import Mathlib.LinearAlgebra.Matrix.NonsingularInverse
import Mathlib.Data.Matrix.Block

/-! # Model of `GPSKet/models/pfaffian.py` -/

namespace GPSKet.Pfaffian

/-- A complex floating point number that is finite, `-inf + 0j` or NaN. -/
inductive LogNum where
  | fin (z : ℂ)
  | negInf
  | nan

/-- Addition of a finite number. -/
noncomputable def LogNum.add : LogNum → ℂ → LogNum
  | .fin z, w => .fin (z + w)
  | .negInf, _ => .negInf
  | .nan, _ => .nan

/-- `jnp.argmax`: the first index of a maximal entry. -/
noncomputable def argmaxFirst (l : List ℝ) : ℕ := l.findIdx fun v => decide (∀ w ∈ l, w ≤ v)

/-- Loop state of `log_pfaffian`: the array `matrix` (entries inside its bounds), `value`, and whether the entries
`matrix[index:, index:]` of the next iteration are NaN. -/
structure State where
  matrix : ℕ → ℕ → ℂ
  value : LogNum
  nan : Bool

/-- Body of the loop of `log_pfaffian` on a matrix with `m` rows (pfaffian.py:47-80).

For an antisymmetric matrix a zero pivot means that the whole of `matrix[index, index:]` is zero, so `t` is `0/0 = NaN` in all entries
(pfaffian.py:74) and the two updates make all of `matrix[index + 2:, index + 2:]` NaN (pfaffian.py:75-80); in the next iteration
`NaN != 0.0` holds and `log(NaN)` is added (pfaffian.py:69-73).  In the model the flag `nan` stands for those entries.  A zero pivot
of a matrix that is not antisymmetric is not modelled (the two tests `matrix[index + 1, index] != 0` and division by
`matrix[index, index + 1]` then differ). -/
noncomputable def step (m : ℕ) (s : State) (count : ℕ) : State :=
  let index := count * 2
  if s.nan then { s with value := .nan } else
  let largest := argmaxFirst ((List.range (m - (index + 1))).map fun a => ‖s.matrix (index + 1 + a) index‖)
  let m1 : ℕ → ℕ → ℂ := fun i j =>
    if j ≥ index then
      if i = index + largest + 1 then s.matrix (index + 1) j
      else if i = index + 1 then s.matrix (index + largest + 1) j
      else s.matrix i j
    else s.matrix i j
  let m2 : ℕ → ℕ → ℂ := fun i j =>
    if i ≥ index then
      if j = index + largest + 1 then m1 i (index + 1)
      else if j = index + 1 then m1 i (index + largest + 1)
      else m1 i j
    else m1 i j
  let value := if largest ≠ 0 then s.value.add (Complex.log (-1)) else s.value
  let value := if m2 (index + 1) index ≠ 0 then value.add (Complex.log (m2 index (index + 1))) else .negInf
  let t : ℕ → ℂ := fun a => m2 index a / m2 index (index + 1)
  let m3 : ℕ → ℕ → ℂ := fun i j => if i ≥ index + 2 ∧ j ≥ index + 2 then m2 i j + t i * m2 j (index + 1) else m2 i j
  let m4 : ℕ → ℕ → ℂ := fun i j => if i ≥ index + 2 ∧ j ≥ index + 2 then m3 i j + -(m3 i (index + 1) * t j) else m3 i j
  { matrix := m4, value := value, nan := decide (m2 index (index + 1) = 0) }

/-- `log_pfaffian` (pfaffian.py:41-81) of a matrix with `m` rows. -/
noncomputable def logPfaffianN (m : ℕ) (mat : ℕ → ℕ → ℂ) : LogNum :=
  ((List.range (m / 2)).foldl (step m) { matrix := mat, value := .fin 0, nan := false }).value

/-- `log_pfaffian` of an array. -/
noncomputable def logPfaffian {m : ℕ} (mat : Matrix (Fin m) (Fin m) ℂ) : LogNum :=
  logPfaffianN m fun i j => if h : i < m ∧ j < m then mat ⟨i, h.1⟩ ⟨j, h.2⟩ else 0

/-- The tangent of `log_pfaffian_jvp` (pfaffian.py:84-87). -/
noncomputable def jvp {m : ℕ} (mat tangent : Matrix (Fin m) (Fin m) ℂ) : ℂ :=
  let derivative : Matrix (Fin m) (Fin m) ℂ := ((1 / 2 : ℂ) • mat⁻¹).transpose
  ∑ i, ∑ j, derivative i j * tangent i j

/-- The matrix handed to `log_pfaffian` for the electron positions `y` (pfaffian.py:115-118, 176-179). -/
def skewOcc {I : Type} {m : ℕ} (F : Matrix I I ℂ) (y : Fin m → I) : Matrix (Fin m) (Fin m) ℂ :=
  let F_occ : Matrix (Fin m) (Fin m) ℂ := fun a b => F (y a) (y b)
  F_occ - F_occ.transpose

/-- `PfaffianState.__call__` for one sample and one symmetry image, before `out_transformation` (pfaffian.py:108-121). -/
noncomputable def stateVal {I : Type} {m : ℕ} (F : Matrix I I ℂ) (y : Fin m → I) : LogNum := logPfaffian (skewOcc F y)

/-- The rotated pairing matrix of `ZeroMagnetizationPfaffian` (pfaffian.py:161-173); `Sum.inl` are the first `n_sites` indices. -/
noncomputable def rotated {L : ℕ} (f : Matrix (Fin L) (Fin L) ℂ) (angle : ℝ) : Matrix (Fin L ⊕ Fin L) (Fin L ⊕ Fin L) ℂ :=
  Matrix.fromBlocks
    (fun i j => -f i j * Real.cos (angle / 2) * Real.sin (angle / 2)) (fun i j => f i j * Real.cos (angle / 2) * Real.cos (angle / 2))
    (fun i j => -f i j * Real.sin (angle / 2) * Real.sin (angle / 2)) (fun i j => f i j * Real.cos (angle / 2) * Real.sin (angle / 2))

/-- Addition of two logarithms (NaN absorbs everything, `-inf` absorbs numbers). -/
noncomputable def LogNum.plus : LogNum → LogNum → LogNum
  | .fin z, .fin w => .fin (z + w)
  | .nan, _ => .nan
  | _, .nan => .nan
  | _, _ => .negInf

/-- `jnp.log` of a real array: NaN for negative entries. -/
noncomputable def realLog (c : ℝ) : LogNum := if c < 0 then .nan else if c = 0 then .negInf else .fin (Real.log c)

/-- `exp` of a logarithm; `none` is NaN. -/
noncomputable def LogNum.amp : LogNum → Option ℂ
  | .fin z => some (Complex.exp z)
  | .negInf => some 0
  | .nan => none

/-- `exp(logsumexp(l))`, the amplitude described by the default `out_transformation` (pfaffian.py:103-105). -/
noncomputable def sumAmp (l : List LogNum) : Option ℂ := (l.mapM LogNum.amp).map List.sum

/-- `PfaffianState.__call__` with the default `out_transformation` on a batch; every entry of the batch is the list of its symmetry
images (pfaffian.py:108-128).  `out` has shape `(batch, images)` and the default transformation sums over the last TWO axes: there is
no `expand_dims`, although the comment in pfaffian.py:122-127 announces it.  The returned list has the entries of the output array. -/
noncomputable def generalCall {I : Type} {m : ℕ} (F : Matrix I I ℂ) (ys : List (List (Fin m → I))) : List (Option ℂ) :=
  [sumAmp (ys.flatMap fun imgs => imgs.map (stateVal F))]

/-- `ZeroMagnetizationPfaffian.__call__` with the default `out_transformation` on a batch (pfaffian.py:156-189): `vals` has shape
`(batch, angles, images)`.  `S2` pairs the angles with the (real) characters. -/
noncomputable def zeroMagCall {L m : ℕ} (f : Matrix (Fin L) (Fin L) ℂ) (S2 : List (ℝ × ℝ)) (ys : List (List (Fin m → Fin L ⊕ Fin L))) :
    List (Option ℂ) :=
  ys.map fun imgs => sumAmp (S2.flatMap fun ac => imgs.map fun y => (stateVal (rotated f ac.1) y).plus (realLog ac.2))

end GPSKet.Pfaffian
