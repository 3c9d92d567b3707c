import Mathlib.Data.Nat.Sqrt
import Mathlib.Data.Real.Basic

/-!
# Model of the geometries of hydrogen chains and sheets

`scripts/ARGPS/argps/configs/hydrogen.py` lines 6-31 and `scripts/cpd-backflow/cpd_backflow/configs/hsheet.py` lines 6-20.
Simplifications: the number of atoms is not negative (`math.sqrt` raises otherwise), and distances are real numbers.
-/

namespace GPSKet.Geometry

/-- `round(math.sqrt(n))`, in exact arithmetic: the root of a natural number never lies half-way between two of them
(hydrogen.py:7, hsheet.py:7). -/
def roundSqrt (n : ℕ) : ℕ := if n ≤ n.sqrt * n.sqrt + n.sqrt then n.sqrt else n.sqrt + 1

/-- `while n % a > 0: a -= 1` (hydrogen.py:8-9, hsheet.py:8); `none`: `n % 0` raises. -/
def down (n : ℕ) : ℕ → Option ℕ
  | 0 => none
  | a + 1 => if n % (a + 1) > 0 then down n a else some (a + 1)

/-- `closest_divisors` (hydrogen.py:6-10, hsheet.py:6-9) -/
def closestDivisors (n : ℕ) : Option (ℕ × ℕ) := (down n (roundSqrt n)).map fun a => (a, n / a)

/-- The coordinates of an atom. -/
abbrev Point := ℝ × ℝ × ℝ

/-- `chain` (hydrogen.py:13-18) -/
noncomputable def chain (n_atoms : ℕ) (distance : ℝ) : List Point := (List.range n_atoms).map fun (x : ℕ) => (x * distance, 0, 0)

/-- `sheet` (hydrogen.py:21-29, hsheet.py:11-19); `none` for the exception of `closest_divisors`. -/
noncomputable def sheet (n_atoms : ℕ) (dist : ℝ) : Option (List Point) :=
  match closestDivisors n_atoms with
  | none => none
  | some (Lx, Ly) =>
    some ((List.range Lx).foldl (fun molecule (x : ℕ) =>
      (List.range Ly).foldl (fun (molecule : List Point) (y : ℕ) => molecule ++ [(x * dist, y * dist, 0)]) molecule) [])

end GPSKet.Geometry
