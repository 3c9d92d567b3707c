import Verif.Spec.Occupation
import Mathlib.Data.Nat.Digits.Lemmas
import Mathlib.Data.List.GetD

/-!
# Model of `GPSKet/datasets/h2o.py`

The quantum chemistry (PySCF) and the files are not modelled: the FCI vector `c`, the orbitals and `addr2str` are inputs.
-/

namespace GPSKet.H2O

/-- The digits of `bin(alpha)[2:]` (most significant first); `bin(0)` is `0b0`. -/
def binDigits (a : ℕ) : List ℕ := if a = 0 then [0] else (Nat.digits 2 a).reverse

/-- `string_a` of `to_config` (h2o.py:78-81): zeros in front, then the digits, reversed. -/
def bitString (a n : ℕ) : List ℕ := (List.replicate (n - (binDigits a).length) 0 ++ binDigits a).reverse

/-- `to_config` (h2o.py:77-88). -/
def toConfig (alpha beta n : ℕ) : List ℕ := List.zipWith (fun a b => a + 2 * b) (bitString alpha n) (bitString beta n)

/-- The double loop over determinants (h2o.py:90-96): configurations with their amplitudes. -/
def allConfigs {K : Type} (norb na nb : ℕ) (addr2str : ℕ → ℕ) (c : ℕ → ℕ → K) : List (List ℕ × K) :=
  (List.range na).flatMap fun i => (List.range nb).map fun j => (toConfig (addr2str i) (addr2str j) norb, c i j)

/-- `arr[-k:]` in Python. -/
def lastK {α : Type} (l : List α) (k : ℕ) : List α := if k = 0 then l else l.drop (l.length - k)

/-- The selection of `get_H2O_dataset` (h2o.py:138-142): `order` is the permutation returned by `argsort`; 0 (like `None`) selects
everything. -/
def selectLargest {α : Type} (order : List ℕ) (k : Option ℕ) (data : List α) : List α :=
  match k with
  | none => data
  | some 0 => data
  | some (k + 1) => (lastK order (k + 1)).filterMap fun i => data[i]?

end GPSKet.H2O
