import Verif.Spec.SlaterState
import Mathlib.Data.Fin.Embedding
import Mathlib.Data.Real.Basic
import Mathlib.Data.Matrix.Mul

/-!
# Specification: Hartree-Fock states and most strongly coupled orbitals

Nothing here refers to the code.
-/

namespace GPSKet.Spec

variable {L n_up n_down : ℕ} {K : Type} [CommRing K]

/-- The Hartree-Fock determinant: the first orbitals (columns of `a` for up electrons and of `b` for down electrons) are occupied. -/
def hartreeFock (a b : Matrix (Fin L) (Fin L) K) (hu : n_up ≤ L) (hd : n_down ≤ L) : Occ (Mode L) → K :=
  upDownState (fun i (k : Fin n_up) => a i (Fin.castLE hu k)) (fun i (k : Fin n_down) => b i (Fin.castLE hd k))

/-- `l` lists the `k` indices with the largest absolute values of `v` (all of them if there are fewer), the largest one first. -/
structure IsTop (v : Fin L → ℝ) (k : ℕ) (l : List (Fin L)) : Prop where
  nodup : l.Nodup
  length : l.length = min k L
  descending : l.Pairwise fun i j => |v j| ≤ |v i|
  largest : ∀ i ∈ l, ∀ j, j ∉ l → |v j| ≤ |v i|

/-- A matrix in the basis of atomic orbitals, transformed to the orbitals that are the columns of `basis`. -/
def inBasis (basis em : Matrix (Fin L) (Fin L) ℝ) : Matrix (Fin L) (Fin L) ℝ := basis.transpose * em * basis

/-- `order` lists the indices in ascending order of the absolute values of `v`. -/
structure IsArgsort (v : Fin L → ℝ) (order : List (Fin L)) : Prop where
  perm : order.Perm (List.finRange L)
  ascending : order.Pairwise fun i j => |v i| ≤ |v j|

end GPSKet.Spec
