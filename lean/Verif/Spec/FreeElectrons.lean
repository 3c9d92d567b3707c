import Verif.Spec.LatticeSymmetry
import Mathlib.LinearAlgebra.Matrix.Trace
import Mathlib.Data.Complex.Basic

/-!
# Specification: electrons that do not interact

Nothing here refers to the code.
-/

namespace GPSKet.Spec

variable {L n : ℕ}

/-- The matrix of the hopping of one electron: minus the total amplitude between two sites. -/
def hopMatrix (edges : List ((Fin L × Fin L) × ℂ)) : Matrix (Fin L) (Fin L) ℂ := Matrix.of fun i j => -edgeBetween edges i j

/-- The orbitals (columns of `C`) have the energies `ε`: they solve the Schrödinger equation of one electron. -/
def HasEnergies (h : Matrix (Fin L) (Fin L) ℂ) (C : Matrix (Fin L) (Fin n) ℂ) (ε : Fin n → ℂ) : Prop :=
  h * C = C * Matrix.diagonal ε

/-- The edges of a ring, each with the amplitude `t`. -/
def ringEdges (L : ℕ) [NeZero L] (t : ℂ) : List ((Fin L × Fin L) × ℂ) := (List.finRange L).map fun i => ((i, i + 1), t)

end GPSKet.Spec
