import Verif.Spec.Occupation
import Verif.Spec.Spins
import Mathlib.Logic.Equiv.Basic

/-!
# Specification: symmetries of a lattice

Nothing here refers to the code.
-/

namespace GPSKet.Spec

variable {L : ℕ} {K : Type}

/-- The configuration in which everything has been moved by a permutation of the sites: site `g i` is in the state site `i` was in. -/
def moveSites {A : Type} (g : Equiv.Perm (Fin L)) (x : Fin L → A) : Fin L → A := fun i => x (g.symm i)

/-- The sign by which moving the electrons changes the order of their creation operators: minus one for each pair of electrons of
equal spin that the permutation makes pass each other. -/
def fermiSign (g : Equiv.Perm (Fin L)) (x : Cfg L) : ℤ :=
  ∏ s : Bool, (-1) ^ (Finset.univ.filter fun p : Fin L × Fin L =>
    p.1 < p.2 ∧ hasSpin s (x p.1) = true ∧ hasSpin s (x p.2) = true ∧ g p.2 < g p.1).card

/-- The total amplitude a list of undirected edges assigns to the pair of sites `i`, `j`. -/
def edgeBetween [AddCommMonoid K] (edges : List ((Fin L × Fin L) × K)) (i j : Fin L) : K :=
  (edges.map fun e => (if e.1 = (i, j) then e.2 else 0) + if e.1 = (j, i) then e.2 else 0).sum

/-- A permutation of the sites is a symmetry of a list of edges: it leaves the total amplitude between any two sites unchanged. -/
def EdgeSymmetry [AddCommMonoid K] (g : Equiv.Perm (Fin L)) (edges : List ((Fin L × Fin L) × K)) : Prop :=
  ∀ i j, edgeBetween edges (g i) (g j) = edgeBetween edges i j

/-- A permutation of the orbitals is a symmetry of the integrals of a molecule. -/
def IntegralSymmetry (g : Equiv.Perm (Fin L)) (h : Fin L → Fin L → K) (eri : Fin L → Fin L → Fin L → Fin L → K) : Prop :=
  (∀ p q, h (g p) (g q) = h p q) ∧ ∀ p q r s, eri (g p) (g q) (g r) (g s) = eri p q r s

/-- The edges of the bonds with (or without) the sign rule. -/
def bondsWithRule (bonds : List ((Fin L × Fin L) × (K × Bool))) (rule : Bool) : List ((Fin L × Fin L) × K) :=
  (bonds.filter fun b => b.2.2 = rule).map fun b => (b.1, b.2.1)

end GPSKet.Spec
