import Verif.Spec.Fock
import Mathlib.Data.Matrix.Diagonal
import Mathlib.Logic.Equiv.Fin.Basic
import Mathlib.Data.List.Count

/-!
# Specification: Hubbard Hamiltonians on chains and rectangles with boundary conditions

Nothing here refers to the code.
-/

namespace GPSKet.Spec
open Matrix

variable {K : Type} [CommRing K] {L Lx Ly : ℕ}

/-- The Hubbard Hamiltonian for a matrix of hopping amplitudes: `H = -Σ_ij T_ij Σ_s c†_{i s} c_{j s} + U Σ_i n_{i↑} n_{i↓}`. -/
def hubbardOf (U : K) (T : Fin L → Fin L → K) : Matrix (Occ (Mode L)) (Occ (Mode L)) K :=
  -(∑ i, ∑ j, T i j • toK K (exc i j)) + U • toK K (∑ i : Fin L, num (mode false i) * num (mode true i))

/-- Hopping on a chain: amplitude `t` between neighbours and amplitude `b` between the two ends: `b = 0` is an open, `b = t` a periodic
and `b = -t` an antiperiodic boundary condition. -/
def chainHop (t b : K) (i j : Fin L) : K :=
  (if i.val + 1 = j.val ∨ j.val + 1 = i.val then t else 0) +
    if (i.val = 0 ∧ j.val + 1 = L) ∨ (j.val = 0 ∧ i.val + 1 = L) then b else 0

/-- Hopping on a rectangle, whose site `(x, y)` has number `x * Ly + y`. -/
def gridHop (t bx by' : K) (i j : Fin (Lx * Ly)) : K :=
  let p := finProdFinEquiv.symm i
  let q := finProdFinEquiv.symm j
  (if p.2 = q.2 then chainHop t bx p.1 q.1 else 0) + if p.1 = q.1 then chainHop t by' p.2 q.2 else 0

/-- Neighbours on a chain with open or closed ends. -/
def chainAdj (closed : Bool) (i j : Fin L) : Prop :=
  (i.val + 1 = j.val ∨ j.val + 1 = i.val) ∨ (closed = true ∧ ((i.val = 0 ∧ j.val + 1 = L) ∨ (j.val = 0 ∧ i.val + 1 = L)))

instance (closed : Bool) (i j : Fin L) : Decidable (chainAdj closed i j) := by unfold chainAdj; infer_instance

/-- Neighbours on a rectangle. -/
def gridAdj (cx cy : Bool) (i j : Fin (Lx * Ly)) : Prop :=
  let p := finProdFinEquiv.symm i
  let q := finProdFinEquiv.symm j
  (p.2 = q.2 ∧ chainAdj cx p.1 q.1) ∨ (p.1 = q.1 ∧ chainAdj cy p.2 q.2)

instance (cx cy : Bool) (i j : Fin (Lx * Ly)) : Decidable (gridAdj cx cy i j) := by unfold gridAdj; infer_instance

/-- A list of edges that names every pair of neighbours once, in one of its two directions. -/
def ListsEdges (edges : List (Fin L × Fin L)) (adj : Fin L → Fin L → Prop) [∀ i j, Decidable (adj i j)] : Prop :=
  ∀ i j, edges.count (i, j) + edges.count (j, i) = if adj i j then 1 else 0

/-- The diagonal operator that multiplies by `d i` for each particle on site `i`. -/
def gauge (d : Fin L → K) : Matrix (Occ (Mode L)) (Occ (Mode L)) K :=
  Matrix.diagonal fun n => ∏ m : Mode L, if n m then d (ofLex m).2 else 1

/-- Two operators that differ by a choice of signs of the sites: they have the same spectrum and the same absolute values of the
amplitudes of eigenstates. -/
def GaugeEquivalent (A B : Matrix (Occ (Mode L)) (Occ (Mode L)) K) : Prop :=
  ∃ d : Fin L → K, (∀ i, d i = 1 ∨ d i = -1) ∧ B = gauge d * A * gauge d

end GPSKet.Spec
