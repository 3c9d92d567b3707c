import Verif.Spec.Updates

/-!
# Specification: spin-1/2 lattices with two-site operators

A configuration gives every site a spin, down (`false`) or up (`true`).  NetKet represents them as `-1.` and `1.`
and stores a two-site operator acting on sites `(i, j)` as the 4×4 matrix `kron(A_i, B_j)`, i.e. the basis state
`|s_i s_j⟩` has index `2*s_i + s_j` (with `down = 0`, `up = 1`).
-/

namespace GPSKet.Spec

/-- A spin configuration. -/
abbrev Spins (N : ℕ) := Fin N → Bool

/-- NetKet's representation of a spin. -/
def spinVal (b : Bool) : ℤ := if b then 1 else -1

/-- Index of `|s_i s_j⟩` in the matrix of a two-site operator. -/
def pairIndex (a b : Bool) : Fin 4 :=
  match a, b with
  | false, false => 0
  | false, true => 1
  | true, false => 2
  | true, true => 3

/-- Matrix elements of `Σ_bonds O_bond`, where `O_bond` acts on the pair of sites of the bond and as the identity on
all others. -/
noncomputable def bondOperator {N : ℕ} (bonds : List ((Fin N × Fin N) × Matrix (Fin 4) (Fin 4) ℂ))
    (x x' : Spins N) : ℂ :=
  (bonds.map fun b =>
    if ∀ k, k ≠ b.1.1 → k ≠ b.1.2 → x k = x' k then
      b.2 (pairIndex (x b.1.1) (x b.1.2)) (pairIndex (x' b.1.1) (x' b.1.2)) else 0).sum

/-- A two-site operator whose only off-diagonal elements connect `|↓↑⟩` and `|↑↓⟩`. -/
def OnlyExchange (O : Matrix (Fin 4) (Fin 4) ℂ) : Prop :=
  ∀ a b a' b', (a, b) ≠ (a', b') → (a, b) ≠ (b', a') → O (pairIndex a b) (pairIndex a' b') = 0

/-- A two-site operator that is invariant under exchanging the two sites. -/
def SwapInvariant (O : Matrix (Fin 4) (Fin 4) ℂ) : Prop :=
  ∀ a b a' b', O (pairIndex b a) (pairIndex b' a') = O (pairIndex a b) (pairIndex a' b')

/-- The bond operator of the Heisenberg model, `J * (σz σz ± (σx σx + σy σy))` (lower sign: Marshall sign rule). -/
def heisenbergBond (J : ℂ) (signRule : Bool) : Matrix (Fin 4) (Fin 4) ℂ :=
  let f : ℂ := if signRule then -2 else 2
  J • !![1, 0, 0, 0; 0, -1, f, 0; 0, f, -1, 0; 0, 0, 0, 1]

end GPSKet.Spec
