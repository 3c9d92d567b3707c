import Mathlib.Data.Matrix.Mul
import Mathlib.Data.Fintype.Pi
import Mathlib.Data.Fintype.Prod
import Mathlib.Data.Prod.Lex
import Mathlib.Data.Int.Cast.Basic
import Mathlib.Order.Interval.Finset.Fin

/-!
# Specification: fermionic Fock space

Textbook second quantisation on a finite, linearly ordered set of modes `ι`.  Nothing here refers to the
code.  Basis states are occupation functions `ι → Bool`; the annihilator `c p` removes the particle in mode
`p` with the Jordan-Wigner sign `(-1)^(number of occupied modes before p)`; the creator is its transpose.
All operators are matrices `⟨n'| A |n⟩` with integer entries.
-/

namespace GPSKet.Spec

open Matrix

/-- Occupation-number basis state. -/
abbrev Occ (ι : Type) := ι → Bool

section
variable {ι : Type} [Fintype ι] [LinearOrder ι]

/-- Jordan-Wigner sign of mode `p` in state `n`. -/
def jwSign (p : ι) (n : Occ ι) : ℤ :=
  (-1) ^ (Finset.univ.filter fun q => q < p ∧ n q = true).card

/-- Annihilation operator: `⟨n'| c_p |n⟩`. -/
def ann (p : ι) : Matrix (Occ ι) (Occ ι) ℤ := fun n' n =>
  if n p = true ∧ n' = Function.update n p false then jwSign p n else 0

/-- Creation operator: the transpose of the annihilator. -/
def cre (p : ι) : Matrix (Occ ι) (Occ ι) ℤ := (ann p)ᵀ

/-- Number operator of a mode. -/
def num (p : ι) : Matrix (Occ ι) (Occ ι) ℤ := cre p * ann p

end

/-- A spin-orbital: spin (`false` = up, `true` = down) and site.  The mode order is lexicographic, so all
spin-up modes come before all spin-down modes and modes of equal spin are ordered by site. -/
abbrev Mode (L : ℕ) := Bool ×ₗ Fin L

/-- The spin-orbital with spin `s` on site `i`. -/
def mode {L : ℕ} (s : Bool) (i : Fin L) : Mode L := toLex (s, i)

instance (L : ℕ) : Fintype (Mode L) := inferInstanceAs (Fintype (Bool × Fin L))

/-- Spin-summed excitation operator `E_pq = Σ_s c†_{p s} c_{q s}`. -/
def exc {L : ℕ} (p q : Fin L) : Matrix (Occ (Mode L)) (Occ (Mode L)) ℤ :=
  ∑ s : Bool, cre (mode s p) * ann (mode s q)

section
variable {K : Type} [CommRing K] {L : ℕ}

/-- Matrix with entries in `K` of an integer matrix. -/
def toK (K : Type) [CommRing K] {α β : Type} (A : Matrix α β ℤ) : Matrix α β K := A.map (Int.cast : ℤ → K)

/-- The Hubbard Hamiltonian on an arbitrary edge list:
`H = -Σ_e t_e Σ_s (c†_{e₁ s} c_{e₂ s} + c†_{e₂ s} c_{e₁ s}) + U Σ_i n_{i↑} n_{i↓}`. -/
def hubbard (U : K) (edges : List ((Fin L × Fin L) × K)) : Matrix (Occ (Mode L)) (Occ (Mode L)) K :=
  (edges.map fun e => -(e.2 • toK K (∑ s : Bool,
      (cre (mode s e.1.1) * ann (mode s e.1.2) + cre (mode s e.1.2) * ann (mode s e.1.1))))).sum
  + U • toK K (∑ i : Fin L, num (mode false i) * num (mode true i))

/-- The molecular (ab-initio) Hamiltonian
`H = Σ_pq h_pq E_pq + ½ Σ_pqrs (pq|rs) (E_pq E_rs - δ_qr E_ps)`, times two so that no division is needed:
`abInitioTwice = 2H`. -/
def abInitioTwice (h : Fin L → Fin L → K) (eri : Fin L → Fin L → Fin L → Fin L → K) :
    Matrix (Occ (Mode L)) (Occ (Mode L)) K :=
  (∑ p, ∑ q, (2 * h p q) • toK K (exc p q))
  + ∑ p, ∑ q, ∑ r, ∑ s, eri p q r s • toK K (exc p q * exc r s - if q = r then exc p s else 0)

end

end GPSKet.Spec
