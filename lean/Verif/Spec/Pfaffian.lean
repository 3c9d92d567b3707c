import Mathlib.LinearAlgebra.Matrix.Determinant.Basic
import Mathlib.Data.Nat.Factorial.Basic

/-! # Specification: the Pfaffian -/

namespace GPSKet.Spec

/-- First and second member of the `i`-th pair of `0, …, 2n - 1`. -/
def fstOf {n : ℕ} (i : Fin n) : Fin (2 * n) := ⟨2 * i.val, by have := i.isLt; omega⟩
def sndOf {n : ℕ} (i : Fin n) : Fin (2 * n) := ⟨2 * i.val + 1, by have := i.isLt; omega⟩

/-- The textbook definition: `Pf A = 1/(2ⁿ n!) Σ_σ sgn σ Π_i A_{σ(2i) σ(2i+1)}`. -/
noncomputable def pfaffian {n : ℕ} {K : Type} [Field K] (A : Matrix (Fin (2 * n)) (Fin (2 * n)) K) : K :=
  1 / (2 ^ n * (n.factorial : K)) * ∑ σ : Equiv.Perm (Fin (2 * n)), (Equiv.Perm.sign σ : ℤ) * ∏ i : Fin n, A (σ (fstOf i)) (σ (sndOf i))

/-- Antisymmetric matrices. -/
def Skew {m : Type} {K : Type} [Neg K] (A : Matrix m m K) : Prop := ∀ i j, A i j = -A j i

end GPSKet.Spec
