import Verif.Model.Solvers
import Mathlib.LinearAlgebra.Matrix.NonsingularInverse
import Mathlib.LinearAlgebra.Matrix.Notation

/-!
# C69 (the pseudo-inverse solver) and the part of C58 that concerns `SRDense`
-/

namespace GPSKet.Solvers
open Matrix

variable {n : Type} [Fintype n] [DecidableEq n]

/-- No eigenvalue of `A` is positive in modulus but at most `rcond` times the modulus of another one. -/
def WellSeparated (rcond : ℝ) (A : Matrix n n ℂ) : Prop :=
  ∀ v w : ℝ, (∃ x : n → ℂ, x ≠ 0 ∧ A.mulVec x = (v : ℂ) • x) → (∃ x : n → ℂ, x ≠ 0 ∧ A.mulVec x = (w : ℂ) • x) →
    v ≠ 0 → rcond * |w| < |v|

/-- `P` is the Moore–Penrose inverse of `A` (the four equations determine it). -/
structure IsMoorePenrose (A P : Matrix n n ℂ) : Prop where
  h1 : A * P * A = A
  h2 : P * A * P = P
  h3 : (A * P)ᴴ = A * P
  h4 : (P * A)ᴴ = P * A

theorem IsMoorePenrose.unique {A P Q : Matrix n n ℂ} (hP : IsMoorePenrose A P) (hQ : IsMoorePenrose A Q) : P = Q := by
  have e1 : A * P = A * Q := by
    have a1 : A * P = A * Q * (A * P) := by rw [← Matrix.mul_assoc, hQ.h1]
    have a2 : A * Q = A * P * (A * Q) := by rw [← Matrix.mul_assoc, hP.h1]
    have a3 := congrArg conjTranspose a1
    rw [hP.h3, conjTranspose_mul, hP.h3, hQ.h3] at a3
    rw [a3, ← a2]
  have e2 : P * A = Q * A := by
    have a1 : P * A = P * A * (Q * A) := by
      rw [Matrix.mul_assoc P A, ← Matrix.mul_assoc A Q, hQ.h1]
    have a2 : Q * A = Q * A * (P * A) := by
      rw [Matrix.mul_assoc Q A, ← Matrix.mul_assoc A P, hP.h1]
    have a3 := congrArg conjTranspose a1
    rw [hP.h4, conjTranspose_mul, hP.h4, hQ.h4] at a3
    rw [a3, ← a2]
  calc P = P * A * P := hP.h2.symm
    _ = Q * A * P := by rw [e2]
    _ = Q * (A * Q) := by rw [Matrix.mul_assoc, e1]
    _ = Q := by rw [← Matrix.mul_assoc, hQ.h2]

private theorem diag_mul (V : Matrix n n ℂ) (hV : Vᴴ * V = 1) (a b : n → ℂ) :
    V * diagonal a * Vᴴ * (V * diagonal b * Vᴴ) = V * diagonal (fun i => a i * b i) * Vᴴ := by
  calc V * diagonal a * Vᴴ * (V * diagonal b * Vᴴ) = V * diagonal a * (Vᴴ * V) * diagonal b * Vᴴ := by
        simp only [Matrix.mul_assoc]
    _ = V * diagonal (fun i => a i * b i) * Vᴴ := by
        rw [hV, Matrix.mul_one, Matrix.mul_assoc V, Matrix.diagonal_mul_diagonal]

private theorem diag_star (V : Matrix n n ℂ) (a : n → ℂ) :
    (V * diagonal a * Vᴴ)ᴴ = V * diagonal (fun i => star (a i)) * Vᴴ := by
  rw [conjTranspose_mul, conjTranspose_mul, diagonal_conjTranspose, conjTranspose_conjTranspose, Matrix.mul_assoc]
  rfl

private theorem spectral (A : Matrix n n ℂ) (h : A.IsHermitian) :
    A = (h.eigenvectorUnitary : Matrix n n ℂ) * diagonal (fun i => (h.eigenvalues i : ℂ)) * (h.eigenvectorUnitary : Matrix n n ℂ)ᴴ := by
  have := h.spectral_theorem
  rw [Unitary.conjStarAlgAut_apply] at this
  exact this

private theorem eigen (A : Matrix n n ℂ) (h : A.IsHermitian) (i : n) :
    ∃ x : n → ℂ, x ≠ 0 ∧ A.mulVec x = (h.eigenvalues i : ℂ) • x := by
  refine ⟨⇑(h.eigenvectorBasis i), ?_, ?_⟩
  · intro h0
    have := (h.eigenvectorBasis).orthonormal.ne_zero i
    exact this (by ext j; exact congrFun h0 j)
  · rw [h.mulVec_eigenvectorBasis]
    funext j
    simp

/-- **C69**: the matrix the solver multiplies the right-hand side with is the Moore–Penrose inverse, for every Hermitian matrix whose
non-zero eigenvalues lie above the cut-off. -/
theorem C69_penrose (rcond : ℝ) (A : Matrix n n ℂ) (hA : A.IsHermitian) (hs : WellSeparated rcond A) (b : n → ℂ) :
    ∃ P, IsMoorePenrose A P ∧ pinv rcond (.operator A) b = some (P.mulVec b, ()) := by
  refine ⟨hermitianPinv rcond A, ?_, rfl⟩
  set V : Matrix n n ℂ := (hA.eigenvectorUnitary : Matrix n n ℂ) with hVdef
  have hV : Vᴴ * V = 1 := Unitary.coe_star_mul_self hA.eigenvectorUnitary
  have hsp := spectral A hA
  rw [← hVdef] at hsp
  set w : n → ℝ := hA.eigenvalues with hw
  classical
  have hP : hermitianPinv rcond A = V * diagonal (fun i => ((w i)⁻¹ : ℂ)) * Vᴴ := by
    unfold hermitianPinv
    rw [dif_pos hA]
    dsimp only
    congr 3
    funext i
    split
    · rfl
    · rename_i hi
      by_cases h0 : hA.eigenvalues i = 0
      · simp [hw, h0]
      · exact absurd (fun j => hs _ _ (eigen A hA i) (eigen A hA j) h0) hi
  have key : ∀ i, (w i : ℂ) * ((w i : ℂ))⁻¹ * (w i : ℂ) = w i := fun i => by
    by_cases h : (w i : ℂ) = 0
    · simp [h]
    · field_simp
  have key2 : ∀ i, ((w i : ℂ))⁻¹ * (w i : ℂ) * ((w i : ℂ))⁻¹ = (w i : ℂ)⁻¹ := fun i => by
    by_cases h : (w i : ℂ) = 0
    · simp [h]
    · field_simp
  rw [hP]
  constructor
  · conv_lhs => rw [hsp]
    rw [diag_mul V hV, diag_mul V hV]
    conv_rhs => rw [hsp]
    simp only [key]
  · conv_lhs => rw [hsp]
    rw [diag_mul V hV, diag_mul V hV]
    simp only [key2]
  · conv_lhs => rw [hsp]
    conv_rhs => rw [hsp]
    rw [diag_mul V hV, diag_star]
    simp
  · conv_lhs => rw [hsp]
    conv_rhs => rw [hsp]
    rw [diag_mul V hV, diag_star]
    simp

/-- **C69**: a solvable system is solved, by the solution that is orthogonal to the kernel. -/
theorem C69_solution (rcond : ℝ) (A : Matrix n n ℂ) (hA : A.IsHermitian) (hs : WellSeparated rcond A) (b y : n → ℂ)
    (hb : A.mulVec y = b) : ∃ x, pinv rcond (.operator A) b = some (x, ()) ∧ A.mulVec x = b ∧
      ∀ z : n → ℂ, A.mulVec z = 0 → star z ⬝ᵥ x = 0 := by
  obtain ⟨P, hP, he⟩ := C69_penrose rcond A hA hs b
  refine ⟨P.mulVec b, he, ?_, ?_⟩
  · rw [← hb, Matrix.mulVec_mulVec, Matrix.mulVec_mulVec, hP.h1]
  · intro z hz
    have e : P.mulVec b = (P * A)ᴴ.mulVec (P.mulVec b) := by
      rw [hP.h4, Matrix.mulVec_mulVec, hP.h2]
    rw [e, Matrix.dotProduct_mulVec, ← Matrix.star_mulVec, ← Matrix.mulVec_mulVec, hz]
    simp

/-- **C69**: for an invertible matrix above the cut-off the solver returns `A⁻¹ b`. -/
theorem C69_invertible (rcond : ℝ) (A : Matrix n n ℂ) (hA : A.IsHermitian) (hs : WellSeparated rcond A) (hu : IsUnit A) (b : n → ℂ) :
    pinv rcond (.operator A) b = some (A⁻¹.mulVec b, ()) := by
  obtain ⟨P, hP, he⟩ := C69_penrose rcond A hA hs b
  have hd : IsUnit A.det := (Matrix.isUnit_iff_isUnit_det A).1 hu
  have : IsMoorePenrose A A⁻¹ := by
    constructor <;> simp [Matrix.mul_nonsing_inv A hd, Matrix.nonsing_inv_mul A hd]
  rw [he, hP.unique this]

/-- **C69** fails without the condition on the spectrum: with a cut-off of one, even the identity is not inverted. -/
theorem C69_general_fails : ∃ (A : Matrix (Fin 1) (Fin 1) ℂ) (b : Fin 1 → ℂ), A.IsHermitian ∧ IsUnit A ∧
    ∀ x, pinv 1 (.operator A) b = some (x, ()) → A.mulVec x ≠ b := by
  refine ⟨1, fun _ => 1, isHermitian_one, isUnit_one, ?_⟩
  intro x hx
  have h0 : hermitianPinv 1 (1 : Matrix (Fin 1) (Fin 1) ℂ) = 0 := by
    unfold hermitianPinv
    rw [dif_pos isHermitian_one]
    dsimp only
    have : ∀ i : Fin 1, ¬ ∀ j, (1 : ℝ) * |(isHermitian_one (α := ℂ) (n := Fin 1)).eigenvalues j| <
        |(isHermitian_one (α := ℂ) (n := Fin 1)).eigenvalues i| := by
      intro i h
      have := h i
      linarith
    simp only [this, if_false]
    simp
  have : x = 0 := by
    have : pinv 1 (.operator (1 : Matrix (Fin 1) (Fin 1) ℂ)) (fun _ => 1) = some ((hermitianPinv 1 1).mulVec fun _ => 1, ()) := rfl
    rw [this, h0] at hx
    simpa using (congrArg (fun o => (Option.getD o (0, ())).1) hx).symm
  rw [this]
  intro h
  have := congrFun h 0
  simp at this

/-- **C58**, `SRDense` with its default solver: every call raises. -/
theorem C58_srdense_default_fails (S : Matrix n n ℂ) (g : n → ℂ) : srDense defaultSolver S g = none := rfl

omit [Fintype n] [DecidableEq n] in
/-- A second reason: any solver that, like `pinv`, returns a pair makes the call raise. -/
theorem C58_srdense_tuple_fails (solver : Lhs n → (n → ℂ) → Option (Result n)) (h : ∀ A b r, solver A b = some r → ∃ x, r = .tuple x)
    (S : Matrix n n ℂ) (g : n → ℂ) : srDense solver S g = none := by
  have e : srDense solver S g = (solver (.array S) g).bind unravel := rfl
  rw [e]
  rcases hs : solver (.array S) g with _ | r
  · rfl
  · obtain ⟨x, rfl⟩ := h _ _ r hs
    rfl

/-- The default solver is one of those. -/
theorem C58_default_tuple (A : Lhs n) (b : n → ℂ) (r : Result n) (h : defaultSolver A b = some r) : ∃ x, r = .tuple x := by
  unfold defaultSolver at h
  rw [Option.map_eq_some_iff] at h
  obtain ⟨a, -, rfl⟩ := h
  exact ⟨_, rfl⟩

omit [Fintype n] [DecidableEq n] in
/-- **C58**, `SRDense` with a solver for arrays that returns an array: the result is what the solver returns for `S` and the gradient. -/
theorem C58_srdense_array (f : Matrix n n ℂ → (n → ℂ) → n → ℂ) (solver : Lhs n → (n → ℂ) → Option (Result n))
    (h : ∀ A b, solver (.array A) b = some (.array (f A b))) (S : Matrix n n ℂ) (g : n → ℂ) :
    srDense solver S g = some (f S g) := by
  simp [srDense, Lhs.toDense, h, unravel]

/-- The hypotheses of the theorems on the solver are met by the identity. -/
example : (1 : Matrix (Fin 2) (Fin 2) ℂ).IsHermitian ∧ WellSeparated (1 / 2) (1 : Matrix (Fin 2) (Fin 2) ℂ) ∧
    IsUnit (1 : Matrix (Fin 2) (Fin 2) ℂ) := by
  refine ⟨isHermitian_one, ?_, isUnit_one⟩
  have aux : ∀ v : ℝ, (∃ x : Fin 2 → ℂ, x ≠ 0 ∧ (1 : Matrix (Fin 2) (Fin 2) ℂ).mulVec x = (v : ℂ) • x) → v = 1 := by
    rintro v ⟨x, hx, h⟩
    obtain ⟨i, hi⟩ := Function.ne_iff.1 hx
    have := congrFun h i
    rw [Matrix.one_mulVec] at this
    simp only [Pi.smul_apply, smul_eq_mul] at this
    have h2 : (v : ℂ) = 1 := by
      have : ((v : ℂ) - 1) * x i = 0 := by linear_combination -this
      rcases mul_eq_zero.1 this with h | h
      · linear_combination h
      · exact absurd h hi
    exact_mod_cast h2
  intro v w hv hw _
  rw [aux v hv, aux w hw]
  norm_num

end GPSKet.Solvers
