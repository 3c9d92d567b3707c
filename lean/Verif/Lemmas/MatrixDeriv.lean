import Mathlib.Analysis.Calculus.Deriv.Mul
import Mathlib.Analysis.Calculus.Deriv.Inv
import Mathlib.Analysis.Calculus.Deriv.Star
import Mathlib.Analysis.Calculus.FDeriv.RestrictScalars
import Mathlib.Analysis.SpecialFunctions.Log.Deriv
import Mathlib.Analysis.Matrix.PosDef
import Mathlib.Analysis.RCLike.Lemmas
import Mathlib.LinearAlgebra.Matrix.Adjugate

/-! # Derivatives of determinants and inverses along a path of matrices -/

namespace GPSKet.MatrixDeriv

open Matrix
open scoped ComplexOrder

variable {𝕜 : Type} [RCLike 𝕜] {m : Type} [Fintype m] [DecidableEq m]

/-- Jacobi's formula. -/
theorem hasDerivAt_det (A : ℝ → Matrix m m 𝕜) (A' : Matrix m m 𝕜) (t : ℝ) (h : ∀ i j, HasDerivAt (fun s => A s i j) (A' i j) t) :
    HasDerivAt (fun s => (A s).det) ((A t).adjugate * A').trace t := by
  have h1 : HasDerivAt (fun s => (A s).det)
      (∑ σ : Equiv.Perm m, Equiv.Perm.sign σ • ∑ i, (∏ j ∈ Finset.univ.erase i, A t (σ j) j) • A' (σ i) i) t := by
    simp only [det_apply]
    apply HasDerivAt.fun_sum
    intro σ _
    have := HasDerivAt.fun_finsetProd (u := Finset.univ) (fun i _ => h (σ i) i)
    have h2 := this.const_smul ((Equiv.Perm.sign σ : ℤ) : ℝ)
    convert h2 using 1
    · funext s
      rcases Int.units_eq_one_or (Equiv.Perm.sign σ) with hs | hs <;> simp [hs]
    · rcases Int.units_eq_one_or (Equiv.Perm.sign σ) with hs | hs <;> simp [hs]
  refine h1.congr_deriv ?_
  have h3 : ∀ i, ((A t).adjugate * A') i i = ((A t).updateCol i fun k => A' k i).det := by
    intro i
    have : ((A t).adjugate *ᵥ fun k => A' k i) i = ((A t).adjugate * A') i i := rfl
    rw [← this, ← cramer_eq_adjugate_mulVec, cramer_apply]
  simp only [trace, diag_apply, h3, det_apply, Finset.smul_sum]
  rw [Finset.sum_comm]
  refine Finset.sum_congr rfl fun i _ => Finset.sum_congr rfl fun σ _ => ?_
  congr 1
  rw [← Finset.mul_prod_erase _ _ (Finset.mem_univ i)]
  simp only [updateCol_self, smul_eq_mul]
  rw [mul_comm]
  congr 1
  refine Finset.prod_congr rfl fun j hj => ?_
  rw [updateCol_ne (Finset.ne_of_mem_erase hj)]

theorem differentiableAt_inv (A : ℝ → Matrix m m 𝕜) (A' : Matrix m m 𝕜) (t : ℝ) (h : ∀ i j, HasDerivAt (fun s => A s i j) (A' i j) t)
    (hdet : (A t).det ≠ 0) (i j : m) : DifferentiableAt ℝ (fun s => (A s)⁻¹ i j) t := by
  have hd := (hasDerivAt_det A A' t h).differentiableAt
  have e : (fun s => (A s)⁻¹ i j) = fun s => ((A s).det)⁻¹ * ((A s).updateRow j (Pi.single i 1)).det := by
    funext s
    rw [inv_def, Matrix.smul_apply, adjugate_apply, Ring.inverse_eq_inv', smul_eq_mul]
  rw [e]
  refine (hd.inv hdet).mul ?_
  refine (hasDerivAt_det (fun s => (A s).updateRow j (Pi.single i 1)) (A'.updateRow j 0) t ?_).differentiableAt
  intro a b
  by_cases hab : a = j
  · subst hab
    simp only [updateRow_self]
    exact hasDerivAt_const _ _
  · simp only [updateRow_ne hab]
    exact h a b

/-- The logarithm of the determinant of positive definite matrices. -/
theorem hasDerivAt_log_det (A : ℝ → Matrix m m 𝕜) (A' : Matrix m m 𝕜) (t : ℝ) (h : ∀ i j, HasDerivAt (fun s => A s i j) (A' i j) t)
    (hpos : ∀ᶠ s in nhds t, (A s).PosDef) :
    HasDerivAt (fun s => Real.log ‖(A s).det‖) (RCLike.re ((A t)⁻¹ * A').trace) t := by
  have hp := hpos.self_of_nhds
  have hd := hasDerivAt_det A A' t h
  have hre : HasDerivAt (fun s => RCLike.re ((A s).det)) (RCLike.re ((A t).adjugate * A').trace) t :=
    (RCLike.reCLM (K := 𝕜)).hasFDerivAt.comp_hasDerivAt t hd
  have h0 := RCLike.pos_iff.mp hp.det_pos
  have hl := hre.log h0.1.ne'
  have hdr : (A t).det = ((RCLike.re (A t).det : ℝ) : 𝕜) := by
    apply RCLike.ext
    · simp
    · simp [h0.2]
  have e : RCLike.re ((A t)⁻¹ * A').trace = RCLike.re ((A t).adjugate * A').trace / RCLike.re (A t).det := by
    rw [inv_def, Ring.inverse_eq_inv', Matrix.smul_mul, trace_smul, smul_eq_mul, hdr, ← RCLike.ofReal_inv, RCLike.re_ofReal_mul,
      RCLike.ofReal_re]
    ring
  rw [e]
  refine hl.congr_of_eventuallyEq ?_
  filter_upwards [hpos] with s hs
  have h1 := RCLike.pos_iff.mp hs.det_pos
  have h2 : ‖(A s).det‖ = RCLike.re (A s).det := by
    have : (A s).det = ((RCLike.re (A s).det : ℝ) : 𝕜) := by
      apply RCLike.ext
      · simp
      · simp [h1.2]
    rw [this, RCLike.norm_ofReal, abs_of_pos h1.1, RCLike.ofReal_re]
  rw [h2]

/-- The quadratic form of the inverse. -/
theorem hasDerivAt_quad (A : ℝ → Matrix m m 𝕜) (A' : Matrix m m 𝕜) (b : ℝ → m → 𝕜) (b' : m → 𝕜) (t : ℝ)
    (h : ∀ i j, HasDerivAt (fun s => A s i j) (A' i j) t) (hb : ∀ i, HasDerivAt (fun s => b s i) (b' i) t)
    (hpos : ∀ᶠ s in nhds t, (A s).PosDef) :
    let x := (A t)⁻¹ *ᵥ b t
    HasDerivAt (fun s => RCLike.re (star (b s) ⬝ᵥ (A s)⁻¹ *ᵥ b s)) (2 * RCLike.re (star x ⬝ᵥ b') - RCLike.re (star x ⬝ᵥ A' *ᵥ x)) t := by
  intro x
  have hp := hpos.self_of_nhds
  have hu : IsUnit (A t).det := hp.det_pos.ne'.isUnit
  have hX : ∀ i, ∃ x', HasDerivAt (fun s => ((A s)⁻¹ *ᵥ b s) i) x' t := by
    intro i
    refine ⟨∑ j, (deriv (fun s => (A s)⁻¹ i j) t * b t j + (A t)⁻¹ i j * b' j), ?_⟩
    simp only [mulVec, dotProduct]
    exact HasDerivAt.fun_sum fun j _ =>
      (differentiableAt_inv A A' t h hp.det_pos.ne' i j).hasDerivAt.mul (hb j)
  choose x' hx' using hX
  have heq : ∀ i, (A' *ᵥ x) i + (A t *ᵥ x') i = b' i := by
    intro i
    have h1 : HasDerivAt (fun s => (A s *ᵥ ((A s)⁻¹ *ᵥ b s)) i) ((A' *ᵥ x) i + (A t *ᵥ x') i) t := by
      simp only [mulVec, dotProduct]
      rw [← Finset.sum_add_distrib]
      exact HasDerivAt.fun_sum fun j _ => (h i j).mul (hx' j)
    have h2 : HasDerivAt (fun s => (A s *ᵥ ((A s)⁻¹ *ᵥ b s)) i) (b' i) t := by
      refine (hb i).congr_of_eventuallyEq ?_
      filter_upwards [hpos] with s hs
      rw [mulVec_mulVec, mul_nonsing_inv _ hs.det_pos.ne'.isUnit, one_mulVec]
    exact h1.unique h2
  have hq : HasDerivAt (fun s => star (b s) ⬝ᵥ (A s)⁻¹ *ᵥ b s) (star b' ⬝ᵥ x + star (b t) ⬝ᵥ x') t := by
    simp only [dotProduct, Pi.star_apply]
    rw [← Finset.sum_add_distrib]
    exact HasDerivAt.fun_sum fun j _ => ((hb j).star).mul (hx' j)
  have hre : HasDerivAt (fun s => RCLike.re (star (b s) ⬝ᵥ (A s)⁻¹ *ᵥ b s)) (RCLike.re (star b' ⬝ᵥ x + star (b t) ⬝ᵥ x')) t :=
    (RCLike.reCLM (K := 𝕜)).hasFDerivAt.comp_hasDerivAt t hq
  refine hre.congr_deriv ?_
  have hbt : b t = A t *ᵥ x := by
    rw [mulVec_mulVec, mul_nonsing_inv _ hu, one_mulVec]
  have hx1 : A t *ᵥ x' = b' - A' *ᵥ x := by
    funext i
    rw [Pi.sub_apply, ← heq i]
    ring
  have hherm : star (b t) ⬝ᵥ x' = star x ⬝ᵥ A t *ᵥ x' := by
    rw [hbt, star_mulVec, hp.isHermitian, dotProduct_mulVec]
  have hconj : RCLike.re (star b' ⬝ᵥ x) = RCLike.re (star x ⬝ᵥ b') := by
    rw [← RCLike.conj_re, ← RCLike.star_def, ← star_dotProduct_star, star_star, dotProduct_comm]
  rw [hherm, hx1, dotProduct_sub, map_add, map_sub, hconj]
  ring

end GPSKet.MatrixDeriv
