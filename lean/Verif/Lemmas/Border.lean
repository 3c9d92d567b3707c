import Verif.Lemmas.RankOne
import Verif.Lemmas.MargLik

/-! # Removing one row and column from a positive definite matrix -/

namespace GPSKet.Border

open Matrix
open scoped ComplexOrder

variable {𝕜 : Type} [RCLike 𝕜] {m : Type} [Fintype m] [DecidableEq m]

section Sum

variable (N : Matrix (m ⊕ Unit) (m ⊕ Unit) 𝕜)

theorem posDef_corner (hN : N.PosDef) : N.toBlocks₁₁.PosDef := hN.submatrix Sum.inl_injective

/-- The remainder of the last diagonal entry. -/
noncomputable def schur : 𝕜 := N (Sum.inr ()) (Sum.inr ()) - (fun i => N (Sum.inr ()) (Sum.inl i)) ⬝ᵥ N.toBlocks₁₁⁻¹ *ᵥ fun i => N (Sum.inl i) (Sum.inr ())

theorem blocks_eq (x v : m ⊕ Unit → 𝕜) (h : N *ᵥ x = v) :
    (N.toBlocks₁₁ *ᵥ (fun i => x (Sum.inl i)) + x (Sum.inr ()) • (fun i => N (Sum.inl i) (Sum.inr ())) = fun i => v (Sum.inl i)) ∧
    ((fun i => N (Sum.inr ()) (Sum.inl i)) ⬝ᵥ (fun i => x (Sum.inl i)) + N (Sum.inr ()) (Sum.inr ()) * x (Sum.inr ()) = v (Sum.inr ())) := by
  constructor
  · funext i
    rw [← h]
    simp [mulVec, dotProduct, toBlocks₁₁, mul_comm]
  · rw [← h]
    simp [mulVec, dotProduct]

theorem schur_mul (hN : N.PosDef) (x v : m ⊕ Unit → 𝕜) (h : N *ᵥ x = v) :
    schur N * x (Sum.inr ())
      = v (Sum.inr ()) - (fun i => N (Sum.inr ()) (Sum.inl i)) ⬝ᵥ N.toBlocks₁₁⁻¹ *ᵥ (fun i => v (Sum.inl i)) := by
  have hu : IsUnit N.toBlocks₁₁.det := (posDef_corner N hN).det_pos.ne'.isUnit
  obtain ⟨h1, h2⟩ := blocks_eq N x v h
  have hx : (fun i => x (Sum.inl i))
      = N.toBlocks₁₁⁻¹ *ᵥ (fun i => v (Sum.inl i)) - x (Sum.inr ()) • N.toBlocks₁₁⁻¹ *ᵥ (fun i => N (Sum.inl i) (Sum.inr ())) := by
    rw [← h1, mulVec_add, mulVec_mulVec, nonsing_inv_mul _ hu, one_mulVec, mulVec_smul, add_sub_cancel_right]
  rw [hx, dotProduct_sub, dotProduct_smul, smul_eq_mul] at h2
  rw [schur, sub_mul, ← h2]
  ring

theorem det_eq (hN : N.PosDef) : N.det = N.toBlocks₁₁.det * schur N := by
  have hu : IsUnit N.toBlocks₁₁.det := (posDef_corner N hN).det_pos.ne'.isUnit
  have : Invertible N.toBlocks₁₁ := invertibleOfIsUnitDet _ hu
  conv_lhs => rw [← fromBlocks_toBlocks N, det_fromBlocks₁₁]
  congr 1
  rw [det_unique, schur, Matrix.sub_apply, invOf_eq_nonsing_inv, Matrix.mul_assoc]
  rfl

theorem inv_corner (hN : N.PosDef) : schur N * N⁻¹ (Sum.inr ()) (Sum.inr ()) = 1 := by
  have hu : IsUnit N.det := hN.det_pos.ne'.isUnit
  have h := schur_mul N hN (N⁻¹ *ᵥ Pi.single (Sum.inr ()) 1) (Pi.single (Sum.inr ()) 1)
    (by rw [mulVec_mulVec, mul_nonsing_inv _ hu, one_mulVec])
  rw [mulVec_single_one] at h
  rw [show N⁻¹ (Sum.inr ()) (Sum.inr ()) = N⁻¹.col (Sum.inr ()) (Sum.inr ()) from rfl, h]
  have h0 : (fun i : m => (Pi.single (Sum.inr ()) 1 : m ⊕ Unit → 𝕜) (Sum.inl i)) = 0 := by
    funext i
    simp
  rw [h0, mulVec_zero, dotProduct_zero, Pi.single_eq_same, sub_zero]

/-- The remainder is the inverse of the last diagonal entry of the inverse. -/
theorem schur_eq (hN : N.PosDef) : schur N = ((1 / RCLike.re (N⁻¹ (Sum.inr ()) (Sum.inr ())) : ℝ) : 𝕜) := by
  obtain ⟨h1, h2⟩ := RankOne.inv_diag_real hN (Sum.inr ())
  have h := inv_corner N hN
  rw [h1] at h
  rw [RCLike.ofReal_div, RCLike.ofReal_one]
  exact eq_div_of_mul_eq (RCLike.ofReal_ne_zero.mpr h2.ne') h

theorem log_det (hN : N.PosDef) :
    Real.log ‖N.toBlocks₁₁.det‖ = Real.log ‖N.det‖ + Real.log (RCLike.re (N⁻¹ (Sum.inr ()) (Sum.inr ()))) := by
  obtain ⟨h1, h2⟩ := RankOne.inv_diag_real hN (Sum.inr ())
  have h3 : (0 : ℝ) < 1 / RCLike.re (N⁻¹ (Sum.inr ()) (Sum.inr ())) := one_div_pos.mpr h2
  have h4 : ‖N.toBlocks₁₁.det‖ ≠ 0 := norm_ne_zero_iff.mpr (posDef_corner N hN).det_pos.ne'
  rw [det_eq N hN, norm_mul, schur_eq N hN, RCLike.norm_ofReal, abs_of_pos h3, Real.log_mul h4 h3.ne', one_div, Real.log_inv]
  ring

theorem quad (hN : N.PosDef) (v : m ⊕ Unit → 𝕜) :
    RCLike.re (star v ⬝ᵥ N⁻¹ *ᵥ v)
      = RCLike.re (star (fun i => v (Sum.inl i)) ⬝ᵥ N.toBlocks₁₁⁻¹ *ᵥ fun i => v (Sum.inl i))
        + ‖(N⁻¹ *ᵥ v) (Sum.inr ())‖ ^ 2 / RCLike.re (N⁻¹ (Sum.inr ()) (Sum.inr ())) := by
  have hu : IsUnit N.det := hN.det_pos.ne'.isUnit
  have huB : IsUnit N.toBlocks₁₁.det := (posDef_corner N hN).det_pos.ne'.isUnit
  obtain ⟨x, hx⟩ : ∃ x, x = N⁻¹ *ᵥ v := ⟨_, rfl⟩
  have hNx : N *ᵥ x = v := by rw [hx, mulVec_mulVec, mul_nonsing_inv _ hu, one_mulVec]
  obtain ⟨h1, h2⟩ := blocks_eq N x v hNx
  have hs := schur_mul N hN x v hNx
  rw [schur_eq N hN] at hs
  rw [← hx]
  have hxl : (fun i => x (Sum.inl i))
      = N.toBlocks₁₁⁻¹ *ᵥ (fun i => v (Sum.inl i)) - x (Sum.inr ()) • N.toBlocks₁₁⁻¹ *ᵥ (fun i => N (Sum.inl i) (Sum.inr ())) := by
    rw [← h1, mulVec_add, mulVec_mulVec, nonsing_inv_mul _ huB, one_mulVec, mulVec_smul, add_sub_cancel_right]
  have hsplit : star v ⬝ᵥ x = star (fun i => v (Sum.inl i)) ⬝ᵥ (fun i => x (Sum.inl i)) + star (v (Sum.inr ())) * x (Sum.inr ()) := by
    simp [dotProduct]
  have hherm : star (fun i => v (Sum.inl i)) ⬝ᵥ N.toBlocks₁₁⁻¹ *ᵥ (fun i => N (Sum.inl i) (Sum.inr ()))
      = star ((fun i => N (Sum.inr ()) (Sum.inl i)) ⬝ᵥ N.toBlocks₁₁⁻¹ *ᵥ fun i => v (Sum.inl i)) := by
    have hB : (N.toBlocks₁₁⁻¹)ᴴ = N.toBlocks₁₁⁻¹ := (posDef_corner N hN).inv.1
    have hN' : (fun i => N (Sum.inr ()) (Sum.inl i)) = star fun i => N (Sum.inl i) (Sum.inr ()) := by
      funext i
      rw [Pi.star_apply]
      exact (hN.1.apply _ _).symm
    rw [hN', ← star_dotProduct_star, star_star, star_mulVec, hB, dotProduct_comm, ← dotProduct_mulVec,
      dotProduct_comm]
  rw [hsplit, hxl, dotProduct_sub, dotProduct_smul, smul_eq_mul, hherm, sub_add_eq_add_sub, map_sub, map_add]
  have h3 : star (v (Sum.inr ())) - star ((fun i => N (Sum.inr ()) (Sum.inl i)) ⬝ᵥ N.toBlocks₁₁⁻¹ *ᵥ fun i => v (Sum.inl i))
      = ((1 / RCLike.re (N⁻¹ (Sum.inr ()) (Sum.inr ())) : ℝ) : 𝕜) * star (x (Sum.inr ())) := by
    rw [← star_sub, ← hs, star_mul', RCLike.star_def, RCLike.conj_ofReal]
  have h4 : RCLike.re (star (v (Sum.inr ())) * x (Sum.inr ()))
      - RCLike.re (x (Sum.inr ()) * star ((fun i => N (Sum.inr ()) (Sum.inl i)) ⬝ᵥ N.toBlocks₁₁⁻¹ *ᵥ fun i => v (Sum.inl i)))
      = ‖x (Sum.inr ())‖ ^ 2 / RCLike.re (N⁻¹ (Sum.inr ()) (Sum.inr ())) := by
    rw [mul_comm (x _), ← map_sub, ← sub_mul, h3, mul_assoc, RCLike.star_def, RCLike.conj_mul, RCLike.re_ofReal_mul, ← RCLike.ofReal_pow,
      RCLike.ofReal_re]
    ring
  rw [← h4]
  ring

end Sum

/-! ## Blocks given by predicates -/

variable {n : Type}

/-- The elements of `P` are those of `P'` and `f`. -/
noncomputable def splitEquiv (P P' : n → Prop) (f : n) (hf : ¬ P' f) (h : ∀ g, P g ↔ P' g ∨ g = f) :
    {g // P' g} ⊕ Unit ≃ {g // P g} := by
  classical
  exact
  { toFun := Sum.elim (fun g => ⟨g.1, (h g.1).mpr (Or.inl g.2)⟩) fun _ => ⟨f, (h f).mpr (Or.inr rfl)⟩
    invFun := fun g => if hg : P' g.1 then Sum.inl ⟨g.1, hg⟩ else Sum.inr ()
    left_inv := by
      rintro (g | g)
      · simp [g.2]
      · simp [hf]
    right_inv := by
      intro g
      by_cases hg : P' g.1
      · simp [hg]
      · have := ((h g.1).mp g.2).resolve_left hg
        simp only [hg, dif_neg, not_false_eq_true, Sum.elim_inr]
        exact Subtype.ext this.symm }

section Block

open GPSKet.SupervisedFit

variable (P P' : n → Prop) [Fintype {g // P g}] [DecidableEq {g // P g}] [Fintype {g // P' g}] [DecidableEq {g // P' g}]

/-- The inverse of a positive definite block and of the block without the row and column `f`. -/
theorem block_remove (M : Matrix n n 𝕜) (f : n) (hf : ¬ P' f) (h : ∀ g, P g ↔ P' g ∨ g = f) (hM : (block M P).PosDef)
    (v : n → 𝕜) :
    let F : {g // P g} := ⟨f, (h f).mpr (Or.inr rfl)⟩
    let g := RCLike.re ((block M P)⁻¹ F F)
    let x := ((block M P)⁻¹ *ᵥ fun i : {g // P g} => v i) F
    (0 < g) ∧
    (Real.log ‖(block M P').det‖ = Real.log ‖(block M P).det‖ + Real.log g) ∧
    (RCLike.re (star (fun i : {g // P g} => v i) ⬝ᵥ (block M P)⁻¹ *ᵥ fun i : {g // P g} => v i)
      = RCLike.re (star (fun i : {g // P' g} => v i) ⬝ᵥ (block M P')⁻¹ *ᵥ fun i : {g // P' g} => v i) + ‖x‖ ^ 2 / g) ∧
    (M f f - (fun i : {g // P' g} => M f i) ⬝ᵥ (block M P')⁻¹ *ᵥ (fun i : {g // P' g} => M i f) = ((1 / g : ℝ) : 𝕜)) ∧
    (v f - (fun i : {g // P' g} => M f i) ⬝ᵥ (block M P')⁻¹ *ᵥ (fun i : {g // P' g} => v i) = ((1 / g : ℝ) : 𝕜) * x) := by
  intro F g x
  obtain ⟨e, he⟩ : ∃ e, e = splitEquiv P P' f hf h := ⟨_, rfl⟩
  have hl : ∀ i, (e (Sum.inl i) : n) = i := fun i => by rw [he]; rfl
  have hr : e (Sum.inr ()) = F := by rw [he]; rfl
  obtain ⟨N, hN⟩ : ∃ N, N = (block M P).submatrix e e := ⟨_, rfl⟩
  have hpos : N.PosDef := by rw [hN]; exact hM.submatrix e.injective
  have hB : N.toBlocks₁₁ = block M P' := by
    ext i j
    rw [hN]
    show M (e (Sum.inl i)) (e (Sum.inl j)) = M i j
    rw [hl, hl]
  have hinv : N⁻¹ = (block M P)⁻¹.submatrix e e := by rw [hN, inv_submatrix_equiv]
  have hdet : N.det = (block M P).det := by rw [hN, det_submatrix_equiv_self]
  have hg : RCLike.re (N⁻¹ (Sum.inr ()) (Sum.inr ())) = g := by rw [hinv, submatrix_apply, hr]
  have hv : N⁻¹ *ᵥ ((fun i : {g // P g} => v i) ∘ e) = ((block M P)⁻¹ *ᵥ fun i : {g // P g} => v i) ∘ e := by
    rw [hinv, submatrix_mulVec_equiv]
    congr 2
    rw [Function.comp_assoc, Equiv.self_comp_symm, Function.comp_id]
  have hx : (N⁻¹ *ᵥ ((fun i : {g // P g} => v i) ∘ e)) (Sum.inr ()) = x := by rw [hv, Function.comp_apply, hr]
  have hvl : (fun i => ((fun i : {g // P g} => v i) ∘ e) (Sum.inl i)) = fun i : {g // P' g} => v i := by
    funext i
    rw [Function.comp_apply, hl]
  have hrow : (fun i => N (Sum.inr ()) (Sum.inl i)) = fun i : {g // P' g} => M f i := by
    funext i
    rw [hN]
    show M (e (Sum.inr ())) (e (Sum.inl i)) = M f i
    rw [hl, hr]
  have hcol : (fun i => N (Sum.inl i) (Sum.inr ())) = fun i : {g // P' g} => M i f := by
    funext i
    rw [hN]
    show M (e (Sum.inl i)) (e (Sum.inr ())) = M i f
    rw [hl, hr]
  have hcor : N (Sum.inr ()) (Sum.inr ()) = M f f := by
    rw [hN]
    show M (e (Sum.inr ())) (e (Sum.inr ())) = M f f
    rw [hr]
  refine ⟨(RankOne.inv_diag_real hM F).2, ?_, ?_, ?_, ?_⟩
  · rw [← hg, ← hdet, ← hB]
    exact log_det N hpos
  · have := quad N hpos ((fun i : {g // P g} => v i) ∘ e)
    rw [hx, hg, hvl, hB] at this
    rw [← this, hv]
    congr 1
    exact (Equiv.sum_comp e fun i => star (v i) * ((block M P)⁻¹ *ᵥ fun i : {g // P g} => v i) i).symm
  · rw [← hg, ← schur_eq N hpos, schur, hrow, hcol, hcor, hB]
  · have hu : IsUnit N.det := hpos.det_pos.ne'.isUnit
    have := schur_mul N hpos (N⁻¹ *ᵥ ((fun i : {g // P g} => v i) ∘ e)) _
      (by rw [mulVec_mulVec, mul_nonsing_inv _ hu, one_mulVec])
    rw [hx, hvl, schur_eq N hpos, hg, hrow, hB, Function.comp_apply, hr] at this
    exact this.symm

end Block

end GPSKet.Border
