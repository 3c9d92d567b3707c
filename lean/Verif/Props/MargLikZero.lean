import Verif.Props.MargLik

/-! # C80: the value of `log_marg_lik` when some amplitudes vanish -/

namespace GPSKet.MargLik

open Matrix GPSKet.SupervisedFit GPSKet.Evidence
open scoped ComplexOrder

variable {ι n m : Type} [Fintype ι] [Fintype n] [DecidableEq n] [Fintype m] [DecidableEq m]

open Classical in
theorem log_evidenceRealZeros (z : ι → Prop) (K : Matrix ι m ℝ) (S : ι → ℝ) (hS : ∀ i, ¬ z i → 0 < S i) (hz : ∀ i, z i → S i = 0)
    (y : ι → ℝ) (a : m → ℝ) (ha : ∀ f, 0 < a f) :
    let b := rhs K (fun i => if z i then -(1 / 2) else S i * y i)
    Real.log (Spec.evidenceRealZeros z K S y a)
      = 1 / 2 * (-(∑ i, if z i then 0 else Real.log (2 * Real.pi / S i)) - (∑ i, if z i then 0 else S i * y i ^ 2)
          - Real.log (gram K S + diagonal a).det + (∑ f, Real.log (a f)) + b ⬝ᵥ (gram K S + diagonal a)⁻¹ *ᵥ b) := by
  intro b
  have hS0 : ∀ i, 0 ≤ S i := fun i => by
    by_cases h : z i
    · rw [hz i h]
    · exact (hS i h).le
  have hA := posDef_gram_add K S hS0 a ha
  set A := gram K S + diagonal a with hAdef
  have hM : ((1 / 2 : ℝ) • A).PosDef := hA.smul (by norm_num)
  have hc : ∀ i, 0 < if z i then (1 : ℝ) else Real.sqrt (S i / (2 * Real.pi)) := by
    intro i
    by_cases h : z i
    · rw [if_pos h]; exact one_pos
    · rw [if_neg h]; exact Real.sqrt_pos.mpr (div_pos (hS i h) Real.two_pi_pos)
  have hf : ∀ f, 0 < Real.sqrt (a f / (2 * Real.pi)) := fun f => Real.sqrt_pos.mpr (div_pos (ha f) Real.two_pi_pos)
  have key := log_integral hM ((1 / 2 : ℝ) • b) (1 / 2 * ∑ i, if z i then 0 else S i * y i ^ 2)
    ((∏ i, if z i then (1 : ℝ) else Real.sqrt (S i / (2 * Real.pi))) * ∏ f, Real.sqrt (a f / (2 * Real.pi)))
    (mul_pos (Finset.prod_pos fun i _ => hc i) (Finset.prod_pos fun f _ => hf f))
    (fun w => (∏ i, if z i then Real.exp (-(1 / 2) * ∑ f, K i f * w f) else Spec.normalDensity (S i) (y i - ∑ f, K i f * w f))
      * ∏ f, Spec.normalDensity (a f) (w f)) (by
      intro w
      have hi : ∀ i, (if z i then Real.exp (-(1 / 2) * ∑ f, K i f * w f) else Spec.normalDensity (S i) (y i - ∑ f, K i f * w f))
          = (if z i then (1 : ℝ) else Real.sqrt (S i / (2 * Real.pi)))
            * Real.exp (if z i then -(1 / 2) * ∑ f, K i f * w f else -(S i / 2) * (y i - ∑ f, K i f * w f) ^ 2) := by
        intro i
        by_cases h : z i
        · simp only [if_pos h, one_mul]
        · simp only [if_neg h]; rfl
      rw [Finset.prod_congr rfl fun i _ => hi i]
      simp only [Spec.normalDensity, Finset.prod_mul_distrib, ← Real.exp_sum]
      rw [smul_mulVec, dotProduct_smul, hAdef, quad_form, smul_dotProduct, lin_form]
      rw [mul_mul_mul_comm, ← Real.exp_add, mul_assoc _ (Real.exp _) (Real.exp _), ← Real.exp_add]
      congr 2
      simp only [smul_eq_mul, mul_add, neg_add]
      have e : (∑ i, if z i then -(1 / 2) * ∑ f, K i f * w f else -(S i / 2) * (y i - ∑ f, K i f * w f) ^ 2)
          = -(1 / 2 * ∑ i, if z i then 0 else S i * y i ^ 2) - (1 / 2 * ∑ i, S i * (∑ f, K i f * w f) ^ 2)
            + 2 * (1 / 2 * ∑ i, (if z i then -(1 / 2) else S i * y i) * ∑ f, K i f * w f) := by
        rw [Finset.mul_sum, Finset.mul_sum, Finset.mul_sum, Finset.mul_sum, ← Finset.sum_neg_distrib, ← Finset.sum_sub_distrib,
          ← Finset.sum_add_distrib]
        refine Finset.sum_congr rfl fun i _ => ?_
        by_cases h : z i
        · simp only [if_pos h, hz i h]; ring
        · simp only [if_neg h]; ring
      have e2 : (∑ f, -(a f / 2) * w f ^ 2) = -(1 / 2 * ∑ f, a f * w f ^ 2) := by
        rw [Finset.mul_sum, ← Finset.sum_neg_distrib]
        exact Finset.sum_congr rfl fun i _ => by ring
      rw [e, e2]
      ring)
  refine key.2.trans ?_
  have hinv : ((1 / 2 : ℝ) • A)⁻¹ = (2 : ℝ) • A⁻¹ := by
    have hu : IsUnit A.det := hA.det_pos.ne'.isUnit
    apply inv_eq_right_inv
    rw [smul_mul_smul_comm, mul_nonsing_inv _ hu]
    norm_num
  rw [hinv, det_smul, Real.log_mul (by positivity) hA.det_pos.ne', Real.log_pow, smul_mulVec, mulVec_smul, dotProduct_smul,
    dotProduct_smul, smul_dotProduct, Real.log_mul (Finset.prod_pos fun i _ => hc i).ne' (Finset.prod_pos fun f _ => hf f).ne',
    Real.log_prod fun i _ => (hc i).ne', Real.log_prod fun f _ => (hf f).ne']
  have e1 : ∀ i, Real.log (if z i then (1 : ℝ) else Real.sqrt (S i / (2 * Real.pi)))
      = -(1 / 2) * if z i then 0 else Real.log (2 * Real.pi / S i) := by
    intro i
    by_cases h : z i
    · simp only [if_pos h, Real.log_one, mul_zero]
    · simp only [if_neg h]
      rw [Real.log_sqrt (div_pos (hS i h) Real.two_pi_pos).le, ← inv_div (2 * Real.pi) (S i), Real.log_inv]
      ring
  have e2 : ∀ f, Real.log (Real.sqrt (a f / (2 * Real.pi))) = 1 / 2 * Real.log (a f) - 1 / 2 * (Real.log 2 + Real.log Real.pi) := by
    intro f
    rw [Real.log_sqrt (div_pos (ha f) Real.two_pi_pos).le, Real.log_div (ha f).ne' Real.two_pi_pos.ne',
      Real.log_mul two_ne_zero Real.pi_pos.ne']
    ring
  simp only [e1, e2, Finset.sum_sub_distrib, ← Finset.mul_sum, Finset.sum_const, Finset.card_univ, nsmul_eq_mul, smul_eq_mul]
  rw [one_div, Real.log_inv]
  ring

open Classical in
/-- C80 with vanishing amplitudes (real parameters, no weightings): `log_marg_lik` is the logarithm of the evidence in which a
vanishing amplitude contributes the factor `exp (-prediction / 2)` instead of a normal density. -/
theorem C80_zeros {chol : {m : Type} → [Fintype m] → Matrix m m ℝ → Option (Matrix m m ℝ)} (hchol : CholeskySpec chol)
    (pinvh : {m : Type} → [Fintype m] → Matrix m m ℝ → Matrix m m ℝ) (noise : ℝ) (hn : 0 < noise) (K : Matrix ι n ℝ)
    (amps data : ι → ℝ) (alpha : n → ℝ) (ha : ∀ f, 0 < alpha f) (S : ι → ℝ)
    (hS : ∀ i, S i = if amps i = 0 then 0 else 1 / Real.log (1 + noise / |amps i| ^ 2)) (P : n → Prop)
    (hP : ∀ f, P f ↔ alpha f < 1e10 ∧ 1e-10 < Spec.occurrence K S f) :
    expLogMargLik chol pinvh false noise .target K none amps data alpha
      = some (Real.log (Spec.evidenceRealZeros (fun i => amps i = 0) (fun i (f : {f // P f}) => K i f) S data fun f => alpha f)) := by
  have hSw : S = noiseWeight noise .target amps := by
    funext i
    rw [noiseWeight, if_neg hn.ne', hS i]
    rfl
  have hz : ∀ i, amps i = 0 → S i = 0 := fun i h => by rw [hS, if_pos h]
  have hpos : ∀ i, ¬ amps i = 0 → 0 < S i := fun i h => by rw [hSw]; exact (C74_weights noise hn amps i).1 h
  have hS0 : ∀ i, 0 ≤ S i := fun i => by
    by_cases h : amps i = 0
    · rw [hz i h]
    · exact (hpos i h).le
  have h2 := log_evidenceRealZeros (fun i => amps i = 0) (cols K P) S hpos hz data (fun f : {f // P f} => alpha f) (fun f => ha f)
  simp only at h2
  unfold expLogMargLik
  simp only [expWeights, ← hSw, expDataTerm, Option.map_some, Option.some.injEq]
  have hact : Active (gram K S) alpha = P := (active_eq K S hS0 alpha).trans (funext fun f => propext (hP f).symm)
  have hblock := block_posDef false 1 one_pos K S hS0 alpha ha
  rw [hact] at hblock
  rw [evidence_eq pinvh hchol false 1 (gram K S) _ alpha ha _ P hact hblock, rhs_cols, block_eq]
  have hmul : multiplicator S amps data = fun i => if amps i = 0 then -(1 / 2) else S i * data i := rfl
  refine Eq.trans ?_ h2.symm
  rw [hmul]
  simp only [Bool.false_eq_true, if_false, Real.norm_eq_abs, Real.log_abs, star_trivial, one_mul, one_pow, RCLike.re_to_real, normConst]
  have hd : (∑ i, if amps i = 0 then (0 : ℝ) else data i * (((S i : ℝ) : ℝ) * data i)) = ∑ i, if amps i = 0 then 0 else S i * data i ^ 2 := by
    refine Finset.sum_congr rfl fun i _ => ?_
    by_cases h : amps i = 0
    · simp only [if_pos h]
    · simp only [if_neg h]; ring
  simp only [RCLike.ofReal_real_eq_id, id] at hd ⊢
  rw [hd]

/-- Two configurations, one of which has a vanishing amplitude. -/
example : (∃ i, (![1, 0] : Fin 2 → ℝ) i = 0) ∧ ∃ i, (![1, 0] : Fin 2 → ℝ) i ≠ 0 := ⟨⟨1, rfl⟩, ⟨0, one_ne_zero⟩⟩

end GPSKet.MargLik
