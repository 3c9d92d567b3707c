import Verif.Lemmas.MargLik
import Verif.Lemmas.Evidence
import Verif.Lemmas.Cholesky
import Verif.Props.SupervisedFit

/-! # C80, C81: the value of `log_marg_lik` is the logarithm of the marginal likelihood -/

namespace GPSKet.MargLik

open Matrix GPSKet.SupervisedFit GPSKet.Evidence
open scoped ComplexOrder

variable {𝕜 : Type} [RCLike 𝕜] {ι n : Type} [Fintype ι] [Fintype n] [DecidableEq n]

theorem active_eq (K : Matrix ι n 𝕜) (S : ι → ℝ) (hS : ∀ i, 0 ≤ S i) (alpha : n → ℝ) :
    Active (gram K S) alpha = fun f => alpha f < 1e10 ∧ 1e-10 < Spec.occurrence K S f := by
  funext f
  rw [Active, valid_iff K S hS]

theorem gram_scale (K : Matrix ι n 𝕜) (S : ι → ℝ) (beta : ℝ) : (beta : 𝕜) • gram K S = gram K fun i => beta * S i := by
  ext f g
  simp only [gram, Matrix.smul_apply, Matrix.mul_apply, of_apply, smul_eq_mul, Finset.mul_sum]
  refine Finset.sum_congr rfl fun i _ => ?_
  push_cast
  ring

theorem rhs_scale (K : Matrix ι n 𝕜) (y : ι → 𝕜) (beta : 𝕜) : beta • rhs K y = rhs K fun i => beta * y i := by
  unfold rhs
  rw [← mulVec_smul]
  rfl

open Classical in
/-- The block of the active features. -/
theorem block_eq (beta : ℝ) (K : Matrix ι n 𝕜) (S : ι → ℝ) (alpha : n → ℝ) (P : n → Prop) :
    block (regularised false beta (gram K S) alpha) P
      = gram (cols K P) (fun i => beta * S i) + diagonal fun f : {f // P f} => (alpha f : 𝕜) := by
  rw [block_regularised, block_gram, gram_scale]
  congr!

theorem sq_quad (A : Matrix n n 𝕜) (beta : ℝ) (y : n → 𝕜) :
    beta ^ 2 * RCLike.re (star y ⬝ᵥ A *ᵥ y) = RCLike.re (star ((beta : 𝕜) • y) ⬝ᵥ A *ᵥ ((beta : 𝕜) • y)) := by
  rw [mulVec_smul, star_smul, smul_dotProduct, dotProduct_smul, smul_eq_mul, smul_eq_mul, RCLike.star_def, RCLike.conj_ofReal,
    ← mul_assoc, ← sq, ← RCLike.ofReal_pow, RCLike.re_ofReal_mul]

section Value

variable {chol : {m : Type} → [Fintype m] → Matrix m m 𝕜 → Option (Matrix m m 𝕜)}
variable (pinvh : {m : Type} → [Fintype m] → Matrix m m 𝕜 → Matrix m m 𝕜)

open Classical in
/-- `evidence` in closed form. -/
theorem evidence_closed (hchol : CholeskySpec chol) (cplx : Bool) (beta : ℝ) (hb : 0 < beta) (K : Matrix ι n 𝕜) (S : ι → ℝ)
    (hS : ∀ i, 0 ≤ S i) (y : ι → 𝕜) (alpha : n → ℝ) (ha : ∀ f, 0 < alpha f) (d : ℝ) (P : n → Prop)
    (hP : ∀ f, P f ↔ alpha f < 1e10 ∧ 1e-10 < Spec.occurrence K S f) :
    let A := gram (cols K P) (fun i => beta * S i) + diagonal fun f : {f // P f} => (alpha f : 𝕜)
    let b := rhs (cols K P) fun i => ((beta * S i : ℝ) : 𝕜) * y i
    evidence chol pinvh cplx false beta (gram K S) (rhs K fun i => (S i : 𝕜) * y i) alpha d
      = (if cplx then 1 else 1 / 2) * (d - Real.log ‖A.det‖ + (∑ f : {f // P f}, Real.log (alpha f))
          + RCLike.re (star b ⬝ᵥ A⁻¹ *ᵥ b)) := by
  intro A b
  have hact : Active (gram K S) alpha = P := (active_eq K S hS alpha).trans (funext fun f => propext (hP f).symm)
  have hpos := block_posDef false beta hb K S hS alpha ha
  rw [hact] at hpos
  rw [evidence_eq pinvh hchol cplx beta (gram K S) _ alpha ha d P hact hpos, sq_quad, rhs_cols, rhs_scale, block_eq]
  have hbe : rhs (cols K P) (fun i => (beta : 𝕜) * ((S i : 𝕜) * y i)) = b := by
    show _ = rhs (cols K P) _
    congr 1
    funext i
    push_cast
    ring
  rw [hbe]

end Value

section Real

variable {chol : {m : Type} → [Fintype m] → Matrix m m ℝ → Option (Matrix m m ℝ)}
variable (pinvh : {m : Type} → [Fintype m] → Matrix m m ℝ → Matrix m m ℝ)

open Classical in
theorem evidence_real (hchol : CholeskySpec chol) (beta : ℝ) (hb : 0 < beta) (K : Matrix ι n ℝ) (S : ι → ℝ)
    (hS : ∀ i, 0 < S i) (y : ι → ℝ) (alpha : n → ℝ) (ha : ∀ f, 0 < alpha f) (P : n → Prop)
    (hP : ∀ f, P f ↔ alpha f < 1e10 ∧ 1e-10 < Spec.occurrence K S f) (d : ℝ)
    (hd : d = -(∑ i, Real.log (2 * Real.pi / (beta * S i))) - ∑ i, beta * S i * y i ^ 2) :
    evidence chol pinvh false false beta (gram K S) (rhs K fun i => S i * y i) alpha d
      = Real.log (Spec.evidenceReal (fun i (f : {f // P f}) => K i f)
          (fun i => beta * S i) y fun f => alpha f) := by
  have h1 := evidence_closed (𝕜 := ℝ) pinvh hchol false beta hb K S (fun i => (hS i).le) y alpha ha d P hP
  have h2 := (log_evidenceReal (cols K P) (fun i => beta * S i)
    (fun i => mul_pos hb (hS i)) y (fun f => alpha f) (fun f => ha f)).2
  refine h1.trans (Eq.trans ?_ h2.symm)
  simp only [Bool.false_eq_true, if_false, hd, Real.norm_eq_abs, Real.log_abs, star_trivial]
  rfl

end Real

section Complex

variable {chol : {m : Type} → [Fintype m] → Matrix m m ℂ → Option (Matrix m m ℂ)}
variable (pinvh : {m : Type} → [Fintype m] → Matrix m m ℂ → Matrix m m ℂ)

open Classical in
theorem evidence_complex (hchol : CholeskySpec chol) (beta : ℝ) (hb : 0 < beta) (K : Matrix ι n ℂ) (S : ι → ℝ)
    (hS : ∀ i, 0 < S i) (y : ι → ℂ) (alpha : n → ℝ) (ha : ∀ f, 0 < alpha f) (P : n → Prop)
    (hP : ∀ f, P f ↔ alpha f < 1e10 ∧ 1e-10 < Spec.occurrence K S f) (d : ℝ)
    (hd : d = -(∑ i, Real.log (Real.pi / (beta * S i))) - ∑ i, beta * S i * ‖y i‖ ^ 2) :
    evidence chol pinvh true false beta (gram K S) (rhs K fun i => (S i : ℂ) * y i) alpha d
      = Real.log (Spec.evidenceComplex (fun i (f : {f // P f}) => K i f)
          (fun i => beta * S i) y fun f => alpha f) := by
  have h1 := evidence_closed (𝕜 := ℂ) pinvh hchol true beta hb K S (fun i => (hS i).le) y alpha ha d P hP
  have h2 := (log_evidenceComplex (cols K P) (fun i => beta * S i)
    (fun i => mul_pos hb (hS i)) y (fun f => alpha f) (fun f => ha f)).2
  refine h1.trans (Eq.trans ?_ h2.symm)
  simp only [if_true, hd, one_mul]
  rfl

end Complex

section Expand

variable {chol : {m : Type} → [Fintype m] → Matrix m m ℝ → Option (Matrix m m ℝ)}
variable (pinvh : {m : Type} → [Fintype m] → Matrix m m ℝ → Matrix m m ℝ)

theorem active_expand (K : Matrix ι n ℂ) (S : ι → ℝ) (hS : ∀ i, 0 ≤ S i) (alpha : n ⊕ n → ℝ) :
    Active (expandMat (gram K S)) alpha = fun f => alpha f < 1e10 ∧ 1e-10 < Spec.occurrence K S (Sum.elim id id f) := by
  have hS2 : ∀ i, 0 ≤ (Sum.elim S S : ι ⊕ ι → ℝ) i := by rintro (i | i) <;> exact hS i
  rw [expand_gram, active_eq _ _ hS2]
  funext f
  rcases f with f | f
  · rw [(occurrence_realify K S f).1]; rfl
  · rw [(occurrence_realify K S f).2]; rfl

open Classical in
theorem evidence_expand (hchol : CholeskySpec chol) (beta : ℝ) (hb : 0 < beta) (K : Matrix ι n ℂ) (S : ι → ℝ)
    (hS : ∀ i, 0 < S i) (y : ι → ℂ) (alpha : n ⊕ n → ℝ) (ha : ∀ f, 0 < alpha f) (P : n ⊕ n → Prop)
    (hP : ∀ f, P f ↔ alpha f < 1e10 ∧ 1e-10 < Spec.occurrence K S (Sum.elim id id f)) (d : ℝ)
    (hd : d = -(∑ i, Real.log (Real.pi / (beta * S i))) - ∑ i, beta * S i * ‖y i‖ ^ 2) :
    evidence chol pinvh true true beta (expandMat (gram K S)) (expandVec (rhs K fun i => (S i : ℂ) * y i)) alpha d
      = Real.log (Spec.evidenceMixed
          (fun i (f : {f // P f}) => Sum.elim (K i) (fun f => Complex.I * K i f) f.1)
          (fun i => beta * S i) y fun f => alpha f) := by
  have hact : Active (expandMat (gram K S)) alpha = P :=
    (active_expand K S (fun i => (hS i).le) alpha).trans (funext fun f => propext (hP f).symm)
  have hS2 : ∀ i, 0 ≤ (Sum.elim S S : ι ⊕ ι → ℝ) i := by rintro (i | i) <;> exact (hS i).le
  have hpos := block_posDef (𝕜 := ℝ) true beta hb (realify K) (Sum.elim S S) hS2 alpha ha
  rw [← expand_gram, hact] at hpos
  have h1 := evidence_half (𝕜 := ℝ) pinvh hchol beta (expandMat (gram K S)) (expandVec (rhs K fun i => (S i : ℂ) * y i)) alpha ha d P
    hact hpos
  have h2 := (log_evidenceMixed (cols (twice K) P) (fun i => beta * S i) (fun i => mul_pos hb (hS i)) y
    (fun f => alpha f) (fun f => ha f)).2
  have hA : block (regularised true beta (expandMat (gram K S)) alpha) P
      = gramRe (cols (twice K) P) (fun i => beta * S i) + diagonal fun f : {f // P f} => alpha f / 2 := by
    rw [block_regularised, ← gramRe_twice]
    simp only [if_true]
    congr 1
    ext f g
    have := congrFun (congrFun (gram_scale (cols (twice K) P) S beta) f) g
    simp only [gramRe, Matrix.map_apply, ← this, block_gram, Matrix.smul_apply, block, submatrix_apply]
    have e : gram (twice K) S f.1 g.1 = gram (cols (twice K) P) S f g := congrFun (congrFun (block_gram (twice K) S P) f) g
    rw [e, smul_eq_mul, smul_eq_mul]
    simp
  have hbv : (beta : ℝ) • (fun f : {f // P f} => expandVec (rhs K fun i => (S i : ℂ) * y i) f)
      = fun f => (rhs (cols (twice K) P) (fun i => ((beta * S i : ℝ) : ℂ) * y i) f).re := by
    funext f
    rw [← rhsRe_twice]
    have e : rhs (twice K) (fun i => (S i : ℂ) * y i) f.1 = rhs (cols (twice K) P) (fun i => (S i : ℂ) * y i) f :=
      congrFun (rhs_cols (twice K) _ P) f
    have e2 := congrFun (rhs_scale (cols (twice K) P) (fun i => (S i : ℂ) * y i) (beta : ℂ)) f
    simp only [Pi.smul_apply, smul_eq_mul] at e2 ⊢
    rw [e]
    have e3 : (fun i => ((beta * S i : ℝ) : ℂ) * y i) = fun i => (beta : ℂ) * ((S i : ℂ) * y i) := by
      funext i; push_cast; ring
    rw [e3, ← e2]
    simp
  refine h1.trans (Eq.trans ?_ h2.symm)
  rw [sq_quad, hd, hA]
  have hbv' := hbv
  simp only [RCLike.ofReal_real_eq_id, id] at hbv' ⊢
  rw [hbv']
  simp only [Real.norm_eq_abs, Real.log_abs, star_trivial]
  rfl

end Expand

/-! ## C80: the value without weightings -/

theorem expDataTerm_none (cplx : Bool) (S : ι → ℝ) (amps data : ι → 𝕜) (h0 : ∀ i, amps i ≠ 0) :
    expDataTerm cplx none S amps data
      = some (-(∑ i, Real.log (normConst cplx / (1 * S i))) - ∑ i, 1 * S i * ‖data i‖ ^ 2) := by
  simp only [expDataTerm, h0, if_false, one_mul]
  congr 3
  funext i
  rw [mul_left_comm, RCLike.star_def, RCLike.conj_mul, ← RCLike.ofReal_pow, RCLike.re_ofReal_mul, RCLike.ofReal_re]

theorem multiplicator_eq (S : ι → ℝ) (amps data : ι → 𝕜) (h0 : ∀ i, amps i ≠ 0) :
    multiplicator S amps data = fun i => (S i : 𝕜) * data i := by
  funext i
  rw [multiplicator, if_neg (h0 i)]

open Classical in
/-- C80 for all three estimates of the noise: `log_marg_lik` of `QGPSLearningExp` without weightings, for nonzero
amplitudes.  The features that take part are those with a precision below 1e10 that occur in the data with a weight above 1e-10. -/
theorem C80_real_modes {chol : {m : Type} → [Fintype m] → Matrix m m ℝ → Option (Matrix m m ℝ)} (hchol : CholeskySpec chol)
    (pinvh : {m : Type} → [Fintype m] → Matrix m m ℝ → Matrix m m ℝ) (noise : ℝ) (mode : NoiseMode ι) (K : Matrix ι n ℝ)
    (amps data : ι → ℝ) (h0 : ∀ i, amps i ≠ 0) (alpha : n → ℝ) (ha : ∀ f, 0 < alpha f) (S : ι → ℝ)
    (hS : S = noiseWeight noise mode amps) (hpos : ∀ i, 0 < S i) (P : n → Prop)
    (hP : ∀ f, P f ↔ alpha f < 1e10 ∧ 1e-10 < Spec.occurrence K S f) :
    expLogMargLik chol pinvh false noise mode K none amps data alpha
      = some (Real.log (Spec.evidenceReal (fun i (f : {f // P f}) => K i f) S data fun f => alpha f)) := by
  unfold expLogMargLik
  simp only [expWeights, ← hS, expDataTerm_none false S amps data h0, Option.map_some, multiplicator_eq S amps data h0]
  refine congrArg some (Eq.trans (evidence_real pinvh hchol 1 one_pos K S hpos data alpha ha P hP _ ?_) ?_)
  · simp [normConst]
  · simp only [one_mul]

open Classical in
/-- C80 for complex parameters, all three estimates of the noise. -/
theorem C80_complex_modes {chol : {m : Type} → [Fintype m] → Matrix m m ℂ → Option (Matrix m m ℂ)} (hchol : CholeskySpec chol)
    (pinvh : {m : Type} → [Fintype m] → Matrix m m ℂ → Matrix m m ℂ) (noise : ℝ) (mode : NoiseMode ι) (K : Matrix ι n ℂ)
    (amps data : ι → ℂ) (h0 : ∀ i, amps i ≠ 0) (alpha : n → ℝ) (ha : ∀ f, 0 < alpha f) (S : ι → ℝ)
    (hS : S = noiseWeight noise mode amps) (hpos : ∀ i, 0 < S i) (P : n → Prop)
    (hP : ∀ f, P f ↔ alpha f < 1e10 ∧ 1e-10 < Spec.occurrence K S f) :
    expLogMargLik chol pinvh true noise mode K none amps data alpha
      = some (Real.log (Spec.evidenceComplex (fun i (f : {f // P f}) => K i f) S data fun f => alpha f)) := by
  unfold expLogMargLik
  simp only [expWeights, ← hS, expDataTerm_none true S amps data h0, Option.map_some, multiplicator_eq S amps data h0]
  refine congrArg some (Eq.trans (evidence_complex pinvh hchol 1 one_pos K S hpos data alpha ha P hP _ ?_) ?_)
  · simp [normConst]
  · simp only [one_mul]

open Classical in
/-- C80 for complex parameters with `complex_expand`, all three estimates of the noise: the real and the imaginary parts of the
parameters are real weights of the features and of the features times the imaginary unit. -/
theorem C80_expand_modes {chol : {m : Type} → [Fintype m] → Matrix m m ℝ → Option (Matrix m m ℝ)} (hchol : CholeskySpec chol)
    (pinvh : {m : Type} → [Fintype m] → Matrix m m ℝ → Matrix m m ℝ) (noise : ℝ) (mode : NoiseMode ι) (K : Matrix ι n ℂ)
    (amps data : ι → ℂ) (h0 : ∀ i, amps i ≠ 0) (alpha : n ⊕ n → ℝ) (ha : ∀ f, 0 < alpha f) (S : ι → ℝ)
    (hS : S = noiseWeight noise mode amps) (hpos : ∀ i, 0 < S i) (P : n ⊕ n → Prop)
    (hP : ∀ f, P f ↔ alpha f < 1e10 ∧ 1e-10 < Spec.occurrence K S (Sum.elim id id f)) :
    expLogMargLikExpand chol pinvh noise mode K none amps data alpha
      = some (Real.log (Spec.evidenceMixed (fun i (f : {f // P f}) => Sum.elim (K i) (fun f => Complex.I * K i f) f.1) S data
          fun f => alpha f)) := by
  unfold expLogMargLikExpand
  simp only [expWeights, ← hS, expDataTerm_none true S amps data h0, Option.map_some, multiplicator_eq S amps data h0]
  refine congrArg some (Eq.trans (evidence_expand pinvh hchol 1 one_pos K S hpos data alpha ha P hP _ ?_) ?_)
  · simp [normConst]
  · simp only [one_mul]

theorem target_weights {𝕜 : Type} [RCLike 𝕜] (noise : ℝ) (hn : 0 < noise) (amps : ι → 𝕜) (h0 : ∀ i, amps i ≠ 0) (S : ι → ℝ)
    (hS : ∀ i, S i = 1 / Real.log (1 + noise / ‖amps i‖ ^ 2)) : S = noiseWeight noise .target amps ∧ ∀ i, 0 < S i := by
  have h : S = noiseWeight noise .target amps := by
    funext i
    rw [noiseWeight, if_neg hn.ne', hS i]
    simp only [if_neg (h0 i)]
  exact ⟨h, fun i => by rw [h]; exact (C74_weights noise hn amps i).1 (h0 i)⟩

open Classical in
/-- C80 (real parameters): for nonzero amplitudes and without weightings, `log_marg_lik` of the learner of exponentials is the
logarithm of the probability density of the log-amplitudes, where the log-amplitude `i` has the precision
`1 / log (1 + noise / |amplitude i|^2)` around the linear prediction and the weights are drawn with the precisions `alpha`. -/
theorem C80_real {chol : {m : Type} → [Fintype m] → Matrix m m ℝ → Option (Matrix m m ℝ)} (hchol : CholeskySpec chol)
    (pinvh : {m : Type} → [Fintype m] → Matrix m m ℝ → Matrix m m ℝ) (noise : ℝ) (hn : 0 < noise) (K : Matrix ι n ℝ)
    (amps data : ι → ℝ) (h0 : ∀ i, amps i ≠ 0) (alpha : n → ℝ) (ha : ∀ f, 0 < alpha f) (S : ι → ℝ)
    (hS : ∀ i, S i = 1 / Real.log (1 + noise / ‖amps i‖ ^ 2)) (P : n → Prop)
    (hP : ∀ f, P f ↔ alpha f < 1e10 ∧ 1e-10 < Spec.occurrence K S f) :
    expLogMargLik chol pinvh false noise .target K none amps data alpha
      = some (Real.log (Spec.evidenceReal (fun i (f : {f // P f}) => K i f) S data fun f => alpha f)) :=
  have h := target_weights noise hn amps h0 S hS
  C80_real_modes hchol pinvh noise .target K amps data h0 alpha ha S h.1 h.2 P hP

open Classical in
/-- C80 (complex parameters). -/
theorem C80_complex {chol : {m : Type} → [Fintype m] → Matrix m m ℂ → Option (Matrix m m ℂ)} (hchol : CholeskySpec chol)
    (pinvh : {m : Type} → [Fintype m] → Matrix m m ℂ → Matrix m m ℂ) (noise : ℝ) (hn : 0 < noise) (K : Matrix ι n ℂ)
    (amps data : ι → ℂ) (h0 : ∀ i, amps i ≠ 0) (alpha : n → ℝ) (ha : ∀ f, 0 < alpha f) (S : ι → ℝ)
    (hS : ∀ i, S i = 1 / Real.log (1 + noise / ‖amps i‖ ^ 2)) (P : n → Prop)
    (hP : ∀ f, P f ↔ alpha f < 1e10 ∧ 1e-10 < Spec.occurrence K S f) :
    expLogMargLik chol pinvh true noise .target K none amps data alpha
      = some (Real.log (Spec.evidenceComplex (fun i (f : {f // P f}) => K i f) S data fun f => alpha f)) :=
  have h := target_weights noise hn amps h0 S hS
  C80_complex_modes hchol pinvh noise .target K amps data h0 alpha ha S h.1 h.2 P hP

open Classical in
/-- C80 (complex parameters with `complex_expand`). -/
theorem C80_expand {chol : {m : Type} → [Fintype m] → Matrix m m ℝ → Option (Matrix m m ℝ)} (hchol : CholeskySpec chol)
    (pinvh : {m : Type} → [Fintype m] → Matrix m m ℝ → Matrix m m ℝ) (noise : ℝ) (hn : 0 < noise) (K : Matrix ι n ℂ)
    (amps data : ι → ℂ) (h0 : ∀ i, amps i ≠ 0) (alpha : n ⊕ n → ℝ) (ha : ∀ f, 0 < alpha f) (S : ι → ℝ)
    (hS : ∀ i, S i = 1 / Real.log (1 + noise / ‖amps i‖ ^ 2)) (P : n ⊕ n → Prop)
    (hP : ∀ f, P f ↔ alpha f < 1e10 ∧ 1e-10 < Spec.occurrence K S (Sum.elim id id f)) :
    expLogMargLikExpand chol pinvh noise .target K none amps data alpha
      = some (Real.log (Spec.evidenceMixed (fun i (f : {f // P f}) => Sum.elim (K i) (fun f => Complex.I * K i f) f.1) S data
          fun f => alpha f)) :=
  have h := target_weights noise hn amps h0 S hS
  C80_expand_modes hchol pinvh noise .target K amps data h0 alpha ha S h.1 h.2 P hP

section Witness

open Classical in
/-- C80 applies: two data, two features that both take part, a Cholesky decomposition. -/
example (P : Fin 2 → Prop) (hP : ∀ f, P f) :
    ∃ chol : {m : Type} → [Fintype m] → Matrix m m ℝ → Option (Matrix m m ℝ), CholeskySpec (fun {_} => chol) ∧
    expLogMargLik (fun {_} => chol) (fun A => A) false 1 .target !![1, 2; 0, 1] none ![1, -1] ![0, 3] (fun _ => 1)
      = some (Real.log (Spec.evidenceReal (fun i (f : {f // P f}) => !![1, 2; 0, 1] i f.1)
          (fun _ => 1 / Real.log 2) ![0, 3] fun _ => 1)) := by
  obtain ⟨chol, hchol⟩ := exists_choleskySpec (𝕜 := ℝ)
  refine ⟨chol, hchol, ?_⟩
  have hl : 0 < Real.log 2 := Real.log_pos (by norm_num)
  have hl1 : Real.log 2 < 1 := by
    have := Real.log_lt_sub_one_of_pos (x := 2) (by norm_num) (by norm_num)
    linarith
  have h1 : 1 < 1 / Real.log 2 := by
    rw [lt_div_iff₀ hl]
    linarith
  refine C80_real hchol (fun A => A) 1 one_pos !![1, 2; 0, 1] ![1, -1] ![0, 3] ?_ (fun _ => 1) (fun _ => one_pos) _ ?_ P ?_
  · intro i; fin_cases i <;> simp
  · intro i; fin_cases i <;> norm_num
  · intro f
    refine iff_of_true (hP f) ⟨by norm_num, ?_⟩
    have : (1 : ℝ) / Real.log 2 ≤ Spec.occurrence !![(1 : ℝ), 2; 0, 1] (fun _ => 1 / Real.log 2) f := by
      fin_cases f
      · simp [Spec.occurrence, Fin.sum_univ_two]
      · simp only [Spec.occurrence, Fin.sum_univ_two]
        norm_num
        linarith [inv_pos.mpr hl]
    norm_num at this ⊢
    norm_num at h1
    linarith

/-- C80 for complex parameters applies. -/
example : ∃ chol : {m : Type} → [Fintype m] → Matrix m m ℂ → Option (Matrix m m ℂ), CholeskySpec chol := exists_choleskySpec

end Witness

theorem logDataTerm_none (cplx : Bool) (noise : ℝ) (data : ι → 𝕜) :
    logDataTerm cplx noise none data
      = -(∑ _i : ι, Real.log (normConst cplx / (1 / noise * 1))) - ∑ i, 1 / noise * 1 * ‖data i‖ ^ 2 := by
  simp only [logDataTerm, dataCount, Finset.sum_const, Finset.card_univ, nsmul_eq_mul, mul_one, div_div_eq_mul_div, div_one, map_sum]
  congr 1
  rw [Finset.sum_div]
  refine Finset.sum_congr rfl fun i _ => ?_
  rw [RCLike.star_def, RCLike.conj_mul, ← RCLike.ofReal_pow, RCLike.ofReal_re]
  ring

open Classical in
/-- C80 for the learner of log-amplitudes with a uniform noise (real parameters; complex parameters; `complex_expand`). -/
theorem C80_logspace_real {chol : {m : Type} → [Fintype m] → Matrix m m ℝ → Option (Matrix m m ℝ)} (hchol : CholeskySpec chol)
    (pinvh : {m : Type} → [Fintype m] → Matrix m m ℝ → Matrix m m ℝ) (noise : ℝ) (hn : 0 < noise) (K : Matrix ι n ℝ)
    (data : ι → ℝ) (alpha : n → ℝ) (ha : ∀ f, 0 < alpha f) (P : n → Prop)
    (hP : ∀ f, P f ↔ alpha f < 1e10 ∧ 1e-10 < ∑ i, ‖K i f‖ ^ 2) :
    logSpaceLogMargLik chol pinvh false noise K none data alpha
      = Real.log (Spec.evidenceReal (fun i (f : {f // P f}) => K i f) (fun _ => 1 / noise) data fun f => alpha f) := by
  have hP' : ∀ f, P f ↔ alpha f < 1e10 ∧ 1e-10 < Spec.occurrence K (fun _ => 1) f := by simpa [Spec.occurrence] using hP
  have := evidence_real pinvh hchol (1 / noise) (one_div_pos.mpr hn) K (fun _ => 1) (fun _ => one_pos) data alpha ha P hP'
    (logDataTerm false noise none data) (by rw [logDataTerm_none]; simp [normConst])
  simp only [mul_one] at this
  exact this

open Classical in
theorem C80_logspace_complex {chol : {m : Type} → [Fintype m] → Matrix m m ℂ → Option (Matrix m m ℂ)} (hchol : CholeskySpec chol)
    (pinvh : {m : Type} → [Fintype m] → Matrix m m ℂ → Matrix m m ℂ) (noise : ℝ) (hn : 0 < noise) (K : Matrix ι n ℂ)
    (data : ι → ℂ) (alpha : n → ℝ) (ha : ∀ f, 0 < alpha f) (P : n → Prop)
    (hP : ∀ f, P f ↔ alpha f < 1e10 ∧ 1e-10 < ∑ i, ‖K i f‖ ^ 2) :
    logSpaceLogMargLik chol pinvh true noise K none data alpha
      = Real.log (Spec.evidenceComplex (fun i (f : {f // P f}) => K i f) (fun _ => 1 / noise) data fun f => alpha f) := by
  have hP' : ∀ f, P f ↔ alpha f < 1e10 ∧ 1e-10 < Spec.occurrence K (fun _ => 1) f := by simpa [Spec.occurrence] using hP
  have := evidence_complex pinvh hchol (1 / noise) (one_div_pos.mpr hn) K (fun _ => 1) (fun _ => one_pos) data alpha ha P hP'
    (logDataTerm true noise none data) (by rw [logDataTerm_none]; simp [normConst])
  simp only [mul_one] at this
  exact this

open Classical in
theorem C80_logspace_expand {chol : {m : Type} → [Fintype m] → Matrix m m ℝ → Option (Matrix m m ℝ)} (hchol : CholeskySpec chol)
    (pinvh : {m : Type} → [Fintype m] → Matrix m m ℝ → Matrix m m ℝ) (noise : ℝ) (hn : 0 < noise) (K : Matrix ι n ℂ)
    (data : ι → ℂ) (alpha : n ⊕ n → ℝ) (ha : ∀ f, 0 < alpha f) (P : n ⊕ n → Prop)
    (hP : ∀ f, P f ↔ alpha f < 1e10 ∧ 1e-10 < ∑ i, ‖K i (Sum.elim id id f)‖ ^ 2) :
    logSpaceLogMargLikExpand chol pinvh noise K none data alpha
      = Real.log (Spec.evidenceMixed (fun i (f : {f // P f}) => Sum.elim (K i) (fun f => Complex.I * K i f) f.1)
          (fun _ => 1 / noise) data fun f => alpha f) := by
  have hP' : ∀ f, P f ↔ alpha f < 1e10 ∧ 1e-10 < Spec.occurrence K (fun _ => 1) (Sum.elim id id f) := by
    simpa [Spec.occurrence] using hP
  have := evidence_expand pinvh hchol (1 / noise) (one_div_pos.mpr hn) K (fun _ => 1) (fun _ => one_pos) data alpha ha P hP'
    (logDataTerm true noise none data) (by rw [logDataTerm_none]; simp [normConst])
  simp only [mul_one] at this
  exact this

/-! ## C81: weightings -/

/-- The estimate of the noise for a data set in which some data are repeated. -/
def pull {κ : Type} (g : κ → ι) : NoiseMode ι → NoiseMode κ
  | .target => .target
  | .reweighted r => .reweighted fun k => r (g k)
  | .iterative pred => .iterative fun k => pred (g k)
  | .iterativeReweighted pred r => .iterativeReweighted (fun k => pred (g k)) fun k => r (g k)

theorem noiseWeight_pull {κ : Type} (g : κ → ι) (noise : ℝ) (mode : NoiseMode ι) (amps : ι → 𝕜) :
    noiseWeight noise (pull g mode) (fun k => amps (g k)) = fun k => noiseWeight noise mode amps (g k) := by
  funext k
  cases mode <;> rfl

theorem sum_repeat {M : Type} [AddCommMonoid M] (c : ι → ℕ) (F : ι → M) : ∑ p : (Σ i, Fin (c i)), F p.1 = ∑ i, c i • F i := by
  rw [Fintype.sum_sigma]
  simp

theorem gram_repeat (K : Matrix ι n 𝕜) (S : ι → ℝ) (c : ι → ℕ) :
    gram (K.submatrix (fun p : (Σ i, Fin (c i)) => p.1) id) (fun p => S p.1) = gram K fun i => S i * c i := by
  ext f g
  simp only [gram, Matrix.mul_apply, conjTranspose_apply, of_apply, submatrix_apply, id]
  rw [sum_repeat c fun i => star (K i f) * ((S i : 𝕜) * K i g)]
  refine Finset.sum_congr rfl fun i _ => ?_
  rw [nsmul_eq_mul]
  push_cast
  ring

theorem rhs_repeat (K : Matrix ι n 𝕜) (y : ι → 𝕜) (c : ι → ℕ) :
    rhs (K.submatrix (fun p : (Σ i, Fin (c i)) => p.1) id) (fun p => y p.1) = rhs K fun i => (c i : 𝕜) * y i := by
  funext f
  simp only [rhs, mulVec, dotProduct, conjTranspose_apply, submatrix_apply, id]
  rw [sum_repeat c fun i => star (K i f) * y i]
  refine Finset.sum_congr rfl fun i _ => ?_
  rw [nsmul_eq_mul]
  ring

/-- C81 (learner of exponentials): to give the datum `i` the weighting `c i`, a positive integer, is the same as to list it `c i`
times, for nonzero amplitudes.  All kernels, data, precisions, and estimates of the noise; real and complex parameters. -/
theorem C81_exp_partial (chol : {m : Type} → [Fintype m] → Matrix m m 𝕜 → Option (Matrix m m 𝕜))
    (pinvh : {m : Type} → [Fintype m] → Matrix m m 𝕜 → Matrix m m 𝕜) (cplx : Bool) (noise : ℝ) (mode : NoiseMode ι)
    (K : Matrix ι n 𝕜) (c : ι → ℕ) (hc : ∀ i, c i ≠ 0) (amps data : ι → 𝕜) (h0 : ∀ i, amps i ≠ 0) (alpha : n → ℝ) :
    expLogMargLik chol pinvh cplx noise mode K (some fun i => (c i : ℝ)) amps data alpha
      = expLogMargLik chol pinvh cplx noise (pull (fun p => p.1) mode) (K.submatrix (fun p : (Σ i, Fin (c i)) => p.1) id) none
          (fun p => amps p.1) (fun p => data p.1) alpha := by
  have hc' : ∀ i, (c i : ℝ) ≠ 0 := fun i => Nat.cast_ne_zero.mpr (hc i)
  unfold expLogMargLik
  simp only [expWeights, noiseWeight_pull, gram_repeat]
  congr 1
  · congr 1
    rw [multiplicator_eq _ _ _ h0, multiplicator_eq (fun p : (Σ i, Fin (c i)) => noiseWeight noise mode amps p.1) _ _ fun p => h0 p.1,
      rhs_repeat K (fun i => (noiseWeight noise mode amps i : 𝕜) * data i) c]
    congr 1
    funext i
    push_cast
    ring
  · simp only [expDataTerm, h0, exists_false, if_false]
    rw [sum_repeat c fun i => Real.log (normConst cplx / noiseWeight noise mode amps i),
      sum_repeat c fun i => RCLike.re (star (data i) * ((noiseWeight noise mode amps i : 𝕜) * data i))]
    congr 3
    · refine Finset.sum_congr rfl fun i _ => ?_
      rw [nsmul_eq_mul, mul_div_cancel_right₀ _ (hc' i)]
    · funext i
      rw [nsmul_eq_mul]
      have : star (data i) * (((noiseWeight noise mode amps i * c i : ℝ) : 𝕜) * data i)
          = ((c i : ℝ) : 𝕜) * (star (data i) * ((noiseWeight noise mode amps i : 𝕜) * data i)) := by
        push_cast
        ring
      rw [this, RCLike.re_ofReal_mul]

/-- C81, zero amplitudes: `log_marg_lik` of the learner of exponentials raises for every weighted data set with a zero amplitude
(and at least two others or none). -/
theorem C81_zero_fails (chol : {m : Type} → [Fintype m] → Matrix m m 𝕜 → Option (Matrix m m 𝕜))
    (pinvh : {m : Type} → [Fintype m] → Matrix m m 𝕜 → Matrix m m 𝕜) (cplx : Bool) (noise : ℝ) (mode : NoiseMode ι)
    (K : Matrix ι n 𝕜) (v : ι → ℝ) (amps data : ι → 𝕜) (i : ι) (h0 : amps i = 0) (alpha : n → ℝ) :
    expLogMargLik chol pinvh cplx noise mode K (some v) amps data alpha = none := by
  have : ∃ i, amps i = 0 := ⟨i, h0⟩
  simp only [expLogMargLik, expDataTerm, this, if_true, Option.map_none]

/-- C81 for the learner of log-amplitudes, the exact difference: the squares of the data enter with weight one each. -/
theorem C81_logspace_partial (chol : {m : Type} → [Fintype m] → Matrix m m 𝕜 → Option (Matrix m m 𝕜))
    (pinvh : {m : Type} → [Fintype m] → Matrix m m 𝕜 → Matrix m m 𝕜) (cplx : Bool) (noise : ℝ)
    (K : Matrix ι n 𝕜) (c : ι → ℕ) (data : ι → 𝕜) (alpha : n → ℝ) :
    logSpaceLogMargLik chol pinvh cplx noise K (some fun i => (c i : ℝ)) data alpha
      = logSpaceLogMargLik chol pinvh cplx noise (K.submatrix (fun p : (Σ i, Fin (c i)) => p.1) id) none (fun p => data p.1) alpha
          + (if cplx then 1 else 1 / 2) * ((∑ i, ((c i : ℝ) - 1) * ‖data i‖ ^ 2) / noise) := by
  unfold logSpaceLogMargLik
  simp only [logWeights]
  have e1 := gram_repeat K (fun _ => 1) c
  have e2 := rhs_repeat K data c
  simp only [one_mul] at e1
  simp only [RCLike.ofReal_one, one_mul, e1, e2]
  have e3 : logDataTerm cplx noise (some fun i => (c i : ℝ)) data
      = logDataTerm cplx noise none (fun p : (Σ i, Fin (c i)) => data p.1) + (∑ i, ((c i : ℝ) - 1) * ‖data i‖ ^ 2) / noise := by
    simp only [logDataTerm, dataCount, map_sum]
    rw [sum_repeat c fun i => RCLike.re (star (data i) * data i)]
    have hsq : ∀ i, RCLike.re (star (data i) * data i) = ‖data i‖ ^ 2 := fun i => by
      rw [RCLike.star_def, RCLike.conj_mul, ← RCLike.ofReal_pow, RCLike.ofReal_re]
    simp only [hsq, nsmul_eq_mul, sub_mul, one_mul, Finset.sum_sub_distrib, Fintype.card_sigma, Fintype.card_fin, Nat.cast_sum]
    ring
  rw [e3]
  unfold evidence
  simp only [RCLike.ofReal_natCast]
  cases cplx
  · simp only [Bool.false_eq_true, if_false]
    ring
  · simp only [if_true]
    ring

/-- C81 is false for the learner of log-amplitudes: one datum of weighting 2 against the same datum twice. -/
theorem C81_logspace_fails (chol : {m : Type} → [Fintype m] → Matrix m m ℝ → Option (Matrix m m ℝ))
    (pinvh : {m : Type} → [Fintype m] → Matrix m m ℝ → Matrix m m ℝ) :
    ∃ (K : Matrix Unit Unit ℝ) (c : Unit → ℕ) (data : Unit → ℝ), (∀ i, c i ≠ 0) ∧
    logSpaceLogMargLik chol pinvh false 1 K (some fun i => (c i : ℝ)) data (fun _ => 1)
      ≠ logSpaceLogMargLik chol pinvh false 1 (K.submatrix (fun p : (Σ i, Fin (c i)) => p.1) id) none (fun p => data p.1) (fun _ => 1) := by
  refine ⟨Matrix.of fun _ _ => 1, fun _ => 2, fun _ => 1, by simp, ?_⟩
  have := C81_logspace_partial (𝕜 := ℝ) chol pinvh false 1 (Matrix.of fun _ _ : Unit => 1) (fun _ => 2) (fun _ => 1) fun _ : Unit => 1
  intro h
  rw [h] at this
  norm_num at this

end GPSKet.MargLik
