import Verif.Props.GrowingFit

/-! # C88: complex parameters -/

namespace GPSKet.GrowingRVM

open Matrix GPSKet.SupervisedFit GPSKet.MargLik GPSKet.OptAlpha
open scoped ComplexOrder

variable {𝕜 : Type} [RCLike 𝕜] {n : Type} [Fintype n] [DecidableEq n]
variable {chol : {m : Type} → [Fintype m] → Matrix m m 𝕜 → Option (Matrix m m 𝕜)}
variable (pinvh : {m : Type} → [Fintype m] → Matrix m m 𝕜 → Matrix m m 𝕜)

open Classical in
/-- The quantities of a feature that is orthogonal to the others. -/
theorem orthogonal_quantities (hchol : CholeskySpec chol) (half : Bool) (y : n → 𝕜) (alpha : n → ℝ) (ha : ∀ f, 0 < alpha f) (f : n) :
    sparsity chol pinvh half 1 (1 : Matrix n n 𝕜) (without alpha f) f = 1 ∧
    qualityFull chol pinvh half 1 (1 : Matrix n n 𝕜) y (without alpha f) f = y f := by
  have hK : (1 : Matrix n n 𝕜).PosSemidef := Matrix.PosSemidef.one
  obtain ⟨P, hP⟩ : ∃ P, Active (1 : Matrix n n 𝕜) (without alpha f) = P := ⟨_, rfl⟩
  have hf : ¬ P f := by rw [← hP]; exact without_not_active _ alpha f
  have hpos := posDef_block half 1 zero_le_one (1 : Matrix n n 𝕜) hK _ (without_pos ha f) P
  have hz : (fun g : {g // P g} => (1 : Matrix n n 𝕜) f g) = 0 := by
    funext g
    exact Matrix.one_apply_ne fun h => hf (by rw [h]; exact g.2)
  rw [sparsity_eq pinvh hchol half 1 _ hK.1 _ P hP hpos, quality_eq pinvh hchol half 1 _ y _ P hP hpos, hz]
  simp

open Classical in
/-- An iteration removes one of at least two orthogonal features if `qi² ≤ si` for all of them. -/
theorem removes (hchol : CholeskySpec chol) (argmax : (n → WithBot ℝ) → n) (half : Bool) (y : n → 𝕜) (hy : ∀ f, (RCLike.re (y f)) ^ 2 ≤ 1)
    (hn : 2 ≤ Fintype.card n) (alpha : n → WithTop ℝ) (ha : ∀ f, 0 < finite (alpha f) ∧ finite (alpha f) < 1e10) :
    ∃ f, updatePrecisions chol pinvh argmax half 1 (1 : Matrix n n 𝕜) y alpha = Function.update alpha f ⊤ := by
  have hK : (1 : Matrix n n 𝕜).PosSemidef := Matrix.PosSemidef.one
  have hact : ∀ f, Active (1 : Matrix n n 𝕜) (fun f => finite (alpha f)) f := fun f => by
    refine ⟨(ha f).2, ?_⟩
    rw [Valid, Matrix.one_apply_eq, norm_one]
    norm_num
  refine ⟨argmax (gain chol pinvh half 1 (1 : Matrix n n 𝕜) y fun f => finite (alpha f)), ?_⟩
  unfold updatePrecisions
  simp only
  generalize argmax (gain chol pinvh half 1 (1 : Matrix n n 𝕜) y fun f => finite (alpha f)) = f
  have h1 := factors pinvh hchol half 1 one_pos (1 : Matrix n n 𝕜) hK y _ (fun f => (ha f).1) f
  have h2 := orthogonal_quantities pinvh hchol half y _ (fun f => (ha f).1) f
  have hth : ¬ 0 < theta chol pinvh half 1 (1 : Matrix n n 𝕜) y (fun f => finite (alpha f)) f := by
    rw [theta, h1.1, h1.2, quality, h2.1, h2.2, sq_abs]
    linarith [hy f]
  rw [if_neg hth, if_pos]
  refine ⟨hact f, ?_⟩
  rw [Fintype.card_of_subtype Finset.univ (fun g => by simpa using hact g)]
  simpa using hn

theorem initial_active (argmax : (n → WithBot ℝ) → n) (first : n) (half : Bool) (beta : ℝ) (y : n → 𝕜) (alpha : n → WithTop ℝ)
    (ha : ∀ f, finite (alpha f) < 1e10) : initialPrecisions argmax first half beta (1 : Matrix n n 𝕜) y alpha = alpha := by
  unfold initialPrecisions
  refine if_pos ⟨first, ha first, ?_⟩
  rw [Valid, Matrix.one_apply_eq, norm_one]
  norm_num

theorem gram_one : gram (1 : Matrix n n 𝕜) (logWeights none) = 1 := by
  rw [gram]
  have h : (Matrix.of fun i f => ((logWeights none i : ℝ) : 𝕜) * (1 : Matrix n n 𝕜) i f) = 1 := by
    ext i j
    simp [logWeights]
  rw [h, conjTranspose_one, one_mul]

theorem rhs_one (m : n → 𝕜) : rhs (1 : Matrix n n 𝕜) m = m := by
  rw [rhs, conjTranspose_one, one_mulVec]

/-- C88 is false for complex parameters: only the real part of `Q` is kept (supervised_qgps.py:915).  Two orthogonal features, and data
`10 i` that they describe: whichever feature is chosen, the iteration removes it, and the marginal likelihood decreases. -/
theorem C88_complex_fails {chol : {m : Type} → [Fintype m] → Matrix m m ℂ → Option (Matrix m m ℂ)} (hchol : CholeskySpec chol)
    (pinvh : {m : Type} → [Fintype m] → Matrix m m ℂ → Matrix m m ℂ) (argmax : (Fin 2 → WithBot ℝ) → Fin 2) (first : Fin 2) :
    logSpaceLogMargLik chol pinvh true 1 (1 : Matrix (Fin 2) (Fin 2) ℂ) none (fun _ => 10 * Complex.I)
        (fun f => finite (logSpaceGrowing chol pinvh argmax first 1 (1 : Matrix (Fin 2) (Fin 2) ℂ) none (fun _ => 10 * Complex.I) 1
          (fun _ => ((1 : ℝ) : WithTop ℝ)) f))
      < logSpaceLogMargLik chol pinvh true 1 (1 : Matrix (Fin 2) (Fin 2) ℂ) none (fun _ => 10 * Complex.I) (fun _ => 1) := by
  have hK : (1 : Matrix (Fin 2) (Fin 2) ℂ).PosSemidef := Matrix.PosSemidef.one
  have hm : (fun i : Fin 2 => ((logWeights none i : ℝ) : ℂ) * (10 * Complex.I)) = fun _ => 10 * Complex.I := by
    funext i
    simp [logWeights]
  have hfin : finite ((1 : ℝ) : WithTop ℝ) = 1 := rfl
  obtain ⟨f, hf⟩ := removes pinvh hchol argmax false (fun _ : Fin 2 => 10 * Complex.I) (fun _ => by simp) (by simp)
    (fun _ => ((1 : ℝ) : WithTop ℝ)) (fun _ => by rw [hfin]; norm_num)
  have hstep : logSpaceGrowing chol pinvh argmax first 1 (1 : Matrix (Fin 2) (Fin 2) ℂ) none (fun _ => 10 * Complex.I) 1
      (fun _ => ((1 : ℝ) : WithTop ℝ)) = Function.update (fun _ => ((1 : ℝ) : WithTop ℝ)) f ⊤ := by
    unfold logSpaceGrowing growingPrecisions
    rw [gram_one]
    simp only [RCLike.ofReal_eq_complex_ofReal]
    rw [hm, rhs_one, initial_active argmax first false _ _ _ (fun _ => by rw [hfin]; norm_num), Function.iterate_one, one_div_one, hf]
  rw [hstep]
  unfold logSpaceLogMargLik
  rw [gram_one]
  simp only [RCLike.ofReal_eq_complex_ofReal]
  rw [hm, rhs_one, one_div_one]
  have hw : (fun g => finite (Function.update (fun _ => ((1 : ℝ) : WithTop ℝ)) f ⊤ g)) = without (fun _ : Fin 2 => (1 : ℝ)) f := by
    rw [finite_update]
    rfl
  have hv : Valid (1 : Matrix (Fin 2) (Fin 2) ℂ) f := by
    rw [Valid, Matrix.one_apply_eq, norm_one]
    norm_num
  have h2 := orthogonal_quantities pinvh hchol false (fun _ : Fin 2 => 10 * Complex.I) (fun _ => 1) (fun _ => one_pos) f
  rw [hw, evidence_current pinvh hchol true 1 one_pos _ hK _ (fun _ => 1) (fun _ => one_pos) _ f hv, if_pos rfl,
    if_pos (show Active (1 : Matrix (Fin 2) (Fin 2) ℂ) (fun _ => 1) f from ⟨by norm_num, hv⟩), h2.1, h2.2, part]
  have h3 : Real.log (1 + 1) < 50 := by
    have := Real.log_le_sub_one_of_pos (show (0 : ℝ) < 1 + 1 by norm_num)
    linarith
  have h4 : ‖(10 : ℂ) * Complex.I‖ = 10 := by simp
  rw [h4, Real.log_one]
  refine lt_add_of_pos_right _ ?_
  generalize Real.log (1 + 1) = l at h3 ⊢
  norm_num
  linarith

theorem expandMat_one {m : Type} [DecidableEq m] : expandMat (1 : Matrix m m ℂ) = 1 := by
  unfold expandMat
  rw [← fromBlocks_one]
  congr 1
  · ext i j; by_cases h : i = j <;> simp [Matrix.one_apply, h]
  · ext i j; by_cases h : i = j <;> simp [Matrix.one_apply, h]
  · ext i j; by_cases h : i = j <;> simp [Matrix.one_apply, h]
  · ext i j; by_cases h : i = j <;> simp [Matrix.one_apply, h]

/-- C88 is false with `complex_expand`: the precisions are those of the halved problem, but `qi` is not rescaled.  One complex feature
and the data `1 + i`: the iteration removes its real or its imaginary part, and the marginal likelihood decreases. -/
theorem C88_expand_fails {chol : {m : Type} → [Fintype m] → Matrix m m ℝ → Option (Matrix m m ℝ)} (hchol : CholeskySpec chol)
    (pinvh : {m : Type} → [Fintype m] → Matrix m m ℝ → Matrix m m ℝ) (argmax : (Unit ⊕ Unit → WithBot ℝ) → Unit ⊕ Unit)
    (first : Unit ⊕ Unit) :
    logSpaceLogMargLikExpand chol pinvh 1 (1 : Matrix Unit Unit ℂ) none (fun _ => 1 + Complex.I)
        (fun f => finite (logSpaceGrowingExpand chol pinvh argmax first 1 (1 : Matrix Unit Unit ℂ) none (fun _ => 1 + Complex.I) 1
          (fun _ => ((2 : ℝ) : WithTop ℝ)) f))
      < logSpaceLogMargLikExpand chol pinvh 1 (1 : Matrix Unit Unit ℂ) none (fun _ => 1 + Complex.I) (fun _ => 2) := by
  have hK : (1 : Matrix (Unit ⊕ Unit) (Unit ⊕ Unit) ℝ).PosSemidef := Matrix.PosSemidef.one
  have hm : expandVec (rhs (1 : Matrix Unit Unit ℂ) fun i : Unit => ((logWeights none i : ℝ) : ℂ) * (1 + Complex.I)) = fun _ => 1 := by
    rw [rhs_one]
    funext i
    rcases i with i | i <;> simp [logWeights, expandVec]
  have hfin : finite ((2 : ℝ) : WithTop ℝ) = 2 := rfl
  obtain ⟨f, hf⟩ := removes pinvh hchol argmax true (fun _ : Unit ⊕ Unit => 1) (fun _ => by simp) (by simp)
    (fun _ => ((2 : ℝ) : WithTop ℝ)) (fun _ => by rw [hfin]; norm_num)
  have hstep : logSpaceGrowingExpand chol pinvh argmax first 1 (1 : Matrix Unit Unit ℂ) none (fun _ => 1 + Complex.I) 1
      (fun _ => ((2 : ℝ) : WithTop ℝ)) = Function.update (fun _ => ((2 : ℝ) : WithTop ℝ)) f ⊤ := by
    unfold logSpaceGrowingExpand growingPrecisions
    rw [gram_one, hm, expandMat_one, initial_active argmax first true _ _ _ (fun _ => by rw [hfin]; norm_num), Function.iterate_one,
      one_div_one, hf]
  rw [hstep]
  unfold logSpaceLogMargLikExpand
  rw [gram_one, hm, expandMat_one, one_div_one]
  have hw : (fun g => finite (Function.update (fun _ => ((2 : ℝ) : WithTop ℝ)) f ⊤ g)) = without (fun _ : Unit ⊕ Unit => (2 : ℝ)) f := by
    rw [finite_update]
    rfl
  have hv : Valid (1 : Matrix (Unit ⊕ Unit) (Unit ⊕ Unit) ℝ) f := by
    rw [Valid, Matrix.one_apply_eq, norm_one]
    norm_num
  have h2 := orthogonal_quantities pinvh hchol true (fun _ : Unit ⊕ Unit => (1 : ℝ)) (fun _ => 2) (fun _ => two_pos) f
  have hcur : ∀ d, evidence chol pinvh true true 1 (1 : Matrix (Unit ⊕ Unit) (Unit ⊕ Unit) ℝ) (fun _ => 1) (fun _ => 2) d
      = evidence chol pinvh true true 1 (1 : Matrix (Unit ⊕ Unit) (Unit ⊕ Unit) ℝ) (fun _ => 1) (without (fun _ => 2) f) d
        + 1 / 2 * part 1 (2 * ‖(1 : ℝ)‖ ^ 2) (2 / 2) := by
    intro d
    have h := evidence_add_half pinvh hchol 1 zero_le_one _ hK (fun _ => 1) (without (fun _ : Unit ⊕ Unit => (2 : ℝ)) f)
      (without_pos (fun _ => two_pos) f) d f (without_not_active _ _ f) hv 2 two_pos (by norm_num)
    rw [update_without, h2.1, h2.2] at h
    rw [← h]
    congr 1
    exact (Function.update_eq_self f (fun _ : Unit ⊕ Unit => (2 : ℝ))).symm
  rw [hw, hcur, part]
  have h3 : Real.log (1 + 1) < 1 := by
    rw [Real.log_lt_iff_lt_exp (by norm_num)]
    have := Real.add_one_lt_exp (one_ne_zero : (1 : ℝ) ≠ 0)
    linarith
  rw [norm_one, div_self two_ne_zero, Real.log_one, show (2 : ℝ) * 1 ^ 2 / (1 + 1) = 1 by norm_num]
  refine lt_add_of_pos_right _ ?_
  generalize Real.log (1 + 1) = l at h3 ⊢
  norm_num
  linarith

/-! ## The hypotheses are satisfiable -/

example : ∃ argmax : (Fin 2 → WithBot ℝ) → Fin 2, IsArgmax argmax := by
  refine ⟨fun v => if v 0 ≤ v 1 then 1 else 0, fun v f => ?_⟩
  by_cases h : v 0 ≤ v 1
  · simp only [h, if_true]
    fin_cases f
    · exact h
    · exact le_rfl
  · simp only [h, if_false]
    fin_cases f
    · exact le_rfl
    · exact le_of_lt (not_le.mp h)

section Witness

variable {chol : {m : Type} → [Fintype m] → Matrix m m ℝ → Option (Matrix m m ℝ)}

/-- The data of the witness: two orthogonal features, and the data (2, 3). -/
def witnessData : Fin 2 → ℝ := fun i => if i = 0 then 2 else 3

theorem witness_sq (f : Fin 2) : 2 ≤ witnessData f ^ 2 := by
  unfold witnessData
  split_ifs <;> norm_num

theorem witness_rhs : rhs (1 : Matrix (Fin 2) (Fin 2) ℝ) (fun i => (RCLike.ofReal (logWeights none i) : ℝ) * witnessData i) = witnessData := by
  rw [rhs_one]
  funext i
  simp [logWeights]

/-- Every iteration sets a precision to a number that is not larger than 1. -/
theorem witness_step (pinvh : {m : Type} → [Fintype m] → Matrix m m ℝ → Matrix m m ℝ) (hchol : CholeskySpec chol)
    (argmax : (Fin 2 → WithBot ℝ) → Fin 2) (alpha : Fin 2 → WithTop ℝ) (ha : ∀ f, 0 < alpha f) :
    ∃ (f : Fin 2) (t : ℝ), 0 < t ∧ t ≤ 1 ∧
      updatePrecisions chol pinvh argmax false 1 (1 : Matrix (Fin 2) (Fin 2) ℝ) witnessData alpha = Function.update alpha f (t : WithTop ℝ) := by
  have hK : (1 : Matrix (Fin 2) (Fin 2) ℝ).PosSemidef := Matrix.PosSemidef.one
  obtain ⟨f, hf⟩ : ∃ f, f = argmax (gain chol pinvh false 1 (1 : Matrix (Fin 2) (Fin 2) ℝ) witnessData fun f => finite (alpha f)) := ⟨_, rfl⟩
  have ha' : ∀ f, 0 < finite (alpha f) := fun f => finite_pos (ha f)
  have h1 := factors pinvh hchol false 1 one_pos (1 : Matrix (Fin 2) (Fin 2) ℝ) hK witnessData _ ha' f
  have h2 := orthogonal_quantities pinvh hchol false witnessData _ ha' f
  have h3 := witness_sq f
  refine ⟨f, 1 / (witnessData f ^ 2 - 1), by apply one_div_pos.mpr; linarith, ?_, ?_⟩
  · rw [div_le_one (by linarith)]
    linarith
  · have hth : theta chol pinvh false 1 (1 : Matrix (Fin 2) (Fin 2) ℝ) witnessData (fun f => finite (alpha f)) f = witnessData f ^ 2 - 1 := by
      rw [theta, h1.1, h1.2, quality, h2.1, h2.2, sq_abs]
      rfl
    unfold updatePrecisions
    simp only
    rw [← hf, hth, if_pos (by linarith), h1.1, h2.1]
    simp

theorem witness_iterations (pinvh : {m : Type} → [Fintype m] → Matrix m m ℝ → Matrix m m ℝ) (hchol : CholeskySpec chol)
    (argmax : (Fin 2 → WithBot ℝ) → Fin 2) (k : ℕ) :
    ∀ f, ∃ t : ℝ, 0 < t ∧ t ≤ 1 ∧ logSpaceGrowing chol pinvh argmax 0 1 (1 : Matrix (Fin 2) (Fin 2) ℝ) none witnessData k
      (fun _ => ((1 : ℝ) : WithTop ℝ)) f = (t : WithTop ℝ) := by
  have hfin : finite ((1 : ℝ) : WithTop ℝ) = 1 := rfl
  unfold logSpaceGrowing
  rw [gram_one, witness_rhs, one_div_one]
  induction k with
  | zero =>
    intro f
    refine ⟨1, one_pos, le_rfl, ?_⟩
    unfold growingPrecisions
    rw [initial_active argmax 0 false _ _ _ (fun _ => by rw [hfin]; norm_num)]
    rfl
  | succ k ih =>
    intro f
    have hpos : ∀ f, 0 < growingPrecisions chol pinvh argmax 0 false 1 (1 : Matrix (Fin 2) (Fin 2) ℝ) witnessData k
        (fun _ => ((1 : ℝ) : WithTop ℝ)) f := by
      intro f
      obtain ⟨t, ht, -, h⟩ := ih f
      rw [h]
      exact_mod_cast ht
    obtain ⟨g, t, ht, ht1, h⟩ := witness_step pinvh hchol argmax _ hpos
    rw [growing_succ, h]
    by_cases hfg : f = g
    · rw [hfg, Function.update_self]
      exact ⟨t, ht, ht1, rfl⟩
    · rw [Function.update_of_ne hfg]
      exact ih f

theorem witness_occurrence (f : Fin 2) :
    Spec.occurrence (1 : Matrix (Fin 2) (Fin 2) ℝ) (fun i => (none : Option (Fin 2 → ℝ)).elim 1 fun v => v i) f = 1 := by
  unfold Spec.occurrence
  rw [Fin.sum_univ_two]
  fin_cases f <;> simp [Matrix.one_apply]

theorem coe_lt_cutoff {t : ℝ} (h : t ≤ 1) : (t : WithTop ℝ) < ((1e10 : ℝ) : WithTop ℝ) :=
  WithTop.coe_lt_coe.mpr (lt_of_le_of_lt h (by norm_num))

/-- `C88_logspace_partial` and `C88_logspace_best_partial`: the hypotheses hold for every number of iterations from precisions 1. -/
example (pinvh : {m : Type} → [Fintype m] → Matrix m m ℝ → Matrix m m ℝ) (hchol : CholeskySpec chol)
    (argmax : (Fin 2 → WithBot ℝ) → Fin 2) (k : ℕ) :
    (∀ f, 1e-10 < Spec.occurrence (1 : Matrix (Fin 2) (Fin 2) ℝ) (fun i => (none : Option (Fin 2 → ℝ)).elim 1 fun v => v i) f ∨
      ∀ i, (1 : Matrix (Fin 2) (Fin 2) ℝ) i f = 0) ∧
    (∀ f, logSpaceGrowing chol pinvh argmax 0 1 (1 : Matrix (Fin 2) (Fin 2) ℝ) none witnessData (k + 1)
      (fun _ => ((1 : ℝ) : WithTop ℝ)) f = ⊤ ∨ logSpaceGrowing chol pinvh argmax 0 1 (1 : Matrix (Fin 2) (Fin 2) ℝ) none witnessData (k + 1)
      (fun _ => ((1 : ℝ) : WithTop ℝ)) f < ((1e10 : ℝ) : WithTop ℝ)) ∧
    (∃ f1 f2 : Fin 2, f1 ≠ f2 ∧ ∀ f, f = f1 ∨ f = f2 →
      logSpaceGrowing chol pinvh argmax 0 1 (1 : Matrix (Fin 2) (Fin 2) ℝ) none witnessData k (fun _ => ((1 : ℝ) : WithTop ℝ)) f
        < ((1e10 : ℝ) : WithTop ℝ) ∧
      1e-10 < Spec.occurrence (1 : Matrix (Fin 2) (Fin 2) ℝ) (fun i => (none : Option (Fin 2 → ℝ)).elim 1 fun v => v i) f) := by
  have hocc : ∀ f, 1e-10 < Spec.occurrence (1 : Matrix (Fin 2) (Fin 2) ℝ) (fun i => (none : Option (Fin 2 → ℝ)).elim 1 fun v => v i) f :=
    fun f => by rw [witness_occurrence]; norm_num
  refine ⟨fun f => Or.inl (hocc f), fun f => Or.inr ?_, 0, 1, by decide, fun f _ => ⟨?_, hocc f⟩⟩
  · obtain ⟨t, -, h, e⟩ := witness_iterations pinvh hchol argmax (k + 1) f
    rw [e]
    exact coe_lt_cutoff h
  · obtain ⟨t, -, h, e⟩ := witness_iterations pinvh hchol argmax k f
    rw [e]
    exact coe_lt_cutoff h

/-- `C89_partial`: no feature is part of the model, and the first one improves the marginal likelihood. -/
example (pinvh : {m : Type} → [Fintype m] → Matrix m m ℝ → Matrix m m ℝ) (hchol : CholeskySpec chol)
    (argmax : (Fin 2 → WithBot ℝ) → Fin 2) :
    (∀ f, 2 ^ (-23 : ℤ) ≤ Spec.occurrence (1 : Matrix (Fin 2) (Fin 2) ℝ) (fun i => (none : Option (Fin 2 → ℝ)).elim 1 fun v => v i) f) ∧
    (∀ f, logSpaceGrowing chol pinvh argmax 0 1 (1 : Matrix (Fin 2) (Fin 2) ℝ) none witnessData 0 (fun _ => ⊤) f = ⊤ ∨
      logSpaceGrowing chol pinvh argmax 0 1 (1 : Matrix (Fin 2) (Fin 2) ℝ) none witnessData 0 (fun _ => ⊤) f < ((1e10 : ℝ) : WithTop ℝ)) ∧
    ∃ (g : Fin 2) (t : WithTop ℝ), 0 < t ∧ logSpaceLogMargLik chol pinvh false 1 (1 : Matrix (Fin 2) (Fin 2) ℝ) none witnessData
        (fun _ => finite ⊤)
      < logSpaceLogMargLik chol pinvh false 1 (1 : Matrix (Fin 2) (Fin 2) ℝ) none witnessData
        (fun f => finite (Function.update (fun _ => (⊤ : WithTop ℝ)) g t f)) := by
  have hK : (1 : Matrix (Fin 2) (Fin 2) ℝ).PosSemidef := Matrix.PosSemidef.one
  have htop : finite ⊤ = 1e10 := rfl
  have hno : ∀ f, ¬ Active (1 : Matrix (Fin 2) (Fin 2) ℝ) (fun _ => finite ⊤) f := fun f h => lt_irrefl _ h.1
  refine ⟨fun f => ?_, fun f => ?_, 1, ((1 / 8 : ℝ) : WithTop ℝ), ?_, ?_⟩
  · rw [witness_occurrence]
    norm_num
  · unfold logSpaceGrowing growingPrecisions
    rw [gram_one, witness_rhs, one_div_one, Function.iterate_zero, id]
    unfold initialPrecisions
    rw [if_neg (not_exists.mpr hno), if_neg]
    swap
    · rintro ⟨f, h⟩
      rw [Matrix.one_apply_eq, norm_one] at h
      norm_num at h
    simp only
    generalize (argmax _) = g
    have hsq := witness_sq g
    have e : ‖witnessData g‖ ^ 2 / RCLike.re ((1 : Matrix (Fin 2) (Fin 2) ℝ) g g) = witnessData g ^ 2 := by
      rw [Real.norm_eq_abs, sq_abs, Matrix.one_apply_eq]
      simp
    have e1 : RCLike.re ((1 : Matrix (Fin 2) (Fin 2) ℝ) g g) = 1 := by rw [Matrix.one_apply_eq]; rfl
    rw [e, e1, if_neg (by linarith), if_pos (by apply one_div_pos.mpr; linarith)]
    by_cases h : f = g
    · right
      rw [h, Function.update_self]
      refine coe_lt_cutoff ?_
      simp only [Bool.false_eq_true, if_false]
      rw [div_le_one (by linarith)]
      linarith
    · left
      rw [Function.update_of_ne h]
  · have : (0 : ℝ) < 1 / 8 := by norm_num
    exact_mod_cast this
  · unfold logSpaceLogMargLik
    rw [gram_one, witness_rhs, one_div_one, finite_update]
    have hv : Valid (1 : Matrix (Fin 2) (Fin 2) ℝ) 1 := by
      rw [Valid, Matrix.one_apply_eq, norm_one]
      norm_num
    have hp : ∀ _ : Fin 2, (0 : ℝ) < finite ⊤ := fun _ => by rw [htop]; norm_num
    obtain ⟨h1, h2⟩ := empty_quantities pinvh hchol 1 zero_le_one _ hK witnessData _ hp hno 1
    rw [evidence_feature pinvh hchol false 1 one_pos _ hK _ (fun _ => finite ⊤) hp _ 1 hv _ (finite_pos (by
        have : (0 : ℝ) < 1 / 8 := by norm_num
        exact_mod_cast this)),
      evidence_current pinvh hchol false 1 one_pos _ hK _ (fun _ => finite ⊤) hp _ 1 hv, if_neg (hno 1), h1, h2]
    have h8 : finite ((1 / 8 : ℝ) : WithTop ℝ) = 1 / 8 := rfl
    rw [h8, if_pos (show (1 / 8 : ℝ) < 1e10 by norm_num)]
    have hb := part_best 1 9 one_pos (by norm_num)
    have hbest : 0 < best 1 9 := by
      rw [best, if_pos (by norm_num)]
      have : Real.log (1 / 9) = -Real.log 9 := by rw [one_div, Real.log_inv]
      rw [this]
      have := Real.log_lt_sub_one_of_pos (show (0 : ℝ) < 9 by norm_num) (by norm_num)
      linarith
    rw [show (1 : ℝ) ^ 2 / (9 - 1) = 1 / 8 by norm_num] at hb
    have e : part (1 * RCLike.re ((1 : Matrix (Fin 2) (Fin 2) ℝ) 1 1)) (‖(RCLike.ofReal (1 : ℝ) : ℝ) * witnessData 1‖ ^ 2) (1 / 8) = best 1 9 := by
      rw [← hb, Matrix.one_apply_eq, one_mul, RCLike.ofReal_one, one_mul]
      congr 1
      unfold witnessData
      norm_num
    rw [e]
    simp
    exact hbest

end Witness

end GPSKet.GrowingRVM
