import Verif.Props.OptNoise
import Verif.Props.SupervisedFit

/-!
# C86, continued, and C87: failures of the optimisation, and to which precisions the parameters belong
-/

namespace GPSKet.OptAlpha

open Matrix GPSKet.SupervisedFit GPSKet.MargLik
open scoped ComplexOrder

variable {𝕜 : Type} [RCLike 𝕜] {ι n : Type} [Fintype ι] [Fintype n] [DecidableEq n]

/-! ## One feature -/

section OneFeature

variable {chol : {m : Type} → [Fintype m] → Matrix m m ℝ → Option (Matrix m m ℝ)}
variable (pinvh : {m : Type} → [Fintype m] → Matrix m m ℝ → Matrix m m ℝ)

theorem gram_unit (v : ℝ) : gram (1 : Matrix Unit Unit ℝ) (fun _ => v) = diagonal fun _ => v := by
  ext
  simp [gram, Matrix.mul_apply]

theorem rhs_unit (y : Unit → ℝ) : rhs (1 : Matrix Unit Unit ℝ) y = y := by
  simp [rhs]

theorem active_unit (v a : ℝ) (hv : 1e-10 < v) (ha : a < 1e10) : Active (diagonal fun _ : Unit => v) (fun _ => a) () := by
  refine ⟨ha, ?_⟩
  unfold Valid
  rw [diagonal_apply_eq, Real.norm_eq_abs]
  exact lt_of_lt_of_le hv (le_abs_self v)

open Classical in
theorem inv_unit (v a beta : ℝ) (hv : 1e-10 < v) (ha : a < 1e10) (f : {f // Active (diagonal fun _ : Unit => v) (fun _ => a) f}) :
    (block (regularised false beta (diagonal fun _ : Unit => v) fun _ => a) (Active (diagonal fun _ : Unit => v) fun _ => a))⁻¹ f f
      = 1 / (beta * v + a) := by
  rw [inv_subsingleton, diagonal_apply_eq, Ring.inverse_eq_inv', one_div]
  simp [block, regularised]

open Classical in
theorem weights_unit (v a beta y : ℝ) (hv : 1e-10 < v) (ha0 : 0 < a) (ha : a < 1e10) (hb : 0 < beta) :
    weights pinvh false beta (diagonal fun _ : Unit => v) (fun _ => y) (fun _ => a) () = beta * y / (beta * v + a) := by
  have hv0 : 0 < v := lt_trans (by norm_num) hv
  have hK : (diagonal fun _ : Unit => v).PosSemidef := PosSemidef.diagonal fun _ => hv0.le
  have hpos := posDef_block false beta hb.le _ hK (fun _ => a) (fun _ => ha0) (Active (diagonal fun _ : Unit => v) fun _ => a)
  have h := congrFun (weights_active pinvh false beta _ (fun _ => y) (fun _ => a) hpos) ⟨(), active_unit v a hv ha⟩
  refine h.trans ?_
  have huniq : ∀ g : {f // Active (diagonal fun _ : Unit => v) (fun _ => a) f}, g = ⟨(), active_unit v a hv ha⟩ := fun g => Subtype.ext rfl
  rw [Pi.smul_apply, smul_eq_mul, mulVec, dotProduct, Fintype.sum_eq_single ⟨(), active_unit v a hv ha⟩ fun g hg => absurd (huniq g) hg,
    inv_unit v a beta hv ha]
  simp only [RCLike.ofReal_real_eq_id, id]
  field_simp

open Classical in
theorem gamma_unit (hchol : CholeskySpec chol) (v a beta : ℝ) (hv : 1e-10 < v) (ha0 : 0 < a) (ha : a < 1e10) (hb : 0 < beta)
    (f : {f // Active (diagonal fun _ : Unit => v) (fun _ => a) f}) :
    gamma chol pinvh false beta (diagonal fun _ : Unit => v) (fun _ => a) f = beta * v / (beta * v + a) := by
  have hv0 : 0 < v := lt_trans (by norm_num) hv
  have hK : (diagonal fun _ : Unit => v).PosSemidef := PosSemidef.diagonal fun _ => hv0.le
  have hpos := posDef_block false beta hb.le _ hK (fun _ => a) (fun _ => ha0) (Active (diagonal fun _ : Unit => v) fun _ => a)
  unfold gamma
  simp only [Bool.false_eq_true, if_false]
  rw [diagSinv_eq hpos (hchol _) f, inv_unit v a beta hv ha]
  simp only [RCLike.re_to_real]
  have : 0 < beta * v + a := by positivity
  field_simp
  ring

open Classical in
theorem gamma_sum_unit (hchol : CholeskySpec chol) (v a beta : ℝ) (hv : 1e-10 < v) (ha0 : 0 < a) (ha : a < 1e10) (hb : 0 < beta) :
    ∑ f, gamma chol pinvh false beta (diagonal fun _ : Unit => v) (fun _ => a) f = beta * v / (beta * v + a) := by
  have huniq : ∀ g : {f // Active (diagonal fun _ : Unit => v) (fun _ => a) f}, g = ⟨(), active_unit v a hv ha⟩ := fun g => Subtype.ext rfl
  rw [Fintype.sum_eq_single ⟨(), active_unit v a hv ha⟩ fun g hg => absurd (huniq g) hg, gamma_unit pinvh hchol v a beta hv ha0 ha hb]

/-- C86 is false with weightings: one datum with weighting 1/2, feature and log-amplitude 1, and the default values of precision (1) and noise
(1/10).  After one iteration the noise is -1/24. -/
theorem C86_weightings_fails (hchol : CholeskySpec chol) :
    ∃ st b, logSpaceOpt chol pinvh false false true (1 : Matrix Unit Unit ℝ) (some fun _ => 1 / 2) (fun _ => 1) 1 (fun _ => 1) (1 / 10)
      = some (st, b) ∧ 1 / st.beta = -1 / 24 := by
  have hact : ∃ f, Active (diagonal fun _ : Unit => (1 / 2 : ℝ)) (fun _ => 1) f :=
    ⟨(), active_unit (1 / 2) 1 (by norm_num) (by norm_num)⟩
  have hg := gamma_sum_unit pinvh hchol (1 / 2) 1 10 (by norm_num) one_pos (by norm_num) (by norm_num)
  have hw := weights_unit pinvh (1 / 2) 1 10 (1 / 2) (by norm_num) one_pos (by norm_num) (by norm_num)
  have hK : (diagonal fun _ : Unit => (1 / 2 : ℝ)).PosSemidef := PosSemidef.diagonal fun _ => by norm_num
  have hbeta : newBeta chol pinvh false (dataCount (some fun _ : Unit => (1 / 2 : ℝ)))
      (squaredError (1 : Matrix Unit Unit ℝ) (some fun _ => 1 / 2) fun _ => 1) 10 (diagonal fun _ : Unit => (1 / 2 : ℝ)) (fun _ => 1 / 2)
      (fun _ => 1) = some (-24) := by
    classical
    have hpos := posDef_block false 10 (by norm_num) _ hK (fun _ => 1) (fun _ => one_pos)
      (Active (diagonal fun _ : Unit => (1 / 2 : ℝ)) fun _ => 1)
    obtain ⟨L, hL, -⟩ := exists_chol hpos (hchol _)
    unfold newBeta
    simp only [hL, squaredError, Option.map_some, Bool.false_eq_true, if_false, hg, dataCount, logWeights, one_mulVec,
      Finset.univ_unique, Finset.sum_singleton]
    have : weights pinvh false 10 (diagonal fun _ : Unit => (1 / 2 : ℝ)) (fun _ => 1 / 2) (fun _ => 1) default = 10 * (1 / 2) / (10 * (1 / 2) + 1) :=
      hw
    rw [this]
    norm_num
  unfold logSpaceOpt
  simp only [logWeights]
  rw [gram_unit, rhs_unit]
  have e10 : (1 : ℝ) / (1 / 10) = 10 := by norm_num
  have e12 : (fun _ : Unit => (((1 / 2 : ℝ) : ℝ) : ℝ) * 1) = fun _ => 1 / 2 := by funext; norm_num
  simp only [e10, RCLike.ofReal_real_eq_id, id, e12]
  unfold optAlphaBeta
  rw [if_pos hact]
  simp only [if_true, hbeta, Option.bind_some, Bool.false_eq_true, if_false]
  by_cases h : Converged false true (fun _ : Unit => (1 : ℝ)) (fun _ => 1) 10 (-24)
  · exact ⟨_, true, if_pos h, by norm_num⟩
  · exact ⟨_, false, if_neg h, by norm_num⟩

end OneFeature

/-- C86 is false with `complex_expand`: to optimise the noise raises whenever a feature takes part. -/
theorem C86_expand_fails {chol : {m : Type} → [Fintype m] → Matrix m m ℝ → Option (Matrix m m ℝ)}
    (pinvh : {m : Type} → [Fintype m] → Matrix m m ℝ → Matrix m m ℝ) (hchol : CholeskySpec chol) (rvm optAlpha : Bool) (noise : ℝ)
    (hn : 0 < noise) (K : Matrix ι n ℂ) (data : ι → ℂ) (alpha : n ⊕ n → ℝ) (ha : ∀ f, 0 < alpha f) (k : ℕ)
    (f : n ⊕ n) (h1 : alpha f < 1e10) (h2 : 1e-10 < Spec.occurrence K (fun _ => 1) (Sum.elim id id f)) :
    logSpaceOptExpand chol pinvh rvm optAlpha true K none data (k + 1) alpha noise = none := by
  classical
  have hS : ∀ i : ι, (0 : ℝ) ≤ (fun _ => 1) i := fun _ => zero_le_one
  have hact : Active (expandMat (gram K fun _ => 1)) alpha f := by
    rw [active_expand K _ hS]
    exact ⟨h1, h2⟩
  have hpos := posDef_block true (1 / noise) (one_div_pos.mpr hn).le _ (posSemidef_expand K _ hS) alpha ha
    (Active (expandMat (gram K fun _ => 1)) alpha)
  obtain ⟨L, hL, -⟩ := exists_chol hpos (hchol _)
  have hn' : Nonempty n := ⟨Sum.elim id id f⟩
  have hcard : Fintype.card n ≠ Fintype.card (n ⊕ n) := by
    rw [Fintype.card_sum]
    have := Fintype.card_pos (α := n)
    omega
  have hnone : ∀ y, newBeta chol pinvh true (dataCount (none : Option (ι → ℝ))) (squaredErrorExpand K none data) (1 / noise)
      (expandMat (gram K fun _ => 1)) y alpha = none := by
    intro y
    unfold newBeta
    simp only [hL, squaredErrorExpand, dotShapes, if_neg hcard, Option.map_none]
  unfold logSpaceOptExpand
  have hl : logWeights (none : Option (ι → ℝ)) = fun _ => 1 := rfl
  rw [hl]
  unfold optAlphaBeta
  rw [if_pos ⟨f, hact⟩]
  simp only [if_true, hnone, Option.bind_none]

/-! ## C87 -/

section Consistent

variable {chol : {m : Type} → [Fintype m] → Matrix m m 𝕜 → Option (Matrix m m 𝕜)}
variable (pinvh : {m : Type} → [Fintype m] → Matrix m m 𝕜 → Matrix m m 𝕜)

/-- What the state of the loop says about the last two values. -/
theorem opt_setup (half rvm optAlpha optBeta : Bool) (N : ℝ) (e : (n → 𝕜) → Option ℝ) (KtK : Matrix n n 𝕜) (y : n → 𝕜) (k : ℕ) :
    ∀ alpha beta st, optAlphaBeta chol pinvh half rvm optAlpha optBeta N e KtK y k alpha beta = some (st, true) →
      (st.alpha = st.setupAlpha ∧ st.beta = st.setupBeta) ∨
        ((optAlpha = false → st.alpha = st.setupAlpha) ∧ (optBeta = false → st.beta = st.setupBeta) ∧
          Converged optAlpha optBeta st.setupAlpha st.alpha st.setupBeta st.beta) := by
  induction k with
  | zero => intro alpha beta st h; simp [optAlphaBeta] at h
  | succ k ih =>
    intro alpha beta st h
    unfold optAlphaBeta at h
    by_cases hex : ∃ f, Active KtK alpha f
    · rw [if_pos hex] at h
      dsimp only at h
      rw [Option.bind_eq_some_iff] at h
      obtain ⟨beta', hb, h⟩ := h
      by_cases h1 : Converged optAlpha optBeta alpha (if optAlpha then newAlpha chol pinvh half rvm beta KtK y alpha else alpha) beta beta'
      · rw [if_pos h1, Option.some.injEq, Prod.mk.injEq] at h
        obtain ⟨rfl, -⟩ := h
        refine Or.inr ⟨fun h => by simp [h], fun h => ?_, h1⟩
        rw [h] at hb
        simpa using hb.symm
      · rw [if_neg h1] at h
        by_cases h2 : k = 0
        · rw [if_pos h2] at h
          simp at h
        · rw [if_neg h2] at h
          exact ih _ _ _ h
    · rw [if_neg hex, Option.some.injEq, Prod.mk.injEq] at h
      obtain ⟨rfl, -⟩ := h
      exact Or.inl ⟨rfl, rfl⟩

theorem close_of_sq (a b : ℝ) (ha : 0 < a) (h : |b - a| ^ 2 / |a| ^ 2 < 1e-15) : |b - a| ≤ 1e-7 * a := by
  rw [abs_of_pos ha, ← div_pow] at h
  have h1 : |b - a| / a < 1e-7 := by
    have : (|b - a| / a) ^ 2 < (1e-7 : ℝ) ^ 2 := lt_trans h (by norm_num)
    exact lt_of_pow_lt_pow_left₀ 2 (by norm_num) this
  rw [div_lt_iff₀ ha] at h1
  exact h1.le

/-- C87, the part that holds: if the optimisation ended by itself, the parameters are those that belong (C56) to precisions and a noise
whose relative difference to the values that the learner holds is at most 1e-7.  Without weightings. -/
theorem C87_partial (hchol : CholeskySpec chol) (rvm optAlpha optNoise : Bool) (K : Matrix ι n 𝕜) (logAmps : ι → 𝕜) (k : ℕ)
    (alpha : n → ℝ) (ha : ∀ f, 0 < alpha f ∧ alpha f ≤ 1e10) (noise : ℝ) (hn : 0 < noise) (prior old : n → 𝕜)
    (hdata : fitData K logAmps prior ≠ 0) (new : n → 𝕜) (alpha' : n → ℝ) (noise' : ℝ)
    (h : logSpaceFitStep chol pinvh rvm optAlpha optNoise K none logAmps k alpha noise prior old = some (new, alpha', noise', true)) :
    ∃ (alpha0 : n → ℝ) (noise0 : ℝ), new = logSpaceStep pinvh (1 / noise0) K (fun _ => 1) logAmps alpha0 prior old ∧
      (∀ f, 0 < alpha0 f ∧ |alpha' f - alpha0 f| ≤ 1e-7 * alpha0 f) ∧ 0 < noise0 ∧ |1 / noise' - 1 / noise0| ≤ 1e-7 * (1 / noise0) := by
  have hK := gram_posSemidef K (fun _ => 1) fun _ => zero_le_one
  unfold logSpaceFitStep at h
  simp only at h
  rw [Option.map_eq_some_iff] at h
  obtain ⟨⟨st, b⟩, hopt, h⟩ := h
  simp only [Prod.mk.injEq] at h
  obtain ⟨hnew, rfl, rfl, rfl⟩ := h
  have key := opt_induction (chol := chol) pinvh false rvm optAlpha optNoise (dataCount (none : Option (ι → ℝ)))
    (squaredError K none (fitData K logAmps prior))
    (gram K fun _ => 1) (rhs K (fitData K logAmps prior)) (fun alpha beta => (∀ f, 0 < alpha f ∧ alpha f ≤ 1e10) ∧ 0 < beta) (by
      rintro alpha beta ⟨ha, hb⟩ hex
      obtain ⟨beta', h1, h2⟩ := newBeta_pos pinvh hchol beta hb K _ hdata alpha fun f => (ha f).1
      refine ⟨if optNoise then beta' else beta, ?_, ?_, ?_⟩
      · split_ifs
        · exact h1
        · rfl
      · intro f
        split_ifs
        · exact newAlpha_bounds pinvh hchol false rvm beta hb _ hK _ alpha (fun f => (ha f).1) hex f
        · exact ha f
      · split_ifs
        · exact h2
        · exact hb) k alpha (1 / noise) ⟨ha, one_div_pos.mpr hn⟩
  unfold logSpaceOpt at hopt
  rw [rhs_one] at hopt hnew
  obtain ⟨st', b', e, -, hI⟩ := key
  have e' : some (st', b') = some (st, true) := e.symm.trans hopt
  rw [Option.some.injEq, Prod.mk.injEq] at e'
  obtain ⟨rfl, rfl⟩ := e'
  have hset := opt_setup pinvh _ _ _ _ _ _ _ _ _ _ _ _ hopt
  refine ⟨st'.setupAlpha, 1 / st'.setupBeta, ?_, ?_, one_div_pos.mpr hI.2, ?_⟩
  · rw [one_div_one_div, ← hnew]
    unfold logSpaceStep
    simp only [RCLike.ofReal_one, one_mul]
    rfl
  · intro f
    refine ⟨(hI.1 f).1, ?_⟩
    rcases hset with ⟨h1, -⟩ | ⟨h1, -, h3⟩
    · rw [h1, sub_self, abs_zero]
      have := (hI.1 f).1
      positivity
    · cases optAlpha
      · rw [h1 rfl, sub_self, abs_zero]
        have := (hI.1 f).1
        positivity
      · refine close_of_sq _ _ (hI.1 f).1 (lt_of_le_of_lt ?_ h3)
        unfold Converged at h3
        simp only [if_true]
        refine le_trans (Finset.single_le_sum (f := fun f => |st'.alpha f - st'.setupAlpha f| ^ 2 / |st'.setupAlpha f| ^ 2)
          (fun f _ => by positivity) (Finset.mem_univ f)) ?_
        refine le_add_of_nonneg_right ?_
        split_ifs
        · positivity
        · exact le_refl _
  · rw [one_div_one_div, one_div_one_div]
    rcases hset with ⟨-, h1⟩ | ⟨-, h1, h3⟩
    · rw [h1, sub_self, abs_zero]
      have := hI.2
      positivity
    · cases optNoise
      · rw [h1 rfl, sub_self, abs_zero]
        have := hI.2
        positivity
      · refine close_of_sq _ _ hI.2 (lt_of_le_of_lt ?_ h3)
        simp only [if_true]
        refine le_add_of_nonneg_left ?_
        split_ifs
        · exact Finset.sum_nonneg fun f _ => by positivity
        · exact le_refl _

end Consistent

/-- C87 is false if the number of iterations is limited: one datum, feature and log-amplitude 1, precision 1, noise 1/10 and one
iteration.  The new parameter is 10/11, which belongs to the old precision 1; the learner holds the precision 11/10 afterwards, to which the
parameter 100/111 belongs. -/
theorem C87_fails {chol : {m : Type} → [Fintype m] → Matrix m m ℝ → Option (Matrix m m ℝ)} (hchol : CholeskySpec chol)
    (pinvh : {m : Type} → [Fintype m] → Matrix m m ℝ → Matrix m m ℝ) (rvm : Bool) :
    ∃ (new : Unit → ℝ) (alpha' : Unit → ℝ) (noise' : ℝ) (b : Bool),
      logSpaceFitStep chol pinvh rvm true false (1 : Matrix Unit Unit ℝ) none (fun _ => 1) 1 (fun _ => 1) (1 / 10) 0 0
        = some (new, alpha', noise', b) ∧
      new () = 10 / 11 ∧ alpha' () = 11 / 10 ∧ noise' = 1 / 10 ∧
      logSpaceStep pinvh (1 / noise') (1 : Matrix Unit Unit ℝ) (fun _ => 1) (fun _ => 1) alpha' 0 0 () = 100 / 111 := by
  have hdata : fitData (1 : Matrix Unit Unit ℝ) (fun _ => 1) 0 = fun _ => 1 := by
    funext i
    simp [fitData]
  have hact : ∃ f, Active (diagonal fun _ : Unit => (1 : ℝ)) (fun _ => 1) f := ⟨(), active_unit 1 1 (by norm_num) (by norm_num)⟩
  have hvalid : Valid (diagonal fun _ : Unit => (1 : ℝ)) () := (active_unit 1 1 (by norm_num) (by norm_num)).2
  have hK : (diagonal fun _ : Unit => (1 : ℝ)).PosSemidef := PosSemidef.diagonal fun _ => zero_le_one
  have hw := weights_unit pinvh 1 1 10 1 (by norm_num) one_pos (by norm_num) (by norm_num)
  have hw' := weights_unit pinvh 1 (11 / 10) 10 1 (by norm_num) (by norm_num) (by norm_num) (by norm_num)
  have hq : clipQuot (10 * 1 / (10 * 1 + 1)) (‖(10 * 1 / (10 * 1 + 1) : ℝ)‖ ^ 2) = 11 / 10 := by
    unfold clipQuot clip
    norm_num
  have halpha : newAlpha chol pinvh false rvm 10 (diagonal fun _ : Unit => (1 : ℝ)) (fun _ => 1) (fun _ => 1) = fun _ => 11 / 10 := by
    classical
    funext f
    cases rvm
    · rw [newAlpha_shared pinvh hchol false 10 (by norm_num) _ hK _ _ (fun _ => one_pos),
        gamma_sum_unit pinvh hchol 1 1 10 (by norm_num) one_pos (by norm_num) (by norm_num), Fintype.sum_unique]
      have : weights pinvh false 10 (diagonal fun _ : Unit => (1 : ℝ)) (fun _ => 1) (fun _ => 1) default = 10 * 1 / (10 * 1 + 1) := hw
      rw [this, hq]
    · rw [newAlpha_rvm pinvh hchol false 10 (by norm_num) _ hK _ _ (fun _ => one_pos), dif_pos (active_unit 1 1 (by norm_num) (by norm_num)),
        gamma_unit pinvh hchol 1 1 10 (by norm_num) one_pos (by norm_num) (by norm_num), hw, hq]
  have e10 : (1 : ℝ) / (1 / 10) = 10 := by norm_num
  have e1 : (fun i : Unit => ((logWeights (none : Option (Unit → ℝ)) i : ℝ) : ℝ) * 1) = fun _ => 1 := by funext; simp [logWeights]
  have hl : logWeights (none : Option (Unit → ℝ)) = fun _ => 1 := rfl
  have hopt : ∃ b, logSpaceOpt chol pinvh rvm true false (1 : Matrix Unit Unit ℝ) none (fun _ => 1) 1 (fun _ => 1) (1 / 10)
      = some (⟨fun _ => 11 / 10, 10, fun _ => 1, 10⟩, b) := by
    unfold logSpaceOpt
    rw [rhs_one, rhs_unit, hl, gram_unit, e10]
    have := opt_one (chol := chol) pinvh false rvm (dataCount (none : Option (Unit → ℝ))) (squaredError (1 : Matrix Unit Unit ℝ) none fun _ => 1)
      (diagonal fun _ : Unit => (1 : ℝ)) (fun _ => 1) (fun _ => 1) 10 hact
    rw [halpha] at this
    exact this
  obtain ⟨b, hopt⟩ := hopt
  have hstep : ∀ (beta a : ℝ), 0 < beta → 0 < a → a < 1e10 →
      updated (diagonal fun _ : Unit => (1 : ℝ)) (weights pinvh false beta (diagonal fun _ : Unit => (1 : ℝ)) (fun _ => 1) fun _ => a) 0 0 ()
        = beta * 1 / (beta * 1 + a) := by
    intro beta a hb h0 h1
    unfold updated
    rw [if_pos hvalid, weights_unit pinvh 1 a beta 1 (by norm_num) h0 h1 hb, Pi.zero_apply, add_zero]
  unfold logSpaceFitStep
  simp only [hdata, hopt, Option.map_some]
  refine ⟨_, _, _, _, rfl, ?_, rfl, by norm_num, ?_⟩
  · rw [rhs_one, rhs_unit, hl, gram_unit]
    refine (hstep 10 1 (by norm_num) one_pos (by norm_num)).trans ?_
    norm_num
  · unfold logSpaceStep
    simp only [hdata]
    rw [gram_unit]
    have e2 : (fun i : Unit => ((1 : ℝ) : ℝ) * (1 : ℝ)) = fun _ => 1 := by funext; norm_num
    simp only [RCLike.ofReal_real_eq_id, id, e2]
    rw [rhs_unit]
    refine (hstep _ (11 / 10) (by norm_num) (by norm_num) (by norm_num)).trans ?_
    norm_num

/-- The hypotheses of `C86_partial` hold for one datum and one feature. -/
example (k : ℕ) : ∃ chol : {m : Type} → [Fintype m] → Matrix m m ℝ → Option (Matrix m m ℝ), CholeskySpec chol ∧
    ∃ st b, logSpaceOpt (fun {_} => chol) (fun A => A) true true true (1 : Matrix Unit Unit ℝ) none (fun _ => 3) k (fun _ => 2) (1 / 10) = some (st, b) ∧
      (∀ f, 0 < st.alpha f ∧ st.alpha f ≤ 1e10) ∧ 0 < 1 / st.beta := by
  obtain ⟨chol, hchol⟩ := exists_choleskySpec (𝕜 := ℝ)
  exact ⟨chol, hchol, C86_partial (fun A => A) hchol true true true (1 / 10) (by norm_num) 1 (fun _ => 3)
    (fun h => by simpa using congrFun h ()) (fun _ => 2) (by norm_num) k⟩

/-- The hypothesis of `C87_partial` that the optimisation ends by itself holds for one datum with log-amplitude 2, feature 1, noise 1
and precision 1/3, which is the stationary point. -/
example : ∃ chol : {m : Type} → [Fintype m] → Matrix m m ℝ → Option (Matrix m m ℝ), CholeskySpec chol ∧
    ∃ new, logSpaceFitStep (fun {_} => chol) (fun A => A) true true false (1 : Matrix Unit Unit ℝ) none (fun _ => 2) 5 (fun _ => 1 / 3) 1 0 0
      = some (new, fun _ => 1 / 3, 1, true) ∧ fitData (1 : Matrix Unit Unit ℝ) (fun _ => 2) 0 ≠ 0 := by
  obtain ⟨chol, hchol⟩ := exists_choleskySpec (𝕜 := ℝ)
  have hdata : fitData (1 : Matrix Unit Unit ℝ) (fun _ => 2) 0 = fun _ => 2 := by
    funext i
    simp [fitData]
  have hact : ∃ f, Active (diagonal fun _ : Unit => (1 : ℝ)) (fun _ => 1 / 3) f := ⟨(), active_unit 1 (1 / 3) (by norm_num) (by norm_num)⟩
  have hK : (diagonal fun _ : Unit => (1 : ℝ)).PosSemidef := PosSemidef.diagonal fun _ => zero_le_one
  have halpha : newAlpha chol (fun A => A) false true 1 (diagonal fun _ : Unit => (1 : ℝ)) (fun _ => 2) (fun _ => 1 / 3) = fun _ => 1 / 3 := by
    funext f
    rw [newAlpha_rvm (fun A => A) hchol false 1 one_pos _ hK _ _ (by norm_num), dif_pos (active_unit 1 (1 / 3) (by norm_num) (by norm_num)),
      gamma_unit (fun A => A) hchol 1 (1 / 3) 1 (by norm_num) (by norm_num) (by norm_num) one_pos,
      weights_unit (fun A => A) 1 (1 / 3) 1 2 (by norm_num) (by norm_num) (by norm_num) one_pos]
    unfold clipQuot clip
    norm_num
  have hl : logWeights (none : Option (Unit → ℝ)) = fun _ => 1 := rfl
  have hopt : logSpaceOpt chol (fun A => A) true true false (1 : Matrix Unit Unit ℝ) none (fun _ => 2) 5 (fun _ => 1 / 3) 1
      = some (⟨fun _ => 1 / 3, 1, fun _ => 1 / 3, 1⟩, true) := by
    unfold logSpaceOpt
    rw [rhs_one, rhs_unit, hl, gram_unit, one_div_one]
    unfold optAlphaBeta
    rw [if_pos hact]
    simp only [if_true, Bool.false_eq_true, if_false, Option.bind_some, halpha]
    refine if_pos ?_
    change Converged true false (fun _ => 1 / 3) (newAlpha chol (fun A => A) false true 1 (diagonal fun _ : Unit => (1 : ℝ)) (fun _ => 2)
      fun _ => 1 / 3) 1 1
    rw [halpha]
    unfold Converged
    norm_num
  refine ⟨chol, hchol, ?_⟩
  unfold logSpaceFitStep
  simp only [hdata, hopt, Option.map_some]
  exact ⟨_, by rw [one_div_one], fun h => by simpa using congrFun h ()⟩

end GPSKet.OptAlpha
