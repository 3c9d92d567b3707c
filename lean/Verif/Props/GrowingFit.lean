import Verif.Props.Growing

/-! # C88, C89: the growing relevance vector machine, in terms of the learners -/

namespace GPSKet.GrowingRVM

open Matrix GPSKet.SupervisedFit GPSKet.MargLik GPSKet.OptAlpha
open scoped ComplexOrder

variable {𝕜 : Type} [RCLike 𝕜] {ι n : Type} [Fintype ι] [Fintype n] [DecidableEq n]

/-- The precisions before the first iteration are positive. -/
theorem initial_pos (argmax : (n → WithBot ℝ) → n) (first : n) (half : Bool) (beta : ℝ) (KtK : Matrix n n 𝕜) (y : n → 𝕜)
    (alpha : n → WithTop ℝ) (ha : Positive alpha) : Positive (initialPrecisions argmax first half beta KtK y alpha) := by
  have hup : ∀ (f : n) (t : WithTop ℝ), 0 < t → Positive (Function.update alpha f t) := by
    intro f t ht g
    by_cases h : g = f
    · rw [h, Function.update_self]; exact ht
    · rw [Function.update_of_ne h]; exact ha g
  have hcoe : ∀ t : ℝ, 0 < t → (0 : WithTop ℝ) < (t : WithTop ℝ) := fun t ht => by exact_mod_cast ht
  unfold initialPrecisions
  simp only
  split_ifs with h1 h2 h3 h4
  all_goals first
    | exact ha
    | exact hup _ _ (WithTop.coe_lt_top 0)
    | exact hup _ _ (hcoe _ (by positivity))

/-- A column of the matrix of features that vanishes is a feature that does not occur. -/
theorem absent_of (K : Matrix ι n 𝕜) (S : ι → ℝ) (m : ι → 𝕜) (f : n) (h : ∀ i, K i f = 0) : Absent (gram K S) (rhs K m) f := by
  constructor
  · intro g
    simp [gram, Matrix.mul_apply, h]
  · simp [rhs, mulVec, dotProduct, h]

theorem features_of (K : Matrix ι n 𝕜) (S : ι → ℝ) (hS : ∀ i, 0 ≤ S i) (m : ι → 𝕜)
    (h : ∀ f, 1e-10 < Spec.occurrence K S f ∨ ∀ i, K i f = 0) (f : n) : Valid (gram K S) f ∨ Absent (gram K S) (rhs K m) f :=
  (h f).imp (valid_iff K S hS f).mpr (absent_of K S m f)

section Real

variable {chol : {m : Type} → [Fintype m] → Matrix m m ℝ → Option (Matrix m m ℝ)}
variable (pinvh : {m : Type} → [Fintype m] → Matrix m m ℝ → Matrix m m ℝ)

theorem growing_succ (argmax : (n → WithBot ℝ) → n) (first : n) (half : Bool) (beta : ℝ) (KtK : Matrix n n ℝ) (y : n → ℝ) (k : ℕ)
    (alpha : n → WithTop ℝ) :
    growingPrecisions chol pinvh argmax first half beta KtK y (k + 1) alpha
      = updatePrecisions chol pinvh argmax half beta KtK y (growingPrecisions chol pinvh argmax first half beta KtK y k alpha) := by
  unfold growingPrecisions
  rw [Function.iterate_succ_apply']

theorem growing_pos (hchol : CholeskySpec chol) (argmax : (n → WithBot ℝ) → n) (first : n) (beta : ℝ) (hb : 0 < beta)
    (KtK : Matrix n n ℝ) (hK : KtK.PosSemidef) (y : n → ℝ) (hfeat : ∀ f, Valid KtK f ∨ Absent KtK y f) (alpha : n → WithTop ℝ)
    (ha : Positive alpha) (k : ℕ) : Positive (growingPrecisions chol pinvh argmax first false beta KtK y k alpha) := by
  induction k with
  | zero => exact initial_pos argmax first false beta KtK y alpha ha
  | succ k ih =>
    rw [growing_succ]
    exact (step_cases pinvh hchol beta hb KtK hK y hfeat _ ih 0).1

/-- C88, the learner of log-amplitudes with real parameters: an iteration of the growing relevance vector machine does not decrease the
marginal likelihood that `log_marg_lik` reports.  With or without nonnegative weightings, for every data set and number of iterations;
each feature either occurs in the data (with weight above the cutoff 1e-10) or not at all.  Missing: if the iteration sets a precision to a
number that is not below the cutoff 1e10, the feature is dropped and the marginal likelihood may decrease; complex parameters
(`C88_complex_fails`, `C88_expand_fails`). -/
theorem C88_logspace_partial (hchol : CholeskySpec chol) (argmax : (n → WithBot ℝ) → n) (first : n) (noise : ℝ) (hn : 0 < noise)
    (K : Matrix ι n ℝ) (weightings : Option (ι → ℝ)) (hv : ∀ v, weightings = some v → ∀ i, 0 ≤ v i) (data : ι → ℝ)
    (hfeat : ∀ f, 1e-10 < Spec.occurrence K (fun i => weightings.elim 1 fun v => v i) f ∨ ∀ i, K i f = 0)
    (alpha : n → WithTop ℝ) (ha : ∀ f, 0 < alpha f) (k : ℕ)
    (hcut : ∀ f, logSpaceGrowing chol pinvh argmax first noise K weightings data (k + 1) alpha f = ⊤ ∨
      logSpaceGrowing chol pinvh argmax first noise K weightings data (k + 1) alpha f < ((1e10 : ℝ) : WithTop ℝ)) :
    logSpaceLogMargLik chol pinvh false noise K weightings data
        (fun f => finite (logSpaceGrowing chol pinvh argmax first noise K weightings data k alpha f))
      ≤ logSpaceLogMargLik chol pinvh false noise K weightings data
        (fun f => finite (logSpaceGrowing chol pinvh argmax first noise K weightings data (k + 1) alpha f)) := by
  have hS := logWeights_nonneg weightings hv
  have e : (fun i => (weightings.elim 1 fun v => v i)) = logWeights weightings := by cases weightings <;> rfl
  rw [e] at hfeat
  have hfeat' := features_of K _ hS (fun i => (logWeights weightings i : ℝ) * data i) hfeat
  have hK := gram_posSemidef K _ hS
  have hp := growing_pos pinvh hchol argmax first (1 / noise) (one_div_pos.mpr hn) _ hK _ hfeat' alpha ha k
  have hc : BelowCutoff (logSpaceGrowing chol pinvh argmax first noise K weightings data (k + 1) alpha) := hcut
  have hsucc : logSpaceGrowing chol pinvh argmax first noise K weightings data (k + 1) alpha
      = updatePrecisions chol pinvh argmax false (1 / noise) (gram K (logWeights weightings))
          (rhs K fun i => (logWeights weightings i : ℝ) * data i)
          (growingPrecisions chol pinvh argmax first false (1 / noise) (gram K (logWeights weightings))
            (rhs K fun i => (logWeights weightings i : ℝ) * data i) k alpha) := growing_succ pinvh argmax first false _ _ _ k alpha
  rw [hsucc] at hc ⊢
  exact step_mono pinvh hchol (1 / noise) (one_div_pos.mpr hn) _ hK _ hfeat' _ hp _ hc

/-- C88, second part: if two features are part of the model, an iteration is at least as good as every change of one precision, to
a number or to infinity. -/
theorem C88_logspace_best_partial (hchol : CholeskySpec chol) {argmax : (n → WithBot ℝ) → n} (hmax : IsArgmax argmax) (first : n)
    (noise : ℝ) (hn : 0 < noise) (K : Matrix ι n ℝ) (weightings : Option (ι → ℝ)) (hv : ∀ v, weightings = some v → ∀ i, 0 ≤ v i)
    (data : ι → ℝ) (hfeat : ∀ f, 1e-10 < Spec.occurrence K (fun i => weightings.elim 1 fun v => v i) f ∨ ∀ i, K i f = 0)
    (alpha : n → WithTop ℝ) (ha : ∀ f, 0 < alpha f) (k : ℕ)
    (hcut : ∀ f, logSpaceGrowing chol pinvh argmax first noise K weightings data (k + 1) alpha f = ⊤ ∨
      logSpaceGrowing chol pinvh argmax first noise K weightings data (k + 1) alpha f < ((1e10 : ℝ) : WithTop ℝ))
    (htwo : ∃ f1 f2, f1 ≠ f2 ∧ ∀ f, f = f1 ∨ f = f2 →
      logSpaceGrowing chol pinvh argmax first noise K weightings data k alpha f < ((1e10 : ℝ) : WithTop ℝ) ∧
      1e-10 < Spec.occurrence K (fun i => weightings.elim 1 fun v => v i) f)
    (g : n) (t : WithTop ℝ) (ht : 0 < t) :
    logSpaceLogMargLik chol pinvh false noise K weightings data
        (fun f => finite (Function.update (logSpaceGrowing chol pinvh argmax first noise K weightings data k alpha) g t f))
      ≤ logSpaceLogMargLik chol pinvh false noise K weightings data
        (fun f => finite (logSpaceGrowing chol pinvh argmax first noise K weightings data (k + 1) alpha f)) := by
  have hS := logWeights_nonneg weightings hv
  have e : (fun i => (weightings.elim 1 fun v => v i)) = logWeights weightings := by cases weightings <;> rfl
  rw [e] at hfeat htwo
  have hfeat' := features_of K _ hS (fun i => (logWeights weightings i : ℝ) * data i) hfeat
  have hK := gram_posSemidef K _ hS
  have hp := growing_pos pinvh hchol argmax first (1 / noise) (one_div_pos.mpr hn) _ hK _ hfeat' alpha ha k
  have hc : BelowCutoff (logSpaceGrowing chol pinvh argmax first noise K weightings data (k + 1) alpha) := hcut
  have hsucc : logSpaceGrowing chol pinvh argmax first noise K weightings data (k + 1) alpha
      = updatePrecisions chol pinvh argmax false (1 / noise) (gram K (logWeights weightings))
          (rhs K fun i => (logWeights weightings i : ℝ) * data i)
          (growingPrecisions chol pinvh argmax first false (1 / noise) (gram K (logWeights weightings))
            (rhs K fun i => (logWeights weightings i : ℝ) * data i) k alpha) := growing_succ pinvh argmax first false _ _ _ k alpha
  rw [hsucc] at hc ⊢
  refine step_best pinvh hchol hmax (1 / noise) (one_div_pos.mpr hn) _ hK _ hfeat' _ hp _ hc ?_ g t ht
  obtain ⟨f1, f2, hne, h⟩ := htwo
  have hact : ∀ f, f = f1 ∨ f = f2 → Active (gram K (logWeights weightings)) (fun f => finite (growingPrecisions chol pinvh argmax first false
      (1 / noise) (gram K (logWeights weightings)) (rhs K fun i => (logWeights weightings i : ℝ) * data i) k alpha f)) f := by
    intro f hf
    refine ⟨?_, (valid_iff K _ hS f).mpr (h f hf).2⟩
    have h1 : growingPrecisions chol pinvh argmax first false (1 / noise) (gram K (logWeights weightings))
      (rhs K fun i => (logWeights weightings i : ℝ) * data i) k alpha f < _ := (h f hf).1
    show finite (growingPrecisions chol pinvh argmax first false (1 / noise) (gram K (logWeights weightings))
      (rhs K fun i => (logWeights weightings i : ℝ) * data i) k alpha f) < 1e10
    generalize growingPrecisions chol pinvh argmax first false (1 / noise) (gram K (logWeights weightings))
      (rhs K fun i => (logWeights weightings i : ℝ) * data i) k alpha f = a at h1
    induction a using WithTop.recTopCoe with
    | top => exact absurd h1 not_top_lt
    | coe a => exact WithTop.coe_lt_coe.mp h1
  exact ⟨f1, f2, hne, hact f1 (Or.inl rfl), hact f2 (Or.inr rfl)⟩

/-- C88, the learner of exponentials with real parameters, for all estimates of the noise and zero amplitudes included. -/
theorem C88_exp_partial (hchol : CholeskySpec chol) (argmax : (n → WithBot ℝ) → n) (first : n) (noise : ℝ) (mode : NoiseMode ι)
    (K : Matrix ι n ℝ) (weightings : Option (ι → ℝ)) (amps data : ι → ℝ) (S : ι → ℝ) (hSdef : S = expWeights noise mode weightings amps)
    (hS : ∀ i, 0 ≤ S i) (hfeat : ∀ f, 1e-10 < Spec.occurrence K S f ∨ ∀ i, K i f = 0)
    (alpha : n → WithTop ℝ) (ha : ∀ f, 0 < alpha f) (k : ℕ)
    (hcut : ∀ f, expGrowing chol pinvh argmax first noise mode K weightings amps data (k + 1) alpha f = ⊤ ∨
      expGrowing chol pinvh argmax first noise mode K weightings amps data (k + 1) alpha f < ((1e10 : ℝ) : WithTop ℝ))
    (l : ℝ) (hl : expLogMargLik chol pinvh false noise mode K weightings amps data
      (fun f => finite (expGrowing chol pinvh argmax first noise mode K weightings amps data k alpha f)) = some l) :
    ∃ l', expLogMargLik chol pinvh false noise mode K weightings amps data
      (fun f => finite (expGrowing chol pinvh argmax first noise mode K weightings amps data (k + 1) alpha f)) = some l' ∧ l ≤ l' := by
  subst hSdef
  have hfeat' := features_of K _ hS (multiplicator (expWeights noise mode weightings amps) amps data) hfeat
  have hK := gram_posSemidef K _ hS
  have hp := growing_pos pinvh hchol argmax first 1 one_pos _ hK _ hfeat' alpha ha k
  have hc : BelowCutoff (expGrowing chol pinvh argmax first noise mode K weightings amps data (k + 1) alpha) := hcut
  have hsucc : expGrowing chol pinvh argmax first noise mode K weightings amps data (k + 1) alpha
      = updatePrecisions chol pinvh argmax false 1 (gram K (expWeights noise mode weightings amps))
          (rhs K (multiplicator (expWeights noise mode weightings amps) amps data))
          (growingPrecisions chol pinvh argmax first false 1 (gram K (expWeights noise mode weightings amps))
            (rhs K (multiplicator (expWeights noise mode weightings amps) amps data)) k alpha) :=
    growing_succ pinvh argmax first false _ _ _ k alpha
  rw [hsucc] at hc ⊢
  unfold expLogMargLik at hl ⊢
  simp only at hl ⊢
  obtain ⟨d, hd, hd'⟩ := Option.map_eq_some_iff.mp hl
  refine ⟨_, by rw [hd]; rfl, ?_⟩
  rw [← hd']
  exact step_mono pinvh hchol 1 one_pos _ hK _ hfeat' _ hp _ hc

end Real

/-! ## The first feature -/

section First

variable {chol : {m : Type} → [Fintype m] → Matrix m m 𝕜 → Option (Matrix m m 𝕜)}
variable (pinvh : {m : Type} → [Fintype m] → Matrix m m 𝕜 → Matrix m m 𝕜)


open Classical in
/-- The quantities of a feature if no feature is part of the model. -/
theorem empty_quantities (hchol : CholeskySpec chol) (beta : ℝ) (hb : 0 ≤ beta) (KtK : Matrix n n 𝕜) (hK : KtK.PosSemidef) (y : n → 𝕜)
    (alpha : n → ℝ) (ha : ∀ f, 0 < alpha f) (hno : ∀ f, ¬ Active KtK alpha f) (f : n) :
    sparsity chol pinvh false beta KtK (without alpha f) f = beta * RCLike.re (KtK f f) ∧
    qualityFull chol pinvh false beta KtK y (without alpha f) f = beta * y f := by
  have h := inactive_quantities pinvh hchol false beta hb KtK hK y alpha ha f (hno f)
  have hpos := posDef_block false beta hb KtK hK alpha ha (Active KtK alpha)
  have hemp : IsEmpty {g // Active KtK alpha g} := ⟨fun g => hno g g.2⟩
  rw [h.1, h.2, sparsity_eq pinvh hchol false beta KtK hK.1 _ _ rfl hpos, quality_eq pinvh hchol false beta KtK y _ _ rfl hpos]
  simp [dotProduct]

theorem best_ratio (s q2 : ℝ) (hs : 0 < s) : best s q2 = if 1 < q2 / s then q2 / s - 1 - Real.log (q2 / s) else 0 := by
  unfold best
  by_cases h : s < q2
  · have hq : 0 < q2 := hs.trans h
    rw [if_pos h, if_pos ((one_lt_div hs).mpr h), sub_div, div_self hs.ne', Real.log_div hs.ne' hq.ne', Real.log_div hq.ne' hs.ne']
    ring
  · rw [if_neg h, if_neg fun h' => h ((one_lt_div hs).mp h')]

theorem ratio_mono {r r' : ℝ} (h : r ≤ r') :
    (if 1 < r then r - 1 - Real.log r else 0) ≤ if 1 < r' then r' - 1 - Real.log r' else 0 := by
  by_cases h1 : 1 < r
  · have h2 : 1 < r' := lt_of_lt_of_le h1 h
    have hr : 0 < r := zero_lt_one.trans h1
    have hr' : 0 < r' := zero_lt_one.trans h2
    rw [if_pos h1, if_pos h2]
    have h3 := Real.log_le_sub_one_of_pos (div_pos hr' hr)
    rw [Real.log_div hr'.ne' hr.ne'] at h3
    have h4 : r' / r - 1 ≤ r' - r := by
      rw [div_sub_one hr.ne', div_le_iff₀ hr]
      nlinarith
    linarith
  · rw [if_neg h1]
    split_ifs with h2
    · have := Real.log_le_sub_one_of_pos (zero_lt_one.trans h2)
      linarith
    · exact le_rfl

open Classical in
theorem initial_best (hchol : CholeskySpec chol) {argmax : (n → WithBot ℝ) → n} (hmax : IsArgmax argmax) (first : n) (cplx : Bool) (beta : ℝ)
    (hb : 0 < beta) (KtK : Matrix n n 𝕜) (hK : KtK.PosSemidef) (y : n → 𝕜) (hval : ∀ f, 2 ^ (-23 : ℤ) ≤ ‖KtK f f‖) (alpha : n → WithTop ℝ)
    (ha : Positive alpha) (hno : ∀ f, ¬ Active KtK (fun f => finite (alpha f)) f) (d : ℝ)
    (hcut : BelowCutoff (initialPrecisions argmax first false beta KtK y alpha))
    (himp : ∃ (g : n) (t : WithTop ℝ), 0 < t ∧ evidence chol pinvh cplx false beta KtK y (fun f => finite (alpha f)) d
      < evidence chol pinvh cplx false beta KtK y (fun f => finite (Function.update alpha g t f)) d)
    (g : n) (t : WithTop ℝ) (ht : 0 < t) :
    evidence chol pinvh cplx false beta KtK y (fun f => finite (Function.update alpha g t f)) d
      ≤ evidence chol pinvh cplx false beta KtK y (fun f => finite (initialPrecisions argmax first false beta KtK y alpha f)) d := by
  have hinit : initialPrecisions argmax first false beta KtK y alpha =
      (let proj : n → ℝ := fun f => ‖y f‖ ^ 2 / RCLike.re (KtK f f)
       let ind := argmax fun f => (proj f : WithBot ℝ)
       let est := RCLike.re (KtK ind ind) / (proj ind - 1 / beta)
       if proj ind - 1 / beta = 0 then Function.update alpha ind ⊤
       else if 0 < est then Function.update alpha ind ((est : ℝ) : WithTop ℝ)
       else Function.update alpha ind ((1 : ℝ) : WithTop ℝ)) := by
    unfold initialPrecisions
    rw [if_neg fun ⟨f, hf⟩ => hno f hf, if_neg fun ⟨f, hf⟩ => absurd hf (not_lt.mpr (hval f))]
    rfl
  have hV : ∀ f, Valid KtK f := fun f => lt_of_lt_of_le (by norm_num) (hval f)
  have hG : ∀ f, 0 < RCLike.re (KtK f f) := fun f => diag_re_pos KtK hK f (hV f)
  obtain ⟨a, haa⟩ : ∃ a : n → ℝ, a = fun f => finite (alpha f) := ⟨_, rfl⟩
  have ha' : ∀ f, 0 < a f := fun f => by rw [haa]; exact finite_pos (ha f)
  rw [← haa] at hno himp
  have hE : ∀ (g : n) (t : ℝ), 0 < t → evidence chol pinvh cplx false beta KtK y (Function.update a g t) d
      = evidence chol pinvh cplx false beta KtK y a d + (if cplx then 1 else 1 / 2) * if t < 1e10 then part (beta * RCLike.re (KtK g g)) ((beta * ‖y g‖) ^ 2) t else 0 := by
    intro g t ht
    obtain ⟨h1, h2⟩ := empty_quantities pinvh hchol beta hb.le KtK hK y a ha' hno g
    rw [evidence_feature pinvh hchol cplx beta hb KtK hK y a ha' d g (hV g) t ht,
      evidence_current pinvh hchol cplx beta hb KtK hK y a ha' d g (hV g), if_neg (hno g), h1, h2, mul_zero, add_zero, norm_mul, RCLike.norm_ofReal, abs_of_pos hb]
  have hc : (0 : ℝ) < if cplx then 1 else 1 / 2 := by split_ifs <;> norm_num
  have hle : ∀ (g : n) (t : ℝ), 0 < t → (if t < 1e10 then part (beta * RCLike.re (KtK g g)) ((beta * ‖y g‖) ^ 2) t else 0)
      ≤ best (beta * RCLike.re (KtK g g)) ((beta * ‖y g‖) ^ 2) := by
    intro g t ht
    split_ifs
    · exact part_le_best _ _ _ (mul_pos hb (hG g)) (sq_nonneg _) ht
    · exact best_nonneg _ _ (mul_pos hb (hG g))
  obtain ⟨ind, hind⟩ : ∃ ind, ind = argmax fun f => ((‖y f‖ ^ 2 / RCLike.re (KtK f f) : ℝ) : WithBot ℝ) := ⟨_, rfl⟩
  have hproj : ∀ g, ‖y g‖ ^ 2 / RCLike.re (KtK g g) ≤ ‖y ind‖ ^ 2 / RCLike.re (KtK ind ind) := by
    intro g
    have := hmax (fun f => ((‖y f‖ ^ 2 / RCLike.re (KtK f f) : ℝ) : WithBot ℝ)) g
    rw [← hind] at this
    exact WithBot.coe_le_coe.mp this
  have hratio : ∀ g, (beta * ‖y g‖) ^ 2 / (beta * RCLike.re (KtK g g)) = beta * (‖y g‖ ^ 2 / RCLike.re (KtK g g)) := by
    intro g
    have := hG g
    field_simp
  have hbest : ∀ g, best (beta * RCLike.re (KtK g g)) ((beta * ‖y g‖) ^ 2) ≤ best (beta * RCLike.re (KtK ind ind)) ((beta * ‖y ind‖) ^ 2) := by
    intro g
    rw [best_ratio _ _ (mul_pos hb (hG g)), best_ratio _ _ (mul_pos hb (hG ind)), hratio, hratio]
    exact ratio_mono (mul_le_mul_of_nonneg_left (hproj g) hb.le)
  have hpos : 0 < best (beta * RCLike.re (KtK ind ind)) ((beta * ‖y ind‖) ^ 2) := by
    obtain ⟨g, t, ht, h⟩ := himp
    rw [finite_update, ← haa, hE g _ (finite_pos ht)] at h
    have h0 := (mul_pos_iff_of_pos_left hc).mp (pos_of_lt_add_right h)
    exact h0.trans_le ((hle g _ (finite_pos ht)).trans (hbest g))
  have hlt : beta * RCLike.re (KtK ind ind) < (beta * ‖y ind‖) ^ 2 := by
    by_contra h
    rw [best, if_neg h] at hpos
    exact lt_irrefl _ hpos
  have hpr : 0 < ‖y ind‖ ^ 2 / RCLike.re (KtK ind ind) - 1 / beta := by
    have h1 := (one_lt_div (mul_pos hb (hG ind))).mpr hlt
    rw [hratio] at h1
    have h2 : 1 / beta < ‖y ind‖ ^ 2 / RCLike.re (KtK ind ind) := by
      rw [div_lt_iff₀ hb]
      linarith
    linarith
  have hest : RCLike.re (KtK ind ind) / (‖y ind‖ ^ 2 / RCLike.re (KtK ind ind) - 1 / beta) = (beta * RCLike.re (KtK ind ind)) ^ 2 / ((beta * ‖y ind‖) ^ 2 - beta * RCLike.re (KtK ind ind)) := by
    have h0 := hG ind
    have h1 : ‖y ind‖ ^ 2 / RCLike.re (KtK ind ind) - 1 / beta = ((beta * ‖y ind‖) ^ 2 - beta * RCLike.re (KtK ind ind)) / (beta ^ 2 * RCLike.re (KtK ind ind)) := by
      field_simp
    rw [h1]
    field_simp
  have hestp : 0 < RCLike.re (KtK ind ind) / (‖y ind‖ ^ 2 / RCLike.re (KtK ind ind) - 1 / beta) := div_pos (hG ind) hpr
  have hres : initialPrecisions argmax first false beta KtK y alpha
      = Function.update alpha ind (((beta * RCLike.re (KtK ind ind)) ^ 2 / ((beta * ‖y ind‖) ^ 2 - beta * RCLike.re (KtK ind ind)) : ℝ) : WithTop ℝ) := by
    rw [hinit]
    simp only
    rw [← hind, if_neg hpr.ne', if_pos hestp, hest]
  have hnew := hestp
  rw [hest] at hnew
  have hltc : (beta * RCLike.re (KtK ind ind)) ^ 2 / ((beta * ‖y ind‖) ^ 2 - beta * RCLike.re (KtK ind ind)) < 1e10 := by
    have := hcut ind
    rw [hres, Function.update_self] at this
    rcases this with h | h
    · exact absurd h WithTop.coe_ne_top
    · exact WithTop.coe_lt_coe.mp h
  rw [hres, finite_update, finite_update, ← haa, hE g _ (finite_pos ht)]
  show _ ≤ evidence chol pinvh cplx false beta KtK y (Function.update a ind
    ((beta * RCLike.re (KtK ind ind)) ^ 2 / ((beta * ‖y ind‖) ^ 2 - beta * RCLike.re (KtK ind ind)))) d
  rw [hE ind _ hnew, if_pos hltc, part_best _ _ (mul_pos hb (hG ind)) hlt]
  exact add_le_add le_rfl (mul_le_mul_of_nonneg_left ((hle g _ (finite_pos ht)).trans (hbest g)) hc.le)

/-- C89 (learner of log-amplitudes, real or complex parameters): if no feature is part of the model, the first one is chosen, with its precision, such
that no other choice of one feature and its precision has a larger marginal likelihood.  This holds if some choice is an
improvement at all, if each feature occurs in the data with weight at least 2⁻²³, and if the precision is below the cutoff. -/
theorem C89_partial (hchol : CholeskySpec chol) {argmax : (n → WithBot ℝ) → n} (hmax : IsArgmax argmax) (first : n)
    (cplx : Bool) (noise : ℝ) (hn : 0 < noise) (K : Matrix ι n 𝕜) (weightings : Option (ι → ℝ)) (hv : ∀ v, weightings = some v → ∀ i, 0 ≤ v i)
    (data : ι → 𝕜) (hfeat : ∀ f, 2 ^ (-23 : ℤ) ≤ Spec.occurrence K (fun i => weightings.elim 1 fun v => v i) f)
    (alpha : n → WithTop ℝ) (ha : ∀ f, ((1e10 : ℝ) : WithTop ℝ) ≤ alpha f)
    (hcut : ∀ f, logSpaceGrowing chol pinvh argmax first noise K weightings data 0 alpha f = ⊤ ∨
      logSpaceGrowing chol pinvh argmax first noise K weightings data 0 alpha f < ((1e10 : ℝ) : WithTop ℝ))
    (himp : ∃ (g : n) (t : WithTop ℝ), 0 < t ∧ logSpaceLogMargLik chol pinvh cplx noise K weightings data (fun f => finite (alpha f))
      < logSpaceLogMargLik chol pinvh cplx noise K weightings data (fun f => finite (Function.update alpha g t f)))
    (g : n) (t : WithTop ℝ) (ht : 0 < t) :
    logSpaceLogMargLik chol pinvh cplx noise K weightings data (fun f => finite (Function.update alpha g t f))
      ≤ logSpaceLogMargLik chol pinvh cplx noise K weightings data
        (fun f => finite (logSpaceGrowing chol pinvh argmax first noise K weightings data 0 alpha f)) := by
  have hS := logWeights_nonneg weightings hv
  have e : (fun i => (weightings.elim 1 fun v => v i)) = logWeights weightings := by cases weightings <;> rfl
  rw [e] at hfeat
  have hK := gram_posSemidef K _ hS
  have hval : ∀ f, 2 ^ (-23 : ℤ) ≤ ‖gram K (logWeights weightings) f f‖ := by
    intro f
    have h0 : 0 ≤ Spec.occurrence K (logWeights weightings) f := Finset.sum_nonneg fun i _ => mul_nonneg (hS i) (sq_nonneg _)
    rw [gram_diag, RCLike.norm_ofReal, abs_of_nonneg h0]
    exact hfeat f
  have hpos : Positive alpha := fun f => lt_of_lt_of_le (by
    have : (0 : ℝ) < 1e10 := by norm_num
    exact_mod_cast this) (ha f)
  refine initial_best pinvh hchol hmax first cplx (1 / noise) (one_div_pos.mpr hn) _ hK _ hval alpha hpos ?_ _ hcut himp g t ht
  intro f hf
  have h1 : finite (alpha f) < 1e10 := hf.1
  have h2 := ha f
  generalize alpha f = b at h1 h2
  induction b using WithTop.recTopCoe with
  | top => exact lt_irrefl _ h1
  | coe b => exact absurd h1 (not_lt.mpr (WithTop.coe_le_coe.mp h2))

end First

end GPSKet.GrowingRVM
