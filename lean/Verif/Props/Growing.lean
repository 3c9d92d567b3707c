import Verif.Lemmas.Growing

/-! # C88, C89: the growing relevance vector machine increases the evidence -/

namespace GPSKet.GrowingRVM

open Matrix GPSKet.SupervisedFit GPSKet.MargLik GPSKet.OptAlpha
open scoped ComplexOrder

variable {𝕜 : Type} [RCLike 𝕜] {ι n : Type} [Fintype ι] [Fintype n] [DecidableEq n]

section Gain

variable {chol : {m : Type} → [Fintype m] → Matrix m m 𝕜 → Option (Matrix m m 𝕜)}
variable (pinvh : {m : Type} → [Fintype m] → Matrix m m 𝕜 → Matrix m m 𝕜)

theorem active_update_inactive (KtK : Matrix n n 𝕜) (alpha : n → ℝ) (f : n) (hf : ¬ Active KtK alpha f) (t : ℝ) (ht : 1e10 ≤ t) :
    Active KtK (Function.update alpha f t) = Active KtK alpha := by
  funext g
  by_cases h : g = f
  · subst h
    refine propext (iff_of_false ?_ hf)
    intro h
    have := h.1
    rw [Function.update_self] at this
    linarith
  · simp [Active, Function.update_of_ne h]

open Classical in
theorem evidence_update_inactive (cplx half : Bool) (beta : ℝ) (KtK : Matrix n n 𝕜) (y : n → 𝕜) (alpha : n → ℝ) (d : ℝ) (f : n)
    (hf : ¬ Active KtK alpha f) (t : ℝ) (ht : 1e10 ≤ t) :
    evidence chol pinvh cplx half beta KtK y (Function.update alpha f t) d = evidence chol pinvh cplx half beta KtK y alpha d := by
  have hact := active_update_inactive KtK alpha f hf t ht
  have hreg := block_other half beta KtK alpha f t (Active KtK alpha) hf
  have hne : ∀ g : {g // Active KtK alpha g}, (g : n) ≠ f := fun g h => hf (h ▸ g.2)
  rw [evidence_on chol pinvh cplx half beta KtK y _ d _ hact, evidence_on chol pinvh cplx half beta KtK y _ d _ rfl]
  unfold evidenceOn
  simp only [hreg, Function.update_of_ne (hne _)]

open Classical in
theorem inactive_quantities (hchol : CholeskySpec chol) (half : Bool) (beta : ℝ) (hb : 0 ≤ beta) (KtK : Matrix n n 𝕜)
    (hK : KtK.PosSemidef) (y : n → 𝕜) (alpha : n → ℝ) (ha : ∀ f, 0 < alpha f) (f : n) (hf : ¬ Active KtK alpha f) :
    sparsity chol pinvh half beta KtK (without alpha f) f = sparsity chol pinvh half beta KtK alpha f ∧
    qualityFull chol pinvh half beta KtK y (without alpha f) f = qualityFull chol pinvh half beta KtK y alpha f := by
  have hact : Active KtK (without alpha f) = Active KtK alpha := active_update_inactive KtK alpha f hf 1e10 le_rfl
  have hreg : block (regularised half beta KtK (without alpha f)) (Active KtK alpha) = block (regularised half beta KtK alpha) (Active KtK alpha) :=
    block_other half beta KtK alpha f 1e10 (Active KtK alpha) hf
  have hpos := posDef_block half beta hb KtK hK alpha ha (Active KtK alpha)
  have hpos' := posDef_block half beta hb KtK hK _ (without_pos ha f) (Active KtK alpha)
  rw [sparsity_eq pinvh hchol half beta KtK hK.1 _ _ hact hpos', sparsity_eq pinvh hchol half beta KtK hK.1 _ _ rfl hpos,
    quality_eq pinvh hchol half beta KtK y _ _ hact hpos', quality_eq pinvh hchol half beta KtK y _ _ rfl hpos, hreg]
  exact ⟨rfl, rfl⟩

open Classical in
/-- `si` and `qi` are the quantities of the model without the feature. -/
theorem factors (hchol : CholeskySpec chol) (half : Bool) (beta : ℝ) (hb : 0 < beta) (KtK : Matrix n n 𝕜)
    (hK : KtK.PosSemidef) (y : n → 𝕜) (alpha : n → ℝ) (ha : ∀ f, 0 < alpha f) (f : n) :
    sparsityFactor chol pinvh half beta KtK alpha f = sparsity chol pinvh half beta KtK (without alpha f) f ∧
    qualityFactor chol pinvh half beta KtK y alpha f = quality chol pinvh half beta KtK y (without alpha f) f := by
  by_cases hf : Active KtK alpha f
  · obtain ⟨h1, h2, -⟩ := active_factors pinvh hchol half beta hb KtK hK y alpha ha f hf
    exact ⟨h1, h2⟩
  · obtain ⟨h1, h2⟩ := inactive_quantities pinvh hchol half beta hb.le KtK hK y alpha ha f hf
    refine ⟨?_, ?_⟩
    · rw [sparsityFactor, h1]
      exact if_neg hf
    · rw [qualityFactor]
      refine (if_neg hf).trans ?_
      rw [quality, quality, h2]

theorem gainDelete_eq (s q a : ℝ) (hs : 0 < s) (ha : 0 < a) :
    gainDelete (a * s / (a + s)) (a * q / (a + s)) a = ((-part s (q ^ 2) a : ℝ) : WithBot ℝ) := by
  have h1 : a * s / (a + s) - a = -(a ^ 2 / (a + s)) := by field_simp; ring
  have h2 : 1 - a * s / (a + s) / a = a / (a + s) := by field_simp; ring
  have h3 : 0 < a ^ 2 / (a + s) := by positivity
  have h4 : 0 < a / (a + s) := by positivity
  rw [gainDelete, h1, h2, if_neg (by
    rintro (h | h)
    · linarith
    · linarith)]
  congr 1
  rw [part, Real.log_div ha.ne' (by positivity), sq_abs]
  field_simp
  ring

theorem gainRecompute_eq (s q a b : ℝ) (hs : 0 < s) (ha : 0 < a) (hb : 0 < b) :
    gainRecompute (a * s / (a + s)) (a * q / (a + s)) a b = ((part s (q ^ 2) b - part s (q ^ 2) a : ℝ) : WithBot ℝ) := by
  unfold gainRecompute
  simp only
  rw [if_neg hb.ne']
  by_cases hab : a = b
  · subst hab
    rw [if_pos (sub_self _), sub_self]
  · have hd : 1 / b - 1 / a = (a - b) / (a * b) := by field_simp
    have hne : a - b ≠ 0 := sub_ne_zero.mpr hab
    have h1 : 1 + a * s / (a + s) * ((a - b) / (a * b)) = a * (b + s) / ((a + s) * b) := by field_simp; ring
    have h2 : a * s / (a + s) + 1 / ((a - b) / (a * b)) = a ^ 2 * (b + s) / ((a + s) * (a - b)) := by field_simp; ring
    have h3 : 0 < a * (b + s) / ((a + s) * b) := by positivity
    have h4 : a ^ 2 * (b + s) / ((a + s) * (a - b)) ≠ 0 :=
      div_ne_zero (by positivity) (mul_ne_zero (by positivity) hne)
    rw [hd, if_neg (div_ne_zero hne (by positivity)), h1, h2, if_neg (by
      rintro (h | h)
      · exact h4 h
      · linarith)]
    congr 1
    rw [part, part, Real.log_div (by positivity) (by positivity), Real.log_mul ha.ne' (by positivity), Real.log_mul (by positivity) hb.ne',
      sq_abs]
    have h5 : (a * q / (a + s)) ^ 2 / (a ^ 2 * (b + s) / ((a + s) * (a - b))) = q ^ 2 / (b + s) - q ^ 2 / (a + s) := by
      field_simp
      ring
    rw [h5]
    ring

open Classical in
/-- What `deltaL` is: the largest possible value of the contribution of the feature minus its current value. -/
theorem gain_eq (hchol : CholeskySpec chol) (half : Bool) (beta : ℝ) (hb : 0 < beta) (KtK : Matrix n n 𝕜)
    (hK : KtK.PosSemidef) (y : n → 𝕜) (alpha : n → ℝ) (ha : ∀ f, 0 < alpha f) (f : n) (hv : Valid KtK f) :
    let s := sparsity chol pinvh half beta KtK (without alpha f) f
    let q := quality chol pinvh half beta KtK y (without alpha f) f
    gain chol pinvh half beta KtK y alpha f
      = ((best s (q ^ 2) - if Active KtK alpha f then part s (q ^ 2) (halved half (alpha f)) else 0 : ℝ) : WithBot ℝ) := by
  intro s q
  have hs : 0 < s := sparsity_pos pinvh hchol half beta hb KtK hK _ (without_pos ha f) f (without_not_active KtK alpha f) hv
  obtain ⟨h1, h2⟩ := factors pinvh hchol half beta hb KtK hK y alpha ha f
  have hth : theta chol pinvh half beta KtK y alpha f = q ^ 2 - s := by rw [theta, h1, h2, sq_abs]
  unfold gain
  simp only [hth, h1]
  have ha' : 0 < halved half (alpha f) := halved_pos half (ha f)
  by_cases hf : Active KtK alpha f
  · obtain ⟨-, -, h3, h4⟩ := active_factors pinvh hchol half beta hb KtK hK y alpha ha f hf
    rw [if_pos hf, if_pos hf, h3, h4]
    by_cases hq : 0 < q ^ 2 - s
    · rw [if_pos hq]
      refine (gainRecompute_eq s q _ _ hs ha' (by positivity)).trans ?_
      rw [part_best s _ hs (sub_pos.mp hq)]
    · rw [if_neg hq]
      refine (gainDelete_eq s q _ hs ha').trans ?_
      rw [best, if_neg (by linarith), zero_sub]
  · obtain ⟨h3, h4⟩ := inactive_quantities pinvh hchol half beta hb.le KtK hK y alpha ha f hf
    rw [if_neg hf, if_neg hf, sub_zero]
    by_cases hq : 0 < q ^ 2 - s
    · have hqp : 0 < q ^ 2 := by linarith
      rw [if_pos hq, ← h3, show quality chol pinvh half beta KtK y alpha f = q by rw [quality, ← h4]; rfl, gainAdd, sq_abs, if_neg (by
        have : 0 < s / q ^ 2 := by positivity
        show ¬ s / q ^ 2 ≤ 0
        linarith), best, if_pos (sub_pos.mp hq)]
    · rw [if_neg hq, best, if_neg (by linarith)]

open Classical in
/-- The evidence as a function of one precision. -/
theorem evidence_feature (hchol : CholeskySpec chol) (cplx : Bool) (beta : ℝ) (hb : 0 < beta) (KtK : Matrix n n 𝕜)
    (hK : KtK.PosSemidef) (y : n → 𝕜) (alpha : n → ℝ) (ha : ∀ f, 0 < alpha f) (d : ℝ) (f : n) (hv : Valid KtK f) (t : ℝ) (ht : 0 < t) :
    evidence chol pinvh cplx false beta KtK y (Function.update alpha f t) d
      = evidence chol pinvh cplx false beta KtK y (without alpha f) d + (if cplx then 1 else 1 / 2) *
        if t < 1e10 then part (sparsity chol pinvh false beta KtK (without alpha f) f)
          (‖qualityFull chol pinvh false beta KtK y (without alpha f) f‖ ^ 2) t else 0 := by
  rw [← update_without]
  by_cases h : t < 1e10
  · rw [if_pos h]
    exact evidence_add pinvh hchol cplx beta hb.le KtK hK y _ (without_pos ha f) d f (without_not_active KtK alpha f) hv t ht h
  · rw [if_neg h, mul_zero, add_zero]
    exact evidence_update_inactive pinvh cplx false beta KtK y _ d f (without_not_active KtK alpha f) t (not_lt.mp h)

open Classical in
theorem evidence_current (hchol : CholeskySpec chol) (cplx : Bool) (beta : ℝ) (hb : 0 < beta) (KtK : Matrix n n 𝕜)
    (hK : KtK.PosSemidef) (y : n → 𝕜) (alpha : n → ℝ) (ha : ∀ f, 0 < alpha f) (d : ℝ) (f : n) (hv : Valid KtK f) :
    evidence chol pinvh cplx false beta KtK y alpha d
      = evidence chol pinvh cplx false beta KtK y (without alpha f) d + (if cplx then 1 else 1 / 2) *
        if Active KtK alpha f then part (sparsity chol pinvh false beta KtK (without alpha f) f)
          (‖qualityFull chol pinvh false beta KtK y (without alpha f) f‖ ^ 2) (alpha f) else 0 := by
  have h := evidence_feature pinvh hchol cplx beta hb KtK hK y alpha ha d f hv (alpha f) (ha f)
  rw [Function.update_eq_self] at h
  rw [h]
  congr 2
  by_cases h' : alpha f < 1e10
  · rw [if_pos h', if_pos ⟨h', hv⟩]
  · rw [if_neg h', if_neg fun h => h' h.1]

/-- A feature that does not occur in the data. -/
def Absent (KtK : Matrix n n 𝕜) (y : n → 𝕜) (f : n) : Prop := (∀ g, KtK f g = 0) ∧ y f = 0

theorem absent_not_valid {KtK : Matrix n n 𝕜} {y : n → 𝕜} {f : n} (h : Absent KtK y f) : ¬ Valid KtK f := by
  unfold Valid
  rw [h.1 f, norm_zero]
  norm_num

open Classical in
theorem absent_theta (half : Bool) (beta : ℝ) (KtK : Matrix n n 𝕜) (y : n → 𝕜) (alpha : n → ℝ) (f : n)
    (h : Absent KtK y f) : theta chol pinvh half beta KtK y alpha f = 0 := by
  have hf : ¬ Active KtK alpha f := fun hf => absent_not_valid h hf.2
  have h1 : sparsity chol pinvh half beta KtK alpha f = 0 := by
    unfold sparsity
    simp only [h.1, mul_zero, zero_mul, Finset.sum_const_zero, norm_zero, ne_eq, OfNat.ofNat_ne_zero, not_false_eq_true, zero_pow,
      RCLike.ofReal_zero, zero_sub]
    split <;> simp
  have h2 : qualityFull chol pinvh half beta KtK y alpha f = 0 := by
    unfold qualityFull
    simp only [h.1, h.2, mul_zero, zero_mul, Finset.sum_const_zero, zero_sub]
    split <;> simp
  rw [theta, sparsityFactor, qualityFactor, quality, h2]
  simp only [hf, if_false, h1, map_zero, abs_zero]
  norm_num

open Classical in
theorem absent_gain (half : Bool) (beta : ℝ) (KtK : Matrix n n 𝕜) (y : n → 𝕜) (alpha : n → ℝ) (f : n)
    (h : Absent KtK y f) : gain chol pinvh half beta KtK y alpha f = (0 : ℝ) := by
  have hf : ¬ Active KtK alpha f := fun hf => absent_not_valid h hf.2
  unfold gain
  simp only [absent_theta pinvh half beta KtK y alpha f h, hf, if_false, lt_irrefl]

end Gain

/-! ## One iteration -/

/-- A precision is positive (`np.PINF` included). -/
def Positive (alpha : n → WithTop ℝ) : Prop := ∀ f, 0 < alpha f

theorem finite_pos {a : WithTop ℝ} (h : 0 < a) : 0 < finite a := by
  induction a using WithTop.recTopCoe with
  | top => rw [finite, WithTop.untopD_top]; norm_num
  | coe a => rw [finite, WithTop.untopD_coe]; exact_mod_cast h

theorem finite_update (alpha : n → WithTop ℝ) (f : n) (t : WithTop ℝ) :
    (fun g => finite (Function.update alpha f t g)) = Function.update (fun g => finite (alpha g)) f (finite t) := by
  funext g
  by_cases h : g = f
  · subst h
    rw [Function.update_self, Function.update_self]
  · rw [Function.update_of_ne h, Function.update_of_ne h]

section Real

variable {chol : {m : Type} → [Fintype m] → Matrix m m ℝ → Option (Matrix m m ℝ)}
variable (pinvh : {m : Type} → [Fintype m] → Matrix m m ℝ → Matrix m m ℝ)

/-- Each precision is infinite or below the cutoff. -/
def BelowCutoff (alpha : n → WithTop ℝ) : Prop := ∀ f, alpha f = ⊤ ∨ alpha f < ((1e10 : ℝ) : WithTop ℝ)

open Classical in
/-- What one iteration does, for real parameters: nothing for a feature that is absent or the only one, and otherwise the best change of
the precision of the chosen feature. -/
theorem step_cases (hchol : CholeskySpec chol) {argmax : (n → WithBot ℝ) → n} (beta : ℝ) (hb : 0 < beta)
    (KtK : Matrix n n ℝ) (hK : KtK.PosSemidef) (y : n → ℝ) (hfeat : ∀ f, Valid KtK f ∨ Absent KtK y f) (alpha : n → WithTop ℝ)
    (ha : Positive alpha) (d : ℝ) :
    let a : n → ℝ := fun f => finite (alpha f)
    let E : (n → ℝ) → ℝ := fun a => evidence chol pinvh false false beta KtK y a d
    let f := argmax (gain chol pinvh false beta KtK y a)
    let alpha' := updatePrecisions chol pinvh argmax false beta KtK y alpha
    Positive alpha' ∧ (BelowCutoff alpha' →
    (alpha' = alpha ∧ Active KtK a f ∧ Fintype.card {g // Active KtK a g} < 2) ∨
      ∃ r : ℝ, 0 ≤ r ∧ gain chol pinvh false beta KtK y a f = (r : WithBot ℝ) ∧ E (fun f => finite (alpha' f)) = E a + 1 / 2 * r) := by
  intro a E f alpha'
  have ha' : ∀ f, 0 < a f := fun f => finite_pos (ha f)
  rcases hfeat f with hv | hab
  · obtain ⟨hs1, hq1⟩ := factors pinvh hchol false beta hb KtK hK y a ha' f
    have hs : 0 < sparsity chol pinvh false beta KtK (without a f) f :=
      sparsity_pos pinvh hchol false beta hb KtK hK _ (without_pos ha' f) f (without_not_active KtK a f) hv
    have hgain := gain_eq pinvh hchol false beta hb KtK hK y a ha' f hv
    have hcur := evidence_current pinvh hchol false beta hb KtK hK y a ha' d f hv
    have hevid := evidence_feature pinvh hchol false beta hb KtK hK y a ha' d f hv
    have hnorm : ‖qualityFull chol pinvh false beta KtK y (without a f) f‖ ^ 2 = quality chol pinvh false beta KtK y (without a f) f ^ 2 := by
      rw [quality, Real.norm_eq_abs, sq_abs]
      rfl
    rw [hnorm] at hcur hevid
    have hth : theta chol pinvh false beta KtK y a f
        = quality chol pinvh false beta KtK y (without a f) f ^ 2 - sparsity chol pinvh false beta KtK (without a f) f := by
      rw [theta, hs1, hq1, sq_abs]
    generalize sparsity chol pinvh false beta KtK (without a f) f = s at *
    generalize quality chol pinvh false beta KtK y (without a f) f = q at *
    have hge : 0 ≤ best s (q ^ 2) - if Active KtK a f then part s (q ^ 2) (a f) else 0 := by
      split_ifs
      · exact sub_nonneg.mpr (part_le_best s _ _ hs (sq_nonneg q) (ha' f))
      · rw [sub_zero]; exact best_nonneg s _ hs
    by_cases hpos : 0 < q ^ 2 - s
    · have hal : alpha' = Function.update alpha f (((s ^ 2 / (q ^ 2 - s) : ℝ)) : WithTop ℝ) := by
        show updatePrecisions chol pinvh argmax false beta KtK y alpha = _
        unfold updatePrecisions
        simp only [Bool.false_eq_true, if_false]
        rw [if_pos (by rw [hth]; exact hpos)]
        congr 2
        rw [hth, hs1]
      have hnew : 0 < s ^ 2 / (q ^ 2 - s) := by positivity
      refine ⟨?_, fun hcut => Or.inr ⟨_, hge, hgain, ?_⟩⟩
      · intro g
        rw [hal]
        by_cases h : g = f
        · rw [h, Function.update_self]; exact_mod_cast hnew
        · rw [Function.update_of_ne h]; exact ha g
      · have hlt : s ^ 2 / (q ^ 2 - s) < 1e10 := by
          rcases hcut f with h' | h'
          · have : alpha' f = ⊤ := h'
            rw [hal, Function.update_self] at this
            exact absurd this (WithTop.coe_ne_top)
          · have : alpha' f < _ := h'
            rw [hal, Function.update_self] at this
            exact_mod_cast this
        show E _ = _
        rw [hal, finite_update, show finite (((s ^ 2 / (q ^ 2 - s) : ℝ)) : WithTop ℝ) = s ^ 2 / (q ^ 2 - s) from rfl]
        show evidence chol pinvh false false beta KtK y (Function.update a f (s ^ 2 / (q ^ 2 - s))) d
          = evidence chol pinvh false false beta KtK y a d + _
        rw [hevid _ hnew, if_pos hlt, part_best s _ hs (sub_pos.mp hpos), hcur]
        simp only [Bool.false_eq_true, if_false]
        ring
    · have hbest : best s (q ^ 2) = 0 := by rw [best, if_neg (by linarith)]
      simp only [] at hgain
      rw [hbest] at hge hgain
      have hal : alpha' = if Active KtK a f ∧ 2 ≤ Fintype.card {g // Active KtK a g} then Function.update alpha f ⊤ else alpha := by
        show updatePrecisions chol pinvh argmax false beta KtK y alpha = _
        unfold updatePrecisions
        simp only
        rw [if_neg (by rw [hth]; exact hpos)]
      by_cases hf : Active KtK a f
      · by_cases h2 : 2 ≤ Fintype.card {g // Active KtK a g}
        · rw [if_pos ⟨hf, h2⟩] at hal
          refine ⟨?_, fun hcut => Or.inr ⟨_, hge, hgain, ?_⟩⟩
          · intro g
            rw [hal]
            by_cases h : g = f
            · rw [h, Function.update_self]; exact WithTop.coe_lt_top 0
            · rw [Function.update_of_ne h]; exact ha g
          · show E _ = _
            rw [hal, finite_update]
            show evidence chol pinvh false false beta KtK y (Function.update a f 1e10) d
              = evidence chol pinvh false false beta KtK y a d + _
            rw [hevid _ (by norm_num), if_neg (lt_irrefl _), hcur, if_pos hf]
            simp only [Bool.false_eq_true, if_false]
            show _ + _ = _ + _ * part s (q ^ 2) (a f) + 1 / 2 * (0 - part s (q ^ 2) (a f))
            ring
        · rw [if_neg fun h => h2 h.2] at hal
          exact ⟨hal ▸ ha, fun _ => Or.inl ⟨hal, hf, not_le.mp h2⟩⟩
      · rw [if_neg fun h => hf h.1] at hal
        rw [if_neg hf] at hgain hge
        refine ⟨hal ▸ ha, fun _ => Or.inr ⟨_, hge, hgain, ?_⟩⟩
        rw [hal]
        show E a = _
        ring
  · have hf : ¬ Active KtK a f := fun hf => absent_not_valid hab hf.2
    have hal : alpha' = alpha := by
      show updatePrecisions chol pinvh argmax false beta KtK y alpha = _
      unfold updatePrecisions
      simp only
      rw [if_neg (by rw [absent_theta pinvh false beta KtK y a f hab]; exact lt_irrefl _), if_neg fun h => hf h.1]
    refine ⟨hal ▸ ha, fun _ => Or.inr ⟨0, le_rfl, absent_gain pinvh false beta KtK y a f hab, ?_⟩⟩
    rw [hal]
    show E a = _
    ring

open Classical in
/-- One iteration does not decrease the evidence. -/
theorem step_mono (hchol : CholeskySpec chol) {argmax : (n → WithBot ℝ) → n} (beta : ℝ) (hb : 0 < beta)
    (KtK : Matrix n n ℝ) (hK : KtK.PosSemidef) (y : n → ℝ) (hfeat : ∀ f, Valid KtK f ∨ Absent KtK y f) (alpha : n → WithTop ℝ)
    (ha : Positive alpha) (d : ℝ) (hcut : BelowCutoff (updatePrecisions chol pinvh argmax false beta KtK y alpha)) :
    evidence chol pinvh false false beta KtK y (fun f => finite (alpha f)) d
      ≤ evidence chol pinvh false false beta KtK y
          (fun f => finite (updatePrecisions chol pinvh argmax false beta KtK y alpha f)) d := by
  obtain ⟨h, -⟩ | ⟨r, h1, -, h2⟩ := (step_cases pinvh hchol beta hb KtK hK y hfeat alpha ha d).2 hcut
  · rw [h]
  · have h2' : evidence chol pinvh false false beta KtK y (fun f => finite (updatePrecisions chol pinvh argmax false beta KtK y alpha f)) d
      = evidence chol pinvh false false beta KtK y (fun f => finite (alpha f)) d + 1 / 2 * r := h2
    linarith

open Classical in
/-- One iteration is at least as good as any change of one precision. -/
theorem step_best (hchol : CholeskySpec chol) {argmax : (n → WithBot ℝ) → n} (hmax : IsArgmax argmax) (beta : ℝ) (hb : 0 < beta)
    (KtK : Matrix n n ℝ) (hK : KtK.PosSemidef) (y : n → ℝ) (hfeat : ∀ f, Valid KtK f ∨ Absent KtK y f) (alpha : n → WithTop ℝ)
    (ha : Positive alpha) (d : ℝ) (hcut : BelowCutoff (updatePrecisions chol pinvh argmax false beta KtK y alpha))
    (htwo : ∃ f1 f2, f1 ≠ f2 ∧ Active KtK (fun f => finite (alpha f)) f1 ∧ Active KtK (fun f => finite (alpha f)) f2)
    (g : n) (t : WithTop ℝ) (ht : 0 < t) :
    evidence chol pinvh false false beta KtK y (fun f => finite (Function.update alpha g t f)) d
      ≤ evidence chol pinvh false false beta KtK y
          (fun f => finite (updatePrecisions chol pinvh argmax false beta KtK y alpha f)) d := by
  obtain ⟨-, -, h⟩ | ⟨r, h1, h3, h2⟩ := (step_cases pinvh hchol beta hb KtK hK y hfeat alpha ha d).2 hcut
  · exfalso
    obtain ⟨f1, f2, hne, hf1, hf2⟩ := htwo
    have : 1 < Fintype.card {g // Active KtK (fun f => finite (alpha f)) g} :=
      Fintype.one_lt_card_iff.mpr ⟨⟨f1, hf1⟩, ⟨f2, hf2⟩, fun h => hne (congrArg Subtype.val h)⟩
    omega
  · have h2' : evidence chol pinvh false false beta KtK y (fun f => finite (updatePrecisions chol pinvh argmax false beta KtK y alpha f)) d
      = evidence chol pinvh false false beta KtK y (fun f => finite (alpha f)) d + 1 / 2 * r := h2
    rw [h2', finite_update]
    obtain ⟨a, haa⟩ : ∃ a : n → ℝ, a = fun f => finite (alpha f) := ⟨_, rfl⟩
    have ha' : ∀ f, 0 < a f := fun f => by rw [haa]; exact finite_pos (ha f)
    have hle := hmax (gain chol pinvh false beta KtK y a) g
    rw [haa] at hle
    rw [h3] at hle
    rw [← haa] at hle ⊢
    rcases hfeat g with hv | hab
    · rw [gain_eq pinvh hchol false beta hb KtK hK y a ha' g hv] at hle
      have hle' := WithBot.coe_le_coe.mp hle
      have hs : 0 < sparsity chol pinvh false beta KtK (without a g) g :=
        sparsity_pos pinvh hchol false beta hb KtK hK _ (without_pos ha' g) g (without_not_active KtK a g) hv
      have hnorm : ‖qualityFull chol pinvh false beta KtK y (without a g) g‖ ^ 2
          = quality chol pinvh false beta KtK y (without a g) g ^ 2 := by
        rw [quality, Real.norm_eq_abs, sq_abs]
        rfl
      have ht' := finite_pos ht
      rw [evidence_feature pinvh hchol false beta hb KtK hK y a ha' d g hv _ ht',
        evidence_current pinvh hchol false beta hb KtK hK y a ha' d g hv, hnorm]
      generalize sparsity chol pinvh false beta KtK (without a g) g = s at *
      generalize quality chol pinvh false beta KtK y (without a g) g = q at *
      have h4 : (if finite t < 1e10 then part s (q ^ 2) (finite t) else 0) ≤ best s (q ^ 2) := by
        split_ifs
        · exact part_le_best s _ _ hs (sq_nonneg q) ht'
        · exact best_nonneg s _ hs
      simp only [halved, Bool.false_eq_true, if_false] at hle' ⊢
      linarith
    · rw [evidence_absent chol pinvh false beta KtK y a d g (absent_not_valid hab)]
      linarith

end Real

end GPSKet.GrowingRVM
