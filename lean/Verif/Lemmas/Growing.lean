import Verif.Model.GrowingRVM
import Verif.Lemmas.Border
import Verif.Lemmas.OptAlpha
import Verif.Props.MargLikAlpha

/-! # The quantities of the growing relevance vector machine -/

namespace GPSKet.GrowingRVM

open Matrix GPSKet.SupervisedFit GPSKet.MargLik GPSKet.OptAlpha
open scoped ComplexOrder

variable {𝕜 : Type} [RCLike 𝕜] {ι n : Type} [Fintype ι] [Fintype n] [DecidableEq n]

section Quantities

variable {chol : {m : Type} → [Fintype m] → Matrix m m 𝕜 → Option (Matrix m m 𝕜)}
variable (pinvh : {m : Type} → [Fintype m] → Matrix m m 𝕜 → Matrix m m 𝕜)

theorem chol_dot {m : Type} [Fintype m] [DecidableEq m] {A L : Matrix m m 𝕜} (h : L * Lᴴ = A) (row u : m → 𝕜) :
    ∑ j, (∑ g, row g * star (L⁻¹ j g)) * (∑ h, L⁻¹ j h * u h) = row ⬝ᵥ A⁻¹ *ᵥ u := by
  rw [← chol_inv h, ← mulVec_mulVec, dotProduct_mulVec]
  rfl

open Classical in
theorem sparsity_eq (hchol : CholeskySpec chol) (half : Bool) (beta : ℝ) (KtK : Matrix n n 𝕜) (hK : KtK.IsHermitian) (alpha : n → ℝ)
    (P : n → Prop) (hP : Active KtK alpha = P) (hpos : (block (regularised half beta KtK alpha) P).PosDef) (f : n) :
    sparsity chol pinvh half beta KtK alpha f
      = RCLike.re ((beta : 𝕜) * KtK f f - (beta : 𝕜) ^ 2 * ((fun g : {g // P g} => KtK f g) ⬝ᵥ
          (block (regularised half beta KtK alpha) P)⁻¹ *ᵥ fun g : {g // P g} => KtK g f)) := by
  subst hP
  obtain ⟨L, hL, hc⟩ := exists_chol hpos (hchol (block (regularised half beta KtK alpha) (Active KtK alpha)))
  unfold sparsity
  simp only [hL]
  rw [← chol_dot hc.2]
  congr 3
  refine Finset.sum_congr rfl fun j _ => ?_
  rw [RCLike.ofReal_pow, ← RCLike.mul_conj]
  congr 1
  rw [map_sum]
  refine Finset.sum_congr rfl fun g _ => ?_
  rw [map_mul, RCLike.star_def, RCLike.conj_conj, mul_comm]
  congr 1
  exact hK.apply _ _

open Classical in
theorem quality_eq (hchol : CholeskySpec chol) (half : Bool) (beta : ℝ) (KtK : Matrix n n 𝕜) (y : n → 𝕜) (alpha : n → ℝ)
    (P : n → Prop) (hP : Active KtK alpha = P) (hpos : (block (regularised half beta KtK alpha) P).PosDef) (f : n) :
    qualityFull chol pinvh half beta KtK y alpha f
      = (beta : 𝕜) * y f - (beta : 𝕜) ^ 2 * ((fun g : {g // P g} => KtK f g) ⬝ᵥ
          (block (regularised half beta KtK alpha) P)⁻¹ *ᵥ fun g : {g // P g} => y g) := by
  subst hP
  obtain ⟨L, hL, hc⟩ := exists_chol hpos (hchol (block (regularised half beta KtK alpha) (Active KtK alpha)))
  unfold qualityFull
  simp only [hL]
  rw [← chol_dot hc.2]

/-! ## Adding a feature -/

theorem active_add (KtK : Matrix n n 𝕜) (alpha : n → ℝ) (f : n) (hf : Valid KtK f) (t : ℝ) (ht : t < 1e10) (g : n) :
    Active KtK (Function.update alpha f t) g ↔ Active KtK alpha g ∨ g = f := by
  by_cases h : g = f
  · subst h
    simp [Active, Function.update_self, ht, hf]
  · simp [Active, Function.update_of_ne h, h]

open Classical in
theorem block_other (half : Bool) (beta : ℝ) (KtK : Matrix n n 𝕜) (alpha : n → ℝ) (f : n) (t : ℝ) (P : n → Prop) (hf : ¬ P f) :
    block (regularised half beta KtK (Function.update alpha f t)) P = block (regularised half beta KtK alpha) P := by
  have hne : ∀ g : {g // P g}, (g : n) ≠ f := fun g h => hf (h ▸ g.2)
  rw [block_regularised, block_regularised]
  congr 2
  funext g
  rw [Function.update_of_ne (hne g)]

theorem update_pos {alpha : n → ℝ} (ha : ∀ f, 0 < alpha f) (f : n) {t : ℝ} (ht : 0 < t) (g : n) : 0 < Function.update alpha f t g := by
  by_cases h : g = f
  · subst h; rwa [Function.update_self]
  · rw [Function.update_of_ne h]; exact ha g

/-- The entry on the diagonal for the precision `t`. -/
noncomputable def halved (half : Bool) (t : ℝ) : ℝ := if half then t / 2 else t

theorem halved_pos (half : Bool) {t : ℝ} (h : 0 < t) : 0 < halved half t := by
  cases half
  · exact h
  · exact half_pos h

open Classical in
/-- How the inverse and the evidence with the feature `f` at the precision `t` follow from the quantities without it. -/
theorem add_values (hchol : CholeskySpec chol) (half : Bool) (beta : ℝ) (hb : 0 ≤ beta) (KtK : Matrix n n 𝕜) (hK : KtK.PosSemidef)
    (y : n → 𝕜) (alpha : n → ℝ) (ha : ∀ f, 0 < alpha f) (f : n) (hf : ¬ Active KtK alpha f) (hv : Valid KtK f) (t : ℝ) (ht : 0 < t)
    (htc : t < 1e10) (P : n → Prop) (hP : Active KtK (Function.update alpha f t) = P) (hPf : P f) :
    let S := sparsity chol pinvh half beta KtK alpha f
    let Q := qualityFull chol pinvh half beta KtK y alpha f
    let A := block (regularised half beta KtK (Function.update alpha f t)) P
    let B := block (regularised half beta KtK alpha) (Active KtK alpha)
    let g := RCLike.re (A⁻¹ ⟨f, hPf⟩ ⟨f, hPf⟩)
    let x := (A⁻¹ *ᵥ fun i : {g // P g} => y i) ⟨f, hPf⟩
    (0 < g) ∧ (halved half t + S = 1 / g) ∧ (Q = ((1 / g : ℝ) : 𝕜) * ((beta : 𝕜) * x)) ∧
    (Real.log ‖B.det‖ = Real.log ‖A.det‖ + Real.log g) ∧
    (RCLike.re (star (fun i : {g // P g} => y i) ⬝ᵥ A⁻¹ *ᵥ fun i : {g // P g} => y i)
      = RCLike.re (star (fun i : {g // Active KtK alpha g} => y i) ⬝ᵥ B⁻¹ *ᵥ fun i : {g // Active KtK alpha g} => y i)
        + ‖x‖ ^ 2 / g) := by
  intro S Q A B g x
  have hiff : ∀ g, P g ↔ Active KtK alpha g ∨ g = f := fun g => by rw [← hP]; exact active_add KtK alpha f hv t htc g
  have hA : A.PosDef := posDef_block half beta hb KtK hK _ (update_pos ha f ht) P
  have hB : B.PosDef := posDef_block half beta hb KtK hK _ ha _
  obtain ⟨h1, h2, h3, h4, h5⟩ := Border.block_remove P (Active KtK alpha) (regularised half beta KtK (Function.update alpha f t)) f hf
    hiff hA y
  have hBB : block (regularised half beta KtK (Function.update alpha f t)) (Active KtK alpha) = B :=
    block_other half beta KtK alpha f t _ hf
  rw [hBB] at h2 h3 h4 h5
  have hrow : (fun i : {g // Active KtK alpha g} => regularised half beta KtK (Function.update alpha f t) f i)
      = (beta : 𝕜) • fun i : {g // Active KtK alpha g} => KtK f i := by
    funext i
    have : f ≠ i := fun h => hf (h ▸ i.2)
    rw [regularised, Matrix.add_apply, Matrix.smul_apply, diagonal_apply_ne _ this, add_zero, Pi.smul_apply]
  have hcol : (fun i : {g // Active KtK alpha g} => regularised half beta KtK (Function.update alpha f t) i f)
      = (beta : 𝕜) • fun i : {g // Active KtK alpha g} => KtK i f := by
    funext i
    have : (i : n) ≠ f := fun h => hf (h ▸ i.2)
    rw [regularised, Matrix.add_apply, Matrix.smul_apply, diagonal_apply_ne _ this, add_zero, Pi.smul_apply]
  have hdiag : regularised half beta KtK (Function.update alpha f t) f f = (beta : 𝕜) * KtK f f + ((halved half t : ℝ) : 𝕜) := by
    rw [regularised, Matrix.add_apply, Matrix.smul_apply, diagonal_apply_eq, smul_eq_mul, Function.update_self, halved]
  rw [hrow, hcol, hdiag, smul_dotProduct, mulVec_smul, dotProduct_smul, smul_eq_mul, smul_eq_mul] at h4
  rw [hrow, smul_dotProduct, smul_eq_mul] at h5
  refine ⟨h1, ?_, ?_, h2, h3⟩
  · have h6 := congrArg RCLike.re h4
    rw [RCLike.ofReal_re] at h6
    rw [show S = _ from sparsity_eq pinvh hchol half beta KtK hK.1 alpha _ rfl hB f, ← h6]
    simp only [map_sub, map_add, RCLike.ofReal_re, pow_two, mul_assoc]
    ring
  · rw [show Q = _ from quality_eq pinvh hchol half beta KtK y alpha _ rfl hB f, mul_left_comm, ← h5]
    ring

open Classical in
/-- The sum over the active features with an additional feature. -/
theorem sum_add (alpha : n → ℝ) (P P' : n → Prop) (f : n) (t : ℝ) (hf : ¬ P' f) (h : ∀ g, P g ↔ P' g ∨ g = f) (F : ℝ → ℝ) :
    ∑ g : {g // P g}, F (Function.update alpha f t g) = (∑ g : {g // P' g}, F (alpha g)) + F t := by
  rw [← Equiv.sum_comp (Border.splitEquiv P P' f hf h), Fintype.sum_sum_type]
  congr 1
  · refine Finset.sum_congr rfl fun g _ => ?_
    show F (Function.update alpha f t g) = _
    have hne : (g : n) ≠ f := fun hh => hf (hh ▸ g.2)
    rw [Function.update_of_ne hne]
  · rw [Finset.univ_unique, Finset.sum_singleton]
    show F (Function.update alpha f t f) = _
    rw [Function.update_self]

/-- The change of the evidence by a feature with the precision `t`, up to a factor. -/
noncomputable def part (s q2 t : ℝ) : ℝ := Real.log t - Real.log (t + s) + q2 / (t + s)

open Classical in
theorem evidence_add (hchol : CholeskySpec chol) (cplx : Bool) (beta : ℝ) (hb : 0 ≤ beta) (KtK : Matrix n n 𝕜) (hK : KtK.PosSemidef)
    (y : n → 𝕜) (alpha : n → ℝ) (ha : ∀ f, 0 < alpha f) (d : ℝ) (f : n) (hf : ¬ Active KtK alpha f) (hv : Valid KtK f) (t : ℝ)
    (ht : 0 < t) (htc : t < 1e10) :
    evidence chol pinvh cplx false beta KtK y (Function.update alpha f t) d
      = evidence chol pinvh cplx false beta KtK y alpha d + (if cplx then 1 else 1 / 2) *
        part (sparsity chol pinvh false beta KtK alpha f) (‖qualityFull chol pinvh false beta KtK y alpha f‖ ^ 2) t := by
  obtain ⟨P, hP⟩ : ∃ P, Active KtK (Function.update alpha f t) = P := ⟨_, rfl⟩
  have hiff : ∀ g, P g ↔ Active KtK alpha g ∨ g = f := fun g => by rw [← hP]; exact active_add KtK alpha f hv t htc g
  have hPf : P f := (hiff f).mpr (Or.inr rfl)
  obtain ⟨h1, h2, h3, h4, h5⟩ := add_values pinvh hchol false beta hb KtK hK y alpha ha f hf hv t ht htc P hP hPf
  have hA := posDef_block false beta hb KtK hK _ (update_pos ha f ht) P
  have hB := posDef_block false beta hb KtK hK _ ha (Active KtK alpha)
  rw [evidence_eq pinvh hchol cplx beta KtK y _ (update_pos ha f ht) d P hP hA, evidence_eq pinvh hchol cplx beta KtK y _ ha d _ rfl hB,
    h4, h5, sum_add alpha P _ f t hf hiff Real.log, h3, part]
  simp only [halved, Bool.false_eq_true, if_false] at h2
  rw [h2, norm_mul, norm_mul, RCLike.norm_ofReal, RCLike.norm_ofReal, mul_pow, mul_pow, sq_abs, sq_abs,
    show ∀ x : ℝ, Real.log (1 / x) = -Real.log x from fun x => by rw [one_div, Real.log_inv]]
  field_simp
  ring

open Classical in
theorem evidence_add_half (hchol : CholeskySpec chol) (beta : ℝ) (hb : 0 ≤ beta) (KtK : Matrix n n 𝕜) (hK : KtK.PosSemidef)
    (y : n → 𝕜) (alpha : n → ℝ) (ha : ∀ f, 0 < alpha f) (d : ℝ) (f : n) (hf : ¬ Active KtK alpha f) (hv : Valid KtK f) (t : ℝ)
    (ht : 0 < t) (htc : t < 1e10) :
    evidence chol pinvh true true beta KtK y (Function.update alpha f t) d
      = evidence chol pinvh true true beta KtK y alpha d + 1 / 2 *
        part (sparsity chol pinvh true beta KtK alpha f) (2 * ‖qualityFull chol pinvh true beta KtK y alpha f‖ ^ 2) (t / 2) := by
  obtain ⟨P, hP⟩ : ∃ P, Active KtK (Function.update alpha f t) = P := ⟨_, rfl⟩
  have hiff : ∀ g, P g ↔ Active KtK alpha g ∨ g = f := fun g => by rw [← hP]; exact active_add KtK alpha f hv t htc g
  have hPf : P f := (hiff f).mpr (Or.inr rfl)
  obtain ⟨h1, h2, h3, h4, h5⟩ := add_values pinvh hchol true beta hb KtK hK y alpha ha f hf hv t ht htc P hP hPf
  have hA := posDef_block true beta hb KtK hK _ (update_pos ha f ht) P
  have hB := posDef_block true beta hb KtK hK _ ha (Active KtK alpha)
  rw [evidence_half pinvh hchol beta KtK y _ (update_pos ha f ht) d P hP hA, evidence_half pinvh hchol beta KtK y _ ha d _ rfl hB,
    h4, h5, sum_add alpha P _ f t hf hiff (fun x => Real.log (x / 2)), h3, part]
  simp only [halved, if_true] at h2
  rw [h2, norm_mul, norm_mul, RCLike.norm_ofReal, RCLike.norm_ofReal, mul_pow, mul_pow, sq_abs, sq_abs,
    show ∀ x : ℝ, Real.log (1 / x) = -Real.log x from fun x => by rw [one_div, Real.log_inv]]
  field_simp
  ring

open Classical in
theorem sparsity_pos (hchol : CholeskySpec chol) (half : Bool) (beta : ℝ) (hb : 0 < beta) (KtK : Matrix n n 𝕜) (hK : KtK.PosSemidef)
    (alpha : n → ℝ) (ha : ∀ f, 0 < alpha f) (f : n) (hf : ¬ Active KtK alpha f) (hv : Valid KtK f) :
    0 < sparsity chol pinvh half beta KtK alpha f := by
  obtain ⟨P, hP⟩ : ∃ P, Active KtK (Function.update alpha f 1) = P := ⟨_, rfl⟩
  have hlt : (1 : ℝ) < 1e10 := by norm_num
  have hiff : ∀ g, P g ↔ Active KtK alpha g ∨ g = f := fun g => by rw [← hP]; exact active_add KtK alpha f hv 1 hlt g
  have hPf : P f := (hiff f).mpr (Or.inr rfl)
  obtain ⟨h1, h2, -⟩ := add_values pinvh hchol half beta hb.le KtK hK (0 : n → 𝕜) alpha ha f hf hv 1 one_pos hlt P hP hPf
  have hG : ((beta : 𝕜) • block KtK P).PosSemidef := (hK.submatrix _).smul (RCLike.ofReal_nonneg.mpr hb.le)
  have h3 := diag_mul_inv_lt _ hG (fun g : {g // P g} => diagAlpha half (Function.update alpha f 1) g)
    (fun g => diagAlpha_pos half (update_pos ha f one_pos g)) ⟨f, hPf⟩ (by
      rw [Matrix.smul_apply, smul_eq_mul, RCLike.re_ofReal_mul]
      exact mul_pos hb (diag_re_pos KtK hK f hv))
  have e : block (regularised half beta KtK (Function.update alpha f 1)) P
      = (beta : 𝕜) • block KtK P + diagonal fun g : {g // P g} => (diagAlpha half (Function.update alpha f 1) g : 𝕜) :=
    block_regularised half beta KtK _ _
  rw [← e] at h3
  have h4 : diagAlpha half (Function.update alpha f 1) f = halved half 1 := by rw [diagAlpha, halved, Function.update_self]
  simp only [h4] at h3
  have h5 : halved half 1 < 1 / RCLike.re ((block (regularised half beta KtK (Function.update alpha f 1)) P)⁻¹ ⟨f, hPf⟩ ⟨f, hPf⟩) :=
    (lt_div_iff₀ h1).mpr h3
  linarith

/-! ## Features that are part of the model -/

open Classical in
/-- The quantities of an active feature. -/
theorem active_quantities (hchol : CholeskySpec chol) (half : Bool) (beta : ℝ) (hb : 0 ≤ beta) (KtK : Matrix n n 𝕜)
    (hK : KtK.PosSemidef) (y : n → 𝕜) (alpha : n → ℝ) (ha : ∀ f, 0 < alpha f) (f : n) (P : n → Prop) (hP : Active KtK alpha = P)
    (hPf : P f) :
    let A := block (regularised half beta KtK alpha) P
    let a := halved half (alpha f)
    let g := RCLike.re (A⁻¹ ⟨f, hPf⟩ ⟨f, hPf⟩)
    let x := (A⁻¹ *ᵥ fun i : {g // P g} => y i) ⟨f, hPf⟩
    (sparsity chol pinvh half beta KtK alpha f = a - a ^ 2 * g) ∧
    (qualityFull chol pinvh half beta KtK y alpha f = (a : 𝕜) * ((beta : 𝕜) * x)) := by
  intro A a g x
  have hA : A.PosDef := posDef_block half beta hb KtK hK _ ha P
  have hu : IsUnit A.det := hA.det_pos.ne'.isUnit
  have hdot : ∀ u : {g // P g} → 𝕜, (beta : 𝕜) * ((fun g : {g // P g} => KtK f g) ⬝ᵥ A⁻¹ *ᵥ u)
      = u ⟨f, hPf⟩ - (a : 𝕜) * (A⁻¹ *ᵥ u) ⟨f, hPf⟩ := by
    intro u
    have h1 : A *ᵥ (A⁻¹ *ᵥ u) = u := by rw [mulVec_mulVec, mul_nonsing_inv _ hu, one_mulVec]
    have h2 : (A *ᵥ (A⁻¹ *ᵥ u)) ⟨f, hPf⟩ = u ⟨f, hPf⟩ := by rw [h1]
    have h3 : A = (beta : 𝕜) • block KtK P + diagonal fun g : {g // P g} => ((if half then alpha g / 2 else alpha g : ℝ) : 𝕜) :=
      block_regularised half beta KtK alpha P
    rw [← h2]
    generalize A⁻¹ *ᵥ u = z
    rw [h3, add_mulVec, Pi.add_apply, mulVec_diagonal, smul_mulVec, Pi.smul_apply, smul_eq_mul]
    exact (add_sub_cancel_right _ _).symm
  constructor
  · rw [sparsity_eq pinvh hchol half beta KtK hK.1 alpha P hP hA f]
    have h1 : (beta : 𝕜) ^ 2 * ((fun g : {g // P g} => KtK f g) ⬝ᵥ A⁻¹ *ᵥ fun g : {g // P g} => KtK g f)
        = (beta : 𝕜) * KtK f f - (a : 𝕜) * ((beta : 𝕜) * (A⁻¹ *ᵥ fun g : {g // P g} => KtK g f) ⟨f, hPf⟩) := by
      rw [pow_two, mul_assoc, hdot]
      ring
    have h2 : (beta : 𝕜) * (A⁻¹ *ᵥ fun g : {g // P g} => KtK g f) ⟨f, hPf⟩ = 1 - (a : 𝕜) * A⁻¹ ⟨f, hPf⟩ ⟨f, hPf⟩ := by
      have h3 : (beta : 𝕜) • (fun g : {g // P g} => KtK g f) = A *ᵥ Pi.single ⟨f, hPf⟩ 1 - (a : 𝕜) • Pi.single ⟨f, hPf⟩ 1 := by
        have h4 : A = (beta : 𝕜) • block KtK P + diagonal fun g : {g // P g} => ((if half then alpha g / 2 else alpha g : ℝ) : 𝕜) :=
          block_regularised half beta KtK alpha P
        rw [h4]
        funext i
        rw [mulVec_single_one, Pi.sub_apply, Pi.smul_apply, Pi.smul_apply, smul_eq_mul, smul_eq_mul, Matrix.col_apply, Matrix.add_apply,
          Matrix.smul_apply, smul_eq_mul, diagonal_apply]
        by_cases hi : i = ⟨f, hPf⟩
        · subst hi
          rw [if_pos rfl, Pi.single_eq_same, mul_one]
          exact (add_sub_cancel_right _ _).symm
        · rw [if_neg hi, Pi.single_eq_of_ne hi, add_zero, mul_zero, sub_zero]
          rfl
      have h5 : (beta : 𝕜) * (A⁻¹ *ᵥ fun g : {g // P g} => KtK g f) ⟨f, hPf⟩
          = (A⁻¹ *ᵥ ((beta : 𝕜) • fun g : {g // P g} => KtK g f)) ⟨f, hPf⟩ := by
        rw [mulVec_smul, Pi.smul_apply, smul_eq_mul]
      rw [h5, h3, mulVec_sub, mulVec_mulVec, nonsing_inv_mul _ hu, one_mulVec, mulVec_smul, Pi.sub_apply, Pi.single_eq_same, Pi.smul_apply,
        mulVec_single_one, smul_eq_mul]
      rfl
    rw [h1, h2, sub_sub_cancel, RCLike.re_ofReal_mul, map_sub, RCLike.re_ofReal_mul, RCLike.one_re]
    show a * (1 - a * g) = _
    ring
  · rw [quality_eq pinvh hchol half beta KtK y alpha P hP hA f, pow_two, mul_assoc, hdot]
    show _ = (a : 𝕜) * ((beta : 𝕜) * x)
    ring

open Classical in
/-- The precisions without the feature `f`. -/
noncomputable def without (alpha : n → ℝ) (f : n) : n → ℝ := Function.update alpha f 1e10

theorem without_pos {alpha : n → ℝ} (ha : ∀ f, 0 < alpha f) (f g : n) : 0 < without alpha f g := by
  classical
  unfold without
  by_cases h : g = f
  · subst h
    rw [Function.update_self]
    norm_num
  · rw [Function.update_of_ne h]
    exact ha g

theorem without_not_active (KtK : Matrix n n 𝕜) (alpha : n → ℝ) (f : n) : ¬ Active KtK (without alpha f) f := by
  intro h
  have := h.1
  rw [without, Function.update_self] at this
  exact lt_irrefl _ this

/-- Restoring the precision of the feature `f`. -/
theorem update_without (alpha : n → ℝ) (f : n) (t : ℝ) : Function.update (without alpha f) f t = Function.update alpha f t := by
  funext g
  by_cases h : g = f
  · subst h
    rw [Function.update_self, Function.update_self]
  · rw [Function.update_of_ne h, Function.update_of_ne h, without, Function.update_of_ne h]

open Classical in
/-- `si` and `qi` of an active feature are the quantities of the model without it; the quantities with it follow from them. -/
theorem active_factors (hchol : CholeskySpec chol) (half : Bool) (beta : ℝ) (hb : 0 < beta) (KtK : Matrix n n 𝕜)
    (hK : KtK.PosSemidef) (y : n → 𝕜) (alpha : n → ℝ) (ha : ∀ f, 0 < alpha f) (f : n) (hf : Active KtK alpha f) :
    let a := halved half (alpha f)
    let s := sparsity chol pinvh half beta KtK (without alpha f) f
    let q := qualityFull chol pinvh half beta KtK y (without alpha f) f
    (sparsityFactor chol pinvh half beta KtK alpha f = s) ∧
    (qualityFactor chol pinvh half beta KtK y alpha f = RCLike.re q) ∧
    (sparsity chol pinvh half beta KtK alpha f = a * s / (a + s)) ∧
    (quality chol pinvh half beta KtK y alpha f = a * RCLike.re q / (a + s)) := by
  intro a s q
  have hup : Function.update (without alpha f) f (alpha f) = alpha := by
    rw [update_without, Function.update_eq_self]
  have hP : Active KtK (Function.update (without alpha f) f (alpha f)) = Active KtK alpha := by rw [hup]
  have hnot := without_not_active KtK alpha f
  obtain ⟨h1, h2, h3, -⟩ := add_values pinvh hchol half beta hb.le KtK hK y (without alpha f) (without_pos ha f) f hnot hf.2 (alpha f) (ha f)
    hf.1 _ hP hf
  obtain ⟨h4, h5⟩ := active_quantities pinvh hchol half beta hb.le KtK hK y alpha ha f _ rfl hf
  have hs : 0 < s := sparsity_pos pinvh hchol half beta hb KtK hK _ (without_pos ha f) f hnot hf.2
  simp only [hup] at h1 h2 h3
  have h2' : a + s = 1 / RCLike.re ((block (regularised half beta KtK alpha) (Active KtK alpha))⁻¹ ⟨f, hf⟩ ⟨f, hf⟩) := h2
  have hq : RCLike.re q = 1 / RCLike.re ((block (regularised half beta KtK alpha) (Active KtK alpha))⁻¹ ⟨f, hf⟩ ⟨f, hf⟩)
      * RCLike.re ((beta : 𝕜) * ((block (regularised half beta KtK alpha) (Active KtK alpha))⁻¹ *ᵥ
        fun i : {g // Active KtK alpha g} => y i) ⟨f, hf⟩) := by
    rw [show q = _ from h3, RCLike.re_ofReal_mul]
  have ha0 : 0 < a := halved_pos half (ha f)
  have hSS : sparsity chol pinvh half beta KtK alpha f = a * s / (a + s) := by
    rw [h4]
    show a - a ^ 2 * _ = _
    have hg : RCLike.re ((block (regularised half beta KtK alpha) (Active KtK alpha))⁻¹ ⟨f, hf⟩ ⟨f, hf⟩) = 1 / (a + s) := by
      rw [h2', one_div_one_div]
    rw [hg]
    field_simp
    ring
  have hQQ : quality chol pinvh half beta KtK y alpha f = a * RCLike.re q / (a + s) := by
    rw [quality, h5, RCLike.re_ofReal_mul, hq, h2']
    show a * _ = _
    field_simp
  have hden : (alpha f - if half then 2 * (a * s / (a + s)) else a * s / (a + s)) = (alpha f / a) * (a ^ 2 / (a + s)) := by
    have hgen : ∀ c : ℝ, c * a - c * (a * s / (a + s)) = c * a / a * (a ^ 2 / (a + s)) := by
      intro c
      field_simp
      ring
    rcases half with _ | _
    · have := hgen 1
      rw [one_mul, one_mul] at this
      exact this
    · have h6 : alpha f = 2 * a := by
        show alpha f = 2 * (alpha f / 2)
        ring
      rw [h6]
      exact hgen 2
  have haf := ha f
  refine ⟨?_, ?_, hSS, hQQ⟩
  · unfold sparsityFactor
    simp only [hf, if_true, hSS, hden]
    field_simp
  · unfold qualityFactor
    simp only [hf, if_true, hSS, hQQ, hden]
    field_simp

end Quantities

/-! ## The best precision of one feature -/

/-- The largest value of `part`, or its limit for large precisions. -/
noncomputable def best (s q2 : ℝ) : ℝ := if s < q2 then (q2 - s) / s + Real.log (s / q2) else 0

theorem part_le_best (s q2 t : ℝ) (hs : 0 < s) (hq : 0 ≤ q2) (ht : 0 < t) : part s q2 t ≤ best s q2 := by
  have hu : 0 < t / (t + s) := by positivity
  have e1 : Real.log t - Real.log (t + s) = Real.log (t / (t + s)) := (Real.log_div ht.ne' (by positivity)).symm
  have e2 : q2 / (t + s) = q2 / s * (1 - t / (t + s)) := by field_simp; ring
  rw [part, e1, e2, best]
  have hu1 : t / (t + s) ≤ 1 := (div_le_one (by positivity)).mpr (by linarith)
  generalize t / (t + s) = u at hu hu1
  split_ifs with h
  · have hq' : 0 < q2 := hs.trans h
    have h1 := Real.log_le_sub_one_of_pos (mul_pos (div_pos hq' hs) hu)
    rw [Real.log_mul (div_pos hq' hs).ne' hu.ne', Real.log_div hq'.ne' hs.ne'] at h1
    rw [Real.log_div hs.ne' hq'.ne', sub_div, div_self hs.ne']
    linarith
  · have h1 := Real.log_le_sub_one_of_pos hu
    have h2 : q2 / s ≤ 1 := (div_le_one hs).mpr (not_lt.mp h)
    nlinarith

theorem part_best (s q2 : ℝ) (hs : 0 < s) (h : s < q2) : part s q2 (s ^ 2 / (q2 - s)) = best s q2 := by
  have hq : 0 < q2 := hs.trans h
  have hd : 0 < q2 - s := sub_pos.mpr h
  have e : s ^ 2 / (q2 - s) + s = s * q2 / (q2 - s) := by field_simp; ring
  have h1 : 0 < s ^ 2 / (q2 - s) := by positivity
  have h2 : 0 < s * q2 / (q2 - s) := by positivity
  rw [part, e, ← Real.log_div h1.ne' h2.ne', best, if_pos h]
  have e2 : s ^ 2 / (q2 - s) / (s * q2 / (q2 - s)) = s / q2 := by field_simp
  rw [e2, add_comm]
  congr 1
  field_simp

theorem best_nonneg (s q2 : ℝ) (hs : 0 < s) : 0 ≤ best s q2 := by
  unfold best
  split_ifs with h
  · have hq : 0 < q2 := hs.trans h
    have h1 := Real.log_le_sub_one_of_pos (div_pos hq hs)
    rw [Real.log_div hq.ne' hs.ne'] at h1
    rw [Real.log_div hs.ne' hq.ne', sub_div, div_self hs.ne']
    linarith
  · exact le_rfl

end GPSKet.GrowingRVM
