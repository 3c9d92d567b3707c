import Verif.Lemmas.PerronFrobenius
import Verif.Spec.Rayleigh
import Mathlib.Analysis.Complex.Norm
import Mathlib.Data.Complex.BigOperators
import Mathlib.Logic.Relation
import Mathlib.Algebra.BigOperators.Field
import Mathlib.Tactic.LinearCombination
import Mathlib.Tactic.FieldSimp

/-!
# Real symmetric matrices without positive off-diagonal elements

Lemmas for C170: local energies bound the lowest energy, and the ground state is positive and unique.
-/

namespace GPSKet.Stoquastic
open GPSKet.Spec

variable {C : Type} [Fintype C]

/-- Real, symmetric, no positive off-diagonal elements, and no elements out of the sector `P`. -/
structure Good (P : C → Prop) (H : C → C → ℂ) (A : C → C → ℝ) : Prop where
  real : ∀ x y, H x y = A x y
  symm : ∀ x y, A x y = A y x
  nonpos : ∀ x y, x ≠ y → A x y ≤ 0
  closed : ∀ x y, P x → ¬ P y → A x y = 0

/-- The numerator of the energy. -/
noncomputable def energy (H : C → C → ℂ) (phi : C → ℂ) : ℝ := (∑ x, ∑ y, (starRingEnd ℂ) (phi x) * H x y * phi y).re

theorem rayleigh_re (H : C → C → ℂ) (phi : C → ℂ) : (rayleigh H phi).re = energy H phi / bornNorm phi := by
  unfold rayleigh energy
  rw [Complex.div_ofReal_re]

theorem bornNorm_pos {phi : C → ℂ} (h : phi ≠ 0) : 0 < bornNorm phi := by
  obtain ⟨x, hx⟩ := Function.ne_iff.mp h
  refine Finset.sum_pos' (fun x _ => by positivity) ⟨x, Finset.mem_univ x, ?_⟩
  have : 0 < ‖phi x‖ := norm_pos_iff.mpr hx
  positivity

variable {P : C → Prop} {H : C → C → ℂ} {A : C → C → ℝ}

/-- The energy is the average of the local energies of positive amplitudes plus a sum of squares. -/
theorem identity (hg : Good P H A) (psi : C → ℝ) (hpsi : ∀ x, 0 < psi x) (phi : C → ℂ) :
    energy H phi = ∑ x, ‖phi x‖ ^ 2 * ((∑ y, A x y * psi y) / psi x)
      + 1 / 2 * ∑ x, ∑ y, -A x y * (psi x * psi y * ‖phi x / psi x - phi y / psi y‖ ^ 2) := by
  have hterm : ∀ x y, ((starRingEnd ℂ) (phi x) * H x y * phi y).re =
      1 / 2 * (A x y * ‖phi x‖ ^ 2 * psi y / psi x) + 1 / 2 * (A x y * ‖phi y‖ ^ 2 * psi x / psi y)
        + 1 / 2 * (-A x y * (psi x * psi y * ‖phi x / psi x - phi y / psi y‖ ^ 2)) := by
    intro x y
    have hx := (hpsi x).ne'
    have hy := (hpsi y).ne'
    have e1 : ((starRingEnd ℂ) (phi x) * H x y * phi y).re = A x y * ((phi x).re * (phi y).re + (phi x).im * (phi y).im) := by
      rw [hg.real]
      simp only [Complex.mul_re, Complex.mul_im, Complex.conj_re, Complex.conj_im, Complex.ofReal_re, Complex.ofReal_im]
      ring
    have e2 : ‖phi x / psi x - phi y / psi y‖ ^ 2 =
        ((phi x).re / psi x - (phi y).re / psi y) ^ 2 + ((phi x).im / psi x - (phi y).im / psi y) ^ 2 := by
      rw [← Complex.normSq_eq_norm_sq, Complex.normSq_apply, Complex.sub_re, Complex.sub_im, Complex.div_ofReal_re, Complex.div_ofReal_re,
        Complex.div_ofReal_im, Complex.div_ofReal_im]
      ring
    have e3 : ∀ z : ℂ, ‖z‖ ^ 2 = z.re ^ 2 + z.im ^ 2 := by
      intro z
      rw [← Complex.normSq_eq_norm_sq, Complex.normSq_apply]; ring
    rw [e1, e2, e3, e3]
    field_simp
    ring
  have hsum : energy H phi = ∑ x, ∑ y, (1 / 2 * (A x y * ‖phi x‖ ^ 2 * psi y / psi x) + 1 / 2 * (A x y * ‖phi y‖ ^ 2 * psi x / psi y)
        + 1 / 2 * (-A x y * (psi x * psi y * ‖phi x / psi x - phi y / psi y‖ ^ 2))) := by
    unfold energy
    rw [Complex.re_sum]
    refine Finset.sum_congr rfl fun x _ => ?_
    rw [Complex.re_sum]
    exact Finset.sum_congr rfl fun y _ => hterm x y
  rw [hsum]
  simp only [Finset.sum_add_distrib]
  have hsw : ∑ x, ∑ y, 1 / 2 * (A x y * ‖phi y‖ ^ 2 * psi x / psi y) = ∑ x, ∑ y, 1 / 2 * (A x y * ‖phi x‖ ^ 2 * psi y / psi x) := by
    rw [Finset.sum_comm]
    refine Finset.sum_congr rfl fun x _ => Finset.sum_congr rfl fun y _ => ?_
    rw [hg.symm x y]
  rw [hsw, Finset.mul_sum]
  congr 1
  · rw [← Finset.sum_add_distrib]
    refine Finset.sum_congr rfl fun x _ => ?_
    rw [← Finset.sum_add_distrib, Finset.sum_div, Finset.mul_sum]
    refine Finset.sum_congr rfl fun y _ => ?_
    ring
  · refine Finset.sum_congr rfl fun x _ => ?_
    rw [Finset.mul_sum]

omit [Fintype C] in
/-- Squares are not negative. -/
theorem square_nonneg (hg : Good P H A) (psi : C → ℝ) (hpsi : ∀ x, 0 < psi x) (phi : C → ℂ) (x y : C) :
    0 ≤ -A x y * (psi x * psi y * ‖phi x / psi x - phi y / psi y‖ ^ 2) := by
  by_cases h : x = y
  · subst h; simp
  · refine mul_nonneg (neg_nonneg.mpr (hg.nonpos x y h)) (mul_nonneg (mul_pos (hpsi x) (hpsi y)).le (by positivity))

open Classical in
/-- Positive everywhere, and the same on the sector. -/
noncomputable def extend (P : C → Prop) (psi : C → ℝ) (x : C) : ℝ := if P x then psi x else 1

omit [Fintype C] in
theorem extend_pos {psi : C → ℝ} (h : ∀ x, P x → 0 < psi x) (x : C) : 0 < extend P psi x := by
  unfold extend
  split_ifs with hx
  · exact h x hx
  · exact one_pos

theorem extend_local (hg : Good P H A) (psi : C → ℝ) {x : C} (hx : P x) :
    (∑ y, A x y * extend P psi y) / extend P psi x = (∑ y, A x y * psi y) / psi x := by
  have h1 : extend P psi x = psi x := if_pos hx
  rw [h1]
  congr 1
  refine Finset.sum_congr rfl fun y _ => ?_
  by_cases hy : P y
  · rw [extend, if_pos hy]
  · rw [hg.closed x y hx hy, zero_mul, zero_mul]

/-- No state of the sector has an energy below the smallest local energy of positive amplitudes. -/
theorem barta (hg : Good P H A) (psi : C → ℝ) (hpsi : ∀ x, P x → 0 < psi x) (b : ℝ) (hb : ∀ x, P x → b ≤ (∑ y, A x y * psi y) / psi x)
    (phi : C → ℂ) (hphi : ∀ x, ¬ P x → phi x = 0) : b * bornNorm phi ≤ energy H phi := by
  rw [identity hg (extend P psi) (extend_pos hpsi) phi]
  have h1 : 0 ≤ 1 / 2 * ∑ x, ∑ y, -A x y * (extend P psi x * extend P psi y * ‖phi x / extend P psi x - phi y / extend P psi y‖ ^ 2) :=
    mul_nonneg (by norm_num) (Finset.sum_nonneg fun x _ => Finset.sum_nonneg fun y _ => square_nonneg hg _ (extend_pos hpsi) phi x y)
  have h2 : b * bornNorm phi ≤ ∑ x, ‖phi x‖ ^ 2 * ((∑ y, A x y * extend P psi y) / extend P psi x) := by
    unfold bornNorm
    rw [Finset.mul_sum]
    refine Finset.sum_le_sum fun x _ => ?_
    by_cases hx : P x
    · rw [extend_local hg psi hx, mul_comm]
      exact mul_le_mul_of_nonneg_left (hb x hx) (by positivity)
    · rw [hphi x hx]; simp
  linarith

/-- The energy of the amplitudes themselves is the average of their local energies. -/
theorem average (hg : Good P H A) (psi : C → ℝ) (hpsi : ∀ x, P x → 0 < psi x) (h0 : ∀ x, ¬ P x → psi x = 0) (b : ℝ)
    (hb : ∀ x, P x → (∑ y, A x y * psi y) / psi x ≤ b) : energy H (fun x => (psi x : ℂ)) ≤ b * bornNorm fun x => (psi x : ℂ) := by
  have h1 : energy H (fun x => (psi x : ℂ)) = ∑ x, psi x * ∑ y, A x y * psi y := by
    unfold energy
    rw [Complex.re_sum]
    refine Finset.sum_congr rfl fun x _ => ?_
    rw [Complex.re_sum, Finset.mul_sum]
    refine Finset.sum_congr rfl fun y _ => ?_
    rw [hg.real, Complex.conj_ofReal, ← Complex.ofReal_mul, ← Complex.ofReal_mul, Complex.ofReal_re]
    ring
  rw [h1]
  unfold bornNorm
  rw [Finset.mul_sum]
  refine Finset.sum_le_sum fun x _ => ?_
  by_cases hx : P x
  · have h2 := (div_le_iff₀ (hpsi x hx)).mp (hb x hx)
    rw [Complex.norm_real, Real.norm_of_nonneg (hpsi x hx).le]
    nlinarith [mul_le_mul_of_nonneg_left h2 (hpsi x hx).le]
  · simp [h0 x hx]

/-- If matrix elements connect the sector, there is a ground state with positive amplitudes, and it is the only one. -/
theorem ground (hg : Good P H A) (hne : ∃ x, P x) (hconn : ∀ x y, P x → P y → Relation.ReflTransGen (fun a b => A a b ≠ 0) x y) :
    ∃ (E : ℝ) (v : C → ℝ), (∀ x, P x → 0 < v x) ∧ (∀ x, ¬ P x → v x = 0) ∧ (∀ x, ∑ y, A x y * v y = E * v x) ∧
      ∀ phi : C → ℂ, (∀ x, ¬ P x → phi x = 0) →
        E * bornNorm phi ≤ energy H phi ∧ (energy H phi = E * bornNorm phi → ∃ c : ℂ, ∀ x, phi x = c * v x) := by
  classical
  have : Nonempty {x // P x} := by obtain ⟨x, hx⟩ := hne; exact ⟨⟨x, hx⟩⟩
  -- a shifted matrix without negative elements
  obtain ⟨c, hc⟩ : ∃ c : ℝ, ∀ x : {x // P x}, 0 ≤ c - A x.1 x.1 := by
    obtain ⟨x0, -, h0⟩ := Finset.exists_max_image Finset.univ (fun x : {x // P x} => A x.1 x.1) Finset.univ_nonempty
    refine ⟨A x0.1 x0.1, fun x => ?_⟩
    have := h0 x (Finset.mem_univ x)
    linarith
  have hnn : ∀ x y : {x // P x}, 0 ≤ (if x = y then c else 0) - A x.1 y.1 := by
    intro x y
    by_cases h : x = y
    · subst h; rw [if_pos rfl]; exact hc x
    · rw [if_neg h]
      have := hg.nonpos x.1 y.1 fun e => h (Subtype.ext e)
      linarith
  obtain ⟨w, hw, t, ht⟩ := PF.exists_nonneg (fun x y : {x // P x} => (if x = y then c else 0) - A x.1 y.1) hnn
  set v : C → ℝ := fun x => if h : P x then w ⟨x, h⟩ else 0 with hv
  have hvP : ∀ x : {x // P x}, v x.1 = w x := fun x => dif_pos x.2
  have hv0 : ∀ x, ¬ P x → v x = 0 := fun x hx => dif_neg hx
  have hvnn : ∀ x, 0 ≤ v x := by
    intro x
    by_cases hx : P x
    · rw [hvP ⟨x, hx⟩]; exact hw.1 _
    · rw [hv0 x hx]
  have hsub : ∀ f : C → ℝ, ∑ y, f y * v y = ∑ y : {x // P x}, f y.1 * w y := by
    intro f
    have e1 : ∑ y, f y * v y = ∑ y ∈ Finset.univ.filter P, f y * v y := by
      refine (Finset.sum_subset (Finset.subset_univ _) fun y _ hy => ?_).symm
      rw [hv0 y (by simpa using hy), mul_zero]
    rw [e1, Finset.sum_subtype (Finset.univ.filter P) (p := P) (by simp)]
    exact Finset.sum_congr rfl fun y _ => by rw [hvP]
  have heig : ∀ x, ∑ y, A x y * v y = (c - t) * v x := by
    intro x
    by_cases hx : P x
    · rw [hsub]
      have h1 := ht ⟨x, hx⟩
      simp only [sub_mul, Finset.sum_sub_distrib, ite_mul, zero_mul, Finset.sum_ite_eq, Finset.mem_univ, if_true] at h1
      rw [hvP ⟨x, hx⟩]
      linarith
    · rw [hv0 x hx, mul_zero]
      refine Finset.sum_eq_zero fun y _ => ?_
      by_cases hy : P y
      · rw [hg.symm, hg.closed y x hy hx, zero_mul]
      · rw [hv0 y hy, mul_zero]
  -- positive
  have hstep : ∀ x y, P x → A x y ≠ 0 → 0 < v y → 0 < v x := by
    intro x y hx hA hy
    by_contra h0
    have hx0 : v x = 0 := le_antisymm (not_lt.mp h0) (hvnn x)
    have h1 := heig x
    rw [hx0, mul_zero] at h1
    have h2 : ∀ z ∈ Finset.univ, A x z * v z ≤ 0 := by
      intro z _
      by_cases hz : x = z
      · rw [← hz, hx0, mul_zero]
      · exact mul_nonpos_of_nonpos_of_nonneg (hg.nonpos x z hz) (hvnn z)
    have h3 := (Finset.sum_eq_zero_iff_of_nonpos h2).mp h1 y (Finset.mem_univ y)
    exact (mul_ne_zero hA hy.ne') h3
  have hprop : ∀ x y, P x → Relation.ReflTransGen (fun a b => A a b ≠ 0) x y → P y ∧ (0 < v y → 0 < v x) := by
    intro x y hx h
    induction h with
    | refl => exact ⟨hx, id⟩
    | tail _ hbc ih =>
      obtain ⟨hb, hi⟩ := ih
      refine ⟨?_, fun h => hi (hstep _ _ hb hbc h)⟩
      by_contra hc'
      exact hbc (hg.closed _ _ hb hc')
  have hpos : ∀ x, P x → 0 < v x := by
    obtain ⟨k, hk⟩ : ∃ k, 0 < w k := by
      by_contra h
      have h0 : ∀ k, w k = 0 := fun k => le_antisymm (not_lt.mp fun h' => h ⟨k, h'⟩) (hw.1 k)
      have := hw.2
      simp [h0] at this
    intro x hx
    exact (hprop x k.1 hx (hconn x k.1 hx k.2)).2 (by rw [hvP]; exact hk)
  have hloc : ∀ x, P x → (∑ y, A x y * v y) / v x = c - t := fun x hx => by rw [heig, mul_div_cancel_right₀ _ (hpos x hx).ne']
  refine ⟨c - t, v, hpos, hv0, heig, fun phi hphi => ⟨barta hg v hpos _ (fun x hx => (hloc x hx).ge) phi hphi, fun he => ?_⟩⟩
  -- unique
  have hid := identity hg (extend P v) (extend_pos hpos) phi
  have h1 : ∑ x, ‖phi x‖ ^ 2 * ((∑ y, A x y * extend P v y) / extend P v x) = (c - t) * bornNorm phi := by
    unfold bornNorm
    rw [Finset.mul_sum]
    refine Finset.sum_congr rfl fun x _ => ?_
    by_cases hx : P x
    · rw [extend_local hg v hx, hloc x hx, mul_comm]
    · rw [hphi x hx]; simp
  rw [h1, he] at hid
  have hnn2 : ∀ x ∈ Finset.univ, 0 ≤ ∑ y, -A x y * (extend P v x * extend P v y * ‖phi x / extend P v x - phi y / extend P v y‖ ^ 2) :=
    fun x _ => Finset.sum_nonneg fun y _ => square_nonneg hg _ (extend_pos hpos) phi x y
  have h2 := (Finset.sum_eq_zero_iff_of_nonneg hnn2).mp (by linarith)
  have h3 : ∀ x y, A x y ≠ 0 → phi x / extend P v x = phi y / extend P v y := by
    intro x y hA
    have h4 := (Finset.sum_eq_zero_iff_of_nonneg fun y _ => square_nonneg hg _ (extend_pos hpos) phi x y).mp (h2 x (Finset.mem_univ x)) y
      (Finset.mem_univ y)
    have h5 := (mul_eq_zero.mp h4).resolve_left (neg_ne_zero.mpr hA)
    have h6 := (mul_eq_zero.mp h5).resolve_left (mul_pos (extend_pos hpos x) (extend_pos hpos y)).ne'
    exact sub_eq_zero.mp (norm_eq_zero.mp (pow_eq_zero_iff two_ne_zero |>.mp h6))
  have h4 : ∀ x y, Relation.ReflTransGen (fun a b => A a b ≠ 0) x y → phi x / extend P v x = phi y / extend P v y := by
    intro x y h
    induction h with
    | refl => rfl
    | tail _ hbc ih => exact ih.trans (h3 _ _ hbc)
  obtain ⟨x0, hx0⟩ := hne
  refine ⟨phi x0 / extend P v x0, fun x => ?_⟩
  by_cases hx : P x
  · rw [h4 x0 x (hconn x0 x hx0 hx)]
    have h5 : extend P v x = v x := if_pos hx
    rw [h5, div_mul_cancel₀]
    exact_mod_cast (hpos x hx).ne'
  · rw [hphi x hx, hv0 x hx]; simp

/-- The energy of an eigenvector. -/
theorem eigen_energy {A : C → C → ℝ} {E : ℝ} {v : C → ℝ} (h : ∀ x, ∑ y, A x y * v y = E * v x) (c : ℂ) :
    energy (fun x y => ((A x y : ℝ) : ℂ)) (fun x => c * (v x : ℂ)) = E * bornNorm fun x => c * (v x : ℂ) := by
  unfold energy bornNorm
  rw [Finset.mul_sum, Complex.re_sum]
  refine Finset.sum_congr rfl fun x _ => ?_
  have hrow : ∑ y, ((A x y : ℝ) : ℂ) * (v y : ℂ) = ((E * v x : ℝ) : ℂ) := by
    rw [← h x]
    push_cast
    rfl
  have : ∑ y, (starRingEnd ℂ) (c * (v x : ℂ)) * ((A x y : ℝ) : ℂ) * (c * (v y : ℂ)) = ((E * ‖c * (v x : ℂ)‖ ^ 2 : ℝ) : ℂ) := by
    have h3 : ∀ y, (starRingEnd ℂ) (c * (v x : ℂ)) * ((A x y : ℝ) : ℂ) * (c * (v y : ℂ)) =
        ((starRingEnd ℂ) (c * (v x : ℂ)) * c) * (((A x y : ℝ) : ℂ) * (v y : ℂ)) := fun y => by ring
    simp only [h3]
    rw [← Finset.mul_sum, hrow]
    have h4 := Complex.conj_mul' (c * (v x : ℂ))
    push_cast
    rw [← h4]
    ring
  rw [this, Complex.ofReal_re]

end GPSKet.Stoquastic
