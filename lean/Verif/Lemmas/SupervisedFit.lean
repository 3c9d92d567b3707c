import Verif.Model.SupervisedFit
import Mathlib.Data.Complex.BigOperators
import Mathlib.Algebra.BigOperators.Field

/-! # Lemmas on the weights of a supervised fit -/

namespace GPSKet.SupervisedFit

open Matrix
open scoped ComplexOrder

variable {𝕜 : Type} [RCLike 𝕜] {ι n : Type} [Fintype ι] [Fintype n] [DecidableEq n]

theorem gram_mulVec (K : Matrix ι n 𝕜) (S : ι → ℝ) (v : n → 𝕜) :
    gram K S *ᵥ v = Kᴴ *ᵥ fun i => (S i : 𝕜) * (K *ᵥ v) i := by
  unfold gram
  rw [← Matrix.mulVec_mulVec]
  congr 1
  funext i
  simp [Matrix.mulVec, dotProduct, Finset.mul_sum, mul_assoc]

theorem star_dot_conjTranspose (K : Matrix ι n 𝕜) (v : n → 𝕜) (m : ι → 𝕜) :
    star v ⬝ᵥ (Kᴴ *ᵥ m) = star (K *ᵥ v) ⬝ᵥ m := by
  rw [Matrix.dotProduct_mulVec, Matrix.star_mulVec]

/-- The quadratic form that the solver minimises. -/
noncomputable def quad (beta : ℝ) (K : Matrix ι n 𝕜) (S : ι → ℝ) (m : ι → 𝕜) (c : n → ℝ) (v : n → 𝕜) : ℝ :=
  beta * (∑ i, S i * ‖(K *ᵥ v) i‖ ^ 2 - 2 * ∑ i, RCLike.re (star ((K *ᵥ v) i) * m i)) + ∑ f, c f * ‖v f‖ ^ 2

theorem norm_sq_add (a b : 𝕜) : ‖a + b‖ ^ 2 = ‖a‖ ^ 2 + ‖b‖ ^ 2 + 2 * RCLike.re (star b * a) := by
  rw [← RCLike.normSq_eq_def', ← RCLike.normSq_eq_def', ← RCLike.normSq_eq_def', RCLike.normSq_add]
  congr 2
  rw [mul_comm]
  rfl

theorem quad_add (beta : ℝ) (K : Matrix ι n 𝕜) (S : ι → ℝ) (m : ι → 𝕜) (c : n → ℝ) (w d : n → 𝕜) :
    quad beta K S m c (w + d) = quad beta K S m c w
      + (beta * ∑ i, S i * ‖(K *ᵥ d) i‖ ^ 2 + ∑ f, c f * ‖d f‖ ^ 2)
      + 2 * RCLike.re (∑ f, star (d f) * ((beta : 𝕜) * (gram K S *ᵥ w) f + (c f : 𝕜) * w f - (beta : 𝕜) * rhs K m f)) := by
  have e : (∑ f, star (d f) * ((beta : 𝕜) * (gram K S *ᵥ w) f + (c f : 𝕜) * w f - (beta : 𝕜) * rhs K m f))
      = (beta : 𝕜) * (∑ i, star ((K *ᵥ d) i) * ((S i : 𝕜) * (K *ᵥ w) i)) + ∑ f, (c f : 𝕜) * (star (d f) * w f)
        - (beta : 𝕜) * ∑ i, star ((K *ᵥ d) i) * m i := by
    have h1 := star_dot_conjTranspose K d fun i => (S i : 𝕜) * (K *ᵥ w) i
    have h2 := star_dot_conjTranspose K d m
    rw [← gram_mulVec] at h1
    simp only [dotProduct, Pi.star_apply] at h1 h2
    rw [← h1, ← h2, Finset.mul_sum, Finset.mul_sum, ← Finset.sum_add_distrib, ← Finset.sum_sub_distrib]
    apply Finset.sum_congr rfl
    intro f _
    unfold rhs
    ring
  rw [e]
  unfold quad
  rw [Matrix.mulVec_add]
  simp only [Pi.add_apply, norm_sq_add, map_sub, map_add, map_sum, RCLike.re_ofReal_mul, star_add, add_mul, mul_add,
    Finset.sum_add_distrib]
  have h3 : ∀ i, RCLike.re (star ((K *ᵥ d) i) * ((S i : 𝕜) * (K *ᵥ w) i)) = S i * RCLike.re (star ((K *ᵥ d) i) * (K *ᵥ w) i) := by
    intro i
    rw [mul_left_comm, RCLike.re_ofReal_mul]
  simp only [h3, mul_left_comm _ (2 : ℝ) _, ← Finset.mul_sum]
  ring

open Classical in
theorem normal_equations (pinvh : {m : Type} → [Fintype m] → Matrix m m 𝕜 → Matrix m m 𝕜) (half : Bool) (beta : ℝ)
    (KtK : Matrix n n 𝕜) (y : n → 𝕜) (alpha : n → ℝ)
    (hpos : (block (regularised half beta KtK alpha) (Active KtK alpha)).PosDef) (f : n) (hf : Active KtK alpha f) :
    (beta : 𝕜) * (KtK *ᵥ weights pinvh half beta KtK y alpha) f
      + ((if half then alpha f / 2 else alpha f : ℝ) : 𝕜) * weights pinvh half beta KtK y alpha f = (beta : 𝕜) * y f := by
  set w := weights pinvh half beta KtK y alpha with hw
  set A := block (regularised half beta KtK alpha) (Active KtK alpha) with hA
  have hwa : ∀ g : {f // Active KtK alpha f}, w g = (beta : 𝕜) * (A⁻¹ *ᵥ fun g : {f // Active KtK alpha f} => y g) g := by
    intro g
    rw [hw]
    unfold weights
    simp only [← hA, if_pos hpos, dif_pos g.2]
  have hwn : ∀ g, ¬ Active KtK alpha g → w g = 0 := by
    intro g hg
    rw [hw]
    unfold weights
    simp only [dif_neg hg]
  have h1 : A *ᵥ (fun g : {f // Active KtK alpha f} => w g) = fun g : {f // Active KtK alpha f} => (beta : 𝕜) * y g := by
    have : (fun g : {f // Active KtK alpha f} => w g)
        = (beta : 𝕜) • (A⁻¹ *ᵥ fun g : {f // Active KtK alpha f} => y g) := by
      funext g; rw [hwa g]; rfl
    rw [this, Matrix.mulVec_smul, Matrix.mulVec_mulVec, Matrix.mul_nonsing_inv _ ((Matrix.isUnit_iff_isUnit_det _).mp hpos.isUnit),
      Matrix.one_mulVec]
    rfl
  have h2 := congrFun h1 ⟨f, hf⟩
  have h3 : (A *ᵥ (fun g : {f // Active KtK alpha f} => w g)) ⟨f, hf⟩ = (regularised half beta KtK alpha *ᵥ w) f := by
    show ∑ g : {f // Active KtK alpha f}, (regularised half beta KtK alpha) f g.1 * w g.1
      = ∑ g, (regularised half beta KtK alpha) f g * w g
    rw [← Finset.sum_subtype (Finset.univ.filter (Active KtK alpha)) (by simp)
      (fun g => (regularised half beta KtK alpha) f g * w g), Finset.sum_filter]
    apply Finset.sum_congr rfl
    intro g _
    by_cases hg : Active KtK alpha g
    · rw [if_pos hg]
    · rw [if_neg hg, hwn g hg, mul_zero]
  rw [h3] at h2
  rw [← h2]
  simp only [regularised, Matrix.add_mulVec, Matrix.smul_mulVec, Pi.add_apply, Pi.smul_apply, smul_eq_mul,
    Matrix.mulVec_diagonal]

end GPSKet.SupervisedFit
