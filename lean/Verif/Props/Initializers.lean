import Verif.Model.Initializers
import Verif.Spec.Supervised
import Mathlib.Analysis.Complex.Norm
import Mathlib.Analysis.Complex.Exponential
import Mathlib.Analysis.Normed.Ring.Basic
import Mathlib.Analysis.Normed.Field.Basic
import Mathlib.Tactic.NormNum

/-!
# C78: initial parameters
-/

namespace GPSKet.Initializers

/-- The normal numbers of a real dtype are real. -/
def RealDraws {ι : Type} (draw : Kind → ι → ℂ) : Prop := ∀ i, (draw .real i).im = 0

/-- C78: an initialiser made for a complex dtype gives complex parameters of modulus one, with the phase `sigma` times the normal
number drawn. -/
theorem C78_complex {ι : Type} (sigma : ℝ) (draw : Kind → ι → ℂ) (hd : RealDraws draw) (i : ι) :
    ‖normal .complex .complex sigma draw i‖ = 1 ∧
      normal .complex .complex sigma draw i
        = Real.cos (sigma * (draw .real i).re) + Complex.I * Real.sin (sigma * (draw .real i).re) := by
  have h : Complex.I * (draw .real i * sigma) = ((sigma * (draw .real i).re : ℝ) : ℂ) * Complex.I := by
    have : draw .real i = ((draw .real i).re : ℂ) := Complex.ext rfl (by simpa using hd i)
    conv_lhs => rw [this]
    push_cast
    ring
  simp only [normal, h]
  refine ⟨Complex.norm_exp_ofReal_mul_I _, ?_⟩
  rw [Complex.exp_mul_I, ← Complex.ofReal_cos, ← Complex.ofReal_sin]
  ring

/-- C78: one made for a real dtype gives real parameters one plus `sigma` times the normal number drawn. -/
theorem C78_real {ι : Type} (sigma : ℝ) (draw : Kind → ι → ℂ) (hd : RealDraws draw) (i : ι) :
    normal .real .real sigma draw i = ((1 + sigma * (draw .real i).re : ℝ) : ℂ) := by
  have : draw .real i = ((draw .real i).re : ℂ) := Complex.ext rfl (by simpa using hd i)
  simp only [normal]
  conv_lhs => rw [this]
  push_cast
  ring

/-- C78 fails for an initialiser made without the dtype of the model, as the default initialiser of the composite and Pfaffian models:
complex parameters do not have modulus one unless the number drawn happens to make them so. -/
theorem C78_default_fails : ∃ (draw : Kind → Fin 1 → ℂ), RealDraws draw ∧
    ‖normal .real .complex (1 / 10) draw 0‖ ≠ 1 := by
  refine ⟨fun k _ => if k = .real then 0 else 1, by intro i; simp, ?_⟩
  simp only [normal, show (Kind.complex = Kind.real) = False by simp, if_false]
  norm_num

/-- C78 fails the other way round as well: real parameters made by an initialiser for a complex dtype never exceed one. -/
theorem C78_cast_fails {ι : Type} (sigma : ℝ) (draw : Kind → ι → ℂ) (hd : RealDraws draw) (i : ι) :
    ∃ r : ℝ, normal .complex .real sigma draw i = r ∧ r ≤ 1 := by
  refine ⟨_, rfl, ?_⟩
  have h := (C78_complex sigma draw hd i).1
  simp only [normal] at h ⊢
  exact (Complex.re_le_norm _).trans h.le

/-- C78, what it means for a qGPS: with complex initial parameters no log-amplitude exceeds the support dimension, so that
no two amplitudes differ by more than the factor `exp(2 M)`. -/
theorem C78_bound {L D M : ℕ} (sigma : ℝ) (draw : Kind → Fin D × Fin M × Fin L → ℂ) (hd : RealDraws draw) (x : Fin L → Fin D) :
    ‖∑ m : Fin M, ∏ j, normal .complex .complex sigma draw (x j, m, j)‖ ≤ M := by
  refine (norm_sum_le _ _).trans ?_
  have : ∀ m ∈ (Finset.univ : Finset (Fin M)), ‖∏ j, normal .complex .complex sigma draw (x j, m, j)‖ = 1 := by
    intro m _
    rw [norm_prod]
    exact Finset.prod_eq_one fun j _ => (C78_complex sigma draw hd _).1
  rw [Finset.sum_congr rfl this]
  simp

/-- C78: all the matrices of the orthogonal initialiser have orthogonal columns of norm `scale`, if those of JAX's
initialiser do, and each is drawn with its own key. -/
theorem C78_orthogonal {Key : Type} (keys : ℕ → Key) (orthoInit : Key → (r c : ℕ) → Matrix (Fin r) (Fin c) ℂ) (scale : ℝ)
    (hortho : ∀ k r c, c ≤ r → (orthoInit k r c).conjTranspose * orthoInit k r c = ((scale : ℂ) ^ 2) • (1 : Matrix (Fin c) (Fin c) ℂ))
    (k r c : ℕ) (hc : c ≤ r) :
    ∃ W : Fin k → Matrix (Fin r) (Fin c) ℂ, orthogonal keys orthoInit [k, r, c] = some ⟨k, r, c, W⟩ ∧
      ∀ i, W i = orthoInit (keys i) r c ∧ (W i).conjTranspose * W i = ((scale : ℂ) ^ 2) • 1 :=
  ⟨_, rfl, fun _ => ⟨rfl, hortho _ _ _ hc⟩⟩

/-- C78: other shapes raise an error. -/
theorem C78_shape {Key : Type} (keys : ℕ → Key) (orthoInit : Key → (r c : ℕ) → Matrix (Fin r) (Fin c) ℂ) (shape : List ℕ)
    (h : shape.length ≠ 3) : orthogonal keys orthoInit shape = none := by
  unfold orthogonal
  split
  · simp at h
  · rfl

example : RealDraws (fun (k : Kind) (_ : Fin 2) => if k = .real then (2 : ℂ) else Complex.I) := by intro i; simp

/-- A family of matrices as `C78_orthogonal` asks for. -/
example : ∃ orthoInit : Unit → (r c : ℕ) → Matrix (Fin r) (Fin c) ℂ,
    ∀ k r c, c ≤ r → (orthoInit k r c).conjTranspose * orthoInit k r c = (((1 : ℝ) : ℂ) ^ 2) • (1 : Matrix (Fin c) (Fin c) ℂ) := by
  refine ⟨fun _ r c => Matrix.of fun i j => if i.val = j.val then 1 else 0, ?_⟩
  intro _ r c hc
  ext i j
  simp only [Matrix.mul_apply, Matrix.conjTranspose_apply, Matrix.of_apply, Complex.ofReal_one, one_pow, one_smul]
  rw [Finset.sum_eq_single ⟨i.val, i.isLt.trans_le hc⟩]
  · by_cases h : i = j
    · subst h; simp [Matrix.one_apply]
    · simp [Matrix.one_apply, h, Fin.val_ne_of_ne h]
  · intro b _ hb
    have : b.val ≠ i.val := fun h => hb (Fin.ext h)
    simp [this]
  · simp

end GPSKet.Initializers
