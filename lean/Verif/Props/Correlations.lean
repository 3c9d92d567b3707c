import Verif.Lemmas.SpinAlg
import Verif.Props.RdmsScript

/-! # C95: spin correlations from the reduced density matrices (corrfunc.py) -/

namespace GPSKet.Rdms

open Spec

variable {L : ℕ} {psi : Cfg L → ℂ}

theorem dot_braket (psi : Cfg L → ℂ) (i j k l : Fin L) :
    braket (spinDot4 i j k l) psi
      = (if j = k then 3 * braket (exc i l) psi else 0) - 2 * braket (pairOp i l k j) psi - braket (pairOp i j k l) psi := by
  have e := congrArg (fun A => braket A psi) (exchange i j k l)
  unfold spinDot4
  simp only [braket_add, braket_sub, braket_smul, braket_ite] at e ⊢
  have e2 : braket (exc i j * exc k l) psi = (if j = k then braket (exc i l) psi else 0) + braket (pairOp i j k l) psi := by
    rw [← braket_ite, ← braket_add]
    congr 1
    rw [pairOp_eq]
    abel
  push_cast at e ⊢
  by_cases hjk : j = k
  · simp only [if_pos hjk] at *
    linear_combination e - e2
  · simp only [if_neg hjk] at *
    linear_combination e - e2

/-- In a singlet all three components of the spins are correlated in the same way. -/
theorem singlet_dot (h : IsSinglet psi) (i j k l : Fin L) :
    expect (spinDot4 i j k l) psi = 3 * expect (spinZ2 i j * spinZ2 k l) psi := by
  unfold expect
  have : braket (spinDot4 i j k l) psi = 3 * braket (spinZ2 i j * spinZ2 k l) psi := by
    unfold spinDot4
    simp only [braket_add, braket_smul]
    push_cast
    linear_combination singlet_up_down h i j k l + singlet_down_up h i j k l
  rw [this, mul_div_assoc]

/-- **C95**: `spin_spin_correlation` of the exact density matrices of any state is a third of `⟨S_A · S_B⟩`, for every projector (or any
matrix) of the first and every symmetric projector of the second atom. -/
theorem C95_isotropic (psi : Cfg L → ℂ) (PA PB : Arr1 L) (hB : ∀ i j, PB i j = PB j i) :
    spinSpinC (fun p q => expect (exc p q) psi) (fun p q r s => expect (pairOp p q r s) psi) PA PB
      = ∑ i, ∑ j, ∑ k, ∑ l, PA i j * PB k l * (1 / 3 * (1 / 4 * expect (spinDot4 i j k l) psi)) := by
  have e : ∀ i j k l, 1 / 3 * (1 / 4 * expect (spinDot4 i j k l) psi)
      = (if j = k then 1 / 4 * expect (exc i l) psi else 0)
        + 1 / 2 * -(expect (pairOp i j k l) psi / 6 + expect (pairOp i l k j) psi / 3) := by
    intro i j k l
    have := dot_braket psi i j k l
    unfold expect
    by_cases hjk : j = k
    · simp only [if_pos hjk] at this ⊢
      linear_combination (1 / 12 / normSq psi) * this
    · simp only [if_neg hjk] at this ⊢
      linear_combination (1 / 12 / normSq psi) * this
  unfold spinSpinC
  simp only [e, mul_add, Finset.sum_add_distrib]
  congr 1
  · simp only [mul_ite, mul_zero]
    rw [Finset.mul_sum]
    refine Finset.sum_congr rfl fun i _ => ?_
    have : ∀ j : Fin L, (∑ k, ∑ l, if j = k then PA i j * PB k l * (1 / 4 * expect (exc i l) psi) else 0)
        = ∑ l, PA i j * PB j l * (1 / 4 * expect (exc i l) psi) := by
      intro j
      rw [Finset.sum_comm]
      refine Finset.sum_congr rfl fun l _ => ?_
      rw [Finset.sum_ite_eq]; simp
    simp only [this]
    rw [Finset.sum_comm, Finset.mul_sum]
    refine Finset.sum_congr rfl fun l _ => ?_
    rw [Finset.mul_sum]
    refine Finset.sum_congr rfl fun j _ => ?_
    rw [hB j l]; ring
  · simp only [Finset.mul_sum]
    refine Finset.sum_congr rfl fun i _ => Finset.sum_congr rfl fun j _ => Finset.sum_congr rfl fun k _ =>
      Finset.sum_congr rfl fun l _ => ?_
    ring

/-- **C95**, for singlets: `spin_spin_correlation` of the exact density matrices is `⟨S^z_A S^z_B⟩`.  (Missing: other states, see
`C95_isotropic` and `C95_fails`.) -/
theorem C95_partial (h : IsSinglet psi) (PA PB : Arr1 L) (hB : ∀ i j, PB i j = PB j i) :
    spinSpinC (fun p q => expect (exc p q) psi) (fun p q r s => expect (pairOp p q r s) psi) PA PB
      = ∑ i, ∑ j, ∑ k, ∑ l, PA i j * PB k l * (1 / 4 * expect (spinZ2 i j * spinZ2 k l) psi) := by
  rw [C95_isotropic psi PA PB hB]
  refine Finset.sum_congr rfl fun i _ => Finset.sum_congr rfl fun j _ => Finset.sum_congr rfl fun k _ =>
      Finset.sum_congr rfl fun l _ => ?_
  rw [singlet_dot h]; ring

theorem proj_symm (s i j : Fin L) : proj s i j = proj s j i := by
  unfold proj; simp only [and_comm]

theorem proj_sum (a b : Fin L) (F : Fin L → Fin L → Fin L → Fin L → ℂ) :
    (∑ i, ∑ j, ∑ k, ∑ l, proj a i j * proj b k l * F i j k l) = F a a b b := by
  have h1 : ∀ i j k l, proj a i j * proj b k l * F i j k l
      = if i = a then if j = a then if k = b then if l = b then F i j k l else 0 else 0 else 0 else 0 := by
    intro i j k l
    unfold proj
    by_cases h1 : i = a <;> by_cases h2 : j = a <;> by_cases h3 : k = b <;> by_cases h4 : l = b <;> simp [h1, h2, h3, h4]
  simp only [h1]
  have h2 : ∀ (c : Fin L) (f : Fin L → ℂ), (∑ i, if i = c then f i else 0) = f c := by
    intro c f; simp
  have h3 : ∀ (c : Fin L) (f : Fin L → Fin L → ℂ), (∑ i, ∑ j, if i = c then f i j else 0) = ∑ j, f c j := by
    intro c f
    rw [Finset.sum_comm]
    exact Finset.sum_congr rfl fun j _ => h2 c fun i => f i j
  have h4 : ∀ (c : Fin L) (f : Fin L → Fin L → Fin L → ℂ), (∑ i, ∑ j, ∑ k, if i = c then f i j k else 0) = ∑ j, ∑ k, f c j k := by
    intro c f
    rw [Finset.sum_comm]
    exact Finset.sum_congr rfl fun j _ => h3 c fun i => f i j
  have h5 : ∀ (c : Fin L) (f : Fin L → Fin L → Fin L → Fin L → ℂ),
      (∑ i, ∑ j, ∑ k, ∑ l, if i = c then f i j k l else 0) = ∑ j, ∑ k, ∑ l, f c j k l := by
    intro c f
    rw [Finset.sum_comm]
    exact Finset.sum_congr rfl fun j _ => h4 c fun i => f i j
  rw [h5, h4, h3, h2]

/-- The expectation value of a symmetric operator is real. -/
theorem expect_real {A : Op L} (hA : A.transpose = A) (psi : Cfg L → ℂ) : (expect A psi).im = 0 := by
  have h1 : star (braket A psi) = braket A psi := by
    unfold braket
    rw [star_sum, Finset.sum_comm]
    simp only [star_sum]
    rw [Finset.sum_comm]
    refine (Finset.sum_comm).trans ?_
    refine Finset.sum_congr rfl fun x _ => Finset.sum_congr rfl fun x' _ => ?_
    have := congrFun (congrFun hA (occOf x)) (occOf x')
    rw [Matrix.transpose_apply] at this
    simp only [star_mul', star_star, star_intCast, ← this]
    ring
  have h2 : star (normSq psi) = normSq psi := by
    unfold normSq
    rw [star_sum]
    refine Finset.sum_congr rfl fun x _ => ?_
    simp only [star_mul', star_star]; ring
  have : star (expect A psi) = expect A psi := by
    unfold expect
    rw [star_div₀, h1, h2]
  exact Complex.conj_eq_iff_im.mp this

theorem up_T (a : Fin L) : (spinUp a a : Op L).transpose = spinDown a a := cre_mul_ann_transpose _ _

theorem down_T (a : Fin L) : (spinDown a a : Op L).transpose = spinUp a a := cre_mul_ann_transpose _ _

theorem z_T (a : Fin L) : (spinZ2 a a : Op L).transpose = spinZ2 a a := by
  unfold spinZ2
  rw [Matrix.transpose_sub, cre_mul_ann_transpose, cre_mul_ann_transpose]

theorem up_down_swap (a b : Fin L) (h : a ≠ b) : (spinUp b b * spinDown a a : Op L) = spinDown a a * spinUp b b := by
  rw [← sub_eq_zero]
  unfold spinUp spinDown
  rw [bil_comm]
  simp [mode_inj, h, Ne.symm h]

theorem z_swap (a b : Fin L) : (spinZ2 b b * spinZ2 a a : Op L) = spinZ2 a a * spinZ2 b b := by
  by_cases hab : a = b
  · rw [hab]
  have h : ∀ A B C D : Op L, (A - B) * (C - D) - (C - D) * (A - B)
      = (A * C - C * A) - (A * D - D * A) - (B * C - C * B) + (B * D - D * B) := by intros; noncomm_ring
  rw [← sub_eq_zero]
  unfold spinZ2
  simp [h, bil_comm, mode_inj, hab, Ne.symm hab]

theorem dot_symm (a b : Fin L) : (spinDot4 a a b b : Op L).transpose = spinDot4 a a b b := by
  unfold spinDot4
  rw [Matrix.transpose_add, Matrix.transpose_add, Matrix.transpose_smul, Matrix.transpose_smul, Matrix.transpose_mul,
    Matrix.transpose_mul, Matrix.transpose_mul, up_T, up_T, down_T, down_T, z_T, z_T, z_swap]
  by_cases h : a = b
  · rw [h]
  · rw [up_down_swap a b h, ← up_down_swap b a (Ne.symm h), add_comm (((2 : ℤ) • (spinDown a a * spinUp b b) : Op L))]

/-- **C95** for `get_correlations`: the entry of two sites is a third of `⟨S_a · S_b⟩`, for every state. -/
theorem C95_sites (psi : Cfg L → ℂ) (a b : Fin L) :
    (correlations (fun p q => expect (exc p q) psi) (fun p q r s => expect (pairOp p q r s) psi) a b : ℂ)
      = 1 / 3 * (1 / 4 * expect (spinDot4 a a b b) psi) := by
  unfold correlations spinSpin
  rw [C95_isotropic psi (proj a) (proj b) (proj_symm b), proj_sum]
  apply Complex.ext
  · simp
  · have := expect_real (dot_symm a b) psi
    simp [this]

end GPSKet.Rdms
