import Verif.Spec.SampledUpdate
import Verif.Lemmas.MarkovPath
import Mathlib.Topology.Instances.Matrix
import Mathlib.LinearAlgebra.Matrix.NonsingularInverse
import Mathlib.LinearAlgebra.Matrix.Nondegenerate
import Mathlib.LinearAlgebra.Matrix.ToLinearEquiv
import Mathlib.LinearAlgebra.FiniteDimensional.Basic
import Mathlib.Analysis.Complex.Basic
import Mathlib.Data.Complex.BigOperators
import Mathlib.Tactic.LinearCombination
import Mathlib.Topology.Algebra.GroupWithZero
import Mathlib.Algebra.BigOperators.Field

/-! # Lemmas for C183: solutions of the SR equation depend continuously on the weights -/

namespace GPSKet.SampledUpdate

open GPSKet.Spec Matrix

variable {α : Type} [Fintype α] {P : ℕ}

/-- Weights that are probabilities. -/
structure Prob (q : α → ℝ) : Prop where
  nonneg : ∀ x, 0 ≤ q x
  sum : ∑ x, q x = 1

theorem weightedMean_prob {q : α → ℝ} (h : ∑ x, q x = 1) (f : α → ℂ) : weightedMean q f = ∑ x, (q x : ℂ) * f x := by
  unfold weightedMean
  rw [h]; simp

/-- The normalised weights. -/
noncomputable def normal (w : α → ℝ) : α → ℝ := fun x => w x / ∑ y, w y

theorem weightedMean_normal {w : α → ℝ} (h : ∑ x, w x ≠ 0) (f : α → ℂ) : weightedMean w f = weightedMean (normal w) f := by
  have h1 : ∑ x, normal w x = 1 := by
    unfold normal
    rw [← Finset.sum_div, div_self h]
  rw [weightedMean_prob h1]
  unfold weightedMean normal
  rw [Finset.sum_div]
  refine Finset.sum_congr rfl fun x _ => ?_
  push_cast
  ring

theorem covariance_normal {w : α → ℝ} (h : ∑ x, w x ≠ 0) (f g : α → ℂ) : covariance w f g = covariance (normal w) f g := by
  unfold covariance
  simp only [weightedMean_normal h]

theorem normal_prob {w : α → ℝ} (h0 : ∀ x, 0 ≤ w x) (h : ∑ x, w x ≠ 0) : Prob (normal w) := by
  refine ⟨fun x => div_nonneg (h0 x) (Finset.sum_nonneg fun y _ => h0 y), ?_⟩
  unfold normal
  rw [← Finset.sum_div, div_self h]

theorem solution_normal {w : α → ℝ} (h : ∑ x, w x ≠ 0) (O : α → Fin P → ℂ) (E : α → ℂ) (u : Fin P → ℂ) :
    SRSolution w O E u ↔ SRSolution (normal w) O E u := by
  unfold SRSolution
  simp only [covariance_normal h]

/-- The matrix of the equation. -/
noncomputable def cov (q : α → ℝ) (O : α → Fin P → ℂ) : Matrix (Fin P) (Fin P) ℂ :=
  fun k l => covariance q (fun x => O x k) fun x => O x l

/-- The right-hand side of the equation. -/
noncomputable def force (q : α → ℝ) (O : α → Fin P → ℂ) (E : α → ℂ) : Fin P → ℂ := fun k => covariance q (fun x => O x k) E

/-- The change of the log-amplitude with a change of the parameters. -/
def along (O : α → Fin P → ℂ) (v : Fin P → ℂ) (x : α) : ℂ := ∑ k, O x k * v k

theorem mean_along {q : α → ℝ} (h : ∑ x, q x = 1) (O : α → Fin P → ℂ) (v : Fin P → ℂ) :
    weightedMean q (along O v) = ∑ k, weightedMean q (fun x => O x k) * v k := by
  simp only [weightedMean_prob h, along, Finset.sum_mul, Finset.mul_sum]
  rw [Finset.sum_comm]
  exact Finset.sum_congr rfl fun k _ => Finset.sum_congr rfl fun x _ => by ring

theorem cov_mulVec {q : α → ℝ} (h : ∑ x, q x = 1) (O : α → Fin P → ℂ) (v : Fin P → ℂ) (k : Fin P) :
    (cov q O *ᵥ v) k = covariance q (fun x => O x k) (along O v) := by
  unfold Matrix.mulVec dotProduct cov covariance
  simp only [weightedMean_prob h (fun x => (starRingEnd ℂ) _ * _), Finset.sum_mul]
  rw [Finset.sum_comm]
  refine Finset.sum_congr rfl fun x _ => ?_
  rw [mean_along h]
  unfold along
  rw [← Finset.sum_sub_distrib, Finset.mul_sum, Finset.mul_sum]
  exact Finset.sum_congr rfl fun l _ => by ring

theorem solution_iff (q : α → ℝ) (O : α → Fin P → ℂ) (E : α → ℂ) (u : Fin P → ℂ) :
    SRSolution q O E u ↔ cov q O *ᵥ u = force q O E ∧ ∀ y, cov q O *ᵥ y = force q O E → ∑ k, ‖u k‖ ^ 2 ≤ ∑ k, ‖y k‖ ^ 2 := by
  constructor
  · rintro ⟨h1, h2⟩
    exact ⟨funext h1, fun y hy => h2 y fun k => congrFun hy k⟩
  · rintro ⟨h1, h2⟩
    exact ⟨fun k => congrFun h1 k, fun y hy => h2 y (funext hy)⟩

/-- The combination of the covariances with `v`. -/
theorem dot_covariance {q : α → ℝ} (h : ∑ x, q x = 1) (O : α → Fin P → ℂ) (v : Fin P → ℂ) (g : α → ℂ) :
    ∑ k, (starRingEnd ℂ) (v k) * covariance q (fun x => O x k) g = covariance q (along O v) g := by
  unfold covariance
  simp only [weightedMean_prob h (fun x => (starRingEnd ℂ) _ * _), Finset.mul_sum]
  rw [Finset.sum_comm]
  refine Finset.sum_congr rfl fun x _ => ?_
  rw [mean_along h]
  unfold along
  rw [← Finset.sum_sub_distrib, map_sum, Finset.sum_mul, Finset.mul_sum]
  refine Finset.sum_congr rfl fun k _ => ?_
  simp only [map_sub, map_mul]
  ring

/-- Changes of the parameters that change all amplitudes of non-zero weight by the same factor. -/
def flat (q : α → ℝ) (O : α → Fin P → ℂ) : Submodule ℂ (Fin P → ℂ) where
  carrier := {v | ∀ x y, q x ≠ 0 → q y ≠ 0 → along O v x = along O v y}
  zero_mem' := fun x y _ _ => by simp [along]
  add_mem' := by
    intro v w hv hw x y hx hy
    have h1 := hv x y hx hy
    have h2 := hw x y hx hy
    simp only [along, Pi.add_apply, mul_add, Finset.sum_add_distrib] at *
    rw [h1, h2]
  smul_mem' := by
    intro c v hv x y hx hy
    have h1 := hv x y hx hy
    simp only [along, Pi.smul_apply, smul_eq_mul] at *
    have e : ∀ x, ∑ k, O x k * (c * v k) = c * ∑ k, O x k * v k := fun x => by
      rw [Finset.mul_sum]; exact Finset.sum_congr rfl fun k _ => by ring
    rw [e, e, h1]

theorem flat_congr {q p : α → ℝ} (h : ∀ x, q x = 0 ↔ p x = 0) (O : α → Fin P → ℂ) : flat q O = flat p O := by
  ext v
  have h' : ∀ x, q x ≠ 0 ↔ p x ≠ 0 := fun x => not_congr (h x)
  show (∀ x y, q x ≠ 0 → q y ≠ 0 → _) ↔ ∀ x y, p x ≠ 0 → p y ≠ 0 → _
  simp only [h']

/-- The centred change vanishes for those. -/
theorem flat_centred {q : α → ℝ} (h : Prob q) {O : α → Fin P → ℂ} {v : Fin P → ℂ} (hv : v ∈ flat q O) (x : α) (hx : q x ≠ 0) :
    along O v x - weightedMean q (along O v) = 0 := by
  rw [weightedMean_prob h.sum]
  have : ∑ y, (q y : ℂ) * along O v y = ∑ y, (q y : ℂ) * along O v x := by
    refine Finset.sum_congr rfl fun y _ => ?_
    by_cases hy : q y = 0
    · simp [hy]
    · rw [hv y x hy hx]
  rw [this, ← Finset.sum_mul, ← Complex.ofReal_sum, h.sum]
  simp

theorem flat_covariance {q : α → ℝ} (h : Prob q) {O : α → Fin P → ℂ} {v : Fin P → ℂ} (hv : v ∈ flat q O) (g : α → ℂ) :
    covariance q (along O v) g = 0 := by
  unfold covariance
  rw [weightedMean_prob h.sum]
  refine Finset.sum_eq_zero fun x _ => ?_
  by_cases hx : q x = 0
  · simp [hx]
  · rw [flat_centred h hv x hx]; simp

theorem covariance_flat {q : α → ℝ} (h : Prob q) {O : α → Fin P → ℂ} {v : Fin P → ℂ} (hv : v ∈ flat q O) (g : α → ℂ) :
    covariance q g (along O v) = 0 := by
  unfold covariance
  rw [weightedMean_prob h.sum]
  refine Finset.sum_eq_zero fun x _ => ?_
  by_cases hx : q x = 0
  · simp [hx]
  · rw [flat_centred h hv x hx]; simp

/-- A function with variance zero is constant where the weights are not zero. -/
theorem flat_of_variance {q : α → ℝ} (h : Prob q) {O : α → Fin P → ℂ} {v : Fin P → ℂ}
    (hv : (covariance q (along O v) (along O v)).re = 0) : v ∈ flat q O := by
  unfold covariance at hv
  rw [weightedMean_prob h.sum, Complex.re_sum] at hv
  have hnn : ∀ x ∈ Finset.univ, 0 ≤ ((q x : ℂ) * ((starRingEnd ℂ) (along O v x - weightedMean q (along O v)) *
      (along O v x - weightedMean q (along O v)))).re := by
    intro x _
    rw [← Complex.normSq_eq_conj_mul_self, ← Complex.ofReal_mul, Complex.ofReal_re]
    exact mul_nonneg (h.nonneg x) (Complex.normSq_nonneg _)
  have hz := (Finset.sum_eq_zero_iff_of_nonneg hnn).mp hv
  have hc : ∀ x, q x ≠ 0 → along O v x = weightedMean q (along O v) := by
    intro x hx
    have := hz x (Finset.mem_univ x)
    rw [← Complex.normSq_eq_conj_mul_self, ← Complex.ofReal_mul, Complex.ofReal_re] at this
    rcases mul_eq_zero.mp this with h0 | h0
    · exact absurd h0 hx
    · exact sub_eq_zero.mp (Complex.normSq_eq_zero.mp h0)
  intro x y hx hy
  rw [hc x hx, hc y hy]

/-- The variance of the change is not negative. -/
theorem variance_nonneg {q : α → ℝ} (h : Prob q) (f : α → ℂ) : 0 ≤ (covariance q f f).re := by
  unfold covariance
  rw [weightedMean_prob h.sum, Complex.re_sum]
  refine Finset.sum_nonneg fun x _ => ?_
  rw [← Complex.normSq_eq_conj_mul_self, ← Complex.ofReal_mul, Complex.ofReal_re]
  exact mul_nonneg (h.nonneg x) (Complex.normSq_nonneg _)

/-- The scalar product of parameter vectors. -/
def dot (v u : Fin P → ℂ) : ℂ := ∑ k, (starRingEnd ℂ) (v k) * u k

theorem dot_cov {q : α → ℝ} (h : ∑ x, q x = 1) (O : α → Fin P → ℂ) (v u : Fin P → ℂ) :
    dot v (cov q O *ᵥ u) = covariance q (along O v) (along O u) := by
  unfold dot
  simp only [cov_mulVec h]
  exact dot_covariance h O v _

theorem dot_force {q : α → ℝ} (h : ∑ x, q x = 1) (O : α → Fin P → ℂ) (E : α → ℂ) (v : Fin P → ℂ) :
    dot v (force q O E) = covariance q (along O v) E := dot_covariance h O v E

theorem cov_eq_zero_iff {q : α → ℝ} (h : Prob q) (O : α → Fin P → ℂ) (v : Fin P → ℂ) : cov q O *ᵥ v = 0 ↔ v ∈ flat q O := by
  constructor
  · intro hv
    have := dot_cov h.sum O v v
    rw [hv] at this
    refine flat_of_variance h ?_
    rw [← this]
    simp [dot]
  · intro hv
    funext k
    rw [cov_mulVec h.sum]
    exact covariance_flat h hv _

theorem norm_sub_dot (u y : Fin P → ℂ) (t : ℂ) :
    ∑ k, ‖u k - t * y k‖ ^ 2 = ∑ k, ‖u k‖ ^ 2 + ‖t‖ ^ 2 * ∑ k, ‖y k‖ ^ 2 - 2 * ((starRingEnd ℂ) t * dot y u).re := by
  unfold dot
  rw [Finset.mul_sum, Finset.mul_sum, Complex.re_sum, Finset.mul_sum, ← Finset.sum_add_distrib, ← Finset.sum_sub_distrib]
  refine Finset.sum_congr rfl fun k _ => ?_
  simp only [← Complex.normSq_eq_norm_sq]
  rw [Complex.normSq_sub, Complex.normSq_mul]
  congr 2
  rw [map_mul]
  ring_nf

/-- A solution of smallest norm is orthogonal to the changes without effect. -/
theorem orthogonal {q : α → ℝ} (h : Prob q) {O : α → Fin P → ℂ} {E : α → ℂ} {u : Fin P → ℂ} (hu : SRSolution q O E u)
    {y : Fin P → ℂ} (hy : y ∈ flat q O) : dot y u = 0 := by
  obtain ⟨h1, h2⟩ := (solution_iff q O E u).mp hu
  by_contra hne
  have hs : 0 < ∑ k, ‖y k‖ ^ 2 := by
    by_contra hcon
    have h0 : ∑ k, ‖y k‖ ^ 2 = 0 := le_antisymm (not_lt.mp hcon) (Finset.sum_nonneg fun k _ => sq_nonneg _)
    refine hne ?_
    unfold dot
    refine Finset.sum_eq_zero fun k _ => ?_
    have := (Finset.sum_eq_zero_iff_of_nonneg fun k _ => sq_nonneg ‖y k‖).mp h0 k (Finset.mem_univ k)
    rw [norm_eq_zero.mp (pow_eq_zero_iff two_ne_zero |>.mp this)]
    simp
  set s : ℝ := ∑ k, ‖y k‖ ^ 2 with hsdef
  set t : ℂ := dot y u / (s : ℂ) with ht
  have hsol : cov q O *ᵥ (u - t • y) = force q O E := by
    rw [Matrix.mulVec_sub, Matrix.mulVec_smul, (cov_eq_zero_iff h O y).mpr hy, smul_zero, sub_zero, h1]
  have h3 := h2 _ hsol
  have h4 := norm_sub_dot u y t
  simp only [Pi.sub_apply, Pi.smul_apply, smul_eq_mul] at h3
  rw [h4] at h3
  have h5 : ((starRingEnd ℂ) t * dot y u).re = ‖dot y u‖ ^ 2 / s := by
    rw [ht, map_div₀, Complex.conj_ofReal, div_mul_eq_mul_div, ← Complex.normSq_eq_conj_mul_self, ← Complex.ofReal_div, Complex.ofReal_re,
      Complex.normSq_eq_norm_sq]
  have h6 : ‖t‖ ^ 2 * s = ‖dot y u‖ ^ 2 / s := by
    rw [ht, norm_div, Complex.norm_real, Real.norm_of_nonneg hs.le]
    field_simp
  rw [h5, ← hsdef, h6] at h3
  have h7 : 0 < ‖dot y u‖ ^ 2 / s := div_pos (pow_pos (norm_pos_iff.mpr hne) 2) hs
  linarith

/-- Conversely a solution that is orthogonal to them has the smallest norm. -/
theorem solution_of_orthogonal {q : α → ℝ} (h : Prob q) {O : α → Fin P → ℂ} {E : α → ℂ} {u : Fin P → ℂ} (h1 : cov q O *ᵥ u = force q O E)
    (h2 : ∀ y ∈ flat q O, dot y u = 0) : SRSolution q O E u := by
  refine (solution_iff q O E u).mpr ⟨h1, fun y hy => ?_⟩
  have hmem : u - y ∈ flat q O := by
    refine (cov_eq_zero_iff h O _).mp ?_
    rw [Matrix.mulVec_sub, h1, hy, sub_self]
  have h3 := norm_sub_dot u (u - y) 1
  rw [h2 _ hmem] at h3
  simp only [Pi.sub_apply, one_mul, sub_sub_cancel, norm_one, one_pow, mul_zero, Complex.zero_re, sub_zero] at h3
  rw [h3]
  have : 0 ≤ ∑ k, ‖u k - y k‖ ^ 2 := Finset.sum_nonneg fun k _ => sq_nonneg _
  linarith

/-- A matrix that is zero on all that is orthogonal to the given vectors, and not on their span. -/
noncomputable def penalty {r : ℕ} (b : Fin r → Fin P → ℂ) : Matrix (Fin P) (Fin P) ℂ := fun k l => ∑ i, b i k * (starRingEnd ℂ) (b i l)

theorem penalty_mulVec {r : ℕ} (b : Fin r → Fin P → ℂ) (v : Fin P → ℂ) : penalty b *ᵥ v = ∑ i, dot (b i) v • b i := by
  funext k
  unfold Matrix.mulVec dotProduct penalty dot
  simp only [Finset.sum_apply, Pi.smul_apply, smul_eq_mul, Finset.sum_mul]
  rw [Finset.sum_comm]
  exact Finset.sum_congr rfl fun i _ => Finset.sum_congr rfl fun l _ => by ring

theorem dot_penalty {r : ℕ} (b : Fin r → Fin P → ℂ) (v : Fin P → ℂ) : (dot v (penalty b *ᵥ v)).re = ∑ i, ‖dot (b i) v‖ ^ 2 := by
  rw [penalty_mulVec]
  unfold dot
  simp only [Finset.sum_apply, Pi.smul_apply, smul_eq_mul, Finset.mul_sum]
  rw [Finset.sum_comm, Complex.re_sum]
  refine Finset.sum_congr rfl fun i _ => ?_
  rw [← Complex.normSq_eq_norm_sq]
  have : ∑ k, (starRingEnd ℂ) (v k) * ((∑ k, (starRingEnd ℂ) (b i k) * v k) * b i k)
      = (starRingEnd ℂ) (∑ k, (starRingEnd ℂ) (b i k) * v k) * ∑ k, (starRingEnd ℂ) (b i k) * v k := by
    rw [map_sum, Finset.sum_mul]
    refine Finset.sum_congr rfl fun k _ => ?_
    rw [map_mul, Complex.conj_conj]
    ring
  rw [this, ← Complex.normSq_eq_conj_mul_self, Complex.ofReal_re]

theorem dot_add (v a b : Fin P → ℂ) : dot v (a + b) = dot v a + dot v b := by
  unfold dot
  rw [← Finset.sum_add_distrib]
  exact Finset.sum_congr rfl fun k _ => by rw [Pi.add_apply, mul_add]

/-- Vectors that span the changes without effect. -/
theorem spanning (q : α → ℝ) (O : α → Fin P → ℂ) : ∃ (r : ℕ) (b : Fin r → Fin P → ℂ), (∀ i, b i ∈ flat q O) ∧
    ∀ v : Fin P → ℂ, (∀ i, dot (b i) v = 0) → ∀ y ∈ flat q O, dot y v = 0 := by
  obtain ⟨S, hS⟩ := (IsNoetherian.noetherian (flat q O) : (flat q O).FG)
  refine ⟨S.card, fun i => (S.equivFin.symm i : Fin P → ℂ), fun i => ?_, fun v hv y hy => ?_⟩
  · rw [← hS]
    exact Submodule.subset_span (S.equivFin.symm i).2
  · rw [← hS] at hy
    induction hy using Submodule.span_induction with
    | mem x hx =>
      have := hv (S.equivFin ⟨x, hx⟩)
      simpa using this
    | zero => simp [dot]
    | add a b _ _ ha hb =>
      unfold dot at *
      simp only [Pi.add_apply, map_add, add_mul, Finset.sum_add_distrib]
      rw [ha, hb, add_zero]
    | smul c a _ ha =>
      unfold dot at *
      simp only [Pi.smul_apply, smul_eq_mul, map_mul, mul_assoc, ← Finset.mul_sum]
      rw [ha, mul_zero]

/-- The matrix of the equation with the penalty is invertible. -/
theorem invertible {q : α → ℝ} (h : Prob q) (O : α → Fin P → ℂ) {r : ℕ} (b : Fin r → Fin P → ℂ)
    (hb : ∀ v : Fin P → ℂ, (∀ i, dot (b i) v = 0) → ∀ y ∈ flat q O, dot y v = 0) : IsUnit (cov q O + penalty b).det := by
  rw [isUnit_iff_ne_zero]
  intro hdet
  obtain ⟨v, hv, hz⟩ := Matrix.exists_mulVec_eq_zero_iff.mpr hdet
  have h1 : dot v ((cov q O + penalty b) *ᵥ v) = 0 := by rw [hz]; simp [dot]
  rw [Matrix.add_mulVec, dot_add, dot_cov h.sum] at h1
  have h2 := congrArg Complex.re h1
  rw [Complex.add_re, dot_penalty, Complex.zero_re] at h2
  have h3 := variance_nonneg h (along O v)
  have h4 : 0 ≤ ∑ i, ‖dot (b i) v‖ ^ 2 := Finset.sum_nonneg fun i _ => sq_nonneg _
  have h5 : ∑ i, ‖dot (b i) v‖ ^ 2 = 0 := by linarith
  have h6 : (covariance q (along O v) (along O v)).re = 0 := by linarith
  have h7 : ∀ i, dot (b i) v = 0 := fun i => by
    have := (Finset.sum_eq_zero_iff_of_nonneg fun i _ => sq_nonneg ‖dot (b i) v‖).mp h5 i (Finset.mem_univ i)
    exact norm_eq_zero.mp (pow_eq_zero_iff two_ne_zero |>.mp this)
  have h8 := hb v h7 v (flat_of_variance h h6)
  refine hv (funext fun k => ?_)
  have h9 : ∑ k, ‖v k‖ ^ 2 = 0 := by
    have := congrArg Complex.re h8
    unfold dot at this
    rw [Complex.re_sum, Complex.zero_re] at this
    rw [← this]
    refine Finset.sum_congr rfl fun k _ => ?_
    rw [← Complex.normSq_eq_conj_mul_self, Complex.ofReal_re, Complex.normSq_eq_norm_sq]
  have := (Finset.sum_eq_zero_iff_of_nonneg fun k _ => sq_nonneg ‖v k‖).mp h9 k (Finset.mem_univ k)
  exact norm_eq_zero.mp (pow_eq_zero_iff two_ne_zero |>.mp this)

/-- The solution as a product with an inverse matrix. -/
theorem solution_eq {q : α → ℝ} (h : Prob q) {O : α → Fin P → ℂ} {E : α → ℂ} {u : Fin P → ℂ} (hu : SRSolution q O E u) {r : ℕ}
    (b : Fin r → Fin P → ℂ) (hmem : ∀ i, b i ∈ flat q O)
    (hb : ∀ v : Fin P → ℂ, (∀ i, dot (b i) v = 0) → ∀ y ∈ flat q O, dot y v = 0) : u = (cov q O + penalty b)⁻¹ *ᵥ force q O E := by
  have h1 : (cov q O + penalty b) *ᵥ u = force q O E := by
    rw [Matrix.add_mulVec, ((solution_iff q O E u).mp hu).1, penalty_mulVec]
    simp only [orthogonal h hu (hmem _), zero_smul, Finset.sum_const_zero, add_zero]
  rw [← h1, Matrix.mulVec_mulVec, Matrix.nonsing_inv_mul _ (invertible h O b hb), Matrix.one_mulVec]

/-- There is a solution of smallest norm. -/
theorem solution_exists {q : α → ℝ} (h : Prob q) (O : α → Fin P → ℂ) (E : α → ℂ) : ∃ u, SRSolution q O E u := by
  obtain ⟨r, b, hmem, hb⟩ := spanning q O
  set u := (cov q O + penalty b)⁻¹ *ᵥ force q O E with hu
  have h1 : (cov q O + penalty b) *ᵥ u = force q O E := by
    rw [hu, Matrix.mulVec_mulVec, Matrix.mul_nonsing_inv _ (invertible h O b hb), Matrix.one_mulVec]
  rw [Matrix.add_mulVec] at h1
  -- the penalty vanishes
  have hpmem : penalty b *ᵥ u ∈ flat q O := by
    rw [penalty_mulVec]
    exact Submodule.sum_mem _ fun i _ => Submodule.smul_mem _ _ (hmem i)
  have h2 : ∀ y ∈ flat q O, dot y (penalty b *ᵥ u) = 0 := by
    intro y hy
    have := congrArg (dot y) h1
    rw [dot_add, dot_cov h.sum, dot_force h.sum, flat_covariance h hy, flat_covariance h hy, zero_add] at this
    exact this
  have h3 : penalty b *ᵥ u = 0 := by
    have h8 := h2 _ hpmem
    funext k
    have h9 : ∑ k, ‖(penalty b *ᵥ u) k‖ ^ 2 = 0 := by
      have := congrArg Complex.re h8
      unfold dot at this
      rw [Complex.re_sum, Complex.zero_re] at this
      rw [← this]
      refine Finset.sum_congr rfl fun k _ => ?_
      rw [← Complex.normSq_eq_conj_mul_self, Complex.ofReal_re, Complex.normSq_eq_norm_sq]
    have := (Finset.sum_eq_zero_iff_of_nonneg fun k _ => sq_nonneg ‖(penalty b *ᵥ u) k‖).mp h9 k (Finset.mem_univ k)
    exact norm_eq_zero.mp (pow_eq_zero_iff two_ne_zero |>.mp this)
  have h4 : ∀ i, dot (b i) u = 0 := by
    have := dot_penalty b u
    rw [h3] at this
    have h5 : ∑ i, ‖dot (b i) u‖ ^ 2 = 0 := by rw [← this]; simp [dot]
    intro i
    have := (Finset.sum_eq_zero_iff_of_nonneg fun i _ => sq_nonneg ‖dot (b i) u‖).mp h5 i (Finset.mem_univ i)
    exact norm_eq_zero.mp (pow_eq_zero_iff two_ne_zero |>.mp this)
  refine ⟨u, solution_of_orthogonal h ?_ (hb u h4)⟩
  rw [h3, add_zero] at h1
  exact h1

/-- The mean without normalisation, which is a polynomial in the weights. -/
noncomputable def rawMean (q : α → ℝ) (f : α → ℂ) : ℂ := ∑ x, (q x : ℂ) * f x

/-- The covariance without normalisation. -/
noncomputable def rawCov (q : α → ℝ) (f g : α → ℂ) : ℂ :=
  rawMean q fun x => (starRingEnd ℂ) (f x - rawMean q f) * (g x - rawMean q g)

/-- The matrix of the covariances without normalisation. -/
noncomputable def rawMatrix (q : α → ℝ) (O : α → Fin P → ℂ) : Matrix (Fin P) (Fin P) ℂ :=
  fun k l => rawCov q (fun x => O x k) fun x => O x l

theorem covariance_raw {q : α → ℝ} (h : ∑ x, q x = 1) (f g : α → ℂ) : covariance q f g = rawCov q f g := by
  unfold covariance rawCov rawMean
  simp only [weightedMean_prob h]

theorem continuous_rawCov (f g : α → ℂ) : Continuous fun q : α → ℝ => rawCov q f g := by
  have h : ∀ f : α → ℂ, Continuous fun q : α → ℝ => rawMean q f := by
    intro f
    unfold rawMean
    fun_prop
  have h1 := h f
  have h2 := h g
  unfold rawCov
  show Continuous fun q : α → ℝ => ∑ x, (q x : ℂ) * ((starRingEnd ℂ) (f x - rawMean q f) * (g x - rawMean q g))
  refine continuous_finsetSum _ fun x _ => ?_
  have h3 : Continuous fun q : α → ℝ => (starRingEnd ℂ) (f x - rawMean q f) := Complex.continuous_conj.comp (continuous_const.sub h1)
  fun_prop

/-- **Solutions depend continuously on the weights**, as long as no weight becomes zero or stops to be zero. -/
theorem solution_continuous {p : α → ℝ} (hp : Prob p) (O : α → Fin P → ℂ) (E : α → ℂ) {u : Fin P → ℂ} (hu : SRSolution p O E u)
    {ε : ℝ} (hε : 0 < ε) : ∃ δ : ℝ, 0 < δ ∧ ∀ q : α → ℝ, Prob q → (∀ x, p x = 0 → q x = 0) → (∀ x, |q x - p x| < δ) →
      ∀ v, SRSolution q O E v → ‖v - u‖ < ε := by
  obtain ⟨r, b, hmem, hb⟩ := spanning p O
  set F : (α → ℝ) → Fin P → ℂ := fun q =>
    (rawMatrix q O + penalty b)⁻¹ *ᵥ fun k => rawCov q (fun x => O x k) E with hF
  have hcovraw : ∀ q : α → ℝ, ∑ x, q x = 1 → (cov q O + penalty b)⁻¹ *ᵥ force q O E = F q := by
    intro q hq
    have e1 : cov q O = rawMatrix q O := by
      funext k l
      exact covariance_raw hq _ _
    have e2 : force q O E = fun k => rawCov q (fun x => O x k) E := funext fun k => covariance_raw hq _ _
    rw [e1, e2]
  have hcont : ContinuousAt F p := by
    have hA : Continuous fun q : α → ℝ => (rawMatrix q O + penalty b) := by
      refine continuous_matrix fun k l => ?_
      exact (continuous_rawCov _ _).add continuous_const
    have hdet : (rawMatrix p O + penalty b).det ≠ 0 := by
      have := (invertible hp O b hb).ne_zero
      have e1 : cov p O = rawMatrix p O := by
        funext k l
        exact covariance_raw hp.sum _ _
      rwa [e1] at this
    have hinv : ContinuousAt (fun q : α → ℝ =>
        (rawMatrix q O + penalty b)⁻¹) p := by
      simp only [Matrix.inv_def, Ring.inverse_eq_inv']
      exact (hA.matrix_det.continuousAt.inv₀ hdet).smul hA.matrix_adjugate.continuousAt
    rw [continuousAt_pi]
    intro k
    simp only [hF, Matrix.mulVec, dotProduct]
    refine tendsto_finsetSum _ fun l _ => ?_
    refine ContinuousAt.mul ?_ (continuous_rawCov _ _).continuousAt
    exact (continuous_apply l).continuousAt.comp ((continuous_apply k).continuousAt.comp hinv)
  have hup : u = F p := by rw [← hcovraw p hp.sum]; exact solution_eq hp hu b hmem hb
  obtain ⟨δ1, hδ1, hclose⟩ := Metric.continuousAt_iff.mp hcont ε hε
  -- the weights that are not zero stay away from zero
  obtain ⟨δ2, hδ2, hpos⟩ : ∃ δ2 : ℝ, 0 < δ2 ∧ ∀ x, p x ≠ 0 → δ2 ≤ p x := by
    classical
    by_cases hne : (Finset.univ.filter fun x => p x ≠ 0).Nonempty
    · obtain ⟨x0, hx0, hmin⟩ := Finset.exists_min_image _ p hne
      rw [Finset.mem_filter] at hx0
      exact ⟨p x0, lt_of_le_of_ne (hp.nonneg x0) (Ne.symm hx0.2), fun x hx => hmin x (Finset.mem_filter.mpr ⟨Finset.mem_univ x, hx⟩)⟩
    · exact ⟨1, one_pos, fun x hx => absurd ⟨x, Finset.mem_filter.mpr ⟨Finset.mem_univ x, hx⟩⟩ hne⟩
  refine ⟨min δ1 δ2, lt_min hδ1 hδ2, fun q hq hz hd v hv => ?_⟩
  have hsupp : ∀ x, q x = 0 ↔ p x = 0 := by
    intro x
    refine ⟨fun hx => ?_, hz x⟩
    by_contra hpx
    have h1 := (hd x).trans_le (min_le_right _ _)
    rw [hx, zero_sub, abs_neg, abs_of_nonneg (hp.nonneg x)] at h1
    exact absurd (hpos x hpx) (not_le.mpr h1)
  have hflat := flat_congr hsupp O
  have hvq : v = F q := by
    rw [← hcovraw q hq.sum]
    exact solution_eq hq hv b (fun i => by rw [hflat]; exact hmem i) (fun w hw y hy => hb w hw y (by rwa [hflat] at hy))
  rw [hvq, hup, ← dist_eq_norm]
  refine hclose ?_
  rw [dist_pi_lt_iff hδ1]
  intro x
  rw [Real.dist_eq]
  exact (hd x).trans_le (min_le_left _ _)

end GPSKet.SampledUpdate
