import Verif.Props.SRPrecond
import Mathlib.LinearAlgebra.Matrix.Rank
import Mathlib.Tactic.Linarith
import Mathlib.Tactic.NormNum
import Mathlib.Tactic.Positivity

/-!
# Property C192: what the shift of the SR-RMSProp optimisers interpolates between

`SRRMSProp` (sr_rmsprop.py) with shift 1 divides every coordinate of the gradient by `√ema + eps`, as RMSProp does; as the shift tends to zero
its result tends to the shortest solution of the equation without regularisation, in the norm in which coordinate `q` has the weight
`√ema_q + eps`.  In between it is bounded.  The driver `VMC_SRRMSProp` does the same for small shifts and for large ones.
-/

namespace GPSKet.ShiftLimits
open Matrix GPSKet.SRPrecond GPSKet.Props GPSKet.RMSProp

/-! ## The linear algebra -/

section
variable {Q A : Type} [Fintype Q] [Fintype A]

/-- Product of the transposed rows with a vector of row space. -/
def comb (c : Q → A → ℝ) (u : A → ℝ) (q : Q) : ℝ := ∑ a, c q a * u a

/-- Product of the rows with a vector of parameters. -/
def proj (c : Q → A → ℝ) (x : Q → ℝ) (a : A) : ℝ := ∑ q, c q a * x q

theorem dot_comb (c : Q → A → ℝ) (u : A → ℝ) (x : Q → ℝ) : ∑ q, x q * comb c u q = ∑ a, u a * proj c x a := by
  simp only [comb, proj, Finset.mul_sum]
  rw [Finset.sum_comm]
  exact Finset.sum_congr rfl fun a _ => Finset.sum_congr rfl fun q _ => by ring

/-- A symmetric equation `K K v = K u` has a solution. -/
theorem exists_normal [DecidableEq A] (K : Matrix A A ℝ) (hK : Kᵀ = K) (u : A → ℝ) : ∃ v, K *ᵥ (K *ᵥ v) = K *ᵥ u := by
  have h1 : (Kᵀ * K).rank = K.rank := Matrix.rank_transpose_mul_self K
  rw [hK] at h1
  have hle : LinearMap.range (K * K).mulVecLin ≤ LinearMap.range K.mulVecLin := by
    rw [Matrix.mulVecLin_mul]
    exact LinearMap.range_comp_le_range _ _
  have heq := Submodule.eq_of_le_of_finrank_eq hle h1
  have hu : K *ᵥ u ∈ LinearMap.range (K * K).mulVecLin := by
    rw [heq]
    exact ⟨u, rfl⟩
  obtain ⟨v, hv⟩ := hu
  refine ⟨v, ?_⟩
  rw [Matrix.mulVec_mulVec]
  exact hv

/-- The shortest solution of `C Cᵀ z = C u` in a weighted norm: `D z` is in the range of `C`. -/
theorem exists_shortest (c : Q → A → ℝ) (D : Q → ℝ) (hD : ∀ q, 0 < D q) (u : A → ℝ) :
    ∃ (z : Q → ℝ) (v : A → ℝ), (∀ q, comb c (proj c z) q = comb c u q) ∧ ∀ q, D q * z q = comb c v q := by
  classical
  let K : Matrix A A ℝ := Matrix.of fun a b => ∑ q, c q a * c q b / D q
  have hK : Kᵀ = K := by
    ext a b
    simp only [K, Matrix.transpose_apply, Matrix.of_apply]
    exact Finset.sum_congr rfl fun q _ => by ring
  have hKv : ∀ v a, (K *ᵥ v) a = ∑ q, c q a * (comb c v q / D q) := by
    intro v a
    simp only [K, Matrix.mulVec, dotProduct, Matrix.of_apply, comb, Finset.sum_mul, Finset.mul_sum, Finset.sum_div]
    rw [Finset.sum_comm]
    exact Finset.sum_congr rfl fun q _ => Finset.sum_congr rfl fun a _ => by ring
  obtain ⟨v, hv⟩ := exists_normal K hK u
  refine ⟨fun q => comb c v q / D q, v, ?_, fun q => mul_div_cancel₀ _ (hD q).ne'⟩
  have hp : proj c (fun q => comb c v q / D q) = K *ᵥ v := by
    funext a
    rw [hKv]
    rfl
  have h0 : K *ᵥ (K *ᵥ v - u) = 0 := by rw [Matrix.mulVec_sub, hv, sub_self]
  set w := K *ᵥ v - u with hw
  have h1 : ∑ q, comb c w q ^ 2 / D q = 0 := by
    have : ∑ a, w a * (K *ᵥ w) a = 0 := by simp [h0]
    rw [← this]
    simp only [hKv]
    have h2 := dot_comb c w (fun q => comb c w q / D q)
    simp only [proj] at h2
    rw [← h2]
    exact Finset.sum_congr rfl fun q _ => by ring
  have h2 : ∀ q, comb c w q = 0 := by
    intro q
    have := (Finset.sum_eq_zero_iff_of_nonneg fun q _ => div_nonneg (sq_nonneg _) (hD q).le).mp h1 q (Finset.mem_univ q)
    have h3 : comb c w q ^ 2 = 0 := by
      rcases div_eq_zero_iff.mp this with h | h
      · exact h
      · exact absurd h (hD q).ne'
    exact pow_eq_zero_iff (two_ne_zero) |>.mp h3
  intro q
  have h3 := h2 q
  rw [hp]
  simp only [comb, hw, Pi.sub_apply, mul_sub, Finset.sum_sub_distrib] at h3
  simp only [comb]
  linarith

/-- It is the shortest one. -/
theorem shortest (c : Q → A → ℝ) (D : Q → ℝ) (hD : ∀ q, 0 < D q) (z : Q → ℝ) (v : A → ℝ) (hz : ∀ q, D q * z q = comb c v q) (z' : Q → ℝ)
    (h : ∀ q, comb c (proj c z') q = comb c (proj c z) q) : ∑ q, D q * z q ^ 2 ≤ ∑ q, D q * z' q ^ 2 := by
  have hs : ∀ a, proj c (fun q => z' q - z q) a = proj c z' a - proj c z a := by
    intro a
    simp only [proj, mul_sub, Finset.sum_sub_distrib]
  have h0 : ∑ a, proj c (fun q => z' q - z q) a * proj c (fun q => z' q - z q) a = 0 := by
    rw [← dot_comb]
    refine Finset.sum_eq_zero fun q _ => ?_
    have : comb c (proj c fun q => z' q - z q) q = comb c (proj c z') q - comb c (proj c z) q := by
      simp only [comb, hs, mul_sub, Finset.sum_sub_distrib]
    rw [this, h, sub_self, mul_zero]
  have h1 : ∀ a, proj c (fun q => z' q - z q) a = 0 := by
    intro a
    have := (Finset.sum_eq_zero_iff_of_nonneg fun a _ => mul_self_nonneg _).mp h0 a (Finset.mem_univ a)
    exact mul_self_eq_zero.mp this
  have h2 : ∑ q, (z' q - z q) * comb c v q = 0 := by
    rw [dot_comb c v fun q => z' q - z q]
    simp [h1]
  have h3 : ∑ q, D q * z' q ^ 2 = ∑ q, D q * z q ^ 2 + 2 * ∑ q, (z' q - z q) * comb c v q + ∑ q, D q * (z' q - z q) ^ 2 := by
    rw [Finset.mul_sum, ← Finset.sum_add_distrib, ← Finset.sum_add_distrib]
    refine Finset.sum_congr rfl fun q _ => ?_
    rw [← hz]
    ring
  rw [h3, h2]
  have : 0 ≤ ∑ q, D q * (z' q - z q) ^ 2 := Finset.sum_nonneg fun q _ => mul_nonneg (hD q).le (sq_nonneg _)
  linarith

/-- The distance of the regularised solution. -/
theorem distance (c : Q → A → ℝ) (D : Q → ℝ) (α β : ℝ) (hα : 0 < α) (hβ : 0 < β) (d : Q → ℝ) (t : A → ℝ)
    (h : ∀ q, α * comb c (proj c d) q + β * (D q * d q) = β * comb c t q) : ∑ q, D q * d q ^ 2 ≤ β / α * ((∑ a, t a ^ 2) / 4) := by
  have h1 : α * ∑ a, proj c d a ^ 2 + β * ∑ q, D q * d q ^ 2 = β * ∑ a, t a * proj c d a := by
    have e1 : ∑ a, proj c d a ^ 2 = ∑ q, d q * comb c (proj c d) q := by
      rw [dot_comb]
      exact Finset.sum_congr rfl fun a _ => by ring
    rw [e1, ← dot_comb, Finset.mul_sum, Finset.mul_sum, Finset.mul_sum, ← Finset.sum_add_distrib]
    refine Finset.sum_congr rfl fun q _ => ?_
    have := h q
    linear_combination d q * this
  have h2 : β * ∑ a, t a * proj c d a ≤ α * ∑ a, proj c d a ^ 2 + β * (β / α * ((∑ a, t a ^ 2) / 4)) := by
    rw [Finset.mul_sum, Finset.mul_sum, Finset.sum_div, Finset.mul_sum, Finset.mul_sum, ← Finset.sum_add_distrib]
    refine Finset.sum_le_sum fun a _ => ?_
    have h3 : 0 ≤ α * (proj c d a - β / (2 * α) * t a) ^ 2 := mul_nonneg hα.le (sq_nonneg _)
    have h4 : α * (proj c d a - β / (2 * α) * t a) ^ 2 = α * proj c d a ^ 2 + β * (β / α * (t a ^ 2 / 4)) - β * (t a * proj c d a) := by
      field_simp
      ring
    linarith
  have h5 : β * ∑ q, D q * d q ^ 2 ≤ β * (β / α * ((∑ a, t a ^ 2) / 4)) := by linarith
  exact le_of_mul_le_mul_left h5 hβ

/-- The size of the regularised solution. -/
theorem size (c : Q → A → ℝ) (D : Q → ℝ) (α β δ : ℝ) (hα : 0 ≤ α) (hβ : 0 < β) (hδ : 0 < δ) (hD : ∀ q, δ ≤ D q) (x y : Q → ℝ)
    (h : ∀ q, α * comb c (proj c x) q + β * (D q * x q) = y q) : (β * δ) ^ 2 * ∑ q, x q ^ 2 ≤ ∑ q, y q ^ 2 := by
  have h1 : α * ∑ a, proj c x a ^ 2 + β * ∑ q, D q * x q ^ 2 = ∑ q, x q * y q := by
    have e1 : ∑ a, proj c x a ^ 2 = ∑ q, x q * comb c (proj c x) q := by
      rw [dot_comb]
      exact Finset.sum_congr rfl fun a _ => by ring
    rw [e1, Finset.mul_sum, Finset.mul_sum, ← Finset.sum_add_distrib]
    refine Finset.sum_congr rfl fun q _ => ?_
    linear_combination x q * h q
  have h2 : 0 ≤ α * ∑ a, proj c x a ^ 2 := mul_nonneg hα (Finset.sum_nonneg fun a _ => sq_nonneg _)
  have h3 : δ * ∑ q, x q ^ 2 ≤ ∑ q, D q * x q ^ 2 := by
    rw [Finset.mul_sum]
    exact Finset.sum_le_sum fun q _ => mul_le_mul_of_nonneg_right (hD q) (sq_nonneg _)
  have h4 : β * (δ * ∑ q, x q ^ 2) ≤ ∑ q, x q * y q := by
    have := mul_le_mul_of_nonneg_left h3 hβ.le
    linarith
  -- 2 b x y ≤ b² x² + y²
  have h5 : 2 * (β * δ) * ∑ q, x q * y q ≤ (β * δ) ^ 2 * ∑ q, x q ^ 2 + ∑ q, y q ^ 2 := by
    rw [Finset.mul_sum, Finset.mul_sum, ← Finset.sum_add_distrib]
    refine Finset.sum_le_sum fun q _ => ?_
    nlinarith [sq_nonneg (β * δ * x q - y q)]
  have h6 : 0 < β * δ := mul_pos hβ hδ
  nlinarith [mul_le_mul_of_nonneg_left h4 h6.le]

end

/-! ## `SRRMSProp` -/

variable {ρ γ ι : Type} {R P : ℕ} [Fintype ι] [Fintype ρ] [Fintype γ]

/-- The weight of a coordinate. -/
noncomputable def weight (eps : ℝ) (ema : Tree ρ γ) (q : Coord ρ γ) : ℝ := Real.sqrt (toReal ema q) + eps

theorem weight_pos {eps : ℝ} (he : 0 < eps) (ema : Tree ρ γ) (q : Coord ρ γ) : 0 < weight eps ema q :=
  add_pos_of_nonneg_of_pos (Real.sqrt_nonneg _) he

theorem equation (e : Coord ρ γ ≃ Fin P) (O : Fin R → Matrix ι (Fin P) ℝ) (eps : ℝ) (he : 0 < eps) (ema : Tree ρ γ)
    (solver : Operator P → (Fin P → ℝ) → Fin P → ℝ) (hs : SolvesOperator solver) (y : Tree ρ γ) (s : ℝ) (h0 : 0 < s) (h1 : s ≤ 1) (q : Coord ρ γ) :
    (1 - s) * comb (column e O) (proj (column e O) (toReal ((⟨O, s, eps, ema⟩ : QGT ρ γ R P ι).solve e solver y))) q +
      s * (weight eps ema q * toReal ((⟨O, s, eps, ema⟩ : QGT ρ γ R P ι).solve e solver y) q) = toReal y q := by
  set S : QGT ρ γ R P ι := ⟨O, s, eps, ema⟩
  have h := C150_product e S (S.solve e solver y) q
  rw [C150_solve e S h0 h1 he solver hs y] at h
  rw [h]
  have hc : ∑ q', (∑ a, column e S.O q a * column e S.O q' a) * toReal (S.solve e solver y) q' =
      comb (column e O) (proj (column e O) (toReal (S.solve e solver y))) q := by
    simp only [comb, proj, Finset.sum_mul, Finset.mul_sum]
    rw [Finset.sum_comm]
    exact Finset.sum_congr rfl fun a _ => Finset.sum_congr rfl fun q' _ => by ring
  rw [hc]
  simp only [weight, S]
  ring

/-- **C192**, shift 1: every coordinate of the gradient is divided by `√ema + eps`, whatever the Jacobian. -/
theorem C192_one (e : Coord ρ γ ≃ Fin P) (O : Fin R → Matrix ι (Fin P) ℝ) (eps : ℝ) (he : 0 < eps) (ema : Tree ρ γ)
    (solver : Operator P → (Fin P → ℝ) → Fin P → ℝ) (hs : SolvesOperator solver) (gradient : Tree ρ γ) (q : Coord ρ γ) :
    toReal ((⟨O, 1, eps, ema⟩ : QGT ρ γ R P ι).solve e solver gradient) q = toReal gradient q / (Real.sqrt (toReal ema q) + eps) := by
  have h := equation e O eps he ema solver hs gradient 1 one_pos le_rfl q
  have hp : Real.sqrt (toReal ema q) + eps ≠ 0 := (weight_pos he ema q).ne'
  rw [eq_div_iff hp, ← h]
  simp only [weight]
  ring

/-- **C192**, every shift: the result is at most `1 / (shift * eps)` times as long as the gradient. -/
theorem C192_bounded (e : Coord ρ γ ≃ Fin P) (O : Fin R → Matrix ι (Fin P) ℝ) (eps : ℝ) (he : 0 < eps) (ema : Tree ρ γ)
    (solver : Operator P → (Fin P → ℝ) → Fin P → ℝ) (hs : SolvesOperator solver) (gradient : Tree ρ γ) (s : ℝ) (h0 : 0 < s) (h1 : s ≤ 1) :
    ∑ q, toReal ((⟨O, s, eps, ema⟩ : QGT ρ γ R P ι).solve e solver gradient) q ^ 2 ≤ (1 / (s * eps)) ^ 2 * ∑ q, toReal gradient q ^ 2 := by
  have h := size (column e O) (weight eps ema) (1 - s) s eps (by linarith) h0 he
    (fun q => by unfold weight; linarith [Real.sqrt_nonneg (toReal ema q)]) _ _ (equation e O eps he ema solver hs gradient s h0 h1)
  have hp : 0 < (s * eps) ^ 2 := pow_pos (mul_pos h0 he) 2
  rw [div_pow, one_pow, one_div, ← div_eq_inv_mul, le_div_iff₀ hp, mul_comm]
  exact h

/-- **C192**, small shifts: if the gradient is a combination of the rows of the Jacobian, there is a tree which solves the equation without
regularisation, is the shortest of all solutions, and is approached by the results with the shift `s` at the rate `√s`. -/
theorem C192_limit (e : Coord ρ γ ≃ Fin P) (O : Fin R → Matrix ι (Fin P) ℝ) (eps : ℝ) (he : 0 < eps) (ema : Tree ρ γ)
    (solver : Operator P → (Fin P → ℝ) → Fin P → ℝ) (hs : SolvesOperator solver) (gradient : Tree ρ γ) (u : Fin R × ι → ℝ)
    (hu : ∀ q, toReal gradient q = ∑ a, column e O q a * u a) :
    ∃ z : Coord ρ γ → ℝ, (∀ q, ∑ q', (∑ a, column e O q a * column e O q' a) * z q' = toReal gradient q) ∧
      (∀ z' : Coord ρ γ → ℝ, (∀ q, ∑ q', (∑ a, column e O q a * column e O q' a) * z' q' = toReal gradient q) →
        ∑ q, (Real.sqrt (toReal ema q) + eps) * z q ^ 2 ≤ ∑ q, (Real.sqrt (toReal ema q) + eps) * z' q ^ 2) ∧
      ∃ K, ∀ s, 0 < s → s < 1 →
        ∑ q, (Real.sqrt (toReal ema q) + eps) * (toReal ((⟨O, s, eps, ema⟩ : QGT ρ γ R P ι).solve e solver gradient) q - z q) ^ 2 ≤
          s / (1 - s) * K := by
  have hgram : ∀ (x : Coord ρ γ → ℝ) q, ∑ q', (∑ a, column e O q a * column e O q' a) * x q' = comb (column e O) (proj (column e O) x) q := by
    intro x q
    simp only [comb, proj, Finset.sum_mul, Finset.mul_sum]
    rw [Finset.sum_comm]
    exact Finset.sum_congr rfl fun a _ => Finset.sum_congr rfl fun q' _ => by ring
  obtain ⟨z, v, h1, h2⟩ := exists_shortest (column e O) (weight eps ema) (weight_pos he ema) u
  have hy : ∀ q, toReal gradient q = comb (column e O) u q := hu
  simp only [hgram]
  refine ⟨z, fun q => by rw [h1, hy], fun z' hz' => ?_, (∑ a, (u a - v a) ^ 2) / 4, fun s h0 hs1 => ?_⟩
  · exact shortest (column e O) (weight eps ema) (weight_pos he ema) z v h2 z' fun q => by rw [hz', h1, hy]
  · refine distance (column e O) (weight eps ema) (1 - s) s (by linarith) h0 _ (fun a => u a - v a) fun q => ?_
    have h := equation e O eps he ema solver hs gradient s h0 hs1.le q
    set x := toReal ((⟨O, s, eps, ema⟩ : QGT ρ γ R P ι).solve e solver gradient)
    have e1 : comb (column e O) (proj (column e O) fun q => x q - z q) q =
        comb (column e O) (proj (column e O) x) q - comb (column e O) (proj (column e O) z) q := by
      simp only [comb, proj, mul_sub, Finset.sum_sub_distrib]
    have e2 : comb (column e O) (fun a => u a - v a) q = comb (column e O) u q - comb (column e O) v q := by
      simp only [comb, mul_sub, Finset.sum_sub_distrib]
    rw [e1, e2, h1, mul_sub (weight eps ema q), h2]
    rw [hy] at h
    linear_combination h

/-- The condition is met by every combination of the rows: one real and one complex parameter, two ranks with five samples each. -/
example (e : Coord (Fin 1) (Fin 1) ≃ Fin 3) (O : Fin 2 → Matrix (Fin 5 × Fin 2) (Fin 3) ℝ) (ema : Tree (Fin 1) (Fin 1))
    (solver : Operator 3 → (Fin 3 → ℝ) → Fin 3 → ℝ) (hs : SolvesOperator solver) (u : Fin 2 × (Fin 5 × Fin 2) → ℝ) :=
  C192_limit e O (1 / 10 ^ 8) (by norm_num) ema solver hs (SRPrecond.reassemble fun q => ∑ a, column e O q a * u a) u
    (by rintro (i | i | i) <;> rfl)

/-- **C192**: without that condition the results grow without bound, as `1 / s`: the part of the gradient along a direction `k` that the rows do
not see is only limited by the regularisation. -/
theorem C192_outside (e : Coord ρ γ ≃ Fin P) (O : Fin R → Matrix ι (Fin P) ℝ) (eps : ℝ) (he : 0 < eps) (ema : Tree ρ γ)
    (solver : Operator P → (Fin P → ℝ) → Fin P → ℝ) (hs : SolvesOperator solver) (gradient : Tree ρ γ) (k : Coord ρ γ → ℝ)
    (hk : ∀ a, ∑ q, column e O q a * k q = 0) (s : ℝ) (h0 : 0 < s) (h1 : s ≤ 1) :
    ∑ q, k q * ((Real.sqrt (toReal ema q) + eps) * toReal ((⟨O, s, eps, ema⟩ : QGT ρ γ R P ι).solve e solver gradient) q) =
      (∑ q, k q * toReal gradient q) / s := by
  have h := equation e O eps he ema solver hs gradient s h0 h1
  rw [eq_div_iff h0.ne']
  set x := toReal ((⟨O, s, eps, ema⟩ : QGT ρ γ R P ι).solve e solver gradient)
  have hz : ∑ q, k q * comb (column e O) (proj (column e O) x) q = 0 := by
    rw [dot_comb]
    exact Finset.sum_eq_zero fun a _ => by rw [show proj (column e O) k a = 0 from hk a, mul_zero]
  have : ∑ q, k q * toReal gradient q = (1 - s) * ∑ q, k q * comb (column e O) (proj (column e O) x) q +
      s * ∑ q, k q * (weight eps ema q * x q) := by
    rw [Finset.mul_sum, Finset.mul_sum, ← Finset.sum_add_distrib]
    refine Finset.sum_congr rfl fun q _ => ?_
    rw [← h q]
    ring
  rw [this, hz, mul_zero, zero_add, mul_comm]
  rfl

/-! ## `VMC_SRRMSProp` -/

/-- The weight of a parameter in the driver after a step. -/
noncomputable def driverWeight {N : ℕ} (O : Fin N → Fin 2 → Fin P → ℝ) (E : Fin N → ℂ) (ema : Fin P → ℝ) (step : ℕ) (decay eps : ℝ) (k : Fin P) : ℝ :=
  Real.sqrt ((decay * ema k + (1 - decay) * (2 * N ^ 2 * (srForce (complexRows O) E k).re) ^ 2) / (1 - decay ^ (step + 1))) + eps

theorem driver_equation {N : ℕ} (O : Fin N → Fin 2 → Fin P → ℝ) (E : Fin N → ℂ) (ema : Fin P → ℝ) (step : ℕ)
    (decay eps : ℝ) (he : 0 < eps) (solver : Matrix (Fin P) (Fin P) ℝ → (Fin P → ℝ) → (Fin P → ℝ)) (hsolver : SolvesPosDef solver)
    (shift : ℝ) (hs : 0 < shift) (k : Fin P) :
    1 * comb (fun k a => denseRows O a k) (proj (fun k a => denseRows O a k) (srComplex O E (sampleMean E) ema step shift decay eps solver).1) k +
      shift * (driverWeight O E ema step decay eps k * (srComplex O E (sampleMean E) ema step shift decay eps solver).1 k) =
        2 * N ^ 2 * (srForce (complexRows O) E k).re := by
  obtain ⟨h1, h2⟩ := C49_sr_equation O E ema step shift decay eps hs he solver hsolver
  rw [← h2 k]
  simp only [h1, driverWeight]
  rw [one_mul, ← mul_assoc]
  congr 1
  simp only [← dense_gram, Matrix.mul_apply, Matrix.transpose_apply, comb, proj, Finset.sum_mul, Finset.mul_sum]
  rw [Finset.sum_comm]
  exact Finset.sum_congr rfl fun a _ => Finset.sum_congr rfl fun q' _ => by ring

/-- **C192**, `VMC_SRRMSProp` with mode `complex` (real coordinates), small shifts: for every set of samples, moving average and step there are
parameter changes `z` that solve the SR equation `Re(S) z = 2 Re(F)` without regularisation and are the shortest such changes, and the update of
the driver approaches them as the shift tends to zero. -/
theorem C192_driver {N : ℕ} (hN : 0 < N) (O : Fin N → Fin 2 → Fin P → ℝ) (E : Fin N → ℂ) (ema : Fin P → ℝ) (step : ℕ)
    (decay eps : ℝ) (he : 0 < eps) (solver : Matrix (Fin P) (Fin P) ℝ → (Fin P → ℝ) → (Fin P → ℝ)) (hsolver : SolvesPosDef solver) :
    ∃ z : Fin P → ℝ, (∀ k, ∑ l, (srMatrix (complexRows O) k l).re * z l = 2 * (srForce (complexRows O) E k).re) ∧
      (∀ z' : Fin P → ℝ, (∀ k, ∑ l, (srMatrix (complexRows O) k l).re * z' l = 2 * (srForce (complexRows O) E k).re) →
        ∑ k, driverWeight O E ema step decay eps k * z k ^ 2 ≤ ∑ k, driverWeight O E ema step decay eps k * z' k ^ 2) ∧
      ∃ K, ∀ shift, 0 < shift → ∑ k, driverWeight O E ema step decay eps k *
        ((srComplex O E (sampleMean E) ema step shift decay eps solver).1 k - z k) ^ 2 ≤ shift * K := by
  have hN2 : (N : ℝ) ^ 2 ≠ 0 := pow_ne_zero 2 (by exact_mod_cast hN.ne')
  set c : Fin P → Fin (N + N) → ℝ := fun k a => denseRows O a k with hc
  have hgram : ∀ (x : Fin P → ℝ) k, comb c (proj c x) k = N ^ 2 * ∑ l, (srMatrix (complexRows O) k l).re * x l := by
    intro x k
    rw [Finset.mul_sum]
    simp only [← mul_assoc, ← dense_gram, Matrix.mul_apply, Matrix.transpose_apply, comb, proj, Finset.sum_mul, Finset.mul_sum]
    rw [Finset.sum_comm]
  have hw : ∀ k, 0 < driverWeight O E ema step decay eps k := fun k => add_pos_of_nonneg_of_pos (Real.sqrt_nonneg _) he
  set u : Fin (N + N) → ℝ := fun a => -denseEnergies E (sampleMean E) a with hu
  have hy : ∀ k, comb c u k = 2 * N ^ 2 * (srForce (complexRows O) E k).re := by
    intro k
    have h := dense_force O E k
    rw [mulVec, dotProduct] at h
    rw [← neg_eq_iff_eq_neg.mpr h]
    simp only [comb, hc, hu, mul_neg, Finset.sum_neg_distrib, Matrix.transpose_apply]
  have hiff : ∀ x : Fin P → ℝ, (∀ k, ∑ l, (srMatrix (complexRows O) k l).re * x l = 2 * (srForce (complexRows O) E k).re) ↔
      ∀ k, comb c (proj c x) k = comb c u k := by
    intro x
    refine forall_congr' fun k => ?_
    rw [hgram, hy, show 2 * (N : ℝ) ^ 2 * (srForce (complexRows O) E k).re = N ^ 2 * (2 * (srForce (complexRows O) E k).re) by ring]
    exact (mul_right_inj' hN2).symm
  obtain ⟨z, v, h1, h2⟩ := exists_shortest c (driverWeight O E ema step decay eps) hw u
  refine ⟨z, (hiff z).mpr h1, fun z' hz' => ?_, (∑ a, (-v a) ^ 2) / 4, fun shift hs => ?_⟩
  · exact shortest c _ hw z v h2 z' fun k => by rw [(hiff z').mp hz', h1]
  · have h := distance c (driverWeight O E ema step decay eps) 1 shift one_pos hs
      (fun k => (srComplex O E (sampleMean E) ema step shift decay eps solver).1 k - z k) (fun a => -v a) fun k => ?_
    · rwa [div_one] at h
    have heq := driver_equation O E ema step decay eps he solver hsolver shift hs k
    set x := (srComplex O E (sampleMean E) ema step shift decay eps solver).1
    have e1 : comb c (proj c fun q => x q - z q) k = comb c (proj c x) k - comb c (proj c z) k := by
      simp only [comb, proj, mul_sub, Finset.sum_sub_distrib]
    have e2 : comb c (fun a => -v a) k = -comb c v k := by
      simp only [comb, mul_neg, Finset.sum_neg_distrib]
    rw [e1, e2, h1, mul_sub (driverWeight O E ema step decay eps k), h2, hy]
    linear_combination heq

/-- **C192**, `VMC_SRRMSProp`, every shift: the update is at most `1 / (shift * eps)` times as long as the gradient `2 N² Re(F)`. -/
theorem C192_driver_bounded {N : ℕ} (O : Fin N → Fin 2 → Fin P → ℝ) (E : Fin N → ℂ) (ema : Fin P → ℝ) (step : ℕ)
    (decay eps : ℝ) (he : 0 < eps) (solver : Matrix (Fin P) (Fin P) ℝ → (Fin P → ℝ) → (Fin P → ℝ)) (hsolver : SolvesPosDef solver)
    (shift : ℝ) (hs : 0 < shift) :
    ∑ k, (srComplex O E (sampleMean E) ema step shift decay eps solver).1 k ^ 2 ≤
      (1 / (shift * eps)) ^ 2 * ∑ k, (2 * N ^ 2 * (srForce (complexRows O) E k).re) ^ 2 := by
  have h := size (fun k a => denseRows O a k) (driverWeight O E ema step decay eps) 1 shift eps zero_le_one hs he
    (fun k => by unfold driverWeight; linarith [Real.sqrt_nonneg ((decay * ema k + (1 - decay) * (2 * N ^ 2 *
      (srForce (complexRows O) E k).re) ^ 2) / (1 - decay ^ (step + 1)))]) _ _ (driver_equation O E ema step decay eps he solver hsolver shift hs)
  have hp : 0 < (shift * eps) ^ 2 := pow_pos (mul_pos hs he) 2
  rw [div_pow, one_pow, one_div, ← div_eq_inv_mul, le_div_iff₀ hp, mul_comm]
  exact h

example {N : ℕ} : ∃ solver : Matrix (Fin N) (Fin N) ℝ → (Fin N → ℝ) → (Fin N → ℝ), SolvesPosDef solver := exists_solvesPosDef

end GPSKet.ShiftLimits
