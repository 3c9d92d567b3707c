import Mathlib.Probability.Distributions.Exponential
import Mathlib.MeasureTheory.Constructions.Pi
import Mathlib.MeasureTheory.Measure.Prod

/-!
# The first of independent exponential clocks
-/

namespace GPSKet.Clocks

open MeasureTheory ProbabilityTheory Set

/-- The distribution of one waiting time. -/
noncomputable def waiting : Measure ℝ := expMeasure 1

instance : IsProbabilityMeasure waiting := isProbabilityMeasure_expMeasure one_pos

theorem waiting_eq : waiting = volume.withDensity (exponentialPDF 1) := rfl

theorem waiting_singleton (a : ℝ) : waiting {a} = 0 :=
  withDensity_absolutelyContinuous _ _ (Real.volume_singleton)

theorem waiting_Iic (a : ℝ) : waiting (Iic a) = ENNReal.ofReal (if 0 ≤ a then 1 - Real.exp (-a) else 0) := by
  rw [waiting_eq, withDensity_apply _ measurableSet_Iic, lintegral_exponentialPDF_eq_antiDeriv one_pos, one_mul]

theorem waiting_Ici (a : ℝ) (ha : 0 ≤ a) : waiting (Ici a) = ENNReal.ofReal (Real.exp (-a)) := by
  have h1 : waiting (Iio a) = waiting (Iic a) := by
    apply le_antisymm (measure_mono Iio_subset_Iic_self)
    rw [← Iio_union_right]
    refine (measure_union_le _ _).trans ?_
    rw [waiting_singleton, add_zero]
  rw [← compl_Iio, prob_compl_eq_one_sub measurableSet_Iio, h1, waiting_Iic, if_pos ha, ← ENNReal.ofReal_one,
    ← ENNReal.ofReal_sub _ (by simp [ha])]
  congr 1
  ring

theorem waiting_pos : ∀ᵐ x ∂waiting, 0 < x := by
  rw [ae_iff]
  have : {x : ℝ | ¬ 0 < x} = Iic 0 := by ext x; simp
  rw [this, waiting_Iic]
  simp

theorem lintegral_exp (c : ℝ) (hc : 0 ≤ c) :
    ∫⁻ x, ENNReal.ofReal (Real.exp (-(c * x))) ∂waiting = ENNReal.ofReal (1 / (1 + c)) := by
  have hm : Measurable (exponentialPDF 1) := (measurable_exponentialPDFReal 1).ennreal_ofReal
  rw [waiting_eq, lintegral_withDensity_eq_lintegral_mul _ hm (by fun_prop)]
  have h : ∀ x, (exponentialPDF 1 * fun x => ENNReal.ofReal (Real.exp (-(c * x)))) x
      = ENNReal.ofReal (1 / (1 + c)) * exponentialPDF (1 + c) x := by
    intro x
    simp only [Pi.mul_apply]
    rcases lt_or_ge x 0 with hx | hx
    · rw [exponentialPDF_of_neg hx, exponentialPDF_of_neg hx, zero_mul, mul_zero]
    · rw [exponentialPDF_of_nonneg hx, exponentialPDF_of_nonneg hx, ← ENNReal.ofReal_mul (by positivity),
        ← ENNReal.ofReal_mul (by positivity)]
      congr 1
      rw [one_mul, one_mul, ← Real.exp_add, ← mul_assoc, one_div_mul_cancel (by positivity), one_mul]
      congr 1
      ring
  rw [lintegral_congr h, lintegral_const_mul _ (by exact (measurable_exponentialPDFReal _).ennreal_ofReal),
    lintegral_exponentialPDF_eq_one (by positivity), mul_one]

/-- Of clocks that run at the speeds `p`, with independent exponential waiting times, clock `i` is the first with probability
`p i / ∑ p`. -/
theorem first_arrival {n : ℕ} (p : Fin n → ℝ) (hp : ∀ i, 0 < p i) (i : Fin n) :
    (Measure.pi fun _ : Fin n => waiting) {E | ∀ j, E i / p i ≤ E j / p j} = ENNReal.ofReal (p i / ∑ j, p j) := by
  obtain ⟨m, rfl⟩ : ∃ m, n = m + 1 := ⟨n - 1, by have := i.isLt; omega⟩
  have hmp := (measurePreserving_piFinSuccAbove (fun _ : Fin (m + 1) => waiting) i).symm
  have hmeas : MeasurableSet {E : Fin (m + 1) → ℝ | ∀ j, E i / p i ≤ E j / p j} := by
    rw [setOf_forall]
    exact MeasurableSet.iInter fun j =>
      measurableSet_le ((measurable_pi_apply i).div_const _) ((measurable_pi_apply j).div_const _)
  rw [← hmp.measure_preimage hmeas.nullMeasurableSet, Measure.prod_apply (hmp.measurable hmeas)]
  have hslice : ∀ᵐ x ∂waiting, (Measure.pi fun _ : Fin m => waiting)
      (Prod.mk x ⁻¹' ((MeasurableEquiv.piFinSuccAbove (fun _ => ℝ) i).symm ⁻¹' {E | ∀ j, E i / p i ≤ E j / p j}))
      = ENNReal.ofReal (Real.exp (-((∑ j, p (i.succAbove j) / p i) * x))) := by
    filter_upwards [waiting_pos] with x hx
    have : Prod.mk x ⁻¹' ((MeasurableEquiv.piFinSuccAbove (fun _ : Fin (m + 1) => ℝ) i).symm ⁻¹' {E | ∀ j, E i / p i ≤ E j / p j})
        = Set.pi univ fun j : Fin m => Ici (p (i.succAbove j) / p i * x) := by
      ext E
      simp only [mem_preimage, mem_setOf_eq, mem_pi, mem_univ, forall_true_left, mem_Ici,
        MeasurableEquiv.piFinSuccAbove_symm_apply, Fin.insertNthEquiv_apply]
      rw [Fin.forall_iff_succAbove i]
      simp only [Fin.insertNth_apply_same, Fin.insertNth_apply_succAbove, le_refl, true_and]
      apply forall_congr'
      intro j
      rw [le_div_iff₀ (hp _), div_mul_eq_mul_div, div_mul_eq_mul_div, mul_comm x]
    rw [this, Measure.pi_pi, Finset.prod_congr rfl fun j _ => waiting_Ici _ (by have := hp i; have := hp (i.succAbove j); positivity),
      ← ENNReal.ofReal_prod_of_nonneg (fun _ _ => (Real.exp_pos _).le), ← Real.exp_sum]
    congr 2
    rw [Finset.sum_mul, Finset.sum_neg_distrib]
  rw [lintegral_congr_ae hslice, lintegral_exp _ (Finset.sum_nonneg fun j _ => (div_pos (hp _) (hp _)).le)]
  congr 1
  rw [Fin.sum_univ_succAbove _ i, ← Finset.sum_div]
  have := (hp i).ne'
  have : 0 < p i + ∑ j, p (i.succAbove j) := add_pos_of_pos_of_nonneg (hp i) (Finset.sum_nonneg fun j _ => (hp _).le)
  field_simp

theorem first_arrival_fintype {ι : Type} [Fintype ι] (p : ι → ℝ) (hp : ∀ i, 0 < p i) (i : ι) :
    (Measure.pi fun _ : ι => waiting) {E | ∀ j, E i / p i ≤ E j / p j} = ENNReal.ofReal (p i / ∑ j, p j) := by
  let e := Fintype.equivFin ι
  have hmp := measurePreserving_piCongrLeft (fun _ : ι => waiting) e.symm
  have hmeas : MeasurableSet {E : ι → ℝ | ∀ j, E i / p i ≤ E j / p j} := by
    rw [setOf_forall]
    exact MeasurableSet.iInter fun j =>
      measurableSet_le ((measurable_pi_apply i).div_const _) ((measurable_pi_apply j).div_const _)
  rw [← hmp.measure_preimage hmeas.nullMeasurableSet]
  have h := first_arrival (fun k => p (e.symm k)) (fun k => hp _) (e i)
  rw [Equiv.symm_apply_apply, Equiv.sum_comp e.symm] at h
  rw [← h]
  congr 1
  ext E
  simp only [mem_preimage, mem_setOf_eq, MeasurableEquiv.coe_piCongrLeft]
  have hE : ∀ k, (Equiv.piCongrLeft (fun _ : ι => ℝ) e.symm) E k = E (e k) := by
    intro k
    conv_lhs => rw [← e.symm_apply_apply k]
    rw [Equiv.piCongrLeft_apply_apply]
  simp only [hE]
  constructor
  · intro h k
    simpa using h (e.symm k)
  · intro h j
    simpa using h (e j)

/-- The same with clocks that do not run, which never arrive. -/
theorem first_arrival_of_nonneg {ι : Type} [Fintype ι] (p : ι → ℝ) (hp : ∀ i, 0 ≤ p i) (i : ι) (hi : p i ≠ 0) :
    (Measure.pi fun _ : ι => waiting) {E | ∀ j, p j ≠ 0 → E i / p i ≤ E j / p j} = ENNReal.ofReal (p i / ∑ j, p j) := by
  classical
  have hmp := measurePreserving_piEquivPiSubtypeProd (fun _ : ι => waiting) (fun j => p j ≠ 0)
  let C : Set ({j // p j ≠ 0} → ℝ) := {E | ∀ j : {j // p j ≠ 0}, E ⟨i, hi⟩ / p i ≤ E j / p j}
  have hC : MeasurableSet C := by
    show MeasurableSet {E | _}
    rw [setOf_forall]
    exact MeasurableSet.iInter fun j =>
      measurableSet_le ((measurable_pi_apply _).div_const _) ((measurable_pi_apply _).div_const _)
  have h1 : {E : ι → ℝ | ∀ j, p j ≠ 0 → E i / p i ≤ E j / p j}
      = (MeasurableEquiv.piEquivPiSubtypeProd (fun _ : ι => ℝ) fun j => p j ≠ 0) ⁻¹' (C ×ˢ univ) := by
    ext E
    simp [C, MeasurableEquiv.piEquivPiSubtypeProd, Equiv.piEquivPiSubtypeProd]
  rw [h1, hmp.measure_preimage (hC.prod MeasurableSet.univ).nullMeasurableSet, Measure.prod_prod, measure_univ, mul_one]
  rw [first_arrival_fintype (fun j : {j // p j ≠ 0} => p j) (fun j => lt_of_le_of_ne (hp _) (Ne.symm j.2)) ⟨i, hi⟩]
  congr 2
  rw [← Finset.sum_subtype (Finset.univ.filter fun j => p j ≠ 0) (by simp) p]
  exact Finset.sum_filter_of_ne fun j _ h => h

theorem waiting_pi_pos {ι : Type} [Fintype ι] : ∀ᵐ E ∂(Measure.pi fun _ : ι => waiting), ∀ i, 0 < E i := by
  rw [ae_all_iff]
  intro i
  exact (measurePreserving_eval (fun _ : ι => waiting) i).quasiMeasurePreserving.ae waiting_pos

/-- If exactly one of the events `A i` takes place, and each is contained in the event that clock `i` is the first, then it has the
same probability. -/
theorem first_arrival_event {ι : Type} [Fintype ι] (p : ι → ℝ) (hp : ∀ i, 0 ≤ p i) (A : ι → Set (ι → ℝ))
    (h0 : ∃ i, p i ≠ 0)
    (hcover : ∀ E, (∀ i, 0 < E i) → ∃ i, p i ≠ 0 ∧ E ∈ A i)
    (hfirst : ∀ E, (∀ i, 0 < E i) → ∀ i, E ∈ A i → p i ≠ 0 ∧ ∀ j, p j ≠ 0 → E i / p i ≤ E j / p j) (i : ι) :
    (Measure.pi fun _ : ι => waiting) (A i) = ENNReal.ofReal (p i / ∑ j, p j) := by
  set μ := Measure.pi fun _ : ι => waiting with hμ
  have hsum : 0 < ∑ j, p j := by
    obtain ⟨k, hk⟩ := h0
    exact Finset.sum_pos' (fun j _ => hp j) ⟨k, Finset.mem_univ _, lt_of_le_of_ne (hp k) (Ne.symm hk)⟩
  have hle : ∀ i, μ (A i) ≤ ENNReal.ofReal (p i / ∑ j, p j) := by
    intro i
    by_cases hi : p i = 0
    · have : μ (A i) = 0 := by
        have h : ∀ᵐ E ∂μ, E ∉ A i := by
          filter_upwards [waiting_pi_pos (ι := ι)] with E hE hA
          exact (hfirst E hE i hA).1 hi
        rw [ae_iff] at h
        simpa using h
      rw [this]
      exact zero_le
    · rw [← first_arrival_of_nonneg p hp i hi]
      apply measure_mono_ae
      filter_upwards [waiting_pi_pos (ι := ι)] with E hE hA
      exact (hfirst E hE i hA).2
  have hone : 1 ≤ ∑ i, μ (A i) := by
    calc (1 : ENNReal) = μ univ := (measure_univ (μ := μ)).symm
      _ ≤ μ (⋃ i, A i) := by
        apply measure_mono_ae
        filter_upwards [waiting_pi_pos (ι := ι)] with E hE _
        obtain ⟨k, _, hk⟩ := hcover E hE
        exact mem_iUnion.mpr ⟨k, hk⟩
      _ ≤ ∑ i, μ (A i) := measure_iUnion_fintype_le _ _
  have htot : ∑ i, ENNReal.ofReal (p i / ∑ j, p j) = 1 := by
    rw [← ENNReal.ofReal_sum_of_nonneg fun j _ => div_nonneg (hp j) hsum.le, ← Finset.sum_div, div_self hsum.ne', ENNReal.ofReal_one]
  refine le_antisymm (hle i) ?_
  by_contra hlt
  rw [not_le] at hlt
  have : ∑ i, μ (A i) < ∑ i, ENNReal.ofReal (p i / ∑ j, p j) := by
    classical
    rw [← Finset.add_sum_erase _ _ (Finset.mem_univ i), ← Finset.add_sum_erase _ _ (Finset.mem_univ i)]
    refine ENNReal.add_lt_add_of_lt_of_le ?_ hlt (Finset.sum_le_sum fun j _ => hle j)
    exact (ENNReal.sum_lt_top.mpr fun j _ => measure_lt_top _ _).ne
  rw [htot] at this
  exact absurd hone (not_le.mpr this)

end GPSKet.Clocks
