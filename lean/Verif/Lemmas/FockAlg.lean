import Verif.Lemmas.Fock
import Mathlib.Tactic.NoncommRing

/-! # The algebra of bilinears `c†_a c_b` of creation and annihilation operators -/

namespace GPSKet.Spec

open Matrix

variable {ι : Type} [Fintype ι] [LinearOrder ι]

theorem car (p q : ι) : ann p * cre q + cre q * ann p = if p = q then 1 else 0 := by
  by_cases h : p = q
  · subst h; rw [if_pos rfl, car_same]
  · rw [if_neg h, car_ann_cre h]

theorem car' (p q : ι) : ann p * cre q = (if p = q then 1 else 0) - cre q * ann p := by
  rw [← car p q]; abel

theorem ann_sq (p : ι) : ann p * ann p = (0 : Matrix (Occ ι) (Occ ι) ℤ) := by
  rw [ann_eq, ← SMap.mat_comp]
  ext n' n
  unfold SMap.mat SMap.comp annS
  by_cases h : n p = true <;> simp [h]

theorem ann_anti (p q : ι) : ann p * ann q = -(ann q * ann p) := by
  by_cases h : p = q
  · subst h; rw [ann_sq, neg_zero]
  · exact eq_neg_of_add_eq_zero_left (car_ann_ann h)

theorem cre_anti (p q : ι) : cre p * cre q = -(cre q * cre p) := by
  unfold cre
  rw [← transpose_mul, ← transpose_mul, ann_anti q p, transpose_neg]

/-- Product of two bilinears in normal order. -/
theorem bil_mul (a b c d : ι) :
    (cre a * ann b) * (cre c * ann d) = (if b = c then cre a * ann d else 0) + cre a * cre c * ann d * ann b := by
  have h1 : (cre a * ann b) * (cre c * ann d) = cre a * (ann b * cre c) * ann d := by noncomm_ring
  have h2 : cre a * cre c * ann d * ann b = -(cre a * (cre c * ann b) * ann d) := by
    have : cre a * cre c * ann d * ann b = cre a * cre c * (ann d * ann b) := by noncomm_ring
    rw [this, ann_anti d b]; noncomm_ring
  rw [h1, h2, car']
  by_cases h : b = c
  · simp only [if_pos h]; noncomm_ring
  · simp only [if_neg h]; noncomm_ring

theorem bil_comm (a b c d : ι) :
    (cre a * ann b) * (cre c * ann d) - (cre c * ann d) * (cre a * ann b)
      = (if b = c then cre a * ann d else 0) - (if d = a then cre c * ann b else 0) := by
  rw [bil_mul a b c d, bil_mul c d a b]
  have : cre c * cre a * ann b * ann d = cre a * cre c * ann d * ann b := by
    have h1 : cre c * cre a * ann b * ann d = (cre c * cre a) * (ann b * ann d) := by noncomm_ring
    have h2 : cre a * cre c * ann d * ann b = (cre a * cre c) * (ann d * ann b) := by noncomm_ring
    rw [h1, h2, cre_anti c a, ann_anti b d]; noncomm_ring
  rw [this]; abel

end GPSKet.Spec
