import Verif.Lemmas.FockAlg
import Verif.Lemmas.Fermion
import Verif.Spec.Rdm
import Verif.Spec.Updates

/-! # Conservation of the numbers of electrons, and sums over a sector of local estimators -/

namespace GPSKet.Spec

open Matrix

variable {L : ℕ}

/-- The number of electrons of one spin, as an operator. -/
def numTot (s : Bool) : Op L := ∑ i : Fin L, cre (mode s i) * ann (mode s i)

theorem mode_inj (σ τ : Bool) (i j : Fin L) : mode σ i = mode τ j ↔ σ = τ ∧ i = j := by
  unfold mode; rw [toLex_inj, Prod.mk.injEq]

theorem numTot_apply (s : Bool) (x : Cfg L) (n : Occ (Mode L)) :
    numTot s (occOf x) n = if occOf x = n then (numElec s x : ℤ) else 0 := by
  unfold numTot numElec
  rw [Matrix.sum_apply]
  have h : ∀ i : Fin L, (cre (mode s i) * ann (mode s i)) (occOf x) n
      = if occOf x = n then (if hasSpin s (x i) = true then 1 else 0) else (0 : ℤ) := by
    intro i
    rw [← hopS_mat]
    unfold SMap.mat
    rw [hopS_self]
    have hx : occOf x (mode s i) = hasSpin s (x i) := rfl
    by_cases hn : n (mode s i) = true
    · rw [if_pos hn]
      simp only
      by_cases he : occOf x = n
      · rw [if_pos he, if_pos he, ← hx, he, if_pos hn]
      · rw [if_neg he, if_neg he]
    · rw [if_neg hn]
      simp only
      by_cases he : occOf x = n
      · rw [if_pos he, ← hx, he, if_neg hn]
      · rw [if_neg he]
  simp only [h]
  by_cases he : occOf x = n
  · simp [he]
  · simp [he]

/-- An operator that commutes with the number of electrons of a spin connects only configurations with equal numbers. -/
theorem conserved {A : Op L} {s : Bool} (hA : numTot s * A = A * numTot s) (x x' : Cfg L) (h : numElec s x ≠ numElec s x') :
    A (occOf x) (occOf x') = 0 := by
  have h1 := congrFun (congrFun hA (occOf x)) (occOf x')
  rw [Matrix.mul_apply, Matrix.mul_apply] at h1
  have h2 : ∀ n, numTot s n (occOf x') = if n = occOf x' then (numElec s x' : ℤ) else 0 := by
    intro n
    have ht : (numTot s : Op L)ᵀ = numTot s := by
      unfold numTot
      rw [transpose_sum]
      exact Finset.sum_congr rfl fun i _ => cre_mul_ann_transpose _ _
    rw [← ht, transpose_apply, numTot_apply]
    exact if_congr eq_comm rfl rfl
  simp only [numTot_apply, h2, ite_mul, zero_mul, mul_ite, mul_zero, Finset.sum_ite_eq, Finset.sum_ite_eq', Finset.mem_univ,
    if_true] at h1
  have h3 : ((numElec s x : ℤ) - numElec s x') * A (occOf x) (occOf x') = 0 := by rw [sub_mul, h1]; ring
  rcases mul_eq_zero.mp h3 with h4 | h4
  · exact absurd (by exact_mod_cast sub_eq_zero.mp h4) h
  · exact h4

theorem numTot_bil (s σ : Bool) (p q : Fin L) :
    numTot s * (cre (mode σ p) * ann (mode σ q)) = (cre (mode σ p) * ann (mode σ q)) * numTot s := by
  rw [← sub_eq_zero]
  unfold numTot
  rw [Finset.sum_mul, Finset.mul_sum, ← Finset.sum_sub_distrib]
  simp only [bil_comm, mode_inj, Finset.sum_sub_distrib]
  rw [sub_eq_zero]
  by_cases h : s = σ
  · subst h; simp
  · have h' : ¬ σ = s := fun hh => h hh.symm
    simp [h, h']

theorem numTot_exc (s : Bool) (p q : Fin L) : numTot s * exc p q = exc p q * numTot s := by
  unfold exc
  rw [Finset.mul_sum, Finset.sum_mul]
  exact Finset.sum_congr rfl fun σ _ => numTot_bil s σ p q

theorem numTot_mul {s : Bool} {A B : Op L} (hA : numTot s * A = A * numTot s) (hB : numTot s * B = B * numTot s) :
    numTot s * (A * B) = (A * B) * numTot s := by
  rw [← Matrix.mul_assoc, hA, Matrix.mul_assoc, hB, Matrix.mul_assoc]

/-- The average of the local estimator of `A` over the configurations of a sector, weighted with `|ψ|²`, is `⟨ψ|A|ψ⟩`. -/
theorem sum_local {A : Op L} (hA : ∀ s, numTot s * A = A * numTot s) (logpsi : Cfg L → ℂ) (n : ℕ × ℕ) :
    (∑ x, star (sectorState logpsi n x) * sectorState logpsi n x * localEnergy (fun x' => (A (occOf x) (occOf x') : ℂ)) logpsi x)
      = braket A (sectorState logpsi n) := by
  unfold braket
  refine Finset.sum_congr rfl fun x _ => ?_
  unfold localEnergy
  by_cases hx : (numElec false x, numElec true x) = n
  · rw [Finset.mul_sum]
    refine Finset.sum_congr rfl fun x' _ => ?_
    have he : sectorState logpsi n x = Complex.exp (logpsi x) := if_pos hx
    rw [he]
    by_cases hx' : (numElec false x', numElec true x') = n
    · have he' : sectorState logpsi n x' = Complex.exp (logpsi x') := if_pos hx'
      rw [he']
      field_simp [Complex.exp_ne_zero]
    · have h0 : A (occOf x) (occOf x') = 0 := by
        by_cases h1 : numElec false x = numElec false x'
        · by_cases h2 : numElec true x = numElec true x'
          · exact absurd (by rw [← h1, ← h2]; exact hx) hx'
          · exact conserved (hA true) x x' h2
        · exact conserved (hA false) x x' h1
      simp only [h0, Int.cast_zero, zero_mul, mul_zero]
  · have he : sectorState logpsi n x = 0 := if_neg hx
    rw [he]; simp

end GPSKet.Spec
