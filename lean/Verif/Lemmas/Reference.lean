import Verif.Model.Reference
import Verif.Lemmas.PairState
import Verif.Lemmas.ElectronList
import Verif.Props.Pfaffian
import Verif.Props.SlaterState

/-! # Lemmas on the reference states -/

namespace GPSKet.Reference
open Spec Pfaffian Backflow ElectronList

variable {L n : ℕ}

/-- The first and the second half of the positions. -/
def halves (n : ℕ) : Fin n ⊕ Fin n ≃ Fin (2 * n) := finSumFinEquiv.trans (finCongr (two_mul n).symm)

theorem halves_inl (i : Fin n) : (halves n (.inl i)).val = i.val := rfl
theorem halves_inr (i : Fin n) : (halves n (.inr i)).val = n + i.val := rfl

theorem positions_inl [NeZero L] {x : Cfg L} {up dn : Fin n → Fin L} (h : Enumerates x up dn) (i : Fin n) :
    positions n x (halves n (.inl i)) = .inl (up i) := by
  unfold positions
  rw [occupanciesToElectrons_eq x ⟨card_of_enum false x up h.up_mono h.up_iff, card_of_enum true x dn h.dn_mono h.dn_iff⟩ up dn
    h.up_mono h.dn_mono h.up_iff h.dn_iff, halves_inl, if_neg (by have := i.isLt; omega), add_zero,
    List.getD_append _ _ _ _ (by simp), List.getD_eq_getElem _ _ (by simp)]
  simp [orbital]

theorem positions_inr [NeZero L] {x : Cfg L} {up dn : Fin n → Fin L} (h : Enumerates x up dn) (i : Fin n) :
    positions n x (halves n (.inr i)) = .inr (dn i) := by
  unfold positions
  rw [occupanciesToElectrons_eq x ⟨card_of_enum false x up h.up_mono h.up_iff, card_of_enum true x dn h.dn_mono h.dn_iff⟩ up dn
    h.up_mono h.dn_mono h.up_iff h.dn_iff, halves_inr, if_pos (by omega),
    List.getD_append_right _ _ _ _ (by simp), List.getD_eq_getElem _ _ (by simp)]
  simp [orbital]

/-- The matrix `[[0, 1], [-1, 0]]`. -/
def symplectic (n : ℕ) : Matrix (Fin (2 * n)) (Fin (2 * n)) ℂ :=
  (Matrix.fromBlocks 0 1 (-1) 0 : Matrix (Fin n ⊕ Fin n) (Fin n ⊕ Fin n) ℂ).submatrix (halves n).symm (halves n).symm

theorem skewOcc_apply {I : Type} {m : ℕ} (F : Matrix I I ℂ) (y : Fin m → I) (a b : Fin m) :
    skewOcc F y a b = F (y a) (y b) - F (y b) (y a) := rfl

/-- The matrix of a pairing of up with down orbitals. -/
theorem skewOcc_opposite [NeZero L] (phi : Fin L → Fin n → ℂ) {x : Cfg L} {up dn : Fin n → Fin L} (h : Enumerates x up dn) :
    skewOcc (Matrix.fromBlocks 0 (pfaffianInit phi) 0 0) (positions n x) =
      ((Matrix.fromBlocks (Matrix.of fun i k => phi (up i) k) 0 0 (Matrix.of fun i k => phi (dn i) k)).submatrix (halves n).symm (halves n).symm) *
        symplectic n *
      ((Matrix.fromBlocks (Matrix.of fun i k => phi (up i) k) 0 0 (Matrix.of fun i k => phi (dn i) k)).submatrix (halves n).symm (halves n).symm).transpose := by
  unfold symplectic
  rw [Matrix.transpose_submatrix, Matrix.submatrix_mul_equiv, Matrix.submatrix_mul_equiv, Matrix.fromBlocks_transpose,
    Matrix.fromBlocks_multiply, Matrix.fromBlocks_multiply]
  ext a b
  obtain ⟨a, rfl⟩ := (halves n).surjective a
  obtain ⟨b, rfl⟩ := (halves n).surjective b
  rw [skewOcc_apply]
  rcases a with a | a <;> rcases b with b | b <;>
    simp [positions_inl h, positions_inr h, pfaffianInit, Matrix.mul_apply]
  exact Finset.sum_congr rfl fun k _ => mul_comm _ _

theorem pf_opposite [NeZero L] (phi : Fin L → Fin n → ℂ) {x : Cfg L} {up dn : Fin n → Fin L} (h : Enumerates x up dn) :
    pfaffian (skewOcc (Matrix.fromBlocks 0 (pfaffianInit phi) 0 0) (positions n x)) =
      (Matrix.of fun i k => phi (up i) k).det * (Matrix.of fun i k => phi (dn i) k).det * pfaffian (symplectic n) := by
  rw [skewOcc_opposite phi h, pf_congr, Matrix.det_submatrix_equiv_self, Matrix.det_fromBlocks_zero₂₁]

/-- The permutation that puts the first members of the pairs first. -/
def unshuffle (n : ℕ) : Equiv.Perm (Fin (2 * n)) where
  toFun k := halves n (if k.val % 2 = 0 then .inl ⟨k.val / 2, by have := k.isLt; omega⟩ else .inr ⟨k.val / 2, by have := k.isLt; omega⟩)
  invFun k := match (halves n).symm k with
    | .inl i => fstOf i
    | .inr i => sndOf i
  left_inv k := by
    simp only [Equiv.symm_apply_apply]
    split_ifs with h
    · apply Fin.ext; simp [fstOf]; omega
    · apply Fin.ext; simp [sndOf]; omega
  right_inv k := by
    obtain ⟨k, rfl⟩ := (halves n).surjective k
    simp only [Equiv.symm_apply_apply]
    rcases k with i | i
    · simp [fstOf]
    · have : (2 * i.val + 1) / 2 = i.val := by omega
      simp [sndOf, this]

theorem unshuffle_fst (i : Fin n) : (unshuffle n (fstOf i)).val = i.val := by
  have : unshuffle n (fstOf i) = halves n (.inl i) := by simp [unshuffle, fstOf]
  rw [this, halves_inl]

theorem unshuffle_snd (i : Fin n) : (unshuffle n (sndOf i)).val = n + i.val := by
  have h : (2 * i.val + 1) / 2 = i.val := by omega
  have : unshuffle n (sndOf i) = halves n (.inr i) := by simp [unshuffle, sndOf, h]
  rw [this, halves_inr]

theorem sign_unshuffle (n : ℕ) : Equiv.Perm.sign (unshuffle n) = (-1) ^ (n * (n - 1) / 2) := by
  rw [Equiv.Perm.sign_eq_prod_prod_Ioi]
  have h1 : ∀ i : Fin (2 * n), ∏ j ∈ Finset.Ioi i, (if unshuffle n i < unshuffle n j then (1 : ℤˣ) else -1) =
      ∏ j, if i < j ∧ unshuffle n j ≤ unshuffle n i then (-1 : ℤˣ) else 1 := by
    intro i
    rw [← Finset.prod_filter_mul_prod_filter_not Finset.univ (fun j => i < j)]
    rw [Finset.prod_eq_one (s := Finset.univ.filter fun j => ¬i < j), mul_one]
    · have : Finset.Ioi i = Finset.univ.filter fun j => i < j := by ext; simp
      rw [this]
      refine Finset.prod_congr rfl fun j hj => ?_
      simp only [Finset.mem_filter, Finset.mem_univ, true_and] at hj
      by_cases h : unshuffle n i < unshuffle n j
      · rw [if_pos h, if_neg (by push Not; intro _; exact h)]
      · rw [if_neg h, if_pos ⟨hj, not_lt.mp h⟩]
    · intro j hj
      simp only [Finset.mem_filter, Finset.mem_univ, true_and] at hj
      rw [if_neg (fun h => hj h.1)]
  simp only [h1]
  rw [prod_pairs]
  have h2 : ∀ i : Fin n, (∏ j, if fstOf i < j ∧ unshuffle n j ≤ unshuffle n (fstOf i) then (-1 : ℤˣ) else 1) *
      (∏ j, if sndOf i < j ∧ unshuffle n j ≤ unshuffle n (sndOf i) then (-1 : ℤˣ) else 1) = ∏ j ∈ Finset.Ioi i, (-1 : ℤˣ) := by
    intro i
    rw [prod_pairs, prod_pairs, ← Finset.prod_mul_distrib]
    have : Finset.Ioi i = Finset.univ.filter fun j => i < j := by ext; simp
    rw [this, Finset.prod_filter]
    refine Finset.prod_congr rfl fun j _ => ?_
    have := i.isLt
    have := j.isLt
    have e1 : ¬(fstOf i < fstOf j ∧ unshuffle n (fstOf j) ≤ unshuffle n (fstOf i)) := by
      rw [Fin.lt_def, Fin.le_def, unshuffle_fst, unshuffle_fst]; simp only [fstOf]; omega
    have e2 : ¬(fstOf i < sndOf j ∧ unshuffle n (sndOf j) ≤ unshuffle n (fstOf i)) := by
      rw [Fin.lt_def, Fin.le_def, unshuffle_snd, unshuffle_fst]; simp only [fstOf, sndOf]; omega
    have e3 : ¬(sndOf i < sndOf j ∧ unshuffle n (sndOf j) ≤ unshuffle n (sndOf i)) := by
      rw [Fin.lt_def, Fin.le_def, unshuffle_snd, unshuffle_snd]; simp only [sndOf]; omega
    have e4 : (sndOf i < fstOf j ∧ unshuffle n (fstOf j) ≤ unshuffle n (sndOf i)) ↔ i < j := by
      rw [Fin.lt_def, Fin.le_def, unshuffle_snd, unshuffle_fst, Fin.lt_def]; simp only [sndOf, fstOf]; omega
    rw [if_neg e1, if_neg e2, if_neg e3]
    simp only [e4, one_mul, mul_one]
  rw [Finset.prod_congr rfl fun i _ => h2 i]
  simp only [Finset.prod_const, Fin.card_Ioi]
  rw [Finset.prod_pow_eq_pow_sum]
  congr 1
  rw [← Finset.sum_range_id, ← Fin.sum_univ_eq_sum_range, ← Equiv.sum_comp Fin.revPerm]
  refine Finset.sum_congr rfl fun i _ => ?_
  rw [Fin.revPerm_apply, Fin.val_rev]
  have := i.isLt
  omega

/-- The matrix of pairs of neighbours. -/
def neighbours (n : ℕ) : Matrix (Fin (2 * n)) (Fin (2 * n)) ℂ := fun a b =>
  if a.val % 2 = 0 ∧ b.val = a.val + 1 then 1 else if b.val % 2 = 0 ∧ a.val = b.val + 1 then -1 else 0

theorem neighbours_skew (n : ℕ) : Skew (neighbours n) := by
  intro a b
  unfold neighbours
  split_ifs <;> first | omega | simp

theorem pf_neighbours (n : ℕ) : pfaffian (neighbours n) = 1 := by
  induction n with
  | zero => exact pf_empty _
  | succ n ih =>
    rw [pf_block (neighbours_skew _)]
    · have h1 : neighbours (n + 1) 0 1 = 1 := by
        unfold neighbours
        rw [if_pos ⟨rfl, one_val⟩]
      have h2 : (neighbours (n + 1)).submatrix up2 up2 = neighbours n := by
        ext a b
        simp only [Matrix.submatrix_apply, neighbours, up2_val]
        congr 1
        · apply propext; omega
        · congr 1
          apply propext; omega
      rw [h1, h2, ih, one_mul]
    · intro j
      unfold neighbours
      rw [if_neg, if_neg]
      · rw [up2_val]; simp
      · rw [up2_val]; simp

theorem symplectic_unshuffle (n : ℕ) : (symplectic n).submatrix (unshuffle n) (unshuffle n) = neighbours n := by
  have hf : ∀ i : Fin n, (halves n).symm (unshuffle n (fstOf i)) = .inl i := fun i => by
    rw [Equiv.symm_apply_eq]; exact Fin.ext (unshuffle_fst i)
  have vf : ∀ i : Fin n, (fstOf i).val = 2 * i.val := fun _ => rfl
  have vs : ∀ i : Fin n, (sndOf i).val = 2 * i.val + 1 := fun _ => rfl
  have hs : ∀ i : Fin n, (halves n).symm (unshuffle n (sndOf i)) = .inr i := fun i => by
    rw [Equiv.symm_apply_eq]; exact Fin.ext (unshuffle_snd i)
  ext a b
  obtain ⟨⟨i, s⟩, rfl⟩ := (pairEquiv n).surjective a
  obtain ⟨⟨j, t⟩, rfl⟩ := (pairEquiv n).surjective b
  cases s <;> cases t <;>
    simp only [pairEquiv_false, pairEquiv_true, symplectic, Matrix.submatrix_apply, hf, hs, neighbours, Matrix.fromBlocks_apply₁₁,
      Matrix.fromBlocks_apply₁₂, Matrix.fromBlocks_apply₂₁, Matrix.fromBlocks_apply₂₂, Matrix.one_apply, Matrix.zero_apply,
      Matrix.neg_apply, vf, vs, Fin.ext_iff]
  · rw [if_neg (by omega), if_neg (by omega)]
  · by_cases h : i.val = j.val
    · rw [if_pos h, if_pos (by omega)]
    · rw [if_neg h, if_neg (by omega), if_neg (by omega)]
  · by_cases h : i.val = j.val
    · rw [if_pos h, if_neg (by omega), if_pos (by omega)]
    · rw [if_neg h, if_neg (by omega), if_neg (by omega), neg_zero]
  · rw [if_neg (by omega), if_neg (by omega)]

theorem pf_symplectic (n : ℕ) : pfaffian (symplectic n) = (-1) ^ (n * (n - 1) / 2) := by
  have h := pf_perm (symplectic n) (unshuffle n)
  rw [symplectic_unshuffle, pf_neighbours, sign_unshuffle] at h
  have h2 : ((((-1 : ℤˣ) ^ (n * (n - 1) / 2) : ℤˣ) : ℤ) : ℂ) = (-1) ^ (n * (n - 1) / 2) := by push_cast; rfl
  rw [h2] at h
  have h3 : ((-1 : ℂ) ^ (n * (n - 1) / 2)) * (-1) ^ (n * (n - 1) / 2) = 1 := by rw [← mul_pow]; simp
  linear_combination (-1 : ℂ) ^ (n * (n - 1) / 2) * (-h) - pfaffian (symplectic n) * h3

end GPSKet.Reference
