import Verif.Spec.SlaterState
import Verif.Lemmas.FockAlg
import Verif.Lemmas.SlaterState
import Mathlib.Data.Finset.Sort
import Mathlib.Data.Matrix.Basic
import Mathlib.LinearAlgebra.Matrix.NonsingularInverse

/-! # The action of an orthogonal change of the orbitals on the Fock space -/

namespace GPSKet.Spec
open Matrix

namespace Rotation

variable {ι : Type} [Fintype ι] [LinearOrder ι] {K : Type} [CommRing K]

/-- The operator `Σ_p φ_p c_p`. -/
def annOrb (φ : ι → K) : Matrix (Occ ι) (Occ ι) K := ∑ p, φ p • toK K (ann p)

theorem toK_mul' {α β γ : Type} [Fintype β] (A : Matrix α β ℤ) (B : Matrix β γ ℤ) : toK K (A * B) = toK K A * toK K B := by
  ext i j
  simp [toK, Matrix.mul_apply]

theorem toK_neg' {α β : Type} (A : Matrix α β ℤ) : toK K (-A) = -toK K A := by
  ext i j
  simp [toK]

theorem toK_sub' {α β : Type} (A B : Matrix α β ℤ) : toK K (A - B) = toK K A - toK K B := by
  ext i j
  simp [toK]

omit [LinearOrder ι] in
theorem toK_one' : toK K (1 : Matrix (Occ ι) (Occ ι) ℤ) = 1 := by
  ext i j
  by_cases h : i = j <;> simp [toK, Matrix.one_apply, h]

theorem toK_zero' {α β : Type} : toK K (0 : Matrix α β ℤ) = 0 := by
  ext i j
  simp [toK]

/-- Creators of orbitals anticommute. -/
theorem creOrb_anti (φ χ : ι → K) : creOrb φ * creOrb χ = -(creOrb χ * creOrb φ) := by
  unfold creOrb
  rw [Finset.sum_mul_sum, Finset.sum_mul_sum, Finset.sum_comm, ← Finset.sum_neg_distrib]
  refine Finset.sum_congr rfl fun q _ => ?_
  rw [← Finset.sum_neg_distrib]
  refine Finset.sum_congr rfl fun p _ => ?_
  rw [smul_mul_assoc, mul_smul_comm, smul_mul_assoc, mul_smul_comm, ← toK_mul', ← toK_mul', cre_anti p q, toK_neg', smul_smul, smul_smul,
    mul_comm (φ p), smul_neg]

theorem toK_cre_sq (p : ι) : toK K (cre p) * toK K (cre p) = (0 : Matrix (Occ ι) (Occ ι) K) := by
  rw [← toK_mul', cre, ← transpose_mul, ann_sq, transpose_zero, toK_zero']

/-- No orbital holds two particles (without a division by two). -/
theorem creOrb_sq (φ : ι → K) : creOrb φ * creOrb φ = (0 : Matrix (Occ ι) (Occ ι) K) := by
  classical
  unfold creOrb
  suffices h : ∀ s : Finset ι, (∑ p ∈ s, φ p • toK K (cre p)) * (∑ p ∈ s, φ p • toK K (cre p)) = 0 from h Finset.univ
  intro s
  induction s using Finset.induction_on with
  | empty => simp
  | insert a s ha ih =>
    rw [Finset.sum_insert ha, add_mul, mul_add, mul_add, ih]
    have h1 : φ a • toK K (cre a) * φ a • toK K (cre a) = (0 : Matrix (Occ ι) (Occ ι) K) := by
      rw [smul_mul_assoc, mul_smul_comm, toK_cre_sq, smul_zero, smul_zero]
    have h2 : φ a • toK K (cre a) * ∑ p ∈ s, φ p • toK K (cre p) = -((∑ p ∈ s, φ p • toK K (cre p)) * φ a • toK K (cre a)) := by
      rw [Finset.mul_sum, Finset.sum_mul, ← Finset.sum_neg_distrib]
      refine Finset.sum_congr rfl fun p _ => ?_
      rw [smul_mul_assoc, mul_smul_comm, smul_mul_assoc, mul_smul_comm, ← toK_mul', ← toK_mul', cre_anti a p, toK_neg', smul_smul, smul_smul,
        mul_comm (φ p), smul_neg]
    rw [h1, h2]
    abel

/-- The annihilator of an orbital and the creator of another one. -/
theorem annOrb_creOrb (φ χ : ι → K) : annOrb φ * creOrb χ = (∑ p, φ p * χ p) • 1 - creOrb χ * annOrb φ := by
  unfold annOrb creOrb
  have : ∀ p q : ι, φ p • toK K (ann p) * χ q • toK K (cre q)
      = (if p = q then (φ p * χ q) • (1 : Matrix (Occ ι) (Occ ι) K) else 0) - χ q • toK K (cre q) * φ p • toK K (ann p) := by
    intro p q
    rw [smul_mul_assoc, mul_smul_comm, smul_mul_assoc, mul_smul_comm, ← toK_mul', ← toK_mul', car' p q, toK_sub', smul_sub, smul_sub, smul_smul,
      smul_smul, smul_smul, mul_comm (χ q)]
    by_cases h : p = q
    · simp only [h, if_true, toK_one']
    · simp only [h, if_false, toK_zero', smul_zero]
  rw [Finset.sum_mul_sum]
  simp only [this]
  rw [Finset.sum_mul_sum, Finset.sum_comm (f := fun q p => χ q • toK K (cre q) * φ p • toK K (ann p)), Finset.sum_smul]
  simp only [Finset.sum_sub_distrib, Finset.sum_ite_eq, Finset.mem_univ, if_true]

theorem annOrb_vacuum (φ : ι → K) : annOrb φ *ᵥ vacuum = 0 := by
  unfold annOrb
  funext m
  simp only [mulVec, dotProduct, Matrix.sum_apply, Matrix.smul_apply, smul_eq_mul, toK, Matrix.map_apply, ann, vacuum, Pi.zero_apply]
  refine Finset.sum_eq_zero fun n _ => ?_
  by_cases h : n = fun _ => false
  · subst h; simp
  · simp [h]

section
variable (V : Matrix ι ι K)

/-- Fill the modes of a list that are occupied in `n`, each with its rotated orbital. -/
def fill (n : Occ ι) : List ι → Occ ι → K
  | [] => vacuum
  | p :: l => if n p = true then creOrb (V.col p) *ᵥ fill n l else fill n l

theorem fill_congr {n n' : Occ ι} : ∀ l : List ι, (∀ p ∈ l, n p = n' p) → fill V n l = fill V n' l
  | [], _ => rfl
  | p :: l, h => by
    rw [fill, fill, h p (by simp), fill_congr l fun q hq => h q (by simp [hq])]

/-- The Jordan-Wigner sign that a list of modes contributes. -/
def lsign (i : ι) (n : Occ ι) : List ι → K
  | [] => 1
  | p :: l => if p < i ∧ n p = true then -lsign i n l else lsign i n l

omit [Fintype ι] in
theorem lsign_one {i : ι} {n : Occ ι} : ∀ l : List ι, (∀ p ∈ l, i < p) → lsign (K := K) i n l = 1
  | [], _ => rfl
  | p :: l, h => by
    rw [lsign, if_neg (fun hp => absurd hp.1 (not_lt.mpr (h p (by simp)).le)), lsign_one l fun q hq => h q (by simp [hq])]

omit [Fintype ι] in
theorem lsign_eq (i : ι) (n : Occ ι) (l : List ι) : lsign (K := K) i n l = (-1) ^ (l.filter fun p => p < i ∧ n p = true).length := by
  induction l with
  | nil => simp [lsign]
  | cons p l ih =>
    rw [lsign, List.filter_cons, ih]
    by_cases h : p < i ∧ n p = true
    · simp [h, pow_succ]
    · rw [if_neg h, if_neg (by simpa using h)]

theorem creOrb_fill (n : Occ ι) (i : ι) : ∀ l : List ι, l.Pairwise (· < ·) → i ∈ l →
    creOrb (V.col i) *ᵥ fill V n l = if n i = true then 0 else lsign (K := K) i n l • fill V (Function.update n i true) l
  | [], _, h => absurd h (by simp)
  | p :: l, hs, hi => by
    have hs' := List.pairwise_cons.mp hs
    by_cases hp : p = i
    · subst hp
      have hl : fill V (Function.update n p true) l = fill V n l := by
        refine fill_congr V l fun q hq => Function.update_of_ne (ne_of_gt (hs'.1 q hq)) _ _
      rw [fill, fill, lsign, if_neg (fun h : p < p ∧ n p = true => lt_irrefl _ h.1), lsign_one l hs'.1, hl]
      by_cases hn : n p = true
      · rw [if_pos hn, if_pos hn, mulVec_mulVec, creOrb_sq, zero_mulVec]
      · rw [if_neg hn, if_neg hn, Function.update_self, if_pos rfl, one_smul]
    · have hil : i ∈ l := by
        rcases List.mem_cons.mp hi with h | h
        · exact absurd h.symm hp
        · exact h
      have hlt : p < i := hs'.1 i hil
      have ih := creOrb_fill n i l hs'.2 hil
      rw [fill, fill, lsign, Function.update_of_ne hp]
      by_cases hn : n p = true
      · rw [if_pos hn, if_pos hn, if_pos (show p < i ∧ n p = true from ⟨hlt, hn⟩), mulVec_mulVec, creOrb_anti, neg_mulVec, ← mulVec_mulVec, ih]
        by_cases hni : n i = true
        · rw [if_pos hni, if_pos hni, mulVec_zero, neg_zero]
        · rw [if_neg hni, if_neg hni, mulVec_smul, neg_smul]
      · rw [if_neg hn, if_neg hn, if_neg (fun h : p < i ∧ n p = true => hn h.2), ih]

variable {V}

theorem annOrb_creOrb_same (hV : Vᵀ * V = 1) (i : ι) : annOrb (V.col i) * creOrb (V.col i) = 1 - creOrb (V.col i) * annOrb (V.col i) := by
  rw [annOrb_creOrb]
  have : ∑ p, V.col i p * V.col i p = 1 := by
    have := congrFun (congrFun hV i) i
    simpa [Matrix.mul_apply] using this
  rw [this, one_smul]

theorem annOrb_creOrb_ne (hV : Vᵀ * V = 1) {i j : ι} (h : i ≠ j) : annOrb (V.col i) * creOrb (V.col j) = -(creOrb (V.col j) * annOrb (V.col i)) := by
  rw [annOrb_creOrb]
  have : ∑ p, V.col i p * V.col j p = 0 := by
    have := congrFun (congrFun hV i) j
    simpa [Matrix.mul_apply, Matrix.one_apply, h] using this
  rw [this, zero_smul, zero_sub]

theorem annOrb_fill_out (hV : Vᵀ * V = 1) (n : Occ ι) (i : ι) : ∀ l : List ι, i ∉ l → annOrb (V.col i) *ᵥ fill V n l = 0
  | [], _ => annOrb_vacuum _
  | p :: l, h => by
    have h' := List.mem_cons.not.mp h
    push Not at h'
    have ih := annOrb_fill_out hV n i l h'.2
    rw [fill]
    split_ifs
    · rw [mulVec_mulVec, annOrb_creOrb_ne hV h'.1, neg_mulVec, ← mulVec_mulVec, ih, mulVec_zero, neg_zero]
    · exact ih

theorem annOrb_fill (hV : Vᵀ * V = 1) (n : Occ ι) (i : ι) : ∀ l : List ι, l.Pairwise (· < ·) → i ∈ l →
    annOrb (V.col i) *ᵥ fill V n l = if n i = true then lsign (K := K) i n l • fill V (Function.update n i false) l else 0
  | [], _, h => absurd h (by simp)
  | p :: l, hs, hi => by
    have hs' := List.pairwise_cons.mp hs
    by_cases hp : p = i
    · subst hp
      have hpl : p ∉ l := fun h => lt_irrefl _ (hs'.1 p h)
      have hl : fill V (Function.update n p false) l = fill V n l := by
        refine fill_congr V l fun q hq => Function.update_of_ne (ne_of_gt (hs'.1 q hq)) _ _
      rw [fill, fill, lsign, if_neg (fun h : p < p ∧ n p = true => lt_irrefl _ h.1), lsign_one l hs'.1, hl]
      by_cases hn : n p = true
      · rw [if_pos hn, if_pos hn, mulVec_mulVec, annOrb_creOrb_same hV, sub_mulVec, one_mulVec, ← mulVec_mulVec, annOrb_fill_out hV n p l hpl,
          mulVec_zero, sub_zero, Function.update_self, if_neg (by simp), one_smul]
      · rw [if_neg hn, if_neg hn, annOrb_fill_out hV n p l hpl]
    · have hil : i ∈ l := by
        rcases List.mem_cons.mp hi with h | h
        · exact absurd h.symm hp
        · exact h
      have hlt : p < i := hs'.1 i hil
      have ih := annOrb_fill hV n i l hs'.2 hil
      rw [fill, fill, lsign, Function.update_of_ne hp]
      by_cases hn : n p = true
      · rw [if_pos hn, if_pos hn, if_pos (show p < i ∧ n p = true from ⟨hlt, hn⟩), mulVec_mulVec, annOrb_creOrb_ne hV (Ne.symm hp), neg_mulVec, ← mulVec_mulVec, ih]
        by_cases hni : n i = true
        · rw [if_pos hni, if_pos hni, mulVec_smul, neg_smul]
        · rw [if_neg hni, if_neg hni, mulVec_zero, neg_zero]
      · rw [if_neg hn, if_neg hn, if_neg (fun h : p < i ∧ n p = true => hn h.2), ih]

/-- All modes, in increasing order. -/
def modes (ι : Type) [Fintype ι] [LinearOrder ι] : List ι := Finset.univ.sort (· ≤ ·)

theorem modes_pairwise : (modes ι).Pairwise (· < ·) := (Finset.sortedLT_sort _).pairwise

theorem mem_modes (i : ι) : i ∈ modes ι := by simp [modes]

theorem lsign_modes (i : ι) (n : Occ ι) : lsign (K := K) i n (modes ι) = ((jwSign i n : ℤ) : K) := by
  rw [lsign_eq, jwSign, Int.cast_pow, Int.cast_neg, Int.cast_one]
  congr 1
  have hnd : ((modes ι).filter fun p => p < i ∧ n p = true).Nodup := (Finset.sort_nodup _ _).filter _
  rw [← List.toFinset_card_of_nodup hnd]
  congr 1
  ext p
  simp [mem_modes]

variable (V)

/-- The operator on the Fock space that carries every determinant of the modes to that of the rotated orbitals. -/
def gamma : Matrix (Occ ι) (Occ ι) K := fun m n => fill V n (modes ι) m

theorem gamma_mul_apply (A : Matrix (Occ ι) (Occ ι) K) (m n : Occ ι) : (gamma V * A) m n = ∑ k, fill V k (modes ι) m * A k n := by
  simp [Matrix.mul_apply, gamma]

theorem mul_gamma_apply (A : Matrix (Occ ι) (Occ ι) K) (m n : Occ ι) : (A * gamma V) m n = (A *ᵥ fill V n (modes ι)) m := by
  simp [Matrix.mul_apply, gamma, mulVec, dotProduct]

/-- `Γ c†_i = b†_i Γ`. -/
theorem gamma_cre (i : ι) : gamma V * toK K (cre i) = creOrb (V.col i) * gamma V := by
  ext m n
  rw [mul_gamma_apply, creOrb_fill V n i _ modes_pairwise (mem_modes i), gamma_mul_apply, lsign_modes, cre_eq]
  simp only [toK, Matrix.map_apply]
  unfold SMap.mat creS
  by_cases h : n i = true
  · simp [h]
  · simp only [h, Bool.false_eq_true, if_false, Int.cast_ite, Int.cast_zero, mul_ite, mul_zero, Finset.sum_ite_eq', Finset.mem_univ, if_true,
      Pi.smul_apply, smul_eq_mul]
    ring

variable {V}

/-- `Γ c_i = b_i Γ`. -/
theorem gamma_ann (hV : Vᵀ * V = 1) (i : ι) : gamma V * toK K (ann i) = annOrb (V.col i) * gamma V := by
  ext m n
  rw [mul_gamma_apply, annOrb_fill hV n i _ modes_pairwise (mem_modes i), gamma_mul_apply, lsign_modes, ann_eq]
  simp only [toK, Matrix.map_apply]
  unfold SMap.mat annS
  by_cases h : n i = true
  · simp only [h, if_true, Int.cast_ite, Int.cast_zero, mul_ite, mul_zero, Finset.sum_ite_eq', Finset.mem_univ, 
      Pi.smul_apply, smul_eq_mul]
    ring
  · simp [h]

/-! ## The operator is orthogonal -/

theorem creOrb_zero (φ : ι → K) (ψ : Occ ι → K) : (creOrb φ *ᵥ ψ) (fun _ => false) = 0 := by
  rw [creOrb_mulVec]; simp

theorem fill_zero (V : Matrix ι ι K) (n : Occ ι) : ∀ l : List ι, fill V n l (fun _ => false) = if ∃ p ∈ l, n p = true then 0 else 1
  | [] => by simp [fill, vacuum]
  | p :: l => by
    rw [fill]
    by_cases h : n p = true
    · rw [if_pos h, creOrb_zero, if_pos ⟨p, by simp, h⟩]
    · rw [if_neg h, fill_zero V n l]
      simp [h]

theorem fill_vacuum (V : Matrix ι ι K) : ∀ l : List ι, fill V (fun _ => false) l = vacuum
  | [] => rfl
  | p :: l => by rw [fill, if_neg (by simp), fill_vacuum V l]

theorem gamma_vacuum (V : Matrix ι ι K) : gamma V *ᵥ vacuum = vacuum := by
  rw [← fill_vacuum V (modes ι)]
  funext m
  simp only [mulVec, dotProduct, gamma]
  rw [Finset.sum_eq_single (fun _ => false)]
  · rw [fill_vacuum]; simp [vacuum]
  · intro b _ hb
    rw [fill_vacuum]; simp [vacuum, hb]
  · simp

theorem gamma_transpose_vacuum (V : Matrix ι ι K) : (gamma V)ᵀ *ᵥ vacuum = vacuum := by
  funext n
  simp only [mulVec, dotProduct, gamma, Matrix.transpose_apply, vacuum, mul_ite, mul_one, mul_zero, Finset.sum_ite_eq', Finset.mem_univ, if_true]
  rw [fill_zero]
  by_cases h : n = fun _ => false
  · subst h; simp
  · rw [if_neg h, if_pos]
    by_contra h'
    push Not at h'
    exact h (funext fun p => by simpa using h' p (mem_modes p))

theorem creOrb_one (i : ι) : creOrb ((1 : Matrix ι ι K).col i) = toK K (cre i) := by
  unfold creOrb
  rw [Finset.sum_eq_single i]
  · simp
  · intro b _ hb
    simp [hb]
  · simp

theorem fill_one (n : Occ ι) : ∀ l : List ι, l.Pairwise (· < ·) →
    fill (1 : Matrix ι ι K) n l = fun m => if m = (fun p => n p && decide (p ∈ l)) then 1 else 0
  | [], _ => by simp [fill]; rfl
  | p :: l, hs => by
    have hs' := List.pairwise_cons.mp hs
    have hp : p ∉ l := fun h => lt_irrefl _ (hs'.1 p h)
    rw [fill, fill_one n l hs'.2]
    by_cases hn : n p = true
    · rw [if_pos hn, creOrb_one]
      funext m
      have hj : jwSign p (fun q => n q && decide (q ∈ l)) = 1 := by
        unfold jwSign
        rw [Finset.card_eq_zero.mpr, pow_zero]
        refine Finset.filter_eq_empty_iff.mpr fun q _ h => ?_
        have hq : q ∈ l := by
          have := h.2
          simp only [Bool.and_eq_true, decide_eq_true_eq] at this
          exact this.2
        exact absurd (h.1.trans (hs'.1 q hq)) (lt_irrefl _)
      have hu : Function.update (fun q => n q && decide (q ∈ l)) p true = fun q => n q && decide (q ∈ p :: l) := by
        funext q
        by_cases hq : q = p
        · subst hq; simp [hn]
        · rw [Function.update_of_ne hq]; simp [hq]
      simp only [mulVec, dotProduct, mul_ite, mul_one, mul_zero, Finset.sum_ite_eq', Finset.mem_univ, if_true, toK, Matrix.map_apply]
      rw [cre_eq]
      unfold SMap.mat creS
      simp only [hp, decide_false, Bool.and_false, Bool.false_eq_true, if_false, hj, hu]
      split_ifs <;> simp
    · rw [if_neg hn]
      funext m
      congr 2
      funext q
      by_cases hq : q = p
      · subst hq; simp [hn]
      · simp [hq]

theorem fill_one_modes (n : Occ ι) : fill (1 : Matrix ι ι K) n (modes ι) = fun m => if m = n then 1 else 0 := by
  rw [fill_one n _ modes_pairwise]
  funext m
  simp [mem_modes]

theorem creOrb_transpose (φ : ι → K) : (creOrb φ)ᵀ = annOrb φ := by
  unfold creOrb annOrb
  rw [transpose_sum]
  refine Finset.sum_congr rfl fun p _ => ?_
  rw [transpose_smul]
  rfl

theorem annOrb_transpose (φ : ι → K) : (annOrb φ)ᵀ = creOrb φ := by rw [← creOrb_transpose, transpose_transpose]

theorem toK_ann_transpose (i : ι) : (toK K (ann i))ᵀ = toK K (cre i) := rfl

theorem transpose_gamma_creOrb {V : Matrix ι ι K} (hV : Vᵀ * V = 1) (i : ι) : (gamma V)ᵀ * creOrb (V.col i) = toK K (cre i) * (gamma V)ᵀ := by
  have := congrArg Matrix.transpose (gamma_ann hV i)
  rw [transpose_mul, transpose_mul, annOrb_transpose, toK_ann_transpose] at this
  exact this.symm

theorem gram_fill {V : Matrix ι ι K} (hV : Vᵀ * V = 1) (n : Occ ι) : ∀ l : List ι,
    ((gamma V)ᵀ * gamma V) *ᵥ fill 1 n l = fill 1 n l
  | [] => by
    rw [fill, ← mulVec_mulVec, gamma_vacuum, gamma_transpose_vacuum]
  | p :: l => by
    rw [fill]
    split_ifs
    · have hc : ((gamma V)ᵀ * gamma V) * toK K (cre p) = toK K (cre p) * ((gamma V)ᵀ * gamma V) := by
        rw [mul_assoc, gamma_cre, ← mul_assoc, transpose_gamma_creOrb hV, mul_assoc]
      rw [creOrb_one, mulVec_mulVec, hc, ← mulVec_mulVec, gram_fill hV n l]
    · exact gram_fill hV n l

/-- `Γᵀ Γ = 1`. -/
theorem gamma_orthogonal {V : Matrix ι ι K} (hV : Vᵀ * V = 1) : (gamma V)ᵀ * gamma V = 1 := by
  ext m n
  have := congrFun (gram_fill hV n (modes ι)) m
  rw [fill_one_modes] at this
  simpa [mulVec, dotProduct, Matrix.one_apply] using this

/-! ## Determinants and homomorphisms -/

theorem gamma_creOrb (V : Matrix ι ι K) (φ : ι → K) : gamma V * creOrb φ = creOrb (V *ᵥ φ) * gamma V := by
  conv_lhs => unfold creOrb
  rw [Finset.mul_sum]
  simp only [mul_smul_comm, gamma_cre]
  have : creOrb (V *ᵥ φ) = ∑ i, φ i • creOrb (V.col i) := by
    unfold creOrb
    simp only [Finset.smul_sum]
    rw [Finset.sum_comm]
    refine Finset.sum_congr rfl fun p _ => ?_
    simp only [mulVec, dotProduct, smul_smul, Finset.sum_smul, Matrix.col_apply]
    refine Finset.sum_congr rfl fun i _ => ?_
    rw [mul_comm]
  rw [this, Finset.sum_mul]
  simp only [smul_mul_assoc]

/-- Determinants go to the determinants of the rotated orbitals. -/
theorem gamma_slaterState (V : Matrix ι ι K) : ∀ l : List (ι → K), gamma V *ᵥ slaterState l = slaterState (l.map fun φ => V *ᵥ φ)
  | [] => gamma_vacuum V
  | φ :: l => by
    rw [slaterState, List.map_cons, slaterState, mulVec_mulVec, gamma_creOrb, ← mulVec_mulVec, gamma_slaterState V l]

theorem fill_map {K' : Type} [CommRing K'] (f : K →+* K') (V : Matrix ι ι K) (n : Occ ι) : ∀ (l : List ι) (m : Occ ι),
    fill (V.map f) n l m = f (fill V n l m)
  | [], m => by simp [fill, vacuum, apply_ite f]
  | p :: l, m => by
    rw [fill, fill]
    split_ifs
    · rw [creOrb_mulVec, creOrb_mulVec, map_sum]
      refine Finset.sum_congr rfl fun q _ => ?_
      rw [fill_map f V n l]
      simp [apply_ite f]
    · exact fill_map f V n l m

theorem gamma_map {K' : Type} [CommRing K'] (f : K →+* K') (V : Matrix ι ι K) : gamma (V.map f) = (gamma V).map f := by
  ext m n
  exact fill_map f V n _ m

end

end Rotation

end GPSKet.Spec
