import Verif.Spec.Pfaffian
import Mathlib.GroupTheory.Perm.Fin
import Mathlib.LinearAlgebra.Matrix.Block
import Mathlib.Tactic.Ring
import Mathlib.Tactic.FieldSimp
import Mathlib.Tactic.LinearCombination

/-! # Lemmas about the Pfaffian -/

namespace GPSKet.Spec
open Equiv Equiv.Perm

section
variable {n : ℕ}

/-- Positions as pairs. -/
def pairEquiv (n : ℕ) : Fin n × Bool ≃ Fin (2 * n) where
  toFun p := ⟨2 * p.1.val + p.2.toNat, by have := p.1.isLt; have := Bool.toNat_le p.2; omega⟩
  invFun j := (⟨j.val / 2, by have := j.isLt; omega⟩, decide (j.val % 2 = 1))
  left_inv p := by
    obtain ⟨i, b⟩ := p
    cases b
    · simp
    · have : (2 * i.val + 1) / 2 = i.val := by omega
      simp [this]
  right_inv j := by
    apply Fin.ext
    simp only
    by_cases h : j.val % 2 = 1
    · simp [h]; omega
    · simp [h]; omega

theorem pairEquiv_false (i : Fin n) : pairEquiv n (i, false) = fstOf i := rfl
theorem pairEquiv_true (i : Fin n) : pairEquiv n (i, true) = sndOf i := rfl

theorem prod_pairs {K : Type} [CommMonoid K] (g : Fin (2 * n) → K) : ∏ j, g j = ∏ i, g (fstOf i) * g (sndOf i) := by
  rw [← Equiv.prod_comp (pairEquiv n) g, Fintype.prod_prod_type]
  apply Finset.prod_congr rfl
  intro i _
  rw [Fintype.prod_bool, mul_comm]; rfl

theorem sum_pairs {K : Type} [AddCommMonoid K] (g : Fin (2 * n) → K) : ∑ j, g j = ∑ i, (g (fstOf i) + g (sndOf i)) := by
  rw [← Equiv.sum_comp (pairEquiv n) g, Fintype.sum_prod_type]
  apply Finset.sum_congr rfl
  intro i _
  rw [Fintype.sum_bool, add_comm]; rfl

/-- Functions on positions as functions on pairs. -/
def pairFun (n : ℕ) (X : Type) : (Fin (2 * n) → X) ≃ (Fin n → X × X) :=
  ((Equiv.arrowCongr (pairEquiv n).symm (Equiv.refl X)).trans (Equiv.curry _ _ _)).trans (Equiv.arrowCongr (Equiv.refl _) (Equiv.boolArrowEquivProd X))

theorem pairFun_fst {X : Type} (f : Fin (2 * n) → X) (i : Fin n) : (pairFun n X f i).1 = f (fstOf i) := rfl
theorem pairFun_snd {X : Type} (f : Fin (2 * n) → X) (i : Fin n) : (pairFun n X f i).2 = f (sndOf i) := rfl

end

variable {n : ℕ} {K : Type} [Field K]

/-- The sum in the definition. -/
noncomputable def pfTerm (A : Matrix (Fin (2 * n)) (Fin (2 * n)) K) (σ : Perm (Fin (2 * n))) : K :=
  ((sign σ : ℤ) : K) * ∏ i : Fin n, A (σ (fstOf i)) (σ (sndOf i))

theorem pf_eq (A : Matrix (Fin (2 * n)) (Fin (2 * n)) K) : pfaffian A = 1 / (2 ^ n * (n.factorial : K)) * ∑ σ, pfTerm A σ := rfl

theorem pfSum_congr (B A : Matrix (Fin (2 * n)) (Fin (2 * n)) K) :
    ∑ σ, pfTerm (B * A * B.transpose) σ = B.det * ∑ σ, pfTerm A σ := by
  have h1 : ∀ σ, pfTerm (B * A * B.transpose) σ = ∑ f : Fin (2 * n) → Fin (2 * n),
      (∏ i, A (f (fstOf i)) (f (sndOf i))) * (((sign σ : ℤ) : K) * ∏ j, B (σ j) (f j)) := by
    intro σ
    unfold pfTerm
    have e1 : ∀ i : Fin n, (B * A * B.transpose) (σ (fstOf i)) (σ (sndOf i)) =
        ∑ kl : Fin (2 * n) × Fin (2 * n), B (σ (fstOf i)) kl.1 * A kl.1 kl.2 * B (σ (sndOf i)) kl.2 := by
      intro i
      rw [Matrix.mul_apply, Fintype.sum_prod_type, Finset.sum_comm]
      apply Finset.sum_congr rfl; intro l _
      rw [Matrix.mul_apply, Finset.sum_mul]
      rfl
    simp only [e1]
    rw [Finset.prod_univ_sum, Fintype.piFinset_univ, ← Equiv.sum_comp (pairFun n (Fin (2 * n))), Finset.mul_sum]
    apply Finset.sum_congr rfl; intro f _
    simp only [pairFun_fst, pairFun_snd]
    rw [prod_pairs]
    rw [mul_left_comm, ← Finset.prod_mul_distrib]
    congr 1
    apply Finset.prod_congr rfl; intro i _
    ring
  simp only [h1]
  rw [Finset.sum_comm]
  simp only [← Finset.mul_sum]
  have h2 : ∀ f : Fin (2 * n) → Fin (2 * n), ∑ σ : Perm (Fin (2 * n)), ((sign σ : ℤ) : K) * ∏ j, B (σ j) (f j) = (B.submatrix id f).det := by
    intro f
    rw [Matrix.det_apply']
    rfl
  simp only [h2]
  rw [Finset.mul_sum]
  symm
  apply Fintype.sum_of_injective (fun τ : Perm (Fin (2 * n)) => (τ : Fin (2 * n) → Fin (2 * n))) Equiv.coe_fn_injective
  · intro f hf
    have hni : ¬ Function.Injective f := by
      intro hi
      exact hf ⟨Equiv.ofBijective f (Finite.injective_iff_bijective.mp hi), rfl⟩
    rw [Function.Injective] at hni
    push Not at hni
    obtain ⟨a, b, hab, hne⟩ := hni
    rw [Matrix.det_zero_of_column_eq hne (fun k => by simp [hab]), mul_zero]
  · intro τ
    rw [Matrix.det_permute']
    unfold pfTerm
    ring

theorem pf_congr (B A : Matrix (Fin (2 * n)) (Fin (2 * n)) K) : pfaffian (B * A * B.transpose) = B.det * pfaffian A := by
  rw [pf_eq, pf_eq, pfSum_congr]; ring

/-- Exchanging pairs of positions. -/
def pairSwap (i j : Fin n) : Perm (Fin (2 * n)) := (pairEquiv n).permCongr (prodCongrLeft fun _ : Bool => Equiv.swap i j)

theorem sign_pairSwap (i j : Fin n) : sign (pairSwap i j) = 1 := by
  unfold pairSwap
  rw [sign_permCongr, sign_prodCongrLeft]
  simp only [Fintype.prod_bool]
  exact Int.units_mul_self _

theorem pairSwap_fst (i j k : Fin n) : pairSwap i j (fstOf k) = fstOf (Equiv.swap i j k) := by
  unfold pairSwap
  rw [Equiv.permCongr_apply, ← pairEquiv_false, Equiv.symm_apply_apply]
  rfl

theorem pairSwap_snd (i j k : Fin n) : pairSwap i j (sndOf k) = sndOf (Equiv.swap i j k) := by
  unfold pairSwap
  rw [Equiv.permCongr_apply, ← pairEquiv_true, Equiv.symm_apply_apply]
  rfl

theorem pfTerm_pairSwap (A : Matrix (Fin (2 * n)) (Fin (2 * n)) K) (σ : Perm (Fin (2 * n))) (i j : Fin n) :
    pfTerm A (σ * pairSwap i j) = pfTerm A σ := by
  unfold pfTerm
  rw [sign_mul, sign_pairSwap, mul_one]
  congr 1
  simp only [Perm.mul_apply, pairSwap_fst, pairSwap_snd]
  exact Equiv.prod_comp (Equiv.swap i j) (fun k => A (σ (fstOf k)) (σ (sndOf k)))

theorem fst_ne_snd (i j : Fin n) : fstOf i ≠ sndOf j := by
  intro h; have := congrArg Fin.val h; simp [fstOf, sndOf] at this; omega
theorem fst_inj {i j : Fin n} : fstOf i = fstOf j ↔ i = j := by
  constructor
  · intro h; have := congrArg Fin.val h; simp [fstOf] at this; exact Fin.ext this
  · rintro rfl; rfl
theorem snd_inj {i j : Fin n} : sndOf i = sndOf j ↔ i = j := by
  constructor
  · intro h; have := congrArg Fin.val h; simp [sndOf] at this; exact Fin.ext this
  · rintro rfl; rfl

theorem pfTerm_flip {A : Matrix (Fin (2 * n)) (Fin (2 * n)) K} (hA : Skew A) (σ : Perm (Fin (2 * n))) (i : Fin n) :
    pfTerm A (σ * Equiv.swap (fstOf i) (sndOf i)) = pfTerm A σ := by
  unfold pfTerm
  rw [sign_mul, sign_swap (fst_ne_snd i i), ← Finset.mul_prod_erase _ _ (Finset.mem_univ i),
    ← Finset.mul_prod_erase Finset.univ (fun k => A (σ (fstOf k)) (σ (sndOf k))) (Finset.mem_univ i)]
  have h1 : ∏ k ∈ Finset.univ.erase i, A ((σ * Equiv.swap (fstOf i) (sndOf i)) (fstOf k)) ((σ * Equiv.swap (fstOf i) (sndOf i)) (sndOf k)) =
      ∏ k ∈ Finset.univ.erase i, A (σ (fstOf k)) (σ (sndOf k)) := by
    apply Finset.prod_congr rfl
    intro k hk
    have hki := Finset.ne_of_mem_erase hk
    rw [Perm.mul_apply, Perm.mul_apply, Equiv.swap_apply_of_ne_of_ne (fun h => hki (fst_inj.mp h)) (fst_ne_snd _ _),
      Equiv.swap_apply_of_ne_of_ne (fst_ne_snd _ _).symm (fun h => hki (snd_inj.mp h))]
  rw [h1, Perm.mul_apply, Perm.mul_apply, Equiv.swap_apply_left, Equiv.swap_apply_right, hA (σ (sndOf i)) (σ (fstOf i))]
  push_cast
  ring

/-- The part of the sum in which position `x` carries index `a`. -/
noncomputable def pfAt (A : Matrix (Fin (2 * n)) (Fin (2 * n)) K) (a x : Fin (2 * n)) : K := ∑ σ : Perm (Fin (2 * n)), if σ x = a then pfTerm A σ else 0

theorem pfAt_move (A : Matrix (Fin (2 * n)) (Fin (2 * n)) K) (a x y : Fin (2 * n)) (τ : Perm (Fin (2 * n))) (hτ : τ y = x)
    (hf : ∀ σ, pfTerm A (σ * τ) = pfTerm A σ) : pfAt A a x = pfAt A a y := by
  unfold pfAt
  rw [← Equiv.sum_comp (Equiv.mulRight τ) (fun σ => if σ y = a then pfTerm A σ else 0)]
  apply Finset.sum_congr rfl
  intro σ _
  simp only [Equiv.coe_mulRight, Perm.mul_apply, hτ, hf]

theorem pfSum_at {A : Matrix (Fin (2 * n)) (Fin (2 * n)) K} (hA : Skew A) (a : Fin (2 * n)) (i : Fin n) :
    ∑ σ, pfTerm A σ = 2 * (n : K) * pfAt A a (fstOf i) := by
  have h1 : ∑ σ, pfTerm A σ = ∑ x, pfAt A a x := by
    unfold pfAt
    rw [Finset.sum_comm]
    apply Finset.sum_congr rfl
    intro σ _
    rw [Finset.sum_eq_single (σ.symm a)]
    · simp
    · intro x _ hx
      rw [if_neg]
      intro h; apply hx; rw [← h]; simp
    · simp
  have h2 : ∀ k, pfAt A a (fstOf k) = pfAt A a (fstOf i) := fun k =>
    pfAt_move A a _ _ (pairSwap i k) (by rw [pairSwap_fst, Equiv.swap_apply_left]) (fun σ => pfTerm_pairSwap A σ i k)
  have h3 : ∀ k, pfAt A a (sndOf k) = pfAt A a (fstOf k) := fun k =>
    pfAt_move A a _ _ (Equiv.swap (fstOf k) (sndOf k)) (Equiv.swap_apply_left _ _) (fun σ => pfTerm_flip hA σ k)
  rw [h1, sum_pairs]
  simp only [h3, h2]
  rw [Finset.sum_const, Finset.card_univ, Fintype.card_fin, nsmul_eq_mul]
  ring

/-- A sum over permutations fixing `0`. -/
theorem sum_fix_zero {M : Type} [AddCommMonoid M] {m : ℕ} (f : Perm (Fin (m + 1)) → M) :
    ∑ σ : Perm (Fin (m + 1)), (if σ 0 = 0 then f σ else 0) = ∑ e : Perm (Fin m), f (decomposeFin.symm (0, e)) := by
  rw [← Equiv.sum_comp decomposeFin.symm, Fintype.sum_prod_type]
  rw [Finset.sum_eq_single 0]
  · simp
  · intro p _ hp
    apply Finset.sum_eq_zero
    intro e _
    rw [decomposeFin_symm_apply_zero, if_neg hp]
  · simp

theorem decompose_zero_succ {m : ℕ} (e : Perm (Fin m)) (x : Fin m) : decomposeFin.symm (0, e) x.succ = (e x).succ := by
  rw [decomposeFin_symm_apply_succ, Equiv.swap_self]; rfl

/-- Index shifted by one pair. -/
def up2 {r : ℕ} (j : Fin (2 * r)) : Fin (2 * (r + 1)) := ⟨j.val + 2, by have := j.isLt; omega⟩

theorem up2_eq {r : ℕ} (j : Fin (2 * r)) : up2 j = (j.succ.succ : Fin (2 * r + 2)) := rfl

/-- Pfaffian of a matrix whose first row has one non-zero entry, next to the diagonal. -/
theorem pf_block [CharZero K] {r : ℕ} {A : Matrix (Fin (2 * (r + 1))) (Fin (2 * (r + 1))) K} (hA : Skew A)
    (hrow : ∀ j : Fin (2 * r), A 0 (up2 j) = 0) :
    pfaffian A = A 0 1 * pfaffian (A.submatrix up2 up2) := by
  have hf0 : fstOf (0 : Fin (r + 1)) = 0 := rfl
  have hs0 : sndOf (0 : Fin (r + 1)) = (0 : Fin (2 * r + 1)).succ := rfl
  have hfs : ∀ i : Fin r, fstOf i.succ = (fstOf i).succ.succ := fun i => Fin.ext (by simp [fstOf]; omega)
  have hss : ∀ i : Fin r, sndOf i.succ = (sndOf i).succ.succ := fun i => Fin.ext (by simp [sndOf]; omega)
  have key : pfAt A 0 (fstOf 0) = A 0 1 * ∑ σ, pfTerm (A.submatrix up2 up2) σ := by
    unfold pfAt
    rw [hf0]
    have h1 := sum_fix_zero (m := 2 * r + 1) (fun σ => pfTerm A σ)
    refine h1.trans ?_
    -- the term of a permutation fixing the first index
    have h2 : ∀ e : Perm (Fin (2 * r + 1)), pfTerm A (decomposeFin.symm (0, e)) =
        if e 0 = 0 then ((sign e : ℤ) : K) * (A 0 1 * ∏ i : Fin r, A (e (fstOf i).succ).succ (e (sndOf i).succ).succ) else 0 := by
      intro e
      unfold pfTerm
      rw [decomposeFin.symm_sign, if_pos rfl, one_mul, Fin.prod_univ_succ, hf0, hs0, decompose_zero_succ, decomposeFin_symm_apply_zero]
      by_cases he : e 0 = 0
      · rw [if_pos he, he]
        congr 2
      · obtain ⟨j, hj⟩ := Fin.exists_succ_eq.mpr he
        have := hrow j
        rw [up2_eq] at this
        rw [if_neg he, ← hj, this, zero_mul, mul_zero]
    simp only [h2]
    rw [sum_fix_zero (m := 2 * r), Finset.mul_sum]
    apply Finset.sum_congr rfl
    intro e _
    unfold pfTerm
    simp only [decompose_zero_succ, Matrix.submatrix_apply, up2_eq]
    rw [decomposeFin.symm_sign, if_pos rfl, one_mul]
    ring
  rw [pf_eq, pf_eq (A.submatrix up2 up2), pfSum_at hA 0 0, key, Nat.factorial_succ, pow_succ]
  have h1 : ((r + 1 : ℕ) : K) ≠ 0 := Nat.cast_ne_zero.mpr (by omega)
  have h2 : (r.factorial : K) ≠ 0 := Nat.cast_ne_zero.mpr r.factorial_ne_zero
  have h3 : (2 : K) ≠ 0 := two_ne_zero
  push_cast at h1 ⊢
  field_simp

theorem skew_diag [CharZero K] {m : Type} {A : Matrix m m K} (hA : Skew A) (i : m) : A i i = 0 := by
  have h := hA i i
  have : 2 * A i i = 0 := by linear_combination h
  exact (mul_eq_zero.mp this).resolve_left two_ne_zero

theorem pf_perm (A : Matrix (Fin (2 * n)) (Fin (2 * n)) K) (s : Perm (Fin (2 * n))) :
    pfaffian (A.submatrix s s) = ((sign s : ℤ) : K) * pfaffian A := by
  rw [pf_eq, pf_eq A, ← Equiv.sum_comp (Equiv.mulLeft s) (fun σ => pfTerm A σ)]
  have : ∀ σ, pfTerm (A.submatrix s s) σ = ((sign s : ℤ) : K) * pfTerm A (s * σ) := by
    intro σ
    unfold pfTerm
    simp only [Matrix.submatrix_apply, Perm.mul_apply, sign_mul]
    have h1 : ((sign s : ℤ) : K) * ((sign s : ℤ) : K) = 1 := by
      rcases Int.units_eq_one_or (sign s) with h | h <;> simp [h]
    push_cast
    rw [← mul_assoc, ← mul_assoc, h1, one_mul]
  simp only [this, Equiv.coe_mulLeft, ← Finset.mul_sum]
  ring

theorem skew_perm {m : Type} {A : Matrix m m K} (hA : Skew A) (s : Perm m) : Skew (A.submatrix s s) := fun i j => hA (s i) (s j)

/-- What remains of the matrix after one elimination step. -/
noncomputable def elim {r : ℕ} (A : Matrix (Fin (2 * (r + 1))) (Fin (2 * (r + 1))) K) : Matrix (Fin (2 * r)) (Fin (2 * r)) K := fun i j =>
  A (up2 i) (up2 j) + A 0 (up2 i) / A 0 1 * A (up2 j) 1 - A (up2 i) 1 * (A 0 (up2 j) / A 0 1)

theorem elim_skew {r : ℕ} {A : Matrix (Fin (2 * (r + 1))) (Fin (2 * (r + 1))) K} (hA : Skew A) : Skew (elim A) := by
  intro i j
  unfold elim
  rw [hA (up2 i) (up2 j)]
  ring

/-- The multipliers, extended by zero. -/
noncomputable def elimT {r : ℕ} (A : Matrix (Fin (2 * (r + 1))) (Fin (2 * (r + 1))) K) (i : Fin (2 * (r + 1))) : K :=
  if 2 ≤ i.val then A 0 i / A 0 1 else 0

/-- The elimination as a congruence. -/
noncomputable def elimL {r : ℕ} (A : Matrix (Fin (2 * (r + 1))) (Fin (2 * (r + 1))) K) : Matrix (Fin (2 * (r + 1))) (Fin (2 * (r + 1))) K :=
  fun i k => (if i = k then 1 else 0) - if k = 1 then elimT A i else 0

theorem elimL_det {r : ℕ} (A : Matrix (Fin (2 * (r + 1))) (Fin (2 * (r + 1))) K) : (elimL A).det = 1 := by
  rw [Matrix.det_of_lowerTriangular]
  · apply Finset.prod_eq_one
    intro i _
    unfold elimL elimT
    by_cases h : i = 1
    · subst h
      have : ¬ (2 ≤ (1 : Fin (2 * (r + 1))).val) := by
        have : (1 : Fin (2 * (r + 1))).val = 1 := by
          rw [Fin.val_one']; apply Nat.mod_eq_of_lt; omega
        omega
      rw [if_pos rfl, if_pos rfl, if_neg this, sub_zero]
    · simp [h]
  · intro i k hik
    have hik' : i < k := hik
    unfold elimL elimT
    rw [if_neg (ne_of_lt hik')]
    by_cases h : k = 1
    · subst h
      have : ¬ (2 ≤ i.val) := by
        have h1 : (1 : Fin (2 * (r + 1))).val = 1 := by
          rw [Fin.val_one']; apply Nat.mod_eq_of_lt; omega
        have := Fin.lt_def.mp hik'
        omega
      simp [this]
    · simp [h]

theorem elimL_apply [CharZero K] {r : ℕ} {A : Matrix (Fin (2 * (r + 1))) (Fin (2 * (r + 1))) K} (hA : Skew A) (i j : Fin (2 * (r + 1))) :
    (elimL A * A * (elimL A).transpose) i j = A i j - elimT A i * A 1 j - A i 1 * elimT A j := by
  have h1 : ∀ l, (elimL A * A) i l = A i l - elimT A i * A 1 l := by
    intro l
    rw [Matrix.mul_apply]
    unfold elimL
    simp only [sub_mul, Finset.sum_sub_distrib, ite_mul, one_mul, zero_mul, Finset.sum_ite_eq, Finset.sum_ite_eq', Finset.mem_univ, if_true]
  rw [Matrix.mul_apply]
  simp only [h1, Matrix.transpose_apply]
  unfold elimL
  simp only [mul_sub, Finset.sum_sub_distrib, mul_ite, mul_one, mul_zero, Finset.sum_ite_eq, Finset.sum_ite_eq', Finset.mem_univ, if_true]
  rw [skew_diag hA 1]
  ring

theorem skew_congr {m : Type} [Fintype m] {A : Matrix m m K} (hA : Skew A) (B : Matrix m m K) : Skew (B * A * B.transpose) := by
  have hT : A.transpose = -A := by
    ext i j; rw [Matrix.transpose_apply, Matrix.neg_apply]; exact hA j i
  have : (B * A * B.transpose).transpose = -(B * A * B.transpose) := by
    rw [Matrix.transpose_mul, Matrix.transpose_mul, Matrix.transpose_transpose, hT, Matrix.neg_mul, Matrix.mul_neg, Matrix.mul_assoc]
  intro i j
  have h := congrFun (congrFun this j) i
  rw [Matrix.transpose_apply, Matrix.neg_apply] at h
  exact h

theorem up2_val {r : ℕ} (j : Fin (2 * r)) : (up2 j).val = j.val + 2 := rfl
theorem one_val {r : ℕ} : (1 : Fin (2 * (r + 1))).val = 1 := by
  rw [Fin.val_one']; apply Nat.mod_eq_of_lt; omega

theorem elimT_up2 {r : ℕ} (A : Matrix (Fin (2 * (r + 1))) (Fin (2 * (r + 1))) K) (j : Fin (2 * r)) : elimT A (up2 j) = A 0 (up2 j) / A 0 1 := by
  unfold elimT; rw [if_pos (by rw [up2_val]; omega)]
theorem elimT_zero {r : ℕ} (A : Matrix (Fin (2 * (r + 1))) (Fin (2 * (r + 1))) K) : elimT A 0 = 0 := by
  unfold elimT; rw [if_neg (by simp)]
theorem elimT_one {r : ℕ} (A : Matrix (Fin (2 * (r + 1))) (Fin (2 * (r + 1))) K) : elimT A 1 = 0 := by
  unfold elimT; rw [if_neg (by rw [one_val]; omega)]

theorem elim_block [CharZero K] {r : ℕ} {A : Matrix (Fin (2 * (r + 1))) (Fin (2 * (r + 1))) K} (hA : Skew A) (hp : A 0 1 ≠ 0) :
    let B := elimL A * A * (elimL A).transpose
    Skew B ∧ B.det = A.det ∧ pfaffian B = pfaffian A ∧ B 0 1 = A 0 1 ∧ (∀ j, B 0 (up2 j) = 0) ∧ B.submatrix up2 up2 = elim A := by
  refine ⟨skew_congr hA _, ?_, ?_, ?_, ?_, ?_⟩
  · rw [Matrix.det_mul, Matrix.det_mul, Matrix.det_transpose, elimL_det]; ring
  · rw [pf_congr, elimL_det, one_mul]
  · rw [elimL_apply hA, elimT_zero, elimT_one]; ring
  · intro j
    rw [elimL_apply hA, elimT_zero, elimT_up2]
    field_simp; ring
  · ext i j
    rw [Matrix.submatrix_apply, elimL_apply hA, elimT_up2, elimT_up2, hA 1 (up2 j)]
    unfold elim
    ring

theorem pf_elim [CharZero K] {r : ℕ} {A : Matrix (Fin (2 * (r + 1))) (Fin (2 * (r + 1))) K} (hA : Skew A) (hp : A 0 1 ≠ 0) :
    pfaffian A = A 0 1 * pfaffian (elim A) := by
  obtain ⟨h1, _, h3, h4, h5, h6⟩ := elim_block hA hp
  rw [← h3, pf_block h1 h5, h4, h6]

theorem pf_row_zero [CharZero K] {r : ℕ} {A : Matrix (Fin (2 * (r + 1))) (Fin (2 * (r + 1))) K} (hA : Skew A) (h : ∀ j, A 0 j = 0) :
    pfaffian A = 0 := by
  rw [pf_block hA (fun j => h _), h, zero_mul]

theorem pf_empty (A : Matrix (Fin (2 * 0)) (Fin (2 * 0)) K) : pfaffian A = 1 := by
  unfold pfaffian
  simp

theorem det_block [CharZero K] {r : ℕ} {B : Matrix (Fin (2 * (r + 1))) (Fin (2 * (r + 1))) K} (hB : Skew B) (hrow : ∀ j, B 0 (up2 j) = 0) :
    B.det = B 0 1 ^ 2 * (B.submatrix up2 up2).det := by
  have hs : ∀ M : Matrix (Fin (2 * r + 2)) (Fin (2 * r + 2)) K, (∀ i j, M i j = -M j i) → (∀ j : Fin (2 * r), M 0 j.succ.succ = 0) →
      M.det = M 0 1 ^ 2 * (M.submatrix (fun j : Fin (2 * r) => j.succ.succ) (fun j : Fin (2 * r) => j.succ.succ)).det := by
    intro M hM hr
    have h00 : M 0 0 = 0 := skew_diag (A := M) hM 0
    rw [Matrix.det_succ_row_zero, Fin.sum_univ_succ, Fin.sum_univ_succ]
    simp only [h00, hr, mul_zero, zero_mul, Finset.sum_const_zero, add_zero, zero_add]
    rw [Matrix.det_succ_column_zero, Fin.sum_univ_succ]
    have hcol : ∀ i : Fin (2 * r), M.submatrix Fin.succ (Fin.succAbove (Fin.succ 0)) i.succ 0 = 0 := by
      intro i
      rw [Matrix.submatrix_apply, hM]
      have : Fin.succAbove (Fin.succ (0 : Fin (2 * r + 1))) 0 = 0 := by simp
      rw [this, hr, neg_zero]
    simp only [hcol, mul_zero, zero_mul, Finset.sum_const_zero, add_zero]
    have hc0 : M.submatrix Fin.succ (Fin.succAbove (Fin.succ 0)) 0 0 = -M 0 1 := by
      rw [Matrix.submatrix_apply, hM]
      have : Fin.succAbove (Fin.succ (0 : Fin (2 * r + 1))) 0 = 0 := by simp
      rw [this]; rfl
    rw [hc0]
    have hsub : ((M.submatrix Fin.succ (Fin.succAbove (Fin.succ 0))).submatrix (Fin.succAbove 0) Fin.succ) =
        M.submatrix (fun j : Fin (2 * r) => j.succ.succ) (fun j : Fin (2 * r) => j.succ.succ) := by
      ext i j
      simp only [Matrix.submatrix_apply, Fin.succAbove_zero]
      congr 1
    rw [hsub]
    simp
    ring
  exact hs B hB hrow

/-- The square of the Pfaffian is the determinant. -/
theorem pf_sq [CharZero K] : ∀ {r : ℕ} {A : Matrix (Fin (2 * r)) (Fin (2 * r)) K}, Skew A → pfaffian A ^ 2 = A.det := by
  intro r
  induction r with
  | zero =>
    intro A _
    haveI : IsEmpty (Fin (2 * 0)) := inferInstanceAs (IsEmpty (Fin 0))
    rw [pf_empty, Matrix.det_isEmpty]; ring
  | succ r ih =>
    intro A hA
    by_cases h : ∀ j, A 0 j = 0
    · rw [pf_row_zero hA h, Matrix.det_eq_zero_of_row_eq_zero 0 h]; ring
    · push Not at h
      obtain ⟨j, hj⟩ := h
      have hj0 : j ≠ 0 := by rintro rfl; exact hj (skew_diag hA 0)
      have hA' := skew_perm hA (Equiv.swap 1 j)
      have h10 : (1 : Fin (2 * (r + 1))) ≠ 0 := by intro h; have := congrArg Fin.val h; rw [one_val] at this; simp at this
      have hp : (A.submatrix (Equiv.swap 1 j) (Equiv.swap 1 j)) 0 1 ≠ 0 := by
        rw [Matrix.submatrix_apply, Equiv.swap_apply_left, Equiv.swap_apply_of_ne_of_ne h10.symm hj0.symm]; exact hj
      obtain ⟨h1, h2, h3, h4, h5, h6⟩ := elim_block hA' hp
      have e1 : pfaffian A ^ 2 = pfaffian (A.submatrix (Equiv.swap 1 j) (Equiv.swap 1 j)) ^ 2 := by
        rw [pf_perm, mul_pow]
        have : (((sign (Equiv.swap 1 j) : ℤ)) : K) ^ 2 = 1 := by
          rcases Int.units_eq_one_or (sign (Equiv.swap 1 j)) with h | h <;> simp [h]
        rw [this, one_mul]
      rw [e1, pf_elim hA' hp, mul_pow, ih (elim_skew hA'), ← Matrix.det_submatrix_equiv_self (Equiv.swap 1 j) A, ← h2, det_block h1 h5, h4, h6]

end GPSKet.Spec
