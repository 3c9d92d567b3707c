import Verif.Spec.PairState
import Verif.Lemmas.Pfaffian
import Verif.Lemmas.SlaterState
import Mathlib.Algebra.BigOperators.Pi
import Mathlib.Data.Fin.Tuple.Basic

/-! # The amplitudes of a pair state are Pfaffians -/

namespace GPSKet.Spec
open Equiv Equiv.Perm

section
variable {n : ℕ} {K : Type} [Field K]

/-- Exchange the members of the pairs selected by `p`. -/
def flips (p : Fin n → Bool) : Perm (Fin (2 * n)) :=
  (pairEquiv n).permCongr (prodCongrRight fun i => if p i then Equiv.swap false true else 1)

theorem sign_flips (p : Fin n → Bool) : sign (flips p) = ∏ i, if p i then -1 else 1 := by
  unfold flips
  rw [sign_permCongr, sign_prodCongrRight]
  refine Finset.prod_congr rfl fun i _ => ?_
  split_ifs
  · exact sign_swap (by decide)
  · exact sign_one

theorem flips_fst (p : Fin n → Bool) (i : Fin n) : flips p (fstOf i) = if p i then sndOf i else fstOf i := by
  unfold flips
  rw [Equiv.permCongr_apply, ← pairEquiv_false, Equiv.symm_apply_apply]
  simp only [prodCongrRight_apply]
  split_ifs <;> rfl

theorem flips_snd (p : Fin n → Bool) (i : Fin n) : flips p (sndOf i) = if p i then fstOf i else sndOf i := by
  unfold flips
  rw [Equiv.permCongr_apply, ← pairEquiv_true, Equiv.symm_apply_apply]
  simp only [prodCongrRight_apply]
  split_ifs <;> rfl

theorem pfTerm_sub_transpose (A : Matrix (Fin (2 * n)) (Fin (2 * n)) K) (σ : Perm (Fin (2 * n))) :
    pfTerm (A - A.transpose) σ = ∑ p : Fin n → Bool, pfTerm A (σ * flips p) := by
  unfold pfTerm
  have h : ∏ i : Fin n, (A - A.transpose) (σ (fstOf i)) (σ (sndOf i)) =
      ∑ p : Fin n → Bool, ∏ i, if p i then -A (σ (sndOf i)) (σ (fstOf i)) else A (σ (fstOf i)) (σ (sndOf i)) := by
    refine Eq.trans ?_ (Fintype.prod_sum fun (i : Fin n) (b : Bool) => if b then -A (σ (sndOf i)) (σ (fstOf i)) else A (σ (fstOf i)) (σ (sndOf i)))
    refine Finset.prod_congr rfl fun i _ => ?_
    simp [Matrix.sub_apply]
    ring
  rw [h, Finset.mul_sum]
  refine Finset.sum_congr rfl fun p _ => ?_
  rw [Equiv.Perm.sign_mul, sign_flips, Units.val_mul, Int.cast_mul, mul_assoc]
  congr 1
  rw [Units.coe_prod, Int.cast_prod, ← Finset.prod_mul_distrib]
  refine Finset.prod_congr rfl fun i _ => ?_
  rw [Perm.mul_apply, Perm.mul_apply, flips_fst, flips_snd]
  split_ifs <;> simp

/-- The Pfaffian of `A - Aᵀ`. -/
theorem pf_sub_transpose [CharZero K] (A : Matrix (Fin (2 * n)) (Fin (2 * n)) K) :
    pfaffian (A - A.transpose) = 1 / (n.factorial : K) * ∑ σ, pfTerm A σ := by
  rw [pf_eq]
  have : ∑ σ, pfTerm (A - A.transpose) σ = 2 ^ n * ∑ σ, pfTerm A σ := by
    simp only [pfTerm_sub_transpose]
    rw [Finset.sum_comm]
    have : ∀ p : Fin n → Bool, ∑ σ, pfTerm A (σ * flips p) = ∑ σ, pfTerm A σ := fun p =>
      Equiv.sum_comp (Equiv.mulRight (flips p)) (pfTerm A)
    simp only [this, Finset.sum_const, Finset.card_univ, Fintype.card_fun, Fintype.card_bool, Fintype.card_fin, nsmul_eq_mul]
    push_cast
    rfl
  rw [this]
  have h1 : (n.factorial : K) ≠ 0 := Nat.cast_ne_zero.mpr n.factorial_ne_zero
  field_simp

end

open Matrix
variable {ι : Type} [Fintype ι] [LinearOrder ι] {K : Type} [Field K]

/-- The orbital localised on a mode. -/
def atMode (K : Type) [Field K] (p : ι) : ι → K := fun q => if q = p then 1 else 0

theorem creOrb_atMode (p : ι) : creOrb (atMode K p) = toK K (cre p) := by
  unfold creOrb atMode
  rw [Finset.sum_eq_single p] <;> simp +contextual

theorem toK_mul {α β γ : Type} [Fintype β] (A : Matrix α β ℤ) (B : Matrix β γ ℤ) : toK K (A * B) = toK K A * toK K B := by
  ext i j
  simp [toK, Matrix.mul_apply]

theorem pairOp_mulVec (F : ι → ι → K) (l : List (ι → K)) :
    pairing F *ᵥ slaterState l = ∑ p, ∑ q, F p q • slaterState (atMode K p :: atMode K q :: l) := by
  unfold pairing
  simp only [Matrix.sum_mulVec, Matrix.smul_mulVec, toK_mul, ← Matrix.mulVec_mulVec]
  refine Finset.sum_congr rfl fun p _ => Finset.sum_congr rfl fun q _ => ?_
  congr 1
  change _ = creOrb (atMode K p) *ᵥ (creOrb (atMode K q) *ᵥ slaterState l)
  rw [creOrb_atMode, creOrb_atMode]

/-- Split off the first pair. -/
def firstPair (n : ℕ) (X : Type) : (Fin (2 * (n + 1)) → X) ≃ X × X × (Fin (2 * n) → X) where
  toFun f := (f 0, f 1, fun k => f k.succ.succ)
  invFun t := Fin.cons (α := fun _ => X) t.1 (Fin.cons (α := fun _ => X) t.2.1 t.2.2)
  left_inv f := by
    funext k
    refine Fin.cases rfl (fun k => ?_) k
    refine Fin.cases rfl (fun k => rfl) k
  right_inv t := rfl

theorem pairing_pow (F : ι → ι → K) (n : ℕ) : pairing F ^ n *ᵥ vacuum =
    ∑ f : Fin (2 * n) → ι, (∏ i : Fin n, F (f (fstOf i)) (f (sndOf i))) • slaterState (List.ofFn fun k => atMode K (f k)) := by
  induction n with
  | zero =>
    simp [slaterState]
  | succ n ih =>
    rw [pow_succ', ← Matrix.mulVec_mulVec, ih, Matrix.mulVec_sum, ← Equiv.sum_comp (firstPair n ι).symm]
    rw [Fintype.sum_prod_type]
    simp only [Fintype.sum_prod_type, Matrix.mulVec_smul, pairOp_mulVec, Finset.smul_sum]
    rw [Finset.sum_comm]
    refine Finset.sum_congr rfl fun p _ => ?_
    rw [Finset.sum_comm]
    refine Finset.sum_congr rfl fun q _ => Finset.sum_congr rfl fun f _ => ?_
    rw [smul_smul, Fin.prod_univ_succ]
    congr 1
    · rw [mul_comm]; rfl
    · have : (List.ofFn fun k => atMode K ((firstPair n ι).symm (p, q, f) k)) =
          atMode K p :: atMode K q :: List.ofFn fun k => atMode K (f k) := by
        change List.ofFn (n := 2 * n + 1 + 1) _ = _
        rw [List.ofFn_succ, List.ofFn_succ]
        rfl
      rw [this]

/-- The amplitude of a pair state is a Pfaffian. -/
theorem pairState_pf [CharZero K] (F : ι → ι → K) (n : ℕ) (s : Occ ι) (e : Fin (2 * n) → ι) (he : StrictMono e)
    (hs : ∀ p, s p = true ↔ ∃ i, e i = p) :
    pairState F n s = pfaffian (Matrix.of (fun a b => F (e a) (e b)) - (Matrix.of fun a b => F (e a) (e b)).transpose) := by
  rw [pf_sub_transpose]
  unfold pairState
  rw [Pi.smul_apply, pairing_pow, smul_eq_mul, Finset.sum_apply]
  congr 1
  have h : ∀ f : Fin (2 * n) → ι, slaterState (List.ofFn fun k => atMode K (f k)) s =
      ∑ σ : Perm (Fin (2 * n)), ((sign σ : ℤ) : K) * if f = e ∘ σ then 1 else 0 := by
    intro f
    rw [slaterState_det _ s e he hs, Matrix.det_apply']
    refine Finset.sum_congr rfl fun σ _ => ?_
    congr 1
    simp only [Matrix.of_apply, atMode]
    rw [Finset.prod_ite_zero]
    simp only [Finset.mem_univ, true_implies, Finset.prod_const_one]
    congr 1
    rw [funext_iff, eq_iff_iff]
    exact forall_congr' fun k => eq_comm
  simp only [Pi.smul_apply, h, smul_eq_mul, Finset.mul_sum]
  rw [Finset.sum_comm]
  refine Finset.sum_congr rfl fun σ _ => ?_
  rw [Finset.sum_eq_single (e ∘ σ)]
  · simp only [if_true, pfTerm, Function.comp_apply, mul_one, Matrix.of_apply]
    rw [mul_comm]
  · intro f _ hf; simp [hf]
  · simp

end GPSKet.Spec
