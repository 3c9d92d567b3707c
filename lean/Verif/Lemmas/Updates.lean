import Verif.Spec.Updates
import Mathlib.Algebra.BigOperators.Field
import Mathlib.Data.Fintype.BigOperators

/-! # Lemmas on partial updates -/

namespace GPSKet.Spec

variable {S A : Type} [DecidableEq S]

theorem applyUpdate_nil (x : S → A) : applyUpdate x [] = x := rfl

theorem applyUpdate_cons (x : S → A) (u : S × A) (l : List (S × A)) :
    applyUpdate x (u :: l) = Function.update (applyUpdate x l) u.1 u.2 := by
  funext k
  unfold applyUpdate
  by_cases h : u.1 = k
  · subst h; simp
  · rw [Function.update_of_ne (Ne.symm h)]
    simp [h]

theorem applyUpdate_foldr (x : S → A) (l : List (S × A)) :
    applyUpdate x l = l.reverse.foldl (fun y u => Function.update y u.1 u.2) x := by
  induction l with
  | nil => rfl
  | cons u l ih => rw [applyUpdate_cons, ih, List.reverse_cons, List.foldl_append]; rfl

theorem applyUpdate_not_mem (x : S → A) (l : List (S × A)) (k : S) (h : k ∉ l.map Prod.fst) :
    applyUpdate x l k = x k := by
  induction l with
  | nil => rfl
  | cons u l ih =>
    rw [List.map_cons, List.mem_cons, not_or] at h
    rw [applyUpdate_cons, Function.update_of_ne h.1, ih h.2]

/-- If all entries of a site repeat its old occupation, the update leaves the site alone. -/
theorem applyUpdate_same (x : S → A) (l : List (S × A)) (k : S) (h : ∀ u ∈ l, u.1 = k → u.2 = x k) :
    applyUpdate x l k = x k := by
  induction l with
  | nil => rfl
  | cons u l ih =>
    rw [applyUpdate_cons]
    by_cases hk : k = u.1
    · subst hk; simp [h u List.mem_cons_self rfl]
    · rw [Function.update_of_ne hk, ih (fun v hv => h v (List.mem_cons_of_mem _ hv))]

theorem padded_of_nodup (x : S → A) (l : List (S × A)) (h : (l.map Prod.fst).Nodup) : Padded x l := by
  unfold Padded
  rw [List.Nodup, List.pairwise_map] at h
  exact h.imp fun hne he => absurd he hne

theorem padded_cons {x : S → A} {u : S × A} {l : List (S × A)} :
    Padded x (u :: l) ↔ (∀ v ∈ l, u.1 = v.1 → v.2 = x v.1) ∧ Padded x l := List.pairwise_cons

theorem prod_update {K : Type} [Field K] [Fintype S] (f : S → A → K) (y : S → A) (s : S) (v : A) (h : f s (y s) ≠ 0) :
    ∏ i, f i (Function.update y s v i) = (∏ i, f i (y i)) / f s (y s) * f s v := by
  rw [← Finset.mul_prod_erase Finset.univ _ (Finset.mem_univ s), ← Finset.mul_prod_erase Finset.univ (fun i => f i (y i)) (Finset.mem_univ s)]
  rw [Function.update_self, mul_div_cancel_left₀ _ h, mul_comm]
  congr 1
  apply Finset.prod_congr rfl
  intro i hi
  rw [Function.update_of_ne (Finset.ne_of_mem_erase hi)]

/-- A product over sites after a padded update is the old product divided by the old and multiplied by the new
factors of the listed entries. -/
theorem prod_applyUpdate {K : Type} [Field K] [Fintype S] (f : S → A → K) (x : S → A) (l : List (S × A))
    (hp : Padded x l) (h0 : ∀ u ∈ l, f u.1 (x u.1) ≠ 0) :
    ∏ i, f i (applyUpdate x l i) =
      (∏ i, f i (x i)) / (l.map fun u => f u.1 (x u.1)).prod * (l.map fun u => f u.1 u.2).prod := by
  induction l with
  | nil => simp [applyUpdate_nil]
  | cons u l ih =>
    rw [padded_cons] at hp
    have hx : applyUpdate x l u.1 = x u.1 :=
      applyUpdate_same x l u.1 fun v hv he => by rw [hp.1 v hv he.symm, he]
    rw [applyUpdate_cons, prod_update _ _ _ _ (by rw [hx]; exact h0 u List.mem_cons_self), hx,
      ih hp.2 (fun v hv => h0 v (List.mem_cons_of_mem _ hv))]
    simp only [List.map_cons, List.prod_cons]
    rw [div_mul_eq_mul_div, div_mul_eq_mul_div, div_mul_eq_mul_div, div_div, mul_comm (List.prod _) (f u.1 (x u.1)),
      mul_assoc, mul_comm (List.prod _) (f u.1 u.2), div_mul_eq_mul_div]

/-- Padded updates of a transformed configuration. -/
theorem padded_map {x : S → A} {l : List (S × A)} (e : Equiv.Perm S) (f : A → A) (h : Padded x l) :
    Padded (fun i => f (x (e i))) (l.map fun u => (e.symm u.1, f u.2)) := by
  unfold Padded at *
  rw [List.pairwise_map]
  refine h.imp fun {u v} huv he => ?_
  rw [huv (e.symm.injective he)]
  simp

theorem applyUpdate_map (x : S → A) (l : List (S × A)) (e : Equiv.Perm S) (f : A → A) :
    (fun i => f (applyUpdate x l (e i))) = applyUpdate (fun i => f (x (e i))) (l.map fun u => (e.symm u.1, f u.2)) := by
  induction l with
  | nil => rfl
  | cons u l ih =>
    rw [List.map_cons, applyUpdate_cons, applyUpdate_cons, ← ih]
    funext i
    by_cases h : e i = u.1
    · rw [h, Function.update_self, ← h, Equiv.symm_apply_apply, Function.update_self]
    · rw [Function.update_of_ne h, Function.update_of_ne]
      intro hc; apply h; rw [hc, Equiv.apply_symm_apply]

/-- Sums behave the same way, without any condition on zeros. -/
theorem sum_applyUpdate {K : Type} [AddCommGroup K] [Fintype S] (f : S → A → K) (x : S → A) (l : List (S × A))
    (hp : Padded x l) :
    ∑ i, f i (applyUpdate x l i) =
      (∑ i, f i (x i)) - (l.map fun u => f u.1 (x u.1)).sum + (l.map fun u => f u.1 u.2).sum := by
  induction l with
  | nil => simp [applyUpdate_nil]
  | cons u l ih =>
    rw [padded_cons] at hp
    have hx : applyUpdate x l u.1 = x u.1 :=
      applyUpdate_same x l u.1 fun v hv he => by rw [hp.1 v hv he.symm, he]
    have key : ∑ i, f i (Function.update (applyUpdate x l) u.1 u.2 i) =
        (∑ i, f i (applyUpdate x l i)) - f u.1 (x u.1) + f u.1 u.2 := by
      rw [← Finset.add_sum_erase Finset.univ _ (Finset.mem_univ u.1),
        ← Finset.add_sum_erase Finset.univ (fun i => f i (applyUpdate x l i)) (Finset.mem_univ u.1)]
      rw [Function.update_self, hx]
      have : ∑ i ∈ Finset.univ.erase u.1, f i (Function.update (applyUpdate x l) u.1 u.2 i) =
          ∑ i ∈ Finset.univ.erase u.1, f i (applyUpdate x l i) :=
        Finset.sum_congr rfl fun i hi => by rw [Function.update_of_ne (Finset.ne_of_mem_erase hi)]
      rw [this]; abel
    rw [applyUpdate_cons, key, ih hp.2]
    simp only [List.map_cons, List.sum_cons]
    abel

end GPSKet.Spec
