import Verif.Lemmas.Fermion
import Mathlib.Algebra.BigOperators.Ring.Finset
import Mathlib.Data.Finset.Basic
import Mathlib.Tactic.Abel
import Mathlib.Tactic.LinearCombination

/-! # Lemmas: rows of Fock-space operators as functionals, and the rows of the molecular Hamiltonian -/

namespace GPSKet.Spec
open Matrix

section
variable {ι : Type} [Fintype ι] [LinearOrder ι] {K : Type} [CommRing K]

/-- The row of the transposed matrix of a signed partial map, as a functional. -/
def SMap.act (f : SMap ι) (g : Occ ι → K) (n : Occ ι) : K :=
  match f n with
  | none => 0
  | some (s, m) => (s : K) * g m

theorem SMap.act_comp (f f' : SMap ι) (g : Occ ι → K) (n : Occ ι) : (f.comp f').act g n = f'.act (f.act g) n := by
  unfold SMap.act SMap.comp
  rcases h : f' n with _ | ⟨s, m⟩
  · rfl
  · dsimp only
    rcases h2 : f m with _ | ⟨s', m'⟩
    · simp
    · simp only; push_cast; ring

theorem SMap.act_sum (f : SMap ι) {α : Type} (t : Finset α) (c : α → K) (G : α → Occ ι → K) (n : Occ ι) :
    f.act (fun m => ∑ k ∈ t, c k * G k m) n = ∑ k ∈ t, c k * f.act (G k) n := by
  unfold SMap.act
  rcases h : f n with _ | ⟨s, m⟩
  · simp
  · simp only [Finset.mul_sum]
    apply Finset.sum_congr rfl
    intro k _
    ring

theorem SMap.act_neg (f : SMap ι) (g : Occ ι → K) (n : Occ ι) : f.act (fun m => -g m) n = -f.act g n := by
  unfold SMap.act
  rcases h : f n with _ | ⟨s, m⟩
  · simp
  · simp

theorem SMap.mat_row (f : SMap ι) (M : Matrix (Occ ι) (Occ ι) ℤ) (n n' : Occ ι) :
    toK K (f.matᵀ * M) n n' = f.act (fun m => toK K M m n') n := by
  unfold toK
  rw [Matrix.map_apply, Matrix.mul_apply]
  simp only [transpose_apply, Matrix.map_apply]
  unfold SMap.act SMap.mat
  rcases h : f n with _ | ⟨s, m⟩
  · simp
  · simp

/-- Bra action of `c†_p`. -/
def R (p : ι) (g : Occ ι → K) (n : Occ ι) : K := (annS p).act g n

/-- Bra action of `c_p`. -/
def A (p : ι) (g : Occ ι → K) (n : Occ ι) : K := (creS p).act g n

theorem R_apply (p : ι) (g : Occ ι → K) (n : Occ ι) :
    R p g n = if n p = true then (jwSign p n : K) * g (Function.update n p false) else 0 := by
  unfold R SMap.act annS
  by_cases h : n p = true <;> simp [h]

theorem A_apply (p : ι) (g : Occ ι → K) (n : Occ ι) :
    A p g n = if n p = true then 0 else (jwSign p n : K) * g (Function.update n p true) := by
  unfold A SMap.act creS
  by_cases h : n p = true <;> simp [h]

theorem jw_sq (p : ι) (n : Occ ι) : (jwSign p n : K) * (jwSign p n : K) = 1 := by
  rw [← Int.cast_mul, jwSign_mul_self, Int.cast_one]

theorem R_A_self (p : ι) (g : Occ ι → K) (n : Occ ι) : R p (A p g) n = if n p = true then g n else 0 := by
  rw [R_apply]
  by_cases h : n p = true
  · rw [if_pos h, if_pos h, A_apply, if_neg (by simp), jwSign_update_of_le le_rfl, ← mul_assoc, jw_sq, one_mul]
    congr 1
    rw [Function.update_idem, upd_self h]
  · rw [if_neg h, if_neg h]

theorem A_R_self (p : ι) (g : Occ ι → K) (n : Occ ι) : A p (R p g) n = if n p = true then 0 else g n := by
  rw [A_apply]
  by_cases h : n p = true
  · rw [if_pos h, if_pos h]
  · have h' : n p = false := by simpa using h
    rw [if_neg h, if_neg h, R_apply, if_pos (by simp), jwSign_update_of_le le_rfl, ← mul_assoc, jw_sq, one_mul]
    congr 1
    rw [Function.update_idem, upd_self h']

theorem jw_swap {p q : ι} (h : p ≠ q) (n : Occ ι) (b b' : Bool) (hb : n p ≠ b) (hb' : n q ≠ b') :
    (jwSign p n : K) * (jwSign q (Function.update n p b) : K) = -((jwSign q n : K) * (jwSign p (Function.update n q b') : K)) := by
  rcases lt_or_gt_of_ne h with hlt | hlt
  · rw [jwSign_update_of_lt hlt n b hb, jwSign_update_of_le hlt.le]
    push_cast; ring
  · rw [jwSign_update_of_lt hlt n b' hb', jwSign_update_of_le hlt.le]
    push_cast; ring

theorem R_A_anti {p q : ι} (h : p ≠ q) (g : Occ ι → K) (n : Occ ι) : R p (A q g) n = -A q (R p g) n := by
  rw [R_apply, A_apply (p := q) (g := R p g) (n := n)]
  by_cases hp : n p = true
  · by_cases hq : n q = true
    · rw [if_pos hp, A_apply, if_pos (by rw [Function.update_of_ne h.symm, hq]), if_pos hq]; simp
    · have hq' : n q = false := by simpa using hq
      rw [if_pos hp, if_neg hq, A_apply, if_neg (by rw [Function.update_of_ne h.symm]; exact hq),
        R_apply, if_pos (by rw [Function.update_of_ne h]; exact hp), ← mul_assoc, ← mul_assoc,
        jw_swap h n false true (by simp [hp]) (by simp [hq']), Function.update_comm h]
      ring
  · rw [if_neg hp]
    by_cases hq : n q = true
    · rw [if_pos hq]; simp
    · rw [if_neg hq, R_apply, if_neg (by rw [Function.update_of_ne h]; exact hp)]; simp

theorem R_R_anti (p q : ι) (g : Occ ι → K) (n : Occ ι) : R p (R q g) n = -R q (R p g) n := by
  by_cases h : p = q
  · subst h
    have : R p (R p g) n = 0 := by
      rw [R_apply, R_apply]; simp
    rw [this, neg_zero]
  rw [R_apply, R_apply (p := q) (n := n)]
  by_cases hp : n p = true
  · by_cases hq : n q = true
    · rw [if_pos hp, R_apply, if_pos (by rw [Function.update_of_ne (Ne.symm h)]; exact hq), if_pos hq, R_apply,
        if_pos (by rw [Function.update_of_ne h]; exact hp), ← mul_assoc, ← mul_assoc,
        jw_swap h n false false (by simp [hp]) (by simp [hq]), Function.update_comm h]
      ring
    · rw [if_pos hp, R_apply, if_neg (by rw [Function.update_of_ne (Ne.symm h)]; exact hq), if_neg hq]; simp
  · rw [if_neg hp]
    by_cases hq : n q = true
    · rw [if_pos hq, R_apply, if_neg (by rw [Function.update_of_ne h]; exact hp)]; simp
    · rw [if_neg hq]; simp

theorem A_A_anti (p q : ι) (g : Occ ι → K) (n : Occ ι) : A p (A q g) n = -A q (A p g) n := by
  by_cases h : p = q
  · subst h
    have : A p (A p g) n = 0 := by
      rw [A_apply, A_apply]; simp
    rw [this, neg_zero]
  rw [A_apply, A_apply (p := q) (n := n)]
  by_cases hp : n p = true
  · rw [if_pos hp]
    by_cases hq : n q = true
    · rw [if_pos hq]; simp
    · rw [if_neg hq, A_apply, if_pos (by rw [Function.update_of_ne h]; exact hp)]; simp
  · have hp' : n p = false := by simpa using hp
    by_cases hq : n q = true
    · rw [if_neg hp, A_apply, if_pos (by rw [Function.update_of_ne (Ne.symm h)]; exact hq), if_pos hq]; simp
    · have hq' : n q = false := by simpa using hq
      rw [if_neg hp, A_apply, if_neg (by rw [Function.update_of_ne (Ne.symm h)]; exact hq), if_neg hq, A_apply,
        if_neg (by rw [Function.update_of_ne h]; exact hp), ← mul_assoc, ← mul_assoc,
        jw_swap h n true true (by simp [hp']) (by simp [hq']), Function.update_comm h]
      ring

theorem R_neg (p : ι) (g : Occ ι → K) (n : Occ ι) : R p (fun m => -g m) n = -R p g n := SMap.act_neg _ _ _
theorem A_neg (p : ι) (g : Occ ι → K) (n : Occ ι) : A p (fun m => -g m) n = -A p g n := SMap.act_neg _ _ _

/-- Bra action of `c†_p c_q`. -/
def T (p q : ι) (g : Occ ι → K) (n : Occ ι) : K := (hopS q p).act g n

theorem T_eq (p q : ι) (g : Occ ι → K) (n : Occ ι) : T p q g n = R p (A q g) n := SMap.act_comp _ _ _ _

theorem T_eq_fun (p q : ι) (g : Occ ι → K) : T p q g = R p (A q g) := funext fun n => T_eq p q g n

theorem T_row (p q : ι) (M : Matrix (Occ ι) (Occ ι) ℤ) (n n' : Occ ι) :
    toK K (cre p * ann q * M) n n' = T p q (fun m => toK K M m n') n := by
  rw [← cre_mul_ann_transpose, ← hopS_mat, SMap.mat_row]
  rfl

theorem T_sum (p q : ι) {α : Type} (t : Finset α) (c : α → K) (G : α → Occ ι → K) (n : Occ ι) :
    T p q (fun m => ∑ k ∈ t, c k * G k m) n = ∑ k ∈ t, c k * T p q (G k) n := SMap.act_sum _ _ _ _ _

theorem T_self (p : ι) (g : Occ ι → K) (n : Occ ι) : T p p g n = if n p = true then g n else 0 := by
  rw [T_eq, R_A_self]

theorem T_unocc {p : ι} (q : ι) (g : Occ ι → K) (n : Occ ι) (h : n p = false) : T p q g n = 0 := by
  rw [T_eq, R_apply, if_neg (by simp [h])]

theorem T_occ {p q : ι} (hpq : q ≠ p) (g : Occ ι → K) (n : Occ ι) (h : n q = true) : T p q g n = 0 := by
  rw [T_eq, R_A_anti hpq.symm, A_apply, if_pos h, neg_zero]

/-- The hop `p → q` of a configuration. -/
def mv (p q : ι) (n : Occ ι) : Occ ι := Function.update (Function.update n p false) q true

theorem T_valid {p q : ι} (n : Occ ι) (hp : n p = true) (hq : n q = false) :
    ∃ s : ℤ, ∀ g : Occ ι → K, T p q g n = (s : K) * g (mv p q n) := by
  have hpq : q ≠ p := by rintro rfl; simp [hp] at hq
  refine ⟨jwSign p n * jwSign q (Function.update n p false), fun g => ?_⟩
  rw [T_eq, R_apply, if_pos hp, A_apply, if_neg (by rw [Function.update_of_ne hpq]; simp [hq])]
  push_cast
  rw [mul_assoc]
  rfl

/-- `c†_i c_a c†_a c_s = c†_i c_s` on a state with `a` empty. -/
theorem T_T_through {i a : ι} (hia : a ≠ i) (s : ι) (g : Occ ι → K) (n : Occ ι) (ha : n a = false) :
    T i a (T a s g) n = T i s g n := by
  rw [T_eq, T_eq_fun, T_eq, R_apply, R_apply (p := i) (n := n)]
  by_cases hi : n i = true
  · rw [if_pos hi, if_pos hi, A_R_self, if_neg (by rw [Function.update_of_ne hia]; simp [ha])]
  · rw [if_neg hi, if_neg hi]

/-- `c†_i c_a c†_j c_i = -c†_j c_a` on a state with `i` occupied. -/
theorem T_T_exchange {i a j : ι} (hji : j ≠ i) (haj : a ≠ j) (g : Occ ι → K) (n : Occ ι) (hi : n i = true) :
    T i a (T j i g) n = -T j a g n := by
  rw [T_eq, T_eq_fun j i]
  have h1 : A a (R j (A i g)) = fun m => A i (A a (R j g)) m := by
    funext m
    rw [A_A_anti i a]
    have : A i (R j g) = fun m => -R j (A i g) m := by
      funext m'; rw [R_A_anti hji, neg_neg]
    rw [this, A_neg, neg_neg]
  rw [h1, R_A_self, if_pos hi, T_eq, R_A_anti haj.symm, neg_neg]

/-- Hops on four different modes commute. -/
theorem T_T_comm {i a j b : ι} (hib : i ≠ b) (haj : a ≠ j) (g : Occ ι → K) (n : Occ ι) :
    T i a (T j b g) n = T j b (T i a g) n := by
  rw [T_eq, T_eq_fun j b, T_eq j b, T_eq_fun i a]
  -- R i A a R j A b = R j A b R i A a
  have h1 : A a (R j (A b g)) = fun m => -R j (A a (A b g)) m := by
    funext m; rw [R_A_anti haj.symm, neg_neg]
  have h2 : A b (R i (A a g)) = fun m => -R i (A b (A a g)) m := by
    funext m; rw [R_A_anti hib, neg_neg]
  rw [h1, h2, R_neg, R_neg, R_R_anti i j]
  have h3 : A a (A b g) = fun m => -A b (A a g) m := by funext m; rw [A_A_anti]
  rw [h3]
  have h4 : R i (fun m => -A b (A a g) m) = fun m => -R i (A b (A a g)) m := by funext m; rw [R_neg]
  rw [h4, R_neg, neg_neg]

/-- `c†_p c_q c†_r c_s - δ_qr c†_p c_s = c†_p c†_r c_s c_q`. -/
theorem T_T_normal (p q r s : ι) (g : Occ ι → K) (n : Occ ι) :
    T p q (T r s g) n - (if q = r then T p s g n else 0) = R p (R r (A s (A q g))) n := by
  rw [T_eq, T_eq_fun r s]
  have hq : R r (A s (A q g)) = fun m => -R r (A q (A s g)) m := by
    funext m
    have : A s (A q g) = fun m => -A q (A s g) m := by funext m; rw [A_A_anti]
    rw [this, R_neg]
  by_cases h : q = r
  · subst h
    rw [if_pos rfl, T_eq, hq, R_neg, R_apply, R_apply, R_apply]
    by_cases hp : n p = true
    · simp only [hp, if_true]
      rw [A_R_self, R_A_self]
      by_cases hq' : Function.update n p false q = true <;> simp [hq']
    · simp [hp]
  · rw [if_neg h, sub_zero, hq]
    congr 1
    funext m
    rw [R_A_anti (Ne.symm h), neg_neg]

end

/-! ## Rows of the molecular Hamiltonian -/

section
variable {L : ℕ} {K : Type} [CommRing K]

/-- The row of `2H` as a functional. -/
def hTwice (h : Fin L → Fin L → K) (eri : Fin L → Fin L → Fin L → Fin L → K) (g : Occ (Mode L) → K) (n : Occ (Mode L)) : K :=
  (∑ p, ∑ q, (2 * h p q) * ∑ σ : Bool, T (mode σ p) (mode σ q) g n)
  + ∑ p, ∑ q, ∑ r, ∑ s, eri p q r s * ((∑ σ : Bool, ∑ τ : Bool, T (mode σ p) (mode σ q) (T (mode τ r) (mode τ s) g) n) -
      if q = r then ∑ σ : Bool, T (mode σ p) (mode σ s) g n else 0)

theorem toK_sum {α β γ : Type} (t : Finset γ) (M : γ → Matrix α β ℤ) (i : α) (j : β) :
    toK K (∑ k ∈ t, M k) i j = ∑ k ∈ t, toK K (M k) i j := by
  unfold toK
  rw [Matrix.map_apply, Matrix.sum_apply]
  push_cast
  rfl

theorem toK_sub {α β : Type} (M N : Matrix α β ℤ) (i : α) (j : β) : toK K (M - N) i j = toK K M i j - toK K N i j := by
  unfold toK
  rw [Matrix.map_apply, Matrix.sub_apply]
  push_cast
  rfl

theorem exc_apply (p q : Fin L) (n n' : Occ (Mode L)) :
    toK K (exc p q) n n' = ∑ σ : Bool, T (mode σ p) (mode σ q) (fun m => if m = n' then 1 else 0) n := by
  unfold exc
  rw [toK_sum]
  apply Finset.sum_congr rfl
  intro σ _
  have := T_row (K := K) (mode σ p) (mode σ q) 1 n n'
  rw [Matrix.mul_one] at this
  rw [this]
  congr 1
  funext m
  unfold toK
  rw [Matrix.map_apply, Matrix.one_apply]
  by_cases h : m = n' <;> simp [h]

theorem exc_exc_apply (p q r s : Fin L) (n n' : Occ (Mode L)) :
    toK K (exc p q * exc r s) n n' = ∑ σ : Bool, ∑ τ : Bool,
      T (mode σ p) (mode σ q) (T (mode τ r) (mode τ s) (fun m => if m = n' then 1 else 0)) n := by
  rw [exc, Finset.sum_mul, toK_sum]
  apply Finset.sum_congr rfl
  intro σ _
  rw [T_row]
  have : (fun m => toK K (exc r s) m n') = fun m => ∑ τ ∈ Finset.univ, (1 : K) * T (mode τ r) (mode τ s) (fun m => if m = n' then 1 else 0) m := by
    funext m
    rw [exc_apply]
    simp
  rw [this, T_sum]
  simp

theorem abInitioTwice_apply (h : Fin L → Fin L → K) (eri : Fin L → Fin L → Fin L → Fin L → K) (n n' : Occ (Mode L)) :
    abInitioTwice h eri n n' = hTwice h eri (fun m => if m = n' then 1 else 0) n := by
  unfold abInitioTwice hTwice
  rw [Matrix.add_apply]
  congr 1
  · rw [Matrix.sum_apply]
    apply Finset.sum_congr rfl; intro p _
    rw [Matrix.sum_apply]
    apply Finset.sum_congr rfl; intro q _
    rw [Matrix.smul_apply, smul_eq_mul, exc_apply]
  · rw [Matrix.sum_apply]
    apply Finset.sum_congr rfl; intro p _
    rw [Matrix.sum_apply]
    apply Finset.sum_congr rfl; intro q _
    rw [Matrix.sum_apply]
    apply Finset.sum_congr rfl; intro r _
    rw [Matrix.sum_apply]
    apply Finset.sum_congr rfl; intro s _
    rw [Matrix.smul_apply, smul_eq_mul, toK_sub, exc_exc_apply]
    congr 2
    by_cases hqr : q = r
    · rw [if_pos hqr, if_pos hqr, exc_apply]
    · rw [if_neg hqr, if_neg hqr]; simp [toK]

/-- Occupied sites. -/
def occSet (σ : Bool) (n : Occ (Mode L)) : Finset (Fin L) := Finset.univ.filter fun i => n (mode σ i) = true

/-- Empty sites. -/
def emptySet (σ : Bool) (n : Occ (Mode L)) : Finset (Fin L) := Finset.univ.filter fun i => n (mode σ i) = false

theorem mem_occ {σ : Bool} {n : Occ (Mode L)} {i : Fin L} : i ∈ occSet σ n ↔ n (mode σ i) = true := by simp [occSet]
theorem mem_empty {σ : Bool} {n : Occ (Mode L)} {i : Fin L} : i ∈ emptySet σ n ↔ n (mode σ i) = false := by simp [emptySet]

theorem occ_ne_empty {σ : Bool} {n : Occ (Mode L)} {i a : Fin L} (hi : i ∈ occSet σ n) (ha : a ∈ emptySet σ n) : a ≠ i := by
  rintro rfl
  rw [mem_occ] at hi
  rw [mem_empty, hi] at ha
  cases ha

theorem mode_ne {σ : Bool} {i a : Fin L} (h : a ≠ i) : mode σ a ≠ mode σ i := fun hh => h (mode_inj.mp hh).2

/-- Sum over all hops of one spin. -/
theorem T_split (σ : Bool) (c : Fin L → Fin L → K) (g : Occ (Mode L) → K) (n : Occ (Mode L)) :
    ∑ p, ∑ q, c p q * T (mode σ p) (mode σ q) g n =
      (∑ p ∈ occSet σ n, c p p) * g n + ∑ p ∈ occSet σ n, ∑ q ∈ emptySet σ n, c p q * T (mode σ p) (mode σ q) g n := by
  have h0 : ∑ p, ∑ q, c p q * T (mode σ p) (mode σ q) g n =
      ∑ p ∈ occSet σ n, ∑ q, c p q * T (mode σ p) (mode σ q) g n := by
    symm
    apply Finset.sum_subset (Finset.subset_univ _)
    intro p _ hp
    rw [mem_occ, Bool.not_eq_true] at hp
    apply Finset.sum_eq_zero
    intro q _
    rw [T_unocc _ _ _ hp, mul_zero]
  rw [h0, Finset.sum_mul, ← Finset.sum_add_distrib]
  apply Finset.sum_congr rfl
  intro p hp
  have hp' := mem_occ.mp hp
  have h1 : ∑ q, c p q * T (mode σ p) (mode σ q) g n = ∑ q ∈ insert p (emptySet σ n), c p q * T (mode σ p) (mode σ q) g n := by
    symm
    apply Finset.sum_subset (Finset.subset_univ _)
    intro q _ hq
    rw [Finset.mem_insert, not_or, mem_empty, Bool.not_eq_false] at hq
    rw [T_occ (mode_ne hq.1) _ _ hq.2, mul_zero]
  rw [h1, Finset.sum_insert (by rw [mem_empty, hp']; simp), T_self, if_pos hp']

/-- Sum over all pairs of hops, the first of spin `σ`. -/
theorem T_T_split (σ τ : Bool) (e : Fin L → Fin L → Fin L → Fin L → K) (g : Occ (Mode L) → K) (n : Occ (Mode L)) :
    ∑ p, ∑ q, ∑ r, ∑ s, e p q r s * T (mode σ p) (mode σ q) (T (mode τ r) (mode τ s) g) n =
      (∑ p ∈ occSet σ n, ∑ r, ∑ s, e p p r s * T (mode τ r) (mode τ s) g n) +
      ∑ p ∈ occSet σ n, ∑ q ∈ emptySet σ n, ∑ r, ∑ s, e p q r s * T (mode σ p) (mode σ q) (T (mode τ r) (mode τ s) g) n := by
  have h0 : ∑ p, ∑ q, ∑ r, ∑ s, e p q r s * T (mode σ p) (mode σ q) (T (mode τ r) (mode τ s) g) n =
      ∑ p ∈ occSet σ n, ∑ q, ∑ r, ∑ s, e p q r s * T (mode σ p) (mode σ q) (T (mode τ r) (mode τ s) g) n := by
    symm
    apply Finset.sum_subset (Finset.subset_univ _)
    intro p _ hp
    rw [mem_occ, Bool.not_eq_true] at hp
    apply Finset.sum_eq_zero; intro q _
    apply Finset.sum_eq_zero; intro r _
    apply Finset.sum_eq_zero; intro s _
    rw [T_unocc _ _ _ hp, mul_zero]
  rw [h0, ← Finset.sum_add_distrib]
  apply Finset.sum_congr rfl
  intro p hp
  have hp' := mem_occ.mp hp
  have h1 : ∑ q, ∑ r, ∑ s, e p q r s * T (mode σ p) (mode σ q) (T (mode τ r) (mode τ s) g) n =
      ∑ q ∈ insert p (emptySet σ n), ∑ r, ∑ s, e p q r s * T (mode σ p) (mode σ q) (T (mode τ r) (mode τ s) g) n := by
    symm
    apply Finset.sum_subset (Finset.subset_univ _)
    intro q _ hq
    rw [Finset.mem_insert, not_or, mem_empty, Bool.not_eq_false] at hq
    apply Finset.sum_eq_zero; intro r _
    apply Finset.sum_eq_zero; intro s _
    rw [T_occ (mode_ne hq.1) _ _ hq.2, mul_zero]
  rw [h1, Finset.sum_insert (by rw [mem_empty, hp']; simp)]
  congr 1
  apply Finset.sum_congr rfl; intro r _
  apply Finset.sum_congr rfl; intro s _
  rw [T_self, if_pos hp']

theorem occ_mv {σ : Bool} {n : Occ (Mode L)} {i a : Fin L} (hi : i ∈ occSet σ n) (ha : a ∈ emptySet σ n) :
    occSet σ (mv (mode σ i) (mode σ a) n) = insert a ((occSet σ n).erase i) := by
  ext k
  rw [mem_occ, Finset.mem_insert, Finset.mem_erase, mem_occ]
  unfold mv
  by_cases hka : k = a
  · subst hka; simp
  · rw [Function.update_of_ne (mode_ne hka)]
    by_cases hki : k = i
    · subst hki; simp [hka]
    · rw [Function.update_of_ne (mode_ne hki)]; simp [hka, hki]

theorem empty_mv {σ : Bool} {n : Occ (Mode L)} {i a : Fin L} (hi : i ∈ occSet σ n) (ha : a ∈ emptySet σ n) :
    emptySet σ (mv (mode σ i) (mode σ a) n) = insert i ((emptySet σ n).erase a) := by
  have hai := occ_ne_empty hi ha
  ext k
  rw [mem_empty, Finset.mem_insert, Finset.mem_erase, mem_empty]
  unfold mv
  by_cases hka : k = a
  · subst hka; simp [hai]
  · rw [Function.update_of_ne (mode_ne hka)]
    by_cases hki : k = i
    · subst hki; simp
    · rw [Function.update_of_ne (mode_ne hki)]; simp [hka, hki]

theorem mode_ne_spin {σ τ : Bool} (h : τ ≠ σ) (i a : Fin L) : mode τ a ≠ mode σ i := fun hh => h (mode_inj.mp hh).1

theorem occ_mv_other {σ τ : Bool} (h : τ ≠ σ) (n : Occ (Mode L)) (i a : Fin L) :
    occSet τ (mv (mode σ i) (mode σ a) n) = occSet τ n := by
  ext k
  rw [mem_occ, mem_occ]
  unfold mv
  rw [Function.update_of_ne (mode_ne_spin h _ _), Function.update_of_ne (mode_ne_spin h _ _)]

theorem empty_mv_other {σ τ : Bool} (h : τ ≠ σ) (n : Occ (Mode L)) (i a : Fin L) :
    emptySet τ (mv (mode σ i) (mode σ a) n) = emptySet τ n := by
  ext k
  rw [mem_empty, mem_empty]
  unfold mv
  rw [Function.update_of_ne (mode_ne_spin h _ _), Function.update_of_ne (mode_ne_spin h _ _)]

/-- All second hops of the same spin after the hop `i → a`. -/
theorem second_same (σ : Bool) (c : Fin L → Fin L → K) (g : Occ (Mode L) → K) (n : Occ (Mode L)) {i a : Fin L}
    (hi : i ∈ occSet σ n) (ha : a ∈ emptySet σ n) :
    ∑ r, ∑ s, c r s * T (mode σ i) (mode σ a) (T (mode σ r) (mode σ s) g) n =
      (∑ k ∈ occSet σ n, c k k - c i i) * T (mode σ i) (mode σ a) g n
      + c a i * g n + ∑ s ∈ emptySet σ n, c a s * T (mode σ i) (mode σ s) g n
      - ∑ j ∈ (occSet σ n).erase i, c j i * T (mode σ j) (mode σ a) g n
      + ∑ j ∈ (occSet σ n).erase i, ∑ b ∈ (emptySet σ n).erase a, c j b * T (mode σ i) (mode σ a) (T (mode σ j) (mode σ b) g) n := by
  have hai := occ_ne_empty hi ha
  have hi' := mem_occ.mp hi
  have ha' := mem_empty.mp ha
  obtain ⟨s, hs⟩ := T_valid (K := K) n hi' ha'
  have hexp : ∑ r, ∑ s, c r s * T (mode σ i) (mode σ a) (T (mode σ r) (mode σ s) g) n =
      (∑ r ∈ insert a ((occSet σ n).erase i), c r r) * T (mode σ i) (mode σ a) g n +
      ∑ r ∈ insert a ((occSet σ n).erase i), ∑ q ∈ insert i ((emptySet σ n).erase a),
        c r q * T (mode σ i) (mode σ a) (T (mode σ r) (mode σ q) g) n := by
    simp only [hs]
    have := T_split σ c g (mv (mode σ i) (mode σ a) n)
    rw [occ_mv hi ha, empty_mv hi ha] at this
    have h2 : ∀ r q, c r q * ((s : K) * T (mode σ r) (mode σ q) g (mv (mode σ i) (mode σ a) n)) =
        (s : K) * (c r q * T (mode σ r) (mode σ q) g (mv (mode σ i) (mode σ a) n)) := fun r q => by ring
    simp only [h2, ← Finset.mul_sum]
    rw [this]
    ring
  have hnot : a ∉ (occSet σ n).erase i := by
    rw [Finset.mem_erase, mem_occ, ha']; simp
  have hnot2 : i ∉ (emptySet σ n).erase a := by
    rw [Finset.mem_erase, mem_empty, hi']; simp
  rw [hexp, Finset.sum_insert hnot, Finset.sum_insert hnot]
  have hA : ∑ q ∈ insert i ((emptySet σ n).erase a), c a q * T (mode σ i) (mode σ a) (T (mode σ a) (mode σ q) g) n =
      c a i * g n + (∑ q ∈ emptySet σ n, c a q * T (mode σ i) (mode σ q) g n - c a a * T (mode σ i) (mode σ a) g n) := by
    rw [Finset.sum_insert hnot2, T_T_through (mode_ne hai) _ _ _ ha', T_self, if_pos hi', ← Finset.sum_erase_eq_sub ha]
    congr 1
    apply Finset.sum_congr rfl
    intro q _
    rw [T_T_through (mode_ne hai) _ _ _ ha']
  have hB : ∀ j ∈ (occSet σ n).erase i, ∑ q ∈ insert i ((emptySet σ n).erase a), c j q * T (mode σ i) (mode σ a) (T (mode σ j) (mode σ q) g) n =
      -(c j i * T (mode σ j) (mode σ a) g n) +
        ∑ b ∈ (emptySet σ n).erase a, c j b * T (mode σ i) (mode σ a) (T (mode σ j) (mode σ b) g) n := by
    intro j hj
    rw [Finset.mem_erase] at hj
    rw [Finset.sum_insert hnot2, T_T_exchange (mode_ne hj.1) (mode_ne (occ_ne_empty hj.2 ha)) _ _ hi', mul_neg]
  rw [hA, Finset.sum_congr rfl hB, Finset.sum_add_distrib, Finset.sum_neg_distrib, Finset.sum_erase_eq_sub hi]
  ring

/-- All second hops of the other spin after the hop `i → a`. -/
theorem second_other {σ τ : Bool} (h : τ ≠ σ) (c : Fin L → Fin L → K) (g : Occ (Mode L) → K) (n : Occ (Mode L)) {i a : Fin L}
    (hi : i ∈ occSet σ n) (ha : a ∈ emptySet σ n) :
    ∑ r, ∑ s, c r s * T (mode σ i) (mode σ a) (T (mode τ r) (mode τ s) g) n =
      (∑ k ∈ occSet τ n, c k k) * T (mode σ i) (mode σ a) g n +
      ∑ j ∈ occSet τ n, ∑ b ∈ emptySet τ n, c j b * T (mode σ i) (mode σ a) (T (mode τ j) (mode τ b) g) n := by
  obtain ⟨s, hs⟩ := T_valid (K := K) n (mem_occ.mp hi) (mem_empty.mp ha)
  simp only [hs]
  have := T_split τ c g (mv (mode σ i) (mode σ a) n)
  rw [occ_mv_other h, empty_mv_other h] at this
  have h2 : ∀ r q, c r q * ((s : K) * T (mode τ r) (mode τ q) g (mv (mode σ i) (mode σ a) n)) =
      (s : K) * (c r q * T (mode τ r) (mode τ q) g (mv (mode σ i) (mode σ a) n)) := fun r q => by ring
  simp only [h2, ← Finset.mul_sum]
  rw [this]
  ring

/-- All pairs of hops of one spin. -/
theorem same_spin (σ : Bool) (e : Fin L → Fin L → Fin L → Fin L → K) (hsym : ∀ p q r s, e p q r s = e r s p q)
    (g : Occ (Mode L) → K) (n : Occ (Mode L)) :
    ∑ p, ∑ q, ∑ r, ∑ s, e p q r s * T (mode σ p) (mode σ q) (T (mode σ r) (mode σ s) g) n =
      (∑ i ∈ occSet σ n, ∑ j ∈ occSet σ n, e i i j j + ∑ i ∈ occSet σ n, ∑ a ∈ emptySet σ n, e i a a i) * g n +
      (∑ i ∈ occSet σ n, ∑ a ∈ emptySet σ n, (2 * ∑ k ∈ occSet σ n, e i a k k + ∑ k ∈ emptySet σ n, e i k k a
        - ∑ k ∈ occSet σ n, e k a i k) * T (mode σ i) (mode σ a) g n) +
      ∑ i ∈ occSet σ n, ∑ a ∈ emptySet σ n, ∑ j ∈ (occSet σ n).erase i, ∑ b ∈ (emptySet σ n).erase a,
        e i a j b * T (mode σ i) (mode σ a) (T (mode σ j) (mode σ b) g) n := by
  rw [T_T_split]
  have h1 : ∀ p ∈ occSet σ n, ∑ r, ∑ s, e p p r s * T (mode σ r) (mode σ s) g n =
      (∑ j ∈ occSet σ n, e p p j j) * g n + ∑ i ∈ occSet σ n, ∑ a ∈ emptySet σ n, e p p i a * T (mode σ i) (mode σ a) g n :=
    fun p _ => T_split σ (e p p) g n
  have h2 : ∀ i ∈ occSet σ n, ∀ a ∈ emptySet σ n, _ := fun i hi a ha => second_same σ (e i a) g n hi ha
  rw [Finset.sum_congr rfl h1, Finset.sum_congr rfl (fun i hi => Finset.sum_congr rfl (h2 i hi))]
  simp only [Finset.sum_add_distrib, Finset.sum_sub_distrib, add_mul, sub_mul, Finset.sum_mul]
  -- the four one-hop sums
  have e1 : ∑ p ∈ occSet σ n, ∑ i ∈ occSet σ n, ∑ a ∈ emptySet σ n, e p p i a * T (mode σ i) (mode σ a) g n =
      ∑ i ∈ occSet σ n, ∑ a ∈ emptySet σ n, ∑ k ∈ occSet σ n, e i a k k * T (mode σ i) (mode σ a) g n := by
    rw [Finset.sum_comm]
    apply Finset.sum_congr rfl; intro i _
    rw [Finset.sum_comm]
    apply Finset.sum_congr rfl; intro a _
    apply Finset.sum_congr rfl; intro k _
    rw [hsym]
  have e2 : ∑ i ∈ occSet σ n, ∑ a ∈ emptySet σ n, ∑ s ∈ emptySet σ n, e i a a s * T (mode σ i) (mode σ s) g n =
      ∑ i ∈ occSet σ n, ∑ a ∈ emptySet σ n, ∑ k ∈ emptySet σ n, e i k k a * T (mode σ i) (mode σ a) g n := by
    apply Finset.sum_congr rfl; intro i _
    rw [Finset.sum_comm]
  have e3 : ∑ i ∈ occSet σ n, ∑ a ∈ emptySet σ n, ∑ j ∈ (occSet σ n).erase i, e i a j i * T (mode σ j) (mode σ a) g n =
      ∑ i ∈ occSet σ n, ∑ a ∈ emptySet σ n, ∑ k ∈ occSet σ n, e k a i k * T (mode σ i) (mode σ a) g n -
      ∑ i ∈ occSet σ n, ∑ a ∈ emptySet σ n, e i a i i * T (mode σ i) (mode σ a) g n := by
    have : ∀ i ∈ occSet σ n, ∀ a, ∑ j ∈ (occSet σ n).erase i, e i a j i * T (mode σ j) (mode σ a) g n =
        ∑ j ∈ occSet σ n, e i a j i * T (mode σ j) (mode σ a) g n - e i a i i * T (mode σ i) (mode σ a) g n :=
      fun i hi a => Finset.sum_erase_eq_sub hi
    rw [Finset.sum_congr rfl fun i hi => Finset.sum_congr rfl fun a _ => this i hi a]
    simp only [Finset.sum_sub_distrib]
    congr 1
    rw [Finset.sum_comm, Finset.sum_comm (s := occSet σ n) (t := emptySet σ n)]
    apply Finset.sum_congr rfl; intro a _
    rw [Finset.sum_comm]
  rw [e1, e2, e3]
  have e4 : ∑ x ∈ occSet σ n, ∑ x_1 ∈ emptySet σ n, (2 * ∑ k ∈ occSet σ n, e x x_1 k k) * T (mode σ x) (mode σ x_1) g n =
      2 * ∑ i ∈ occSet σ n, ∑ a ∈ emptySet σ n, ∑ k ∈ occSet σ n, e i a k k * T (mode σ i) (mode σ a) g n := by
    rw [Finset.mul_sum]
    apply Finset.sum_congr rfl; intro i _
    rw [Finset.mul_sum]
    apply Finset.sum_congr rfl; intro a _
    rw [← Finset.sum_mul, mul_assoc]
  rw [e4]
  ring

/-- All pairs of hops of different spins. -/
theorem other_spin {σ τ : Bool} (h : τ ≠ σ) (e : Fin L → Fin L → Fin L → Fin L → K)
    (g : Occ (Mode L) → K) (n : Occ (Mode L)) :
    ∑ p, ∑ q, ∑ r, ∑ s, e p q r s * T (mode σ p) (mode σ q) (T (mode τ r) (mode τ s) g) n =
      (∑ i ∈ occSet σ n, ∑ j ∈ occSet τ n, e i i j j) * g n +
      (∑ j ∈ occSet τ n, ∑ b ∈ emptySet τ n, (∑ k ∈ occSet σ n, e k k j b) * T (mode τ j) (mode τ b) g n) +
      (∑ i ∈ occSet σ n, ∑ a ∈ emptySet σ n, (∑ k ∈ occSet τ n, e i a k k) * T (mode σ i) (mode σ a) g n) +
      ∑ i ∈ occSet σ n, ∑ a ∈ emptySet σ n, ∑ j ∈ occSet τ n, ∑ b ∈ emptySet τ n,
        e i a j b * T (mode σ i) (mode σ a) (T (mode τ j) (mode τ b) g) n := by
  rw [T_T_split]
  have h1 : ∀ p ∈ occSet σ n, ∑ r, ∑ s, e p p r s * T (mode τ r) (mode τ s) g n =
      (∑ j ∈ occSet τ n, e p p j j) * g n + ∑ i ∈ occSet τ n, ∑ a ∈ emptySet τ n, e p p i a * T (mode τ i) (mode τ a) g n :=
    fun p _ => T_split τ (e p p) g n
  have h2 : ∀ i ∈ occSet σ n, ∀ a ∈ emptySet σ n, _ := fun i hi a ha => second_other h (e i a) g n hi ha
  rw [Finset.sum_congr rfl h1, Finset.sum_congr rfl (fun i hi => Finset.sum_congr rfl (h2 i hi))]
  simp only [Finset.sum_add_distrib, Finset.sum_mul]
  have e1 : ∑ p ∈ occSet σ n, ∑ i ∈ occSet τ n, ∑ a ∈ emptySet τ n, e p p i a * T (mode τ i) (mode τ a) g n =
      ∑ i ∈ occSet τ n, ∑ a ∈ emptySet τ n, ∑ k ∈ occSet σ n, e k k i a * T (mode τ i) (mode τ a) g n := by
    rw [Finset.sum_comm]
    apply Finset.sum_congr rfl; intro i _
    rw [Finset.sum_comm]
  rw [e1]
  ring

/-- The row of `2H` by excitation, with `tt = 2t`. -/
theorem hTwice_eq (h : Fin L → Fin L → K) (e : Fin L → Fin L → Fin L → Fin L → K) (hsym : ∀ p q r s, e p q r s = e r s p q)
    (g : Occ (Mode L) → K) (n : Occ (Mode L)) :
    let tt : Fin L → Fin L → K := fun p q => 2 * h p q - ∑ r, e p r r q
    hTwice h e g n =
      ((∑ σ : Bool, ∑ i ∈ occSet σ n, tt i i) + 2 * (∑ i ∈ occSet false n, ∑ j ∈ occSet true n, e i i j j) +
        ∑ σ : Bool, (∑ i ∈ occSet σ n, ∑ j ∈ occSet σ n, e i i j j + ∑ i ∈ occSet σ n, ∑ a ∈ emptySet σ n, e i a a i)) * g n +
      (∑ σ : Bool, ∑ i ∈ occSet σ n, ∑ a ∈ emptySet σ n, (tt i a + 2 * (∑ k ∈ occSet σ n, e i a k k) + 2 * (∑ k ∈ occSet (!σ) n, e i a k k)
        + ∑ k ∈ emptySet σ n, e i k k a - ∑ k ∈ occSet σ n, e k a i k) * T (mode σ i) (mode σ a) g n) +
      (∑ σ : Bool, ∑ i ∈ occSet σ n, ∑ a ∈ emptySet σ n, ∑ j ∈ (occSet σ n).erase i, ∑ b ∈ (emptySet σ n).erase a,
        e i a j b * T (mode σ i) (mode σ a) (T (mode σ j) (mode σ b) g) n) +
      2 * ∑ i ∈ occSet false n, ∑ a ∈ emptySet false n, ∑ j ∈ occSet true n, ∑ b ∈ emptySet true n,
        e i a j b * T (mode false i) (mode false a) (T (mode true j) (mode true b) g) n := by
  intro tt
  have hd : ∑ p, ∑ q, ∑ r, ∑ s, e p q r s * (if q = r then ∑ σ : Bool, T (mode σ p) (mode σ s) g n else 0) =
      ∑ p, ∑ s, (∑ r, e p r r s) * ∑ σ : Bool, T (mode σ p) (mode σ s) g n := by
    apply Finset.sum_congr rfl; intro p _
    have : ∀ q, ∑ r, ∑ s, e p q r s * (if q = r then ∑ σ : Bool, T (mode σ p) (mode σ s) g n else 0) =
        ∑ s, e p q q s * ∑ σ : Bool, T (mode σ p) (mode σ s) g n := by
      intro q
      rw [Finset.sum_eq_single q]
      · simp
      · intro r _ hr; simp [Ne.symm hr]
      · simp
    simp only [this]
    rw [Finset.sum_comm]
    apply Finset.sum_congr rfl; intro s _
    rw [Finset.sum_mul]
  have h1 : hTwice h e g n = (∑ σ : Bool, ∑ p, ∑ q, tt p q * T (mode σ p) (mode σ q) g n) +
      ∑ σ : Bool, ∑ τ : Bool, ∑ p, ∑ q, ∑ r, ∑ s, e p q r s * T (mode σ p) (mode σ q) (T (mode τ r) (mode τ s) g) n := by
    unfold hTwice
    simp only [mul_sub, Finset.sum_sub_distrib]
    rw [hd]
    simp only [Fintype.sum_bool, mul_add, Finset.sum_add_distrib, tt, sub_mul, Finset.sum_sub_distrib]
    ring
  rw [h1]
  simp only [Fintype.sum_bool, T_split, same_spin _ e hsym, other_spin (show false ≠ true by decide), other_spin (show true ≠ false by decide)]
  have c1 : ∑ i ∈ occSet true n, ∑ j ∈ occSet false n, e i i j j = ∑ i ∈ occSet false n, ∑ j ∈ occSet true n, e i i j j := by
    rw [Finset.sum_comm]
    apply Finset.sum_congr rfl; intro i _
    apply Finset.sum_congr rfl; intro j _
    rw [hsym]
  have c2 : ∀ σ τ : Bool, ∑ j ∈ occSet τ n, ∑ b ∈ emptySet τ n, (∑ k ∈ occSet σ n, e k k j b) * T (mode τ j) (mode τ b) g n =
      ∑ i ∈ occSet τ n, ∑ a ∈ emptySet τ n, (∑ k ∈ occSet σ n, e i a k k) * T (mode τ i) (mode τ a) g n := by
    intro σ τ
    apply Finset.sum_congr rfl; intro i _
    apply Finset.sum_congr rfl; intro a _
    congr 1
    apply Finset.sum_congr rfl; intro k _
    rw [hsym]
  have c3 : ∑ i ∈ occSet true n, ∑ a ∈ emptySet true n, ∑ j ∈ occSet false n, ∑ b ∈ emptySet false n,
        e i a j b * T (mode true i) (mode true a) (T (mode false j) (mode false b) g) n =
      ∑ i ∈ occSet false n, ∑ a ∈ emptySet false n, ∑ j ∈ occSet true n, ∑ b ∈ emptySet true n,
        e i a j b * T (mode false i) (mode false a) (T (mode true j) (mode true b) g) n := by
    have : ∀ i a j b, e i a j b * T (mode true i) (mode true a) (T (mode false j) (mode false b) g) n =
        e j b i a * T (mode false j) (mode false b) (T (mode true i) (mode true a) g) n := by
      intro i a j b
      rw [hsym, T_T_comm (mode_ne_spin (by decide) _ _) (mode_ne_spin (by decide) _ _)]
    simp only [this]
    have sw : ∀ (F : Fin L → Fin L → Fin L → Fin L → K) (s1 s2 s3 s4 : Finset (Fin L)),
        ∑ i ∈ s1, ∑ a ∈ s2, ∑ j ∈ s3, ∑ b ∈ s4, F j b i a = ∑ j ∈ s3, ∑ b ∈ s4, ∑ i ∈ s1, ∑ a ∈ s2, F j b i a := by
      intro F s1 s2 s3 s4
      have : ∀ i ∈ s1, ∑ a ∈ s2, ∑ j ∈ s3, ∑ b ∈ s4, F j b i a = ∑ j ∈ s3, ∑ b ∈ s4, ∑ a ∈ s2, F j b i a := by
        intro i _
        rw [Finset.sum_comm]
        apply Finset.sum_congr rfl; intro j _
        rw [Finset.sum_comm]
      rw [Finset.sum_congr rfl this, Finset.sum_comm]
      apply Finset.sum_congr rfl; intro j _
      rw [Finset.sum_comm]
    exact sw (fun j b i a => e j b i a * T (mode false j) (mode false b) (T (mode true i) (mode true a) g) n) _ _ _ _
  rw [c1, c2 false true, c2 true false, c3]
  simp only [add_mul, sub_mul, Finset.sum_add_distrib, Finset.sum_sub_distrib, Bool.not_false, Bool.not_true]
  have d2 : ∀ (σ τ : Bool), ∑ i ∈ occSet σ n, ∑ a ∈ emptySet σ n, (2 * ∑ k ∈ occSet τ n, e i a k k) * T (mode σ i) (mode σ a) g n =
      2 * ∑ i ∈ occSet σ n, ∑ a ∈ emptySet σ n, (∑ k ∈ occSet τ n, e i a k k) * T (mode σ i) (mode σ a) g n := by
    intro σ τ
    rw [Finset.mul_sum]
    apply Finset.sum_congr rfl; intro i _
    rw [Finset.mul_sum]
    apply Finset.sum_congr rfl; intro a _
    rw [mul_assoc]
  simp only [d2]
  ring

end
end GPSKet.Spec
