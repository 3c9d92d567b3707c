import Verif.Model.ARSampler
import Verif.Model.AutoregFermion
import Verif.Model.AutoregPlaquette
import Verif.Model.AutoregFull
import Mathlib.Algebra.BigOperators.Field

/-! # Lemmas on autoregressive models -/

namespace GPSKet.AR
open Spec

variable {L D M : ℕ}

theorem bornWeight_eq (pow : ℝ) (l : LogAmp) : bornWeight pow l = weight pow l := by
  cases l with
  | none => rfl
  | some z =>
    simp only [bornWeight, weight]
    rw [Complex.norm_exp, ← Real.exp_mul, mul_comm]

theorem weight_nonneg (pow : ℝ) (l : LogAmp) : 0 ≤ weight pow l := by
  cases l with
  | none => exact le_refl _
  | some z => exact (Real.exp_pos _).le

theorem weight_pos_iff (pow : ℝ) (l : LogAmp) : 0 < weight pow l ↔ l.isSome := by
  cases l with
  | none => simp [weight]
  | some z => simp [weight, Real.exp_pos]

theorem weight_normalize {pow : ℝ} (hpow : pow ≠ 0) (lp : Fin D → LogAmp) (d : Fin D) :
    weight pow (normalizeLog pow lp d) = weight pow (lp d) / ∑ e, weight pow (lp e) := by
  unfold normalizeLog
  cases h : lp d with
  | none => simp [weight]
  | some z =>
    have hS : 0 < ∑ e, weight pow (lp e) :=
      Finset.sum_pos' (fun e _ => weight_nonneg _ _) ⟨d, Finset.mem_univ d, by rw [h]; exact Real.exp_pos _⟩
    simp only [Option.map_some, weight, Complex.sub_re, Complex.ofReal_re]
    rw [mul_sub, ← mul_assoc, mul_one_div_cancel hpow, one_mul, Real.exp_sub]
    congr 1
    exact Real.exp_log hS

theorem weight_pickSum (pow : ℝ) (lp : Fin L → Fin D → LogAmp) (x : Fin L → Fin D) :
    weight pow (pickSum lp x) = ∏ i, weight pow (lp i (x i)) := by
  unfold pickSum
  split_ifs with h
  · simp only [weight, Complex.re_sum, Finset.mul_sum, Real.exp_sum]
    apply Finset.prod_congr rfl
    intro i _
    have := h i
    cases hl : lp i (x i) with
    | none => rw [hl] at this; simp at this
    | some z => simp
  · push Not at h
    obtain ⟨i, hi⟩ := h
    symm
    apply Finset.prod_eq_zero (Finset.mem_univ i)
    cases hl : lp i (x i) with
    | none => rfl
    | some z => rw [hl] at hi; simp at hi

theorem weight_symmetrise {ι : Type} [Fintype ι] {pow : ℝ} (hpow : pow ≠ 0) (lp : ι → LogAmp) :
    weight pow (symmetrise pow lp) = (1 / (Fintype.card ι : ℝ)) * ∑ t, weight pow (lp t) := by
  unfold symmetrise
  have hs : 0 ≤ ∑ t, weight pow (lp t) * (1 / (Fintype.card ι : ℝ)) :=
    Finset.sum_nonneg fun t _ => mul_nonneg (weight_nonneg _ _) (by positivity)
  rw [mul_comm, Finset.sum_mul]
  dsimp only
  split_ifs with h
  · exact h.symm
  · simp only [weight]
    rw [← mul_assoc, mul_one_div_cancel hpow, one_mul]
    exact Real.exp_log (lt_of_le_of_ne hs (Ne.symm h))

theorem conditionals_eq (m : Machine L D M) (x : Fin L → Fin D) (i : Fin L) (d : Fin D) :
    m.conditionals x i d = weight m.fields.machine_pow (maybeNormalize m.fields (m.conditionalsLog x i) d) := rfl

theorem weight_logPsiOne (m : Machine L D M) (x : Fin L → Fin D) :
    weight m.fields.machine_pow (m.logPsiOne x) = chainLaw (fun i x d => m.conditionals x i d) x := by
  unfold Machine.logPsiOne chainLaw
  rw [weight_pickSum]
  rfl

/-! ## The spin counts -/

/-- Counts used at site `i`. -/
def spinsAt (f : Fields D M) (x : Fin L → Fin D) (i : Fin L) : Fin D → ℤ := fun d =>
  if f.constrained then ∑ j, if j < i then f.count_spins (x j) d else 0
  else if i.val > 0 then f.count_spins (x (prevSite i)) d else 0

/-- Counts carried into step `k`. -/
def storedSpins (f : Fields D M) (x : Fin L → Fin D) (k : ℕ) : Fin D → ℤ := fun d =>
  if f.constrained then ∑ j : Fin L, if j.val + 1 < k then f.count_spins (x j) d else 0 else 0

theorem prevSite_lt {i : Fin L} (h : 0 < i.val) : prevSite i < i := by
  unfold prevSite
  rw [Fin.lt_def]
  dsimp only
  rw [if_neg (by omega)]
  omega

theorem prevSite_val {i : Fin L} (h : 0 < i.val) : (prevSite i).val = i.val - 1 := by
  unfold prevSite
  dsimp only
  rw [if_neg (by omega)]

theorem bump_stored (f : Fields D M) (x : Fin L → Fin D) (i : Fin L) :
    bumpSpins f (storedSpins f x i) x i = spinsAt f x i := by
  funext d
  unfold bumpSpins storedSpins spinsAt
  by_cases hi : 0 < i.val
  · rw [if_pos hi]
    by_cases hc : f.constrained
    · rw [if_pos hc, if_pos hc]
      have hsplit : ∀ j : Fin L, (if j < i then f.count_spins (x j) d else 0) =
          (if j.val + 1 < i.val then f.count_spins (x j) d else 0) + if j = prevSite i then f.count_spins (x j) d else 0 := by
        intro j
        have hp := prevSite_val hi
        by_cases h1 : j = prevSite i
        · have h2 : j.val = i.val - 1 := by rw [h1, hp]
          rw [if_pos (by rw [Fin.lt_def]; omega), if_neg (by omega), if_pos h1, zero_add]
        · have h2 : j.val ≠ i.val - 1 := fun hh => h1 (Fin.ext (by rw [hp]; exact hh))
          rw [if_neg h1, add_zero]
          by_cases h3 : j < i
          · rw [if_pos h3, if_pos (by rw [Fin.lt_def] at h3; omega)]
          · rw [if_neg h3, if_neg (by rw [Fin.lt_def] at h3; omega)]
      rw [Finset.sum_congr rfl fun j _ => hsplit j, Finset.sum_add_distrib]
      simp
    · rw [if_neg hc, if_neg hc, if_pos hi, zero_add]
  · rw [if_neg hi]
    by_cases hc : f.constrained
    · rw [if_pos hc, if_pos hc]
      apply Finset.sum_congr rfl
      intro j _
      rw [if_neg (by omega), if_neg (by rw [Fin.lt_def]; omega)]
    · rw [if_neg hc, if_neg hc, if_neg hi]

theorem stored_succ (f : Fields D M) (x : Fin L → Fin D) (i : Fin L) :
    (if f.constrained then spinsAt f x i else fun _ => 0) = storedSpins f x (i.val + 1) := by
  funext d
  unfold storedSpins spinsAt
  by_cases hc : f.constrained
  · rw [if_pos hc]
    rw [if_pos hc, if_pos hc]
    apply Finset.sum_congr rfl
    intro j _
    congr 1
    rw [Fin.lt_def]
    exact propext (by omega)
  · rw [if_neg hc]
    rw [if_neg hc]

theorem stored_zero (f : Fields D M) (x : Fin L → Fin D) : storedSpins f x 0 = fun _ => 0 := by
  funext d
  unfold storedSpins
  simp

theorem bump_congr (f : Fields D M) (n : Fin D → ℤ) (x y : Fin L → Fin D) (i : Fin L) (h : ∀ j, j < i → x j = y j) :
    bumpSpins f n x i = bumpSpins f n y i := by
  unfold bumpSpins
  by_cases hi : i.val > 0
  · rw [if_pos hi, if_pos hi, h _ (prevSite_lt hi)]
  · rw [if_neg hi, if_neg hi]

theorem spinsAt_causal (f : Fields D M) : Causal (L := L) (fun i x => spinsAt f x i) := by
  intro i x y h
  funext d
  unfold spinsAt
  by_cases hc : f.constrained
  · dsimp only
    rw [if_pos hc, if_pos hc]
    apply Finset.sum_congr rfl
    intro j _
    by_cases hj : j < i
    · rw [if_pos hj, if_pos hj, h j hj]
    · rw [if_neg hj, if_neg hj]
  · dsimp only
    rw [if_neg hc, if_neg hc]
    by_cases hi : i.val > 0
    · rw [if_pos hi, if_pos hi, h _ (prevSite_lt hi)]
    · rw [if_neg hi, if_neg hi]

/-- A machine computes the values `val`, masked according to the counts; both in one pass and through its cache. -/
structure Good (m : Machine L D M) (val : Fin L → (Fin L → Fin D) → Fin D → ℂ) : Prop where
  log : ∀ x i, m.conditionalsLog x i = mask m.fields (spinsAt m.fields x i) i (val i x)
  causal : Causal val
  cached : ∀ (x : Fin L → Fin D) (bufs : ℕ → Fin L → Fin D), (∀ (i j : Fin L), j < i → bufs i j = x j) →
    ∀ i, scanOut (fun c i => m.conditional c (bufs i) i) m.initCache i =
      mask m.fields (spinsAt m.fields x i) i (val i x)

theorem scanState_succ {S O : Type} {n : ℕ} (step : S → Fin n → S × O) (init : S) (i : Fin n) :
    scanState step init (i.val + 1) = (step (scanState step init i) i).1 := by
  simp [scanState, i.isLt]

/-! ### Machines whose carry is only the counts (`ARqGPSFull`, `ARPlaquetteqGPS`) -/

/-- One pass. -/
theorem stateless_log (f : Fields D M) (val : Fin L → (Fin L → Fin D) → Fin D → ℂ) (x : Fin L → Fin D) (i : Fin L) :
    scanOut (fun (n : Fin D → ℤ) (index : Fin L) =>
        ((if f.constrained then bumpSpins f n x index else fun _ => 0), mask f (bumpSpins f n x index) index (val index x)))
      (fun _ => 0) i = mask f (spinsAt f x i) i (val i x) := by
  have H : ∀ k, k ≤ L → scanState (fun (n : Fin D → ℤ) (index : Fin L) =>
        ((if f.constrained then bumpSpins f n x index else fun _ => 0), mask f (bumpSpins f n x index) index (val index x)))
      (fun _ => 0) k = storedSpins f x k := by
    intro k
    induction k with
    | zero => intro _; rw [stored_zero]; rfl
    | succ k ih =>
      intro hk
      have := scanState_succ (fun (n : Fin D → ℤ) (index : Fin L) =>
        ((if f.constrained then bumpSpins f n x index else fun _ => 0), mask f (bumpSpins f n x index) index (val index x)))
        (fun _ => 0) ⟨k, hk⟩
      rw [this, ih (by omega)]
      dsimp only
      rw [bump_stored f x ⟨k, hk⟩, stored_succ f x ⟨k, hk⟩]
  unfold scanOut
  rw [H i (by omega)]
  dsimp only
  rw [bump_stored]

/-- Through the cache. -/
theorem stateless_cached (f : Fields D M) (val : Fin L → (Fin L → Fin D) → Fin D → ℂ) (hval : Causal val)
    (x : Fin L → Fin D) (bufs : ℕ → Fin L → Fin D) (hb : ∀ (i j : Fin L), j < i → bufs i j = x j) (i : Fin L) :
    scanOut (fun (c : Option (Fin D → ℤ)) (index : Fin L) =>
        let n := match c with
          | some n => n
          | none => fun _ => 0
        ((match c with
          | some _ => some (bumpSpins f n (bufs index) index)
          | none => none), mask f (bumpSpins f n (bufs index) index) index (val index (bufs index))))
      (if f.constrained then some fun _ => 0 else none) i = mask f (spinsAt f x i) i (val i x) := by
  set step := (fun (c : Option (Fin D → ℤ)) (index : Fin L) =>
        let n := match c with
          | some n => n
          | none => fun _ => 0
        ((match c with
          | some _ => some (bumpSpins f n (bufs index) index)
          | none => none), mask f (bumpSpins f n (bufs index) index) index (val index (bufs index)))) with hstep
  have hbump : ∀ (n : Fin D → ℤ) (i : Fin L), bumpSpins f n (bufs i) i = bumpSpins f n x i :=
    fun n i => bump_congr f n _ _ i (hb i)
  have hv : ∀ i : Fin L, val i (bufs i) = val i x := fun i => hval i _ _ (hb i)
  have H : ∀ k, k ≤ L → scanState step (if f.constrained then some fun _ => 0 else none) k =
      if f.constrained then some (storedSpins f x k) else none := by
    intro k
    induction k with
    | zero => intro _; rw [stored_zero]; rfl
    | succ k ih =>
      intro hk
      rw [scanState_succ step _ ⟨k, hk⟩, ih (by omega), hstep]
      by_cases hc : f.constrained
      · simp only [hc, if_true]
        rw [hbump _ ⟨k, hk⟩, bump_stored f x ⟨k, hk⟩]
        have := stored_succ f x ⟨k, hk⟩
        rw [if_pos hc] at this
        rw [this]
      · simp only [hc]
        rfl
  unfold scanOut
  rw [H i (by omega), hstep]
  by_cases hc : f.constrained
  · simp only [hc, if_true]
    rw [hbump, bump_stored, hv]
  · have h0 : storedSpins f x i = fun _ => 0 := by
      funext d; unfold storedSpins; rw [if_neg hc]
    simp only [hc]
    rw [← bump_stored, h0, ← hv i]
    exact congrArg (fun n => mask f n i (val i (bufs i))) (hbump _ i)

/-! ### Sums over configurations -/

/-- Every configuration is reached `card A` times when one coordinate is overwritten. -/
theorem sum_update {A : Type} [Fintype A] (k : Fin L) (g : (Fin L → A) → ℝ) :
    ∑ x : Fin L → A, ∑ d : A, g (Function.update x k d) = Fintype.card A * ∑ x : Fin L → A, g x := by
  classical
  let e : ((Fin L → A) × A) ≃ ((Fin L → A) × A) :=
    { toFun := fun p => (Function.update p.1 k p.2, p.1 k)
      invFun := fun p => (Function.update p.1 k p.2, p.1 k)
      left_inv := fun p => by simp
      right_inv := fun p => by simp }
  calc ∑ x : Fin L → A, ∑ d : A, g (Function.update x k d)
      = ∑ p : (Fin L → A) × A, g (e p).1 := by rw [Fintype.sum_prod_type]; rfl
    _ = ∑ p : (Fin L → A) × A, g p.1 := Equiv.sum_comp e fun p => g p.1
    _ = _ := by
      rw [Fintype.sum_prod_type, Finset.mul_sum]
      apply Finset.sum_congr rfl
      intro x _
      simp only [Finset.sum_const, Finset.card_univ, nsmul_eq_mul]

/-- Chain rule: causal conditionals that sum to one along every reachable prefix define a probability distribution. -/
theorem sum_chainLaw {A : Type} [Fintype A] [Nonempty A] (p : Fin L → (Fin L → A) → A → ℝ) (hc : Causal p)
    (hn : ∀ i x, (∀ j, j < i → p j x (x j) ≠ 0) → ∑ d, p i x d = 1) : ∑ x, chainLaw p x = 1 := by
  classical
  let S : ℕ → ℝ := fun k => ∑ x : Fin L → A, ∏ i : Fin L, if i.val < k then p i x (x i) else 1
  have hA : (Fintype.card A : ℝ) ≠ 0 := by exact_mod_cast Fintype.card_ne_zero
  have step : ∀ k, k < L → Fintype.card A * S (k + 1) = S k := by
    intro k hk
    let κ : Fin L := ⟨k, hk⟩
    have := sum_update κ fun x => ∏ i : Fin L, if i.val < k + 1 then p i x (x i) else 1
    change _ = _ * S (k + 1) at this
    rw [← this]
    apply Finset.sum_congr rfl
    intro x _
    have upd : ∀ d, (∏ i : Fin L, if i.val < k + 1 then p i (Function.update x κ d) (Function.update x κ d i) else 1) =
        p κ x d * ∏ i : Fin L, if i.val < k then p i x (x i) else 1 := by
      intro d
      have hx : ∀ i : Fin L, i.val ≤ k → p i (Function.update x κ d) = p i x := by
        intro i hi
        apply hc
        intro j hj
        rw [Function.update_of_ne]
        intro hjk
        rw [hjk, Fin.lt_def] at hj
        exact absurd hj (by change ¬ k < i.val; omega)
      rw [← Finset.mul_prod_erase Finset.univ _ (Finset.mem_univ κ),
        ← Finset.mul_prod_erase Finset.univ (fun i : Fin L => if i.val < k then p i x (x i) else 1) (Finset.mem_univ κ)]
      have h1 : κ.val < k + 1 := Nat.lt_succ_self k
      have h2 : ¬ κ.val < k := Nat.lt_irrefl k
      rw [if_pos h1, if_neg h2, one_mul, Function.update_self, hx κ (le_refl k)]
      congr 1
      apply Finset.prod_congr rfl
      intro i hi
      have hne : i ≠ κ := Finset.ne_of_mem_erase hi
      have hne' : i.val ≠ k := fun h => hne (Fin.ext h)
      by_cases hik : i.val < k
      · rw [if_pos (by omega), if_pos hik, hx i (by omega), Function.update_of_ne hne]
      · rw [if_neg (by omega), if_neg hik]
    rw [Finset.sum_congr rfl fun d _ => upd d, ← Finset.sum_mul]
    by_cases h0 : ∃ i : Fin L, i.val < k ∧ p i x (x i) = 0
    · obtain ⟨i, hi, hp⟩ := h0
      have : ∏ i : Fin L, (if i.val < k then p i x (x i) else 1) = 0 :=
        Finset.prod_eq_zero (Finset.mem_univ i) (by rw [if_pos hi, hp])
      rw [this, mul_zero]
    · push Not at h0
      rw [hn κ x (fun j hj => h0 j (by rw [Fin.lt_def] at hj; exact hj)), one_mul]
  have hS0 : S 0 = (Fintype.card A : ℝ) ^ L := by
    simp [S]
  have hk : ∀ k, k ≤ L → (Fintype.card A : ℝ) ^ k * S k = (Fintype.card A : ℝ) ^ L := by
    intro k
    induction k with
    | zero => intro _; rw [pow_zero, one_mul, hS0]
    | succ k ih =>
      intro hk
      rw [pow_succ, mul_assoc, step k (by omega)]
      exact ih (by omega)
  have hL := hk L (le_refl L)
  have : S L = 1 := by
    have h2 : (Fintype.card A : ℝ) ^ L ≠ 0 := pow_ne_zero _ hA
    exact mul_left_cancel₀ h2 (by rw [hL, mul_one])
  rw [← this]
  apply Finset.sum_congr rfl
  intro x _
  unfold chainLaw
  apply Finset.prod_congr rfl
  intro i _
  rw [if_pos i.isLt]

end GPSKet.AR
