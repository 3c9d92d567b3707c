import Verif.Model.Pruning
import Verif.Spec.Energy
import Verif.Lemmas.SpinAlg
import Verif.Props.RdmsScript
import Verif.Props.AbInitioSparse

/-!
# C130: removal of small integrals
-/

namespace GPSKet.Pruning

open Spec Rdms

variable {L : ℕ} {Cache : Type}

/-! ## The Hamiltonian as one sum -/

/-- The terms of the Hamiltonian: `E_pq` and `c†c†cc`. -/
abbrev Term (L : ℕ) := (Fin L × Fin L) ⊕ (Fin L × Fin L × Fin L × Fin L)

/-- The operator of a term. -/
def Term.op : Term L → Op L
  | .inl (p, q) => exc p q
  | .inr (p, q, r, s) => pairOp p q r s

/-- The coefficient of a term. -/
noncomputable def Term.coef (h : Fin L → Fin L → ℝ) (e : Fin L → Fin L → Fin L → Fin L → ℝ) : Term L → ℝ
  | .inl (p, q) => h p q
  | .inr (p, q, r, s) => 1 / 2 * e p q r s

theorem half_twice (h : Fin L → Fin L → ℝ) (e : Fin L → Fin L → Fin L → Fin L → ℝ) (n n' : Occ (Mode L)) :
    1 / 2 * abInitioTwice (fun p q => (h p q : ℂ)) (fun p q r s => (e p q r s : ℂ)) n n'
      = ∑ t : Term L, (t.coef h e : ℂ) * (t.op n n' : ℂ) := by
  unfold abInitioTwice
  rw [Fintype.sum_sum_type, Fintype.sum_prod_type, Fintype.sum_prod_type, Matrix.add_apply, mul_add]
  congr 1
  · simp only [Matrix.sum_apply, Matrix.smul_apply, toK, Matrix.map_apply, Finset.mul_sum, Term.coef, Term.op, smul_eq_mul]
    refine Finset.sum_congr rfl fun p _ => Finset.sum_congr rfl fun q _ => ?_
    ring
  · simp only [Fintype.sum_prod_type, Matrix.sum_apply, Matrix.smul_apply, ← pairOp_eq, toK, Matrix.map_apply, Finset.mul_sum, Term.coef, Term.op,
      smul_eq_mul]
    refine Finset.sum_congr rfl fun p _ => Finset.sum_congr rfl fun q _ => Finset.sum_congr rfl fun r _ => Finset.sum_congr rfl fun s _ => ?_
    push_cast; ring

theorem energy_eq (h : Fin L → Fin L → ℝ) (e : Fin L → Fin L → Fin L → Fin L → ℝ) (psi : Cfg L → ℂ) :
    energy h e psi = ∑ t : Term L, (t.coef h e : ℂ) * expect t.op psi := by
  unfold energy expect braket
  simp only [half_twice, ← mul_div_assoc]
  rw [← Finset.sum_div]
  congr 1
  simp only [Finset.mul_sum, Finset.sum_mul]
  rw [Finset.sum_comm' (t' := Finset.univ) (s' := fun _ => Finset.univ) (by simp)]
  refine Eq.trans ?_ (Finset.sum_comm)
  rw [Finset.sum_comm]
  refine Finset.sum_congr rfl fun x _ => ?_
  rw [Finset.sum_comm]
  refine Finset.sum_congr rfl fun t _ => Finset.sum_congr rfl fun x' _ => ?_
  ring

/-! ## The energy of the constructed Hamiltonian -/

theorem prune2_sym (t : ℝ) {e : Fin L → Fin L → Fin L → Fin L → ℝ} (he : ∀ p q r s, e p q r s = e r s p q) (p q r s : Fin L) :
    prune2 t e p q r s = prune2 t e r s p q := by
  unfold prune2
  rw [he p q r s]

theorem prune1_zero (h : Fin L → Fin L → ℝ) {t : ℝ} (ht : t ≤ 0) : prune1 t h = h := by
  funext p q
  exact if_neg (not_lt.mpr (ht.trans (abs_nonneg _)))

theorem prune2_zero (e : Fin L → Fin L → Fin L → Fin L → ℝ) {t : ℝ} (ht : t ≤ 0) : prune2 t e = e := by
  funext p q r s
  exact if_neg (not_lt.mpr (ht.trans (abs_nonneg _)))

/-- **C130**: with every threshold the local energy is that of the molecular Hamiltonian with the remaining integrals. -/
theorem C130_local (src : AmpSource L (Fin 4) Cache) (threshold : Option ℝ) (h : Fin L → Fin L → ℝ) (e : Fin L → Fin L → Fin L → Fin L → ℝ)
    (he : ∀ p q r s, e p q r s = e r s p q) (x : Cfg L) (hs : src.OkPaddedAt x) :
    scriptLocalEn src (numElec false x, numElec true x) threshold h e x =
      localEnergy (fun x' => 1 / 2 * abInitioTwice (fun p q => (prune1 (threshold.getD 0) h p q : ℂ))
        (fun p q r s => (prune2 (threshold.getD 0) e p q r s : ℂ)) (occOf x) (occOf x')) src.logAmp x := by
  have hd : abLocalEn src (numElec false x, numElec true x) (abT (fun p q => (h p q : ℂ)) fun p q r s => (e p q r s : ℂ))
      (fun p q r s => (e p q r s : ℂ)) x = localEnergy (fun x' => 1 / 2 * abInitioTwice (fun p q => (prune1 0 h p q : ℂ))
        (fun p q r s => (prune2 0 e p q r s : ℂ)) (occOf x) (occOf x')) src.logAmp x := by
    rw [prune1_zero h le_rfl, prune2_zero e le_rfl]
    exact C14_local_energy_operator src _ _ (fun p q r s => by rw [he]) x hs
  cases threshold with
  | none => exact hd
  | some t =>
    unfold scriptLocalEn
    by_cases ht : t = 0
    · subst ht
      simp only [ne_eq, not_true, if_false]
      exact hd
    · simp only [ne_eq, ht, not_false_eq_true, if_true]
      exact C16_local_energy_operator src _ _ (fun p q r s => by rw [prune2_sym t he]) x hs

theorem term_conserved (t : Term L) (s : Bool) : numTot s * t.op = t.op * numTot s := by
  rcases t with ⟨p, q⟩ | ⟨p, q, r, u⟩
  · exact numTot_exc s p q
  · change numTot s * pairOp p q r u = pairOp p q r u * numTot s
    rw [pairOp_eq, mul_sub, sub_mul, numTot_mul (numTot_exc s p q) (numTot_exc s r u)]
    congr 1
    by_cases h : q = r
    · simp only [if_pos h]; exact numTot_exc s p u
    · simp only [if_neg h]; rw [mul_zero, zero_mul]

/-- **C130**: averaged over `|ψ|²` it is the energy of the state in the Hamiltonian with the remaining integrals. -/
theorem C130_mean (src : AmpSource L (Fin 4) Cache) (n : ℕ × ℕ) (threshold : Option ℝ) (h : Fin L → Fin L → ℝ)
    (e : Fin L → Fin L → Fin L → Fin L → ℝ) (he : ∀ p q r s, e p q r s = e r s p q)
    (hs : ∀ x, (numElec false x, numElec true x) = n → src.OkPaddedAt x) :
    avg src.logAmp n (fun x => scriptLocalEn src n threshold h e x)
      = energy (prune1 (threshold.getD 0) h) (prune2 (threshold.getD 0) e) (sectorState src.logAmp n) := by
  have h1 : avg src.logAmp n (fun x => scriptLocalEn src n threshold h e x) = avg src.logAmp n (fun x =>
      ∑ t : Term L, (t.coef (prune1 (threshold.getD 0) h) (prune2 (threshold.getD 0) e) : ℂ) *
        localEnergy (fun x' => (t.op (occOf x) (occOf x') : ℂ)) src.logAmp x) := by
    refine avg_congr _ _ fun x hx => ?_
    have := C130_local src threshold h e he x (hs x hx)
    rw [hx] at this
    rw [this]
    unfold localEnergy
    simp only [half_twice, Finset.mul_sum, Finset.sum_mul]
    rw [Finset.sum_comm]
    refine Finset.sum_congr rfl fun t _ => Finset.sum_congr rfl fun x' _ => by ring
  rw [h1, energy_eq]
  have h2 : ∀ t : Term L, expect t.op (sectorState src.logAmp n)
      = avg src.logAmp n (fun x => localEnergy (fun x' => (t.op (occOf x) (occOf x') : ℂ)) src.logAmp x) :=
    fun t => (avg_local (term_conserved t) src.logAmp n).symm
  simp only [h2]
  unfold avg
  simp only [Finset.mul_sum]
  rw [Finset.sum_comm]
  refine Finset.sum_congr rfl fun t _ => Finset.sum_congr rfl fun x' _ => by ring

/-! ## How much the energy changes -/

/-- Rows and columns with sums of at most `c`. -/
def Bounded (c : ℕ) (A : Op L) : Prop := (∀ m, ∑ n, |A n m| ≤ (c : ℤ)) ∧ ∀ n, ∑ m, |A n m| ≤ (c : ℤ)

theorem Bounded.mul {a b : ℕ} {A B : Op L} (hA : Bounded a A) (hB : Bounded b B) : Bounded (a * b) (A * B) := by
  constructor
  · intro m
    calc ∑ n, |(A * B) n m| ≤ ∑ n, ∑ k, |A n k| * |B k m| := Finset.sum_le_sum fun n _ => by
          rw [Matrix.mul_apply]
          refine (Finset.abs_sum_le_sum_abs _ _).trans (le_of_eq (Finset.sum_congr rfl fun k _ => abs_mul _ _))
      _ = ∑ k, (∑ n, |A n k|) * |B k m| := by
          rw [Finset.sum_comm]
          exact Finset.sum_congr rfl fun k _ => (Finset.sum_mul _ _ _).symm
      _ ≤ ∑ k, (a : ℤ) * |B k m| := Finset.sum_le_sum fun k _ => mul_le_mul_of_nonneg_right (hA.1 k) (abs_nonneg _)
      _ ≤ ((a * b : ℕ) : ℤ) := by
          rw [← Finset.mul_sum]; push_cast
          exact mul_le_mul_of_nonneg_left (hB.1 m) (by positivity)
  · intro n
    calc ∑ m, |(A * B) n m| ≤ ∑ m, ∑ k, |A n k| * |B k m| := Finset.sum_le_sum fun m _ => by
          rw [Matrix.mul_apply]
          refine (Finset.abs_sum_le_sum_abs _ _).trans (le_of_eq (Finset.sum_congr rfl fun k _ => abs_mul _ _))
      _ = ∑ k, |A n k| * ∑ m, |B k m| := by
          rw [Finset.sum_comm]
          exact Finset.sum_congr rfl fun k _ => (Finset.mul_sum _ _ _).symm
      _ ≤ ∑ k, |A n k| * (b : ℤ) := Finset.sum_le_sum fun k _ => mul_le_mul_of_nonneg_left (hB.2 k) (abs_nonneg _)
      _ ≤ ((a * b : ℕ) : ℤ) := by
          rw [← Finset.sum_mul]; push_cast
          exact mul_le_mul_of_nonneg_right (hA.2 n) (by positivity)

theorem Bounded.sum {ι : Type} (t : Finset ι) {c : ℕ} {A : ι → Op L} (h : ∀ i, Bounded c (A i)) : Bounded (t.card * c) (∑ i ∈ t, A i) := by
  constructor
  · intro m
    calc ∑ n, |(∑ i ∈ t, A i) n m| ≤ ∑ n, ∑ i ∈ t, |A i n m| := Finset.sum_le_sum fun n _ => by
          rw [Matrix.sum_apply]; exact Finset.abs_sum_le_sum_abs _ _
      _ = ∑ i ∈ t, ∑ n, |A i n m| := Finset.sum_comm
      _ ≤ ∑ i ∈ t, (c : ℤ) := Finset.sum_le_sum fun i _ => (h i).1 m
      _ = _ := by simp
  · intro n
    calc ∑ m, |(∑ i ∈ t, A i) n m| ≤ ∑ m, ∑ i ∈ t, |A i n m| := Finset.sum_le_sum fun m _ => by
          rw [Matrix.sum_apply]; exact Finset.abs_sum_le_sum_abs _ _
      _ = ∑ i ∈ t, ∑ m, |A i n m| := Finset.sum_comm
      _ ≤ ∑ i ∈ t, (c : ℤ) := Finset.sum_le_sum fun i _ => (h i).2 n
      _ = _ := by simp

theorem smap_column (f : SMap (Mode L)) (hf : ∀ n s m, f n = some (s, m) → |s| ≤ 1) (m : Occ (Mode L)) : ∑ n, |f.mat n m| ≤ (1 : ℤ) := by
  unfold SMap.mat
  rcases h : f m with _ | ⟨s, k⟩
  · simp
  · rw [Finset.sum_eq_single k]
    · simpa using hf m s k h
    · intro b _ hb
      simp [hb]
    · simp

theorem abs_jwSign (p : Mode L) (n : Occ (Mode L)) : |jwSign p n| ≤ 1 := by
  unfold jwSign
  rw [abs_pow]; simp

theorem bounded_ann (p : Mode L) : Bounded 1 (ann p) ∧ Bounded 1 (cre p) := by
  have h1 : ∀ m, ∑ n, |(ann p : Op L) n m| ≤ (1 : ℤ) := by
    intro m
    rw [ann_eq]
    refine smap_column _ (fun n s k h => ?_) m
    unfold annS at h
    split_ifs at h
    cases h
    exact abs_jwSign p n
  have h2 : ∀ m, ∑ n, |(cre p : Op L) n m| ≤ (1 : ℤ) := by
    intro m
    rw [cre_eq]
    refine smap_column _ (fun n s k h => ?_) m
    unfold creS at h
    split_ifs at h
    cases h
    exact abs_jwSign p n
  exact ⟨⟨h1, fun n => h2 n⟩, ⟨h2, fun n => h1 n⟩⟩

theorem bounded_op (t : Term L) : Bounded (match t with | .inl _ => 2 | .inr _ => 4) t.op := by
  rcases t with ⟨p, q⟩ | ⟨p, q, r, s⟩
  · have := Bounded.sum (L := L) Finset.univ fun σ : Bool => (bounded_ann (mode σ p)).2.mul (bounded_ann (mode σ q)).1
    simpa [Term.op, exc] using this
  · have := Bounded.sum (L := L) Finset.univ fun σ : Bool => Bounded.sum Finset.univ fun τ : Bool =>
      (((bounded_ann (mode σ p)).2.mul (bounded_ann (mode τ r)).2).mul (bounded_ann (mode τ s)).1).mul (bounded_ann (mode σ q)).1
    simpa [Term.op, pairOp] using this

theorem normSq_eq (psi : Cfg L → ℂ) : normSq psi = ((∑ x, ‖psi x‖ ^ 2 : ℝ) : ℂ) := by
  unfold normSq
  push_cast
  refine Finset.sum_congr rfl fun x _ => ?_
  have := Complex.conj_mul' (psi x)
  simpa using this

/-- an operator with row and column sums of at most `c` has expectation values of at most `c` -/
theorem expect_le {c : ℕ} {A : Op L} (hA : Bounded c A) (psi : Cfg L → ℂ) : ‖expect A psi‖ ≤ c := by
  have hrow : ∀ x : Cfg L, ∑ x' : Cfg L, |(A (occOf x) (occOf x') : ℝ)| ≤ c := by
    intro x
    rw [occOf_bijective.sum_comp (fun m => |(A (occOf x) m : ℝ)|)]
    exact_mod_cast hA.2 (occOf x)
  have hcol : ∀ x' : Cfg L, ∑ x : Cfg L, |(A (occOf x) (occOf x') : ℝ)| ≤ c := by
    intro x'
    rw [occOf_bijective.sum_comp (fun m => |(A m (occOf x') : ℝ)|)]
    exact_mod_cast hA.1 (occOf x')
  set N : ℝ := ∑ x, ‖psi x‖ ^ 2 with hN
  have hb : ‖braket A psi‖ ≤ c * N := by
    calc ‖braket A psi‖ ≤ ∑ x, ∑ x', ‖psi x‖ * |(A (occOf x) (occOf x') : ℝ)| * ‖psi x'‖ := by
          unfold braket
          refine (norm_sum_le _ _).trans (Finset.sum_le_sum fun x _ => (norm_sum_le _ _).trans (Finset.sum_le_sum fun x' _ => le_of_eq ?_))
          rw [norm_mul, norm_mul, norm_star]
          congr 2
          rw [← Complex.ofReal_intCast, Complex.norm_real, Real.norm_eq_abs]
      _ ≤ ∑ x, ∑ x', (1 / 2 * ‖psi x‖ ^ 2 * |(A (occOf x) (occOf x') : ℝ)| + 1 / 2 * ‖psi x'‖ ^ 2 * |(A (occOf x) (occOf x') : ℝ)|) :=
          Finset.sum_le_sum fun x _ => Finset.sum_le_sum fun x' _ => by
            have h0 := abs_nonneg (A (occOf x) (occOf x') : ℝ)
            nlinarith [sq_nonneg (‖psi x‖ - ‖psi x'‖)]
      _ = (∑ x, 1 / 2 * ‖psi x‖ ^ 2 * ∑ x', |(A (occOf x) (occOf x') : ℝ)|)
            + ∑ x', 1 / 2 * ‖psi x'‖ ^ 2 * ∑ x, |(A (occOf x) (occOf x') : ℝ)| := by
          simp only [Finset.sum_add_distrib, Finset.mul_sum]
          congr 1
          exact Finset.sum_comm
      _ ≤ (∑ x, 1 / 2 * ‖psi x‖ ^ 2 * (c : ℝ)) + ∑ x', 1 / 2 * ‖psi x'‖ ^ 2 * (c : ℝ) := by
          refine add_le_add (Finset.sum_le_sum fun x _ => ?_) (Finset.sum_le_sum fun x _ => ?_)
          · exact mul_le_mul_of_nonneg_left (hrow x) (by positivity)
          · exact mul_le_mul_of_nonneg_left (hcol x) (by positivity)
      _ = c * N := by
          rw [← Finset.sum_add_distrib, hN, Finset.mul_sum]
          exact Finset.sum_congr rfl fun x _ => by ring
  unfold expect
  rw [normSq_eq, ← hN, norm_div, Complex.norm_real, Real.norm_eq_abs]
  have hN0 : 0 ≤ N := Finset.sum_nonneg fun x _ => by positivity
  rw [abs_of_nonneg hN0]
  rcases hN0.eq_or_lt with h | h
  · rw [← h, div_zero]; positivity
  · rwa [div_le_iff₀ h]

/-- **C130**: removing integrals below the threshold `t` changes the energy of no state by more than `t (2 L² + 2 L⁴)`, where `L` is the
number of orbitals. -/
theorem C130_shift (t : ℝ) (ht : 0 ≤ t) (h : Fin L → Fin L → ℝ) (e : Fin L → Fin L → Fin L → Fin L → ℝ) (psi : Cfg L → ℂ) :
    ‖energy (prune1 t h) (prune2 t e) psi - energy h e psi‖ ≤ t * (2 * L ^ 2 + 2 * L ^ 4) := by
  rw [energy_eq, energy_eq, ← Finset.sum_sub_distrib]
  have hp : ∀ v : ℝ, |(if |v| < t then 0 else v) - v| ≤ t := by
    intro v
    split_ifs with hv
    · rw [zero_sub, abs_neg]; exact hv.le
    · rw [sub_self, abs_zero]; exact ht
  have key : ∀ u : Term L, ‖(u.coef (prune1 t h) (prune2 t e) : ℂ) * expect u.op psi - (u.coef h e : ℂ) * expect u.op psi‖ ≤ t * 2 := by
    intro u
    rw [← sub_mul, norm_mul, ← Complex.ofReal_sub, Complex.norm_real, Real.norm_eq_abs]
    rcases u with ⟨p, q⟩ | ⟨p, q, r, s⟩
    · exact mul_le_mul (hp _) (by simpa using expect_le (bounded_op (L := L) (.inl (p, q))) psi) (norm_nonneg _) ht
    · have h4 : ‖expect (Term.op (.inr (p, q, r, s) : Term L)) psi‖ ≤ 4 := by
        simpa using expect_le (bounded_op (L := L) (.inr (p, q, r, s))) psi
      have hc : |(Term.coef (prune1 t h) (prune2 t e) (.inr (p, q, r, s)) - Term.coef h e (.inr (p, q, r, s)) : ℝ)| ≤ 1 / 2 * t := by
        change |1 / 2 * prune2 t e p q r s - 1 / 2 * e p q r s| ≤ _
        rw [← mul_sub, abs_mul, abs_of_pos (by norm_num : (0 : ℝ) < 1 / 2)]
        exact mul_le_mul_of_nonneg_left (hp _) (by norm_num)
      calc _ ≤ 1 / 2 * t * 4 := mul_le_mul hc h4 (norm_nonneg _) (by positivity)
        _ = t * 2 := by ring
  refine (norm_sum_le _ _).trans ((Finset.sum_le_sum fun u _ => key u).trans (le_of_eq ?_))
  rw [Finset.sum_const, Finset.card_univ, Fintype.card_sum, Fintype.card_prod, Fintype.card_prod, Fintype.card_prod, Fintype.card_prod,
    Fintype.card_fin, nsmul_eq_mul]
  push_cast; ring

/-- **C130**: a threshold that is zero, negative or absent changes nothing. -/
theorem C130_zero (t : ℝ) (ht : t ≤ 0) (h : Fin L → Fin L → ℝ) (e : Fin L → Fin L → Fin L → Fin L → ℝ) :
    prune1 t h = h ∧ prune2 t e = e := ⟨prune1_zero h ht, prune2_zero e ht⟩

/-- **C130**: the matrix stays symmetric, so that energies stay real. -/
theorem C130_real (t : ℝ) (h : Fin L → Fin L → ℝ) (e : Fin L → Fin L → Fin L → Fin L → ℝ) (hh : ∀ p q, h p q = h q p)
    (he : ∀ p q r s, e p q r s = e r s p q) (he' : ∀ p q r s, e p q r s = e q p s r) (psi : Cfg L → ℂ) :
    (energy (prune1 t h) (prune2 t e) psi).im = 0 := by
  have hs := abInitioTwice_transpose (fun p q => (prune1 t h p q : ℂ)) (fun p q r s => (prune2 t e p q r s : ℂ))
    (fun p q => by unfold prune1; rw [hh p q]) (fun p q r s => by rw [prune2_sym t he]) (fun p q r s => by unfold prune2; rw [he' p q r s])
  rw [← Complex.conj_eq_iff_im]
  unfold energy
  rw [map_div₀, normSq_eq, Complex.conj_ofReal]
  congr 1
  have hreal : ∀ n n', (starRingEnd ℂ) (1 / 2 * abInitioTwice (fun p q => (prune1 t h p q : ℂ)) (fun p q r s => (prune2 t e p q r s : ℂ)) n n')
      = 1 / 2 * abInitioTwice (fun p q => (prune1 t h p q : ℂ)) (fun p q r s => (prune2 t e p q r s : ℂ)) n' n := by
    intro n n'
    rw [show abInitioTwice (fun p q => (prune1 t h p q : ℂ)) (fun p q r s => (prune2 t e p q r s : ℂ)) n' n
      = abInitioTwice (fun p q => (prune1 t h p q : ℂ)) (fun p q r s => (prune2 t e p q r s : ℂ)) n n' from congrFun (congrFun hs n) n',
      half_twice]
    simp only [map_sum, map_mul, Complex.conj_ofReal, map_intCast]
  simp only [map_sum, map_mul (starRingEnd ℂ) (_ * _) (psi _), map_mul (starRingEnd ℂ) (star (psi _)), hreal]
  rw [Finset.sum_comm]
  refine Finset.sum_congr rfl fun x _ => Finset.sum_congr rfl fun x' _ => ?_
  rw [show (starRingEnd ℂ) (star (psi x')) = psi x' from Complex.conj_conj _]
  change _ * _ * star (psi x) = _
  ring

/-! ## The hypotheses are met -/

/-- Two orbitals with a Coulomb-like repulsion, and a threshold that removes one of the integrals and keeps others. -/
example : let h : Fin 2 → Fin 2 → ℝ := fun p q => if p = q then 1 else 1 / 10
    let e : Fin 2 → Fin 2 → Fin 2 → Fin 2 → ℝ := fun p q r s => if p = q ∧ r = s then 1 else 0
    (∀ p q, h p q = h q p) ∧ (∀ p q r s, e p q r s = e r s p q) ∧ (∀ p q r s, e p q r s = e q p s r) ∧
      prune1 (1 / 2) h 0 1 = 0 ∧ prune1 (1 / 2) h 0 0 = 1 ∧ prune2 (1 / 2) e = e := by
  refine ⟨fun p q => ?_, fun p q r s => ?_, fun p q r s => ?_, ?_, ?_, ?_⟩
  · simp only [eq_comm]
  · simp only [and_comm]
  · simp only [eq_comm]
  · simp only [prune1]
    norm_num
  · simp only [prune1]
    norm_num
  · funext p q r s
    simp only [prune2]
    by_cases h : p = q ∧ r = s
    · rw [if_pos h]; norm_num
    · rw [if_neg h]; norm_num

end GPSKet.Pruning
