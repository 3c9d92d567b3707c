import Verif.Spec.LatticeSymmetry
import Verif.Lemmas.ModePerm
import Verif.Lemmas.SpinAlg
import Verif.Props.Hubbard
import Verif.Props.J1J2
import Verif.Props.AbInitioSparse
import Mathlib.Analysis.SpecialFunctions.Trigonometric.Basic
import Mathlib.Logic.Equiv.Fin.Rotate
import Mathlib.Tactic.FinCases

/-! # Lattice symmetries (C156) -/

namespace GPSKet.LatticeSymmetry

open GPSKet GPSKet.Spec Matrix

variable {L : ℕ} {Cache : Type}

/-! ## Moving spin-orbitals -/

/-- the permutation of the spin-orbitals -/
def modePerm (g : Equiv.Perm (Fin L)) : Equiv.Perm (Mode L) where
  toFun m := mode (ofLex m).1 (g (ofLex m).2)
  invFun m := mode (ofLex m).1 (g.symm (ofLex m).2)
  left_inv m := by simp [mode]
  right_inv m := by simp [mode]

theorem modePerm_mode (g : Equiv.Perm (Fin L)) (s : Bool) (i : Fin L) : modePerm g (mode s i) = mode s (g i) := rfl

theorem occOf_move (g : Equiv.Perm (Fin L)) (x : Cfg L) : occOf (moveSites g x) = ModePerm.move (modePerm g) (occOf x) := rfl

theorem mode_lt (s s' : Bool) (i j : Fin L) : mode s i < mode s' j ↔ s < s' ∨ s = s' ∧ i < j := by
  exact Prod.Lex.lt_iff

theorem inv_occOf (g : Equiv.Perm (Fin L)) (x : Cfg L) : ModePerm.inv (modePerm g) (occOf x) = fermiSign g x := by
  unfold ModePerm.inv fermiSign
  have hm : ∀ f : Mode L → ℤ, ∏ m, f m = ∏ s : Bool, ∏ i, f (mode s i) := by
    intro f
    rw [← Finset.prod_product']
    exact (Equiv.prod_comp (toLex : Bool × Fin L ≃ Mode L) f).symm
  have hc : ∀ s : Bool, ((-1 : ℤ)) ^ (Finset.univ.filter fun p : Fin L × Fin L =>
      p.1 < p.2 ∧ hasSpin s (x p.1) = true ∧ hasSpin s (x p.2) = true ∧ g p.2 < g p.1).card =
      ∏ i, ∏ j, if i < j ∧ hasSpin s (x i) = true ∧ hasSpin s (x j) = true ∧ g j < g i then -1 else 1 := by
    intro s
    rw [← Finset.prod_product' Finset.univ Finset.univ
      (fun i j => if i < j ∧ hasSpin s (x i) = true ∧ hasSpin s (x j) = true ∧ g j < g i then (-1 : ℤ) else 1), Finset.univ_product_univ]
    rw [Finset.prod_ite, Finset.prod_const, Finset.prod_const_one, mul_one]
  have hp : ∀ (s s' : Bool) (i j : Fin L), (if mode s i < mode s' j ∧ occOf x (mode s i) = true ∧ occOf x (mode s' j) = true ∧
      modePerm g (mode s' j) < modePerm g (mode s i) then (-1 : ℤ) else 1) =
      if s = s' then (if i < j ∧ hasSpin s (x i) = true ∧ hasSpin s (x j) = true ∧ g j < g i then -1 else 1) else 1 := by
    intro s s' i j
    have ho : ∀ s i, occOf x (mode s i) = hasSpin s (x i) := fun _ _ => rfl
    simp only [modePerm_mode, mode_lt, ho]
    cases s <;> cases s' <;> simp
  simp only [hc, hm, hp]
  simp only [Fintype.prod_bool]
  simp

/-! ## Operators that commute with the permutation -/

section
variable {K : Type} [CommRing K]

/-- matrix elements of an operator that commutes with a permutation of the sites -/
theorem elem_move (g : Equiv.Perm (Fin L)) (H : Matrix (Occ (Mode L)) (Occ (Mode L)) K)
    (hc : toK K (ModePerm.W (modePerm g)) * H = H * toK K (ModePerm.W (modePerm g))) (x y : Cfg L) :
    H (occOf (moveSites g x)) (occOf (moveSites g y)) * (fermiSign g y : K) = (fermiSign g x : K) * H (occOf x) (occOf y) := by
  have h := congrFun (congrFun hc (occOf (moveSites g x))) (occOf y)
  rw [Matrix.mul_apply, Matrix.mul_apply] at h
  have hinj : ∀ n n', ModePerm.move (modePerm g) n = ModePerm.move (modePerm g) n' → n = n' := by
    intro n n' h
    funext p
    have := congrFun h (modePerm g p)
    simpa [ModePerm.move] using this
  rw [Finset.sum_eq_single (occOf x), Finset.sum_eq_single (occOf (moveSites g y))] at h
  · simp only [toK, Matrix.map_apply, ModePerm.W_apply, occOf_move, if_true, inv_occOf] at h
    rw [occOf_move, occOf_move]
    exact h.symm
  · intro n _ hn
    simp only [toK, Matrix.map_apply, ModePerm.W_apply]
    rw [if_neg, Int.cast_zero, mul_zero]
    rw [← occOf_move]; exact hn
  · simp
  · intro n _ hn
    simp only [toK, Matrix.map_apply, ModePerm.W_apply]
    rw [if_neg, Int.cast_zero, zero_mul]
    rw [occOf_move]
    exact fun h => hn (hinj _ _ h).symm
  · simp

theorem W_exc (g : Equiv.Perm (Fin L)) (p q : Fin L) :
    ModePerm.W (modePerm g) * exc p q = exc (g p) (g q) * ModePerm.W (modePerm g) := by
  unfold exc
  rw [Finset.mul_sum, Finset.sum_mul]
  exact Finset.sum_congr rfl fun s _ => ModePerm.W_bil (modePerm g) (mode s p) (mode s q)

theorem W_num (g : Equiv.Perm (Fin L)) (s : Bool) (i : Fin L) :
    ModePerm.W (modePerm g) * num (mode s i) = num (mode s (g i)) * ModePerm.W (modePerm g) :=
  ModePerm.W_bil (modePerm g) (mode s i) (mode s i)

theorem toK_mul (A B : Matrix (Occ (Mode L)) (Occ (Mode L)) ℤ) : toK K (A * B) = toK K A * toK K B := by
  unfold toK
  exact Matrix.map_mul (f := Int.castRingHom K)

/-- one-body operators -/
theorem commute_one (g : Equiv.Perm (Fin L)) (c : Fin L → Fin L → K) (hg : ∀ i j, c (g i) (g j) = c i j) :
    toK K (ModePerm.W (modePerm g)) * (∑ i, ∑ j, c i j • toK K (exc i j)) =
      (∑ i, ∑ j, c i j • toK K (exc i j)) * toK K (ModePerm.W (modePerm g)) := by
  rw [Finset.mul_sum, Finset.sum_mul, ← Equiv.sum_comp g (fun i => (∑ j, c i j • toK K (exc i j)) * _)]
  refine Finset.sum_congr rfl fun i _ => ?_
  rw [Finset.mul_sum, Finset.sum_mul, ← Equiv.sum_comp g (fun j => (c (g i) j • toK K (exc (g i) j)) * _)]
  refine Finset.sum_congr rfl fun j _ => ?_
  rw [hg, Matrix.mul_smul, Matrix.smul_mul, ← toK_mul, W_exc, toK_mul]

/-- the Hubbard Hamiltonian in terms of the total amplitudes -/
theorem hubbard_between (U : K) (edges : List ((Fin L × Fin L) × K)) :
    hubbard U edges = -(∑ i, ∑ j, edgeBetween edges i j • toK K (exc i j))
      + U • toK K (∑ i : Fin L, num (mode false i) * num (mode true i)) := by
  unfold hubbard
  congr 1
  unfold edgeBetween
  induction edges with
  | nil => simp
  | cons e es ih =>
    rw [List.map_cons, List.sum_cons, ih]
    simp only [List.map_cons, List.sum_cons, add_smul]
    have h1 : (∑ i, ∑ j, (if e.1 = (i, j) then e.2 else 0) • toK K (exc i j)) = e.2 • toK K (exc e.1.1 e.1.2) := by
      rw [Finset.sum_eq_single e.1.1, Finset.sum_eq_single e.1.2]
      · simp
      · intro j _ hj
        rw [if_neg, zero_smul]
        intro h; exact hj (by rw [h])
      · simp
      · intro i _ hi
        refine Finset.sum_eq_zero fun j _ => ?_
        rw [if_neg, zero_smul]
        intro h; exact hi (by rw [h])
      · simp
    have h2 : (∑ i, ∑ j, (if e.1 = (j, i) then e.2 else 0) • toK K (exc i j)) = e.2 • toK K (exc e.1.2 e.1.1) := by
      rw [Finset.sum_eq_single e.1.2, Finset.sum_eq_single e.1.1]
      · simp
      · intro j _ hj
        rw [if_neg, zero_smul]
        intro h; exact hj (by rw [h])
      · simp
      · intro i _ hi
        refine Finset.sum_eq_zero fun j _ => ?_
        rw [if_neg, zero_smul]
        intro h; exact hi (by rw [h])
      · simp
    have h3 : toK K (∑ s : Bool, (cre (mode s e.1.1) * ann (mode s e.1.2) + cre (mode s e.1.2) * ann (mode s e.1.1))) =
        toK K (exc e.1.1 e.1.2) + toK K (exc e.1.2 e.1.1) := by
      rw [Finset.sum_add_distrib]
      unfold toK exc
      exact Matrix.map_add _ (fun a b => Int.cast_add a b) _ _
    rw [h3, smul_add]
    simp only [Finset.sum_add_distrib]
    rw [h1, h2]
    abel

theorem hubbard_commute (g : Equiv.Perm (Fin L)) (U : K) (edges : List ((Fin L × Fin L) × K)) (hg : EdgeSymmetry g edges) :
    toK K (ModePerm.W (modePerm g)) * hubbard U edges = hubbard U edges * toK K (ModePerm.W (modePerm g)) := by
  rw [hubbard_between, mul_add, add_mul, mul_neg, neg_mul, commute_one g _ hg]
  congr 1
  rw [Matrix.mul_smul, Matrix.smul_mul, ← toK_mul, ← toK_mul]
  congr 2
  rw [Finset.mul_sum, Finset.sum_mul, ← Equiv.sum_comp g (fun i => num (mode false i) * num (mode true i) * _)]
  refine Finset.sum_congr rfl fun i _ => ?_
  rw [← mul_assoc, W_num, mul_assoc, W_num, ← mul_assoc]

theorem abInitio_commute (g : Equiv.Perm (Fin L)) (h : Fin L → Fin L → K) (eri : Fin L → Fin L → Fin L → Fin L → K)
    (hg : IntegralSymmetry g h eri) :
    toK K (ModePerm.W (modePerm g)) * abInitioTwice h eri = abInitioTwice h eri * toK K (ModePerm.W (modePerm g)) := by
  unfold abInitioTwice
  rw [mul_add, add_mul, commute_one g (fun p q => 2 * h p q) (fun p q => by rw [hg.1])]
  congr 1
  rw [Finset.mul_sum, Finset.sum_mul, ← Equiv.sum_comp g (fun p => (∑ q, ∑ r, ∑ s, _) * _)]
  refine Finset.sum_congr rfl fun p _ => ?_
  rw [Finset.mul_sum, Finset.sum_mul, ← Equiv.sum_comp g (fun q => (∑ r, ∑ s, _) * _)]
  refine Finset.sum_congr rfl fun q _ => ?_
  rw [Finset.mul_sum, Finset.sum_mul, ← Equiv.sum_comp g (fun r => (∑ s, _) * _)]
  refine Finset.sum_congr rfl fun r _ => ?_
  rw [Finset.mul_sum, Finset.sum_mul, ← Equiv.sum_comp g (fun s => (eri (g p) (g q) (g r) s • toK K _) * _)]
  refine Finset.sum_congr rfl fun s _ => ?_
  rw [hg.2, Matrix.mul_smul, Matrix.smul_mul, ← toK_mul, ← toK_mul]
  congr 2
  rw [mul_sub, sub_mul, ← mul_assoc, W_exc, mul_assoc, W_exc, ← mul_assoc]
  congr 1
  by_cases hqr : q = r
  · subst hqr; simp only [if_true]; rw [W_exc]
  · rw [if_neg hqr, if_neg (fun h => hqr (g.injective h)), mul_zero, zero_mul]

end

/-! ## Local energies -/

theorem fermiSign_sq (g : Equiv.Perm (Fin L)) (x : Cfg L) : (fermiSign g x : ℂ) * fermiSign g x = 1 := by
  have : fermiSign g x * fermiSign g x = 1 := by
    unfold fermiSign
    rw [← Finset.prod_mul_distrib]
    refine Finset.prod_eq_one fun s _ => ?_
    rw [← pow_add, ← two_mul, pow_mul]
    norm_num
  exact_mod_cast this

theorem numElec_move (g : Equiv.Perm (Fin L)) (s : Bool) (x : Cfg L) : numElec s (moveSites g x) = numElec s x := by
  unfold numElec moveSites
  refine Finset.card_bij (fun i _ => g.symm i) ?_ ?_ ?_
  · intro i hi; simpa using hi
  · intro i _ j _ h; exact g.symm.injective h
  · intro j hj; exact ⟨g j, by simpa using hj, by simp⟩

/-- sums over configurations can be taken over the moved ones -/
def moveEquiv {A : Type} (g : Equiv.Perm (Fin L)) : (Fin L → A) ≃ (Fin L → A) where
  toFun := moveSites g
  invFun := moveSites g.symm
  left_inv x := by funext i; simp [moveSites]
  right_inv x := by funext i; simp [moveSites]

/-- the local energy of a state whose amplitudes follow the symmetry, up to signs and a constant factor -/
theorem localEnergy_move {A : Type} [Fintype (Fin L → A)] (g : Equiv.Perm (Fin L)) (H : (Fin L → A) → (Fin L → A) → ℂ) (logpsi : (Fin L → A) → ℂ)
    (χ : ℂ) (sgn : (Fin L → A) → ℂ) (x : Fin L → A) (hs : ∀ y, sgn y * sgn y = 1)
    (hH : ∀ y, H (moveSites g x) (moveSites g y) * sgn y = sgn x * H x y)
    (hpsi : ∀ y, H x y ≠ 0 ∨ y = x → Complex.exp (logpsi (moveSites g y)) = χ * sgn y * Complex.exp (logpsi y)) :
    localEnergy (H (moveSites g x)) logpsi (moveSites g x) = localEnergy (H x) logpsi x := by
  unfold localEnergy
  rw [← Equiv.sum_comp (moveEquiv g)]
  refine Finset.sum_congr rfl fun y _ => ?_
  change H (moveSites g x) (moveSites g y) * (Complex.exp (logpsi (moveSites g y)) / Complex.exp (logpsi (moveSites g x))) = _
  have hxy : H (moveSites g x) (moveSites g y) = sgn x * H x y * sgn y := by
    rw [← hH, mul_assoc, hs, mul_one]
  by_cases hz : H x y = 0
  · rw [hxy, hz]; simp
  have hx := hpsi x (.inr rfl)
  have hχ : χ * sgn x ≠ 0 := fun h => Complex.exp_ne_zero (logpsi (moveSites g x)) (by rw [hx, h, zero_mul])
  rw [hxy, hpsi y (.inl hz), hx]
  have h1 : χ ≠ 0 := left_ne_zero_of_mul hχ
  have h2 : sgn x ≠ 0 := right_ne_zero_of_mul hχ
  have h3 := Complex.exp_ne_zero (logpsi x)
  field_simp
  linear_combination hs y

variable (g : Equiv.Perm (Fin L))

/-- C156, Hubbard models: if moving the electrons by a symmetry of the edges changes the amplitudes of the sector by the fermionic sign
and a constant factor (the character), then moving them leaves the local energies unchanged. -/
theorem C156_hubbard (src : AmpSource L (Fin 4) Cache) (U : ℂ) (edges : List ((Fin L × Fin L) × ℂ))
    (hne : ∀ e ∈ edges, e.1.1 ≠ e.1.2) (hg : EdgeSymmetry g edges) (χ : ℂ) (x : Cfg L)
    (hpsi : ∀ y, (∀ s, numElec s y = numElec s x) →
      Complex.exp (src.logAmp (moveSites g y)) = χ * fermiSign g y * Complex.exp (src.logAmp y))
    (hs : src.OkAt x) (hs' : src.OkAt (moveSites g x)) :
    hubbardLocalEn src U edges (moveSites g x) = hubbardLocalEn src U edges x := by
  rw [(C07_local_energy_partial src U edges hne _ hs').2, (C07_local_energy_partial src U edges hne _ hs).2]
  refine localEnergy_move g (fun x y => hubbard U edges (occOf x) (occOf y)) src.logAmp χ (fun y => (fermiSign g y : ℂ)) x
    (fermiSign_sq g) (fun y => elem_move g _ (hubbard_commute g U edges hg) x y) ?_
  intro y hy
  refine hpsi y fun s => ?_
  rcases hy with hy | rfl
  · rw [← C04_hubbard_row] at hy
    by_contra hc
    refine hy (List.sum_eq_zero fun v hv => ?_)
    simp only [List.mem_map, List.mem_filter, decide_eq_true_eq] at hv
    obtain ⟨r, ⟨hr, rfl⟩, _⟩ := hv
    exact absurd (C05_hubbard_conserves U edges x r hr s) hc
  · rfl

/-- C156, molecules: the same for symmetries of the integrals, for the dense and for the sparse evaluation. -/
theorem C156_ab_initio (src : AmpSource L (Fin 4) Cache) (h : Fin L → Fin L → ℂ) (e : Fin L → Fin L → Fin L → Fin L → ℂ)
    (hsym : ∀ p q r s, e p q r s = e r s p q) (hg : IntegralSymmetry g h e) (χ : ℂ) (x : Cfg L)
    (hpsi : ∀ y, (∀ s, numElec s y = numElec s x) →
      Complex.exp (src.logAmp (moveSites g y)) = χ * fermiSign g y * Complex.exp (src.logAmp y))
    (hs : src.OkPaddedAt x) (hs' : src.OkPaddedAt (moveSites g x)) :
    abLocalEn src (numElec false x, numElec true x) (abT h e) e (moveSites g x) =
      abLocalEn src (numElec false x, numElec true x) (abT h e) e x ∧
    sparseLocalEn src (numElec false x, numElec true x) (sparse1 h) (sparse2 e) (moveSites g x) =
      sparseLocalEn src (numElec false x, numElec true x) (sparse1 h) (sparse2 e) x := by
  have h1 := C14_local_energy_operator src h e hsym (moveSites g x) hs'
  have h2 := C16_local_energy_operator src h e hsym (moveSites g x) hs'
  rw [numElec_move, numElec_move] at h1 h2
  rw [h1, h2, C14_local_energy_operator src h e hsym x hs, C16_local_energy_operator src h e hsym x hs, and_self]
  refine localEnergy_move g (fun x y => (1 / 2) * abInitioTwice h e (occOf x) (occOf y)) src.logAmp χ (fun y => (fermiSign g y : ℂ)) x
    (fermiSign_sq g) (fun y => ?_) ?_
  · have := elem_move g _ (abInitio_commute g h e hg) x y
    linear_combination (1 / 2) * this
  intro y hy
  refine hpsi y fun s => ?_
  rcases hy with hy | rfl
  · rw [← C13_rows two_ne_zero h e hsym] at hy
    by_contra hc
    refine hy (List.sum_eq_zero fun v hv => ?_)
    simp only [List.mem_map, List.mem_filter, decide_eq_true_eq] at hv
    obtain ⟨r, ⟨hr, rfl⟩, _⟩ := hv
    exact absurd (C13_conserves _ e x r hr s) hc
  · rfl

/-! ## Spins -/

/-- the operator of one bond -/
noncomputable def bondTerm (rule : Bool) (i j : Fin L) (x x' : Spins L) : ℂ :=
  if ∀ k, k ≠ i → k ≠ j → x k = x' k then heisenbergBond 1 rule (pairIndex (x i) (x j)) (pairIndex (x' i) (x' j)) else 0

theorem bondTerm_symm (rule : Bool) (i j : Fin L) (x x' : Spins L) : bondTerm rule j i x x' = bondTerm rule i j x x' := by
  unfold bondTerm
  have h : (∀ k, k ≠ j → k ≠ i → x k = x' k) ↔ ∀ k, k ≠ i → k ≠ j → x k = x' k :=
    ⟨fun h k h1 h2 => h k h2 h1, fun h k h1 h2 => h k h2 h1⟩
  by_cases hc : ∀ k, k ≠ i → k ≠ j → x k = x' k
  · rw [if_pos hc, if_pos (h.mpr hc)]
    cases x i <;> cases x j <;> cases x' i <;> cases x' j <;> simp [heisenbergBond, pairIndex]
  · rw [if_neg hc, if_neg (fun h' => hc (h.mp h'))]

theorem bondTerm_move (rule : Bool) (i j : Fin L) (x x' : Spins L) :
    bondTerm rule (g i) (g j) (moveSites g x) (moveSites g x') = bondTerm rule i j x x' := by
  unfold bondTerm moveSites
  simp only [Equiv.symm_apply_apply]
  congr 1
  apply propext
  constructor
  · intro h k h1 h2
    have := h (g k) (fun h => h1 (g.injective h)) (fun h => h2 (g.injective h))
    simpa using this
  · intro h k h1 h2
    exact h (g.symm k) (fun h => h1 (by rw [← h]; simp)) (fun h => h2 (by rw [← h]; simp))

theorem bondOperator_between (bonds : List ((Fin L × Fin L) × (ℂ × Bool))) (x x' : Spins L) :
    2 * bondOperator (bonds.map fun b => (b.1, heisenbergBond b.2.1 b.2.2)) x x' =
      ∑ rule : Bool, ∑ i, ∑ j, edgeBetween (bondsWithRule bonds rule) i j * bondTerm rule i j x x' := by
  unfold bondOperator
  induction bonds with
  | nil => simp [edgeBetween, bondsWithRule]
  | cons b bs ih =>
    rw [List.map_cons, List.map_cons, List.sum_cons, mul_add, ih]
    have hb : ∀ rule i j, edgeBetween (bondsWithRule (b :: bs) rule) i j =
        (if rule = b.2.2 then ((if b.1 = (i, j) then b.2.1 else 0) + if b.1 = (j, i) then b.2.1 else 0) else 0) +
          edgeBetween (bondsWithRule bs rule) i j := by
      intro rule i j
      unfold bondsWithRule edgeBetween
      by_cases h : b.2.2 = rule
      · rw [List.filter_cons_of_pos (by simpa using h), List.map_cons, List.map_cons, List.sum_cons, if_pos h.symm]
      · rw [List.filter_cons_of_neg (by simpa using h), if_neg (fun h' => h h'.symm), zero_add]
    simp only [hb, add_mul, Finset.sum_add_distrib]
    congr 1
    have h1 : ∀ f : Fin L → Fin L → ℂ, (∑ i, ∑ j, (if b.1 = (i, j) then b.2.1 else 0) * f i j) = b.2.1 * f b.1.1 b.1.2 := by
      intro f
      rw [Finset.sum_eq_single b.1.1, Finset.sum_eq_single b.1.2]
      · simp
      · intro j _ hj
        rw [if_neg, zero_mul]
        intro h; exact hj (by rw [h])
      · simp
      · intro i _ hi
        refine Finset.sum_eq_zero fun j _ => ?_
        rw [if_neg, zero_mul]
        intro h; exact hi (by rw [h])
      · simp
    rw [Finset.sum_eq_single b.2.2]
    · simp only [if_true, add_mul, Finset.sum_add_distrib]
      rw [h1]
      rw [Finset.sum_comm (f := fun i j => (if b.1 = (j, i) then b.2.1 else 0) * bondTerm b.2.2 i j x x'), h1, bondTerm_symm _ b.1.1 b.1.2]
      have hl : ∀ m n, heisenbergBond b.2.1 b.2.2 m n = b.2.1 * heisenbergBond 1 b.2.2 m n := by
        intro m n
        unfold heisenbergBond
        simp only [Matrix.smul_apply, smul_eq_mul, one_mul]
      unfold bondTerm
      simp only [hl]
      split_ifs <;> ring
    · intro r _ hr
      simp [hr]
    · simp

/-- C156, Heisenberg and J1-J2 models: the same, without signs. -/
theorem C156_heisenberg (src : AmpSource L ℤ Cache) (bonds : List ((Fin L × Fin L) × (ℂ × Bool)))
    (hd : ∀ b ∈ bonds, b.1.1 ≠ b.1.2) (hg : ∀ rule, EdgeSymmetry g (bondsWithRule bonds rule)) (χ : ℂ) (x : Spins L)
    (hpsi : ∀ y : Spins L, Complex.exp (src.logAmp fun k => spinVal (moveSites g y k)) = χ * Complex.exp (src.logAmp fun k => spinVal (y k)))
    (hs : src.OkAt (fun k => spinVal (x k))) (hs' : src.OkAt (fun k => spinVal (moveSites g x k))) :
    let H := bonds.map fun b => (b.1, heisenbergBond b.2.1 b.2.2)
    J1J2.localEn src H (fun k => spinVal (moveSites g x k)) = J1J2.localEn src H (fun k => spinVal (x k)) := by
  intro H
  have h1 := C11_heisenberg src bonds hd x hs
  have h2 := C11_heisenberg src bonds hd (moveSites g x) hs'
  dsimp only at h1 h2
  rw [show J1J2.localEn src H (fun k => spinVal (x k)) = _ from h1,
    show J1J2.localEn src H (fun k => spinVal (moveSites g x k)) = _ from h2]
  refine localEnergy_move g (fun x y => bondOperator H x y) (fun y : Spins L => src.logAmp fun k => spinVal (y k)) χ (fun _ => 1) x
    (fun _ => by ring) (fun y => ?_) (fun y _ => by rw [hpsi]; ring)
  have e : 2 * bondOperator H (moveSites g x) (moveSites g y) = 2 * bondOperator H x y := by
    rw [bondOperator_between, bondOperator_between]
    refine Finset.sum_congr rfl fun rule _ => ?_
    rw [← Equiv.sum_comp g]
    refine Finset.sum_congr rfl fun i _ => ?_
    rw [← Equiv.sum_comp g]
    refine Finset.sum_congr rfl fun j _ => ?_
    rw [hg, bondTerm_move]
  linear_combination (1 / 2) * e

/-! ## Signs are needed -/

/-- three sites on a ring -/
def ring3 : List ((Fin 3 × Fin 3) × ℂ) := [((0, 1), 1), ((1, 2), 1), ((2, 0), 1)]

theorem ring3_symm : EdgeSymmetry (finRotate 3) ring3 := by
  intro i j
  fin_cases i <;> fin_cases j <;> simp [edgeBetween, ring3]

/-- hypotheses met by two electrons on the ring: the amplitudes 1, 1 and -1 -/
example : ∃ src : AmpSource 3 (Fin 4) Unit, EdgeSymmetry (finRotate 3) ring3 ∧ (∀ e ∈ ring3, e.1.1 ≠ e.1.2) ∧
    src.logAmp ![1, 0, 1] ≠ src.logAmp ![0, 1, 1] ∧
    ∀ y, (∀ s, numElec s y = numElec s (![0, 1, 1] : Cfg 3)) →
      Complex.exp (src.logAmp (moveSites (finRotate 3) y)) = 1 * fermiSign (finRotate 3) y * Complex.exp (src.logAmp y) := by
  refine ⟨.full fun y => if y = ![1, 0, 1] then Real.pi * Complex.I else 0, ring3_symm, by simp [ring3], ?_, ?_⟩
  · simp only [AmpSource.logAmp, if_true]
    rw [if_neg (by decide)]
    simp [Real.pi_ne_zero]
  intro y hy
  have he : ∀ y : Cfg 3, Complex.exp (if y = ![1, 0, 1] then Real.pi * Complex.I else 0) = ((if y = ![1, 0, 1] then -1 else 1 : ℤ) : ℂ) := by
    intro y
    split_ifs <;> simp
  have h : ∀ y : Cfg 3, (∀ s, numElec s y = numElec s (![0, 1, 1] : Cfg 3)) →
      (if moveSites (finRotate 3) y = ![1, 0, 1] then -1 else 1 : ℤ) = 1 * fermiSign (finRotate 3) y * (if y = ![1, 0, 1] then -1 else 1) := by
    decide +kernel
  simp only [AmpSource.logAmp, he]
  exact_mod_cast h y hy

/-- C156 fails for amplitudes that are symmetric without the signs, e.g. those of a symmetrised Gaussian process state without a
determinant: on a ring of three sites with two electrons of equal spin the local energies of the state with equal amplitudes differ
between configurations related by a rotation. -/
theorem C156_without_signs_fails :
    let src : AmpSource 3 (Fin 4) Unit := .full fun _ => 0
    EdgeSymmetry (finRotate 3) ring3 ∧ (∀ e ∈ ring3, e.1.1 ≠ e.1.2) ∧
    (∀ y, Complex.exp (src.logAmp (moveSites (finRotate 3) y)) = Complex.exp (src.logAmp y)) ∧
    hubbardLocalEn src 0 ring3 (moveSites (finRotate 3) ![0, 1, 1]) ≠ hubbardLocalEn src 0 ring3 ![0, 1, 1] := by
  intro src
  refine ⟨ring3_symm, by simp [ring3], fun _ => rfl, ?_⟩
  have hm : moveSites (finRotate 3) (![0, 1, 1] : Cfg 3) = ![1, 0, 1] := by decide
  let hop : Cfg 3 → Fin 4 → Fin 3 → Fin 3 → ℤ := fun x σ i j =>
    if x i &&& σ = 0 ∨ ¬ (x j &&& σ = 0) then 0 else parityMultiplicatorHop i j (cumsum (isOcc x σ))
  have hhop : ∀ x σ i j, hubbardHopTerm src x σ (cumsum (isOcc x σ)) i j = (hop x σ i j : ℂ) := by
    intro x σ i j
    unfold hubbardHopTerm
    dsimp only [hop]
    split_ifs
    · simp
    · simp [src, AmpSource.conn, AmpSource.logAmp]
  have hen : ∀ x : Cfg 3, hubbardLocalEn src 0 ring3 x = ((-((hop x 1 0 1 + hop x 1 1 0) + (hop x 1 1 2 + hop x 1 2 1) +
      (hop x 1 2 0 + hop x 1 0 2) + ((hop x 2 0 1 + hop x 2 1 0) + (hop x 2 1 2 + hop x 2 2 1) +
      (hop x 2 2 0 + hop x 2 0 2))) : ℤ) : ℂ) := by
    intro x
    unfold hubbardLocalEn hubbardHoppingTerm
    simp only [hhop, ring3, List.map_cons, List.map_nil, List.sum_cons, List.sum_nil, List.length_cons, List.length_nil]
    rw [if_pos (by norm_num)]
    push_cast
    ring
  rw [hm, hen, hen, Ne, Int.cast_inj]
  decide

end GPSKet.LatticeSymmetry
