import Verif.Props.GroundSpins
import Verif.Props.Hubbard
import Verif.Props.HubbardScript

/-!
# C170 for the Hubbard chain
-/

namespace GPSKet.GroundHubbard
open GPSKet GPSKet.Spec Stoquastic

variable {L : ℕ} {Cache : Type}

/-- The configurations with `n s` electrons of spin `s`. -/
def InSector (n : Bool → ℕ) (x : Cfg L) : Prop := ∀ s, numElec s x = n s

/-- The edges of a chain: two neighbouring sites with an amplitude that is not negative, or the two ends, with the boundary condition that
suits the numbers of electrons: an amplitude that is not negative (periodic) for odd and not positive (antiperiodic) for even numbers. -/
def ChainEdge (n : Bool → ℕ) (e : (Fin L × Fin L) × ℝ) : Prop :=
  ((e.1.1.val + 1 = e.1.2.val ∨ e.1.2.val + 1 = e.1.1.val) ∧ 0 ≤ e.2) ∨
  (e.1.1 ≠ e.1.2 ∧ ((e.1.1.val = 0 ∧ e.1.2.val + 1 = L) ∨ (e.1.2.val = 0 ∧ e.1.1.val + 1 = L)) ∧
    ∀ s, n s ≠ 0 → 0 ≤ e.2 * (-1) ^ (n s + 1))

/-! ## Matrix elements -/

/-- `⟨x| c†_i c_a |y⟩` for spin `s`. -/
def hop (x y : Cfg L) (s : Bool) (i a : Fin L) : ℤ := (cre (mode s i) * ann (mode s a)) (occOf x) (occOf y)

/-- One edge. -/
def edgeElem (x y : Cfg L) (e : (Fin L × Fin L) × ℝ) : ℤ := ∑ s : Bool, (hop x y s e.1.1 e.1.2 + hop x y s e.1.2 e.1.1)

theorem hubbard_elem {K : Type} [Field K] (f : ℝ →+* K) (U : ℝ) (edges : List ((Fin L × Fin L) × ℝ)) (x y : Cfg L) :
    hubbard (f U) (edges.map fun e => (e.1, f e.2)) (occOf x) (occOf y) =
      f ((edges.map fun e => -(e.2 * (edgeElem x y e : ℝ))).sum + U * if x = y then ((Finset.univ.filter fun j => x j = 3).card : ℝ) else 0) := by
  unfold hubbard
  rw [Matrix.add_apply, map_add]
  congr 1
  · rw [List.map_map]
    induction edges with
    | nil => simp
    | cons e es ih =>
      rw [List.map_cons, List.sum_cons, Matrix.add_apply, ih, List.map_cons, List.sum_cons, map_add]
      congr 1
      rw [Function.comp_apply, Matrix.neg_apply, Matrix.smul_apply, toK_apply, Matrix.sum_apply, map_neg, map_mul, map_intCast, smul_eq_mul]
      rfl
  · rw [Matrix.smul_apply, toK_apply, docc_apply, smul_eq_mul, map_mul]
    congr 1
    split_ifs <;> simp

/-- The matrix of the chain. -/
noncomputable def A (U : ℝ) (edges : List ((Fin L × Fin L) × ℝ)) (x y : Cfg L) : ℝ := 
  (edges.map fun e => -(e.2 * (edgeElem x y e : ℝ))).sum + U * if x = y then ((Finset.univ.filter fun j => x j = 3).card : ℝ) else 0

theorem elem_real (U : ℝ) (edges : List ((Fin L × Fin L) × ℝ)) (x y : Cfg L) :
    hubbard (U : ℂ) (edges.map fun e => (e.1, (e.2 : ℂ))) (occOf x) (occOf y) = A U edges x y :=
  hubbard_elem Complex.ofRealHom U edges x y

theorem A_symm (U : ℝ) (edges : List ((Fin L × Fin L) × ℝ)) (x y : Cfg L) : A U edges x y = A U edges y x := by
  have h := (C05_hubbard_symmetric (U : ℂ) (edges.map fun e => (e.1, (e.2 : ℂ))) x y).2
  rw [C04_hubbard_row, C04_hubbard_row, elem_real, elem_real] at h
  exact_mod_cast h

theorem hop_cases (x y : Cfg L) (s : Bool) {i a : Fin L} (hia : i ≠ a) :
    hop x y s i a = 0 ∨ (hasSpin s (x i) = true ∧ hasSpin s (x a) = false ∧
      y = Function.update (Function.update x i (x i - spinInt s)) a (x a + spinInt s) ∧ hop x y s i a = (-1) ^ (siteBetween x s a i).card) := by
  unfold hop
  rw [hop_mat]
  by_cases hv : hasSpin s (x i) = true ∧ hasSpin s (x a) = false
  · rw [applyHopping_valid x s hia.symm hv.1 hv.2]
    dsimp only
    by_cases hy : Function.update (Function.update x i (x i - spinInt s)) a (x a + spinInt s) = y
    · right
      exact ⟨hv.1, hv.2, hy.symm, if_pos hy⟩
    · left
      exact if_neg hy
  · left
    rw [applyHopping_invalid x s hia.symm hv]
    simp

/-- Moving between the two ends passes all other electrons. -/
theorem between_ends (x : Cfg L) (s : Bool) {i a : Fin L} (hia : i ≠ a) (hi : hasSpin s (x i) = true) (ha : hasSpin s (x a) = false)
    (h : (i.val = 0 ∧ a.val + 1 = L) ∨ (a.val = 0 ∧ i.val + 1 = L)) : (siteBetween x s a i).card + 1 = numElec s x := by
  unfold numElec
  have e : (Finset.univ.filter fun j => hasSpin s (x j) = true) = insert i (siteBetween x s a i) := by
    ext j
    simp only [siteBetween, Finset.mem_filter, Finset.mem_univ, true_and, Finset.mem_insert, Fin.lt_def, Fin.coe_min, Fin.coe_max]
    constructor
    · intro hj
      by_cases hji : j = i
      · exact Or.inl hji
      · right
        have hja : j ≠ a := by rintro rfl; rw [ha] at hj; exact absurd hj (by simp)
        have h1 : j.val ≠ i.val := fun h => hji (Fin.ext h)
        have h2 : j.val ≠ a.val := fun h => hja (Fin.ext h)
        have := j.isLt
        refine ⟨?_, ?_, hj⟩ <;> omega
    · rintro (rfl | hj)
      · exact hi
      · exact hj.2.2
  rw [e, Finset.card_insert_of_notMem]
  intro hmem
  simp only [siteBetween, Finset.mem_filter, Finset.mem_univ, true_and, Fin.lt_def, Fin.coe_min, Fin.coe_max] at hmem
  omega

theorem hop_sign {n : Bool → ℕ} {x : Cfg L} (hx : InSector n x) (y : Cfg L) {e : (Fin L × Fin L) × ℝ} (he : ChainEdge n e) (s : Bool) (i a : Fin L)
    (hia : (i = e.1.1 ∧ a = e.1.2) ∨ (i = e.1.2 ∧ a = e.1.1)) : 0 ≤ e.2 * (hop x y s i a : ℝ) := by
  have hne : i ≠ a := by
    rintro rfl
    have h12 : e.1.1 = e.1.2 := by rcases hia with ⟨h1, h2⟩ | ⟨h1, h2⟩ <;> rw [← h1, ← h2]
    rcases he with ⟨h, -⟩ | ⟨h, -⟩
    · rw [h12] at h; omega
    · exact h h12
  rcases hop_cases x y s hne with h | ⟨hi, ha, -, h⟩
  · rw [h]; simp
  · rw [h]
    push_cast
    rcases he with ⟨hadj, ht⟩ | ⟨-, hend, ht⟩
    · have : siteBetween x s a i = ∅ := by
        rw [Finset.eq_empty_iff_forall_notMem]
        intro j hj
        simp only [siteBetween, Finset.mem_filter, Finset.mem_univ, true_and, Fin.lt_def, Fin.coe_min, Fin.coe_max] at hj
        rcases hia with ⟨rfl, rfl⟩ | ⟨rfl, rfl⟩ <;> omega
      rw [this]
      simpa using ht
    · have hb := between_ends x s hne hi ha (by rcases hia with ⟨rfl, rfl⟩ | ⟨rfl, rfl⟩ <;> omega)
      rw [hx s] at hb
      have := ht s (by omega)
      rw [← hb, pow_add, pow_add] at this
      simpa using this

theorem edge_sign {n : Bool → ℕ} {x : Cfg L} (hx : InSector n x) (y : Cfg L) {e : (Fin L × Fin L) × ℝ} (he : ChainEdge n e) :
    0 ≤ e.2 * (edgeElem x y e : ℝ) := by
  unfold edgeElem
  push_cast
  rw [Finset.mul_sum]
  refine Finset.sum_nonneg fun s _ => ?_
  rw [mul_add]
  exact add_nonneg (hop_sign hx y he s _ _ (Or.inl ⟨rfl, rfl⟩)) (hop_sign hx y he s _ _ (Or.inr ⟨rfl, rfl⟩))

theorem A_nonpos {n : Bool → ℕ} {x : Cfg L} (hx : InSector n x) (y : Cfg L) (U : ℝ) {edges : List ((Fin L × Fin L) × ℝ)}
    (he : ∀ e ∈ edges, ChainEdge n e) (hxy : x ≠ y) : A U edges x y ≤ 0 := by
  unfold A
  rw [if_neg hxy, mul_zero, add_zero]
  induction edges with
  | nil => simp
  | cons e es ih =>
    simp only [List.map_cons, List.sum_cons]
    have h1 := edge_sign hx y (he e (by simp))
    have h2 := ih fun e h => he e (by simp [h])
    linarith

theorem A_neg {n : Bool → ℕ} {x : Cfg L} (hx : InSector n x) (y : Cfg L) (U : ℝ) {edges : List ((Fin L × Fin L) × ℝ)}
    (he : ∀ e ∈ edges, ChainEdge n e) (hxy : x ≠ y) {e : (Fin L × Fin L) × ℝ} (hmem : e ∈ edges) (hpos : e.2 * (edgeElem x y e : ℝ) ≠ 0) :
    A U edges x y ≠ 0 := by
  obtain ⟨l1, l2, rfl⟩ := List.append_of_mem hmem
  have h1 := A_nonpos hx y U (edges := l1) (fun e h => he e (by simp [h])) hxy
  have h2 := A_nonpos hx y U (edges := l2) (fun e h => he e (by simp [h])) hxy
  have h3 := lt_of_le_of_ne (edge_sign hx y (he e hmem)) hpos.symm
  unfold A at h1 h2 ⊢
  rw [if_neg hxy, mul_zero, add_zero] at h1 h2 ⊢
  simp only [List.map_append, List.map_cons, List.sum_append, List.sum_cons]
  apply ne_of_lt
  linarith

theorem hop_conserves {x y : Cfg L} {s : Bool} {i a : Fin L} (h : hop x y s i a ≠ 0) (s' : Bool) : numElec s' y = numElec s' x := by
  unfold hop at h
  rw [hop_mat] at h
  dsimp only at h
  by_cases hy : (applyHopping i a x (spinInt s) (some (cumsum (isOcc x (spinInt s))))).2 = y
  · rw [← hy, C03_hop_conserves]
  · rw [if_neg hy] at h
    exact absurd rfl h

theorem A_closed {n : Bool → ℕ} {x y : Cfg L} (hx : InSector n x) (hy : ¬ InSector n y) (U : ℝ) (edges : List ((Fin L × Fin L) × ℝ)) :
    A U edges x y = 0 := by
  have hxy : x ≠ y := by rintro rfl; exact hy hx
  have hz : ∀ s i a, hop x y s i a = 0 := by
    intro s i a
    by_contra h
    exact hy fun s' => (hop_conserves h s').trans (hx s')
  unfold A
  rw [if_neg hxy, mul_zero, add_zero]
  refine List.sum_eq_zero ?_
  intro r hr
  obtain ⟨e, -, rfl⟩ := List.mem_map.mp hr
  simp [edgeElem, hz]

/-! ## The sector -/

open Classical in
/-- The matrix within the sector. -/
noncomputable def B (n : Bool → ℕ) (U : ℝ) (edges : List ((Fin L × Fin L) × ℝ)) (x y : Cfg L) : ℝ :=
  if InSector n x ∧ InSector n y then A U edges x y else 0

theorem good {n : Bool → ℕ} {U : ℝ} {edges : List ((Fin L × Fin L) × ℝ)} (he : ∀ e ∈ edges, ChainEdge n e) :
    Good (InSector n) (fun x y => ((B n U edges x y : ℝ) : ℂ)) (B n U edges) where
  real _ _ := rfl
  symm x y := by
    unfold B
    rw [A_symm]
    by_cases h : InSector n x ∧ InSector n y
    · rw [if_pos h, if_pos h.symm]
    · rw [if_neg h, if_neg fun h' => h h'.symm]
  nonpos x y h := by
    unfold B
    split_ifs with hp
    · exact A_nonpos hp.1 y U he h
    · exact le_rfl
  closed x y _ hy := by
    unfold B
    rw [if_neg fun h => hy h.2]

/-- The matrix of the Hubbard model on configurations. -/
noncomputable def hubbardMatrix (U : ℝ) (edges : List ((Fin L × Fin L) × ℝ)) (x y : Cfg L) : ℂ :=
  hubbard (U : ℂ) (edges.map fun e => (e.1, (e.2 : ℂ))) (occOf x) (occOf y)

theorem energy_sector {n : Bool → ℕ} (U : ℝ) (edges : List ((Fin L × Fin L) × ℝ)) {phi : Cfg L → ℂ} (hphi : ∀ x, ¬ InSector n x → phi x = 0) :
    (rayleigh (hubbardMatrix U edges) phi).re = energy (fun x y => ((B n U edges x y : ℝ) : ℂ)) phi / bornNorm phi := by
  rw [rayleigh_re]
  congr 1
  unfold energy
  congr 1
  refine Finset.sum_congr rfl fun x _ => Finset.sum_congr rfl fun y _ => ?_
  unfold hubbardMatrix
  rw [elem_real]
  by_cases hx : InSector n x
  · by_cases hy : InSector n y
    · have hB : B n U edges x y = A U edges x y := if_pos ⟨hx, hy⟩
      simp only [hB]
    · rw [hphi y hy, mul_zero, mul_zero]
  · rw [hphi x hx, map_zero, zero_mul, zero_mul, zero_mul, zero_mul]

/-- The local energies of real positive amplitudes. -/
theorem localEn_eq {n : Bool → ℕ} {U : ℝ} {edges : List ((Fin L × Fin L) × ℝ)} (hd : ∀ e ∈ edges, e.1.1 ≠ e.1.2) (src : AmpSource L (Fin 4) Cache)
    (hpos : ∀ x, InSector n x → (src.logAmp x).im = 0) {x : Cfg L} (hx : InSector n x) (hs : src.OkAt x) :
    (hubbardLocalEn src (U : ℂ) (edges.map fun e => (e.1, (e.2 : ℂ))) x).re =
      (∑ y, B n U edges x y * Real.exp (src.logAmp y).re) / Real.exp (src.logAmp x).re := by
  rw [(C07_local_energy_partial src (U : ℂ) (edges.map fun e => (e.1, (e.2 : ℂ)))
    (by intro b hb; obtain ⟨c, hc, rfl⟩ := List.mem_map.mp hb; exact hd c hc) x hs).2, localEnergy, Complex.re_sum, Finset.sum_div]
  refine Finset.sum_congr rfl fun y _ => ?_
  rw [elem_real]
  by_cases hy : InSector n y
  · have e : ∀ z, InSector n z → Complex.exp (src.logAmp z) = (Real.exp (src.logAmp z).re : ℂ) := by
      intro z hz
      rw [Complex.ofReal_exp]
      congr 1
      exact Complex.ext rfl (by simpa using hpos z hz)
    rw [e x hx, e y hy, ← Complex.ofReal_div, ← Complex.ofReal_mul, Complex.ofReal_re, mul_div_assoc, B, if_pos ⟨hx, hy⟩]
  · rw [A_closed hx hy, B, if_neg fun h => hy h.2]
    simp

/-! ## Connectedness -/

theorem ext_spin {x y : Cfg L} (h : ∀ s j, hasSpin s (x j) = hasSpin s (y j)) : x = y := by
  funext j
  have : ∀ v w : Fin 4, hasSpin false v = hasSpin false w → hasSpin true v = hasSpin true w → v = w := by decide
  exact this _ _ (h false j) (h true j)

/-- The configuration with given occupations. -/
def comb (o : Bool → Fin L → Bool) : Cfg L := fun j => (if o false j then 1 else 0) + (if o true j then 2 else 0)

theorem comb_spin (o : Bool → Fin L → Bool) (s : Bool) (j : Fin L) : hasSpin s (comb o j) = o s j := by
  unfold comb
  cases s <;> cases o false j <;> cases o true j <;> rfl

theorem moved_spin (x : Cfg L) (s : Bool) {i a : Fin L} (hia : i ≠ a) (hi : hasSpin s (x i) = true) (ha : hasSpin s (x a) = false) :
    Function.update (Function.update x i (x i - spinInt s)) a (x a + spinInt s) =
      comb (Function.update (fun s j => hasSpin s (x j)) s ((fun j => hasSpin s (x j)) ∘ Equiv.swap i a)) := by
  have d1 : ∀ (s t : Bool) (v : Fin 4), hasSpin s v = true → hasSpin t (v - spinInt s) = if t = s then false else hasSpin t v := by decide
  have d2 : ∀ (s t : Bool) (v : Fin 4), hasSpin s v = false → hasSpin t (v + spinInt s) = if t = s then true else hasSpin t v := by decide
  refine ext_spin fun t j => ?_
  rw [comb_spin]
  by_cases hja : j = a
  · subst hja
    rw [Function.update_self, d2 s t _ ha]
    by_cases ht : t = s
    · subst ht; simp [hi]
    · rw [if_neg ht, Function.update_of_ne ht]
  · rw [Function.update_of_ne hja]
    by_cases hji : j = i
    · subst hji
      rw [Function.update_self, d1 s t _ hi]
      by_cases ht : t = s
      · subst ht; simp [ha]
      · rw [if_neg ht, Function.update_of_ne ht]
    · rw [Function.update_of_ne hji]
      by_cases ht : t = s
      · subst ht
        rw [Function.update_self, Function.comp_apply, Equiv.swap_apply_of_ne_of_ne hji hja]
      · rw [Function.update_of_ne ht]

/-- The edges connect all sites. -/
def Connected (edges : List ((Fin L × Fin L) × ℝ)) : Prop :=
  ∀ i j, Relation.ReflTransGen (fun i j => ∃ e ∈ edges, e.1 = (i, j) ∨ e.1 = (j, i)) i j

theorem edge_ne {n : Bool → ℕ} {e : (Fin L × Fin L) × ℝ} (he : ChainEdge n e) : e.1.1 ≠ e.1.2 := by
  intro h12
  rcases he with ⟨h, -⟩ | ⟨h, -⟩
  · rw [h12] at h; omega
  · exact h h12

theorem comb_num (o : Bool → Fin L → Bool) (s : Bool) : numElec s (comb o) = (Finset.univ.filter fun j => o s j = true).card := by
  unfold numElec
  simp only [comb_spin]

theorem comb_swap_sector {n : Bool → ℕ} {o : Bool → Fin L → Bool} (hx : InSector n (comb o)) (s : Bool) (p : Equiv.Perm (Fin L)) :
    InSector n (comb (Function.update o s (o s ∘ p))) := by
  intro t
  rw [← hx t, comb_num, comb_num]
  by_cases ht : t = s
  · subst ht
    rw [Function.update_self]
    exact GroundSpins.upCount_perm (o t) p
  · rw [Function.update_of_ne ht]

theorem hop_value (x : Cfg L) (s : Bool) {i a : Fin L} (hia : i ≠ a) (hi : hasSpin s (x i) = true) (ha : hasSpin s (x a) = false) :
    hop x (Function.update (Function.update x i (x i - spinInt s)) a (x a + spinInt s)) s i a ≠ 0 := by
  unfold hop
  rw [hop_mat, applyHopping_valid x s hia.symm hi ha]
  simp

/-- A hop along an edge has a matrix element. -/
theorem step {n : Bool → ℕ} {U : ℝ} {edges : List ((Fin L × Fin L) × ℝ)} (he : ∀ e ∈ edges, ChainEdge n e) (ht : ∀ e ∈ edges, e.2 ≠ 0)
    {o : Bool → Fin L → Bool} (hx : InSector n (comb o)) (s : Bool) {e : (Fin L × Fin L) × ℝ} (hmem : e ∈ edges)
    (hne : o s e.1.1 ≠ o s e.1.2) :
    B n U edges (comb o) (comb (Function.update o s (o s ∘ Equiv.swap e.1.1 e.1.2))) ≠ 0 := by
  set y := comb (Function.update o s (o s ∘ Equiv.swap e.1.1 e.1.2)) with hy
  have hin : InSector n y := comb_swap_sector hx s _
  have h12 := edge_ne (he e hmem)
  unfold B
  rw [if_pos ⟨hx, hin⟩]
  have hxy : comb o ≠ y := by
    intro h
    apply hne
    have := congrArg (fun z : Cfg L => hasSpin s (z e.1.1)) h
    simp only [hy, comb_spin, Function.update_self, Function.comp_apply, Equiv.swap_apply_left] at this
    exact this
  have ho : (fun (t : Bool) j => hasSpin t (comb o j)) = o := by
    funext t j
    exact comb_spin o t j
  have hos : (fun j => hasSpin s (comb o j)) = o s := by
    funext j
    exact comb_spin o s j
  refine A_neg hx y U he hxy hmem ?_
  have hcase : ∃ i a, ((i = e.1.1 ∧ a = e.1.2) ∨ (i = e.1.2 ∧ a = e.1.1)) ∧ hop (comb o) y s i a ≠ 0 := by
    by_cases h1 : o s e.1.1 = true
    · have h2 : o s e.1.2 = false := by
        cases h : o s e.1.2
        · rfl
        · rw [h1, h] at hne; exact absurd rfl hne
      refine ⟨e.1.1, e.1.2, Or.inl ⟨rfl, rfl⟩, ?_⟩
      have := hop_value (comb o) s h12 (by rw [comb_spin, h1]) (by rw [comb_spin, h2])
      rw [moved_spin (comb o) s h12 (by rw [comb_spin, h1]) (by rw [comb_spin, h2]), ho, hos] at this
      exact this
    · have h1' : o s e.1.1 = false := by simpa using h1
      have h2 : o s e.1.2 = true := by
        cases h : o s e.1.2
        · rw [h1', h] at hne; exact absurd rfl hne
        · rfl
      refine ⟨e.1.2, e.1.1, Or.inr ⟨rfl, rfl⟩, ?_⟩
      have := hop_value (comb o) s h12.symm (by rw [comb_spin, h2]) (by rw [comb_spin, h1'])
      rw [moved_spin (comb o) s h12.symm (by rw [comb_spin, h2]) (by rw [comb_spin, h1']), ho, hos, Equiv.swap_comm] at this
      exact this
  obtain ⟨i, a, hia, hh⟩ := hcase
  have hlt : 0 < e.2 * (hop (comb o) y s i a : ℝ) :=
    lt_of_le_of_ne (hop_sign hx y (he e hmem) s i a hia) (mul_ne_zero (ht e hmem) (by exact_mod_cast hh)).symm
  have hs1 : ∀ t, 0 ≤ e.2 * ((hop (comb o) y t e.1.1 e.1.2 + hop (comb o) y t e.1.2 e.1.1 : ℤ) : ℝ) := by
    intro t
    push_cast
    rw [mul_add]
    exact add_nonneg (hop_sign hx y (he e hmem) t _ _ (Or.inl ⟨rfl, rfl⟩)) (hop_sign hx y (he e hmem) t _ _ (Or.inr ⟨rfl, rfl⟩))
  have hs2 : 0 < e.2 * ((hop (comb o) y s e.1.1 e.1.2 + hop (comb o) y s e.1.2 e.1.1 : ℤ) : ℝ) := by
    push_cast
    rw [mul_add]
    have g1 := hop_sign hx y (he e hmem) s _ _ (Or.inl ⟨rfl, rfl⟩)
    have g2 := hop_sign hx y (he e hmem) s _ _ (Or.inr ⟨rfl, rfl⟩)
    rcases hia with ⟨rfl, rfl⟩ | ⟨rfl, rfl⟩ <;> linarith
  have : 0 < e.2 * (edgeElem (comb o) y e : ℝ) := by
    unfold edgeElem
    rw [Int.cast_sum, Finset.mul_sum]
    exact Finset.sum_pos' (fun t _ => hs1 t) ⟨s, Finset.mem_univ s, hs2⟩
  exact this.ne'

theorem sector_connected {n : Bool → ℕ} {U : ℝ} {edges : List ((Fin L × Fin L) × ℝ)} (he : ∀ e ∈ edges, ChainEdge n e) (ht : ∀ e ∈ edges, e.2 ≠ 0)
    (hc : Connected edges) (x y : Cfg L) (hx : InSector n x) (hy : InSector n y) :
    Relation.ReflTransGen (fun a b => B n U edges a b ≠ 0) x y := by
  have hc' : ExchangeChain.Connected (edges.map Prod.fst) := by
    intro i j
    refine Relation.ReflTransGen.mono (fun a b => ?_) i j (hc i j)
    rintro ⟨c, hc, h | h⟩
    · left; rw [← h]; exact List.mem_map_of_mem hc
    · right; rw [← h]; exact List.mem_map_of_mem hc
  -- one spin after the other
  have key : ∀ (o : Bool → Fin L → Bool) (s : Bool), InSector n (comb o) → ∀ w,
      Relation.ReflTransGen (ExchangeChain.Swapped (edges.map Prod.fst)) (o s) w →
      InSector n (comb (Function.update o s w)) ∧ Relation.ReflTransGen (fun a b => B n U edges a b ≠ 0) (comb o) (comb (Function.update o s w)) := by
    intro o s ho w hw
    induction hw with
    | refl => rw [Function.update_eq_self]; exact ⟨ho, Relation.ReflTransGen.refl⟩
    | @tail u w _ hs ih =>
      obtain ⟨cl, hcl, rfl⟩ := hs
      obtain ⟨b, hb, rfl⟩ := List.mem_map.mp hcl
      obtain ⟨h1, h2⟩ := ih
      have e : Function.update o s (u ∘ Equiv.swap b.1.1 b.1.2) =
          Function.update (Function.update o s u) s ((Function.update o s u) s ∘ Equiv.swap b.1.1 b.1.2) := by
        rw [Function.update_self, Function.update_idem]
      rw [e]
      refine ⟨comb_swap_sector h1 s _, ?_⟩
      by_cases heq : u b.1.1 = u b.1.2
      · have : (Function.update o s u) s ∘ Equiv.swap b.1.1 b.1.2 = (Function.update o s u) s := by
          funext j
          rw [Function.update_self, Function.comp_apply]
          by_cases j1 : j = b.1.1
          · rw [j1, Equiv.swap_apply_left, heq]
          · by_cases j2 : j = b.1.2
            · rw [j2, Equiv.swap_apply_right, heq]
            · rw [Equiv.swap_apply_of_ne_of_ne j1 j2]
        rw [this, Function.update_eq_self]
        exact h2
      · exact h2.tail (step he ht h1 s hb (by rw [Function.update_self]; exact heq))
  have hperm : ∀ s, ∃ p : Equiv.Perm (Fin L), (fun j => hasSpin s (y j)) = (fun j => hasSpin s (x j)) ∘ p := by
    intro s
    refine ExchangeChain.exists_perm _ _ fun v => ?_
    have h := (hx s).trans (hy s).symm
    unfold numElec at h
    cases v with
    | true => exact h
    | false =>
      have e : ∀ z : Fin L → Bool, (Finset.univ.filter fun j => z j = false).card = L - (Finset.univ.filter fun j => z j = true).card := by
        intro z
        have := Finset.card_filter_add_card_filter_not (s := (Finset.univ : Finset (Fin L))) (fun j => z j = true)
        simp only [Bool.not_eq_true, Finset.card_univ, Fintype.card_fin] at this
        omega
      rw [e, e, h]
  have hcomb : ∀ z : Cfg L, comb (fun s j => hasSpin s (z j)) = z := fun z => ext_spin fun s j => comb_spin _ s j
  obtain ⟨p, hp⟩ := hperm false
  obtain ⟨q, hq⟩ := hperm true
  obtain ⟨g1, g2⟩ := key (fun s j => hasSpin s (x j)) false (by rw [hcomb]; exact hx) _ (ExchangeChain.permute hc' p _)
  obtain ⟨-, g3⟩ := key _ true g1 _ (ExchangeChain.permute hc' q _)
  rw [hcomb] at g2
  have hfin : comb (Function.update (Function.update (fun s j => hasSpin s (x j)) false ((fun j => hasSpin false (x j)) ∘ p)) true
      ((Function.update (fun s j => hasSpin s (x j)) false ((fun j => hasSpin false (x j)) ∘ p) true) ∘ q)) = y := by
    rw [← hcomb y]
    congr 1
    funext s
    cases s with
    | false => rw [Function.update_of_ne (by simp), Function.update_self, hp]
    | true => rw [Function.update_self, Function.update_of_ne (by simp), hq]
  rw [hfin] at g3
  exact g2.trans g3

/-! ## The theorems -/

/-- **C170** for the Hubbard chain: let a model have positive amplitudes (real log-amplitudes) for all configurations with the given numbers of
electrons.  No state with these numbers has an energy below the smallest of the model's local energies ... -/
theorem C170_hubbard_lower (n : Bool → ℕ) (U : ℝ) (edges : List ((Fin L × Fin L) × ℝ)) (he : ∀ e ∈ edges, ChainEdge n e)
    (src : AmpSource L (Fin 4) Cache) (hs : ∀ x, InSector n x → src.OkAt x) (hpos : ∀ x, InSector n x → (src.logAmp x).im = 0)
    (phi : Cfg L → ℂ) (hphi : ∀ x, ¬ InSector n x → phi x = 0) (hne : phi ≠ 0) :
    ∃ x, InSector n x ∧ (hubbardLocalEn src (U : ℂ) (edges.map fun e => (e.1, (e.2 : ℂ))) x).re ≤ (rayleigh (hubbardMatrix U edges) phi).re := by
  classical
  obtain ⟨x0, hx0⟩ := Function.ne_iff.mp hne
  have hk0 : InSector n x0 := by by_contra h; exact hx0 (hphi x0 h)
  obtain ⟨x1, hx1, hmin⟩ := Finset.exists_min_image (Finset.univ.filter fun x : Cfg L => InSector n x)
    (fun x => (hubbardLocalEn src (U : ℂ) (edges.map fun e => (e.1, (e.2 : ℂ))) x).re) ⟨x0, by simp [hk0]⟩
  simp only [Finset.mem_filter, Finset.mem_univ, true_and] at hx1 hmin
  refine ⟨x1, hx1, ?_⟩
  have hd : ∀ e ∈ edges, e.1.1 ≠ e.1.2 := fun e h => edge_ne (he e h)
  have hb := barta (good (U := U) he) (fun y => Real.exp (src.logAmp y).re) (fun _ _ => Real.exp_pos _)
    (hubbardLocalEn src (U : ℂ) (edges.map fun e => (e.1, (e.2 : ℂ))) x1).re
    (fun x hx => by rw [← localEn_eq hd src hpos hx (hs x hx)]; exact hmin x hx) phi hphi
  rw [energy_sector U edges hphi, le_div_iff₀ (bornNorm_pos hne)]
  exact hb

/-- ... **C170**: and the model's own energy is at most the largest of them. -/
theorem C170_hubbard_upper (n : Bool → ℕ) (U : ℝ) (edges : List ((Fin L × Fin L) × ℝ)) (he : ∀ e ∈ edges, ChainEdge n e) (hn : ∃ x : Cfg L, InSector n x)
    (src : AmpSource L (Fin 4) Cache) (hs : ∀ x, InSector n x → src.OkAt x) (hpos : ∀ x, InSector n x → (src.logAmp x).im = 0)
    (psi : Cfg L → ℂ) (hin : ∀ x, InSector n x → psi x = Complex.exp (src.logAmp x)) (hout : ∀ x, ¬ InSector n x → psi x = 0) :
    ∃ x, InSector n x ∧ (rayleigh (hubbardMatrix U edges) psi).re ≤ (hubbardLocalEn src (U : ℂ) (edges.map fun e => (e.1, (e.2 : ℂ))) x).re := by
  classical
  obtain ⟨x0, hk0⟩ := hn
  obtain ⟨x1, hx1, hmax⟩ := Finset.exists_max_image (Finset.univ.filter fun x : Cfg L => InSector n x)
    (fun x => (hubbardLocalEn src (U : ℂ) (edges.map fun e => (e.1, (e.2 : ℂ))) x).re) ⟨x0, by simp [hk0]⟩
  simp only [Finset.mem_filter, Finset.mem_univ, true_and] at hx1 hmax
  refine ⟨x1, hx1, ?_⟩
  have hd : ∀ e ∈ edges, e.1.1 ≠ e.1.2 := fun e h => edge_ne (he e h)
  set v : Cfg L → ℝ := fun y => if InSector n y then Real.exp (src.logAmp y).re else 0 with hv
  have e : psi = fun y => ((v y : ℝ) : ℂ) := by
    funext y
    by_cases hy : InSector n y
    · simp only [hv, if_pos hy]
      rw [hin y hy, Complex.ofReal_exp]
      congr 1
      exact Complex.ext rfl (by simpa using hpos y hy)
    · simp only [hv, if_neg hy, Complex.ofReal_zero, hout y hy]
  have ha := average (good (U := U) he) v (fun x hx => by rw [hv]; simp only [if_pos hx]; exact Real.exp_pos _)
    (fun x hx => if_neg hx) (hubbardLocalEn src (U : ℂ) (edges.map fun e => (e.1, (e.2 : ℂ))) x1).re (by
      intro x hx
      refine le_trans (le_of_eq ?_) (hmax x hx)
      rw [localEn_eq hd src hpos hx (hs x hx)]
      congr 1
      · refine Finset.sum_congr rfl fun y _ => ?_
        by_cases hy : InSector n y
        · simp only [hv, if_pos hy]
        · rw [(good (U := U) he).closed x y hx hy, zero_mul, zero_mul]
      · simp only [hv, if_pos hx])
  have hn : 0 < bornNorm psi := by
    refine bornNorm_pos (Function.ne_iff.mpr ⟨x0, ?_⟩)
    rw [hin x0 hk0]
    exact Complex.exp_ne_zero _
  rw [energy_sector U edges hout, div_le_iff₀ hn, e]
  exact ha

/-- **C170** for the Hubbard chain: if moreover no amplitude is zero and the edges connect all sites, there is exactly one ground state with the given
numbers of electrons up to a factor, all its amplitudes are positive, and with them every local energy is the ground-state energy. -/
theorem C170_hubbard_ground (n : Bool → ℕ) (U : ℝ) (edges : List ((Fin L × Fin L) × ℝ)) (he : ∀ e ∈ edges, ChainEdge n e)
    (ht : ∀ e ∈ edges, e.2 ≠ 0) (hc : Connected edges) (hn : ∃ x : Cfg L, InSector n x) :
    ∃ (E : ℝ) (v : Cfg L → ℝ), (∀ x, InSector n x → 0 < v x) ∧ (∀ x, ¬ InSector n x → v x = 0) ∧
      (∀ phi : Cfg L → ℂ, (∀ x, ¬ InSector n x → phi x = 0) → phi ≠ 0 →
        E ≤ (rayleigh (hubbardMatrix U edges) phi).re ∧
        ((rayleigh (hubbardMatrix U edges) phi).re = E ↔ ∃ c : ℂ, ∀ x, phi x = c * v x)) ∧
      ∀ src : AmpSource L (Fin 4) Cache, (∀ x, InSector n x → src.OkAt x) → (∀ x, InSector n x → src.logAmp x = Real.log (v x)) →
        ∀ x, InSector n x → (hubbardLocalEn src (U : ℂ) (edges.map fun e => (e.1, (e.2 : ℂ))) x).re = E := by
  have hd : ∀ e ∈ edges, e.1.1 ≠ e.1.2 := fun e h => edge_ne (he e h)
  obtain ⟨E, v, hv, hv0, heig, hE⟩ := ground (good (U := U) he) hn fun x y hx hy => sector_connected he ht hc x y hx hy
  refine ⟨E, v, hv, hv0, fun phi hphi hne => ?_, fun src hs hl x hx => ?_⟩
  · have hb := bornNorm_pos hne
    rw [energy_sector U edges hphi]
    obtain ⟨h1, h2⟩ := hE phi hphi
    refine ⟨?_, ?_, ?_⟩
    · rw [le_div_iff₀ hb]; exact h1
    · intro h
      rw [div_eq_iff hb.ne'] at h
      exact h2 h
    · rintro ⟨c, hc'⟩
      have e : phi = fun x => c * (v x : ℂ) := funext hc'
      rw [div_eq_iff hb.ne', e]
      exact eigen_energy heig c
  · have h0 : ∀ y, InSector n y → Real.exp (src.logAmp y).re = v y := by
      intro y hy
      rw [hl y hy, Complex.ofReal_re, Real.exp_log (hv y hy)]
    rw [localEn_eq hd src (fun y hy => by rw [hl y hy, Complex.ofReal_im]) hx (hs x hx), h0 x hx, div_eq_iff (hv x hx).ne', ← heig x]
    refine Finset.sum_congr rfl fun y _ => ?_
    by_cases hy : InSector n y
    · rw [h0 y hy]
    · rw [(good (U := U) he).closed x y hx hy, zero_mul, zero_mul]

/-! ## The chain of the autoregressive script -/

open HubbardScript in
theorem argps_edges {L : ℕ} (hL : 2 ≤ L) (h1 : L % 4 ≠ 1) {t : ℝ} (ht : 0 < t) :
    ∃ es, argpsHubbard L t true = some es ∧ (∀ e ∈ es, ChainEdge (fun _ => L / 2) e) ∧ (∀ e ∈ es, e.2 ≠ 0) ∧ es.map Prod.fst = argpsEdges L := by
  obtain ⟨n, rfl⟩ : ∃ n, L = n + 1 := ⟨L - 1, by omega⟩
  have hlen : (argpsEdges (n + 1)).length = n + 1 := by simp [argpsEdges]
  have hadj : ∀ e ∈ argpsEdges (n + 1), e.1.val + 1 = e.2.val ∨ (e.1.val = n ∧ e.2.val = 0) := by
    intro e he
    obtain ⟨i, -, rfl⟩ := List.mem_map.mp he
    have := i.isLt
    by_cases hi : i.val = n
    · right
      exact ⟨hi, by simp [hi]⟩
    · left
      show i.val + 1 = (i.val + 1) % (n + 1)
      rw [Nat.mod_eq_of_lt (by omega)]
  by_cases h4 : (n + 1) % 4 = 0
  · obtain ⟨es, hes⟩ := argps_last n
    have hes2 : ∀ e ∈ es, e.1.val + 1 = e.2.val := by
      intro e he
      rcases hadj e (by rw [hes]; simp [he]) with h | ⟨h, h'⟩
      · exact h
      · exfalso
        have hnd : (es ++ [((Fin.last n, 0) : Fin (n + 1) × Fin (n + 1))]).Nodup := by
          rw [← hes]
          exact (List.nodup_finRange _).map fun a b hab => (Prod.ext_iff.mp hab).1
        have := List.disjoint_of_nodup_append hnd he
        apply this
        simp only [List.mem_singleton]
        exact Prod.ext (Fin.ext (by simpa using h)) (Fin.ext (by simpa using h'))
    refine ⟨(es.map fun e => (e, t)) ++ [((Fin.last n, 0), -t)], ?_, ?_, ?_, ?_⟩
    · unfold argpsHubbard
      have hl : es.length = n := by
        have := congrArg List.length hes
        rw [hlen] at this
        simpa using this.symm
      simp only [true_and, h4, if_true]
      rw [flipLast_replicate, hes]
      simp only [hubbardInit, List.length_append, List.length_replicate, List.length_singleton, hl, lt_irrefl, if_false, Option.some.injEq]
      rw [List.zip_append (by simp [hl])]
      congr 1
      have hz : ∀ l : List (Fin (n + 1) × Fin (n + 1)), l.zip (List.replicate l.length t) = l.map fun e => (e, t) := by
        intro l
        induction l with
        | nil => rfl
        | cons e es ih => simp [List.replicate_succ, ih]
      have := hz es
      simp only [hl] at this
      exact this
    · intro e he
      rcases List.mem_append.mp he with he | he
      · obtain ⟨c, hc, rfl⟩ := List.mem_map.mp he
        exact Or.inl ⟨Or.inl (hes2 c hc), ht.le⟩
      · rw [List.mem_singleton] at he
        subst he
        right
        refine ⟨fun h => ?_, Or.inr ⟨rfl, rfl⟩, fun s _ => ?_⟩
        · have := congrArg Fin.val h
          simp at this
          omega
        · have hev : Even ((n + 1) / 2) := by rw [Nat.even_iff]; omega
          show 0 ≤ -t * (-1) ^ ((n + 1) / 2 + 1)
          rw [pow_succ, hev.neg_one_pow]
          linarith
    · intro e he
      rcases List.mem_append.mp he with he | he
      · obtain ⟨c, hc, rfl⟩ := List.mem_map.mp he
        exact ht.ne'
      · rw [List.mem_singleton] at he
        subst he
        exact neg_ne_zero.mpr ht.ne'
    · rw [hes, List.map_append, List.map_map]
      congr 1
      exact List.map_id _
  · refine ⟨(argpsEdges (n + 1)).map fun e => (e, t), ?_, ?_, ?_, ?_⟩
    · unfold argpsHubbard
      simp only [true_and, h4, if_false]
      have h := init_map (argpsEdges (n + 1)) fun _ => t
      rw [← replicate_map, hlen] at h
      exact h
    · intro e he
      obtain ⟨c, hc, rfl⟩ := List.mem_map.mp he
      rcases hadj c hc with h | ⟨h, h'⟩
      · exact Or.inl ⟨Or.inl h, ht.le⟩
      · right
        refine ⟨fun heq => ?_, Or.inr ⟨h', by simpa using h⟩, fun s _ => ?_⟩
        · have := congrArg Fin.val heq
          simp only at this
          omega
        · have hod : Odd ((n + 1) / 2) := by rw [Nat.odd_iff]; omega
          show 0 ≤ t * (-1) ^ ((n + 1) / 2 + 1)
          rw [pow_succ, hod.neg_one_pow]
          linarith
    · intro e he
      obtain ⟨c, hc, rfl⟩ := List.mem_map.mp he
      exact ht.ne'
    · rw [List.map_map]
      exact List.map_id _

open HubbardScript in
theorem argps_connected {L : ℕ} {es : List ((Fin L × Fin L) × ℝ)} (h : es.map Prod.fst = argpsEdges L) : Connected es := by
  have hstep : ∀ i j : Fin L, i.val + 1 = j.val → ∃ e ∈ es, e.1 = (i, j) := by
    intro i j hij
    have hmem : (i, j) ∈ es.map Prod.fst := by
      rw [h]
      refine List.mem_map.mpr ⟨i, List.mem_finRange i, ?_⟩
      refine Prod.ext rfl (Fin.ext ?_)
      show (i.val + 1) % L = j.val
      rw [hij, Nat.mod_eq_of_lt j.isLt]
    obtain ⟨e, he, h⟩ := List.mem_map.mp hmem
    exact ⟨e, he, h⟩
  have hup : ∀ (d : ℕ) (i j : Fin L), i.val + d = j.val →
      Relation.ReflTransGen (fun i j => ∃ e ∈ es, e.1 = (i, j) ∨ e.1 = (j, i)) i j ∧
      Relation.ReflTransGen (fun i j => ∃ e ∈ es, e.1 = (i, j) ∨ e.1 = (j, i)) j i := by
    intro d
    induction d with
    | zero =>
      intro i j hij
      have : i = j := Fin.ext (by simpa using hij)
      subst this
      exact ⟨.refl, .refl⟩
    | succ d ih =>
      intro i j hij
      have hj := j.isLt
      obtain ⟨h1, h2⟩ := ih i ⟨i.val + d, by omega⟩ rfl
      obtain ⟨e, he, hh⟩ := hstep ⟨i.val + d, by omega⟩ j (by simp only; omega)
      exact ⟨h1.tail ⟨e, he, Or.inl hh⟩, (Relation.ReflTransGen.single ⟨e, he, Or.inr hh⟩).trans h2⟩
  intro i j
  rcases le_total i.val j.val with hij | hij
  · exact (hup (j.val - i.val) i j (by omega)).1
  · exact (hup (i.val - j.val) j i (by omega)).2

theorem half_filled (L : ℕ) : ∃ x : Cfg L, InSector (fun _ => L / 2) x := by
  refine ⟨comb fun _ j => decide (j.val < L / 2), fun s => ?_⟩
  rw [comb_num]
  simp only [decide_eq_true_eq]
  exact Fin.card_filter_val_lt.trans (min_eq_right (by omega))

open HubbardScript in
/-- **C170** for the Hubbard chain of the autoregressive script, with periodic boundary conditions and any number of sites that does not leave
the remainder one when divided by four: the boundary condition the script chooses for its numbers of electrons makes the ground state
unique and positive. -/
theorem C170_argps {L : ℕ} (hL : 2 ≤ L) (h1 : L % 4 ≠ 1) {t : ℝ} (ht : 0 < t) (U : ℝ) :
    ∃ es, argpsHubbard L t true = some es ∧ ∃ (E : ℝ) (v : Cfg L → ℝ),
      (∀ x, InSector (fun _ => L / 2) x → 0 < v x) ∧ (∀ x, ¬ InSector (fun _ => L / 2) x → v x = 0) ∧
      ∀ phi : Cfg L → ℂ, (∀ x, ¬ InSector (fun _ => L / 2) x → phi x = 0) → phi ≠ 0 →
        E ≤ (rayleigh (hubbardMatrix U es) phi).re ∧ ((rayleigh (hubbardMatrix U es) phi).re = E ↔ ∃ c : ℂ, ∀ x, phi x = c * v x) := by
  obtain ⟨es, h2, h3, h4, h5⟩ := argps_edges hL h1 ht
  obtain ⟨E, v, hv, hv0, hE, -⟩ := C170_hubbard_ground (Cache := Unit) _ U es h3 h4 (argps_connected h5) (half_filled L)
  exact ⟨es, h2, E, v, hv, hv0, hE⟩

/-! ## The hypotheses are met -/

/-- The periodic chain of four sites with three up electrons and one down electron. -/
def ring : List ((Fin 4 × Fin 4) × ℝ) := [((0, 1), 1), ((1, 2), 1), ((2, 3), 1), ((3, 0), 1)]

example : (∀ e ∈ ring, ChainEdge (fun s => if s then 1 else 3) e) ∧ ∀ e ∈ ring, e.2 ≠ 0 := by
  simp [ring, ChainEdge]
  norm_num

/-- The antiperiodic chain at half filling. -/
example : ∀ e ∈ [((0, 1), 1), ((1, 2), 1), ((2, 3), 1), ((3, 0), -1)], ChainEdge (L := 4) (fun _ => 2) e := by
  simp [ChainEdge]
  norm_num

theorem ring_connected : Connected ring := by
  have h : ∀ i : Fin 4, Relation.ReflTransGen (fun i j => ∃ e ∈ ring, e.1 = (i, j) ∨ e.1 = (j, i)) 0 i ∧
      Relation.ReflTransGen (fun i j => ∃ e ∈ ring, e.1 = (i, j) ∨ e.1 = (j, i)) i 0 := by
    have s01 : ∀ i j : Fin 4, (i, j) ∈ ring.map Prod.fst → (∃ e ∈ ring, e.1 = (i, j) ∨ e.1 = (j, i)) ∧ ∃ e ∈ ring, e.1 = (j, i) ∨ e.1 = (i, j) := by
      intro i j h
      obtain ⟨e, he, h⟩ := List.mem_map.mp h
      exact ⟨⟨e, he, Or.inl h⟩, ⟨e, he, Or.inr h⟩⟩
    have a := s01 0 1 (by simp [ring])
    have b := s01 1 2 (by simp [ring])
    have c := s01 3 0 (by simp [ring])
    intro i
    fin_cases i
    · exact ⟨.refl, .refl⟩
    · exact ⟨.single a.1, .single a.2⟩
    · exact ⟨(Relation.ReflTransGen.single a.1).tail b.1, (Relation.ReflTransGen.single b.2).tail a.2⟩
    · exact ⟨.single c.2, .single c.1⟩
  exact fun i j => (h i).2.trans (h j).1

example : ∃ x : Cfg 4, InSector (fun s => if s then 1 else 3) x := ⟨![3, 1, 1, 0], by intro s; cases s <;> decide⟩

/-- Models with positive amplitudes. -/
example (f : Cfg L → ℝ) (x : Cfg L) : ((AmpSource.full fun x => (f x : ℂ) : AmpSource L (Fin 4) Unit).logAmp x).im = 0 ∧
    (AmpSource.full fun x => (f x : ℂ) : AmpSource L (Fin 4) Unit).OkAt x := ⟨Complex.ofReal_im _, trivial⟩

end GPSKet.GroundHubbard
