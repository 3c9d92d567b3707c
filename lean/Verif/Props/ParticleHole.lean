import Verif.Spec.ParticleHole
import Verif.Lemmas.ParticleHole
import Verif.Props.LatticeSymmetry
import Mathlib.Analysis.SpecialFunctions.Complex.Log

/-! # Hubbard models: signs of the hopping, particles and holes, attraction and repulsion (C196) -/

namespace GPSKet.ParticleHole

open GPSKet GPSKet.Spec Matrix

variable {L : ℕ} {Cache Cache' : Type}

/-! ## Configurations -/

theorem hasSpin_localState (a b : Bool) : hasSpin false (localState a b) = a ∧ hasSpin true (localState a b) = b := by
  cases a <;> cases b <;> exact ⟨rfl, rfl⟩

theorem hasSpin_holes (S : Bool → Bool) (x : Cfg L) (s : Bool) (i : Fin L) : hasSpin s (holes S x i) = (hasSpin s (x i) ^^ S s) := by
  unfold holes
  cases s
  · exact (hasSpin_localState _ _).1
  · exact (hasSpin_localState _ _).2

theorem hasSpin_swap (x : Cfg L) (s : Bool) (i : Fin L) : hasSpin s (swapSpins x i) = hasSpin (!s) (x i) := by
  unfold swapSpins
  cases s
  · exact (hasSpin_localState _ _).1
  · exact (hasSpin_localState _ _).2

/-- the set of modes of the spins -/
def onModes (S : Bool → Bool) : Mode L → Bool := fun m => S (ofLex m).1

/-- the signs of the modes -/
def sgnModes (σ : Bool → Fin L → ℤ) : Mode L → ℤ := fun m => σ (ofLex m).1 (ofLex m).2

theorem occOf_holes (S : Bool → Bool) (x : Cfg L) : occOf (holes S x) = Spec.ParticleHole.flip (onModes S) (occOf x) := by
  funext m
  exact hasSpin_holes S x _ _

theorem prod_modes (f : Mode L → ℤ) : ∏ m, f m = ∏ s : Bool, ∏ i, f (mode s i) := by
  rw [← Finset.prod_product']
  exact (Equiv.prod_comp (toLex : Bool × Fin L ≃ Mode L) f).symm

theorem sgn_occOf (σ : Bool → Fin L → ℤ) (x : Cfg L) : Spec.ParticleHole.sgn (sgnModes σ) (occOf x) = electronSigns σ x := by
  unfold Spec.ParticleHole.sgn electronSigns
  rw [prod_modes]
  rfl

theorem prod_before (i : Fin L) : (∏ j : Fin L, if j < i then (-1 : ℤ) else 1) = (-1) ^ i.val := by
  rw [Finset.prod_ite, Finset.prod_const, Finset.prod_const_one, mul_one]
  congr 1
  rw [show (Finset.univ.filter fun j : Fin L => j < i) = Finset.Iio i by ext j; simp, Fin.card_Iio]

theorem count_mode (S : Bool → Bool) (s : Bool) (i : Fin L) : Spec.ParticleHole.count (onModes S) (mode s i) =
    (if s = true ∧ S false = true then (-1) ^ L else 1) * if S s then (-1) ^ i.val else 1 := by
  unfold Spec.ParticleHole.count
  rw [prod_modes]
  simp only [LatticeSymmetry.mode_lt]
  have hS : ∀ s j, onModes S (mode s j : Mode L) = S s := fun _ _ => rfl
  simp only [hS, Fintype.prod_bool]
  cases s
  · cases h0 : S false
    · simp
    · simp only [Bool.false_eq_true, false_and, if_false, one_mul, if_true, and_true, true_and, lt_self_iff_false, false_or]
      rw [prod_before, Finset.prod_eq_one, one_mul]
      intro j _
      simp
  · cases h1 : S true <;> cases h0 : S false <;> simp [prod_before, mul_comm]

theorem count_pair (S : Bool → Bool) (s : Bool) (i j : Fin L) :
    Spec.ParticleHole.count (onModes S) (mode s i) * Spec.ParticleHole.count (onModes S) (mode s j) =
      if S s then (-1) ^ i.val * (-1) ^ j.val else 1 := by
  rw [count_mode, count_mode]
  have h : ((-1 : ℤ) ^ L) * (-1) ^ L = 1 := by rw [← pow_add, ← two_mul, pow_mul]; norm_num
  by_cases hs : S s = true
  · by_cases h0 : s = true ∧ S false = true
    · simp only [hs, if_true, if_pos h0]
      linear_combination ((-1 : ℤ) ^ i.val * (-1) ^ j.val) * h
    · simp only [hs, if_true, if_neg h0]
      ring
  · by_cases h0 : s = true ∧ S false = true
    · simp only [hs, if_pos h0]
      simpa using h
    · simp [hs, if_neg h0]

/-! ## Matrix elements -/

/-- the hopping of an edge -/
def edgeHop (i j : Fin L) : Matrix (Occ (Mode L)) (Occ (Mode L)) ℤ :=
  ∑ s : Bool, (cre (mode s i) * ann (mode s j) + cre (mode s j) * ann (mode s i))

theorem edgeHop_elem (S : Bool → Bool) (σ : Bool → Fin L → ℤ) (hσ : ∀ s i, σ s i * σ s i = 1) {i j : Fin L} (hij : i ≠ j) (ε : ℤ)
    (hε : ∀ s, σ s i * σ s j * (if S s then -((-1) ^ i.val * (-1) ^ j.val) else 1) = ε) (x y : Cfg L) :
    electronSigns σ x * edgeHop i j (occOf x) (occOf y) =
      ε * edgeHop i j (occOf (holes S x)) (occOf (holes S y)) * electronSigns σ y := by
  have hσ' : ∀ p, sgnModes σ p * sgnModes σ p = 1 := fun p => hσ _ _
  have hm : ∀ s, mode s i ≠ mode s j := fun s h => hij (mode_inj.mp h).2
  have hfac : ∀ s, Spec.ParticleHole.fac (onModes S) (sgnModes σ) (mode s i) * Spec.ParticleHole.fac (onModes S) (sgnModes σ) (mode s j) *
      (if onModes S (mode s i : Mode L) then -1 else 1) = ε := by
    intro s
    rw [← hε s]
    unfold Spec.ParticleHole.fac
    have := count_pair S s i j
    have hS : onModes S (mode s i : Mode L) = S s := rfl
    have h1 : ∀ k, sgnModes σ (mode s k : Mode L) = σ s k := fun _ => rfl
    rw [hS, h1, h1]
    by_cases hs : S s = true
    · simp only [hs, if_true] at this ⊢
      linear_combination (-(σ s i * σ s j)) * this
    · simp only [hs] at this ⊢
      simp only [Bool.false_eq_true, if_false] at this ⊢
      linear_combination (σ s i * σ s j) * this
  have hV : Spec.ParticleHole.V (onModes S) (sgnModes σ) * edgeHop i j =
      ε • (edgeHop i j * Spec.ParticleHole.V (onModes S) (sgnModes σ)) := by
    unfold edgeHop
    rw [Finset.mul_sum, Finset.sum_mul, Finset.smul_sum]
    refine Finset.sum_congr rfl fun s _ => ?_
    have e1 := Spec.ParticleHole.V_hop hσ' (hm s) (S := onModes S) rfl
    have e2 := Spec.ParticleHole.V_hop hσ' (hm s).symm (S := onModes S) rfl
    have hS : ∀ k, onModes S (mode s k : Mode L) = S s := fun _ => rfl
    have f1 := hfac s
    have f2 : Spec.ParticleHole.fac (onModes S) (sgnModes σ) (mode s j) * Spec.ParticleHole.fac (onModes S) (sgnModes σ) (mode s i) *
        (if onModes S (mode s j : Mode L) then -1 else 1) = ε := by rw [mul_comm (Spec.ParticleHole.fac _ _ (mode s j))]; exact f1
    rw [f1] at e1
    rw [f2] at e2
    rw [mul_add, e1, e2, ← smul_add, ← add_mul]
    congr 2
    simp only [hS]
    split_ifs
    · exact add_comm _ _
    · rfl
  have h := congrFun (congrFun hV (occOf (holes S x))) (occOf y)
  rw [Matrix.smul_apply, smul_eq_mul, Matrix.mul_apply, Matrix.mul_apply] at h
  rw [Finset.sum_eq_single (occOf x), Finset.sum_eq_single (occOf (holes S y))] at h
  · rw [Spec.ParticleHole.V_apply, Spec.ParticleHole.V_apply, if_pos (occOf_holes S x), if_pos (occOf_holes S y), sgn_occOf, sgn_occOf] at h
    rw [h]; ring
  · intro n _ hn
    rw [Spec.ParticleHole.V_apply, if_neg (fun h' => hn (h'.trans (occOf_holes S y).symm)), mul_zero]
  · simp
  · intro n _ hn
    rw [Spec.ParticleHole.V_apply, if_neg, zero_mul]
    intro h'
    rw [occOf_holes] at h'
    have := congrArg (Spec.ParticleHole.flip (onModes S)) h'
    rw [Spec.ParticleHole.flip_flip, Spec.ParticleHole.flip_flip] at this
    exact hn this.symm
  · simp

/-- number of doubly occupied sites -/
def doubly (x : Cfg L) : ℕ := (Finset.univ.filter fun j => x j = 3).card

theorem hubbard_elem (U : ℂ) (edges : List ((Fin L × Fin L) × ℂ)) (x y : Cfg L) : hubbard U edges (occOf x) (occOf y) =
    (edges.map fun e => -(e.2 * (edgeHop e.1.1 e.1.2 (occOf x) (occOf y) : ℂ))).sum + if x = y then U * (doubly x : ℂ) else 0 := by
  unfold hubbard
  rw [Matrix.add_apply]
  congr 1
  · induction edges with
    | nil => simp
    | cons e es ih =>
      rw [List.map_cons, List.sum_cons, List.map_cons, List.sum_cons, Matrix.add_apply, ih]
      rfl
  · rw [Matrix.smul_apply, smul_eq_mul, toK_apply, docc_apply]
    unfold doubly
    split_ifs <;> simp

theorem holes_holes (S : Bool → Bool) (x : Cfg L) : holes S (holes S x) = x := by
  apply occOf_injective
  rw [occOf_holes, occOf_holes, Spec.ParticleHole.flip_flip]

theorem holes_injective (S : Bool → Bool) : Function.Injective (holes (L := L) S) := fun x y h => by
  rw [← holes_holes S x, h, holes_holes]

/-- the edges with changed signs -/
def resign (ε : Fin L → Fin L → ℤ) (edges : List ((Fin L × Fin L) × ℂ)) : List ((Fin L × Fin L) × ℂ) :=
  edges.map fun e => (e.1, (ε e.1.1 e.1.2 : ℂ) * e.2)

theorem hubbard_holes (S : Bool → Bool) (σ : Bool → Fin L → ℤ) (hσ : ∀ s i, σ s i * σ s i = 1) (ε : Fin L → Fin L → ℤ) (U U' : ℂ)
    (edges : List ((Fin L × Fin L) × ℂ)) (hne : ∀ e ∈ edges, e.1.1 ≠ e.1.2)
    (hε : ∀ e ∈ edges, ∀ s, σ s e.1.1 * σ s e.1.2 * (if S s then -((-1) ^ e.1.1.val * (-1) ^ e.1.2.val) else 1) = ε e.1.1 e.1.2) (x y : Cfg L) :
    hubbard U' (resign ε edges) (occOf (holes S x)) (occOf (holes S y)) * (electronSigns σ y : ℂ) =
      (electronSigns σ x : ℂ) * (hubbard U edges (occOf x) (occOf y) + if x = y then U' * doubly (holes S x) - U * doubly x else 0) := by
  rw [hubbard_elem, hubbard_elem, add_mul, add_assoc, mul_add]
  congr 1
  · unfold resign
    rw [List.map_map]
    induction edges with
    | nil => simp
    | cons e es ih =>
      rw [List.map_cons, List.sum_cons, List.map_cons, List.sum_cons, add_mul, mul_add,
        ih (fun e' he' => hne e' (List.mem_cons_of_mem _ he')) (fun e' he' => hε e' (List.mem_cons_of_mem _ he'))]
      congr 1
      have := edgeHop_elem S σ hσ (hne e List.mem_cons_self) (ε e.1.1 e.1.2) (hε e List.mem_cons_self) x y
      have hc : (electronSigns σ x : ℂ) * edgeHop e.1.1 e.1.2 (occOf x) (occOf y) =
        ε e.1.1 e.1.2 * edgeHop e.1.1 e.1.2 (occOf (holes S x)) (occOf (holes S y)) * electronSigns σ y := by exact_mod_cast this
      simp only [Function.comp]
      linear_combination e.2 * hc
  · by_cases h : x = y
    · subst h
      simp only [if_true]
      ring
    · rw [if_neg h, if_neg h, if_neg (fun h' => h (holes_injective S h'))]
      ring

/-! ## Local energies -/

theorem electronSigns_sq (σ : Bool → Fin L → ℤ) (hσ : ∀ s i, σ s i * σ s i = 1) (x : Cfg L) :
    (electronSigns σ x : ℂ) * electronSigns σ x = 1 := by
  have : electronSigns σ x * electronSigns σ x = 1 := by
    unfold electronSigns
    rw [← Finset.prod_mul_distrib]
    refine Finset.prod_eq_one fun s _ => ?_
    rw [← Finset.prod_mul_distrib]
    refine Finset.prod_eq_one fun i _ => ?_
    split_ifs
    · exact hσ s i
    · norm_num
  exact_mod_cast this

/-- local energies of states related by an exchange of configurations and signs -/
theorem localEnergy_map (T : Cfg L ≃ Cfg L) (H H' : Cfg L → Cfg L → ℂ) (f f' : Cfg L → ℂ) (χ d : ℂ) (sg : Cfg L → ℂ) (x : Cfg L)
    (hs : ∀ y, sg y * sg y = 1) (hH : ∀ y, H' (T x) (T y) * sg y = sg x * (H x y + if x = y then d else 0))
    (hpsi : ∀ y, H x y ≠ 0 ∨ y = x → Complex.exp (f' (T y)) = χ * sg y * Complex.exp (f y)) :
    localEnergy (H' (T x)) f' (T x) = localEnergy (H x) f x + d := by
  unfold localEnergy
  rw [← Equiv.sum_comp T]
  have hx := hpsi x (.inr rfl)
  have hχ : χ * sg x ≠ 0 := fun h => Complex.exp_ne_zero (f' (T x)) (by rw [hx, h, zero_mul])
  have h1 : χ ≠ 0 := left_ne_zero_of_mul hχ
  have h2 : sg x ≠ 0 := right_ne_zero_of_mul hχ
  have h3 := Complex.exp_ne_zero (f x)
  have key : ∀ y, H' (T x) (T y) * (Complex.exp (f' (T y)) / Complex.exp (f' (T x))) =
      H x y * (Complex.exp (f y) / Complex.exp (f x)) + if y = x then d else 0 := by
    intro y
    have hxy : H' (T x) (T y) = sg x * (H x y + if x = y then d else 0) * sg y := by
      rw [← hH, mul_assoc, hs, mul_one]
    by_cases hyx : y = x
    · subst hyx
      rw [hxy, if_pos rfl, div_self (Complex.exp_ne_zero _), div_self h3]
      linear_combination (H y y + d) * hs y
    · rw [if_neg hyx, add_zero, hxy, if_neg (fun h => hyx h.symm), add_zero]
      by_cases hz : H x y = 0
      · rw [hz]; simp
      · rw [hpsi y (.inl hz), hx]
        field_simp
        linear_combination hs y
  rw [Finset.sum_congr rfl fun y _ => key y, Finset.sum_add_distrib]
  simp

/-- exchange of electrons and holes as a bijection -/
def holesEquiv (S : Bool → Bool) : Cfg L ≃ Cfg L := ⟨holes S, holes S, holes_holes S, holes_holes S⟩

theorem hubbard_conserves (U : ℂ) (edges : List ((Fin L × Fin L) × ℂ)) (x y : Cfg L) (h : hubbard U edges (occOf x) (occOf y) ≠ 0) (s : Bool) :
    numElec s y = numElec s x := by
  rw [← C04_hubbard_row] at h
  by_contra hc
  refine h (List.sum_eq_zero fun v hv => ?_)
  simp only [List.mem_map, List.mem_filter, decide_eq_true_eq] at hv
  obtain ⟨r, ⟨hr, rfl⟩, _⟩ := hv
  exact absurd (C05_hubbard_conserves U edges x r hr s) hc

theorem local_energy (S : Bool → Bool) (σ : Bool → Fin L → ℤ) (hσ : ∀ s i, σ s i * σ s i = 1) (ε : Fin L → Fin L → ℤ) (U U' : ℂ)
    (edges : List ((Fin L × Fin L) × ℂ)) (hne : ∀ e ∈ edges, e.1.1 ≠ e.1.2)
    (hε : ∀ e ∈ edges, ∀ s, σ s e.1.1 * σ s e.1.2 * (if S s then -((-1) ^ e.1.1.val * (-1) ^ e.1.2.val) else 1) = ε e.1.1 e.1.2)
    (src : AmpSource L (Fin 4) Cache) (src' : AmpSource L (Fin 4) Cache') (χ : ℂ) (x : Cfg L)
    (hpsi : ∀ y, (∀ s, numElec s y = numElec s x) →
      Complex.exp (src'.logAmp (holes S y)) = χ * electronSigns σ y * Complex.exp (src.logAmp y))
    (hs : src.OkAt x) (hs' : src'.OkAt (holes S x)) :
    hubbardLocalEn src' U' (resign ε edges) (holes S x) = hubbardLocalEn src U edges x + (U' * doubly (holes S x) - U * doubly x) := by
  have hne' : ∀ e ∈ resign ε edges, e.1.1 ≠ e.1.2 := by
    intro e he
    unfold resign at he
    obtain ⟨e', he', rfl⟩ := List.mem_map.mp he
    exact hne e' he'
  rw [(C07_local_energy_partial src' U' _ hne' _ hs').2, (C07_local_energy_partial src U edges hne _ hs).2]
  refine localEnergy_map (holesEquiv S) (fun x y => hubbard U edges (occOf x) (occOf y))
    (fun x y => hubbard U' (resign ε edges) (occOf x) (occOf y)) src.logAmp src'.logAmp χ _ (fun y => (electronSigns σ y : ℂ)) x
    (electronSigns_sq σ hσ) (fun y => hubbard_holes S σ hσ ε U U' edges hne hε x y) fun y hy => ?_
  refine hpsi y fun s => ?_
  rcases hy with hy | rfl
  · exact hubbard_conserves U edges x y hy s
  · rfl

theorem holes_none (x : Cfg L) : holes (fun _ => false) x = x := by
  apply occOf_injective
  rw [occOf_holes]
  funext m
  simp [Spec.ParticleHole.flip, onModes]

/-- **C196**, signs at the sites: if the amplitudes of one state are those of another times a sign for every electron that depends on its
site, then its local energies, for hopping amplitudes multiplied by the signs of both ends of each edge, are the same. -/
theorem C196_gauge (φ : Fin L → ℤ) (hφ : ∀ i, φ i * φ i = 1) (U : ℂ) (edges : List ((Fin L × Fin L) × ℂ)) (hne : ∀ e ∈ edges, e.1.1 ≠ e.1.2)
    (src : AmpSource L (Fin 4) Cache) (src' : AmpSource L (Fin 4) Cache') (χ : ℂ) (x : Cfg L)
    (hpsi : ∀ y, (∀ s, numElec s y = numElec s x) →
      Complex.exp (src'.logAmp y) = χ * electronSigns (fun _ => φ) y * Complex.exp (src.logAmp y))
    (hs : src.OkAt x) (hs' : src'.OkAt x) :
    hubbardLocalEn src' U (regauge φ edges) x = hubbardLocalEn src U edges x := by
  have h := local_energy (fun _ => false) (fun _ => φ) (fun _ => hφ) (fun i j => φ i * φ j) U U edges hne (fun e _ s => by simp) src src' χ x
    (by simpa only [holes_none] using hpsi) hs (by rwa [holes_none])
  rw [holes_none, sub_self, add_zero] at h
  rw [← h]
  congr 1
  unfold regauge resign
  simp

/-- **C196**, the sign of the hopping: on a lattice whose sites have two colours such that edges join different colours, changing the sign of
all hopping amplitudes is the same as a minus sign for every electron on a site of one colour. -/
theorem C196_negated_hopping (colour : Fin L → Bool) (U : ℂ) (edges : List ((Fin L × Fin L) × ℂ))
    (hc : ∀ e ∈ edges, colour e.1.1 ≠ colour e.1.2) (src : AmpSource L (Fin 4) Cache) (src' : AmpSource L (Fin 4) Cache') (χ : ℂ) (x : Cfg L)
    (hpsi : ∀ y, (∀ s, numElec s y = numElec s x) →
      Complex.exp (src'.logAmp y) = χ * electronSigns (fun _ i => if colour i then -1 else 1) y * Complex.exp (src.logAmp y))
    (hs : src.OkAt x) (hs' : src'.OkAt x) :
    hubbardLocalEn src' U (edges.map fun e => (e.1, -e.2)) x = hubbardLocalEn src U edges x := by
  rw [← C196_gauge (fun i => if colour i then -1 else 1) (fun i => by split_ifs <;> norm_num) U edges (fun e he h => hc e he (by rw [h])) src src' χ x
    hpsi hs hs']
  congr 1
  unfold regauge
  refine List.map_congr_left fun e he => ?_
  have := hc e he
  cases h1 : colour e.1.1 <;> cases h2 : colour e.1.2 <;> simp_all

theorem holeSign_sq (S : Bool → Bool) (colour : Fin L → Bool) (s : Bool) (i : Fin L) : holeSign S colour s i * holeSign S colour s i = 1 := by
  unfold holeSign
  have h : ((-1 : ℤ) ^ i.val) * (-1) ^ i.val = 1 := by rw [← pow_add, ← two_mul, pow_mul]; norm_num
  split_ifs
  · linear_combination h
  · linear_combination h
  · norm_num

theorem holeSign_edge (S : Bool → Bool) (colour : Fin L → Bool) {i j : Fin L} (h : colour i ≠ colour j) (s : Bool) :
    holeSign S colour s i * holeSign S colour s j * (if S s then -((-1) ^ i.val * (-1) ^ j.val) else 1) = 1 := by
  unfold holeSign
  have hi : ((-1 : ℤ) ^ i.val) * (-1) ^ i.val = 1 := by rw [← pow_add, ← two_mul, pow_mul]; norm_num
  have hj : ((-1 : ℤ) ^ j.val) * (-1) ^ j.val = 1 := by rw [← pow_add, ← two_mul, pow_mul]; norm_num
  cases hS : S s
  · simp
  · cases h1 : colour i <;> cases h2 : colour j
    · exact absurd (h1.trans h2.symm) h
    · simp only [if_true, Bool.false_eq_true, if_false]
      linear_combination ((-1 : ℤ) ^ j.val * (-1) ^ j.val) * hi + hj
    · simp only [if_true, Bool.false_eq_true, if_false]
      linear_combination ((-1 : ℤ) ^ j.val * (-1) ^ j.val) * hi + hj
    · exact absurd (h1.trans h2.symm) h

theorem resign_one (edges : List ((Fin L × Fin L) × ℂ)) : resign (fun _ _ => 1) edges = edges := by
  unfold resign
  simp

theorem card_site (p : Fin 4 → Prop) [DecidablePred p] (x : Cfg L) :
    ((Finset.univ.filter fun j => p (x j)).card : ℂ) = ∑ j, if p (x j) then 1 else 0 := by
  rw [Finset.card_filter]
  push_cast
  rfl

/-- **C196**, electrons and holes: on such a lattice, exchanging electrons and holes of both spins, with the appropriate signs, gives the
same Hubbard model again: the local energies differ by `U` times the number of sites minus the number of electrons, and at half filling not
at all. -/
theorem C196_particle_hole (colour : Fin L → Bool) (U : ℂ) (edges : List ((Fin L × Fin L) × ℂ))
    (hc : ∀ e ∈ edges, colour e.1.1 ≠ colour e.1.2) (src : AmpSource L (Fin 4) Cache) (src' : AmpSource L (Fin 4) Cache') (χ : ℂ) (x : Cfg L)
    (hpsi : ∀ y, (∀ s, numElec s y = numElec s x) → Complex.exp (src'.logAmp (holes (fun _ => true) y)) =
      χ * electronSigns (holeSign (fun _ => true) colour) y * Complex.exp (src.logAmp y))
    (hs : src.OkAt x) (hs' : src'.OkAt (holes (fun _ => true) x)) :
    hubbardLocalEn src' U edges (holes (fun _ => true) x) =
      hubbardLocalEn src U edges x + U * ((L : ℂ) - numElec false x - numElec true x) := by
  have h := local_energy (fun _ => true) (holeSign (fun _ => true) colour) (holeSign_sq _ _) (fun _ _ => 1) U U edges
    (fun e he h => hc e he (by rw [h])) (fun e he s => holeSign_edge _ colour (hc e he) s) src src' χ x hpsi hs hs'
  rw [resign_one] at h
  rw [h]
  congr 1
  rw [← mul_sub]
  congr 1
  unfold doubly numElec
  rw [card_site (fun v => v = 3), card_site (fun v => v = 3), card_site (fun v => hasSpin false v = true), card_site (fun v => hasSpin true v = true)]
  have hL : (L : ℂ) = ∑ j : Fin L, 1 := by simp
  rw [hL, ← Finset.sum_sub_distrib, ← Finset.sum_sub_distrib, ← Finset.sum_sub_distrib]
  refine Finset.sum_congr rfl fun j _ => ?_
  unfold holes
  generalize x j = v
  fin_cases v <;> simp [hasSpin, localState]

/-- **C196**, attraction and repulsion: exchanging electrons and holes of one spin only (here down) maps the repulsive to the attractive
model: the local energies differ by `U` times the number of up electrons. -/
theorem C196_attractive (colour : Fin L → Bool) (U : ℂ) (edges : List ((Fin L × Fin L) × ℂ))
    (hc : ∀ e ∈ edges, colour e.1.1 ≠ colour e.1.2) (src : AmpSource L (Fin 4) Cache) (src' : AmpSource L (Fin 4) Cache') (χ : ℂ) (x : Cfg L)
    (hpsi : ∀ y, (∀ s, numElec s y = numElec s x) → Complex.exp (src'.logAmp (holes (fun s => s) y)) =
      χ * electronSigns (holeSign (fun s => s) colour) y * Complex.exp (src.logAmp y))
    (hs : src.OkAt x) (hs' : src'.OkAt (holes (fun s => s) x)) :
    hubbardLocalEn src' (-U) edges (holes (fun s => s) x) = hubbardLocalEn src U edges x - U * numElec false x := by
  have h := local_energy (fun s => s) (holeSign (fun s => s) colour) (holeSign_sq _ _) (fun _ _ => 1) U (-U) edges
    (fun e he h => hc e he (by rw [h])) (fun e he s => holeSign_edge _ colour (hc e he) s) src src' χ x hpsi hs hs'
  rw [resign_one] at h
  rw [h, sub_eq_add_neg (hubbardLocalEn src U edges x)]
  congr 1
  rw [← mul_neg, neg_mul, ← neg_add', ← mul_add, ← mul_neg]
  congr 1
  unfold doubly numElec
  rw [card_site (fun v => v = 3), card_site (fun v => v = 3), card_site (fun v => hasSpin false v = true)]
  rw [← Finset.sum_add_distrib]
  congr 1
  refine Finset.sum_congr rfl fun j _ => ?_
  unfold holes
  generalize x j = v
  fin_cases v <;> simp [hasSpin, localState]

/-! ## Up and down -/

/-- the exchange of the spins of the modes -/
def swapModes : Equiv.Perm (Mode L) where
  toFun m := mode (!(ofLex m).1) (ofLex m).2
  invFun m := mode (!(ofLex m).1) (ofLex m).2
  left_inv m := by simp [mode]
  right_inv m := by simp [mode]

theorem swapModes_mode (s : Bool) (i : Fin L) : swapModes (mode s i) = mode (!s) i := rfl

theorem occOf_swap (x : Cfg L) : occOf (swapSpins x) = ModePerm.move swapModes (occOf x) := by
  funext m
  exact hasSpin_swap x _ _

theorem swap_swap (x : Cfg L) : swapSpins (swapSpins x) = x := by
  apply occOf_injective
  funext m
  show hasSpin _ _ = hasSpin _ _
  rw [hasSpin_swap, hasSpin_swap, Bool.not_not]

def swapEquiv : Cfg L ≃ Cfg L := ⟨swapSpins, swapSpins, swap_swap, swap_swap⟩

/-- every up electron passes every down electron -/
theorem inv_swap (x : Cfg L) : ModePerm.inv swapModes (occOf x) = (-1) ^ (numElec false x * numElec true x) := by
  unfold ModePerm.inv
  have hp : ∀ (s s' : Bool) (i j : Fin L), (if mode s i < mode s' j ∧ occOf x (mode s i) = true ∧ occOf x (mode s' j) = true ∧
      swapModes (mode s' j) < swapModes (mode s i) then (-1 : ℤ) else 1) =
      if s = false ∧ s' = true then (if hasSpin false (x i) = true then (if hasSpin true (x j) = true then -1 else 1) else 1) else 1 := by
    intro s s' i j
    simp only [swapModes_mode, LatticeSymmetry.mode_lt, occOf_mode]
    cases s <;> cases s'
    · simp only [lt_self_iff_false, false_or, true_and, Bool.false_eq_true, and_false, if_false]
      rw [if_neg]
      rintro ⟨h1, _, _, h2⟩
      exact absurd h1 h2.not_gt
    · cases h1 : hasSpin false (x i) <;> cases h2 : hasSpin true (x j) <;> simp
    · simp
    · simp only [lt_self_iff_false, false_or, true_and, Bool.true_eq_false, false_and, if_false]
      rw [if_neg]
      rintro ⟨h1, _, _, h2⟩
      exact absurd h1 h2.not_gt
  rw [prod_modes]
  simp only [prod_modes, hp, Fintype.prod_bool]
  simp only [Bool.true_eq_false, false_and, if_false, Finset.prod_const_one, and_true, if_true, Bool.false_eq_true, and_false, one_mul, mul_one]
  have hj : (∏ j : Fin L, if hasSpin true (x j) = true then (-1 : ℤ) else 1) = (-1) ^ numElec true x := by
    rw [Finset.prod_ite, Finset.prod_const, Finset.prod_const_one, mul_one]
    rfl
  have hi : ∀ i : Fin L, (∏ j : Fin L, if hasSpin false (x i) = true then (if hasSpin true (x j) = true then (-1 : ℤ) else 1) else 1) =
      if hasSpin false (x i) = true then (-1) ^ numElec true x else 1 := by
    intro i
    split_ifs
    · exact hj
    · exact Finset.prod_const_one
  rw [Finset.prod_congr rfl fun i _ => hi i, Finset.prod_ite, Finset.prod_const, Finset.prod_const_one, mul_one, ← pow_mul, mul_comm]
  rfl

theorem edgeHop_swap (i j : Fin L) (x y : Cfg L) :
    (-1) ^ (numElec false x * numElec true x) * edgeHop i j (occOf x) (occOf y) =
      edgeHop i j (occOf (swapSpins x)) (occOf (swapSpins y)) * (-1) ^ (numElec false y * numElec true y) := by
  have hV : ModePerm.W swapModes * edgeHop i j = edgeHop i j * ModePerm.W swapModes := by
    unfold edgeHop
    rw [Finset.mul_sum, Finset.sum_mul, Fintype.sum_bool, Fintype.sum_bool]
    simp only [mul_add, ModePerm.W_bil, swapModes_mode, add_mul, Bool.not_true, Bool.not_false]
    abel
  have h := congrFun (congrFun hV (occOf (swapSpins x))) (occOf y)
  rw [Matrix.mul_apply, Matrix.mul_apply] at h
  rw [Finset.sum_eq_single (occOf x), Finset.sum_eq_single (occOf (swapSpins y))] at h
  · rw [ModePerm.W_apply, ModePerm.W_apply, if_pos (occOf_swap x), if_pos (occOf_swap y), inv_swap, inv_swap] at h
    exact h
  · intro n _ hn
    rw [ModePerm.W_apply, if_neg (fun h' => hn (h'.trans (occOf_swap y).symm)), mul_zero]
  · simp
  · intro n _ hn
    rw [ModePerm.W_apply, if_neg, zero_mul]
    intro h'
    rw [occOf_swap] at h'
    refine hn ?_
    funext p
    have := congrFun h' (swapModes p)
    simpa [ModePerm.move] using this.symm
  · simp

theorem doubly_swap (x : Cfg L) : doubly (swapSpins x) = doubly x := by
  unfold doubly
  congr 1
  ext j
  simp only [Finset.mem_filter, Finset.mem_univ, true_and]
  unfold swapSpins
  generalize x j = v
  revert v
  decide

/-- **C196**, up and down: states that differ by an exchange of the spins have the same local energies at exchanged configurations (the sign
of the exchange is the same for all configurations of a sector). -/
theorem C196_spin_exchange (U : ℂ) (edges : List ((Fin L × Fin L) × ℂ)) (hne : ∀ e ∈ edges, e.1.1 ≠ e.1.2)
    (src : AmpSource L (Fin 4) Cache) (src' : AmpSource L (Fin 4) Cache') (χ : ℂ) (x : Cfg L)
    (hpsi : ∀ y, (∀ s, numElec s y = numElec s x) → Complex.exp (src'.logAmp (swapSpins y)) = χ * Complex.exp (src.logAmp y))
    (hs : src.OkAt x) (hs' : src'.OkAt (swapSpins x)) :
    hubbardLocalEn src' U edges (swapSpins x) = hubbardLocalEn src U edges x := by
  rw [(C07_local_energy_partial src' U edges hne _ hs').2, (C07_local_energy_partial src U edges hne _ hs).2]
  have h := localEnergy_map swapEquiv (fun x y => hubbard U edges (occOf x) (occOf y))
    (fun x y => hubbard U edges (occOf x) (occOf y)) src.logAmp src'.logAmp (χ * (-1) ^ (numElec false x * numElec true x)) 0
    (fun y => (-1) ^ (numElec false y * numElec true y)) x
    (fun y => by rw [← pow_add, ← two_mul, pow_mul]; norm_num) (fun y => ?_) fun y hy => ?_
  · rw [add_zero] at h
    exact h
  · show hubbard U edges (occOf (swapSpins x)) (occOf (swapSpins y)) * _ = _
    rw [hubbard_elem, hubbard_elem, ite_self, add_zero, add_mul, mul_add]
    congr 1
    · clear hne hpsi
      induction edges with
      | nil => simp
      | cons e es ih =>
        rw [List.map_cons, List.sum_cons, List.map_cons, List.sum_cons, add_mul, mul_add, ih]
        congr 1
        have hc : ((-1 : ℂ)) ^ (numElec false x * numElec true x) * edgeHop e.1.1 e.1.2 (occOf x) (occOf y) =
            edgeHop e.1.1 e.1.2 (occOf (swapSpins x)) (occOf (swapSpins y)) * (-1) ^ (numElec false y * numElec true y) := by
          exact_mod_cast edgeHop_swap e.1.1 e.1.2 x y
        linear_combination e.2 * hc
    · by_cases hxy : x = y
      · subst hxy
        rw [if_pos rfl, if_pos rfl, doubly_swap, mul_comm]
      · rw [if_neg hxy, if_neg (fun h' : swapSpins x = swapSpins y => hxy (swapEquiv.injective h')), zero_mul, mul_zero]
  · have hy' : ∀ s, numElec s y = numElec s x := by
      intro s
      rcases hy with hy | rfl
      · exact hubbard_conserves U edges x y hy s
      · rfl
    show Complex.exp (src'.logAmp (swapSpins y)) = _
    rw [hpsi y hy', hy' false, hy' true]
    have h1 : ((-1 : ℂ) ^ (numElec false x * numElec true x)) * (-1) ^ (numElec false x * numElec true x) = 1 := by
      rw [← pow_add, ← two_mul, pow_mul]; norm_num
    linear_combination (-(χ * Complex.exp (src.logAmp y))) * h1

/-! ## Every state has a partner, and a ring of four sites has two colours -/

/-- **C196**, the partner: for every state there is one that is related to it as the theorems above ask for. -/
theorem C196_partner (S : Bool → Bool) (σ : Bool → Fin L → ℤ) (hσ : ∀ s i, σ s i * σ s i = 1) (logpsi : Cfg L → ℂ) :
    ∃ logpsi' : Cfg L → ℂ, ∀ y, Complex.exp (logpsi' (holes S y)) = 1 * electronSigns σ y * Complex.exp (logpsi y) := by
  refine ⟨fun z => Complex.log (electronSigns σ (holes S z)) + logpsi (holes S z), fun y => ?_⟩
  dsimp only
  rw [holes_holes, Complex.exp_add, Complex.exp_log, one_mul]
  exact left_ne_zero_of_mul_eq_one (electronSigns_sq σ hσ y)

/-- a ring of four sites -/
def ring4 (t : ℂ) : List ((Fin 4 × Fin 4) × ℂ) := [((0, 1), t), ((1, 2), t), ((2, 3), t), ((3, 0), t)]

theorem ring4_colours (t : ℂ) : ∀ e ∈ ring4 t, decide (e.1.1.val % 2 = 1) ≠ decide (e.1.2.val % 2 = 1) := by
  intro e he
  simp only [ring4, List.mem_cons, List.not_mem_nil, or_false] at he
  rcases he with rfl | rfl | rfl | rfl <;> simp

/-- the theorems for a ring of four sites with three electrons, for every state -/
example (U t : ℂ) (logpsi : Cfg 4 → ℂ) : ∃ logpsi' logpsi'' : Cfg 4 → ℂ,
    hubbardLocalEn (.full logpsi' : AmpSource 4 (Fin 4) Unit) U (ring4 t) ![2, 1, 3, 2] =
      hubbardLocalEn (.full logpsi : AmpSource 4 (Fin 4) Unit) U (ring4 t) ![1, 2, 0, 1] + U * 1 ∧
    hubbardLocalEn (.full logpsi'' : AmpSource 4 (Fin 4) Unit) (-U) (ring4 t) ![3, 0, 2, 3] =
      hubbardLocalEn (.full logpsi : AmpSource 4 (Fin 4) Unit) U (ring4 t) ![1, 2, 0, 1] - U * 2 := by
  obtain ⟨f, hf⟩ := C196_partner (fun _ => true) (holeSign (fun _ => true) fun i : Fin 4 => decide (i.val % 2 = 1)) (holeSign_sq _ _) logpsi
  obtain ⟨g, hg⟩ := C196_partner (fun s => s) (holeSign (fun s => s) fun i : Fin 4 => decide (i.val % 2 = 1)) (holeSign_sq _ _) logpsi
  have e1 : (![2, 1, 3, 2] : Cfg 4) = holes (fun _ => true) ![1, 2, 0, 1] := by decide
  have e2 : (![3, 0, 2, 3] : Cfg 4) = holes (fun s => s) ![1, 2, 0, 1] := by decide
  have n1 : numElec false (![1, 2, 0, 1] : Cfg 4) = 2 := by decide
  have n2 : numElec true (![1, 2, 0, 1] : Cfg 4) = 1 := by decide
  refine ⟨f, g, ?_, ?_⟩
  · rw [e1, C196_particle_hole _ U (ring4 t) (ring4_colours t) (.full logpsi : AmpSource 4 (Fin 4) Unit) (.full f : AmpSource 4 (Fin 4) Unit) 1 _
      (fun y _ => hf y) trivial trivial, n1, n2]
    norm_num
  · rw [e2, C196_attractive _ U (ring4 t) (ring4_colours t) (.full logpsi : AmpSource 4 (Fin 4) Unit) (.full g : AmpSource 4 (Fin 4) Unit) 1 _
      (fun y _ => hg y) trivial trivial, n1]
    norm_num

/-- the sign of the hopping and the spins, on the same ring -/
example (U t : ℂ) (logpsi : Cfg 4 → ℂ) : ∃ logpsi' logpsi'' : Cfg 4 → ℂ,
    hubbardLocalEn (.full logpsi' : AmpSource 4 (Fin 4) Unit) U (ring4 (-t)) ![1, 2, 0, 1] =
      hubbardLocalEn (.full logpsi : AmpSource 4 (Fin 4) Unit) U (ring4 t) ![1, 2, 0, 1] ∧
    hubbardLocalEn (.full logpsi'' : AmpSource 4 (Fin 4) Unit) U (ring4 t) ![2, 1, 0, 2] =
      hubbardLocalEn (.full logpsi : AmpSource 4 (Fin 4) Unit) U (ring4 t) ![1, 2, 0, 1] := by
  obtain ⟨f, hf⟩ := C196_partner (fun _ => false) (fun _ (i : Fin 4) => if decide (i.val % 2 = 1) then -1 else 1)
    (fun _ i => by split_ifs <;> norm_num) logpsi
  have e2 : (![2, 1, 0, 2] : Cfg 4) = swapSpins ![1, 2, 0, 1] := by decide
  refine ⟨f, fun z => logpsi (swapSpins z), ?_, ?_⟩
  · rw [← C196_negated_hopping (fun i : Fin 4 => decide (i.val % 2 = 1)) U (ring4 t) (ring4_colours t) (.full logpsi : AmpSource 4 (Fin 4) Unit)
      (.full f : AmpSource 4 (Fin 4) Unit) 1 _ (fun y _ => by have := hf y; rwa [holes_none] at this) trivial trivial]
    rfl
  · rw [e2, C196_spin_exchange U (ring4 t) (fun e he h => ring4_colours t e he (by rw [h])) (.full logpsi : AmpSource 4 (Fin 4) Unit)
      (.full (fun z => logpsi (swapSpins z)) : AmpSource 4 (Fin 4) Unit) 1 _ (fun y _ => by simp [AmpSource.logAmp, swap_swap]) trivial trivial]

end GPSKet.ParticleHole
