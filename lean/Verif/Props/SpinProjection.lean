import Verif.Model.GaussLegendre
import Verif.Lemmas.SpinProjection
import Verif.Props.SymmetricDet
import Verif.Props.SlaterState
import Verif.Props.PairState
import Mathlib.Analysis.Real.Sqrt
import Mathlib.Tactic.IntervalCases
import Mathlib.Tactic.FinCases

/-! # Spin projections with Gauss-Legendre points give singlets (C158) -/

namespace GPSKet.SpinProjection

open Matrix GPSKet GPSKet.Spec OneBody Slater SymmetricDet SlaterAmplitudes

variable {L n M : ℕ} {ι : Type}

/-- The electrons that were up before the rotation. -/
def upGroup (n : ℕ) : Finset (Fin (n + n)) := Finset.univ.filter fun k => k.val < n

theorem mem_upGroup (k : Fin (n + n)) : k ∈ upGroup n ↔ k.val < n := by simp [upGroup]

theorem card_upGroup : (upGroup n).card = n := by
  have : upGroup n = Finset.univ.image (Fin.castAdd n : Fin n → Fin (n + n)) := by
    ext k
    rw [mem_upGroup]
    simp only [Finset.mem_image, Finset.mem_univ, true_and]
    constructor
    · intro h; exact ⟨⟨k, h⟩, by ext; rfl⟩
    · rintro ⟨j, rfl⟩; exact j.isLt
  rw [this, Finset.card_image_of_injective _ (Fin.castAdd_injective n n), Finset.card_univ, Fintype.card_fin]

theorem card_upGroup_compl : (upGroup n)ᶜ.card = n := by
  rw [Finset.card_compl, card_upGroup, Fintype.card_fin, Nat.add_sub_cancel]

/-- The orbital of an electron, moved by a symmetry. -/
def siteOrbital (U_up U_dn : Fin L → Fin n → ℂ) (sym : Fin L → Fin L) (k : Fin (n + n)) (i : Fin L) : ℂ :=
  Fin.addCases (motive := fun _ => ℂ) (fun j => U_up (sym i) j) (fun j => U_dn (sym i) j) k

theorem stacked_projected {κ : Type} (U_up U_dn : Fin M → Fin L → Fin n → ℂ) (angle : κ → ℝ) (sym : Fin L → Fin L) (m : Fin M) (s : κ)
    (k : Fin (n + n)) :
    stacked (movedBy sym fun r => fullU (.projected U_up U_dn angle) m r k s) =
      rotatedOrbital (upGroup n) (siteOrbital (U_up m) (U_dn m) sym) (angle s) k := by
  funext q
  obtain ⟨b, i, rfl⟩ : ∃ b i, q = mode b i := ⟨(ofLex q).1, (ofLex q).2, rfl⟩
  unfold stacked rotatedOrbital
  rw [Pi.add_apply, Pi.smul_apply, Pi.smul_apply, smul_eq_mul, smul_eq_mul]
  have hm1 : ∀ b : Bool, (ofLex (mode b i)).1 = b := fun _ => rfl
  have hm2 : ∀ b : Bool, (ofLex (mode b i)).2 = i := fun _ => rfl
  simp only [spinOrbital, hm1, hm2]
  induction k using Fin.addCases with
  | left j =>
    have h1 : (Fin.castAdd n j : Fin (n + n)) ∈ upGroup n := (mem_upGroup _).mpr j.isLt
    cases b
    · simp only [Bool.false_eq_true, Bool.true_eq_false, if_true, if_false]
      simp only [movedBy, Fin.addCases_right, fullU, applyRotation, getFullU, Fin.addCases_left]
      simp [comp, h1, siteOrbital, mul_comm]
    · simp only [Bool.false_eq_true, Bool.true_eq_false, if_true, if_false]
      simp only [movedBy, Fin.addCases_right, fullU, applyRotation, getFullU, Fin.addCases_left]
      simp [comp, h1, siteOrbital, mul_comm]
  | right j =>
    have h1 : (Fin.natAdd n j : Fin (n + n)) ∉ upGroup n := by
      rw [mem_upGroup]; simp
    cases b
    · simp only [Bool.false_eq_true, Bool.true_eq_false, if_true, if_false]
      simp only [movedBy, Fin.addCases_right, fullU, applyRotation, getFullU, Fin.addCases_left, comp, h1, siteOrbital]
      simp [mul_comm]
    · simp only [Bool.false_eq_true, Bool.true_eq_false, if_true, if_false]
      simp only [movedBy, Fin.addCases_right, fullU, applyRotation, getFullU, Fin.addCases_left, comp, h1, siteOrbital]
      simp [mul_comm]

/-- The state described by a Slater model with spin projection. -/
theorem slater_projected {g : ℕ} [Fintype ι] (mod : Slater.Module L n n M (Fin g) ι) (x w : Fin g → ℝ) (U_up U_dn : Fin M → Fin L → Fin n → ℂ)
    (horbs : mod.orbs = .projected U_up U_dn fun i => Real.arccos (x i)) (hchars : ∀ s, mod.chars s = w s) :
    withElectrons n (slaterAmp mod) = withElectrons n fun y : Cfg L => ∑ mt : Fin M × ι, 1 * ∑ i, (w i : ℂ) *
      slaterState (List.ofFn (rotatedOrbital (upGroup n) (siteOrbital (U_up mt.1) (U_dn mt.1) (mod.symmetries mt.2)) (Real.arccos (x i)))) (occOf y) := by
  refine withElectrons_congr fun y hy => ?_
  unfold slaterAmp
  rw [Fintype.sum_prod_type]
  refine Finset.sum_congr rfl fun m _ => ?_
  rw [Finset.sum_comm]
  refine Finset.sum_congr rfl fun t _ => ?_
  rw [one_mul]
  refine Finset.sum_congr rfl fun i _ => ?_
  rw [C105_slater mod y hy, hchars, horbs]
  simp only [stacked_projected]
  exact mul_comm _ _

/-- **C158**, Slater model: with the Gauss-Legendre angles and weights as `S2_projection`, the state with `n` up and `n` down electrons is
a singlet (total spin zero), for any orbitals, any number of determinants and any symmetry operations, if there are more than `n / 2`
points. -/
theorem C158_slater [Fintype ι] (leggauss : (g : ℕ) → (Fin g → ℝ) × (Fin g → ℝ)) (g : ℕ)
    (hq : IsGaussLegendre (leggauss g).1 (leggauss g).2) (mod : Slater.Module L n n M (Fin g) ι) (U_up U_dn : Fin M → Fin L → Fin n → ℂ)
    (horbs : mod.orbs = .projected U_up U_dn (gaussLegElementsSy leggauss g).1) (hchars : ∀ s, mod.chars s = (gaussLegElementsSy leggauss g).2 s)
    (hn : n < 2 * g) : IsSinglet (withElectrons n (slaterAmp mod)) ∧ HasTotalSpin 0 (withElectrons n (slaterAmp mod)) := by
  have h : IsSinglet (withElectrons n (slaterAmp mod)) := by
    rw [slater_projected mod (leggauss g).1 (leggauss g).2 U_up U_dn horbs hchars, withElectrons_sum]
    exact singlet_sum _ _ _ fun mt _ => projected_singlet hq _ card_upGroup card_upGroup_compl hn _
  exact ⟨h, TotalSpin.singlet_spin_zero h⟩

/-! ## Pair states -/

/-- The first electrons of the pairs. -/
def firstGroup (n : ℕ) : Finset (Fin (2 * n)) := Finset.univ.filter fun k => k.val % 2 = 0

theorem card_firstGroup : (firstGroup n).card = n := by
  have : firstGroup n = Finset.univ.image (fstOf : Fin n → Fin (2 * n)) := by
    ext k
    simp only [firstGroup, Finset.mem_filter, Finset.mem_image, Finset.mem_univ, true_and]
    constructor
    · intro h; exact ⟨⟨k / 2, by omega⟩, by ext; simp only [fstOf]; omega⟩
    · rintro ⟨j, rfl⟩; simp [fstOf]
  rw [this, Finset.card_image_of_injective _ (fun a b h => by simpa [fstOf, Fin.ext_iff] using h), Finset.card_univ, Fintype.card_fin]

theorem card_firstGroup_compl : (firstGroup n)ᶜ.card = n := by
  rw [Finset.card_compl, card_firstGroup, Fintype.card_fin]
  omega

/-- The electron on a site. -/
def onSite (i : Fin L) : Fin L → ℂ := fun j => if j = i then 1 else 0

/-- A site orbital with a rotated spin: of the first electron of a pair (up) or of the second one (down). -/
noncomputable def turned (θ : ℝ) (t : Bool) (i : Fin L) : Mode L → ℂ :=
  rotY θ false t • spinOrbital false (onSite i) + rotY θ true t • spinOrbital true (onSite i)

theorem turned_apply (θ : ℝ) (t : Bool) (i : Fin L) (q : Mode L) : turned θ t i q = if (ofLex q).2 = i then rotY θ (ofLex q).1 t else 0 := by
  unfold turned spinOrbital onSite
  rcases h : (ofLex q).1 <;> by_cases h2 : (ofLex q).2 = i <;> simp [h, h2]

theorem rotated_pairing_eq (f : Fin L → Fin L → ℂ) (θ : ℝ) :
    pairing (rotatedPairs f θ) = ∑ i, ∑ j, f i j • (creOrb (turned θ false i) * creOrb (turned θ true j)) := by
  have e : ∀ i j : Fin L, creOrb (turned θ false i) * creOrb (turned θ true j) =
      ∑ p : Mode L, ∑ q : Mode L, (turned θ false i p * turned θ true j q) • toK ℂ (cre p * cre q) := by
    intro i j
    unfold creOrb
    rw [Finset.sum_mul_sum]
    refine Finset.sum_congr rfl fun p _ => Finset.sum_congr rfl fun q _ => ?_
    rw [smul_mul_assoc, mul_smul_comm, smul_smul, Rotation.toK_mul']
  simp only [e, Finset.smul_sum, smul_smul]
  unfold pairing
  have c : ∀ F : Fin L → Fin L → Mode L → Mode L → Matrix (Occ (Mode L)) (Occ (Mode L)) ℂ,
      ∑ i, ∑ j, ∑ p, ∑ q, F i j p q = ∑ p, ∑ q, ∑ i, ∑ j, F i j p q := by
    intro F
    have c1 : ∀ i, ∑ j, ∑ p, ∑ q, F i j p q = ∑ p, ∑ q, ∑ j, F i j p q := fun i => by
      rw [Finset.sum_comm]
      exact Finset.sum_congr rfl fun p _ => Finset.sum_comm
    simp only [c1]
    rw [Finset.sum_comm]
    exact Finset.sum_congr rfl fun p _ => Finset.sum_comm
  rw [c]
  refine Finset.sum_congr rfl fun p _ => Finset.sum_congr rfl fun q _ => ?_
  simp only [turned_apply]
  rw [Finset.sum_eq_single (ofLex p).2, Finset.sum_eq_single (ofLex q).2]
  · rw [if_pos rfl, if_pos rfl, rotatedPairs]
    congr 1
    ring
  · intro j _ hj
    simp [hj.symm]
  · simp
  · intro i _ hi
    refine Finset.sum_eq_zero fun j _ => ?_
    simp [hi.symm]
  · simp

/-- The electrons of the pairs one by one. -/
theorem pairs_pow (f : Fin L → Fin L → ℂ) (u v : Fin L → Mode L → ℂ) (n : ℕ) :
    (∑ i, ∑ j, f i j • (creOrb (u i) * creOrb (v j))) ^ n *ᵥ vacuum =
      ∑ h : Fin (2 * n) → Fin L, (∏ i : Fin n, f (h (fstOf i)) (h (sndOf i))) •
        slaterState (List.ofFn fun k => if k.val % 2 = 0 then u (h k) else v (h k)) := by
  induction n with
  | zero => simp [slaterState]
  | succ n ih =>
    rw [pow_succ', ← Matrix.mulVec_mulVec, ih, Matrix.mulVec_sum, ← Equiv.sum_comp (firstPair n (Fin L)).symm]
    rw [Fintype.sum_prod_type]
    simp only [Fintype.sum_prod_type, Matrix.mulVec_smul, Matrix.sum_mulVec, Matrix.smul_mulVec, Finset.smul_sum]
    rw [Finset.sum_comm]
    refine Finset.sum_congr rfl fun p _ => ?_
    rw [Finset.sum_comm]
    refine Finset.sum_congr rfl fun q _ => Finset.sum_congr rfl fun h _ => ?_
    rw [smul_smul, Fin.prod_univ_succ]
    congr 1
    · rw [mul_comm]; rfl
    · have : (List.ofFn fun k : Fin (2 * (n + 1)) => if k.val % 2 = 0 then u ((firstPair n (Fin L)).symm (p, q, h) k) else
          v ((firstPair n (Fin L)).symm (p, q, h) k)) =
          u p :: v q :: List.ofFn fun k : Fin (2 * n) => if k.val % 2 = 0 then u (h k) else v (h k) := by
        change List.ofFn (n := 2 * n + 1 + 1) _ = _
        rw [List.ofFn_succ, List.ofFn_succ]
        congr 2
        refine congrArg List.ofFn (funext fun k => ?_)
        have : (k.succ.succ : Fin (2 * n + 1 + 1)).val % 2 = k.val % 2 := by simp only [Fin.val_succ]; omega
        rw [this]
        rfl
      rw [this, ← Matrix.mulVec_mulVec]
      rfl

theorem turned_rotated (θ : ℝ) (h : Fin (2 * n) → Fin L) :
    (fun k : Fin (2 * n) => if k.val % 2 = 0 then turned θ false (h k) else turned θ true (h k)) =
      rotatedOrbital (firstGroup n) (fun k => onSite (h k)) θ := by
  funext k
  unfold rotatedOrbital turned comp
  have hk : k ∈ firstGroup n ↔ k.val % 2 = 0 := by simp [firstGroup]
  by_cases h2 : k.val % 2 = 0
  · rw [if_pos h2]
    simp [hk.mpr h2, rotY]
  · rw [if_neg h2]
    simp [mt hk.mp h2, rotY]

/-- Weighted sums of rotated pair states are singlets. -/
theorem pairs_singlet {g : ℕ} {x w : Fin g → ℝ} (hq : IsGaussLegendre x w) (hn : n < 2 * g) (f : Fin L → Fin L → ℂ) :
    IsSinglet (withElectrons n fun y : Cfg L => ∑ i, (w i : ℂ) * pairState (rotatedPairs f (Real.arccos (x i))) n (occOf y)) := by
  have e : (withElectrons n fun y : Cfg L => ∑ i, (w i : ℂ) * pairState (rotatedPairs f (Real.arccos (x i))) n (occOf y)) =
      withElectrons n fun y : Cfg L => ∑ h : Fin (2 * n) → Fin L, (1 / (n.factorial : ℂ) * ∏ i : Fin n, f (h (fstOf i)) (h (sndOf i))) *
        ∑ i, (w i : ℂ) * slaterState (List.ofFn (rotatedOrbital (firstGroup n) (fun k => onSite (h k)) (Real.arccos (x i)))) (occOf y) := by
    refine withElectrons_congr fun y _ => ?_
    simp only [pairState, rotated_pairing_eq, pairs_pow, turned_rotated, Pi.smul_apply, Finset.sum_apply, smul_eq_mul, Finset.mul_sum]
    rw [Finset.sum_comm]
    exact Finset.sum_congr rfl fun h _ => Finset.sum_congr rfl fun i _ => by ring
  rw [e, withElectrons_sum]
  exact singlet_sum _ _ _ fun h _ => projected_singlet hq _ card_firstGroup card_firstGroup_compl hn _

open Pfaffian Reference in
/-- **C120**, the zero-magnetisation Pfaffian with any characters: wherever it gives a number (not NaN), it is the weighted sum of the rotated pair states. -/
theorem C120_partial_numbers [NeZero L] (f : Matrix (Fin L) (Fin L) ℂ) (S2 : List (ℝ × ℝ)) (x : Cfg L)
    (hx : numElec false x = n ∧ numElec true x = n) {v : ℂ} (hv : pfaffianPart n f S2 x = some v) :
    v = (S2.map fun ac => (ac.2 : ℂ) * pairState (rotatedPairs f ac.1) n (occOf x)).sum := by
  obtain ⟨up, dn, h⟩ := exists_enumerates hx
  obtain ⟨h1, h2⟩ := positions_toMode h
  have hp : ∀ θ, pfaffian (skewOcc (rotated f θ) (positions n x)) = pairState (rotatedPairs f θ) n (occOf x) := fun θ => by
    rw [rotated_pairing, pf_pairState _ _ _ h1 h2]
  simp only [← hp]
  unfold pfaffianPart zeroMagCall at hv
  clear hp h1 h2 h
  generalize positions n x = y at hv ⊢
  simp only [List.map_cons, List.map_nil, List.head?_cons] at hv
  have one : ∀ (ac : ℝ × ℝ) (a : ℂ), ((stateVal (rotated f ac.1) y).plus (realLog ac.2)).amp = some a →
      a = (ac.2 : ℂ) * pfaffian (skewOcc (rotated f ac.1) y) := by
    intro ac a ha
    unfold stateVal realLog at ha
    have hs := logPfaffian_spec (skewOcc (rotated f ac.1) y) (skewOcc_skew (rotated f ac.1) y)
    by_cases hc : ac.2 < 0
    · rw [if_pos hc] at ha
      rcases hl : logPfaffian (skewOcc (rotated f ac.1) y) <;> rw [hl] at ha <;> simp [LogNum.plus, LogNum.amp] at ha
    · rw [if_neg hc] at ha
      by_cases h0 : pfaffian (skewOcc (rotated f ac.1) y) = 0
      · rw [h0, mul_zero]
        rcases hs.2 h0 with h' | ⟨h', _⟩
        · rw [h'] at ha
          split_ifs at ha <;> simpa [LogNum.plus, LogNum.amp, eq_comm] using ha
        · rw [h'] at ha
          split_ifs at ha <;> simp [LogNum.plus, LogNum.amp] at ha
      · obtain ⟨w, e1, e2⟩ := hs.1 h0
        rw [e1] at ha
        rw [← e2]
        split_ifs at ha with hz
        · simp only [LogNum.plus, LogNum.amp, Option.some.injEq] at ha
          rw [← ha, hz, Complex.ofReal_zero, zero_mul]
        · simp only [LogNum.plus, LogNum.amp, Option.some.injEq] at ha
          rw [← ha, Complex.exp_add, ← Complex.ofReal_exp, Real.exp_log (lt_of_le_of_ne (not_lt.mp hc) (Ne.symm hz)), mul_comm]
  change sumAmp _ = some v at hv
  unfold sumAmp at hv
  induction S2 generalizing v with
  | nil => simpa [eq_comm] using hv
  | cons ac S2 ih =>
    simp only [List.flatMap_cons, List.singleton_append, List.mapM_cons, List.map_cons, List.sum_cons] at hv ⊢
    rcases ha : ((stateVal (rotated f ac.1) y).plus (realLog ac.2)).amp with _ | a
    · rw [ha] at hv; simp at hv
    · rw [ha] at hv
      rcases hm : (S2.flatMap fun ac => [(stateVal (rotated f ac.1) y).plus (realLog ac.2)]).mapM LogNum.amp with _ | m
      · rw [hm] at hv; simp at hv
      · rw [hm] at hv
        simp only [Option.pure_def, Option.bind_eq_bind, Option.bind_some, Option.map_some, List.sum_cons, Option.some.injEq] at hv
        rw [← hv, one ac a ha]
        congr 1
        refine ih ?_
        rw [hm]
        rfl

open Reference in
/-- **C158**, zero-magnetisation Pfaffian: with the Gauss-Legendre angles and weights as `S2_projection`, the state with `n` up and `n`
down electrons is a singlet, for any pairing matrix, if there are more than `n / 2` points (and the model gives numbers, see C42). -/
theorem C158_pfaffian [NeZero L] (leggauss : (g : ℕ) → (Fin g → ℝ) × (Fin g → ℝ)) (g : ℕ)
    (hq : IsGaussLegendre (leggauss g).1 (leggauss g).2) (f : Matrix (Fin L) (Fin L) ℂ) (psi : Cfg L → ℂ)
    (hpsi : ∀ x, numElec false x = n ∧ numElec true x = n → pfaffianPart n f
      (List.ofFn fun i => ((gaussLegElementsSy leggauss g).1 i, (gaussLegElementsSy leggauss g).2 i)) x = some (psi x))
    (hn : n < 2 * g) : IsSinglet (withElectrons n psi) ∧ HasTotalSpin 0 (withElectrons n psi) := by
  have h : IsSinglet (withElectrons n psi) := by
    have e : withElectrons n psi = withElectrons n fun y : Cfg L =>
        ∑ i, ((leggauss g).2 i : ℂ) * pairState (rotatedPairs f (Real.arccos ((leggauss g).1 i))) n (occOf y) := by
      refine withElectrons_congr fun y hy => ?_
      rw [C120_partial_numbers f _ y hy (hpsi y hy), List.map_ofFn, List.sum_ofFn]
      rfl
    rw [e]
    exact pairs_singlet hq hn f
  exact ⟨h, TotalSpin.singlet_spin_zero h⟩

/-! ## Quadratures -/

/-- The quadrature with three points, which the script for the water molecule uses. -/
noncomputable def points3 : Fin 3 → ℝ := ![-Real.sqrt (3 / 5), 0, Real.sqrt (3 / 5)]

/-- Its weights. -/
noncomputable def weights3 : Fin 3 → ℝ := ![5 / 9, 8 / 9, 5 / 9]

theorem quadrature3 : IsGaussLegendre points3 weights3 := by
  have hs : Real.sqrt (3 / 5) ^ 2 = 3 / 5 := Real.sq_sqrt (by norm_num)
  have h0 : 0 ≤ Real.sqrt (3 / 5) := Real.sqrt_nonneg _
  unfold points3 weights3
  generalize Real.sqrt (3 / 5) = r at hs h0 ⊢
  have h1 : r ≤ 1 := by nlinarith
  have h4 : r ^ 4 = 9 / 25 := by
    have : r ^ 4 = (r ^ 2) ^ 2 := by ring
    rw [this, hs]; norm_num
  refine gaussLegendre_of_moments ?_ ?_
  · intro i
    fin_cases i <;> simp only [Set.mem_Icc] <;> constructor <;> norm_num <;> linarith
  · intro k hk
    simp only [Fin.sum_univ_three, cons_val_zero, cons_val_one, cons_val_two]
    interval_cases k
    · norm_num
    · norm_num
    · norm_num; linarith
    · norm_num; ring
    · norm_num [Even.neg_pow]; linarith
    · norm_num; ring

/-- The quadrature with one point. -/
theorem quadrature1 : IsGaussLegendre (fun _ : Fin 1 => (0 : ℝ)) fun _ => 2 := by
  refine gaussLegendre_of_moments (fun _ => by constructor <;> norm_num) fun k hk => ?_
  interval_cases k <;> norm_num

/-- The water molecule: five up and five down electrons are few enough for the three points of the script, whatever the orbitals. -/
theorem C158_water [Fintype ι] (leggauss : (g : ℕ) → (Fin g → ℝ) × (Fin g → ℝ)) (h3 : leggauss 3 = (points3, weights3))
    (mod : Slater.Module L 5 5 M (Fin 3) ι) (U_up U_dn : Fin M → Fin L → Fin 5 → ℂ)
    (horbs : mod.orbs = .projected U_up U_dn (gaussLegElementsSy leggauss 3).1) (hchars : ∀ s, mod.chars s = (gaussLegElementsSy leggauss 3).2 s) :
    IsSinglet (withElectrons 5 (slaterAmp mod)) :=
  (C158_slater leggauss 3 (by rw [h3]; exact quadrature3) mod U_up U_dn horbs hchars (by norm_num)).1

/-- An up electron on the first and a down electron on the second of two sites, projected with one point. -/
noncomputable def twoSites : Slater.Module 2 1 1 1 (Fin 1) Unit :=
  { orbs := .projected (fun _ i _ => if i = 0 then 1 else 0) (fun _ i _ => if i = 1 then 1 else 0) fun _ => Real.arccos 0,
    symmetries := fun _ i => i, chars := fun _ => 2, constant_time_updates := false, out_transformation := fun v => v 0 0 () }

/-- A state to which C158 applies and which is not zero. -/
theorem C158_two_sites : IsSinglet (withElectrons 1 (slaterAmp twoSites)) ∧ withElectrons 1 (slaterAmp twoSites) ![1, 2] = 1 := by
  constructor
  · exact (C158_slater (fun _ => (fun _ => 0, fun _ => 2)) 1 quadrature1 twoSites _ _ rfl (fun _ => by norm_num [twoSites, gaussLegElementsSy])
      (by norm_num)).1
  · unfold withElectrons
    rw [if_pos (by decide)]
    unfold slaterAmp
    simp only [Finset.univ_unique, Finset.sum_singleton]
    rw [Props.C41_full twoSites ![1, 2] (by decide) default default default (fun _ => 0) (fun _ => 1) (fun a b hab => absurd hab (by simp [Subsingleton.elim a b]))
      (fun a b hab => absurd hab (by simp [Subsingleton.elim a b])) (by decide) (by decide)]
    have hc : Real.cos (Real.arccos 0 / 2) ^ 2 = 1 / 2 := by rw [(half_angle (t := 0) (by constructor <;> norm_num)).1]; norm_num
    have h2 : ((Real.cos (Real.arccos 0 / 2) : ℝ) : ℂ) ^ 2 = 1 / 2 := by rw [← Complex.ofReal_pow, hc]; norm_num
    rw [Matrix.det_fin_two]
    simp only [Matrix.of_apply, show (0 : Fin (1 + 1)) = Fin.castAdd 1 0 from rfl, show (1 : Fin (1 + 1)) = Fin.natAdd 1 0 from rfl,
      Fin.addCases_left, Fin.addCases_right, twoSites, fullU, applyRotation, getFullU]
    generalize ((Real.cos (Real.arccos 0 / 2) : ℝ) : ℂ) = c at h2 ⊢
    generalize ((Real.sin (Real.arccos 0 / 2) : ℝ) : ℂ) = m
    have h01 : ¬ (1 : Fin 2) = Fin.castAdd 1 0 := by decide
    norm_num [h01]
    linear_combination 2 * h2

/-! ## Too few points -/

/-- Electrons on four sites: the up electrons on the first two, the down electrons on the others. -/
def fourUp : Fin 1 → Fin 4 → Fin 2 → ℂ := fun _ i j => if i.val = j.val then 1 else 0
/-- The down electrons. -/
def fourDown : Fin 1 → Fin 4 → Fin 2 → ℂ := fun _ i j => if i.val = j.val + 2 then 1 else 0

/-- The determinant projected with one point. -/
noncomputable def fourSites : Slater.Module 4 2 2 1 (Fin 1) Unit :=
  { orbs := .projected fourUp fourDown fun _ => Real.arccos 0, symmetries := fun _ i => i, chars := fun _ => 2, constant_time_updates := false,
    out_transformation := fun v => v 0 0 () }

/-- Three up electrons and a down electron, one on each site. -/
def threeUp : Cfg 4 := ![1, 1, 1, 2]

/-- The modes of `threeUp` in ascending order. -/
def threeUpModes : Fin 4 → Mode 4 := fun i => mode (decide (i = 3)) i

theorem four_orbitals (k : Fin (2 + 2)) : siteOrbital (fourUp 0) (fourDown 0) (fun i => i) k = onSite k := by
  funext i
  fin_cases k <;> fin_cases i <;> simp [siteOrbital, fourUp, fourDown, onSite, Fin.addCases]

theorem assigned_threeUp (s : Finset (Fin (2 + 2))) :
    assigned (L := 4) (fun k => onSite (L := 4) k) s (occOf threeUp) = if s = {0, 1, 2} then (1 : ℂ) else 0 := by
  unfold assigned
  have hmono : StrictMono threeUpModes := by
    intro a b hab
    unfold threeUpModes mode
    rw [Prod.Lex.lt_iff]
    revert a b
    decide
  have hocc : ∀ p, occOf threeUp p = true ↔ ∃ i, threeUpModes i = p := by
    intro p
    obtain ⟨b, i, rfl⟩ : ∃ b i, p = mode b i := ⟨(ofLex p).1, (ofLex p).2, rfl⟩
    have e : occOf threeUp (mode b i) = hasSpin b (threeUp i) := rfl
    rw [e]
    unfold threeUpModes
    simp only [mode_inj]
    revert b i
    decide
  rw [slaterState_det (N := 4) _ _ threeUpModes hmono hocc]
  have entry : ∀ k i : Fin 4, (s.piecewise (fun k => spinOrbital (K := ℂ) false (onSite (L := 4) k)) fun k => spinOrbital true (onSite k)) k
      (threeUpModes i) = if i = k ∧ (k ∈ s ↔ i ≠ 3) then 1 else 0 := by
    intro k i
    have h1 : (ofLex (threeUpModes i)).1 = decide (i = 3) := rfl
    have h2 : (ofLex (threeUpModes i)).2 = i := rfl
    by_cases hk : k ∈ s
    · rw [Finset.piecewise_eq_of_mem _ _ _ hk]
      simp only [spinOrbital, onSite, h1, h2]
      by_cases hi : i = 3 <;> simp [hi, hk]
    · rw [Finset.piecewise_eq_of_notMem _ _ _ hk]
      simp only [spinOrbital, onSite, h1, h2]
      by_cases hi : i = 3 <;> simp [hi, hk]
  have hm : (Matrix.of fun i k => (s.piecewise (fun k => spinOrbital (K := ℂ) false (onSite (L := 4) k)) fun k => spinOrbital true (onSite k)) k
      (threeUpModes i)) = Matrix.diagonal fun k : Fin 4 => if (k ∈ s ↔ k ≠ 3) then (1 : ℂ) else 0 := by
    ext i k
    rw [Matrix.of_apply, entry, Matrix.diagonal_apply]
    by_cases hik : i = k
    · subst hik; simp
    · simp [hik]
  rw [hm, Matrix.det_diagonal, Finset.prod_ite_zero, Finset.prod_const_one]
  congr 1
  rw [eq_iff_iff]
  constructor
  · intro h
    ext k
    rw [h k (Finset.mem_univ k)]
    fin_cases k <;> decide
  · rintro rfl k _
    revert k
    decide

/-- **C158** needs enough points: with one point, two up and two down electrons do not become a singlet. -/
theorem C158_too_few_fails : IsGaussLegendre (fun _ : Fin 1 => (0 : ℝ)) (fun _ => 2) ∧ ¬ IsSinglet (withElectrons 2 (slaterAmp fourSites)) := by
  refine ⟨quadrature1, fun h => ?_⟩
  have h1 := h.1 threeUp
  change applyOp totalUp _ threeUp = 0 at h1
  rw [slater_projected fourSites (fun _ => 0) (fun _ => 2) fourUp fourDown rfl (fun _ => by norm_num [fourSites])] at h1
  have e : (withElectrons 2 fun y : Cfg 4 => ∑ mt : Fin 1 × Unit, 1 * ∑ i : Fin 1, (((fun _ => 2 : Fin 1 → ℝ) i : ℝ) : ℂ) *
      slaterState (List.ofFn (rotatedOrbital (upGroup 2) (siteOrbital (fourUp mt.1) (fourDown mt.1) (fourSites.symmetries mt.2))
        (Real.arccos 0))) (occOf y)) = withElectrons 2 fun y : Cfg 4 => ∑ i : Fin 1, (((fun _ => 2 : Fin 1 → ℝ) i : ℝ) : ℂ) *
      slaterState (List.ofFn (rotatedOrbital (upGroup 2) (fun k => onSite (L := 4) k) (Real.arccos ((fun _ => 0 : Fin 1 → ℝ) i)))) (occOf y) := by
    congr 1
    funext y
    rw [Fintype.sum_prod_type]
    simp only [Finset.univ_unique, Finset.sum_singleton, one_mul]
    have : siteOrbital (fourUp default) (fourDown default) (fourSites.symmetries default) = fun k => onSite (L := 4) k := funext four_orbitals
    rw [this]
  rw [e, projected_up (fun _ => 0) (fun _ => 2) (upGroup 2) card_upGroup card_upGroup_compl] at h1
  simp only [assigned_threeUp] at h1
  rw [Finset.sum_eq_single ({0, 1, 2} : Finset (Fin (2 + 2)))] at h1
  · rw [if_pos rfl, if_pos (by decide), mul_one] at h1
    have h2 : ∑ k ∈ ({0, 1, 2} : Finset (Fin (2 + 2))), ∑ i : Fin 1, (2 : ℝ) * coef (upGroup 2) (Real.arccos 0) (({0, 1, 2} : Finset (Fin (2 + 2))).erase k) = 0 := by
      exact_mod_cast h1
    simp only [Fin.sum_univ_one, coef_eq] at h2
    rw [Finset.sum_insert (by decide), Finset.sum_insert (by decide), Finset.sum_singleton] at h2
    have hG : upGroup 2 = {0, 1} := by decide
    have c0 : ((upGroup 2) ∩ (({0, 1, 2} : Finset (Fin (2 + 2))).erase 0)).card = 1 := by decide
    have c1 : ((upGroup 2) ∩ (({0, 1, 2} : Finset (Fin (2 + 2))).erase 1)).card = 1 := by decide
    have c2 : ((upGroup 2) ∩ (({0, 1, 2} : Finset (Fin (2 + 2))).erase 2)).card = 2 := by decide
    have d0 : ((upGroup 2)ᶜ ∩ (({0, 1, 2} : Finset (Fin (2 + 2))).erase 0)).card = 1 := by decide
    have d1 : ((upGroup 2)ᶜ ∩ (({0, 1, 2} : Finset (Fin (2 + 2))).erase 1)).card = 1 := by decide
    have d2 : ((upGroup 2)ᶜ ∩ (({0, 1, 2} : Finset (Fin (2 + 2))).erase 2)).card = 0 := by decide
    rw [c0, c1, c2, d0, d1, d2, card_upGroup, card_upGroup_compl] at h2
    have hh := half_angle (t := 0) (by constructor <;> norm_num)
    have hc : Real.cos (Real.arccos 0 / 2) ^ 2 = 1 / 2 := by rw [hh.1]; norm_num
    have hs : Real.sin (Real.arccos 0 / 2) ^ 2 = 1 / 2 := by rw [hh.2]; norm_num
    generalize Real.cos (Real.arccos 0 / 2) = c at h2 hc
    generalize Real.sin (Real.arccos 0 / 2) = m at h2 hs
    have h3 : -4 * c ^ 2 * m ^ 2 + 2 * (c ^ 2) ^ 2 = 0 := by
      rw [← h2]
      norm_num
      ring
    rw [hc, hs] at h3
    norm_num at h3
  · intro s _ hs
    rw [if_neg hs, mul_zero]
  · simp

end GPSKet.SpinProjection
