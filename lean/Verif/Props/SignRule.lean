import Verif.Spec.SignRule
import Verif.Props.J1J2
import Mathlib.Tactic.FinCases
import Mathlib.Analysis.SpecialFunctions.Trigonometric.Basic
import Mathlib.Tactic.LinearCombination

/-! # The sign rule of the Heisenberg models (C155) -/

namespace GPSKet.SignRule

open GPSKet GPSKet.Spec J1J2

variable {N : ℕ} {Cache : Type}

theorem marshall_prod (colour : Fin N → Bool) (x : Spins N) : marshall colour x = ∏ k, if colour k ∧ x k then -1 else 1 := by
  unfold marshall
  rw [Finset.prod_ite, Finset.prod_const, Finset.prod_const_one, mul_one]

theorem marshall_sq (colour : Fin N → Bool) (x : Spins N) : marshall colour x * marshall colour x = 1 := by
  unfold marshall
  rw [← pow_add, ← two_mul, pow_mul]
  norm_num

theorem marshall_ne (colour : Fin N → Bool) (x : Spins N) : marshall colour x ≠ 0 := by
  intro h
  have := marshall_sq colour x
  rw [h, zero_mul] at this
  exact zero_ne_one this

theorem marshall_norm (colour : Fin N → Bool) (x : Spins N) : ‖marshall colour x‖ = 1 := by
  unfold marshall
  rw [norm_pow, norm_neg, norm_one, one_pow]

theorem marshall_conj (colour : Fin N → Bool) (x : Spins N) : (starRingEnd ℂ) (marshall colour x) = marshall colour x := by
  unfold marshall
  rw [map_pow, map_neg, map_one]

/-- Exchanging two different spins changes Marshall's sign exactly if the sites have different colours. -/
theorem marshall_swap (colour : Fin N → Bool) {x x' : Spins N} {i j : Fin N} (hij : i ≠ j) (hi : x' i = x j) (hj : x' j = x i)
    (hk : ∀ k, k ≠ i → k ≠ j → x k = x' k) (hx : x i ≠ x j) :
    marshall colour x' = (if colour i = colour j then 1 else -1) * marshall colour x := by
  rw [marshall_prod, marshall_prod]
  have e : ∀ f : Fin N → ℂ, ∏ k, f k = f i * (f j * ∏ k ∈ (Finset.univ.erase i).erase j, f k) := by
    intro f
    rw [Finset.mul_prod_erase _ _ (by simp [hij.symm]), Finset.mul_prod_erase _ _ (Finset.mem_univ i)]
  rw [e, e]
  have hrest : ∏ k ∈ (Finset.univ.erase i).erase j, (if colour k ∧ x' k then (-1 : ℂ) else 1) =
      ∏ k ∈ (Finset.univ.erase i).erase j, if colour k ∧ x k then -1 else 1 := by
    refine Finset.prod_congr rfl fun k hk' => ?_
    simp only [Finset.mem_erase, Finset.mem_univ, and_true] at hk'
    rw [hk k hk'.2 hk'.1]
  rw [hrest, hi, hj]
  cases h1 : x i <;> cases h2 : x j <;> cases h3 : colour i <;> cases h4 : colour j <;> simp_all

/-- One bond: with the rule exactly between the colours, the signs move from one side to the other. -/
theorem bond_sign (colour : Fin N → Bool) (x x' : Spins N) {i j : Fin N} (hij : i ≠ j) (J : ℂ) :
    (if ∀ k, k ≠ i → k ≠ j → x k = x' k then
        heisenbergBond J (colour i != colour j) (pairIndex (x i) (x j)) (pairIndex (x' i) (x' j)) else 0) * marshall colour x' =
      marshall colour x * if ∀ k, k ≠ i → k ≠ j → x k = x' k then
        heisenbergBond J false (pairIndex (x i) (x j)) (pairIndex (x' i) (x' j)) else 0 := by
  by_cases hc : ∀ k, k ≠ i → k ≠ j → x k = x' k
  swap
  · rw [if_neg hc, if_neg hc, zero_mul, mul_zero]
  rw [if_pos hc, if_pos hc]
  by_cases hsame : x' i = x i ∧ x' j = x j
  · have hx : x' = x := by
      funext k
      by_cases h1 : k = i
      · rw [h1, hsame.1]
      · by_cases h2 : k = j
        · rw [h2, hsame.2]
        · exact (hc k h1 h2).symm
    rw [hx, mul_comm]
    congr 1
    cases x i <;> cases x j <;> simp [heisenbergBond, pairIndex]
  · by_cases hsw : x' i = x j ∧ x' j = x i
    · have hx : x i ≠ x j := by
        intro h
        exact hsame ⟨by rw [hsw.1, h], by rw [hsw.2, h]⟩
      rw [marshall_swap colour hij hsw.1 hsw.2 hc hx, hsw.1, hsw.2]
      cases h1 : x i <;> cases h2 : x j <;> cases h3 : colour i <;> cases h4 : colour j <;>
        simp_all [heisenbergBond, pairIndex, mul_comm]
    · have hz : ∀ r, heisenbergBond J r (pairIndex (x i) (x j)) (pairIndex (x' i) (x' j)) = 0 := by
        intro r
        cases h1 : x i <;> cases h2 : x j <;> cases h3 : x' i <;> cases h4 : x' j <;> simp_all [heisenbergBond, pairIndex]
      rw [hz, hz, zero_mul, mul_zero]

theorem operator_sign (colour : Fin N → Bool) (bonds : List ((Fin N × Fin N) × ℂ)) (hd : ∀ b ∈ bonds, b.1.1 ≠ b.1.2) (x x' : Spins N) :
    bondOperator (bonds.map fun b => (b.1, heisenbergBond b.2 (colour b.1.1 != colour b.1.2))) x x' * marshall colour x' =
      marshall colour x * heisenberg bonds x x' := by
  unfold heisenberg bondOperator
  induction bonds with
  | nil => simp
  | cons b bs ih =>
    simp only [List.map_cons, List.sum_cons]
    rw [add_mul, mul_add, ih fun b hb => hd b (List.mem_cons_of_mem _ hb)]
    congr 1
    exact bond_sign colour x x' (hd b List.mem_cons_self) b.2

/-- C155: the energy of the operator in which the sign rule is applied exactly to the bonds between two colours is the energy of the
Heisenberg model of the state with Marshall's signs. -/
theorem C155_energy (colour : Fin N → Bool) (bonds : List ((Fin N × Fin N) × ℂ)) (hd : ∀ b ∈ bonds, b.1.1 ≠ b.1.2) (psi : Spins N → ℂ) :
    rayleigh (bondOperator (bonds.map fun b => (b.1, heisenbergBond b.2 (colour b.1.1 != colour b.1.2)))) psi =
      rayleigh (heisenberg bonds) fun x => marshall colour x * psi x := by
  unfold rayleigh bornNorm
  congr 1
  · refine Finset.sum_congr rfl fun x _ => Finset.sum_congr rfl fun y _ => ?_
    rw [map_mul, marshall_conj]
    have h := operator_sign colour bonds hd x y
    have e : bondOperator (bonds.map fun b => (b.1, heisenbergBond b.2 (colour b.1.1 != colour b.1.2))) x y =
        marshall colour x * heisenberg bonds x y * marshall colour y := by
      rw [← h, mul_assoc, marshall_sq, mul_one]
    rw [e]
    ring
  · congr 1
    refine Finset.sum_congr rfl fun x _ => ?_
    rw [norm_mul, marshall_norm, one_mul]

/-- C155 for the evaluation on the fly: with the sign rule on a two-coloured lattice, each local energy is the one of the Heisenberg model
without it for the same amplitudes with Marshall's signs. -/
theorem C155_local_energy (colour : Fin N → Bool) (bonds : List ((Fin N × Fin N) × ℂ)) (hd : ∀ b ∈ bonds, b.1.1 ≠ b.1.2)
    (hc : ∀ b ∈ bonds, colour b.1.1 ≠ colour b.1.2) (src src' : AmpSource N ℤ Cache) (x : Spins N)
    (hs : src.OkAt fun k => spinVal (x k)) (hs' : src'.OkAt fun k => spinVal (x k))
    (hsign : ∀ y : Spins N, Complex.exp (src'.logAmp fun k => spinVal (y k)) = marshall colour y * Complex.exp (src.logAmp fun k => spinVal (y k))) :
    localEn src (bonds.map fun b => (b.1, heisenbergBond b.2 true)) (fun k => spinVal (x k)) =
      localEn src' (bonds.map fun b => (b.1, heisenbergBond b.2 false)) fun k => spinVal (x k) := by
  have h1 := C11_heisenberg src (bonds.map fun b => (b.1, (b.2, true))) (by intro b hb; obtain ⟨c, hc, rfl⟩ := List.mem_map.mp hb; exact hd c hc) x hs
  have h2 := C11_heisenberg src' (bonds.map fun b => (b.1, (b.2, false))) (by intro b hb; obtain ⟨c, hc, rfl⟩ := List.mem_map.mp hb; exact hd c hc) x hs'
  simp only [List.map_map, Function.comp_def] at h1 h2
  rw [h1, h2]
  unfold localEnergy
  refine Finset.sum_congr rfl fun y _ => ?_
  have h := operator_sign colour bonds hd x y
  have e : (bonds.map fun b => (b.1, heisenbergBond b.2 (colour b.1.1 != colour b.1.2))) = bonds.map fun b => (b.1, heisenbergBond b.2 true) :=
    List.map_congr_left fun b hb => by
      have : (colour b.1.1 != colour b.1.2) = true := by simpa using hc b hb
      rw [this]
  rw [e] at h
  have e2 : bondOperator (bonds.map fun b => (b.1, heisenbergBond b.2 true)) x y = marshall colour x * heisenberg bonds x y * marshall colour y := by
    rw [← h, mul_assoc, marshall_sq, mul_one]
  have e3 : bondOperator (bonds.map fun b => (b.1, heisenbergBond b.2 false)) x y = heisenberg bonds x y := rfl
  have hx := marshall_ne colour x
  have hq := marshall_sq colour x
  have he := Complex.exp_ne_zero (src.logAmp fun k => spinVal (x k))
  simp only [hsign]
  rw [e2, e3]
  field_simp
  linear_combination (heisenberg bonds x y * marshall colour y) * hq

/-- Off-diagonal elements with the rule on all bonds. -/
theorem signRuled_nonpos (bonds : List ((Fin N × Fin N) × ℝ)) (hJ : ∀ b ∈ bonds, 0 ≤ b.2) {x y : Spins N} (hxy : x ≠ y) :
    ∃ r : ℝ, r ≤ 0 ∧ signRuled (bonds.map fun b => (b.1, (b.2 : ℂ))) x y = r := by
  unfold signRuled bondOperator
  induction bonds with
  | nil => exact ⟨0, le_rfl, by simp⟩
  | cons b bs ih =>
    obtain ⟨r, hr, e⟩ := ih fun b hb => hJ b (List.mem_cons_of_mem _ hb)
    have hb := hJ b List.mem_cons_self
    simp only [List.map_cons, List.sum_cons]
    rw [e]
    split_ifs with hc
    · have hne : ¬(x b.1.1 = y b.1.1 ∧ x b.1.2 = y b.1.2) := by
        rintro ⟨h1, h2⟩
        apply hxy
        funext k
        by_cases e1 : k = b.1.1
        · rw [e1, h1]
        · by_cases e2 : k = b.1.2
          · rw [e2, h2]
          · exact hc k e1 e2
      have : heisenbergBond (b.2 : ℂ) true (pairIndex (x b.1.1) (x b.1.2)) (pairIndex (y b.1.1) (y b.1.2)) = 0 ∨
          heisenbergBond (b.2 : ℂ) true (pairIndex (x b.1.1) (x b.1.2)) (pairIndex (y b.1.1) (y b.1.2)) = ((-2 * b.2 : ℝ) : ℂ) := by
        cases h1 : x b.1.1 <;> cases h2 : x b.1.2 <;> cases h3 : y b.1.1 <;> cases h4 : y b.1.2 <;>
          simp_all [heisenbergBond, pairIndex, mul_comm]
      rcases this with h | h <;> rw [h]
      · exact ⟨r, hr, by simp⟩
      · exact ⟨-2 * b.2 + r, by linarith, by push_cast; ring⟩
    · exact ⟨r, hr, by simp⟩

theorem signRuled_diag (bonds : List ((Fin N × Fin N) × ℝ)) (x : Spins N) :
    ∃ r : ℝ, signRuled (bonds.map fun b => (b.1, (b.2 : ℂ))) x x = r := by
  unfold signRuled bondOperator
  induction bonds with
  | nil => exact ⟨0, by simp⟩
  | cons b bs ih =>
    obtain ⟨r, e⟩ := ih
    rw [List.map_cons, List.map_cons, List.map_cons, List.sum_cons, e]
    dsimp only
    rw [if_pos fun _ _ _ => rfl]
    have : heisenbergBond (b.2 : ℂ) true (pairIndex (x b.1.1) (x b.1.2)) (pairIndex (x b.1.1) (x b.1.2)) = (b.2 : ℂ) ∨
          heisenbergBond (b.2 : ℂ) true (pairIndex (x b.1.1) (x b.1.2)) (pairIndex (x b.1.1) (x b.1.2)) = ((- b.2 : ℝ) : ℂ) := by
      cases h1 : x b.1.1 <;> cases h2 : x b.1.2 <;> simp [heisenbergBond, pairIndex]
    rcases this with h | h <;> rw [h]
    · exact ⟨b.2 + r, by push_cast; ring⟩
    · exact ⟨-b.2 + r, by push_cast; ring⟩

/-- C155: with the sign rule and antiferromagnetic couplings, positive amplitudes are enough: the energy of the moduli of the amplitudes is
not above the energy of any choice of their phases. -/
theorem C155_positive (bonds : List ((Fin N × Fin N) × ℝ)) (hJ : ∀ b ∈ bonds, 0 ≤ b.2) (psi : Spins N → ℂ) :
    (rayleigh (signRuled (bonds.map fun b => (b.1, (b.2 : ℂ)))) fun x => (‖psi x‖ : ℂ)).re ≤
      (rayleigh (signRuled (bonds.map fun b => (b.1, (b.2 : ℂ)))) psi).re := by
  unfold rayleigh
  have hn : bornNorm (fun x => (‖psi x‖ : ℂ)) = bornNorm psi := by
    unfold bornNorm
    refine Finset.sum_congr rfl fun x _ => ?_
    rw [Complex.norm_real, norm_norm]
  rw [hn, Complex.div_ofReal_re, Complex.div_ofReal_re]
  refine div_le_div_of_nonneg_right ?_ (Finset.sum_nonneg fun _ _ => sq_nonneg _)
  simp only [Complex.re_sum]
  refine Finset.sum_le_sum fun x _ => Finset.sum_le_sum fun y _ => ?_
  by_cases hxy : x = y
  · subst hxy
    obtain ⟨r, e⟩ := signRuled_diag bonds x
    rw [e]
    have h1 : (starRingEnd ℂ) (psi x) * (r : ℂ) * psi x = (r : ℂ) * (psi x * (starRingEnd ℂ) (psi x)) := by ring
    rw [h1, Complex.mul_conj, Complex.conj_ofReal, Complex.normSq_eq_norm_sq]
    norm_cast
    apply le_of_eq
    ring
  · obtain ⟨r, hr, e⟩ := signRuled_nonpos bonds hJ hxy
    rw [e, Complex.conj_ofReal]
    have h1 : (starRingEnd ℂ) (psi x) * (r : ℂ) * psi y = (r : ℂ) * ((starRingEnd ℂ) (psi x) * psi y) := by ring
    rw [h1, Complex.re_ofReal_mul]
    have h2 : ((starRingEnd ℂ) (psi x) * psi y).re ≤ ‖psi x‖ * ‖psi y‖ := by
      refine (Complex.re_le_norm _).trans ?_
      rw [norm_mul, RCLike.norm_conj]
    have h3 : ((‖psi x‖ : ℂ) * (r : ℂ) * (‖psi y‖ : ℂ)).re = r * (‖psi x‖ * ‖psi y‖) := by
      norm_cast
      ring
    rw [h3]
    exact mul_le_mul_of_nonpos_left h2 hr

/-- Three sites, all of them neighbours: they have no two-colouring. -/
def triangle : List ((Fin 3 × Fin 3) × ℂ) := [((0, 1), 1), ((1, 2), 1), ((2, 0), 1)]

theorem sum3 (f : Spins 3 → ℂ) : ∑ x, f x = f ![false, false, false] + (f ![true, false, false] + (f ![false, true, false] +
    (f ![false, false, true] + (f ![false, true, true] + (f ![true, false, true] + (f ![true, true, false] + f ![true, true, true])))))) := by
  have : (Finset.univ : Finset (Spins 3)) = {![false, false, false], ![true, false, false], ![false, true, false], ![false, false, true],
      ![false, true, true], ![true, false, true], ![true, true, false], ![true, true, true]} := by decide
  rw [this]
  repeat rw [Finset.sum_insert (by decide)]
  rw [Finset.sum_singleton]

theorem triangle_row (r : Bool) (phi : Spins 3 → ℂ) (x : Spins 3) :
    ∑ y, bondOperator (triangle.map fun b => (b.1, heisenbergBond b.2 r)) x y * phi y =
      (triangle.map fun b => heisenbergBond b.2 r (pairIndex (x b.1.1) (x b.1.2)) (pairIndex (x b.1.1) (x b.1.2)) * phi x +
        if x b.1.1 ≠ x b.1.2 then heisenbergBond b.2 r (pairIndex (x b.1.1) (x b.1.2)) (pairIndex (x b.1.2) (x b.1.1)) *
          phi (Function.update (Function.update x b.1.1 (x b.1.2)) b.1.2 (x b.1.1)) else 0).sum := by
  have hO : ∀ J, OnlyExchange (heisenbergBond J r) := by
    intro J a b a' b' h1 h2
    cases a <;> cases b <;> cases a' <;> cases b' <;> simp_all [heisenbergBond, pairIndex]
  unfold bondOperator triangle
  simp only [List.map_cons, List.map_nil, List.sum_cons, List.sum_nil, add_zero, add_mul, Finset.sum_add_distrib]
  rw [bond_sum _ (hO _) x (by decide), bond_sum _ (hO _) x (by decide), bond_sum _ (hO _) x (by decide)]

/-- The numerator of the energy in terms of the rows. -/
theorem energy_rows {C : Type} [Fintype C] (H : C → C → ℂ) (psi : C → ℂ) :
    rayleigh H psi = (∑ x, (starRingEnd ℂ) (psi x) * ∑ y, H x y * psi y) / (bornNorm psi : ℂ) := by
  unfold rayleigh
  congr 1
  refine Finset.sum_congr rfl fun x _ => ?_
  rw [Finset.mul_sum]
  exact Finset.sum_congr rfl fun y _ => by ring

theorem upd (a b c : Bool) :
    Function.update (Function.update ![a, b, c] 0 b) 1 a = ![b, a, c] ∧ Function.update (Function.update ![a, b, c] 1 c) 2 b = ![a, c, b] ∧
      Function.update (Function.update ![a, b, c] 2 a) 0 c = ![c, b, a] := by
  refine ⟨?_, ?_, ?_⟩ <;> (funext k; fin_cases k <;> rfl)

/-- Every state of the Heisenberg triangle has an energy of at least -3. -/
theorem triangle_bound (phi : Spins 3 → ℂ) : 0 ≤ (∑ x, (starRingEnd ℂ) (phi x) * ∑ y, heisenberg triangle x y * phi y).re + 3 * bornNorm phi := by
  have hb : ((bornNorm phi : ℝ) : ℂ) = ∑ x, phi x * (starRingEnd ℂ) (phi x) := by
    unfold bornNorm
    push_cast
    refine Finset.sum_congr rfl fun x _ => ?_
    rw [Complex.mul_conj, Complex.normSq_eq_norm_sq]
    push_cast
    rfl
  have e : (∑ x, (starRingEnd ℂ) (phi x) * ∑ y, heisenberg triangle x y * phi y) + 3 * ((bornNorm phi : ℝ) : ℂ) =
      6 * (phi ![false, false, false] * (starRingEnd ℂ) (phi ![false, false, false])) +
      6 * (phi ![true, true, true] * (starRingEnd ℂ) (phi ![true, true, true])) +
      2 * ((phi ![true, false, false] + phi ![false, true, false] + phi ![false, false, true]) *
        (starRingEnd ℂ) (phi ![true, false, false] + phi ![false, true, false] + phi ![false, false, true])) +
      2 * ((phi ![false, true, true] + phi ![true, false, true] + phi ![true, true, false]) *
        (starRingEnd ℂ) (phi ![false, true, true] + phi ![true, false, true] + phi ![true, true, false])) := by
    rw [hb]
    unfold heisenberg
    simp only [triangle_row]
    rw [sum3, sum3]
    simp only [triangle, List.map_cons, List.map_nil, List.sum_cons, List.sum_nil, Matrix.cons_val_zero, Matrix.cons_val_one, Matrix.cons_val,
      upd, pairIndex, heisenbergBond, map_add]
    simp
    ring
  have h := congrArg Complex.re e
  simp only [Complex.mul_conj] at h
  have h3 : (∑ x, (starRingEnd ℂ) (phi x) * ∑ y, heisenberg triangle x y * phi y).re + 3 * bornNorm phi =
      ((∑ x, (starRingEnd ℂ) (phi x) * ∑ y, heisenberg triangle x y * phi y) + 3 * ((bornNorm phi : ℝ) : ℂ)).re := by
    simp
  rw [h3, h]
  norm_cast
  have h0 := Complex.normSq_nonneg
  exact add_nonneg (add_nonneg (add_nonneg (mul_nonneg (by norm_num) (h0 _)) (mul_nonneg (by norm_num) (h0 _)))
    (mul_nonneg (by norm_num) (h0 _))) (mul_nonneg (by norm_num) (h0 _))

/-- Equal amplitudes for one up spin. -/
def oneUp (x : Spins 3) : ℂ := if x = ![true, false, false] ∨ x = ![false, true, false] ∨ x = ![false, false, true] then 1 else 0

/-- C155: the two-colouring is needed.  On a triangle the rule on all bonds lowers the energy below everything the Heisenberg model can
reach: equal amplitudes have the energy -5, but no state of the Heisenberg model is below -3. -/
theorem C155_triangle_fails :
    rayleigh (signRuled triangle) oneUp = -5 ∧ ∀ phi : Spins 3 → ℂ, -3 ≤ (rayleigh (heisenberg triangle) phi).re := by
  constructor
  · rw [energy_rows]
    have hb : bornNorm oneUp = 3 := by
      unfold bornNorm
      have := sum3 fun x => ((‖oneUp x‖ ^ 2 : ℝ) : ℂ)
      have h2 : ((∑ x, ‖oneUp x‖ ^ 2 : ℝ) : ℂ) = 3 := by
        push_cast
        push_cast at this
        rw [this]
        simp [oneUp]
        norm_num
      exact_mod_cast h2
    rw [hb]
    unfold signRuled
    simp only [triangle_row]
    rw [sum3]
    simp only [triangle, List.map_cons, List.map_nil, List.sum_cons, List.sum_nil, Matrix.cons_val_zero, Matrix.cons_val_one, Matrix.cons_val,
      upd, pairIndex, heisenbergBond]
    simp [oneUp]
    norm_num
  · intro phi
    rw [energy_rows, Complex.div_ofReal_re]
    have hn : 0 ≤ bornNorm phi := Finset.sum_nonneg fun _ _ => sq_nonneg _
    rcases hn.eq_or_lt with h | h
    · rw [← h, div_zero]; norm_num
    · rw [le_div_iff₀ h]
      have := triangle_bound phi
      linarith

/-- The hypotheses of C155: a ring of four sites, coloured alternately. -/
example : ∀ b ∈ ([((0, 1), 1), ((1, 2), 1), ((2, 3), 1), ((3, 0), 1)] : List ((Fin 4 × Fin 4) × ℂ)),
    b.1.1 ≠ b.1.2 ∧ (![true, false, true, false] : Fin 4 → Bool) b.1.1 ≠ (![true, false, true, false] : Fin 4 → Bool) b.1.2 := by
  simp

/-- The hypothesis on the amplitudes: logarithms with the phase of Marshall's signs. -/
example (colour : Fin N → Bool) (logpsi : Spins N → ℂ) (y : Spins N) :
    Complex.exp (logpsi y + (Finset.univ.filter fun k => colour k ∧ y k).card * (Real.pi * Complex.I)) = marshall colour y * Complex.exp (logpsi y) := by
  rw [Complex.exp_add, Complex.exp_nat_mul, Complex.exp_pi_mul_I, marshall, mul_comm]

end GPSKet.SignRule
