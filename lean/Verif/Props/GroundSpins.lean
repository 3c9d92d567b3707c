import Verif.Lemmas.Stoquastic
import Verif.Props.SignRule
import Verif.Props.ExchangeChain

/-!
# C170: with the sign rule, local energies of positive amplitudes bound the ground-state energy, and the ground state is positive
-/

namespace GPSKet.GroundSpins
open GPSKet GPSKet.Spec J1J2 SignRule Stoquastic

variable {N : ℕ} {Cache : Type}

/-- The number of up spins. -/
def upCount (x : Spins N) : ℕ := (Finset.univ.filter fun k => x k = true).card

/-- NetKet's array for a configuration. -/
def arr (x : Spins N) : Fin N → ℤ := fun k => spinVal (x k)

/-! ## Lemmas -/

/-- The element of one bond of the operator with the sign rule. -/
noncomputable def bondElem (b : (Fin N × Fin N) × ℝ) (x y : Spins N) : ℂ :=
  if ∀ k, k ≠ b.1.1 → k ≠ b.1.2 → x k = y k then
    heisenbergBond (b.2 : ℂ) true (pairIndex (x b.1.1) (x b.1.2)) (pairIndex (y b.1.1) (y b.1.2)) else 0

theorem signRuled_sum (bonds : List ((Fin N × Fin N) × ℝ)) (x y : Spins N) :
    signRuled (bonds.map fun b => (b.1, (b.2 : ℂ))) x y = (bonds.map fun b => bondElem b x y).sum := by
  unfold signRuled bondOperator bondElem
  rw [List.map_map, List.map_map]
  rfl

theorem bondElem_symm (b : (Fin N × Fin N) × ℝ) (x y : Spins N) : bondElem b x y = bondElem b y x := by
  unfold bondElem
  have h : (∀ k, k ≠ b.1.1 → k ≠ b.1.2 → x k = y k) ↔ ∀ k, k ≠ b.1.1 → k ≠ b.1.2 → y k = x k :=
    ⟨fun h k h1 h2 => (h k h1 h2).symm, fun h k h1 h2 => (h k h1 h2).symm⟩
  by_cases hc : ∀ k, k ≠ b.1.1 → k ≠ b.1.2 → x k = y k
  · rw [if_pos hc, if_pos (h.mp hc)]
    cases x b.1.1 <;> cases x b.1.2 <;> cases y b.1.1 <;> cases y b.1.2 <;> simp [heisenbergBond, pairIndex]
  · rw [if_neg hc, if_neg fun h' => hc (h.mpr h')]

/-- Off the diagonal an element is zero, or the two spins of the bond are exchanged. -/
theorem bondElem_cases (b : (Fin N × Fin N) × ℝ) (hd : b.1.1 ≠ b.1.2) {x y : Spins N} (hxy : x ≠ y) :
    bondElem b x y = 0 ∨ (y = x ∘ Equiv.swap b.1.1 b.1.2 ∧ bondElem b x y = ((-2 * b.2 : ℝ) : ℂ)) := by
  unfold bondElem
  by_cases hc : ∀ k, k ≠ b.1.1 → k ≠ b.1.2 → x k = y k
  swap
  · left; rw [if_neg hc]
  rw [if_pos hc]
  have hne : ¬(x b.1.1 = y b.1.1 ∧ x b.1.2 = y b.1.2) := by
    rintro ⟨h1, h2⟩
    apply hxy
    funext k
    by_cases e1 : k = b.1.1
    · rw [e1, h1]
    · by_cases e2 : k = b.1.2
      · rw [e2, h2]
      · exact hc k e1 e2
  by_cases hsw : y b.1.1 = x b.1.2 ∧ y b.1.2 = x b.1.1
  · right
    constructor
    · funext k
      by_cases e1 : k = b.1.1
      · rw [e1]; simp [hsw.1]
      · by_cases e2 : k = b.1.2
        · rw [e2]; simp [hsw.2]
        · rw [Function.comp_apply, Equiv.swap_apply_of_ne_of_ne e1 e2, hc k e1 e2]
    · cases h1 : x b.1.1 <;> cases h2 : x b.1.2 <;> cases h3 : y b.1.1 <;> cases h4 : y b.1.2 <;>
        simp_all [heisenbergBond, pairIndex, mul_comm]
  · left
    cases h1 : x b.1.1 <;> cases h2 : x b.1.2 <;> cases h3 : y b.1.1 <;> cases h4 : y b.1.2 <;>
      simp_all [heisenbergBond, pairIndex]

theorem bondElem_swap (b : (Fin N × Fin N) × ℝ) {x : Spins N} (hxy : x ≠ x ∘ Equiv.swap b.1.1 b.1.2) :
    bondElem b x (x ∘ Equiv.swap b.1.1 b.1.2) = ((-2 * b.2 : ℝ) : ℂ) := by
  have hc : ∀ k, k ≠ b.1.1 → k ≠ b.1.2 → x k = (x ∘ Equiv.swap b.1.1 b.1.2) k := by
    intro k h1 h2
    rw [Function.comp_apply, Equiv.swap_apply_of_ne_of_ne h1 h2]
  have hne : x b.1.1 ≠ x b.1.2 := by
    intro h
    apply hxy
    funext k
    by_cases e1 : k = b.1.1
    · rw [e1]; simp [h]
    · by_cases e2 : k = b.1.2
      · rw [e2]; simp [h]
      · exact hc k e1 e2
  unfold bondElem
  rw [if_pos hc]
  simp only [Function.comp_apply, Equiv.swap_apply_left, Equiv.swap_apply_right]
  cases h1 : x b.1.1 <;> cases h2 : x b.1.2 <;> simp_all [heisenbergBond, pairIndex, mul_comm]

theorem upCount_perm (x : Spins N) (p : Equiv.Perm (Fin N)) : upCount (x ∘ p) = upCount x := by
  unfold upCount
  refine Finset.card_bij (fun k _ => p k) (by simp) (fun a _ b _ h => p.injective h) ?_
  intro k hk
  exact ⟨p.symm k, by simpa using hk, by simp⟩

variable (bonds : List ((Fin N × Fin N) × ℝ))

/-- The real part of the operator with the sign rule. -/
noncomputable def A : Spins N → Spins N → ℝ := fun x y => (signRuled (bonds.map fun b => (b.1, (b.2 : ℂ))) x y).re

variable {bonds}

theorem A_real (hJ : ∀ b ∈ bonds, 0 ≤ b.2) (x y : Spins N) : signRuled (bonds.map fun b => (b.1, (b.2 : ℂ))) x y = A bonds x y := by
  unfold A
  by_cases h : x = y
  · subst h
    obtain ⟨r, e⟩ := signRuled_diag bonds x
    rw [e, Complex.ofReal_re]
  · obtain ⟨r, -, e⟩ := signRuled_nonpos bonds hJ h
    rw [e, Complex.ofReal_re]

theorem good (hd : ∀ b ∈ bonds, b.1.1 ≠ b.1.2) (hJ : ∀ b ∈ bonds, 0 ≤ b.2) (k : ℕ) :
    Good (fun x => upCount x = k) (signRuled (bonds.map fun b => (b.1, (b.2 : ℂ)))) (A bonds) where
  real := A_real hJ
  symm x y := by
    unfold A
    rw [signRuled_sum, signRuled_sum]
    simp only [bondElem_symm]
  nonpos x y h := by
    obtain ⟨r, hr, e⟩ := signRuled_nonpos bonds hJ h
    unfold A
    rw [e, Complex.ofReal_re]
    exact hr
  closed x y hx hy := by
    have hxy : x ≠ y := by rintro rfl; exact hy hx
    unfold A
    rw [signRuled_sum, List.sum_eq_zero, Complex.zero_re]
    intro e he
    obtain ⟨b, hb, rfl⟩ := List.mem_map.mp he
    rcases bondElem_cases b (hd b hb) hxy with h | ⟨h, -⟩
    · exact h
    · rw [h, upCount_perm] at hy
      exact absurd hx hy

theorem A_swap (hd : ∀ b ∈ bonds, b.1.1 ≠ b.1.2) (hJ : ∀ b ∈ bonds, 0 < b.2) {b : (Fin N × Fin N) × ℝ} (hb : b ∈ bonds) {x : Spins N}
    (hxy : x ≠ x ∘ Equiv.swap b.1.1 b.1.2) : A bonds x (x ∘ Equiv.swap b.1.1 b.1.2) ≠ 0 := by
  set y := x ∘ Equiv.swap b.1.1 b.1.2 with hy
  have hle : ∀ b ∈ bonds, (bondElem b x y).re ≤ 0 := by
    intro b hb
    rcases bondElem_cases b (hd b hb) hxy with h | ⟨-, h⟩
    · rw [h, Complex.zero_re]
    · rw [h, Complex.ofReal_re]
      have := hJ b hb
      linarith
  have hsum : A bonds x y = (bonds.map fun b => (bondElem b x y).re).sum := by
    unfold A
    rw [signRuled_sum]
    clear hle hb hd hJ
    induction bonds with
    | nil => simp
    | cons c cs ih => simp only [List.map_cons, List.sum_cons, Complex.add_re, ih]
  have hneg : (bondElem b x y).re < 0 := by
    rw [hy, bondElem_swap b hxy, Complex.ofReal_re]
    have := hJ b hb
    linarith
  have hlt : (bonds.map fun b => (bondElem b x y).re).sum < 0 := by
    obtain ⟨l1, l2, rfl⟩ := List.append_of_mem hb
    have hz : ∀ l : List ((Fin N × Fin N) × ℝ), (∀ b ∈ l, (bondElem b x y).re ≤ 0) → (l.map fun b => (bondElem b x y).re).sum ≤ 0 := by
      intro l hl
      induction l with
      | nil => simp
      | cons c cs ih =>
        simp only [List.map_cons, List.sum_cons]
        have := hl c (by simp)
        have := ih fun b hb => hl b (by simp [hb])
        linarith
    have h1 := hz l1 fun c hc => hle c (by simp [hc])
    have h2 := hz l2 fun c hc => hle c (by simp [hc])
    simp only [List.map_append, List.map_cons, List.sum_append, List.sum_cons]
    linarith
  rw [hsum]
  exact hlt.ne

/-- The bonds connect all sites. -/
def Connected (bonds : List ((Fin N × Fin N) × ℝ)) : Prop :=
  ∀ i j, Relation.ReflTransGen (fun i j => ∃ b ∈ bonds, b.1 = (i, j) ∨ b.1 = (j, i)) i j

theorem sector_connected (hd : ∀ b ∈ bonds, b.1.1 ≠ b.1.2) (hJ : ∀ b ∈ bonds, 0 < b.2) (hc : Connected bonds) (x y : Spins N)
    (h : upCount x = upCount y) : Relation.ReflTransGen (fun a b => A bonds a b ≠ 0) x y := by
  have hc' : ExchangeChain.Connected (bonds.map Prod.fst) := by
    intro i j
    refine Relation.ReflTransGen.mono (fun a b => ?_) i j (hc i j)
    rintro ⟨c, hc, h | h⟩
    · left; rw [← h]; exact List.mem_map_of_mem hc
    · right; rw [← h]; exact List.mem_map_of_mem hc
  have hcount : ∀ v, (Finset.univ.filter fun j => x j = v).card = (Finset.univ.filter fun j => y j = v).card := by
    intro v
    cases v with
    | true => exact h
    | false =>
      have e : ∀ z : Spins N, (Finset.univ.filter fun j => z j = false).card = N - upCount z := by
        intro z
        have := Finset.card_filter_add_card_filter_not (s := (Finset.univ : Finset (Fin N))) (fun j => z j = true)
        simp only [Bool.not_eq_true, Finset.card_univ, Fintype.card_fin] at this
        unfold upCount
        omega
      rw [e, e, h]
  obtain ⟨p, rfl⟩ := ExchangeChain.exists_perm x y hcount
  have key : ∀ z, Relation.ReflTransGen (ExchangeChain.Swapped (bonds.map Prod.fst)) x z →
      Relation.ReflTransGen (fun a b => A bonds a b ≠ 0) x z := by
    intro z hz
    induction hz with
    | refl => exact Relation.ReflTransGen.refl
    | @tail u w _ hs ih =>
      obtain ⟨cl, hcl, rfl⟩ := hs
      obtain ⟨b, hb, rfl⟩ := List.mem_map.mp hcl
      by_cases he : u = u ∘ Equiv.swap b.1.1 b.1.2
      · rw [← he]; exact ih
      · exact ih.tail (A_swap hd hJ hb he)
  exact key _ (ExchangeChain.permute hc' p x)

/-- The local energies of real positive amplitudes. -/
theorem localEn_eq (hd : ∀ b ∈ bonds, b.1.1 ≠ b.1.2) (hJ : ∀ b ∈ bonds, 0 ≤ b.2) {k : ℕ} (src : AmpSource N ℤ Cache)
    (hpos : ∀ x, upCount x = k → (src.logAmp (arr x)).im = 0) {x : Spins N} (hx : upCount x = k) (hs : src.OkAt (arr x)) :
    (localEn src (bonds.map fun b => (b.1, heisenbergBond (b.2 : ℂ) true)) (arr x)).re =
      (∑ y, A bonds x y * Real.exp (src.logAmp (arr y)).re) / Real.exp (src.logAmp (arr x)).re := by
  have h := C11_heisenberg src (bonds.map fun b => (b.1, ((b.2 : ℂ), true)))
    (by intro b hb; obtain ⟨c, hc, rfl⟩ := List.mem_map.mp hb; exact hd c hc) x hs
  dsimp only at h
  rw [List.map_map] at h
  have h' : localEn src (bonds.map fun b => (b.1, heisenbergBond (b.2 : ℂ) true)) (arr x) =
      localEnergy (fun y => signRuled (bonds.map fun b => (b.1, (b.2 : ℂ))) x y) (fun y => src.logAmp (arr y)) x := by
    unfold signRuled
    rw [List.map_map]
    exact h
  rw [h', localEnergy, Complex.re_sum, Finset.sum_div]
  refine Finset.sum_congr rfl fun y _ => ?_
  rw [A_real hJ]
  by_cases hy : upCount y = k
  · have e : ∀ z, upCount z = k → Complex.exp (src.logAmp (arr z)) = (Real.exp (src.logAmp (arr z)).re : ℂ) := by
      intro z hz
      rw [Complex.ofReal_exp]
      congr 1
      exact Complex.ext rfl (by simpa using hpos z hz)
    rw [e x hx, e y hy, ← Complex.ofReal_div, ← Complex.ofReal_mul, Complex.ofReal_re, mul_div_assoc]
  · rw [(good hd hJ k).closed x y hx hy]
    simp

/-- The energy in the original basis. -/
theorem energy_rotated (colour : Fin N → Bool) (hd : ∀ b ∈ bonds, b.1.1 ≠ b.1.2) (hc : ∀ b ∈ bonds, colour b.1.1 ≠ colour b.1.2)
    (psi : Spins N → ℂ) : rayleigh (signRuled (bonds.map fun b => (b.1, (b.2 : ℂ)))) psi =
      rayleigh (heisenberg (bonds.map fun b => (b.1, (b.2 : ℂ)))) fun x => marshall colour x * psi x := by
  rw [← C155_energy colour _ (by intro b hb; obtain ⟨c, hc, rfl⟩ := List.mem_map.mp hb; exact hd c hc)]
  unfold signRuled
  congr 2
  rw [List.map_map, List.map_map]
  refine List.map_congr_left fun b hb => ?_
  have := hc b hb
  have h2 : (colour b.1.1 != colour b.1.2) = true := by simpa using this
  simp only [Function.comp_apply, h2]

theorem mar_mar (colour : Fin N → Bool) (phi : Spins N → ℂ) : (fun x => marshall colour x * (marshall colour x * phi x)) = phi := by
  funext x
  rw [← mul_assoc, marshall_sq, one_mul]

/-! ## The theorems -/

/-- **C170**: let an antiferromagnetic Heisenberg model (J ≥ 0 on all bonds) live on a lattice with two sublattices, let the on-the-fly operator
be built with the sign rule, and let a model have positive amplitudes (real log-amplitudes) for all configurations with `k` up spins.  No
state with `k` up spins has an energy below the smallest of the model's local energies ... -/
theorem C170_lower (colour : Fin N → Bool) (bonds : List ((Fin N × Fin N) × ℝ)) (hd : ∀ b ∈ bonds, b.1.1 ≠ b.1.2)
    (hc : ∀ b ∈ bonds, colour b.1.1 ≠ colour b.1.2) (hJ : ∀ b ∈ bonds, 0 ≤ b.2) (k : ℕ) (src : AmpSource N ℤ Cache)
    (hs : ∀ x, upCount x = k → src.OkAt (arr x)) (hpos : ∀ x, upCount x = k → (src.logAmp (arr x)).im = 0)
    (phi : Spins N → ℂ) (hphi : ∀ x, upCount x ≠ k → phi x = 0) (hne : phi ≠ 0) :
    ∃ x, upCount x = k ∧ (localEn src (bonds.map fun b => (b.1, heisenbergBond (b.2 : ℂ) true)) (arr x)).re ≤
      (rayleigh (heisenberg (bonds.map fun b => (b.1, (b.2 : ℂ)))) phi).re := by
  by_contra hcon
  push Not at hcon
  set r := (rayleigh (heisenberg (bonds.map fun b => (b.1, (b.2 : ℂ)))) phi).re with hr
  obtain ⟨x0, hx0⟩ := Function.ne_iff.mp hne
  have hk0 : upCount x0 = k := by by_contra h; exact hx0 (hphi x0 h)
  classical
  obtain ⟨x1, hx1, hmin⟩ := Finset.exists_min_image (Finset.univ.filter fun x : Spins N => upCount x = k)
    (fun x => (localEn src (bonds.map fun b => (b.1, heisenbergBond (b.2 : ℂ) true)) (arr x)).re) ⟨x0, by simp [hk0]⟩
  simp only [Finset.mem_filter, Finset.mem_univ, true_and] at hx1 hmin
  have hb := barta (good hd hJ k) (fun y => Real.exp (src.logAmp (arr y)).re) (fun _ _ => Real.exp_pos _)
    (localEn src (bonds.map fun b => (b.1, heisenbergBond (b.2 : ℂ) true)) (arr x1)).re
    (fun x hx => by rw [← localEn_eq hd hJ src hpos hx (hs x hx)]; exact hmin x hx)
    (fun x => marshall colour x * phi x) (fun x hx => by rw [hphi x hx, mul_zero])
  have hn : 0 < bornNorm fun x => marshall colour x * phi x := by
    refine bornNorm_pos (Function.ne_iff.mpr ⟨x0, mul_ne_zero (marshall_ne _ _) hx0⟩)
  have hE : (rayleigh (signRuled (bonds.map fun b => (b.1, (b.2 : ℂ)))) fun x => marshall colour x * phi x).re = r := by
    rw [energy_rotated colour hd hc, mar_mar]
  rw [rayleigh_re, div_eq_iff hn.ne'] at hE
  rw [hE] at hb
  exact absurd (le_of_mul_le_mul_right hb hn) (not_le.mpr (hcon x1 hx1))

/-- ... **C170**: and the state with these amplitudes and Marshall's signs has an energy between the smallest and the largest of them, so that
the two enclose the ground-state energy. -/
theorem C170_upper (colour : Fin N → Bool) (bonds : List ((Fin N × Fin N) × ℝ)) (hd : ∀ b ∈ bonds, b.1.1 ≠ b.1.2)
    (hc : ∀ b ∈ bonds, colour b.1.1 ≠ colour b.1.2) (hJ : ∀ b ∈ bonds, 0 ≤ b.2) (k : ℕ) (hk : k ≤ N) (src : AmpSource N ℤ Cache)
    (hs : ∀ x, upCount x = k → src.OkAt (arr x)) (hpos : ∀ x, upCount x = k → (src.logAmp (arr x)).im = 0) :
    ∃ x, upCount x = k ∧ (rayleigh (heisenberg (bonds.map fun b => (b.1, (b.2 : ℂ))))
        fun y => if upCount y = k then marshall colour y * Complex.exp (src.logAmp (arr y)) else 0).re ≤
      (localEn src (bonds.map fun b => (b.1, heisenbergBond (b.2 : ℂ) true)) (arr x)).re := by
  classical
  obtain ⟨x0, hk0⟩ : ∃ x : Spins N, upCount x = k := by
    refine ⟨fun i => decide (i.val < k), ?_⟩
    unfold upCount
    simp only [decide_eq_true_eq]
    exact Fin.card_filter_val_lt.trans (min_eq_right hk)
  obtain ⟨x1, hx1, hmax⟩ := Finset.exists_max_image (Finset.univ.filter fun x : Spins N => upCount x = k)
    (fun x => (localEn src (bonds.map fun b => (b.1, heisenbergBond (b.2 : ℂ) true)) (arr x)).re) ⟨x0, by simp [hk0]⟩
  simp only [Finset.mem_filter, Finset.mem_univ, true_and] at hx1 hmax
  refine ⟨x1, hx1, ?_⟩
  set psi : Spins N → ℝ := fun y => if upCount y = k then Real.exp (src.logAmp (arr y)).re else 0 with hpsi
  have e : (fun y => if upCount y = k then marshall colour y * Complex.exp (src.logAmp (arr y)) else 0) =
      fun y => marshall colour y * ((psi y : ℝ) : ℂ) := by
    funext y
    by_cases hy : upCount y = k
    · simp only [hpsi, if_pos hy]
      congr 1
      rw [Complex.ofReal_exp]
      congr 1
      exact Complex.ext rfl (by simpa using hpos y hy)
    · simp only [hpsi, if_neg hy, Complex.ofReal_zero, mul_zero]
  have ha := average (good hd hJ k) psi (fun x hx => by rw [hpsi]; simp only [if_pos hx]; exact Real.exp_pos _)
    (fun x hx => if_neg hx) (localEn src (bonds.map fun b => (b.1, heisenbergBond (b.2 : ℂ) true)) (arr x1)).re (by
      intro x hx
      refine le_trans (le_of_eq ?_) (hmax x hx)
      rw [localEn_eq hd hJ src hpos hx (hs x hx)]
      congr 1
      · refine Finset.sum_congr rfl fun y _ => ?_
        by_cases hy : upCount y = k
        · simp only [hpsi, if_pos hy]
        · rw [(good hd hJ k).closed x y hx hy, zero_mul, zero_mul]
      · simp only [hpsi, if_pos hx])
  rw [e, ← energy_rotated colour hd hc, rayleigh_re]
  have hn : 0 < bornNorm fun y => ((psi y : ℝ) : ℂ) := by
    refine bornNorm_pos (Function.ne_iff.mpr ⟨x0, ?_⟩)
    simp only [hpsi, if_pos hk0]
    exact Complex.ofReal_ne_zero.mpr (Real.exp_pos _).ne'
  rw [div_le_iff₀ hn]
  exact ha

/-- **C170**: if moreover all bonds have J > 0 and connect all sites, then among the states with `k` up spins there is exactly one ground state up to
a factor, and its amplitudes are Marshall's sign times positive numbers; with these numbers as amplitudes every local energy of the
operator with the sign rule is the ground-state energy. -/
theorem C170_ground (colour : Fin N → Bool) (bonds : List ((Fin N × Fin N) × ℝ)) (hd : ∀ b ∈ bonds, b.1.1 ≠ b.1.2)
    (hc : ∀ b ∈ bonds, colour b.1.1 ≠ colour b.1.2) (hJ : ∀ b ∈ bonds, 0 < b.2) (hconn : Connected bonds) (k : ℕ) (hk : k ≤ N) :
    ∃ (E : ℝ) (v : Spins N → ℝ), (∀ x, upCount x = k → 0 < v x) ∧ (∀ x, upCount x ≠ k → v x = 0) ∧
      (∀ phi : Spins N → ℂ, (∀ x, upCount x ≠ k → phi x = 0) → phi ≠ 0 →
        E ≤ (rayleigh (heisenberg (bonds.map fun b => (b.1, (b.2 : ℂ)))) phi).re ∧
        ((rayleigh (heisenberg (bonds.map fun b => (b.1, (b.2 : ℂ)))) phi).re = E ↔
          ∃ c : ℂ, ∀ x, phi x = c * (marshall colour x * v x))) ∧
      ∀ src : AmpSource N ℤ Cache, (∀ x, upCount x = k → src.OkAt (arr x)) → (∀ x, upCount x = k → src.logAmp (arr x) = Real.log (v x)) →
        ∀ x, upCount x = k → (localEn src (bonds.map fun b => (b.1, heisenbergBond (b.2 : ℂ) true)) (arr x)).re = E := by
  have hJ' : ∀ b ∈ bonds, 0 ≤ b.2 := fun b hb => (hJ b hb).le
  obtain ⟨x0, hk0⟩ : ∃ x : Spins N, upCount x = k := by
    refine ⟨fun i => decide (i.val < k), ?_⟩
    unfold upCount
    simp only [decide_eq_true_eq]
    exact Fin.card_filter_val_lt.trans (min_eq_right hk)
  obtain ⟨E, v, hv, hv0, heig, hE⟩ := ground (good hd hJ' k) ⟨x0, hk0⟩ fun x y hx hy => sector_connected hd hJ hconn x y (hx.trans hy.symm)
  refine ⟨E, v, hv, hv0, fun phi hphi hne => ?_, fun src hs hl x hx => ?_⟩
  · have hr : (rayleigh (heisenberg (bonds.map fun b => (b.1, (b.2 : ℂ)))) phi).re =
        energy (signRuled (bonds.map fun b => (b.1, (b.2 : ℂ)))) (fun x => marshall colour x * phi x) /
          bornNorm fun x => marshall colour x * phi x := by
      rw [← rayleigh_re, energy_rotated colour hd hc, mar_mar]
    obtain ⟨y, hy⟩ := Function.ne_iff.mp hne
    have hn : 0 < bornNorm fun x => marshall colour x * phi x :=
      bornNorm_pos (Function.ne_iff.mpr ⟨y, mul_ne_zero (marshall_ne _ _) hy⟩)
    obtain ⟨h1, h2⟩ := hE (fun x => marshall colour x * phi x) fun x hx => by rw [hphi x hx, mul_zero]
    refine ⟨?_, ?_, ?_⟩
    · rw [hr, le_div_iff₀ hn]; exact h1
    · intro h
      rw [hr, div_eq_iff hn.ne'] at h
      obtain ⟨c, hc'⟩ := h2 h
      refine ⟨c, fun x => ?_⟩
      rw [← congrFun (mar_mar colour phi) x]
      rw [hc' x]
      ring
    · rintro ⟨c, hc'⟩
      have e : (fun x => marshall colour x * phi x) = fun x => c * (v x : ℂ) := by
        funext x
        rw [hc' x]
        linear_combination (c * v x) * marshall_sq colour x
      rw [hr, div_eq_iff hn.ne', e]
      unfold energy bornNorm
      rw [Finset.mul_sum, Complex.re_sum]
      refine Finset.sum_congr rfl fun x _ => ?_
      have hrow : ∑ y, signRuled (bonds.map fun b => (b.1, (b.2 : ℂ))) x y * (v y : ℂ) = ((E * v x : ℝ) : ℂ) := by
        rw [← heig x]
        push_cast
        exact Finset.sum_congr rfl fun y _ => by rw [A_real hJ']
      have : ∑ y, (starRingEnd ℂ) (c * (v x : ℂ)) * signRuled (bonds.map fun b => (b.1, (b.2 : ℂ))) x y * (c * (v y : ℂ)) =
          ((E * ‖c * (v x : ℂ)‖ ^ 2 : ℝ) : ℂ) := by
        have h3 : ∀ y, (starRingEnd ℂ) (c * (v x : ℂ)) * signRuled (bonds.map fun b => (b.1, (b.2 : ℂ))) x y * (c * (v y : ℂ)) =
            ((starRingEnd ℂ) (c * (v x : ℂ)) * c) * (signRuled (bonds.map fun b => (b.1, (b.2 : ℂ))) x y * (v y : ℂ)) := fun y => by ring
        simp only [h3]
        rw [← Finset.mul_sum, hrow]
        have h4 := Complex.conj_mul' (c * (v x : ℂ))
        push_cast
        rw [← h4]
        ring
      rw [this, Complex.ofReal_re]
  · have h0 : ∀ y, upCount y = k → Real.exp (src.logAmp (arr y)).re = v y := by
      intro y hy
      rw [hl y hy, Complex.ofReal_re, Real.exp_log (hv y hy)]
    rw [localEn_eq hd hJ' src (fun y hy => by rw [hl y hy, Complex.ofReal_im]) hx (hs x hx), h0 x hx, div_eq_iff (hv x hx).ne', ← heig x]
    refine Finset.sum_congr rfl fun y _ => ?_
    by_cases hy : upCount y = k
    · rw [h0 y hy]
    · rw [(good hd hJ' k).closed x y hx hy, zero_mul, zero_mul]

/-! ## The hypotheses are met -/

/-- The Heisenberg chain of three sites. -/
def chain3 : List ((Fin 3 × Fin 3) × ℝ) := [((0, 1), 1), ((1, 2), 1)]

example : (∀ b ∈ chain3, b.1.1 ≠ b.1.2) ∧ (∀ b ∈ chain3, (![true, false, true] : Fin 3 → Bool) b.1.1 ≠ (![true, false, true] : Fin 3 → Bool) b.1.2) ∧
    ∀ b ∈ chain3, 0 < b.2 := by
  simp [chain3]

theorem chain3_connected : Connected chain3 := by
  have a : (fun i j => ∃ b ∈ chain3, b.1 = (i, j) ∨ b.1 = (j, i)) 0 1 := ⟨((0, 1), 1), by simp [chain3], Or.inl rfl⟩
  have a' : (fun i j => ∃ b ∈ chain3, b.1 = (i, j) ∨ b.1 = (j, i)) 1 0 := ⟨((0, 1), 1), by simp [chain3], Or.inr rfl⟩
  have b : (fun i j => ∃ b ∈ chain3, b.1 = (i, j) ∨ b.1 = (j, i)) 1 2 := ⟨((1, 2), 1), by simp [chain3], Or.inl rfl⟩
  have b' : (fun i j => ∃ b ∈ chain3, b.1 = (i, j) ∨ b.1 = (j, i)) 2 1 := ⟨((1, 2), 1), by simp [chain3], Or.inr rfl⟩
  have h : ∀ i : Fin 3, Relation.ReflTransGen (fun i j => ∃ b ∈ chain3, b.1 = (i, j) ∨ b.1 = (j, i)) 1 i ∧
      Relation.ReflTransGen (fun i j => ∃ b ∈ chain3, b.1 = (i, j) ∨ b.1 = (j, i)) i 1 := by
    intro i
    fin_cases i
    · exact ⟨.single a', .single a⟩
    · exact ⟨.refl, .refl⟩
    · exact ⟨.single b, .single b'⟩
  exact fun i j => (h i).2.trans (h j).1

/-- Models with positive amplitudes. -/
example (f : (Fin N → ℤ) → ℝ) (x : Spins N) : ((AmpSource.full fun x => (f x : ℂ) : AmpSource N ℤ Unit).logAmp (arr x)).im = 0 ∧
    (AmpSource.full fun x => (f x : ℂ) : AmpSource N ℤ Unit).OkAt (arr x) := ⟨Complex.ofReal_im _, trivial⟩

end GPSKet.GroundSpins
