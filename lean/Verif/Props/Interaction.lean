import Verif.Props.SizeConsistency
import Verif.Props.FreeGround
import Verif.Spec.Interaction
import Verif.Model.UniqueSamples
import Mathlib.Analysis.Calculus.LocalExtr.Basic
import Mathlib.Analysis.Calculus.Deriv.Add
import Mathlib.Analysis.Calculus.Deriv.Mul
import Mathlib.Topology.MetricSpace.ProperSpace
import Mathlib.Analysis.Normed.Group.Constructions

/-! # How energies of the Hubbard model depend on the interaction (C202) -/

namespace GPSKet.Interaction

open GPSKet GPSKet.Spec ParticleHole

variable {L nu nd : ℕ} {Cache : Type}

/-! ## Local energies -/

/-- **C202**, local energies: a change of the interaction changes the local energy by the change times the number of doubly occupied sites, for
every model and every way to evaluate it. -/
theorem C202_local (src : AmpSource L (Fin 4) Cache) (U U' : ℂ) (edges : List ((Fin L × Fin L) × ℂ)) (x : Cfg L) :
    hubbardLocalEn src U' edges x = hubbardLocalEn src U edges x +
      (U' - U) * ((Finset.univ.filter fun j => hasSpin false (x j) = true ∧ hasSpin true (x j) = true).card : ℂ) := by
  have h : (Finset.univ.filter fun j => hasSpin false (x j) = true ∧ hasSpin true (x j) = true) = Finset.univ.filter fun j => x j = 3 := by
    refine Finset.filter_congr fun j _ => ?_
    generalize x j = v
    fin_cases v <;> decide
  rw [SizeConsistency.hubbardLocalEn_sum src U', SizeConsistency.hubbardLocalEn_sum src U, h]
  unfold doubly
  ring

/-- **C202**, units: multiplying the interaction and all hopping amplitudes by a number multiplies all local energies by it. -/
theorem C202_units (src : AmpSource L (Fin 4) Cache) (c U : ℂ) (edges : List ((Fin L × Fin L) × ℂ)) (x : Cfg L) :
    hubbardLocalEn src (c * U) (edges.map fun e => (e.1, c * e.2)) x = c * hubbardLocalEn src U edges x := by
  have h : ∀ s k, hubbardHoppingTerm src (edges.map fun e => (e.1, c * e.2)) x s k = c * hubbardHoppingTerm src edges x s k := by
    intro s k
    unfold hubbardHoppingTerm
    rw [List.map_map, ← List.sum_map_mul_left]
    congr 1
    refine List.map_congr_left fun e _ => ?_
    simp only [Function.comp]
    ring
  rw [SizeConsistency.hubbardLocalEn_sum, SizeConsistency.hubbardLocalEn_sum, h, h]
  ring

/-- **C202**, reported energies: for the same samples and weights (that add up to one or not), the reported energies at two interactions
differ by the difference of the interactions times the reported number of doubly occupied sites. -/
theorem C202_reported {ranks : ℕ} (sw : Fin ranks → List (Cfg L × ℝ)) (src : AmpSource L (Fin 4) Cache) (U U' : ℂ)
    (edges : List ((Fin L × Fin L) × ℂ)) :
    UniqueSamples.mean sw (hubbardLocalEn src U' edges) = UniqueSamples.mean sw (hubbardLocalEn src U edges) + (U' - U) *
      UniqueSamples.mean sw fun x => ((Finset.univ.filter fun j => hasSpin false (x j) = true ∧ hasSpin true (x j) = true).card : ℂ) := by
  unfold UniqueSamples.mean
  rw [Finset.mul_sum, ← Finset.sum_add_distrib]
  refine Finset.sum_congr rfl fun r _ => ?_
  rw [← List.sum_map_mul_left, ← List.sum_map_add]
  congr 1
  refine List.map_congr_left fun e _ => ?_
  rw [C202_local src U U' edges e.1]
  ring

/-! ## Energies of states -/

theorem both_iff (x : Cfg L) :
    (Finset.univ.filter fun j => hasSpin false (x j) = true ∧ hasSpin true (x j) = true) = Finset.univ.filter fun j => x j = 3 := by
  refine Finset.filter_congr fun j _ => ?_
  generalize x j = v
  fin_cases v <;> decide

theorem sqNorm_pos {psi : Cfg L → ℂ} (h : psi ≠ 0) : 0 < sqNorm psi := by
  obtain ⟨x, hx⟩ := Function.ne_iff.mp h
  exact Finset.sum_pos' (fun _ _ => sq_nonneg _) ⟨x, Finset.mem_univ _, by have := norm_pos_iff.mpr hx; positivity⟩

theorem star_self (z : ℂ) (r : ℝ) : (star z * ((r : ℂ) * z)).re = r * ‖z‖ ^ 2 := by
  rw [mul_left_comm, Complex.star_def, ← Complex.normSq_eq_conj_mul_self, Complex.normSq_eq_norm_sq, ← Complex.ofReal_mul, Complex.ofReal_re]

/-- **C202**, energies of states: for every state the energy is a linear function of the interaction, with the mean number of doubly occupied
sites as slope. -/
theorem C202_states (U U' : ℝ) (edges : List ((Fin L × Fin L) × ℝ)) (psi : Cfg L → ℂ) :
    hubbardSum U' edges psi = hubbardSum U edges psi + (U' - U) * (doubleOccupancy psi * sqNorm psi) := by
  by_cases h0 : psi = 0
  · subst h0
    simp [hubbardSum, sqNorm]
  have hrow : ∀ x, ∑ y, hubbard (U' : ℂ) (edges.map fun e => (e.1, (e.2 : ℂ))) (occOf x) (occOf y) * psi y =
      ∑ y, hubbard (U : ℂ) (edges.map fun e => (e.1, (e.2 : ℂ))) (occOf x) (occOf y) * psi y + (((U' - U) * doubly x : ℝ) : ℂ) * psi x := by
    intro x
    have hd : (((U' - U) * doubly x : ℝ) : ℂ) * psi x = ∑ y, (if x = y then (((U' - U) * doubly x : ℝ) : ℂ) else 0) * psi y := by
      symm
      refine (Finset.sum_eq_single x ?_ ?_).trans ?_
      · intro y _ hy
        rw [if_neg hy.symm, zero_mul]
      · simp
      · rw [if_pos rfl]
    rw [hd, ← Finset.sum_add_distrib]
    refine Finset.sum_congr rfl fun y _ => ?_
    rw [hubbard_elem, hubbard_elem, ← add_mul, add_assoc]
    congr 2
    split_ifs
    · push_cast
      ring
    · simp
  unfold doubleOccupancy
  rw [div_mul_cancel₀ _ (sqNorm_pos h0).ne']
  unfold hubbardSum
  simp only [hrow, mul_add, Finset.sum_add_distrib, Complex.add_re]
  congr 1
  rw [Complex.re_sum, Finset.mul_sum]
  refine Finset.sum_congr rfl fun x _ => ?_
  rw [star_self, both_iff]
  unfold doubly
  ring

theorem doubly_bounds (x : Cfg L) :
    (numElec false x + numElec true x : ℝ) - L ≤ (Finset.univ.filter fun j => hasSpin false (x j) = true ∧ hasSpin true (x j) = true).card ∧
      (Finset.univ.filter fun j => hasSpin false (x j) = true ∧ hasSpin true (x j) = true).card ≤ min (numElec false x) (numElec true x) := by
  constructor
  · have h : numElec false x + numElec true x ≤ L + (Finset.univ.filter fun j => hasSpin false (x j) = true ∧ hasSpin true (x j) = true).card := by
      unfold numElec
      rw [← Finset.card_union_add_card_inter, ← Finset.filter_and]
      refine Nat.add_le_add_right ?_ _
      simpa using Finset.card_le_univ (Finset.univ.filter (fun j => hasSpin false (x j) = true) ∪ Finset.univ.filter fun j => hasSpin true (x j) = true)
    have h' : (numElec false x + numElec true x : ℝ) ≤ L + (Finset.univ.filter fun j => hasSpin false (x j) = true ∧ hasSpin true (x j) = true).card := by
      exact_mod_cast h
    linarith
  · refine le_min ?_ ?_ <;> refine Finset.card_le_card fun j hj => ?_
    · simp only [Finset.mem_filter, Finset.mem_univ, true_and] at hj ⊢
      exact hj.1
    · simp only [Finset.mem_filter, Finset.mem_univ, true_and] at hj ⊢
      exact hj.2

/-- **C202**, bounds: the mean number of doubly occupied sites of every state with `nu` up and `nd` down electrons lies between the number of
electrons that do not find a site of their own (or zero) and the smaller of the two numbers of electrons. -/
theorem C202_bounds (psi : Cfg L → ℂ) (hpsi : InSector (nu, nd) psi) (h0 : psi ≠ 0) :
    max 0 ((nu + nd : ℝ) - L) ≤ doubleOccupancy psi ∧ doubleOccupancy psi ≤ min nu nd := by
  have hp := sqNorm_pos h0
  unfold doubleOccupancy
  have hx : ∀ x, psi x ≠ 0 → numElec false x = nu ∧ numElec true x = nd := by
    intro x hx
    by_contra hc
    exact hx (hpsi x fun h => hc (Prod.mk.inj h))
  refine ⟨max_le (div_nonneg (Finset.sum_nonneg fun x _ => by positivity) hp.le) ?_, ?_⟩
  · rw [le_div_iff₀ hp, sqNorm, Finset.mul_sum]
    refine Finset.sum_le_sum fun x _ => ?_
    by_cases h : psi x = 0
    · simp [h]
    · have hb := (doubly_bounds x).1
      rw [(hx x h).1, (hx x h).2] at hb
      exact mul_le_mul_of_nonneg_right hb (sq_nonneg _)
  · rw [div_le_iff₀ hp, sqNorm, Finset.mul_sum]
    refine Finset.sum_le_sum fun x _ => ?_
    by_cases h : psi x = 0
    · simp [h]
    · have hb := (doubly_bounds x).2
      rw [(hx x h).1, (hx x h).2] at hb
      exact mul_le_mul_of_nonneg_right (by exact_mod_cast hb) (sq_nonneg _)

/-! ## Lowest energies -/

/-- **C202**, the tangent: with the double occupancy of the ground state at one interaction, the lowest energy at every other interaction is
bounded from above. -/
theorem C202_tangent {edges : List ((Fin L × Fin L) × ℝ)} {U U' E E' : ℝ} {psi psi' : Cfg L → ℂ} {n : ℕ × ℕ} (h : IsGround U edges n E psi)
    (h' : IsGround U' edges n E' psi') : E' ≤ E + (U' - U) * doubleOccupancy psi := by
  have h1 := h'.lowest psi h.sector
  rw [C202_states U U', h.energy, ← mul_assoc, ← add_mul] at h1
  exact le_of_mul_le_mul_right h1 (sqNorm_pos h.ne_zero)

/-- **C202**, growth of the lowest energy: it grows with the interaction, at least with the number of electrons without a site of their own and
at most with the smaller of the numbers of electrons. -/
theorem C202_growth {edges : List ((Fin L × Fin L) × ℝ)} {U U' E E' : ℝ} {psi psi' : Cfg L → ℂ} (h : IsGround U edges (nu, nd) E psi)
    (h' : IsGround U' edges (nu, nd) E' psi') (hU : U ≤ U') :
    E + (U' - U) * max 0 ((nu + nd : ℝ) - L) ≤ E' ∧ E' ≤ E + (U' - U) * min nu nd := by
  have h1 := C202_tangent h h'
  have h2 := C202_tangent h' h
  have b1 := (C202_bounds psi h.sector h.ne_zero).2
  have b2 := (C202_bounds psi' h'.sector h'.ne_zero).1
  have d : 0 ≤ U' - U := by linarith
  have m1 := mul_le_mul_of_nonneg_left b1 d
  have m2 := mul_le_mul_of_nonneg_left b2 d
  constructor <;> nlinarith

/-- **C202**, the ground state avoids double occupancy the more the stronger the interaction is. -/
theorem C202_decreases {edges : List ((Fin L × Fin L) × ℝ)} {U U' E E' : ℝ} {psi psi' : Cfg L → ℂ} {n : ℕ × ℕ} (h : IsGround U edges n E psi)
    (h' : IsGround U' edges n E' psi') (hU : U < U') : doubleOccupancy psi' ≤ doubleOccupancy psi := by
  have h1 := C202_tangent h h'
  have h2 := C202_tangent h' h
  have d : 0 < U' - U := by linarith
  refine le_of_mul_le_mul_left (a := U' - U) ?_ d
  nlinarith

/-- **C202**, differences: the double occupancy of the ground state lies between the slopes of the lowest energy to its right and to its
left. -/
theorem C202_differences {edges : List ((Fin L × Fin L) × ℝ)} {U δ E Er El : ℝ} {psi psir psil : Cfg L → ℂ} {n : ℕ × ℕ} (hδ : 0 < δ)
    (h : IsGround U edges n E psi) (hr : IsGround (U + δ) edges n Er psir) (hl : IsGround (U - δ) edges n El psil) :
    (Er - E) / δ ≤ doubleOccupancy psi ∧ doubleOccupancy psi ≤ (E - El) / δ := by
  have h1 := C202_tangent h hr
  have h2 := C202_tangent h hl
  rw [div_le_iff₀ hδ, le_div_iff₀ hδ]
  constructor <;> nlinarith

/-- **C202**, the theorem of Hellmann and Feynman: where the lowest energy has a derivative, it is the double occupancy of every ground state
there. -/
theorem C202_derivative {edges : List ((Fin L × Fin L) × ℝ)} {E0 : ℝ → ℝ} {n : ℕ × ℕ} (hE : ∀ U, ∃ psi, IsGround U edges n (E0 U) psi) {U d : ℝ}
    (hd : HasDerivAt E0 d U) {psi : Cfg L → ℂ} (h : IsGround U edges n (E0 U) psi) : d = doubleOccupancy psi := by
  have hg : HasDerivAt (fun V => E0 V - (E0 U + (V - U) * doubleOccupancy psi)) (d - doubleOccupancy psi) U := by
    have h1 : HasDerivAt (fun V => E0 U + (V - U) * doubleOccupancy psi) (1 * doubleOccupancy psi) U :=
      (((hasDerivAt_id U).sub_const U).mul_const _).const_add _
    rw [one_mul] at h1
    exact hd.sub h1
  have hmax : IsLocalMax (fun V => E0 V - (E0 U + (V - U) * doubleOccupancy psi)) U := by
    refine Filter.Eventually.of_forall fun V => ?_
    obtain ⟨psi', h'⟩ := hE V
    have := C202_tangent h h'
    simp only [sub_self, zero_mul, add_zero]
    linarith
  have := hmax.hasDerivAt_eq_zero hg
  linarith

/-- **C202**, concavity: the lowest energy is a concave function of the interaction. -/
theorem C202_concave {edges : List ((Fin L × Fin L) × ℝ)} {E0 : ℝ → ℝ} {n : ℕ × ℕ} (hE : ∀ U, ∃ psi, IsGround U edges n (E0 U) psi)
    (U V a b : ℝ) (ha : 0 ≤ a) (hb : 0 ≤ b) (hab : a + b = 1) : a * E0 U + b * E0 V ≤ E0 (a * U + b * V) := by
  obtain ⟨psi, h⟩ := hE (a * U + b * V)
  obtain ⟨pu, hu⟩ := hE U
  obtain ⟨pv, hv⟩ := hE V
  have h1 := mul_le_mul_of_nonneg_left (C202_tangent h hu) ha
  have h2 := mul_le_mul_of_nonneg_left (C202_tangent h hv) hb
  have hb' : b = 1 - a := by linarith
  subst hb'
  nlinarith

/-! ## Ground states exist -/

theorem continuous_hubbardSum (U : ℝ) (edges : List ((Fin L × Fin L) × ℝ)) : Continuous (hubbardSum U edges) := by
  unfold hubbardSum
  fun_prop

theorem continuous_sqNorm : Continuous (sqNorm (L := L)) := by
  unfold sqNorm
  fun_prop

theorem scaled (U : ℝ) (edges : List ((Fin L × Fin L) × ℝ)) (psi : Cfg L → ℂ) (c : ℝ) :
    hubbardSum U edges (fun x => (c : ℂ) * psi x) = c ^ 2 * hubbardSum U edges psi ∧ sqNorm (fun x => (c : ℂ) * psi x) = c ^ 2 * sqNorm psi := by
  constructor
  · unfold hubbardSum
    rw [← Complex.re_ofReal_mul]
    congr 1
    rw [Finset.mul_sum]
    refine Finset.sum_congr rfl fun x _ => ?_
    have : ∑ y, hubbard (U : ℂ) (edges.map fun e => (e.1, (e.2 : ℂ))) (occOf x) (occOf y) * ((c : ℂ) * psi y) =
        c * ∑ y, hubbard (U : ℂ) (edges.map fun e => (e.1, (e.2 : ℂ))) (occOf x) (occOf y) * psi y := by
      rw [Finset.mul_sum]
      exact Finset.sum_congr rfl fun y _ => by ring
    rw [this, star_mul', Complex.star_def, Complex.conj_ofReal]
    push_cast
    ring
  · unfold sqNorm
    rw [Finset.mul_sum]
    refine Finset.sum_congr rfl fun x _ => ?_
    rw [norm_mul, mul_pow, Complex.norm_real, Real.norm_eq_abs, sq_abs]

/-- a configuration with given numbers of electrons: up electrons on the first sites, down electrons on the first sites -/
def filled (L nu nd : ℕ) : Cfg L := fun j => if j.val < nu then (if j.val < nd then 3 else 1) else if j.val < nd then 2 else 0

theorem card_below {n : ℕ} (hn : n ≤ L) : (Finset.univ.filter fun j : Fin L => j.val < n).card = n := by
  have : (Finset.univ.filter fun j : Fin L => j.val < n) = Finset.univ.image (Fin.castLE hn) := by
    ext j
    simp only [Finset.mem_filter, Finset.mem_univ, true_and, Finset.mem_image]
    exact ⟨fun h => ⟨⟨j.val, h⟩, rfl⟩, fun ⟨k, hk⟩ => hk ▸ k.isLt⟩
  rw [this, Finset.card_image_of_injective _ (Fin.castLE_injective hn), Finset.card_univ, Fintype.card_fin]

theorem filled_electrons (hu : nu ≤ L) (hd : nd ≤ L) : numElec false (filled L nu nd) = nu ∧ numElec true (filled L nu nd) = nd := by
  have h : ∀ s : Bool, numElec s (filled L nu nd) = (Finset.univ.filter fun j : Fin L => j.val < if s then nd else nu).card := by
    intro s
    unfold numElec filled
    congr 1
    refine Finset.filter_congr fun j _ => ?_
    cases s <;> split_ifs <;> simp_all [hasSpin]
  exact ⟨by rw [h]; exact card_below hu, by rw [h]; exact card_below hd⟩

/-- the normalised states with given numbers of electrons -/
def unitSector (L nu nd : ℕ) : Set (Cfg L → ℂ) := {psi | InSector (nu, nd) psi ∧ sqNorm psi = 1}

theorem compact_sector : IsCompact (unitSector L nu nd) := by
  have hclosed : IsClosed (unitSector L nu nd) := by
    refine IsClosed.inter ?_ (isClosed_eq continuous_sqNorm continuous_const)
    have : {psi : Cfg L → ℂ | InSector (nu, nd) psi} = ⋂ x, ⋂ (_ : (numElec false x, numElec true x) ≠ (nu, nd)), {psi | psi x = 0} := by
      ext psi
      simp [InSector]
    show IsClosed {psi : Cfg L → ℂ | InSector (nu, nd) psi}
    rw [this]
    exact isClosed_iInter fun x => isClosed_iInter fun _ => isClosed_eq (continuous_apply x) continuous_const
  have hbdd : unitSector L nu nd ⊆ Metric.closedBall 0 1 := by
    intro psi hpsi
    rw [mem_closedBall_zero_iff, pi_norm_le_iff_of_nonneg zero_le_one]
    intro x
    have h1 : ‖psi x‖ ^ 2 ≤ sqNorm psi := Finset.single_le_sum (f := fun x => ‖psi x‖ ^ 2) (fun _ _ => sq_nonneg _) (Finset.mem_univ x)
    rw [hpsi.2] at h1
    exact (sq_le_one_iff₀ (norm_nonneg _)).mp h1
  exact (isCompact_closedBall (0 : Cfg L → ℂ) 1).of_isClosed_subset hclosed hbdd

theorem nonempty_sector (hu : nu ≤ L) (hd : nd ≤ L) : (unitSector L nu nd).Nonempty := by
  refine ⟨fun x => if x = filled L nu nd then 1 else 0, fun x hx => if_neg fun h => hx ?_, ?_⟩
  · rw [h, (filled_electrons hu hd).1, (filled_electrons hu hd).2]
  · unfold sqNorm
    rw [Finset.sum_eq_single (filled L nu nd)]
    · simp
    · intro y _ hy
      simp [hy]
    · simp

/-- **C202**, existence: for all numbers of electrons that fit on the sites there is a lowest energy at every interaction, so the theorems
above are about something. -/
theorem C202_exists (hu : nu ≤ L) (hd : nd ≤ L) (edges : List ((Fin L × Fin L) × ℝ)) :
    ∃ E0 : ℝ → ℝ, ∀ U, ∃ psi, IsGround U edges (nu, nd) (E0 U) psi := by
  have key : ∀ U : ℝ, ∃ E : ℝ, ∃ psi, IsGround U edges (nu, nd) E psi := by
    intro U
    obtain ⟨psi, hpsi, hmin⟩ := (compact_sector (nu := nu) (nd := nd) (L := L)).exists_isMinOn (nonempty_sector hu hd) (continuous_hubbardSum U edges).continuousOn
    refine ⟨hubbardSum U edges psi, psi, hpsi.1, ?_, by rw [hpsi.2, mul_one], fun phi hphi => ?_⟩
    · rintro rfl
      have := hpsi.2
      simp [sqNorm] at this
    · by_cases h0 : phi = 0
      · subst h0
        simp [sqNorm, hubbardSum]
      · have hp := sqNorm_pos h0
        have hsq : (1 / Real.sqrt (sqNorm phi)) ^ 2 * sqNorm phi = 1 := by
          rw [div_pow, one_pow, Real.sq_sqrt hp.le, one_div_mul_cancel hp.ne']
        obtain ⟨e1, e2⟩ := scaled U edges phi (1 / Real.sqrt (sqNorm phi))
        have hm := hmin (show (fun x => ((1 / Real.sqrt (sqNorm phi) : ℝ) : ℂ) * phi x) ∈ unitSector L nu nd from
          ⟨fun x hx => by dsimp only; rw [hphi x hx, mul_zero], by rw [e2, hsq]⟩)
        simp only [Set.mem_ofPred_eq] at hm
        rw [e1] at hm
        have := mul_le_mul_of_nonneg_right hm hp.le
        calc _ ≤ _ := this
          _ = hubbardSum U edges phi * ((1 / Real.sqrt (sqNorm phi)) ^ 2 * sqNorm phi) := by ring
          _ = _ := by rw [hsq, mul_one]
  choose E0 h using key
  exact ⟨E0, h⟩

/-- two electrons on two sites, a lattice with one edge: the assumptions hold, and the lowest energy grows by at most one interaction -/
example : ∃ E0 : ℝ → ℝ, (∀ U, ∃ psi : Cfg 2 → ℂ, IsGround U [((0, 1), 1)] (1, 1) (E0 U) psi) ∧ E0 0 ≤ E0 1 ∧ E0 1 ≤ E0 0 + 1 := by
  obtain ⟨E0, h⟩ := C202_exists (L := 2) (nu := 1) (nd := 1) (by norm_num) (by norm_num) [((0, 1), 1)]
  refine ⟨E0, h, ?_⟩
  obtain ⟨p, hp⟩ := h 0
  obtain ⟨q, hq⟩ := h 1
  have := C202_growth hp hq zero_le_one
  norm_num at this
  exact this

end GPSKet.Interaction
