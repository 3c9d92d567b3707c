import Verif.Props.HeisenbergExact
import Verif.Model.J1J2
import Verif.Spec.SpinGround
import Mathlib.Analysis.Calculus.LocalExtr.Basic
import Mathlib.Analysis.Calculus.Deriv.Add
import Mathlib.Analysis.Calculus.Deriv.Mul
import Mathlib.Topology.MetricSpace.ProperSpace
import Mathlib.Analysis.Normed.Group.Constructions

/-! # How energies of J1-J2 models depend on the couplings (C204) -/

namespace GPSKet.HeisenbergExact

open Spec Floats ZeroEnergy

variable {N : ℕ}

/-- No edge joins a site with itself. -/
def Proper (edges : List (Fin N × Fin N)) : Prop := ∀ b ∈ edges, b.1 ≠ b.2

theorem proper_two {near far : List (Fin N × Fin N)} (hn : Proper near) (hf : Proper far) (J : ℝ × ℝ) :
    ∀ b ∈ twoCouplings near far J, b.1.1 ≠ b.1.2 := by
  intro b hb
  rcases List.mem_append.1 hb with h | h <;> obtain ⟨c, hc, rfl⟩ := List.mem_map.1 h
  · exact hn c hc
  · exact hf c hc

/-- **C204**, local energies: they are linear in the two couplings: `J1` times those at `(1, 0)` plus `J2` times those at `(0, 1)`. -/
theorem C204_local {near far : List (Fin N × Fin N)} (hn : Proper near) (hf : Proper far) (psi : Spins N → ℂ) (x : Spins N) (hx : psi x ≠ 0) :
    ∃ a b : ℂ, energyAt (twoCouplings near far (1, 0)) psi x = FC.ofC a ∧ energyAt (twoCouplings near far (0, 1)) psi x = FC.ofC b ∧
      ∀ J : ℝ × ℝ, energyAt (twoCouplings near far J) psi x = FC.ofC (J.1 * a + J.2 * b) := by
  have key : ∀ J : ℝ × ℝ, energyAt (twoCouplings near far J) psi x =
      FC.ofC (J.1 * ((near.map fun b => 1 / 4 * bondValue psi x b.1 b.2).sum / psi x) +
        J.2 * ((far.map fun b => 1 / 4 * bondValue psi x b.1 b.2).sum / psi x)) := by
    intro J
    rw [energyAt_eq _ (proper_two hn hf J) psi x hx]
    congr 1
    unfold twoCouplings
    rw [List.map_append, List.sum_append, List.map_map, List.map_map, add_div, ← mul_div_assoc, ← mul_div_assoc, ← List.sum_map_mul_left,
      ← List.sum_map_mul_left]
    congr 2 <;> congr 1 <;> refine List.map_congr_left fun b _ => ?_ <;> simp only [Function.comp] <;> push_cast <;> ring
  refine ⟨_, _, ?_, ?_, key⟩
  · rw [key]; simp
  · rw [key]; simp

/-- **C204**, the code: whether `J2` is zero or not, the local energies of the model that `get_J1_J2_Hamiltonian` builds are those of
`J1 Σ S·S + J2 Σ S·S`. -/
theorem C204_code {near far : List (Fin N × Fin N)} (hn : Proper near) (hf : Proper far) (J : ℝ × ℝ) (psi : Spins N → ℂ) (x : Spins N)
    (hx : psi x ≠ 0) : energyAt (J1J2.codeBonds near far J) psi x = energyAt (twoCouplings near far J) psi x := by
  by_cases h : J.2 = 0
  · have hc : J1J2.codeBonds near far J = near.map fun b => (b, J.1 / 4) := by
      unfold J1J2.codeBonds J1J2.couplings
      simp [h]
    have hd : ∀ b ∈ J1J2.codeBonds near far J, b.1.1 ≠ b.1.2 := by
      intro b hb
      rw [hc] at hb
      obtain ⟨c, hc', rfl⟩ := List.mem_map.1 hb
      exact hn c hc'
    rw [energyAt_eq _ hd psi x hx, energyAt_eq _ (proper_two hn hf J) psi x hx, hc]
    unfold twoCouplings
    rw [List.map_append, List.sum_append, h, zero_div, List.map_map (l := far)]
    simp [Function.comp_def]
  · have hc : J1J2.codeBonds near far J = twoCouplings near far J := by
      unfold J1J2.codeBonds J1J2.couplings twoCouplings
      simp [h]
    rw [hc]

theorem spinSum_eq (bonds : List ((Fin N × Fin N) × ℝ)) (hd : ∀ b ∈ bonds, b.1.1 ≠ b.1.2) (psi : Spins N → ℂ) :
    spinSum bonds psi = (bonds.map fun b => b.2 * form psi b.1.1 b.1.2).sum := by
  have h1 : ∀ x, ∑ y, heisenberg (bonds.map fun b => (b.1, (b.2 : ℂ))) x y * psi y = (bonds.map fun b => (b.2 : ℂ) * bondValue psi x b.1.1 b.1.2).sum := by
    intro x
    rw [← row_eq bonds hd psi x]
    unfold heisenberg
    rw [List.map_map]
    rfl
  unfold spinSum
  simp only [h1]
  clear h1 hd
  induction bonds with
  | nil => simp
  | cons b bs ih =>
    simp only [List.map_cons, List.sum_cons, mul_add, Finset.sum_add_distrib, Complex.add_re, ih]
    congr 1
    unfold form
    rw [← Complex.re_ofReal_mul, Finset.mul_sum]
    congr 1
    exact Finset.sum_congr rfl fun x _ => by ring

theorem norm_pos {psi : Spins N → ℂ} (h : psi ≠ 0) : 0 < bornNorm psi := bornNorm_pos (Function.ne_iff.mp h)

theorem correlation_eq {edges : List (Fin N × Fin N)} (he : Proper edges) (psi : Spins N → ℂ) :
    correlation edges psi = 1 / 4 * (edges.map fun b => form psi b.1 b.2).sum / bornNorm psi := by
  unfold correlation
  rw [spinSum_eq _ (by intro b hb; obtain ⟨c, hc, rfl⟩ := List.mem_map.1 hb; exact he c hc), List.map_map, ← List.sum_map_mul_left]
  rfl

/-- **C204**, energies of states: the energy of every state is `J1` times its correlation over the first edges plus `J2` times that over the
second ones. -/
theorem C204_states {near far : List (Fin N × Fin N)} (hn : Proper near) (hf : Proper far) (J : ℝ × ℝ) (psi : Spins N → ℂ) (h0 : psi ≠ 0) :
    spinSum (twoCouplings near far J) psi = (J.1 * correlation near psi + J.2 * correlation far psi) * bornNorm psi := by
  have hp := (norm_pos h0).ne'
  rw [spinSum_eq _ (proper_two hn hf J), correlation_eq hn, correlation_eq hf]
  unfold twoCouplings
  rw [List.map_append, List.sum_append, List.map_map, List.map_map]
  have e : ∀ (l : List (Fin N × Fin N)) (c : ℝ), (l.map ((fun b : (Fin N × Fin N) × ℝ => b.2 * form psi b.1.1 b.1.2) ∘ fun b => (b, c / 4))).sum =
      c * (1 / 4 * (l.map fun b => form psi b.1 b.2).sum) := by
    intro l c
    rw [← List.sum_map_mul_left, ← List.sum_map_mul_left]
    congr 1
    exact List.map_congr_left fun b _ => by simp only [Function.comp]; ring
  rw [e, e]
  field_simp

/-- **C204**, reported energies: the mean of the local energies over the distribution of the samples is this energy. -/
theorem C204_reported {near far : List (Fin N × Fin N)} (hn : Proper near) (hf : Proper far) (J : ℝ × ℝ) (psi : Spins N → ℂ) (h0 : psi ≠ 0)
    (e : Spins N → ℂ) (he : ∀ x, psi x ≠ 0 → energyAt (twoCouplings near far J) psi x = FC.ofC (e x)) :
    (weightedMean (fun x => ‖psi x‖ ^ 2) e).re = J.1 * correlation near psi + J.2 * correlation far psi := by
  rw [mean_eq _ (proper_two hn hf J) psi e he, ← spinSum_eq _ (proper_two hn hf J), C204_states hn hf J psi h0, mul_div_assoc,
    div_self (norm_pos h0).ne', mul_one]

/-- **C204**, bounds: the correlation over edges lies between `-3/4` and `1/4` for each edge. -/
theorem C204_bounds {edges : List (Fin N × Fin N)} (he : Proper edges) (psi : Spins N → ℂ) (h0 : psi ≠ 0) :
    -3 / 4 * edges.length ≤ correlation edges psi ∧ correlation edges psi ≤ 1 / 4 * edges.length := by
  have hp := norm_pos h0
  have h : -3 * edges.length * bornNorm psi ≤ (edges.map fun b => form psi b.1 b.2).sum ∧
      (edges.map fun b => form psi b.1 b.2).sum ≤ edges.length * bornNorm psi := by
    clear he
    induction edges with
    | nil => simp
    | cons b bs ih =>
      have h1 := form_le psi b.1 b.2
      have h2 := le_form psi b.1 b.2
      simp only [List.map_cons, List.sum_cons, List.length_cons]
      push_cast
      constructor <;> nlinarith [ih.1, ih.2]
  rw [correlation_eq he, le_div_iff₀ hp, div_le_iff₀ hp]
  constructor <;> nlinarith [h.1, h.2]

/-! ## Lowest energies -/

section
variable {near far : List (Fin N × Fin N)} (hn : Proper near) (hf : Proper far) {J J' : ℝ × ℝ} {m : ℕ} {E E' : ℝ} {psi psi' : Spins N → ℂ}
include hn hf

theorem ground_energy (h : IsSpinGround (twoCouplings near far J) m E psi) : E = J.1 * correlation near psi + J.2 * correlation far psi := by
  have h1 := h.energy
  rw [C204_states hn hf J psi h.ne_zero] at h1
  exact (mul_right_cancel₀ (norm_pos h.ne_zero).ne' h1).symm

/-- **C204**, the tangent: the correlations of the ground state at some couplings bound the lowest energy at all others from above. -/
theorem C204_tangent (h : IsSpinGround (twoCouplings near far J) m E psi) (h' : IsSpinGround (twoCouplings near far J') m E' psi') :
    E' ≤ E + (J'.1 - J.1) * correlation near psi + (J'.2 - J.2) * correlation far psi := by
  have h1 := h'.lowest psi h.sector
  rw [C204_states hn hf J' psi h.ne_zero] at h1
  have h2 := le_of_mul_le_mul_right h1 (norm_pos h.ne_zero)
  have h3 := ground_energy hn hf h
  nlinarith

/-- **C204**, frustration: the correlation over the second edges in the ground state never increases with `J2`. -/
theorem C204_decreases (h : IsSpinGround (twoCouplings near far J) m E psi) (h' : IsSpinGround (twoCouplings near far J') m E' psi')
    (h1 : J'.1 = J.1) (h2 : J.2 < J'.2) : correlation far psi' ≤ correlation far psi := by
  have a := C204_tangent hn hf h h'
  have b := C204_tangent hn hf h' h
  rw [h1, sub_self, zero_mul, add_zero] at a b
  refine le_of_mul_le_mul_left (a := J'.2 - J.2) ?_ (by linarith)
  nlinarith

/-- **C204**, growth: the lowest energy changes by at least `-3/4` and at most `1/4` for each second edge and unit of `J2`. -/
theorem C204_growth (h : IsSpinGround (twoCouplings near far J) m E psi) (h' : IsSpinGround (twoCouplings near far J') m E' psi')
    (h1 : J'.1 = J.1) (h2 : J.2 ≤ J'.2) :
    (J'.2 - J.2) * (-3 / 4 * far.length) ≤ E' - E ∧ E' - E ≤ (J'.2 - J.2) * (1 / 4 * far.length) := by
  have a := C204_tangent hn hf h h'
  have b := C204_tangent hn hf h' h
  rw [h1, sub_self, zero_mul, add_zero] at a b
  have c1 := (C204_bounds hf psi h.ne_zero).2
  have c2 := (C204_bounds hf psi' h'.ne_zero).1
  have d : 0 ≤ J'.2 - J.2 := by linarith
  have m1 := mul_le_mul_of_nonneg_left c1 d
  have m2 := mul_le_mul_of_nonneg_left c2 d
  constructor <;> nlinarith

/-- **C204**, concavity in both couplings. -/
theorem C204_concave {a b F : ℝ} {chi : Spins N → ℂ} (ha : 0 ≤ a) (hb : 0 ≤ b) (h : IsSpinGround (twoCouplings near far J) m E psi)
    (h' : IsSpinGround (twoCouplings near far J') m E' psi')
    (hm : IsSpinGround (twoCouplings near far (a * J.1 + b * J'.1, a * J.2 + b * J'.2)) m F chi) : a * E + b * E' ≤ F := by
  have h1 := mul_le_mul_of_nonneg_left (C204_tangent hn hf hm h) ha
  have h2 := mul_le_mul_of_nonneg_left (C204_tangent hn hf hm h') hb
  have h3 := ground_energy hn hf hm
  simp only at h1 h2 h3
  subst h3
  nlinarith

/-- **C204**, the theorem of Hellmann and Feynman: where the lowest energy has a derivative with respect to `J2`, it is the correlation over the
second edges of every ground state there. -/
theorem C204_derivative {J1 J2 d : ℝ} {E0 : ℝ → ℝ} (hE : ∀ v, ∃ phi, IsSpinGround (twoCouplings near far (J1, v)) m (E0 v) phi)
    (hd : HasDerivAt E0 d J2) (h : IsSpinGround (twoCouplings near far (J1, J2)) m (E0 J2) psi) : d = correlation far psi := by
  have hg : HasDerivAt (fun v => E0 v - (E0 J2 + (v - J2) * correlation far psi)) (d - correlation far psi) J2 := by
    have h1 : HasDerivAt (fun v => E0 J2 + (v - J2) * correlation far psi) (1 * correlation far psi) J2 :=
      (((hasDerivAt_id J2).sub_const J2).mul_const _).const_add _
    rw [one_mul] at h1
    exact hd.sub h1
  have hmax : IsLocalMax (fun v => E0 v - (E0 J2 + (v - J2) * correlation far psi)) J2 := by
    refine Filter.Eventually.of_forall fun v => ?_
    obtain ⟨phi, h'⟩ := hE v
    have := C204_tangent hn hf h h'
    simp only [sub_self, zero_mul, add_zero] at this ⊢
    linarith
  have := hmax.hasDerivAt_eq_zero hg
  linarith

end

/-! ## Ground states exist -/

theorem continuous_spinSum (bonds : List ((Fin N × Fin N) × ℝ)) : Continuous (spinSum bonds) := by
  unfold spinSum
  fun_prop

theorem scaled_spin (bonds : List ((Fin N × Fin N) × ℝ)) (psi : Spins N → ℂ) (c : ℝ) :
    spinSum bonds (fun x => (c : ℂ) * psi x) = c ^ 2 * spinSum bonds psi ∧ bornNorm (fun x => (c : ℂ) * psi x) = c ^ 2 * bornNorm psi := by
  constructor
  · unfold spinSum
    rw [← Complex.re_ofReal_mul]
    congr 1
    rw [Finset.mul_sum]
    refine Finset.sum_congr rfl fun x _ => ?_
    have : ∑ y, heisenberg (bonds.map fun b => (b.1, (b.2 : ℂ))) x y * ((c : ℂ) * psi y) =
        c * ∑ y, heisenberg (bonds.map fun b => (b.1, (b.2 : ℂ))) x y * psi y := by
      rw [Finset.mul_sum]
      exact Finset.sum_congr rfl fun y _ => by ring
    rw [this, map_mul, Complex.conj_ofReal]
    push_cast
    ring
  · unfold bornNorm
    rw [Finset.mul_sum]
    refine Finset.sum_congr rfl fun x _ => ?_
    rw [norm_mul, mul_pow, Complex.norm_real, Real.norm_eq_abs, sq_abs]

/-- **C204**, existence: for every model and every possible number of up spins there is a lowest energy. -/
theorem C204_exists {m : ℕ} (hm : m ≤ N) (bonds : List ((Fin N × Fin N) × ℝ)) : ∃ E psi, IsSpinGround bonds m E psi := by
  let S : Set (Spins N → ℂ) := {psi | UpSpins m psi ∧ bornNorm psi = 1}
  have hclosed : IsClosed S := by
    refine IsClosed.inter ?_ (isClosed_eq (by unfold bornNorm; fun_prop) continuous_const)
    have : {psi : Spins N → ℂ | UpSpins m psi} = ⋂ x, ⋂ (_ : (Finset.univ.filter fun k => x k = true).card ≠ m), {psi | psi x = 0} := by
      ext psi
      simp only [UpSpins, Set.mem_ofPred_eq, Set.mem_iInter]
      exact ⟨fun h x hx => by_contra fun hc => hx (h x hc), fun h x hx => by_contra fun hc => hx (h x hc)⟩
    show IsClosed {psi : Spins N → ℂ | UpSpins m psi}
    rw [this]
    exact isClosed_iInter fun x => isClosed_iInter fun _ => isClosed_eq (continuous_apply x) continuous_const
  have hbdd : S ⊆ Metric.closedBall 0 1 := by
    intro psi hpsi
    rw [mem_closedBall_zero_iff, pi_norm_le_iff_of_nonneg zero_le_one]
    intro x
    have h1 : ‖psi x‖ ^ 2 ≤ bornNorm psi := Finset.single_le_sum (f := fun x => ‖psi x‖ ^ 2) (fun _ _ => sq_nonneg _) (Finset.mem_univ x)
    rw [hpsi.2] at h1
    exact (sq_le_one_iff₀ (norm_nonneg _)).mp h1
  have hcomp : IsCompact S := (isCompact_closedBall (0 : Spins N → ℂ) 1).of_isClosed_subset hclosed hbdd
  have hcard : (Finset.univ.filter fun k : Fin N => decide (k.val < m) = true).card = m := by
    have : (Finset.univ.filter fun k : Fin N => decide (k.val < m) = true) = Finset.univ.image (Fin.castLE hm) := by
      ext j
      simp only [Finset.mem_filter, Finset.mem_univ, true_and, Finset.mem_image, decide_eq_true_eq]
      exact ⟨fun h => ⟨⟨j.val, h⟩, rfl⟩, fun ⟨k, hk⟩ => hk ▸ k.isLt⟩
    rw [this, Finset.card_image_of_injective _ (Fin.castLE_injective hm), Finset.card_univ, Fintype.card_fin]
  have hne : S.Nonempty := by
    refine ⟨fun x => if x = fun k => decide (k.val < m) then 1 else 0, fun x hx => ?_, ?_⟩
    · have : x = fun k => decide (k.val < m) := by
        by_contra hc
        exact hx (if_neg hc)
      rw [this]
      exact hcard
    · unfold bornNorm
      rw [Finset.sum_eq_single (fun k => decide (k.val < m))]
      · simp
      · intro y _ hy
        simp [hy]
      · simp
  obtain ⟨psi, hpsi, hmin⟩ := hcomp.exists_isMinOn hne (continuous_spinSum bonds).continuousOn
  refine ⟨spinSum bonds psi, psi, hpsi.1, ?_, by rw [hpsi.2, mul_one], fun phi hphi => ?_⟩
  · rintro rfl
    have := hpsi.2
    simp [bornNorm] at this
  · by_cases h0 : phi = 0
    · subst h0
      simp [bornNorm, spinSum]
    · have hp := norm_pos h0
      have hsq : (1 / Real.sqrt (bornNorm phi)) ^ 2 * bornNorm phi = 1 := by
        rw [div_pow, one_pow, Real.sq_sqrt hp.le, one_div_mul_cancel hp.ne']
      obtain ⟨e1, e2⟩ := scaled_spin bonds phi (1 / Real.sqrt (bornNorm phi))
      have hm := hmin (show (fun x => ((1 / Real.sqrt (bornNorm phi) : ℝ) : ℂ) * phi x) ∈ S from
        ⟨fun x hx => hphi x fun h => hx (by simp [h]), by rw [e2, hsq]⟩)
      simp only [Set.mem_ofPred_eq] at hm
      rw [e1] at hm
      have := mul_le_mul_of_nonneg_right hm hp.le
      calc _ ≤ _ := this
        _ = spinSum bonds phi * ((1 / Real.sqrt (bornNorm phi)) ^ 2 * bornNorm phi) := by ring
        _ = _ := by rw [hsq, mul_one]

/-- four sites on a square with both diagonals: the lowest energy at `J2 = 1/2` exists and is at most that at `J2 = 0` plus `1/4` -/
example : ∃ E E' psi psi', IsSpinGround (N := 4) (twoCouplings [(0, 1), (1, 2), (2, 3), (3, 0)] [(0, 2), (1, 3)] (1, 0)) 2 E psi ∧
    IsSpinGround (N := 4) (twoCouplings [(0, 1), (1, 2), (2, 3), (3, 0)] [(0, 2), (1, 3)] (1, 1 / 2)) 2 E' psi' ∧ E' ≤ E + 1 / 4 := by
  obtain ⟨E, psi, h⟩ := C204_exists (N := 4) (m := 2) (by norm_num) (twoCouplings [(0, 1), (1, 2), (2, 3), (3, 0)] [(0, 2), (1, 3)] (1, 0))
  obtain ⟨E', psi', h'⟩ := C204_exists (N := 4) (m := 2) (by norm_num) (twoCouplings [(0, 1), (1, 2), (2, 3), (3, 0)] [(0, 2), (1, 3)] (1, 1 / 2))
  refine ⟨E, E', psi, psi', h, h', ?_⟩
  have hn : Proper (N := 4) [(0, 1), (1, 2), (2, 3), (3, 0)] := by unfold Proper; decide
  have hf : Proper (N := 4) [(0, 2), (1, 3)] := by unfold Proper; decide
  have := (C204_growth hn hf h h' rfl (by norm_num)).2
  norm_num at this
  linarith

end GPSKet.HeisenbergExact
