import Verif.Lemmas.OneBody
import Verif.Lemmas.SpinAlg
import Verif.Props.TotalSpin
import Verif.Spec.SpinProjection
import Mathlib.Analysis.SpecialFunctions.Trigonometric.Inverse
import Mathlib.Analysis.Calculus.Deriv.Polynomial
import Mathlib.MeasureTheory.Integral.IntervalIntegral.FundThmCalculus
import Mathlib.Topology.Algebra.Polynomial
import Mathlib.Analysis.SpecialFunctions.Integrals.Basic
import Mathlib.Tactic.LinearCombination

/-! # Quadrature over spin rotations -/

namespace GPSKet.SpinProjection

open Matrix GPSKet GPSKet.Spec OneBody Polynomial

/-! ## The quadrature -/

theorem quad_zero {g : ℕ} {x w : Fin g → ℝ} (h : IsGaussLegendre x w) {a b : ℕ} (ha : 1 ≤ a) (hb : 1 ≤ b) (hab : a + b ≤ 2 * g) :
    ∑ i, w i * (a * ((1 + x i) / 2) ^ (a - 1) * ((1 - x i) / 2) ^ b - b * ((1 + x i) / 2) ^ a * ((1 - x i) / 2) ^ (b - 1)) = 0 := by
  let P : ℝ[X] := (C (1 / 2) * (1 + X)) ^ a * (C (1 / 2) * (1 - X)) ^ b
  have hdeg : P.natDegree ≤ a + b := by
    refine natDegree_mul_le.trans ?_
    refine Nat.add_le_add ?_ ?_
    · refine natDegree_pow_le.trans ?_
      have : (C (1 / 2 : ℝ) * (1 + X)).natDegree ≤ 1 := (natDegree_C_mul_le _ _).trans (by
        refine (natDegree_add_le _ _).trans ?_
        simp)
      nlinarith
    · refine natDegree_pow_le.trans ?_
      have : (C (1 / 2 : ℝ) * (1 - X)).natDegree ≤ 1 := (natDegree_C_mul_le _ _).trans (by
        refine (natDegree_sub_le _ _).trans ?_
        simp)
      nlinarith
  have hd : (derivative P).natDegree < 2 * g := by
    have := natDegree_derivative_le P
    omega
  have he : ∀ t : ℝ, (derivative P).eval t =
      1 / 2 * (a * ((1 + t) / 2) ^ (a - 1) * ((1 - t) / 2) ^ b - b * ((1 + t) / 2) ^ a * ((1 - t) / 2) ^ (b - 1)) := by
    intro t
    have e1 : (1 + t) / 2 = 1 / 2 * (1 + t) := by ring
    have e2 : (1 - t) / 2 = 1 / 2 * (1 - t) := by ring
    rw [e1, e2]
    simp only [P, derivative_mul, derivative_pow, derivative_add, derivative_sub, derivative_one, derivative_X, derivative_C, eval_add, eval_mul,
      eval_pow, eval_C, eval_X, eval_one, eval_sub, zero_mul, zero_add, eval_zero]
    ring
  have h2 := h.2 (derivative P) hd
  have h3 : ∫ t in (-1 : ℝ)..1, (derivative P).eval t = P.eval 1 - P.eval (-1) :=
    intervalIntegral.integral_eq_sub_of_hasDerivAt (fun t _ => P.hasDerivAt t) ((derivative P).continuous.intervalIntegrable _ _)
  have h4 : P.eval 1 = 0 := by
    simp only [P, eval_mul, eval_pow, eval_C, eval_sub, eval_one, eval_X, sub_self, mul_zero]
    rw [zero_pow (by omega), mul_zero]
  have h5 : P.eval (-1) = 0 := by
    simp only [P, eval_mul, eval_pow, eval_C, eval_add, eval_one, eval_X, add_neg_cancel, mul_zero]
    rw [zero_pow (by omega), zero_mul]
  rw [h3, h4, h5, sub_zero] at h2
  simp only [he] at h2
  have h6 : ∑ i, w i * (1 / 2 * (a * ((1 + x i) / 2) ^ (a - 1) * ((1 - x i) / 2) ^ b - b * ((1 + x i) / 2) ^ a * ((1 - x i) / 2) ^ (b - 1))) =
      1 / 2 * ∑ i, w i * (a * ((1 + x i) / 2) ^ (a - 1) * ((1 - x i) / 2) ^ b - b * ((1 + x i) / 2) ^ a * ((1 - x i) / 2) ^ (b - 1)) := by
    rw [Finset.mul_sum]
    exact Finset.sum_congr rfl fun i _ => by ring
  rw [h6] at h2
  linarith

/-! ## The amplitudes of rotated orbitals -/

variable {N n : ℕ}

/-- The component of a rotated orbital along the spin: `G` are the orbitals that were up. -/
noncomputable def comp (G : Finset (Fin N)) (θ : ℝ) (up : Bool) (k : Fin N) : ℝ :=
  if up then (if k ∈ G then Real.cos (θ / 2) else -Real.sin (θ / 2)) else (if k ∈ G then Real.sin (θ / 2) else Real.cos (θ / 2))

/-- The amplitude of the electrons of `s` being up and the others down. -/
noncomputable def coef (G : Finset (Fin N)) (θ : ℝ) (s : Finset (Fin N)) : ℝ := ∏ k, if k ∈ s then comp G θ true k else comp G θ false k

theorem coef_eq (G : Finset (Fin N)) (θ : ℝ) (s : Finset (Fin N)) :
    coef G θ s = Real.cos (θ / 2) ^ (G ∩ s).card * Real.sin (θ / 2) ^ (G.card - (G ∩ s).card) *
      ((-Real.sin (θ / 2)) ^ (Gᶜ ∩ s).card * Real.cos (θ / 2) ^ (Gᶜ.card - (Gᶜ ∩ s).card)) := by
  unfold coef comp
  rw [← Finset.prod_mul_prod_compl G]
  have key : ∀ (H : Finset (Fin N)) (a b : ℝ), ∏ k ∈ H, (if k ∈ s then a else b) = a ^ (H ∩ s).card * b ^ (H.card - (H ∩ s).card) := by
    intro H a b
    rw [Finset.prod_ite, Finset.prod_const, Finset.prod_const, ← Finset.filter_mem_eq_inter]
    have := Finset.card_filter_add_card_filter_not (s := H) (fun k => k ∈ s)
    congr 2
    omega
  congr 1
  · rw [← key]
    refine Finset.prod_congr rfl fun k hk => ?_
    simp [hk]
  · rw [← key]
    refine Finset.prod_congr rfl fun k hk => ?_
    simp [Finset.mem_compl.mp hk]

theorem half_angle {t : ℝ} (ht : t ∈ Set.Icc (-1 : ℝ) 1) :
    Real.cos (Real.arccos t / 2) ^ 2 = (1 + t) / 2 ∧ Real.sin (Real.arccos t / 2) ^ 2 = (1 - t) / 2 := by
  have h1 : Real.cos (2 * (Real.arccos t / 2)) = t := by
    rw [mul_div_cancel₀ _ (two_ne_zero)]
    exact Real.cos_arccos ht.1 ht.2
  rw [Real.cos_two_mul] at h1
  have h2 := Real.sin_sq_add_cos_sq (Real.arccos t / 2)
  constructor <;> linarith

/-- The quadrature removes what a raising operator would leave. -/
theorem coef_sum {g : ℕ} {x w : Fin g → ℝ} (h : IsGaussLegendre x w) (G s : Finset (Fin N)) (hG : G.card = n) (hG' : Gᶜ.card = n)
    (hs : s.card = n + 1) (hn : n < 2 * g) : ∑ k ∈ s, ∑ i, w i * coef G (Real.arccos (x i)) (s.erase k) = 0 := by
  have hu : (G ∩ s).card ≤ n := hG ▸ Finset.card_le_card Finset.inter_subset_left
  have hd : (Gᶜ ∩ s).card ≤ n := hG' ▸ Finset.card_le_card Finset.inter_subset_left
  have hsum : (G ∩ s).card + (Gᶜ ∩ s).card = n + 1 := by
    rw [← hs, ← Finset.card_union_of_disjoint]
    · rw [← Finset.union_inter_distrib_right, Finset.union_compl, Finset.univ_inter]
    · exact Finset.disjoint_of_subset_left Finset.inter_subset_left
        (Finset.disjoint_of_subset_right Finset.inter_subset_left disjoint_compl_right)
  obtain ⟨u, hu'⟩ : ∃ u, u = (G ∩ s).card := ⟨_, rfl⟩
  obtain ⟨d, hd'⟩ : ∃ d, d = (Gᶜ ∩ s).card := ⟨_, rfl⟩
  rw [← hu', ← hd'] at hsum
  rw [← hu'] at hu
  rw [← hd'] at hd
  rw [Finset.sum_comm]
  have key : ∀ i, ∑ k ∈ s, w i * coef G (Real.arccos (x i)) (s.erase k) = (-1) ^ d * (w i *
      (u * ((1 + x i) / 2) ^ (u - 1) * ((1 - x i) / 2) ^ d - d * ((1 + x i) / 2) ^ u * ((1 - x i) / 2) ^ (d - 1))) := by
    intro i
    rw [← (half_angle (h.1 i)).1, ← (half_angle (h.1 i)).2]
    set c := Real.cos (Real.arccos (x i) / 2) with hc
    set m := Real.sin (Real.arccos (x i) / 2) with hm
    have e1 : ∀ k ∈ G ∩ s, w i * coef G (Real.arccos (x i)) (s.erase k) = w i * ((-1) ^ d * ((c ^ 2) ^ (u - 1) * (m ^ 2) ^ d)) := by
      intro k hk
      rw [coef_eq, ← hc, ← hm]
      have a1 : (G ∩ s.erase k).card = u - 1 := by
        rw [hu', Finset.inter_erase, Finset.card_erase_of_mem hk]
      have a2 : Gᶜ ∩ s.erase k = Gᶜ ∩ s := by
        rw [Finset.inter_erase, Finset.erase_eq_of_notMem]
        simp [Finset.mem_of_mem_inter_left hk]
      rw [a1, a2, ← hd', hG, hG']
      obtain ⟨u, rfl⟩ : ∃ v, u = v + 1 := ⟨u - 1, by omega⟩
      have b1 : n - (u + 1 - 1) = d := by omega
      have b2 : n - d = u := by omega
      rw [b1, b2, Nat.add_sub_cancel, neg_pow m, ← pow_mul, ← pow_mul]
      ring
    have e2 : ∀ k ∈ Gᶜ ∩ s, w i * coef G (Real.arccos (x i)) (s.erase k) = w i * ((-1) ^ (d - 1) * ((c ^ 2) ^ u * (m ^ 2) ^ (d - 1))) := by
      intro k hk
      rw [coef_eq, ← hc, ← hm]
      have a1 : (Gᶜ ∩ s.erase k).card = d - 1 := by
        rw [hd', Finset.inter_erase, Finset.card_erase_of_mem hk]
      have a2 : G ∩ s.erase k = G ∩ s := by
        rw [Finset.inter_erase, Finset.erase_eq_of_notMem]
        intro h'
        exact Finset.mem_compl.mp (Finset.mem_of_mem_inter_left hk) (Finset.mem_of_mem_inter_left h')
      rw [a1, a2, ← hu', hG, hG']
      obtain ⟨d, rfl⟩ : ∃ v, d = v + 1 := ⟨d - 1, by omega⟩
      have b1 : n - (d + 1 - 1) = u := by omega
      have b2 : n - u = d := by omega
      rw [b1, b2, Nat.add_sub_cancel, neg_pow m, ← pow_mul, ← pow_mul]
      ring
    have hsplit : s = G ∩ s ∪ Gᶜ ∩ s := by rw [← Finset.union_inter_distrib_right, Finset.union_compl, Finset.univ_inter]
    have hdis : Disjoint (G ∩ s) (Gᶜ ∩ s) := Finset.disjoint_of_subset_left Finset.inter_subset_left
      (Finset.disjoint_of_subset_right Finset.inter_subset_left disjoint_compl_right)
    have hres : ∑ k ∈ s, w i * coef G (Real.arccos (x i)) (s.erase k) =
        (∑ k ∈ G ∩ s, w i * coef G (Real.arccos (x i)) (s.erase k)) + ∑ k ∈ Gᶜ ∩ s, w i * coef G (Real.arccos (x i)) (s.erase k) := by
      rw [← Finset.sum_union hdis, ← hsplit]
    rw [hres, Finset.sum_congr rfl e1, Finset.sum_congr rfl e2, Finset.sum_const, Finset.sum_const, ← hu', ← hd', nsmul_eq_mul, nsmul_eq_mul]
    obtain ⟨d, rfl⟩ : ∃ v, d = v + 1 := ⟨d - 1, by omega⟩
    rw [Nat.add_sub_cancel]
    ring
  rw [Finset.sum_congr rfl fun i _ => key i, ← Finset.mul_sum, quad_zero h (by omega) (by omega) (by omega), mul_zero]

/-! ## Singlets -/

variable {L : ℕ}

/-- A state with equally many up and down electrons that no raising operator can act on is a singlet. -/
theorem singlet_of_up {psi : Cfg L → ℂ} (hs : ∀ x, numElec false x ≠ numElec true x → psi x = 0)
    (hup : ∀ x, applyOp totalUp psi x = 0) : IsSinglet psi := by
  refine ⟨hup, ?_⟩
  have hz : ∀ x, applyOp totalZ2 psi x = 0 := by
    intro x
    unfold applyOp
    rw [TotalSpin.totalZ2_eq]
    refine Finset.sum_eq_zero fun y _ => ?_
    rw [Matrix.sub_apply, numTot_apply, numTot_apply]
    by_cases hxy : occOf x = occOf y
    · have : x = y := occOf_bijective.1 hxy
      subst this
      by_cases he : numElec false x = numElec true x
      · simp [he]
      · rw [hs x he, mul_zero]
    · simp [hxy]
  have hcomm : (totalUp * totalDown : Op L) = totalZ2 + totalDown * totalUp := by
    have : (totalUp * totalDown : Op L) - totalDown * totalUp = totalZ2 := by
      unfold totalDown totalZ2
      rw [Finset.mul_sum, Finset.sum_mul, ← Finset.sum_sub_distrib]
      exact Finset.sum_congr rfl fun i _ => comm_up_down i i
    rw [← this]
    abel
  have hud : ∀ x, applyOp totalUp (applyOp totalDown psi) x = 0 := by
    intro x
    rw [← TotalSpin.applyOp_mul, hcomm, TotalSpin.applyOp_add, TotalSpin.applyOp_mul]
    have : applyOp totalUp psi = fun _ => 0 := funext hup
    rw [this]
    dsimp only
    rw [hz]
    simp [applyOp]
  have hnorm : ∑ x, (Complex.normSq (applyOp totalDown psi x) : ℂ) = 0 := by
    have e : ∑ x, (Complex.normSq (applyOp totalDown psi x) : ℂ) = ∑ x', (starRingEnd ℂ) (psi x') * applyOp totalUp (applyOp totalDown psi) x' := by
      have t : ∀ x x' : Cfg L, (totalDown : Op L) (occOf x) (occOf x') = totalUp (occOf x') (occOf x) := by
        intro x x'
        unfold totalDown totalUp
        rw [← up_transpose]
        rfl
      simp only [Complex.normSq_eq_conj_mul_self]
      conv_lhs => enter [2, x, 1]; rw [applyOp, map_sum]
      conv_rhs => enter [2, x']; rw [applyOp]
      simp only [Finset.sum_mul, Finset.mul_sum, map_mul, map_intCast]
      rw [Finset.sum_comm]
      refine Finset.sum_congr rfl fun x' _ => Finset.sum_congr rfl fun x _ => ?_
      rw [t]
      ring
    rw [e]
    exact Finset.sum_eq_zero fun x _ => by rw [hud, mul_zero]
  intro x
  have h2 : ∑ x, Complex.normSq (applyOp totalDown psi x) = 0 := by exact_mod_cast hnorm
  have h3 := (Finset.sum_eq_zero_iff_of_nonneg fun x _ => Complex.normSq_nonneg (applyOp totalDown psi x)).mp h2 x (Finset.mem_univ x)
  exact Complex.normSq_eq_zero.mp h3

/-- The orbital number `k` after the rotation. -/
noncomputable def rotatedOrbital (G : Finset (Fin N)) (φ : Fin N → Fin L → ℂ) (θ : ℝ) (k : Fin N) : Mode L → ℂ :=
  (comp G θ true k : ℂ) • spinOrbital false (φ k) + (comp G θ false k : ℂ) • spinOrbital true (φ k)

theorem rotated_expand (G : Finset (Fin N)) (φ : Fin N → Fin L → ℂ) (θ : ℝ) :
    slaterState (List.ofFn (rotatedOrbital G φ θ)) = ∑ s : Finset (Fin N), (coef G θ s : ℂ) • assigned φ s := by
  have := slater_expand (K := ℂ) (fun k => (comp G θ true k : ℂ)) (fun k => (comp G θ false k : ℂ)) (fun k => spinOrbital false (φ k))
    (fun k => spinOrbital true (φ k))
  change slaterState (List.ofFn fun k => rotatedOrbital G φ θ k) = _ at this
  change slaterState (List.ofFn fun k => rotatedOrbital G φ θ k) = _
  rw [this]
  refine Finset.sum_congr rfl fun s _ => ?_
  congr 1
  unfold coef
  rw [Complex.ofReal_prod]
  exact Finset.prod_congr rfl fun k _ => by split_ifs <;> rfl

/-- The part of equally many up and down electrons. -/
theorem rotated_sector (G : Finset (Fin N)) (hG : G.card = n) (hG' : Gᶜ.card = n) (φ : Fin N → Fin L → ℂ) (θ : ℝ) (x : Cfg L) :
    withElectrons n (fun x => slaterState (List.ofFn (rotatedOrbital G φ θ)) (occOf x)) x =
      ∑ s : Finset (Fin N), if s.card = n then (coef G θ s : ℂ) * assigned φ s (occOf x) else 0 := by
  unfold withElectrons
  have hN : N = n + n := by
    have := Finset.card_add_card_compl G
    rw [hG, hG', Fintype.card_fin] at this
    exact this.symm
  split_ifs with hx
  · dsimp only
    rw [rotated_expand, Finset.sum_apply]
    refine Finset.sum_congr rfl fun s _ => ?_
    split_ifs with hs
    · rfl
    · rw [Pi.smul_apply, assigned_sector φ s x (by rw [hx.1]; exact fun h => hs h.symm), smul_zero]
  · refine (Finset.sum_eq_zero fun s _ => ?_).symm
    split_ifs with hs
    · by_cases h1 : numElec false x = n
      · rw [assigned_sector_down, mul_zero]
        rw [Finset.card_compl, hs, Fintype.card_fin, hN, Nat.add_sub_cancel]
        exact fun h2 => hx ⟨h1, h2⟩
      · rw [assigned_sector, mul_zero]
        rw [hs]; exact h1
    · rfl

/-- What a raising operator leaves of the weighted sum of the rotated determinants. -/
theorem projected_up {g : ℕ} (x w : Fin g → ℝ) (G : Finset (Fin N)) (hG : G.card = n) (hG' : Gᶜ.card = n) (φ : Fin N → Fin L → ℂ) (y : Cfg L) :
    applyOp totalUp (withElectrons n fun y : Cfg L =>
        ∑ i, (w i : ℂ) * slaterState (List.ofFn (rotatedOrbital G φ (Real.arccos (x i)))) (occOf y)) y =
      ∑ s : Finset (Fin N), (if s.card = n + 1 then ((∑ k ∈ s, ∑ i, w i * coef G (Real.arccos (x i)) (s.erase k) : ℝ) : ℂ) else 0) *
        assigned φ s (occOf y) := by
  have hpsi : ∀ y : Cfg L, (withElectrons n fun y : Cfg L =>
      ∑ i, (w i : ℂ) * slaterState (List.ofFn (rotatedOrbital G φ (Real.arccos (x i)))) (occOf y)) y =
      (∑ s : Finset (Fin N), (if s.card = n then ((∑ i, w i * coef G (Real.arccos (x i)) s : ℝ) : ℂ) else 0) • assigned φ s) (occOf y) := by
    intro y
    have e : (withElectrons n fun y : Cfg L =>
        ∑ i, (w i : ℂ) * slaterState (List.ofFn (rotatedOrbital G φ (Real.arccos (x i)))) (occOf y)) y =
        ∑ i, (w i : ℂ) * withElectrons n (fun y => slaterState (List.ofFn (rotatedOrbital G φ (Real.arccos (x i)))) (occOf y)) y := by
      unfold withElectrons
      split_ifs <;> simp
    rw [e]
    simp only [rotated_sector G hG hG', Finset.mul_sum]
    rw [Finset.sum_comm, Finset.sum_apply]
    refine Finset.sum_congr rfl fun s _ => ?_
    rw [Pi.smul_apply, smul_eq_mul]
    split_ifs with hs
    · rw [Complex.ofReal_sum, Finset.sum_mul]
      exact Finset.sum_congr rfl fun i _ => by push_cast; ring
    · simp
  have hop : ∀ y : Cfg L, applyOp totalUp (withElectrons n fun y : Cfg L =>
      ∑ i, (w i : ℂ) * slaterState (List.ofFn (rotatedOrbital G φ (Real.arccos (x i)))) (occOf y)) y =
      (toK ℂ (totalUp : Op L) *ᵥ ∑ s : Finset (Fin N), (if s.card = n then ((∑ i, w i * coef G (Real.arccos (x i)) s : ℝ) : ℂ) else 0) •
        assigned φ s) (occOf y) := by
    intro y
    rw [applyOp, Matrix.mulVec, dotProduct, sum_occ]
    exact Finset.sum_congr rfl fun y' _ => by rw [hpsi]; rfl
  rw [hop, Matrix.mulVec_sum]
  simp only [Matrix.mulVec_smul, up_assigned, Finset.smul_sum]
  rw [Finset.sum_sigma']
  have hbij : ∑ a ∈ (Finset.univ : Finset (Finset (Fin N))).sigma fun s => sᶜ,
      (if a.1.card = n then ((∑ i, w i * coef G (Real.arccos (x i)) a.1 : ℝ) : ℂ) else 0) • assigned φ (insert a.2 a.1) =
      ∑ b ∈ (Finset.univ : Finset (Finset (Fin N))).sigma fun s => s,
        (if (b.1.erase b.2).card = n then ((∑ i, w i * coef G (Real.arccos (x i)) (b.1.erase b.2) : ℝ) : ℂ) else 0) • assigned φ b.1 := by
    refine Finset.sum_bij' (fun a _ => ⟨insert a.2 a.1, a.2⟩) (fun b _ => ⟨b.1.erase b.2, b.2⟩) ?_ ?_ ?_ ?_ ?_
    · intro a _; simp
    · intro b _; simp
    · rintro ⟨s, k⟩ ha
      have hk : k ∉ s := by simpa using ha
      simp [Finset.erase_insert hk]
    · rintro ⟨s, k⟩ hb
      have hk : k ∈ s := by simpa using hb
      simp [Finset.insert_erase hk]
    · rintro ⟨s, k⟩ ha
      have hk : k ∉ s := by simpa using ha
      simp only [Finset.erase_insert hk]
  rw [hbij, Finset.sum_sigma, Finset.sum_apply]
  refine Finset.sum_congr rfl fun s _ => ?_
  dsimp only
  rw [← Finset.sum_smul, Pi.smul_apply, smul_eq_mul]
  congr 1
  by_cases hs : s.card = n + 1
  · rw [if_pos hs, Complex.ofReal_sum]
    refine Finset.sum_congr rfl fun k hk => ?_
    rw [if_pos]
    rw [Finset.card_erase_of_mem hk, hs, Nat.add_sub_cancel]
  · rw [if_neg hs]
    refine Finset.sum_eq_zero fun k hk => ?_
    rw [if_neg]
    rw [Finset.card_erase_of_mem hk]
    have := Finset.card_pos.mpr ⟨k, hk⟩
    omega

/-- **The projection**: the quadrature over the rotations of a determinant with equally many up and down electrons. -/
theorem projected_singlet {g : ℕ} {x w : Fin g → ℝ} (h : IsGaussLegendre x w) (G : Finset (Fin N)) (hG : G.card = n) (hG' : Gᶜ.card = n)
    (hn : n < 2 * g) (φ : Fin N → Fin L → ℂ) :
    IsSinglet (withElectrons n fun y : Cfg L => ∑ i, (w i : ℂ) * slaterState (List.ofFn (rotatedOrbital G φ (Real.arccos (x i)))) (occOf y)) := by
  refine singlet_of_up ?_ ?_
  · intro y hy
    unfold withElectrons
    rw [if_neg]
    rintro ⟨h1, h2⟩
    exact hy (h1.trans h2.symm)
  · intro y
    rw [projected_up x w G hG hG' φ y]
    refine Finset.sum_eq_zero fun s _ => ?_
    split_ifs with hs
    · rw [coef_sum h G s hG hG' hs hn, Complex.ofReal_zero, zero_mul]
    · rw [zero_mul]

/-- Sums and multiples of singlets. -/
theorem singlet_sum {T : Type} (S : Finset T) (c : T → ℂ) (psi : T → Cfg L → ℂ) (h : ∀ t ∈ S, IsSinglet (psi t)) :
    IsSinglet fun x => ∑ t ∈ S, c t * psi t x := by
  have key : ∀ A : Op L, (∀ t ∈ S, ∀ x, ∑ x', (A (occOf x) (occOf x') : ℂ) * psi t x' = 0) →
      ∀ x, ∑ x', (A (occOf x) (occOf x') : ℂ) * ∑ t ∈ S, c t * psi t x' = 0 := by
    intro A hA x
    simp only [Finset.mul_sum]
    rw [Finset.sum_comm]
    refine Finset.sum_eq_zero fun t ht => ?_
    rw [← mul_zero (c t), ← hA t ht x, Finset.mul_sum]
    exact Finset.sum_congr rfl fun x' _ => by ring
  exact ⟨key _ fun t ht => (h t ht).1, key _ fun t ht => (h t ht).2⟩

theorem withElectrons_sum {T : Type} (S : Finset T) (c : T → ℂ) (psi : T → Cfg L → ℂ) :
    (withElectrons n fun x => ∑ t ∈ S, c t * psi t x) = fun x => ∑ t ∈ S, c t * withElectrons n (psi t) x := by
  funext x
  unfold withElectrons
  split_ifs <;> simp

theorem withElectrons_congr {psi psi' : Cfg L → ℂ} (h : ∀ x, numElec false x = n ∧ numElec true x = n → psi x = psi' x) :
    withElectrons n psi = withElectrons n psi' := by
  funext x
  unfold withElectrons
  split_ifs with hx
  · exact h x hx
  · rfl

/-! ## Quadratures from their moments -/

theorem gaussLegendre_of_moments {g : ℕ} {x w : Fin g → ℝ} (hx : ∀ i, x i ∈ Set.Icc (-1 : ℝ) 1)
    (h : ∀ k < 2 * g, ∑ i, w i * x i ^ k = (1 - (-1) ^ (k + 1)) / (k + 1)) : IsGaussLegendre x w := by
  refine ⟨hx, fun p hp => ?_⟩
  simp only [eval_eq_sum_range' hp]
  rw [intervalIntegral.integral_finsetSum fun k _ => (Continuous.intervalIntegrable (by fun_prop) _ _)]
  simp only [Finset.mul_sum]
  rw [Finset.sum_comm]
  refine Finset.sum_congr rfl fun k hk => ?_
  rw [intervalIntegral.integral_const_mul, integral_pow, one_pow, ← h k (Finset.mem_range.mp hk), Finset.mul_sum]
  exact Finset.sum_congr rfl fun i _ => by ring

end GPSKet.SpinProjection
