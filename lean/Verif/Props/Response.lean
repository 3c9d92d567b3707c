import Verif.Props.Interaction
import Verif.Props.Rdms
import Verif.Spec.Response

/-! # Density matrices give the response of energies to changes of the integrals (C203) -/

namespace GPSKet.Response

open GPSKet GPSKet.Spec Interaction

variable {L nu nd : ℕ} {Cache : Type}

/-- **C203**, local energies: when the integrals held by the operator change, the local energy changes by the changes contracted with the
local density matrices, for every model and sample. -/
theorem C203_local (src : AmpSource L (Fin 4) Cache) (n : ℕ × ℕ) (t t' : Fin L → Fin L → ℂ) (e e' : Fin L → Fin L → Fin L → Fin L → ℂ) (x : Cfg L) :
    abLocalEn src n t' e' x = abLocalEn src n t e x +
      ((∑ pq : Fin L × Fin L, (t' pq.1 pq.2 - t pq.1 pq.2) * (abLocalRDMs src n x).1 pq) +
        ∑ w : Fin L × Fin L × Fin L × Fin L, (e' w.1 w.2.1 w.2.2.1 w.2.2.2 - e w.1 w.2.1 w.2.2.1 w.2.2.2) * (abLocalRDMs src n x).2 w) := by
  rw [← C15_contract src n t' e' x, ← C15_contract src n t e x]
  simp only [sub_mul, Finset.sum_sub_distrib]
  ring

/-- **C203**, units: multiplying all integrals by a number multiplies all local energies by it. -/
theorem C203_units (src : AmpSource L (Fin 4) Cache) (n : ℕ × ℕ) (c : ℂ) (t : Fin L → Fin L → ℂ) (e : Fin L → Fin L → Fin L → Fin L → ℂ) (x : Cfg L) :
    abLocalEn src n (fun p q => c * t p q) (fun p q r s => c * e p q r s) x = c * abLocalEn src n t e x := by
  rw [← C15_contract src n t e x, ← C15_contract src n (fun p q => c * t p q) (fun p q r s => c * e p q r s) x, mul_add, Finset.mul_sum, Finset.mul_sum]
  simp only [mul_assoc]

/-- **C203**, the integrals the operator holds depend linearly on those it is given. -/
theorem C203_held (h h' : Fin L → Fin L → ℂ) (e e' : Fin L → Fin L → Fin L → Fin L → ℂ) (p q : Fin L) :
    abT (fun p q => h' p q - h p q) (fun p q r s => e' p q r s - e p q r s) p q = abT h' e' p q - abT h e p q := by
  unfold abT
  simp only [Finset.sum_sub_distrib]
  ring

/-! ## States -/

/-- `⟨ψ|A|ψ⟩` as a linear function of `A` -/
noncomputable def bil (psi : Cfg L → ℂ) : Matrix (Occ (Mode L)) (Occ (Mode L)) ℂ →ₗ[ℂ] ℂ where
  toFun A := ∑ x, ∑ x', star (psi x) * A (occOf x) (occOf x') * psi x'
  map_add' A B := by
    simp only [Matrix.add_apply, mul_add, add_mul, Finset.sum_add_distrib]
  map_smul' c A := by
    simp only [Matrix.smul_apply, smul_eq_mul, Finset.mul_sum, RingHom.id_apply]
    exact Finset.sum_congr rfl fun x _ => Finset.sum_congr rfl fun y _ => by ring

theorem bil_op (psi : Cfg L → ℂ) (A : Op L) : bil psi (toK ℂ A) = braket A psi := rfl

theorem normSq_eq (psi : Cfg L → ℂ) : normSq psi = (sqNorm psi : ℂ) := by
  unfold normSq sqNorm
  push_cast
  refine Finset.sum_congr rfl fun x _ => ?_
  rw [Complex.star_def, ← Complex.normSq_eq_conj_mul_self, Complex.normSq_eq_norm_sq]
  push_cast
  rfl

/-- **C203**, energies of states: the energy of every state is the contraction of the integrals with its density matrices, and so a linear
function of the integrals. -/
theorem C203_states (I : Integrals L) (psi : Cfg L → ℂ) : moleculeSum I psi = contracted I psi * sqNorm psi := by
  by_cases h0 : psi = 0
  · subst h0
    simp [moleculeSum, sqNorm]
  have hN : (sqNorm psi : ℂ) ≠ 0 := by exact_mod_cast (sqNorm_pos h0).ne'
  have hform : ∑ x, star (psi x) * applyH I.1 I.2 psi x =
      bil psi ((1 / 2 : ℂ) • abInitioTwice (fun p q => (I.1 p q : ℂ)) fun p q r s => (I.2 p q r s : ℂ)) := by
    show _ = ∑ x, ∑ x', _
    refine Finset.sum_congr rfl fun x _ => ?_
    unfold applyH
    rw [Finset.mul_sum]
    refine Finset.sum_congr rfl fun y _ => ?_
    rw [Matrix.smul_apply, smul_eq_mul]
    ring
  have hb : ∀ A : Op L, braket A psi = expect A psi * (sqNorm psi : ℂ) := by
    intro A
    unfold expect
    rw [normSq_eq, div_mul_cancel₀ _ hN]
  have hval : bil psi ((1 / 2 : ℂ) • abInitioTwice (fun p q => (I.1 p q : ℂ)) fun p q r s => (I.2 p q r s : ℂ)) =
      (∑ p, ∑ q, (I.1 p q : ℂ) * expect (exc p q) psi + 1 / 2 * ∑ p, ∑ q, ∑ r, ∑ s, (I.2 p q r s : ℂ) * expect (pairOp p q r s) psi) *
        (sqNorm psi : ℂ) := by
    unfold abInitioTwice
    simp only [map_smul, map_add, map_sum, bil_op, smul_eq_mul, ← Rdms.pairOp_eq, hb]
    rw [mul_add, add_mul]
    congr 1
    · rw [Finset.mul_sum, Finset.sum_mul]
      refine Finset.sum_congr rfl fun p _ => ?_
      rw [Finset.mul_sum, Finset.sum_mul]
      exact Finset.sum_congr rfl fun q _ => by ring
    · simp only [Finset.mul_sum, Finset.sum_mul]
      exact Finset.sum_congr rfl fun p _ => Finset.sum_congr rfl fun q _ => Finset.sum_congr rfl fun r _ => Finset.sum_congr rfl fun s _ => by ring
  unfold moleculeSum
  rw [hform, hval, Complex.re_mul_ofReal]
  rfl

theorem contracted_linear (a b : ℝ) (I J : Integrals L) (psi : Cfg L → ℂ) :
    contracted (fun p q => a * I.1 p q + b * J.1 p q, fun p q r s => a * I.2 p q r s + b * J.2 p q r s) psi = a * contracted I psi + b * contracted J psi := by
  unfold contracted
  rw [← Complex.re_ofReal_mul, ← Complex.re_ofReal_mul, ← Complex.add_re]
  congr 1
  push_cast
  simp only [add_mul, Finset.sum_add_distrib, mul_add, mul_assoc, ← Finset.mul_sum]
  ring

theorem ground_contracted {I : Integrals L} {n : ℕ × ℕ} {E : ℝ} {psi : Cfg L → ℂ} (h : IsGroundMolecule I n E psi) : contracted I psi = E := by
  have h1 := h.energy
  rw [C203_states] at h1
  exact mul_right_cancel₀ (sqNorm_pos h.ne_zero).ne' h1

/-- **C203**, the variational bound from density matrices: the density matrices of the ground state of one molecule, contracted with the
integrals of another one with the same numbers of electrons and orbitals, bound its lowest energy from above. -/
theorem C203_bound {I J : Integrals L} {n : ℕ × ℕ} {E F : ℝ} {psi phi : Cfg L → ℂ} (h : IsGroundMolecule I n E psi) (h' : IsGroundMolecule J n F phi) :
    F ≤ contracted J psi := by
  have h1 := h'.lowest psi h.sector
  rw [C203_states] at h1
  exact le_of_mul_le_mul_right h1 (sqNorm_pos h.ne_zero)

/-- **C203**, concavity: the lowest energy is a concave function of the integrals. -/
theorem C203_concave {I J : Integrals L} {n : ℕ × ℕ} {a b E F G : ℝ} (ha : 0 ≤ a) (hb : 0 ≤ b) {psi phi chi : Cfg L → ℂ}
    (h : IsGroundMolecule I n E psi) (h' : IsGroundMolecule J n F phi)
    (hm : IsGroundMolecule (fun p q => a * I.1 p q + b * J.1 p q, fun p q r s => a * I.2 p q r s + b * J.2 p q r s) n G chi) :
    a * E + b * F ≤ G := by
  have h1 := mul_le_mul_of_nonneg_left (C203_bound hm h) ha
  have h2 := mul_le_mul_of_nonneg_left (C203_bound hm h') hb
  have h3 := ground_contracted hm
  rw [contracted_linear] at h3
  linarith

theorem deriv_contracted {I : ℝ → Integrals L} {I' : Integrals L} {l : ℝ} (h1 : ∀ p q, HasDerivAt (fun v => (I v).1 p q) (I'.1 p q) l)
    (h2 : ∀ p q r s, HasDerivAt (fun v => (I v).2 p q r s) (I'.2 p q r s) l) (psi : Cfg L → ℂ) :
    HasDerivAt (fun v => contracted (I v) psi) (contracted I' psi) l := by
  have e : ∀ J : Integrals L, contracted J psi = ∑ p, ∑ q, J.1 p q * (expect (exc p q) psi).re +
      1 / 2 * ∑ p, ∑ q, ∑ r, ∑ s, J.2 p q r s * (expect (pairOp p q r s) psi).re := by
    intro J
    unfold contracted
    rw [Complex.add_re]
    have half : (1 / 2 : ℂ) = ((1 / 2 : ℝ) : ℂ) := by push_cast; rfl
    rw [half, Complex.re_ofReal_mul]
    simp only [Complex.re_sum, Complex.re_ofReal_mul]
  simp only [e]
  refine HasDerivAt.add ?_ (HasDerivAt.const_mul _ ?_)
  · exact HasDerivAt.fun_sum fun p _ => HasDerivAt.fun_sum fun q _ => (h1 p q).mul_const _
  · exact HasDerivAt.fun_sum fun p _ => HasDerivAt.fun_sum fun q _ => HasDerivAt.fun_sum fun r _ => HasDerivAt.fun_sum fun s _ => (h2 p q r s).mul_const _

/-- **C203**, the theorem of Hellmann and Feynman: if the integrals depend on a parameter, such as an electric field or the position of an
atom, then the derivative of the lowest energy with respect to it, where there is one, is the contraction of the derivatives of the integrals
with the density matrices of any ground state there. -/
theorem C203_derivative {I : ℝ → Integrals L} {I' : Integrals L} {l d : ℝ} (h1 : ∀ p q, HasDerivAt (fun v => (I v).1 p q) (I'.1 p q) l)
    (h2 : ∀ p q r s, HasDerivAt (fun v => (I v).2 p q r s) (I'.2 p q r s) l) {n : ℕ × ℕ} {E0 : ℝ → ℝ}
    (hE : ∀ v, ∃ psi, IsGroundMolecule (I v) n (E0 v) psi) (hd : HasDerivAt E0 d l) {psi : Cfg L → ℂ} (h : IsGroundMolecule (I l) n (E0 l) psi) :
    d = contracted I' psi := by
  have hg : HasDerivAt (fun v => E0 v - contracted (I v) psi) (d - contracted I' psi) l := hd.sub (deriv_contracted h1 h2 psi)
  have hmax : IsLocalMax (fun v => E0 v - contracted (I v) psi) l := by
    refine Filter.Eventually.of_forall fun v => ?_
    obtain ⟨phi, h'⟩ := hE v
    have h3 := C203_bound h h'
    have h4 := ground_contracted h
    simp only [h4, sub_self]
    linarith
  have := hmax.hasDerivAt_eq_zero hg
  linarith

/-! ## Ground states exist -/

theorem continuous_moleculeSum (I : Integrals L) : Continuous (moleculeSum I) := by
  unfold moleculeSum applyH
  fun_prop

theorem scaled_molecule (I : Integrals L) (psi : Cfg L → ℂ) (c : ℝ) : moleculeSum I (fun x => (c : ℂ) * psi x) = c ^ 2 * moleculeSum I psi := by
  unfold moleculeSum
  rw [← Complex.re_ofReal_mul]
  congr 1
  rw [Finset.mul_sum]
  refine Finset.sum_congr rfl fun x _ => ?_
  have : applyH I.1 I.2 (fun x => (c : ℂ) * psi x) x = c * applyH I.1 I.2 psi x := by
    unfold applyH
    rw [Finset.mul_sum]
    exact Finset.sum_congr rfl fun y _ => by ring
  rw [this, star_mul', Complex.star_def, Complex.conj_ofReal]
  push_cast
  ring

/-- **C203**, existence: for all integrals and numbers of electrons that fit into the orbitals there is a lowest energy. -/
theorem C203_exists (hu : nu ≤ L) (hd : nd ≤ L) (I : Integrals L) : ∃ E psi, IsGroundMolecule I (nu, nd) E psi := by
  obtain ⟨psi, hpsi, hmin⟩ := (compact_sector (nu := nu) (nd := nd) (L := L)).exists_isMinOn (nonempty_sector hu hd) (continuous_moleculeSum I).continuousOn
  refine ⟨moleculeSum I psi, psi, hpsi.1, ?_, by rw [hpsi.2, mul_one], fun phi hphi => ?_⟩
  · rintro rfl
    have := hpsi.2
    simp [sqNorm] at this
  · by_cases h0 : phi = 0
    · subst h0
      simp [sqNorm, moleculeSum]
    · have hp := sqNorm_pos h0
      have hsq : (1 / Real.sqrt (sqNorm phi)) ^ 2 * sqNorm phi = 1 := by
        rw [div_pow, one_pow, Real.sq_sqrt hp.le, one_div_mul_cancel hp.ne']
      have e1 := scaled_molecule I phi (1 / Real.sqrt (sqNorm phi))
      have e2 := (scaled 0 [] phi (1 / Real.sqrt (sqNorm phi))).2
      have hm := hmin (show (fun x => ((1 / Real.sqrt (sqNorm phi) : ℝ) : ℂ) * phi x) ∈ unitSector L nu nd from
        ⟨fun x hx => by dsimp only; rw [hphi x hx, mul_zero], by rw [e2, hsq]⟩)
      simp only [Set.mem_ofPred_eq] at hm
      rw [e1] at hm
      have := mul_le_mul_of_nonneg_right hm hp.le
      calc _ ≤ _ := this
        _ = moleculeSum I phi * ((1 / Real.sqrt (sqNorm phi)) ^ 2 * sqNorm phi) := by ring
        _ = _ := by rw [hsq, mul_one]

/-- the assumptions of the theorem of Hellmann and Feynman hold for one electron in one orbital whose energy is the parameter: the lowest
energy is the parameter and the derivative is one, the number of electrons -/
example : ∃ psi : Cfg 1 → ℂ, IsGroundMolecule (fun _ _ => 3, fun _ _ _ _ => 0) (1, 0) 3 psi ∧ contracted (fun _ _ => 1, fun _ _ _ _ => 0) psi = 1 := by
  obtain ⟨E, psi, h⟩ := C203_exists (L := 1) (nu := 1) (nd := 0) le_rfl (by norm_num) (fun _ _ => 3, fun _ _ _ _ => 0)
  have hone : ∀ phi : Cfg 1 → ℂ, InSector (1, 0) phi → moleculeSum (fun _ _ => 1, fun _ _ _ _ => 0) phi = sqNorm phi := by
    intro phi hphi
    unfold moleculeSum sqNorm applyH
    rw [Complex.re_sum]
    refine Finset.sum_congr rfl fun x _ => ?_
    have hr : ∀ y, 1 / 2 * abInitioTwice (fun p q => (((fun _ _ => 1 : Fin 1 → Fin 1 → ℝ) p q : ℝ) : ℂ)) (fun _ _ _ _ => ((0 : ℝ) : ℂ)) (occOf x) (occOf y) =
        if x = y then ((FreeElectrons.occEnergy (fun _ => 1) x : ℝ) : ℂ) else 0 := by
      intro y
      rw [← FreeElectrons.oneBody_diag, FreeElectrons.half_twice (fun _ _ => 1)]
      congr 2
      ext p q
      rw [Subsingleton.elim p q]
      simp
    simp only [hr]
    rw [Finset.sum_eq_single x (fun y _ hy => by rw [if_neg hy.symm, zero_mul]) (by simp), if_pos rfl, star_self]
    by_cases hx : phi x = 0
    · simp [hx]
    · have hn : (numElec false x, numElec true x) = (1, 0) := by
        by_contra hc
        exact hx (hphi x hc)
      have he : FreeElectrons.occEnergy (fun _ => 1) x = numElec false x + numElec true x := by
        unfold FreeElectrons.occEnergy numElec
        rw [Fintype.sum_bool, add_comm]
        simp only [Finset.sum_boole]
      rw [he, (Prod.mk.inj hn).1, (Prod.mk.inj hn).2]
      simp
  have hc : contracted (fun _ _ => 1, fun _ _ _ _ => 0) psi = 1 := by
    have h1 := hone psi h.sector
    rw [C203_states] at h1
    exact mul_right_cancel₀ (sqNorm_pos h.ne_zero).ne' (h1.trans (one_mul _).symm)
  have hE : E = 3 := by
    rw [← ground_contracted h]
    have := contracted_linear 3 0 (fun _ _ => 1, fun _ _ _ _ => 0) (fun _ _ => 0, fun _ _ _ _ => 0) psi
    simp only [mul_one, mul_zero, add_zero, zero_mul] at this
    rw [this, hc, mul_one]
  exact ⟨psi, hE ▸ h, hc⟩

end GPSKet.Response
