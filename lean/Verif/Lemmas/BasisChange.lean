import Verif.Lemmas.OrbitalRotation
import Verif.Lemmas.Sector
import Verif.Spec.SameSystem
import Verif.Lemmas.SpinAlg
import Mathlib.LinearAlgebra.Matrix.ToLin
import Mathlib.Algebra.Star.BigOperators
import Mathlib.LinearAlgebra.Matrix.ConjTranspose

/-! # An orthogonal change of the spatial orbitals -/

namespace GPSKet.Spec
open Matrix

namespace Rotation

section
variable {L : ℕ} {K : Type} [CommRing K] (W : Matrix (Fin L) (Fin L) K)

/-- The same change of the orbitals for both spins. -/
def spinBlock : Matrix (Mode L) (Mode L) K :=
  Matrix.of fun m n => if (ofLex m).1 = (ofLex n).1 then W (ofLex m).2 (ofLex n).2 else 0

theorem sum_mode {M : Type} [AddCommMonoid M] (f : Mode L → M) : ∑ m, f m = ∑ s : Bool, ∑ i : Fin L, f (mode s i) := by
  rw [← Fintype.sum_prod_type']
  rfl

theorem spinBlock_apply (s t : Bool) (i j : Fin L) : spinBlock W (mode s i) (mode t j) = if s = t then W i j else 0 := rfl

variable {W} in
theorem spinBlock_orthogonal (hW : Wᵀ * W = 1) : (spinBlock W)ᵀ * spinBlock W = 1 := by
  ext m n
  obtain ⟨s, i, rfl⟩ : ∃ s i, m = mode s i := ⟨(ofLex m).1, (ofLex m).2, rfl⟩
  obtain ⟨t, j, rfl⟩ : ∃ s i, n = mode s i := ⟨(ofLex n).1, (ofLex n).2, rfl⟩
  rw [Matrix.mul_apply, sum_mode]
  have h := congrFun (congrFun hW i) j
  rw [Matrix.mul_apply] at h
  simp only [Matrix.transpose_apply, spinBlock_apply] at h ⊢
  rw [Finset.sum_eq_single s]
  · by_cases hst : s = t
    · subst hst
      simp only [if_true, h, Matrix.one_apply, mode_inj, true_and]
    · rw [Matrix.one_apply, if_neg (by rw [mode_inj]; tauto)]
      simp [hst]
  · intro b _ hb
    simp [hb]
  · simp

theorem creOrb_spinBlock (s : Bool) (p : Fin L) : creOrb ((spinBlock W).col (mode s p)) = ∑ p', W p' p • toK K (cre (mode s p')) := by
  unfold creOrb
  rw [sum_mode, Finset.sum_eq_single s]
  · simp [spinBlock_apply]
  · intro b _ hb
    simp [spinBlock_apply, hb]
  · simp

theorem annOrb_spinBlock (s : Bool) (p : Fin L) : annOrb ((spinBlock W).col (mode s p)) = ∑ p', W p' p • toK K (ann (mode s p')) := by
  unfold annOrb
  rw [sum_mode, Finset.sum_eq_single s]
  · simp [spinBlock_apply]
  · intro b _ hb
    simp [spinBlock_apply, hb]
  · simp

theorem toK_sum' {α β κ : Type} (s : Finset κ) (A : κ → Matrix α β ℤ) : toK K (∑ k ∈ s, A k) = ∑ k ∈ s, toK K (A k) := by
  ext i j
  simp [toK, Matrix.sum_apply]

variable {W}

theorem gamma_bil (hW : Wᵀ * W = 1) (s : Bool) (p q : Fin L) :
    gamma (spinBlock W) * toK K (cre (mode s p) * ann (mode s q)) =
      (∑ p', ∑ q', (W p' p * W q' q) • toK K (cre (mode s p') * ann (mode s q'))) * gamma (spinBlock W) := by
  rw [toK_mul', ← mul_assoc, gamma_cre, mul_assoc, gamma_ann (spinBlock_orthogonal hW), ← mul_assoc, creOrb_spinBlock, annOrb_spinBlock,
    Finset.sum_mul_sum]
  congr 1
  refine Finset.sum_congr rfl fun p' _ => Finset.sum_congr rfl fun q' _ => ?_
  rw [smul_mul_assoc, mul_smul_comm, smul_smul, toK_mul']

theorem gamma_exc (hW : Wᵀ * W = 1) (p q : Fin L) :
    gamma (spinBlock W) * toK K (exc p q) = (∑ x : Fin L × Fin L, (W x.1 p * W x.2 q) • toK K (exc x.1 x.2)) * gamma (spinBlock W) := by
  unfold exc
  simp only [toK_sum', Finset.mul_sum, gamma_bil hW, Finset.smul_sum]
  rw [← Finset.sum_mul]
  congr 1
  rw [Fintype.sum_prod_type, Finset.sum_comm]
  refine Finset.sum_congr rfl fun p' _ => ?_
  rw [Finset.sum_comm]

/-- The numbers of electrons commute with the change of orbitals. -/
theorem gamma_numTot (hW : Wᵀ * W = 1) (s : Bool) : gamma (spinBlock W) * toK K (numTot s) = toK K (numTot s) * gamma (spinBlock W) := by
  have hW' : W * Wᵀ = 1 := mul_eq_one_comm.mp hW
  unfold numTot
  simp only [toK_sum', Finset.mul_sum, gamma_bil hW]
  rw [← Finset.sum_mul]
  congr 1
  rw [Finset.sum_comm]
  refine Finset.sum_congr rfl fun p' _ => ?_
  rw [Finset.sum_comm, Finset.sum_eq_single p']
  · rw [← Finset.sum_smul]
    have := congrFun (congrFun hW' p') p'
    rw [Matrix.mul_apply] at this
    simp only [Matrix.transpose_apply, Matrix.one_apply_eq] at this
    rw [this, one_smul]
  · intro q' _ hq
    rw [← Finset.sum_smul]
    have := congrFun (congrFun hW' p') q'
    rw [Matrix.mul_apply] at this
    simp only [Matrix.transpose_apply, Matrix.one_apply_ne (Ne.symm hq)] at this
    rw [this, zero_smul]
  · simp

/-! ## The Hamiltonian -/

/-- Integrals in the rotated orbitals. -/
def rot1 (W : Matrix (Fin L) (Fin L) K) (h : Fin L → Fin L → K) (p q : Fin L) : K := ∑ a, ∑ b, W p a * W q b * h a b

def rot2 (W : Matrix (Fin L) (Fin L) K) (e : Fin L → Fin L → Fin L → Fin L → K) (p q r s : Fin L) : K :=
  ∑ a, ∑ b, ∑ c, ∑ d, W p a * W q b * W r c * W s d * e a b c d

theorem gamma_abInitio (hW : Wᵀ * W = 1) (h : Fin L → Fin L → K) (e : Fin L → Fin L → Fin L → Fin L → K) :
    gamma (spinBlock W) * abInitioTwice h e = abInitioTwice (rot1 W h) (rot2 W e) * gamma (spinBlock W) := by
  set G := gamma (spinBlock W) with hG
  set E : Fin L × Fin L → Matrix (Occ (Mode L)) (Occ (Mode L)) K := fun x => toK K (exc x.1 x.2) with hE
  have hGE : ∀ x, G * E x = (∑ x' : Fin L × Fin L, (W x'.1 x.1 * W x'.2 x.2) • E x') * G := fun x => gamma_exc hW x.1 x.2
  -- the Hamiltonian as a sum over pairs of orbitals
  have hH : ∀ (h : Fin L → Fin L → K) (e : Fin L → Fin L → Fin L → Fin L → K), abInitioTwice h e =
      (∑ x : Fin L × Fin L, (2 * h x.1 x.2) • E x) + (∑ x : Fin L × Fin L, ∑ y : Fin L × Fin L, e x.1 x.2 y.1 y.2 • (E x * E y))
        - ∑ z : Fin L × Fin L, (∑ b, e z.1 b b z.2) • E z := by
    intro h e
    unfold abInitioTwice
    rw [add_sub_assoc]
    congr 1
    · rw [Fintype.sum_prod_type]
    · simp only [Fintype.sum_prod_type, toK_sub', toK_mul', smul_sub, Finset.sum_sub_distrib]
      congr 1
      refine Finset.sum_congr rfl fun p _ => ?_
      have : ∀ q r s : Fin L, e p q r s • toK K (if q = r then exc p s else 0 : Matrix (Occ (Mode L)) (Occ (Mode L)) ℤ)
          = if q = r then e p q r s • E (p, s) else 0 := by
        intro q r s
        by_cases hqr : q = r
        · simp only [hqr, if_true]; rfl
        · simp only [hqr, if_false, toK_zero', smul_zero]
      simp only [this]
      have h3 : ∀ q : Fin L, (∑ r, ∑ s, if q = r then e p q r s • E (p, s) else 0) = ∑ s, e p q q s • E (p, s) := by
        intro q
        rw [Finset.sum_eq_single q]
        · simp
        · intro r _ hr
          simp [Ne.symm hr]
        · simp
      simp only [h3]
      rw [Finset.sum_comm]
      refine Finset.sum_congr rfl fun s _ => ?_
      rw [Finset.sum_smul]
  rw [hH, hH, mul_sub, mul_add, sub_mul, add_mul]
  -- one-body part, for any coefficients
  have h1 : ∀ f : Fin L × Fin L → K, G * ∑ x, f x • E x = (∑ x', (∑ x, W x'.1 x.1 * W x'.2 x.2 * f x) • E x') * G := by
    intro f
    rw [Finset.mul_sum]
    simp only [mul_smul_comm, hGE, ← smul_mul_assoc]
    rw [← Finset.sum_mul]
    congr 1
    simp only [Finset.smul_sum, smul_smul, Finset.sum_smul]
    rw [Finset.sum_comm]
    refine Finset.sum_congr rfl fun x' _ => Finset.sum_congr rfl fun x _ => ?_
    rw [mul_comm (f x)]
  have h2 : ∀ f : Fin L × Fin L → Fin L × Fin L → K, G * ∑ x, ∑ y, f x y • (E x * E y) =
      (∑ x', ∑ y', (∑ x, ∑ y, W x'.1 x.1 * W x'.2 x.2 * (W y'.1 y.1 * W y'.2 y.2) * f x y) • (E x' * E y')) * G := by
    intro f
    have hGEE : ∀ x y, G * (E x * E y) = (∑ x' : Fin L × Fin L, ∑ y' : Fin L × Fin L,
        (W x'.1 x.1 * W x'.2 x.2 * (W y'.1 y.1 * W y'.2 y.2)) • (E x' * E y')) * G := by
      intro x y
      rw [← mul_assoc, hGE, mul_assoc, hGE, ← mul_assoc, Finset.sum_mul_sum]
      congr 1
      refine Finset.sum_congr rfl fun x' _ => Finset.sum_congr rfl fun y' _ => ?_
      rw [smul_mul_assoc, mul_smul_comm, smul_smul]
    rw [Finset.mul_sum]
    simp only [Finset.mul_sum, mul_smul_comm, hGEE]
    simp only [← smul_mul_assoc, ← Finset.sum_mul]
    congr 1
    simp only [Finset.smul_sum, Finset.sum_smul, smul_mul_assoc, Finset.sum_mul, smul_smul]
    have : ∀ g : Fin L × Fin L → Fin L × Fin L → Fin L × Fin L → Fin L × Fin L → Matrix (Occ (Mode L)) (Occ (Mode L)) K,
        ∑ x, ∑ y, ∑ x', ∑ y', g x y x' y' = ∑ x', ∑ y', ∑ x, ∑ y, g x y x' y' := by
      intro g
      calc ∑ x, ∑ y, ∑ x', ∑ y', g x y x' y' = ∑ x, ∑ x', ∑ y, ∑ y', g x y x' y' :=
            Finset.sum_congr rfl fun x _ => Finset.sum_comm
        _ = ∑ x', ∑ x, ∑ y, ∑ y', g x y x' y' := Finset.sum_comm
        _ = ∑ x', ∑ x, ∑ y', ∑ y, g x y x' y' := Finset.sum_congr rfl fun x' _ => Finset.sum_congr rfl fun x _ => Finset.sum_comm
        _ = ∑ x', ∑ y', ∑ x, ∑ y, g x y x' y' := Finset.sum_congr rfl fun x' _ => Finset.sum_comm
    rw [this]
    refine Finset.sum_congr rfl fun x' _ => Finset.sum_congr rfl fun y' _ => Finset.sum_congr rfl fun x _ => Finset.sum_congr rfl fun y _ => ?_
    rw [mul_comm (f x y)]
  rw [h1, h2, h1]
  congr 1
  · congr 1
    · congr 1
      refine Finset.sum_congr rfl fun x' _ => ?_
      congr 1
      unfold rot1
      rw [Fintype.sum_prod_type, Finset.mul_sum]
      refine Finset.sum_congr rfl fun a _ => ?_
      rw [Finset.mul_sum]
      exact Finset.sum_congr rfl fun b _ => by ring
    · congr 1
      refine Finset.sum_congr rfl fun x' _ => Finset.sum_congr rfl fun y' _ => ?_
      congr 1
      unfold rot2
      simp only [Fintype.sum_prod_type]
      refine Finset.sum_congr rfl fun a _ => Finset.sum_congr rfl fun b _ => Finset.sum_congr rfl fun c _ =>
        Finset.sum_congr rfl fun d _ => by ring
  · congr 1
    refine Finset.sum_congr rfl fun z _ => ?_
    congr 1
    unfold rot2
    have hδ : ∀ b c : Fin L, ∑ k, W k b * W k c = if b = c then 1 else 0 := by
      intro b c
      have := congrFun (congrFun hW b) c
      rw [Matrix.mul_apply, Matrix.one_apply] at this
      simpa using this
    have : ∀ g : Fin L → Fin L → Fin L → Fin L → Fin L → K,
        ∑ k, ∑ a, ∑ b, ∑ c, ∑ d, g k a b c d = ∑ a, ∑ b, ∑ c, ∑ d, ∑ k, g k a b c d := by
      intro g
      rw [Finset.sum_comm]
      refine Finset.sum_congr rfl fun a _ => ?_
      rw [Finset.sum_comm]
      refine Finset.sum_congr rfl fun b _ => ?_
      rw [Finset.sum_comm]
      refine Finset.sum_congr rfl fun c _ => ?_
      rw [Finset.sum_comm]
    rw [this, Fintype.sum_prod_type]
    refine Finset.sum_congr rfl fun a _ => ?_
    have h4 : ∀ b c d : Fin L, ∑ k, W z.1 a * W k b * W k c * W z.2 d * e a b c d =
        if b = c then W z.1 a * W z.2 d * e a b c d else 0 := by
      intro b c d
      calc _ = (∑ k, W k b * W k c) * (W z.1 a * W z.2 d * e a b c d) := by
            rw [Finset.sum_mul]
            exact Finset.sum_congr rfl fun k _ => by ring
        _ = _ := by rw [hδ]; split_ifs <;> simp
    simp only [h4]
    have h5 : ∀ b : Fin L, (∑ c, ∑ d, if b = c then W z.1 a * W z.2 d * e a b c d else 0) = ∑ d, W z.1 a * W z.2 d * e a b b d := by
      intro b
      rw [Finset.sum_eq_single b]
      · simp
      · intro c _ hc
        simp [Ne.symm hc]
      · simp
    simp only [h5]
    rw [Finset.sum_comm]
    refine Finset.sum_congr rfl fun d _ => ?_
    rw [Finset.mul_sum]

/-! ## Orbitals, real matrices and configurations -/

theorem spinBlock_spinOrbital (W : Matrix (Fin L) (Fin L) K) (s : Bool) (φ : Fin L → K) :
    spinBlock W *ᵥ spinOrbital s φ = spinOrbital s (W *ᵥ φ) := by
  funext m
  obtain ⟨t, i, rfl⟩ : ∃ t i, m = mode t i := ⟨(ofLex m).1, (ofLex m).2, rfl⟩
  have hs : ∀ (u : Bool) (j : Fin L) (χ : Fin L → K), spinOrbital s χ (mode u j) = if u = s then χ j else 0 := fun _ _ _ => rfl
  rw [hs]
  simp only [mulVec, dotProduct]
  rw [sum_mode]
  simp only [spinBlock_apply, hs]
  rw [Finset.sum_eq_single t]
  · by_cases h : t = s
    · simp [h]
    · simp [h]
  · intro b _ hb
    simp [Ne.symm hb]
  · simp

theorem gamma_upDownState (W : Matrix (Fin L) (Fin L) K) {n_up n_down : ℕ} (a : Fin L → Fin n_up → K) (b : Fin L → Fin n_down → K) :
    gamma (spinBlock W) *ᵥ upDownState a b = upDownState (fun i k => ∑ j, W i j * a j k) (fun i k => ∑ j, W i j * b j k) := by
  unfold upDownState
  rw [gamma_slaterState, List.map_append, List.map_ofFn, List.map_ofFn]
  congr 2
  · congr 1
    funext k
    exact spinBlock_spinOrbital W false _
  · congr 1
    funext k
    exact spinBlock_spinOrbital W true _

theorem spinBlock_map {K' : Type} [CommRing K'] (f : K →+* K') (W : Matrix (Fin L) (Fin L) K) : spinBlock (W.map f) = (spinBlock W).map f := by
  ext m n
  simp [spinBlock, apply_ite f]

end

/-- Configurations and occupations. -/
noncomputable def cfgEquiv (L : ℕ) : Cfg L ≃ Occ (Mode L) := Equiv.ofBijective occOf occOf_bijective

variable {L : ℕ}

/-- The action of a change of the orbitals on the amplitudes. -/
noncomputable def rotM (W : Matrix (Fin L) (Fin L) ℝ) : Matrix (Cfg L) (Cfg L) ℂ :=
  (gamma (spinBlock (W.map (algebraMap ℝ ℂ)))).submatrix (cfgEquiv L) (cfgEquiv L)

variable {W : Matrix (Fin L) (Fin L) ℝ}

theorem map_orthogonal (hW : Wᵀ * W = 1) : (W.map (algebraMap ℝ ℂ))ᵀ * W.map (algebraMap ℝ ℂ) = 1 := by
  rw [← transpose_map, ← Matrix.map_mul, hW, Matrix.map_one _ (map_zero _) (map_one _)]

theorem rotM_orthogonal (hW : Wᵀ * W = 1) : (rotM W)ᵀ * rotM W = 1 := by
  unfold rotM
  rw [transpose_submatrix, submatrix_mul_equiv, gamma_orthogonal (spinBlock_orthogonal (map_orthogonal hW)), submatrix_one_equiv]

theorem rotM_conjTranspose (W : Matrix (Fin L) (Fin L) ℝ) : (rotM W)ᴴ = (rotM W)ᵀ := by
  ext x y
  simp only [Matrix.conjTranspose_apply, Matrix.transpose_apply, rotM, Matrix.submatrix_apply]
  rw [spinBlock_map, gamma_map, Matrix.map_apply]
  exact Complex.conj_ofReal _

theorem applyH_eq (h : Fin L → Fin L → ℝ) (e : Fin L → Fin L → Fin L → Fin L → ℝ) (psi : Cfg L → ℂ) :
    applyH h e psi = ((1 / 2 : ℂ) • (abInitioTwice (fun p q => (h p q : ℂ)) (fun p q r s => (e p q r s : ℂ))).submatrix (cfgEquiv L) (cfgEquiv L)) *ᵥ psi := by
  funext x
  simp only [applyH, mulVec, dotProduct, Matrix.smul_apply, smul_eq_mul, Matrix.submatrix_apply]
  rfl

theorem rotM_applyH (hW : Wᵀ * W = 1) (h : Fin L → Fin L → ℝ) (e : Fin L → Fin L → Fin L → Fin L → ℝ) (psi : Cfg L → ℂ) :
    applyH (rot1 W h) (rot2 W e) (rotM W *ᵥ psi) = rotM W *ᵥ applyH h e psi := by
  rw [applyH_eq, applyH_eq, mulVec_mulVec, mulVec_mulVec, smul_mul_assoc, mul_smul_comm]
  unfold rotM
  rw [submatrix_mul_equiv, submatrix_mul_equiv, gamma_abInitio (map_orthogonal hW)]
  have h1 : (fun p q => ((rot1 W h p q : ℝ) : ℂ)) = rot1 (W.map (algebraMap ℝ ℂ)) (fun p q => (h p q : ℂ)) := by
    funext p q
    simp [rot1]
  have h2 : (fun p q r s => ((rot2 W e p q r s : ℝ) : ℂ)) = rot2 (W.map (algebraMap ℝ ℂ)) (fun p q r s => (e p q r s : ℂ)) := by
    funext p q r s
    simp [rot2]
  rw [h1, h2]

theorem rotM_sector (hW : Wᵀ * W = 1) (s : Bool) (x x' : Cfg L) (hne : numElec s x ≠ numElec s x') : rotM W x x' = 0 := by
  have h := congrFun (congrFun (gamma_numTot (map_orthogonal hW) s) (occOf x)) (occOf x')
  rw [Matrix.mul_apply, Matrix.mul_apply] at h
  have hN : ∀ n, toK ℂ (numTot s) (occOf x) n = if occOf x = n then (numElec s x : ℂ) else 0 := by
    intro n
    simp [toK, numTot_apply, apply_ite (Int.cast : ℤ → ℂ)]
  have hN' : ∀ n, toK ℂ (numTot s) n (occOf x') = if n = occOf x' then (numElec s x' : ℂ) else 0 := by
    intro n
    obtain ⟨y, rfl⟩ := occOf_bijective.2 n
    simp only [toK, Matrix.map_apply, numTot_apply, apply_ite (Int.cast : ℤ → ℂ), Int.cast_natCast, Int.cast_zero]
    by_cases hy : occOf y = occOf x'
    · rw [if_pos hy, if_pos hy, occOf_bijective.1 hy]
    · rw [if_neg hy, if_neg hy]
  simp only [hN, hN', ite_mul, zero_mul, mul_ite, mul_zero, Finset.sum_ite_eq, Finset.sum_ite_eq', Finset.mem_univ, if_true] at h
  have h2 : ((numElec s x : ℂ) - numElec s x') * gamma (spinBlock (W.map (algebraMap ℝ ℂ))) (occOf x) (occOf x') = 0 := by
    rw [sub_mul, ← h]; ring
  rcases mul_eq_zero.mp h2 with h3 | h3
  · exact absurd (by exact_mod_cast sub_eq_zero.mp h3) hne
  · exact h3

theorem rotM_inSector (hW : Wᵀ * W = 1) {n : ℕ × ℕ} {psi : Cfg L → ℂ} (hpsi : InSector n psi) : InSector n (rotM W *ᵥ psi) := by
  intro x hx
  simp only [mulVec, dotProduct]
  refine Finset.sum_eq_zero fun x' _ => ?_
  by_cases hx' : (numElec false x', numElec true x') = n
  · have : numElec false x ≠ numElec false x' ∨ numElec true x ≠ numElec true x' := by
      by_contra hcon
      push Not at hcon
      exact hx (by rw [hcon.1, hcon.2, hx'])
    rcases this with h | h
    · rw [rotM_sector hW false x x' h, zero_mul]
    · rw [rotM_sector hW true x x' h, zero_mul]
  · rw [hpsi x' hx', mul_zero]

theorem rotM_inSector' (hW : Wᵀ * W = 1) {n : ℕ × ℕ} {psi : Cfg L → ℂ} (hpsi : InSector n psi) : InSector n ((rotM W)ᵀ *ᵥ psi) := by
  intro x hx
  simp only [mulVec, dotProduct, Matrix.transpose_apply]
  refine Finset.sum_eq_zero fun x' _ => ?_
  by_cases hx' : (numElec false x', numElec true x') = n
  · have : numElec false x' ≠ numElec false x ∨ numElec true x' ≠ numElec true x := by
      by_contra hcon
      push Not at hcon
      exact hx (by rw [← hcon.1, ← hcon.2, hx'])
    rcases this with h | h
    · rw [rotM_sector hW false x' x h, zero_mul]
    · rw [rotM_sector hW true x' x h, zero_mul]
  · rw [hpsi x' hx', mul_zero]

/-- A change of the orbitals gives another description of the same system. -/
theorem sameSystem_rotation (hW : Wᵀ * W = 1) (h : Fin L → Fin L → ℝ) (e : Fin L → Fin L → Fin L → Fin L → ℝ) {n_up n_down : ℕ}
    (a : Fin L → Fin n_up → ℂ) (b : Fin L → Fin n_down → ℂ) :
    SameSystem h e (fun x => upDownState a b (occOf x)) (rot1 W h) (rot2 W e)
      (fun x => upDownState (fun i k => ∑ j, (W i j : ℂ) * a j k) (fun i k => ∑ j, (W i j : ℂ) * b j k) (occOf x)) := by
  have hM := rotM_orthogonal hW
  have hM' : rotM W * (rotM W)ᵀ = 1 := mul_eq_one_comm.mp hM
  let R : (Cfg L → ℂ) ≃ₗ[ℂ] (Cfg L → ℂ) := LinearEquiv.ofLinearMap (Matrix.mulVecLin (rotM W)) (Matrix.mulVecLin (rotM W)ᵀ)
    (by rw [← Matrix.mulVecLin_mul, hM', Matrix.mulVecLin_one]) (by rw [← Matrix.mulVecLin_mul, hM, Matrix.mulVecLin_one])
  have hR : ∀ psi, R psi = rotM W *ᵥ psi := fun _ => rfl
  refine ⟨R, ?_, ?_, ?_, ?_⟩
  · intro φ psi
    show star (R φ) ⬝ᵥ R psi = star φ ⬝ᵥ psi
    rw [hR, hR, Matrix.star_mulVec, rotM_conjTranspose, ← Matrix.dotProduct_mulVec, mulVec_mulVec, hM, one_mulVec]
  · intro psi
    rw [hR, hR]
    exact rotM_applyH hW h e psi
  · intro n psi
    refine ⟨fun hs => ?_, fun hs => rotM_inSector hW hs⟩
    have := rotM_inSector' hW hs
    rw [hR, mulVec_mulVec, hM, one_mulVec] at this
    exact this
  · rw [hR]
    funext x
    have := congrFun (gamma_upDownState (W.map (algebraMap ℝ ℂ)) a b) (occOf x)
    simp only [mulVec, dotProduct] at this
    rw [sum_occ] at this
    exact this

end Rotation

end GPSKet.Spec
