import Verif.Props.ParticleHole

/-! # Molecules: signs of the orbitals and names of the spins (C198) -/

namespace GPSKet.OrbitalSigns

open GPSKet GPSKet.Spec Matrix ParticleHole LatticeSymmetry

variable {L : ℕ} {Cache Cache' : Type}

/-! ## Signs of orbitals -/

theorem V_exc (φ : Fin L → ℤ) (hφ : ∀ i, φ i * φ i = 1) (p q : Fin L) :
    Spec.ParticleHole.V (onModes (L := L) fun _ => false) (sgnModes fun _ => φ) * exc p q =
      (φ p * φ q) • (exc p q * Spec.ParticleHole.V (onModes fun _ => false) (sgnModes fun _ => φ)) := by
  have hσ : ∀ m : Mode L, sgnModes (fun _ => φ) m * sgnModes (fun _ => φ) m = 1 := fun m => hφ _
  unfold exc
  rw [Finset.mul_sum, Finset.sum_mul, Finset.smul_sum]
  refine Finset.sum_congr rfl fun s _ => ?_
  have hf : ∀ i, Spec.ParticleHole.fac (onModes (L := L) fun _ => false) (sgnModes fun _ => φ) (mode s i) = φ i := by
    intro i
    unfold Spec.ParticleHole.fac Spec.ParticleHole.count
    rw [Finset.prod_eq_one (fun q _ => by simp [onModes]), mul_one]
    rfl
  rw [← mul_assoc, Spec.ParticleHole.V_cre hσ, Matrix.smul_mul, mul_assoc, Spec.ParticleHole.V_ann hσ, Matrix.mul_smul, smul_smul, ← mul_assoc, hf, hf]
  rfl

/-- integrals with the signs of the orbitals changed -/
def signed1 (φ : Fin L → ℤ) (h : Fin L → Fin L → ℂ) : Fin L → Fin L → ℂ := fun p q => φ p * φ q * h p q

/-- two-electron integrals with the signs of the orbitals changed -/
def signed2 (φ : Fin L → ℤ) (e : Fin L → Fin L → Fin L → Fin L → ℂ) : Fin L → Fin L → Fin L → Fin L → ℂ :=
  fun p q r s => φ p * φ q * (φ r * φ s) * e p q r s

theorem toK_zsmul (c : ℤ) (A : Matrix (Occ (Mode L)) (Occ (Mode L)) ℤ) : toK ℂ (c • A) = (c : ℂ) • toK ℂ A := by
  ext i j
  rw [toK_apply, Matrix.smul_apply, Matrix.smul_apply, toK_apply, smul_eq_mul, smul_eq_mul, Int.cast_mul]

theorem signs_commute (φ : Fin L → ℤ) (hφ : ∀ i, φ i * φ i = 1) (h : Fin L → Fin L → ℂ) (e : Fin L → Fin L → Fin L → Fin L → ℂ) :
    toK ℂ (Spec.ParticleHole.V (onModes (L := L) fun _ => false) (sgnModes fun _ => φ)) * abInitioTwice h e =
      abInitioTwice (signed1 φ h) (signed2 φ e) * toK ℂ (Spec.ParticleHole.V (onModes fun _ => false) (sgnModes fun _ => φ)) := by
  set V := Spec.ParticleHole.V (onModes (L := L) fun _ => false) (sgnModes fun _ => φ) with hV
  have hx : ∀ p q, V * exc p q = (φ p * φ q) • (exc p q * V) := V_exc φ hφ
  unfold abInitioTwice
  rw [mul_add, add_mul]
  congr 1
  · rw [Finset.mul_sum, Finset.sum_mul]
    refine Finset.sum_congr rfl fun p _ => ?_
    rw [Finset.mul_sum, Finset.sum_mul]
    refine Finset.sum_congr rfl fun q _ => ?_
    rw [Matrix.mul_smul, Matrix.smul_mul, ← toK_mul, ← toK_mul, hx, toK_zsmul, smul_smul]
    congr 1
    unfold signed1
    push_cast
    ring
  · rw [Finset.mul_sum, Finset.sum_mul]
    refine Finset.sum_congr rfl fun p _ => ?_
    rw [Finset.mul_sum, Finset.sum_mul]
    refine Finset.sum_congr rfl fun q _ => ?_
    rw [Finset.mul_sum, Finset.sum_mul]
    refine Finset.sum_congr rfl fun r _ => ?_
    rw [Finset.mul_sum, Finset.sum_mul]
    refine Finset.sum_congr rfl fun s _ => ?_
    have hk : V * (exc p q * exc r s - if q = r then exc p s else 0) =
        (φ p * φ q * (φ r * φ s)) • ((exc p q * exc r s - if q = r then exc p s else 0) * V) := by
      have h2 : V * (exc p q * exc r s) = (φ p * φ q * (φ r * φ s)) • (exc p q * exc r s * V) := by
        rw [← Matrix.mul_assoc, hx, Matrix.smul_mul, Matrix.mul_assoc (exc p q), hx, Matrix.mul_smul, smul_smul, ← Matrix.mul_assoc]
      rw [mul_sub, sub_mul, smul_sub, h2]
      congr 1
      by_cases hqr : q = r
      · subst hqr
        simp only [if_true]
        rw [hx]
        congr 1
        linear_combination (-(φ p * φ s)) * hφ q
      · rw [if_neg hqr, mul_zero, zero_mul, smul_zero]
    rw [Matrix.mul_smul, Matrix.smul_mul, ← toK_mul, ← toK_mul, hk, toK_zsmul, smul_smul]
    congr 1
    unfold signed2
    push_cast
    ring

theorem abInitio_signs (φ : Fin L → ℤ) (hφ : ∀ i, φ i * φ i = 1) (h : Fin L → Fin L → ℂ) (e : Fin L → Fin L → Fin L → Fin L → ℂ) (x y : Cfg L) :
    abInitioTwice (signed1 φ h) (signed2 φ e) (occOf x) (occOf y) * (electronSigns (fun _ => φ) y : ℂ) =
      (electronSigns (fun _ => φ) x : ℂ) * abInitioTwice h e (occOf x) (occOf y) := by
  have hc := congrFun (congrFun (signs_commute φ hφ h e) (occOf x)) (occOf y)
  rw [Matrix.mul_apply, Matrix.mul_apply, Finset.sum_eq_single (occOf x), Finset.sum_eq_single (occOf y)] at hc
  · have hf : ∀ z : Cfg L, occOf z = Spec.ParticleHole.flip (onModes fun _ => false) (occOf z) := by
      intro z
      rw [← occOf_holes, holes_none]
    rw [toK_apply, toK_apply, Spec.ParticleHole.V_apply, Spec.ParticleHole.V_apply, if_pos (hf x), if_pos (hf y), sgn_occOf, sgn_occOf] at hc
    exact hc.symm
  · intro n _ hn
    rw [toK_apply, Spec.ParticleHole.V_apply, if_neg, Int.cast_zero, mul_zero]
    intro h'
    rw [← occOf_holes, holes_none] at h'
    exact hn h'
  · simp
  · intro n _ hn
    rw [toK_apply, Spec.ParticleHole.V_apply, if_neg, Int.cast_zero, zero_mul]
    intro h'
    rw [h'] at hn
    refine hn ?_
    funext m
    simp [Spec.ParticleHole.flip, onModes]
  · simp

theorem abInitio_conserves (h : Fin L → Fin L → ℂ) (e : Fin L → Fin L → Fin L → Fin L → ℂ) (hsym : ∀ p q r s, e p q r s = e r s p q) (x y : Cfg L)
    (hy : (1 / 2) * abInitioTwice h e (occOf x) (occOf y) ≠ 0 ∨ y = x) (s : Bool) : numElec s y = numElec s x := by
  rcases hy with hy | rfl
  · rw [← C13_rows two_ne_zero h e hsym] at hy
    by_contra hc
    refine hy (List.sum_eq_zero fun v hv => ?_)
    simp only [List.mem_map, List.mem_filter, decide_eq_true_eq] at hv
    obtain ⟨r, ⟨hr, rfl⟩, _⟩ := hv
    exact absurd (C13_conserves _ e x r hr s) hc
  · rfl

/-- **C198**, signs of orbitals: the signs of molecular orbitals are arbitrary.  With integrals over orbitals of which some have changed
their sign, and a state whose amplitudes have changed by the signs of the occupied orbitals, all local energies (dense and sparse) are as
before. -/
theorem C198_orbital_signs (φ : Fin L → ℤ) (hφ : ∀ i, φ i * φ i = 1) (h : Fin L → Fin L → ℂ) (e : Fin L → Fin L → Fin L → Fin L → ℂ)
    (hsym : ∀ p q r s, e p q r s = e r s p q) (src : AmpSource L (Fin 4) Cache) (src' : AmpSource L (Fin 4) Cache') (χ : ℂ) (x : Cfg L)
    (hpsi : ∀ y, (∀ s, numElec s y = numElec s x) →
      Complex.exp (src'.logAmp y) = χ * electronSigns (fun _ => φ) y * Complex.exp (src.logAmp y))
    (hs : src.OkPaddedAt x) (hs' : src'.OkPaddedAt x) :
    abLocalEn src' (numElec false x, numElec true x) (abT (signed1 φ h) (signed2 φ e)) (signed2 φ e) x =
      abLocalEn src (numElec false x, numElec true x) (abT h e) e x ∧
    sparseLocalEn src' (numElec false x, numElec true x) (sparse1 (signed1 φ h)) (sparse2 (signed2 φ e)) x =
      sparseLocalEn src (numElec false x, numElec true x) (sparse1 h) (sparse2 e) x := by
  have hsym' : ∀ p q r s, signed2 φ e p q r s = signed2 φ e r s p q := by
    intro p q r s
    unfold signed2
    rw [hsym p q r s]
    ring
  rw [C14_local_energy_operator src' _ _ hsym' x hs', C16_local_energy_operator src' _ _ hsym' x hs', C14_local_energy_operator src h e hsym x hs,
    C16_local_energy_operator src h e hsym x hs, and_self]
  have hm := localEnergy_map (Equiv.refl (Cfg L)) (fun x y => (1 / 2) * abInitioTwice h e (occOf x) (occOf y))
    (fun x y => (1 / 2) * abInitioTwice (signed1 φ h) (signed2 φ e) (occOf x) (occOf y)) src.logAmp src'.logAmp χ 0
    (fun y => (electronSigns (fun _ => φ) y : ℂ)) x (electronSigns_sq _ fun _ => hφ) (fun y => ?_)
    (fun y hy => hpsi y (abInitio_conserves h e hsym x y hy))
  · rw [add_zero] at hm
    exact hm
  · rw [ite_self, add_zero]
    have := abInitio_signs φ hφ h e x y
    simp only [Equiv.refl_apply]
    linear_combination (1 / 2) * this

/-! ## Up and down -/

theorem swap_exc (p q : Fin L) : ModePerm.W swapModes * exc p q = exc p q * ModePerm.W swapModes := by
  unfold exc
  rw [Finset.mul_sum, Finset.sum_mul, Fintype.sum_bool, Fintype.sum_bool]
  simp only [ModePerm.W_bil, swapModes_mode, Bool.not_true, Bool.not_false]
  rw [add_comm]

theorem swap_commute (h : Fin L → Fin L → ℂ) (e : Fin L → Fin L → Fin L → Fin L → ℂ) :
    toK ℂ (ModePerm.W swapModes) * abInitioTwice h e = abInitioTwice h e * toK ℂ (ModePerm.W swapModes) := by
  unfold abInitioTwice
  rw [mul_add, add_mul]
  congr 1
  · simp only [Finset.mul_sum, Finset.sum_mul, Matrix.mul_smul, Matrix.smul_mul, ← toK_mul, swap_exc]
  · simp only [Finset.mul_sum, Finset.sum_mul, Matrix.mul_smul, Matrix.smul_mul, ← toK_mul]
    refine Finset.sum_congr rfl fun p _ => Finset.sum_congr rfl fun q _ => Finset.sum_congr rfl fun r _ => Finset.sum_congr rfl fun s _ => ?_
    congr 2
    rw [mul_sub, sub_mul, ← mul_assoc, swap_exc, mul_assoc, swap_exc, ← mul_assoc]
    congr 1
    split_ifs
    · exact swap_exc p s
    · rw [mul_zero, zero_mul]

theorem abInitio_swap (h : Fin L → Fin L → ℂ) (e : Fin L → Fin L → Fin L → Fin L → ℂ) (x y : Cfg L) :
    abInitioTwice h e (occOf (swapSpins x)) (occOf (swapSpins y)) * (-1) ^ (numElec false y * numElec true y) =
      (-1) ^ (numElec false x * numElec true x) * abInitioTwice h e (occOf x) (occOf y) := by
  have hc := congrFun (congrFun (swap_commute h e) (occOf (swapSpins x))) (occOf y)
  rw [Matrix.mul_apply, Matrix.mul_apply, Finset.sum_eq_single (occOf x), Finset.sum_eq_single (occOf (swapSpins y))] at hc
  · rw [toK_apply, toK_apply, ModePerm.W_apply, ModePerm.W_apply, if_pos (occOf_swap x), if_pos (occOf_swap y), inv_swap, inv_swap] at hc
    push_cast at hc
    exact hc.symm
  · intro n _ hn
    rw [toK_apply, ModePerm.W_apply, if_neg (fun h' => hn (h'.trans (occOf_swap y).symm)), Int.cast_zero, mul_zero]
  · simp
  · intro n _ hn
    rw [toK_apply, ModePerm.W_apply, if_neg, Int.cast_zero, zero_mul]
    intro h'
    rw [occOf_swap] at h'
    refine hn ?_
    funext p
    have := congrFun h' (swapModes p)
    simpa [ModePerm.move] using this.symm
  · simp

theorem numElec_swap (s : Bool) (x : Cfg L) : numElec s (swapSpins x) = numElec (!s) x := by
  unfold numElec
  simp only [hasSpin_swap]

/-- **C198**, names of the spins: exchanging up and down in the state and in the configuration leaves the local energies (dense and sparse)
of a molecule as they are. -/
theorem C198_spin_exchange (h : Fin L → Fin L → ℂ) (e : Fin L → Fin L → Fin L → Fin L → ℂ) (hsym : ∀ p q r s, e p q r s = e r s p q)
    (src : AmpSource L (Fin 4) Cache) (src' : AmpSource L (Fin 4) Cache') (χ : ℂ) (x : Cfg L)
    (hpsi : ∀ y, (∀ s, numElec s y = numElec s x) → Complex.exp (src'.logAmp (swapSpins y)) = χ * Complex.exp (src.logAmp y))
    (hs : src.OkPaddedAt x) (hs' : src'.OkPaddedAt (swapSpins x)) :
    abLocalEn src' (numElec true x, numElec false x) (abT h e) e (swapSpins x) =
      abLocalEn src (numElec false x, numElec true x) (abT h e) e x ∧
    sparseLocalEn src' (numElec true x, numElec false x) (sparse1 h) (sparse2 e) (swapSpins x) =
      sparseLocalEn src (numElec false x, numElec true x) (sparse1 h) (sparse2 e) x := by
  have h1 := C14_local_energy_operator src' h e hsym (swapSpins x) hs'
  have h2 := C16_local_energy_operator src' h e hsym (swapSpins x) hs'
  rw [numElec_swap, numElec_swap] at h1 h2
  simp only [Bool.not_true, Bool.not_false] at h1 h2
  rw [h1, h2, C14_local_energy_operator src h e hsym x hs, C16_local_energy_operator src h e hsym x hs, and_self]
  have hm := localEnergy_map swapEquiv (fun x y => (1 / 2) * abInitioTwice h e (occOf x) (occOf y))
    (fun x y => (1 / 2) * abInitioTwice h e (occOf x) (occOf y)) src.logAmp src'.logAmp (χ * (-1) ^ (numElec false x * numElec true x)) 0
    (fun y => (-1) ^ (numElec false y * numElec true y)) x
    (fun y => by rw [← pow_add, ← two_mul, pow_mul]; norm_num) (fun y => ?_) fun y hy => ?_
  · rw [add_zero] at hm
    exact hm
  · rw [ite_self, add_zero]
    show (1 / 2) * abInitioTwice h e (occOf (swapSpins x)) (occOf (swapSpins y)) * _ = _
    linear_combination (1 / 2) * abInitio_swap h e x y
  · have hy' := abInitio_conserves h e hsym x y hy
    show Complex.exp (src'.logAmp (swapSpins y)) = _
    rw [hpsi y hy', hy' false, hy' true]
    have h1 : ((-1 : ℂ) ^ (numElec false x * numElec true x)) * (-1) ^ (numElec false x * numElec true x) = 1 := by
      rw [← pow_add, ← two_mul, pow_mul]; norm_num
    linear_combination (-(χ * Complex.exp (src.logAmp y))) * h1

/-- for two orbitals of which the second changes its sign, every state has a partner, and the relation changes amplitudes -/
example (h : Fin 2 → Fin 2 → ℂ) (e : Fin 2 → Fin 2 → Fin 2 → Fin 2 → ℂ) (hsym : ∀ p q r s, e p q r s = e r s p q) (logpsi : Cfg 2 → ℂ) :
    electronSigns (fun _ => ![1, -1]) (![1, 2] : Cfg 2) = -1 ∧ ∃ logpsi' : Cfg 2 → ℂ,
    abLocalEn (.full logpsi' : AmpSource 2 (Fin 4) Unit) (1, 1) (abT (signed1 ![1, -1] h) (signed2 ![1, -1] e)) (signed2 ![1, -1] e) ![1, 2] =
      abLocalEn (.full logpsi : AmpSource 2 (Fin 4) Unit) (1, 1) (abT h e) e ![1, 2] := by
  refine ⟨by decide, ?_⟩
  obtain ⟨f, hf⟩ := C196_partner (fun _ => false) (fun _ => (![1, -1] : Fin 2 → ℤ)) (fun _ i => by fin_cases i <;> rfl) logpsi
  refine ⟨f, ?_⟩
  have := (C198_orbital_signs ![1, -1] (fun i => by fin_cases i <;> rfl) h e hsym (.full logpsi : AmpSource 2 (Fin 4) Unit)
    (.full f : AmpSource 2 (Fin 4) Unit) 1 ![1, 2] (fun y _ => by have := hf y; rwa [holes_none] at this) trivial trivial).1
  have n1 : numElec false (![1, 2] : Cfg 2) = 1 := by decide
  have n2 : numElec true (![1, 2] : Cfg 2) = 1 := by decide
  rw [n1, n2] at this
  exact this

end GPSKet.OrbitalSigns
