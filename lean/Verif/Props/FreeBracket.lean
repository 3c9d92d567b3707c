import Verif.Props.Interaction

/-! # Lowest energies of the Hubbard model lie near those without interaction (C202) -/

namespace GPSKet.Interaction

open GPSKet GPSKet.Spec ParticleHole FreeElectrons

variable {L nu nd : ℕ}

theorem free_sum (edges : List ((Fin L × Fin L) × ℝ)) (psi : Cfg L → ℂ) :
    hubbardSum 0 edges psi = (∑ x, star (psi x) * applyH (realHop edges) (fun _ _ _ _ => 0) psi x).re := by
  have hh : hopMatrix (castEdges edges) = Matrix.of fun p q => ((realHop edges p q : ℝ) : ℂ) := by
    ext p q
    rw [hopMatrix_cast, Matrix.of_apply]
  unfold hubbardSum
  congr 1
  refine Finset.sum_congr rfl fun x _ => ?_
  congr 1
  have hs : ∀ y : Cfg L, (Equiv.ofBijective occOf occOf_bijective).symm (occOf y) = y := fun y =>
    (Equiv.ofBijective (occOf (L := L)) occOf_bijective).symm_apply_apply y
  have h := hubbard_row ((0 : ℝ) : ℂ) (castEdges edges) (fun n => psi ((Equiv.ofBijective occOf occOf_bijective).symm n)) x
  simp only [hs] at h
  refine h.trans ?_
  rw [hh, Complex.ofReal_zero, zero_mul, zero_mul, add_zero]
  unfold applyH
  simp only [Matrix.mulVec, dotProduct]
  rw [← sum_cfg fun n => oneBody (Matrix.of fun p q => ((realHop edges p q : ℝ) : ℂ)) (occOf x) n * psi ((Equiv.ofBijective occOf occOf_bijective).symm n)]
  simp only [hs]
  exact Finset.sum_congr rfl fun y _ => congrArg (· * psi y) (half_twice (realHop edges) x y).symm

theorem occEnergy_filled (hu : nu ≤ L) (hd : nd ≤ L) (ε : Fin L → ℝ) : occEnergy ε (filled L nu nd) = lowest ε nu + lowest ε nd := by
  unfold occEnergy lowest
  rw [Fintype.sum_bool, add_comm]
  congr 1 <;> refine Finset.sum_congr rfl fun j _ => ?_ <;> unfold filled <;> split_ifs <;> simp_all [hasSpin]

theorem sqNorm_of {φ psi : Cfg L → ℂ} (h : ∑ x, star (φ x) * φ x = ∑ x, star (psi x) * psi x) : sqNorm φ = sqNorm psi := by
  have hs : ∀ z : ℂ, star z * z = ((‖z‖ ^ 2 : ℝ) : ℂ) := by
    intro z
    rw [Complex.star_def, ← Complex.normSq_eq_conj_mul_self, Complex.normSq_eq_norm_sq]
  simp only [hs] at h
  unfold sqNorm
  exact_mod_cast h

/-- **C202**, without interaction the lowest energy is the sum of the lowest orbital energies. -/
theorem C202_free (hu : nu ≤ L) (hd : nd ≤ L) (edges : List ((Fin L × Fin L) × ℝ)) (C : Matrix (Fin L) (Fin L) ℝ) (ε : Fin L → ℝ)
    (hC : C.transpose * C = 1) (hε : realHop edges * C = C * Matrix.diagonal ε) (hm : Monotone ε) :
    ∃ psi, IsGround 0 edges (nu, nd) (lowest ε nu + lowest ε nd) psi := by
  have hW : (C.transpose).transpose * C.transpose = 1 := by rw [Matrix.transpose_transpose]; exact mul_eq_one_comm.mp hC
  obtain ⟨R, hin, hH, hsec, _⟩ := Rotation.sameSystem_rotation hW (realHop edges) (fun _ _ _ _ => 0) (n_up := 0) (n_down := 0)
    (fun _ k => k.elim0) fun _ k => k.elim0
  rw [rot2_zero, rot1_diag hC hε] at hH
  set δ : Cfg L → ℂ := fun x => if x = filled L nu nd then 1 else 0 with hδ
  have hRs : R (R.symm δ) = δ := R.apply_symm_apply δ
  have hδn : sqNorm δ = 1 := by
    unfold sqNorm
    rw [Finset.sum_eq_single (filled L nu nd)]
    · simp [hδ]
    · intro y _ hy
      simp [hδ, hy]
    · simp
  have hn : sqNorm (R.symm δ) = 1 := by
    have := sqNorm_of (hin (R.symm δ) (R.symm δ))
    rw [hRs] at this
    rw [← this, hδn]
  have e2 : applyH (fun p q => if p = q then ε p else 0) (fun _ _ _ _ => 0) δ = fun x => ((lowest ε nu + lowest ε nd : ℝ) : ℂ) * δ x := by
    funext x
    unfold applyH
    simp only [half_twice, oneBody_diag]
    rw [Finset.sum_eq_single x]
    · rw [if_pos rfl]
      by_cases hx : x = filled L nu nd
      · rw [hx, occEnergy_filled hu hd]
      · simp [hδ, hx]
    · intro y _ hy
      rw [if_neg hy.symm, zero_mul]
    · simp
  refine ⟨R.symm δ, (hsec _ _).mp ?_, ?_, ?_, fun phi hphi => ?_⟩
  · rw [hRs]
    intro x hx
    refine if_neg fun h => hx ?_
    rw [h, (filled_electrons hu hd).1, (filled_electrons hu hd).2]
  · intro h
    rw [h] at hn
    simp [sqNorm] at hn
  · rw [free_sum, ← hin, ← hH, hRs, e2, hn, mul_one, Complex.re_sum]
    simp only [star_self]
    rw [← Finset.mul_sum]
    show _ * sqNorm δ = _
    rw [hδn, mul_one]
  · exact C201_lowest 0 le_rfl edges C ε hC hε hm phi hphi

/-- **C202**, bracket: a repulsion raises the lowest energy above that of the lowest orbitals by at least `U` times the number of electrons
without a site of their own and by at most `U` times the smaller number of electrons; an attraction lowers it correspondingly. -/
theorem C202_bracket (hu : nu ≤ L) (hd : nd ≤ L) (edges : List ((Fin L × Fin L) × ℝ)) (C : Matrix (Fin L) (Fin L) ℝ) (ε : Fin L → ℝ)
    (hC : C.transpose * C = 1) (hε : realHop edges * C = C * Matrix.diagonal ε) (hm : Monotone ε) {U E : ℝ} {psi : Cfg L → ℂ}
    (h : IsGround U edges (nu, nd) E psi) :
    (0 ≤ U → U * max 0 ((nu + nd : ℝ) - L) ≤ E - (lowest ε nu + lowest ε nd) ∧ E - (lowest ε nu + lowest ε nd) ≤ U * min nu nd) ∧
      (U ≤ 0 → U * min nu nd ≤ E - (lowest ε nu + lowest ε nd) ∧ E - (lowest ε nu + lowest ε nd) ≤ U * max 0 ((nu + nd : ℝ) - L)) := by
  obtain ⟨phi, h0⟩ := C202_free hu hd edges C ε hC hε hm
  refine ⟨fun hU => ?_, fun hU => ?_⟩
  · obtain ⟨h1, h2⟩ := C202_growth h0 h hU
    rw [sub_zero] at h1 h2
    exact ⟨by linarith, by linarith⟩
  · obtain ⟨h1, h2⟩ := C202_growth h h0 hU
    rw [zero_sub] at h1 h2
    exact ⟨by linarith, by linarith⟩

/-- one up and one down electron on two sites: the lowest energy at `U = 1` lies between `-2` and `-1` -/
example : ∃ E psi, IsGround (L := 2) 1 [((0, 1), 1)] (1, 1) E psi ∧ -2 ≤ E ∧ E ≤ -1 := by
  obtain ⟨E0, h⟩ := C202_exists (L := 2) (nu := 1) (nd := 1) (by norm_num) (by norm_num) [((0, 1), 1)]
  obtain ⟨psi, h1⟩ := h 1
  have hs : (1 / Real.sqrt 2) * (1 / Real.sqrt 2) = 1 / 2 := by
    rw [div_mul_div_comm, one_mul, Real.mul_self_sqrt (by norm_num)]
  obtain ⟨⟨b1, b2⟩, -⟩ : (_ ∧ _) ∧ True := ⟨(C202_bracket (by norm_num) (by norm_num) [((0, 1), 1)]
    !![1 / Real.sqrt 2, 1 / Real.sqrt 2; 1 / Real.sqrt 2, -(1 / Real.sqrt 2)] ![-1, 1] (by
      ext i j
      fin_cases i <;> fin_cases j <;> simp only [Matrix.mul_apply, Fin.sum_univ_two] <;> simp [-one_div] <;> linarith) (by
      ext i j
      fin_cases i <;> fin_cases j <;> simp [realHop, edgeBetween, Matrix.mul_apply, Fin.sum_univ_two, Matrix.diagonal_apply]) (by
      intro i j hij
      fin_cases i <;> fin_cases j <;> simp at hij ⊢ <;> linarith) h1).1 zero_le_one, trivial⟩
  have hl : lowest (![-1, 1] : Fin 2 → ℝ) 1 = -1 := by simp [lowest, Fin.sum_univ_two]
  rw [hl] at b1 b2
  norm_num at b1 b2
  exact ⟨_, psi, h1, by linarith, by linarith⟩

end GPSKet.Interaction
