import Verif.Model.OrbitalBasis
import Verif.Model.Pruning
import Verif.Spec.HartreeFock
import Verif.Lemmas.BasisChange
import Mathlib.Tactic.NormNum
import Mathlib.Tactic.FinCases

/-!
# C134: the choice of the orbital basis does not change the molecule

Specification used: `Verif/Spec/SameSystem.lean` (`SameSystem`, `energies`), `Verif/Spec/HartreeFock.lean` (`hartreeFock`).
-/

namespace GPSKet.OrbitalBasis
open Matrix GPSKet.Spec GPSKet.Spec.Rotation

variable {L : ℕ}

/-- The matrix that relates two bases. -/
def change (m : Integrals L) (basis basis' : Matrix (Fin L) (Fin L) ℝ) : Matrix (Fin L) (Fin L) ℝ := basis'ᵀ * m.ovlp * basis

variable {m : Integrals L} {basis basis' : Matrix (Fin L) (Fin L) ℝ}

theorem inv_right (h : Orthonormal m basis) : basis * (basisᵀ * m.ovlp) = 1 := mul_eq_one_comm.mp h

theorem change_orthogonal (h : Orthonormal m basis) (h' : Orthonormal m basis') : (change m basis basis')ᵀ * change m basis basis' = 1 := by
  unfold change
  have e : (basis'ᵀ * m.ovlp * basis)ᵀ * (basis'ᵀ * m.ovlp * basis) = (basis' * (basis'ᵀ * m.ovlp) * basis)ᵀ * m.ovlpᵀᵀ * basis := by
    rw [inv_right h', Matrix.one_mul, transpose_mul, transpose_mul, transpose_transpose, transpose_transpose]
    calc basisᵀ * (m.ovlpᵀ * basis') * (basis'ᵀ * m.ovlp * basis) = basisᵀ * m.ovlpᵀ * (basis' * (basis'ᵀ * m.ovlp)) * basis := by
          simp only [Matrix.mul_assoc]
      _ = basisᵀ * m.ovlpᵀ * basis := by rw [inv_right h', Matrix.mul_one]
      _ = (basisᵀ * m.ovlp * basis)ᵀ := by simp only [transpose_mul, transpose_transpose, Matrix.mul_assoc]
      _ = basisᵀ * m.ovlp * basis := by rw [h, transpose_one]
  rw [e, inv_right h', Matrix.one_mul, transpose_transpose]
  exact h

theorem change_mul (h : Orthonormal m basis) : change m basis basis' * basisᵀ = basis'ᵀ := by
  have h1 : m.ovlp * (basis * basisᵀ) = 1 := by
    refine mul_eq_one_comm.mp ?_
    rw [Matrix.mul_assoc]; exact inv_right h
  unfold change
  rw [Matrix.mul_assoc, Matrix.mul_assoc, h1, Matrix.mul_one]

theorem basis_apply (h : Orthonormal m basis) (a p : Fin L) : basis' a p = ∑ i, change m basis basis' p i * basis a i := by
  have := congrFun (congrFun (change_mul (basis' := basis') h) p) a
  rw [Matrix.mul_apply, transpose_apply] at this
  rw [← this]
  rfl

theorem h1_change (h : Orthonormal m basis) : h1 m basis' = rot1 (change m basis basis') (h1 m basis) := by
  funext p q
  unfold h1
  set W := change m basis basis' with hW
  have e : basis'ᵀ * m.hcore * basis' = W * (basisᵀ * m.hcore * basis) * Wᵀ := by
    have h2 : basis' = basis * Wᵀ := by
      have := congrArg Matrix.transpose (change_mul (basis' := basis') h)
      rw [transpose_mul, transpose_transpose, transpose_transpose] at this
      exact this.symm
    have h3 : basis'ᵀ = W * basisᵀ := (change_mul h).symm
    rw [h3, h2]
    simp only [Matrix.mul_assoc]
  rw [e]
  generalize basisᵀ * m.hcore * basis = X
  unfold rot1
  rw [Matrix.mul_apply]
  simp only [Matrix.mul_apply, Finset.sum_mul]
  rw [Finset.sum_comm]
  refine Finset.sum_congr rfl fun a _ => Finset.sum_congr rfl fun b _ => ?_
  rw [transpose_apply]
  ring

theorem prod4 {α : Type} [Fintype α] (f g k l : α → ℝ) :
    (∑ i, f i) * (∑ j, g j) * (∑ c, k c) * (∑ d, l d) = ∑ t : α × α × α × α, f t.1 * g t.2.1 * k t.2.2.1 * l t.2.2.2 := by
  simp only [Fintype.sum_prod_type]
  rw [mul_assoc, mul_assoc, Finset.sum_mul]
  refine Finset.sum_congr rfl fun i _ => ?_
  rw [Finset.sum_mul, Finset.mul_sum]
  refine Finset.sum_congr rfl fun j _ => ?_
  rw [Finset.sum_mul, Finset.mul_sum, Finset.mul_sum]
  refine Finset.sum_congr rfl fun c _ => ?_
  rw [Finset.mul_sum, Finset.mul_sum, Finset.mul_sum]
  refine Finset.sum_congr rfl fun d _ => ?_
  ring

theorem h2_change (h : Orthonormal m basis) : h2 m basis' = rot2 (change m basis basis') (h2 m basis) := by
  funext p q r s
  unfold h2 rot2
  set W := change m basis basis' with hW
  have e1 : ∀ f : Fin L → Fin L → Fin L → Fin L → ℝ, ∑ a, ∑ b, ∑ c, ∑ d, f a b c d =
      ∑ t : Fin L × Fin L × Fin L × Fin L, f t.1 t.2.1 t.2.2.1 t.2.2.2 := by
    intro f
    simp only [Fintype.sum_prod_type]
  simp only [e1]
  have e2 : ∀ u : Fin L × Fin L × Fin L × Fin L, basis' u.1 p * basis' u.2.1 q * basis' u.2.2.1 r * basis' u.2.2.2 s =
      ∑ t : Fin L × Fin L × Fin L × Fin L, W p t.1 * basis u.1 t.1 * (W q t.2.1 * basis u.2.1 t.2.1) * (W r t.2.2.1 * basis u.2.2.1 t.2.2.1)
        * (W s t.2.2.2 * basis u.2.2.2 t.2.2.2) := by
    intro u
    rw [basis_apply (basis' := basis') h u.1 p, basis_apply (basis' := basis') h u.2.1 q, basis_apply (basis' := basis') h u.2.2.1 r,
      basis_apply (basis' := basis') h u.2.2.2 s, prod4]
  simp only [e2, Finset.sum_mul, Finset.mul_sum]
  rw [Finset.sum_comm]
  exact Finset.sum_congr rfl fun t _ => Finset.sum_congr rfl fun u _ => by ring

theorem canonical_change (h : Orthonormal m basis) (i k : Fin L) :
    canonicalToLocal m basis' i k = ∑ j, change m basis basis' i j * canonicalToLocal m basis j k := by
  have : canonicalToLocal m basis' = change m basis basis' * canonicalToLocal m basis := by
    unfold canonicalToLocal
    rw [← Matrix.mul_assoc (change m basis basis'), change_mul h]
  rw [this, Matrix.mul_apply]

/-- **C134**: in any two bases that pass the check of the script, the integrals and the Hartree-Fock orbitals it stores describe the
same system: a unitary map between the states respects the Hamiltonian and the numbers of electrons and takes the Hartree-Fock
state to the Hartree-Fock state. -/
theorem C134_same_system (m : Integrals L) (basis basis' : Matrix (Fin L) (Fin L) ℝ) (h : Orthonormal m basis) (h' : Orthonormal m basis')
    {n_up n_down : ℕ} (hu : n_up ≤ L) (hd : n_down ≤ L) :
    SameSystem (h1 m basis) (h2 m basis)
        (fun x => hartreeFock (fun i k => (canonicalToLocal m basis i k : ℂ)) (fun i k => (canonicalToLocal m basis i k : ℂ)) hu hd (occOf x))
      (h1 m basis') (h2 m basis')
        (fun x => hartreeFock (fun i k => (canonicalToLocal m basis' i k : ℂ)) (fun i k => (canonicalToLocal m basis' i k : ℂ)) hu hd (occOf x)) := by
  have := sameSystem_rotation (change_orthogonal h h') (h1 m basis) (h2 m basis) (n_up := n_up) (n_down := n_down)
    (fun i k => (canonicalToLocal m basis i (Fin.castLE hu k) : ℂ)) (fun i k => (canonicalToLocal m basis i (Fin.castLE hd k) : ℂ))
  rw [← h1_change h, ← h2_change h] at this
  unfold hartreeFock
  simp only [canonical_change (basis' := basis') h, Complex.ofReal_sum, Complex.ofReal_mul]
  exact this

/-! ## What this means for energies -/

theorem energy_eq (h : Fin L → Fin L → ℝ) (e : Fin L → Fin L → Fin L → Fin L → ℝ) (psi : Cfg L → ℂ) :
    energy h e psi = (∑ x, star (psi x) * applyH h e psi x) / normSq psi := by
  unfold energy applyH
  congr 1
  refine Finset.sum_congr rfl fun x _ => ?_
  rw [Finset.mul_sum]
  exact Finset.sum_congr rfl fun x' _ => by ring

/-- The states of two descriptions of a system have the same energies. -/
theorem energies_of_same {h : Fin L → Fin L → ℝ} {e : Fin L → Fin L → Fin L → Fin L → ℝ} {ref : Cfg L → ℂ} {h' : Fin L → Fin L → ℝ}
    {e' : Fin L → Fin L → Fin L → Fin L → ℝ} {ref' : Cfg L → ℂ} (hs : SameSystem h e ref h' e' ref') (n : ℕ × ℕ) :
    energies h e n = energies h' e' n ∧ energy h e ref = energy h' e' ref' := by
  obtain ⟨R, hin, hH, hsec, href⟩ := hs
  have hE : ∀ psi, energy h' e' (R psi) = energy h e psi := by
    intro psi
    rw [energy_eq, energy_eq, hH, hin]
    congr 1
    exact hin psi psi
  refine ⟨?_, by rw [← href, hE]⟩
  ext E
  constructor
  · rintro ⟨psi, h0, h1, h2⟩
    exact ⟨R psi, by simpa using h0, (hsec n psi).mpr h1, by rw [hE, h2]⟩
  · rintro ⟨psi, h0, h1, h2⟩
    refine ⟨R.symm psi, by simpa using h0, (hsec n _).mp (by simpa using h1), ?_⟩
    rw [← hE, R.apply_symm_apply, h2]

/-- **C134**: for any numbers of electrons, the energies that states can have — the lowest one, which the optimisation looks for,
included — do not depend on the basis, nor does the energy of the Hartree-Fock state. -/
theorem C134_energies (m : Integrals L) (basis basis' : Matrix (Fin L) (Fin L) ℝ) (h : Orthonormal m basis) (h' : Orthonormal m basis')
    {n_up n_down : ℕ} (hu : n_up ≤ L) (hd : n_down ≤ L) :
    (∀ n, energies (h1 m basis) (h2 m basis) n = energies (h1 m basis') (h2 m basis') n) ∧
    energy (h1 m basis) (h2 m basis)
        (fun x => hartreeFock (fun i k => (canonicalToLocal m basis i k : ℂ)) (fun i k => (canonicalToLocal m basis i k : ℂ)) hu hd (occOf x)) =
      energy (h1 m basis') (h2 m basis')
        (fun x => hartreeFock (fun i k => (canonicalToLocal m basis' i k : ℂ)) (fun i k => (canonicalToLocal m basis' i k : ℂ)) hu hd (occOf x)) :=
  ⟨fun n => (energies_of_same (C134_same_system m basis basis' h h' hu hd) n).1,
    (energies_of_same (C134_same_system m basis basis' h h' hu hd) (0, 0)).2⟩

/-- **C134**: in the canonical basis the stored orbitals are unit vectors, so that the Hartree-Fock state is the configuration with
the first orbitals filled. -/
theorem C134_canonical (m : Integrals L) (h : Orthonormal m m.mo_coeff) : canonicalToLocal m m.mo_coeff = 1 := by
  unfold canonicalToLocal
  rw [← Matrix.mul_assoc]
  exact h

/-- **C134**: if the atomic orbitals themselves are the basis, the integrals are those over the atomic orbitals. -/
theorem C134_atomic (m : Integrals L) : (∀ p q, h1 m 1 p q = m.hcore p q) ∧ ∀ p q r s, h2 m 1 p q r s = m.eri p q r s := by
  refine ⟨fun p q => by simp [h1], fun p q r s => ?_⟩
  unfold h2
  simp only [Matrix.one_apply, ite_mul, one_mul, zero_mul, mul_ite, mul_one, mul_zero]
  rw [Finset.sum_eq_single p, Finset.sum_eq_single q, Finset.sum_eq_single r, Finset.sum_eq_single s]
  · simp
  all_goals simp +contextual

/-- The transformed integrals have the symmetry that the Hamiltonian requires (C13) if those over atomic orbitals have it. -/
theorem C134_symmetric (m : Integrals L) (basis : Matrix (Fin L) (Fin L) ℝ) (hsym : ∀ a b c d, m.eri a b c d = m.eri c d a b) (p q r s : Fin L) :
    h2 m basis p q r s = h2 m basis r s p q := by
  unfold h2
  have e1 : ∀ f : Fin L → Fin L → Fin L → Fin L → ℝ, ∑ a, ∑ b, ∑ c, ∑ d, f a b c d = ∑ t : (Fin L × Fin L) × (Fin L × Fin L), f t.1.1 t.1.2 t.2.1 t.2.2 := by
    intro f
    simp only [Fintype.sum_prod_type]
  rw [e1, e1]
  refine Fintype.sum_equiv (Equiv.prodComm _ _) _ _ fun t => ?_
  simp only [Equiv.prodComm_apply, Prod.fst_swap, Prod.snd_swap]
  rw [hsym]
  ring

/-! ## A molecule, and pruned integrals -/

/-- Two orthonormal atomic orbitals, one-body integrals of rank one. -/
noncomputable def twoOrbitals : Integrals 2 where
  ovlp := 1
  hcore := !![9 / 25, 12 / 25; 12 / 25, 16 / 25]
  eri := fun _ _ _ _ => 0
  mo_coeff := !![3 / 5, -4 / 5; 4 / 5, 3 / 5]

theorem two_local : Orthonormal twoOrbitals 1 := by simp [Orthonormal, twoOrbitals]

theorem two_canonical : Orthonormal twoOrbitals twoOrbitals.mo_coeff := by
  unfold Orthonormal twoOrbitals
  ext i j
  fin_cases i <;> fin_cases j <;> simp [Matrix.mul_apply, Fin.sum_univ_two] <;> norm_num

theorem two_h1_canonical : h1 twoOrbitals twoOrbitals.mo_coeff = fun p q => if p = 0 ∧ q = 0 then 1 else 0 := by
  funext p q
  unfold h1 twoOrbitals
  fin_cases p <;> fin_cases q <;> simp [Matrix.mul_apply, Fin.sum_univ_two] <;> norm_num

/-- The bases of the example differ, and so do the integrals. -/
example : Orthonormal twoOrbitals 1 ∧ Orthonormal twoOrbitals twoOrbitals.mo_coeff ∧
    h1 twoOrbitals 1 ≠ h1 twoOrbitals twoOrbitals.mo_coeff := by
  refine ⟨two_local, two_canonical, fun h => ?_⟩
  have := congrFun (congrFun h 0) 1
  rw [two_h1_canonical] at this
  simp [h1, twoOrbitals] at this

/-- One up electron in the first orbital. -/
def oneUp : Cfg 2 := fun i => if i = 0 then 1 else 0

theorem num_diag (s : Bool) (i : Fin L) (x : Cfg L) :
    (cre (mode s i) * ann (mode s i)) (occOf x) (occOf x) = if hasSpin s (x i) = true then 1 else (0 : ℤ) := by
  rw [← hopS_mat]
  unfold SMap.mat
  rw [hopS_self]
  have hx : occOf x (mode s i) = hasSpin s (x i) := rfl
  rw [hx]
  by_cases h : hasSpin s (x i) = true
  · simp [h]
  · simp [h]

/-- **C134** fails for pruned integrals: elements below the threshold of the configuration are dropped in the chosen basis, and the
energies of what is left depend on this basis. -/
theorem C134_pruned_fails : ∃ (m : Integrals 2) (basis basis' : Matrix (Fin 2) (Fin 2) ℝ) (t : ℝ) (n : ℕ × ℕ),
    Orthonormal m basis ∧ Orthonormal m basis' ∧
    energies (Pruning.prune1 t (h1 m basis)) (Pruning.prune2 t (h2 m basis)) n ≠
      energies (Pruning.prune1 t (h1 m basis')) (Pruning.prune2 t (h2 m basis')) n := by
  refine ⟨twoOrbitals, 1, twoOrbitals.mo_coeff, 7 / 10, (1, 0), two_local, two_canonical, fun heq => ?_⟩
  have he : ∀ b, Pruning.prune2 (7 / 10) (h2 twoOrbitals b) = fun _ _ _ _ => 0 := by
    intro b
    funext p q r s
    simp [Pruning.prune2, h2, twoOrbitals]
  have h0 : Pruning.prune1 (7 / 10) (h1 twoOrbitals 1) = fun _ _ => 0 := by
    funext p q
    unfold Pruning.prune1 h1 twoOrbitals
    fin_cases p <;> fin_cases q <;> norm_num [abs_of_pos]
  have hc : Pruning.prune1 (7 / 10) (h1 twoOrbitals twoOrbitals.mo_coeff) = fun p q => if p = 0 ∧ q = 0 then 1 else 0 := by
    rw [two_h1_canonical]
    funext p q
    unfold Pruning.prune1
    by_cases h : p = 0 ∧ q = 0
    · simp only [h, and_self, if_true]; norm_num
    · simp only [h, if_false]; norm_num
  rw [he, he, h0, hc] at heq
  have h1 : (1 : ℂ) ∈ energies (fun p q : Fin 2 => if p = 0 ∧ q = 0 then (1 : ℝ) else 0) (fun _ _ _ _ => 0) (1, 0) := by
    refine ⟨fun x => if x = oneUp then 1 else 0, fun h => ?_, fun x hx => ?_, ?_⟩
    · have := congrFun h oneUp
      simp at this
    · refine if_neg ?_
      rintro rfl
      exact hx (by decide)
    · unfold energy
      have hn : normSq (fun x : Cfg 2 => if x = oneUp then (1 : ℂ) else 0) = 1 := by
        unfold normSq
        rw [Finset.sum_eq_single oneUp] <;> simp +contextual
      rw [hn, div_one, Finset.sum_eq_single oneUp, Finset.sum_eq_single oneUp]
      · have hH : abInitioTwice (fun p q : Fin 2 => ((if p = 0 ∧ q = 0 then (1 : ℝ) else 0 : ℝ) : ℂ)) (fun _ _ _ _ => ((0 : ℝ) : ℂ))
            = (2 : ℂ) • toK ℂ (exc 0 0) := by
          unfold abInitioTwice
          simp [Fin.sum_univ_two]
        rw [hH]
        have hd : (exc 0 0 : Matrix (Occ (Mode 2)) (Occ (Mode 2)) ℤ) (occOf oneUp) (occOf oneUp) = 1 := by
          unfold exc
          rw [Matrix.sum_apply]
          simp only [num_diag]
          decide
        simp [toK, hd]
      · intro b _ hb; simp [hb]
      · simp
      · intro b _ hb; simp [hb]
      · simp
  rw [← heq] at h1
  obtain ⟨psi, _, _, h2⟩ := h1
  have hz : abInitioTwice (fun _ _ : Fin 2 => ((0 : ℝ) : ℂ)) (fun _ _ _ _ => ((0 : ℝ) : ℂ)) = 0 := by
    unfold abInitioTwice
    simp
  unfold energy at h2
  rw [hz] at h2
  simp at h2

end GPSKet.OrbitalBasis
