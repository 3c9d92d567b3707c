import Verif.Props.FreeElectrons
import Verif.Spec.SameSystem

/-! # Determinants of the lowest orbitals have the lowest energy of electrons that do not interact (C201) -/

namespace GPSKet.FreeElectrons

open GPSKet GPSKet.Spec Matrix ParticleHole

variable {L nu nd : ℕ}

/-- The sum of the `n` lowest orbital energies, if these are in ascending order. -/
def lowest (ε : Fin L → ℝ) (n : ℕ) : ℝ := ∑ i, if i.val < n then ε i else 0

/-- The hopping matrix of real edges. -/
def realHop (edges : List ((Fin L × Fin L) × ℝ)) : Matrix (Fin L) (Fin L) ℝ := Matrix.of fun i j => -edgeBetween edges i j

/-- The real edges as complex ones. -/
def castEdges (edges : List ((Fin L × Fin L) × ℝ)) : List ((Fin L × Fin L) × ℂ) := edges.map fun e => (e.1, (e.2 : ℂ))

theorem hopMatrix_cast (edges : List ((Fin L × Fin L) × ℝ)) (i j : Fin L) : hopMatrix (castEdges edges) i j = ((realHop edges i j : ℝ) : ℂ) := by
  unfold hopMatrix realHop castEdges edgeBetween
  simp only [Matrix.of_apply, List.map_map, Function.comp_def]
  push_cast
  congr 1
  induction edges with
  | nil => simp
  | cons e es ih =>
    simp only [List.map_cons, List.sum_cons, Complex.ofReal_add, ih]
    congr 1
    split_ifs <;> simp

/-- the energy of the occupied orbitals of a configuration of orbitals -/
def occEnergy (ε : Fin L → ℝ) (x : Cfg L) : ℝ := ∑ s : Bool, ∑ i, if hasSpin s (x i) = true then ε i else 0

theorem strict_ge {n : ℕ} (e : Fin n → Fin L) (he : StrictMono e) (k : Fin n) : k.val ≤ (e k).val := by
  obtain ⟨k, hk⟩ := k
  induction k with
  | zero => exact Nat.zero_le _
  | succ k ih =>
    have h1 := ih (by omega)
    have h2 := he (show (⟨k, by omega⟩ : Fin n) < ⟨k + 1, hk⟩ from Nat.lt_succ_self k)
    have h3 : (e ⟨k, by omega⟩).val < (e ⟨k + 1, hk⟩).val := h2
    simp only at h1 ⊢
    omega

theorem lowest_eq (ε : Fin L → ℝ) {n : ℕ} (hn : n ≤ L) : lowest ε n = ∑ k : Fin n, ε (Fin.castLE hn k) := by
  unfold lowest
  rw [← Finset.sum_filter]
  symm
  exact Finset.sum_bij (fun k _ => Fin.castLE hn k) (fun k _ => by simp) (fun a _ b _ h => Fin.castLE_injective hn h)
    (fun i hi => ⟨⟨i.val, by simpa using hi⟩, Finset.mem_univ _, by ext; rfl⟩) (fun _ _ => rfl)

theorem lowest_le (ε : Fin L → ℝ) (hε : Monotone ε) (S : Finset (Fin L)) : lowest ε S.card ≤ ∑ i ∈ S, ε i := by
  have hcard : S.card ≤ L := by simpa using Finset.card_le_univ S
  have h2 : ∑ i ∈ S, ε i = ∑ k : Fin S.card, ε (S.orderEmbOfFin rfl k) := by
    conv_lhs => rw [← Finset.image_orderEmbOfFin_univ S rfl]
    rw [Finset.sum_image fun a _ b _ h => (S.orderEmbOfFin rfl).injective h]
  rw [lowest_eq ε hcard, h2]
  refine Finset.sum_le_sum fun k _ => hε ?_
  exact strict_ge (S.orderEmbOfFin rfl) (OrderEmbedding.strictMono _) k

theorem lowest_occ (ε : Fin L → ℝ) (hε : Monotone ε) (x : Cfg L) : lowest ε (numElec false x) + lowest ε (numElec true x) ≤ occEnergy ε x := by
  have h : ∀ s, lowest ε (numElec s x) ≤ ∑ i, if hasSpin s (x i) = true then ε i else 0 := by
    intro s
    rw [← Finset.sum_filter]
    exact lowest_le ε hε _
  unfold occEnergy
  rw [Fintype.sum_bool]
  linarith [h false, h true]

theorem half_twice (h : Fin L → Fin L → ℝ) (x y : Cfg L) :
    1 / 2 * abInitioTwice (fun p q => (h p q : ℂ)) (fun _ _ _ _ => ((0 : ℝ) : ℂ)) (occOf x) (occOf y) =
      oneBody (Matrix.of fun p q => (h p q : ℂ)) (occOf x) (occOf y) := by
  have h2 : (1 / 2 : ℂ) • abInitioTwice (fun p q => (h p q : ℂ)) (fun _ _ _ _ => ((0 : ℝ) : ℂ)) = oneBody (L := L) (Matrix.of fun p q => (h p q : ℂ)) := by
    unfold abInitioTwice oneBody
    simp only [Complex.ofReal_zero, zero_smul, Finset.sum_const_zero, add_zero, Finset.smul_sum, smul_smul, Matrix.of_apply]
    refine Finset.sum_congr rfl fun p _ => Finset.sum_congr rfl fun q _ => ?_
    congr 1
    ring
  rw [← h2, Matrix.smul_apply, smul_eq_mul]

theorem oneBody_diag (ε : Fin L → ℝ) (x y : Cfg L) :
    oneBody (Matrix.of fun p q => (((if p = q then ε p else 0 : ℝ)) : ℂ)) (occOf x) (occOf y) = if x = y then (occEnergy ε x : ℂ) else 0 := by
  unfold oneBody exc
  simp only [Matrix.sum_apply, Matrix.smul_apply, toK_apply, smul_eq_mul, Matrix.of_apply]
  have hn : ∀ s i, (cre (mode s i) * ann (mode s i)) (occOf x) (occOf y) = if x = y ∧ hasSpin s (x i) = true then 1 else 0 := by
    intro s i
    have := num_apply (mode s i) (occOf x) (occOf y)
    rw [num] at this
    rw [this]
    by_cases hxy : x = y
    · subst hxy
      have hm : occOf x (mode s i) = hasSpin s (x i) := rfl
      rw [hm]
      simp
    · rw [if_neg (fun h => hxy (occOf_bijective.1 h.1)), if_neg (fun h => hxy h.1)]
  have h1 : ∀ i, (∑ j, (((if i = j then ε i else 0 : ℝ)) : ℂ) * ((∑ s : Bool, (cre (mode s i) * ann (mode s j)) (occOf x) (occOf y) : ℤ) : ℂ)) =
      ε i * ((∑ s : Bool, if x = y ∧ hasSpin s (x i) = true then (1 : ℤ) else 0 : ℤ) : ℂ) := by
    intro i
    rw [Finset.sum_eq_single i]
    · rw [if_pos rfl]
      simp only [hn]
    · intro j _ hj
      rw [if_neg hj.symm]
      simp
    · simp
  rw [Finset.sum_congr rfl fun i _ => h1 i]
  by_cases hxy : x = y
  · rw [if_pos hxy]
    unfold occEnergy
    rw [Finset.sum_comm]
    push_cast
    refine Finset.sum_congr rfl fun i _ => ?_
    rw [Finset.mul_sum]
    refine Finset.sum_congr rfl fun s _ => ?_
    by_cases hs : hasSpin s (x i) = true
    · simp [hxy, hxy ▸ hs]
    · simp [hs]
  · rw [if_neg hxy]
    simp [hxy]

theorem rot2_zero (W : Matrix (Fin L) (Fin L) ℝ) : Rotation.rot2 W (fun _ _ _ _ => 0) = fun _ _ _ _ => 0 := by
  funext p q r s
  simp [Rotation.rot2]

theorem rot1_diag {h C : Matrix (Fin L) (Fin L) ℝ} {ε : Fin L → ℝ} (hC : Cᵀ * C = 1) (hε : h * C = C * Matrix.diagonal ε) :
    Rotation.rot1 Cᵀ h = fun p q => if p = q then ε p else 0 := by
  funext p q
  have h1 : Rotation.rot1 Cᵀ h p q = (Cᵀ * (h * C)) p q := by
    unfold Rotation.rot1
    rw [Matrix.mul_apply]
    refine Finset.sum_congr rfl fun a _ => ?_
    rw [Matrix.mul_apply, Finset.mul_sum]
    refine Finset.sum_congr rfl fun b _ => ?_
    rw [Matrix.transpose_apply, Matrix.transpose_apply]
    ring
  rw [h1, hε, ← Matrix.mul_assoc, hC, Matrix.one_mul, Matrix.diagonal_apply]

/-- energies of states of electrons that do not interact -/
theorem free_bound {h C : Matrix (Fin L) (Fin L) ℝ} {ε : Fin L → ℝ} (hC : Cᵀ * C = 1) (hε : h * C = C * Matrix.diagonal ε) (hm : Monotone ε)
    (psi : Cfg L → ℂ) (hpsi : InSector (nu, nd) psi) :
    (lowest ε nu + lowest ε nd) * ∑ x, ‖psi x‖ ^ 2 ≤
      (∑ x, star (psi x) * ∑ y, oneBody (Matrix.of fun p q => (h p q : ℂ)) (occOf x) (occOf y) * psi y).re := by
  have hW : (Cᵀ)ᵀ * Cᵀ = 1 := by rw [Matrix.transpose_transpose]; exact mul_eq_one_comm.mp hC
  obtain ⟨R, hin, hH, hsec, _⟩ := Rotation.sameSystem_rotation hW h (fun _ _ _ _ => 0) (n_up := 0) (n_down := 0) (fun _ k => k.elim0) fun _ k => k.elim0
  rw [rot2_zero, rot1_diag hC hε] at hH
  have e1 : ∀ x, ∑ y, oneBody (Matrix.of fun p q => (h p q : ℂ)) (occOf x) (occOf y) * psi y = applyH h (fun _ _ _ _ => 0) psi x := by
    intro x
    unfold applyH
    exact Finset.sum_congr rfl fun y _ => congrArg (· * psi y) (half_twice h x y).symm
  have e2 : ∀ φ : Cfg L → ℂ, ∀ x, applyH (fun p q => if p = q then ε p else 0) (fun _ _ _ _ => 0) φ x = occEnergy ε x * φ x := by
    intro φ x
    unfold applyH
    simp only [half_twice, oneBody_diag]
    rw [Finset.sum_eq_single x]
    · rw [if_pos rfl]
    · intro y _ hy
      rw [if_neg hy.symm, zero_mul]
    · simp
  simp only [e1]
  rw [← hin, ← hH]
  simp only [e2]
  have hn : ∑ x, ‖psi x‖ ^ 2 = ∑ x, ‖R psi x‖ ^ 2 := by
    have := hin psi psi
    have hs : ∀ z : ℂ, star z * z = ((‖z‖ ^ 2 : ℝ) : ℂ) := by
      intro z
      rw [Complex.star_def, ← Complex.normSq_eq_conj_mul_self, Complex.normSq_eq_norm_sq]
    simp only [hs] at this
    exact_mod_cast this.symm
  rw [hn, Complex.re_sum, Finset.mul_sum]
  refine Finset.sum_le_sum fun x _ => ?_
  have hx : (star (R psi x) * (occEnergy ε x * R psi x)).re = occEnergy ε x * ‖R psi x‖ ^ 2 := by
    rw [mul_left_comm, Complex.star_def, ← Complex.normSq_eq_conj_mul_self, Complex.normSq_eq_norm_sq, ← Complex.ofReal_mul, Complex.ofReal_re]
  rw [hx]
  by_cases hin' : (numElec false x, numElec true x) = (nu, nd)
  · have h1 := lowest_occ ε hm x
    rw [(Prod.mk.inj hin').1, (Prod.mk.inj hin').2] at h1
    exact mul_le_mul_of_nonneg_right h1 (by positivity)
  · rw [(hsec (nu, nd) psi).mpr hpsi x hin']
    simp

/-- **C201**, lowest energy: no state of a Hubbard model with repulsive or no interaction has an energy below the sum of the energies of the
lowest orbitals, each of which holds one electron of either spin. -/
theorem C201_lowest (U : ℝ) (hU : 0 ≤ U) (edges : List ((Fin L × Fin L) × ℝ)) (C : Matrix (Fin L) (Fin L) ℝ) (ε : Fin L → ℝ) (hC : Cᵀ * C = 1)
    (hε : realHop edges * C = C * Matrix.diagonal ε) (hm : Monotone ε) (psi : Cfg L → ℂ) (hpsi : InSector (nu, nd) psi) :
    (lowest ε nu + lowest ε nd) * ∑ x, ‖psi x‖ ^ 2 ≤
      (∑ x, star (psi x) * ∑ y, hubbard (U : ℂ) (castEdges edges) (occOf x) (occOf y) * psi y).re := by
  refine (free_bound hC hε hm psi hpsi).trans ?_
  have hh : hopMatrix (castEdges edges) = Matrix.of fun p q => ((realHop edges p q : ℝ) : ℂ) := by
    ext p q
    rw [hopMatrix_cast, Matrix.of_apply]
  have hrow : ∀ x, ∑ y, hubbard (U : ℂ) (castEdges edges) (occOf x) (occOf y) * psi y =
      ∑ y, oneBody (Matrix.of fun p q => ((realHop edges p q : ℝ) : ℂ)) (occOf x) (occOf y) * psi y + U * doubly x * psi x := by
    intro x
    have := hubbard_row (U : ℂ) (castEdges edges) (fun n => psi ((Equiv.ofBijective occOf occOf_bijective).symm n)) x
    have hs : ∀ y : Cfg L, (Equiv.ofBijective occOf occOf_bijective).symm (occOf y) = y := fun y =>
      (Equiv.ofBijective (occOf (L := L)) occOf_bijective).symm_apply_apply y
    simp only [hs] at this
    rw [this, hh]
    congr 1
    simp only [Matrix.mulVec, dotProduct]
    rw [← sum_cfg fun n => oneBody (Matrix.of fun p q => ((realHop edges p q : ℝ) : ℂ)) (occOf x) n * psi ((Equiv.ofBijective occOf occOf_bijective).symm n)]
    simp only [hs]
  simp only [hrow, mul_add, Finset.sum_add_distrib, Complex.add_re]
  have hp : 0 ≤ (∑ x, star (psi x) * (U * doubly x * psi x) : ℂ).re := by
    rw [Complex.re_sum]
    refine Finset.sum_nonneg fun x _ => ?_
    have hx : (star (psi x) * ((U : ℂ) * doubly x * psi x)).re = U * doubly x * ‖psi x‖ ^ 2 := by
      rw [mul_left_comm, Complex.star_def, ← Complex.normSq_eq_conj_mul_self, Complex.normSq_eq_norm_sq, ← Complex.ofReal_natCast, ← Complex.ofReal_mul,
        ← Complex.ofReal_mul, Complex.ofReal_re]
    rw [hx]
    positivity
  linarith

theorem energies_lowest {n : ℕ} (hn : n ≤ L) {edges : List ((Fin L × Fin L) × ℝ)} {C : Matrix (Fin L) (Fin L) ℝ} {ε : Fin L → ℝ}
    (hε : realHop edges * C = C * Matrix.diagonal ε) :
    HasEnergies (hopMatrix (castEdges edges)) (Matrix.of fun i (k : Fin n) => ((C i (Fin.castLE hn k) : ℝ) : ℂ)) fun k => (ε (Fin.castLE hn k) : ℂ) := by
  ext i k
  have h := congrFun (congrFun hε i) (Fin.castLE hn k)
  rw [Matrix.mul_apply, Matrix.mul_diagonal] at h ⊢
  simp only [Matrix.of_apply, hopMatrix_cast]
  exact_mod_cast h

/-- **C201**, the bound is attained: without interaction, every local energy of the determinant of the lowest orbitals is that lowest
energy. -/
theorem C201_ground (hu : nu ≤ L) (hd : nd ≤ L) (edges : List ((Fin L × Fin L) × ℝ)) (hne : ∀ e ∈ edges, e.1.1 ≠ e.1.2)
    (C : Matrix (Fin L) (Fin L) ℝ) (ε : Fin L → ℝ) (hε : realHop edges * C = C * Matrix.diagonal ε) (ct : Bool) (x : Cfg L)
    (hx : numElec false x = nu ∧ numElec true x = nd) :
    let psi := (Slater.model (⟨.fixedMag (fun _ i k => ((C i (Fin.castLE hu k) : ℝ) : ℂ)) (fun _ i k => ((C i (Fin.castLE hd k) : ℝ) : ℂ)),
      fun _ i => i, fun _ => 1, ct, sumOut⟩ : Slater.Module L nu nd 1 Unit Unit)).full
    psi x ≠ 0 → ZeroEnergy.floatHubbard psi 0 (castEdges edges) x = Floats.FC.ofC ((lowest ε nu + lowest ε nd : ℝ) : ℂ) := by
  intro psi hpsi
  have h := C201_orbitals (fun i k => ((C i (Fin.castLE hu k) : ℝ) : ℂ)) (fun i k => ((C i (Fin.castLE hd k) : ℝ) : ℂ)) ct 0 (castEdges edges)
    (fun e he => by
      obtain ⟨e', he', rfl⟩ := List.mem_map.mp he
      exact hne e' he') _ _ (energies_lowest hu hε) (energies_lowest hd hε) x hx hpsi
  refine h.trans ?_
  rw [lowest_eq ε hu, lowest_eq ε hd, zero_mul, add_zero]
  push_cast
  rfl

/-- two sites: the orbitals are the sum and the difference, and the determinant with two electrons in the first one has the energy `-2 t` -/
example (t : ℝ) (ht : 0 ≤ t) :
    let s : ℝ := 1 / Real.sqrt 2
    let C : Matrix (Fin 2) (Fin 2) ℝ := !![s, s; s, -s]
    Cᵀ * C = 1 ∧ realHop [((0, 1), t)] * C = C * Matrix.diagonal ![-t, t] ∧ Monotone (![-t, t] : Fin 2 → ℝ) ∧
      lowest (![-t, t] : Fin 2 → ℝ) 1 + lowest (![-t, t] : Fin 2 → ℝ) 1 = -2 * t := by
  intro s C
  have hs : s * s = 1 / 2 := by
    show 1 / Real.sqrt 2 * (1 / Real.sqrt 2) = 1 / 2
    rw [div_mul_div_comm, one_mul, Real.mul_self_sqrt (by norm_num)]
  refine ⟨?_, ?_, ?_, ?_⟩
  · ext i j
    fin_cases i <;> fin_cases j <;> simp [C, Matrix.mul_apply, Fin.sum_univ_two, hs] <;> norm_num
  · ext i j
    fin_cases i <;> fin_cases j <;> simp [C, realHop, edgeBetween, Matrix.mul_apply, Fin.sum_univ_two, Matrix.diagonal_apply, mul_comm]
  · intro i j hij
    fin_cases i <;> fin_cases j <;> simp at hij ⊢ <;> linarith
  · simp [lowest, Fin.sum_univ_two]
    ring

end GPSKet.FreeElectrons
