import Verif.Lemmas.FreeElectrons
import Verif.Lemmas.BasisChange
import Verif.Props.SlaterState
import Verif.Props.ParticleHole
import Verif.Props.ZeroEnergy

/-! # Determinants solve electrons that do not interact (C201) -/

namespace GPSKet.FreeElectrons

open GPSKet GPSKet.Spec Matrix Floats SlaterAmplitudes ParticleHole ZeroEnergy

variable {L nu nd M : ℕ} {κ ι : Type}

/-! ## Hamiltonians -/

theorem hubbard_split (U : ℂ) (edges : List ((Fin L × Fin L) × ℂ)) : hubbard U edges = oneBody (hopMatrix edges) + hubbard U [] := by
  rw [LatticeSymmetry.hubbard_between U edges, LatticeSymmetry.hubbard_between U []]
  have h0 : ∀ i j : Fin L, edgeBetween ([] : List ((Fin L × Fin L) × ℂ)) i j = 0 := fun _ _ => rfl
  simp only [h0, zero_smul, Finset.sum_const_zero, neg_zero, zero_add]
  congr 1
  unfold oneBody hopMatrix
  simp only [Matrix.of_apply, neg_smul, Finset.sum_neg_distrib]

theorem sum_cfg (g : Occ (Mode L) → ℂ) : ∑ y : Cfg L, g (occOf y) = ∑ n, g n := Equiv.sum_comp (Equiv.ofBijective occOf occOf_bijective) g

theorem hubbard_row (U : ℂ) (edges : List ((Fin L × Fin L) × ℂ)) (f : Occ (Mode L) → ℂ) (x : Cfg L) :
    ∑ y, hubbard U edges (occOf x) (occOf y) * f (occOf y) = (oneBody (hopMatrix edges) *ᵥ f) (occOf x) + U * doubly x * f (occOf x) := by
  rw [hubbard_split]
  simp only [Matrix.add_apply, add_mul, Finset.sum_add_distrib]
  congr 1
  · exact sum_cfg fun n => oneBody (hopMatrix edges) (occOf x) n * f n
  · rw [Finset.sum_eq_single x]
    · rw [hubbard_elem, if_pos rfl]
      simp
    · intro y _ hy
      rw [hubbard_elem, if_neg hy.symm]
      simp
    · simp

/-! ## Orbitals -/

/-- The columns of `F` (first the values for up electrons, then those for down electrons) span a space that `h` does not leave, in which it
is the matrix `B`. -/
def Closed {n : ℕ} (h : Matrix (Fin L) (Fin L) ℂ) (F : Fin (L + L) → Fin n → ℂ) (B : Matrix (Fin n) (Fin n) ℂ) : Prop :=
  ∀ i k, (∑ j, h i j * F (Fin.castAdd L j) k = ∑ l, F (Fin.castAdd L i) l * B l k) ∧
    ∑ j, h i j * F (Fin.natAdd L j) k = ∑ l, F (Fin.natAdd L i) l * B l k

theorem closed_moved {n : ℕ} {h : Matrix (Fin L) (Fin L) ℂ} {F : Fin (L + L) → Fin n → ℂ} {B : Matrix (Fin n) (Fin n) ℂ} (hF : Closed h F B)
    {g : Fin L → Fin L} (hg : Function.Bijective g) (hh : ∀ i j, h (g i) (g j) = h i j) :
    Closed h (fun r k => movedBy g (fun r => F r k) r) B := by
  intro i k
  have e := hF (g i) k
  have hs : ∀ f : Fin L → ℂ, ∑ j, h (g i) j * f j = ∑ j, h i j * f (g j) := by
    intro f
    rw [← Equiv.sum_comp (Equiv.ofBijective g hg) fun j => h (g i) j * f j]
    exact Finset.sum_congr rfl fun j _ => by rw [Equiv.ofBijective_apply, hh]
  rw [hs, hs] at e
  simpa only [movedBy, Fin.addCases_left, Fin.addCases_right] using e

theorem closed_eigen {n : ℕ} {h : Matrix (Fin L) (Fin L) ℂ} {F : Fin (L + L) → Fin n → ℂ} {B : Matrix (Fin n) (Fin n) ℂ} (hF : Closed h F B) :
    oneBody h *ᵥ slaterState (List.ofFn fun k => stacked fun r => F r k) = B.trace • slaterState (List.ofFn fun k => stacked fun r => F r k) := by
  refine lifts_closed (lifts_oneBody h) _ B fun k => ?_
  funext m
  obtain ⟨s, i, rfl⟩ : ∃ s i, m = mode s i := ⟨(ofLex m).1, (ofLex m).2, rfl⟩
  rw [Finset.sum_apply]
  have e := hF i k
  cases s
  · simp only [Pi.smul_apply, smul_eq_mul]
    refine (Eq.trans ?_ e.1).trans ?_
    · rfl
    · exact Finset.sum_congr rfl fun l _ => mul_comm _ _
  · simp only [Pi.smul_apply, smul_eq_mul]
    refine (Eq.trans ?_ e.2).trans ?_
    · rfl
    · exact Finset.sum_congr rfl fun l _ => mul_comm _ _

/-- A matrix of two blocks. -/
def blockDiag (A : Matrix (Fin nu) (Fin nu) ℂ) (B : Matrix (Fin nd) (Fin nd) ℂ) : Matrix (Fin (nu + nd)) (Fin (nu + nd)) ℂ :=
  Matrix.of fun i j => Fin.addCases (motive := fun _ => ℂ) (fun i => Fin.addCases (motive := fun _ => ℂ) (fun j => A i j) (fun _ => 0) j)
    (fun i => Fin.addCases (motive := fun _ => ℂ) (fun _ => 0) (fun j => B i j) j) i

theorem blockDiag_trace (A : Matrix (Fin nu) (Fin nu) ℂ) (B : Matrix (Fin nd) (Fin nd) ℂ) : (blockDiag A B).trace = A.trace + B.trace := by
  unfold Matrix.trace blockDiag
  rw [Fin.sum_univ_add]
  simp only [Matrix.diag_apply, Matrix.of_apply, Fin.addCases_left, Fin.addCases_right]

variable {h : Matrix (Fin L) (Fin L) ℂ} {up : Fin L → Fin nu → ℂ} {dn : Fin L → Fin nd → ℂ} {A : Matrix (Fin nu) (Fin nu) ℂ}
  {B : Matrix (Fin nd) (Fin nd) ℂ}

theorem closed_iff {n : ℕ} {C : Fin L → Fin n → ℂ} {A : Matrix (Fin n) (Fin n) ℂ} (hC : h * Matrix.of C = Matrix.of C * A) (i : Fin L) (k : Fin n) :
    ∑ j, h i j * C j k = ∑ l, C i l * A l k := by
  have := congrFun (congrFun hC i) k
  rw [Matrix.mul_apply, Matrix.mul_apply] at this
  exact this

theorem closed_fixed (hu : h * Matrix.of up = Matrix.of up * A) (hd : h * Matrix.of dn = Matrix.of dn * B) :
    Closed h (Slater.getFullU up dn) (blockDiag A B) := by
  intro i k
  induction k using Fin.addCases with
  | left k =>
    constructor <;> rw [Fin.sum_univ_add] <;>
      simp only [Slater.getFullU, blockDiag, Matrix.of_apply, Fin.addCases_left, Fin.addCases_right, mul_zero, zero_mul, Finset.sum_const_zero, add_zero]
    exact closed_iff hu i k
  | right k =>
    constructor <;> rw [Fin.sum_univ_add] <;>
      simp only [Slater.getFullU, blockDiag, Matrix.of_apply, Fin.addCases_left, Fin.addCases_right, mul_zero, zero_mul, Finset.sum_const_zero, zero_add]
    exact closed_iff hd i k

theorem closed_rotated (hu : h * Matrix.of up = Matrix.of up * A) (hd : h * Matrix.of dn = Matrix.of dn * B) (θ : ℝ) :
    Closed h (Slater.applyRotation (Slater.getFullU up dn) θ) (blockDiag A B) := by
  have hsum : ∀ {n : ℕ} (f g : Fin n → ℂ) (c : ℂ), ∑ j, f j * (g j * c) = (∑ j, f j * g j) * c := by
    intro n f g c
    rw [Finset.sum_mul]
    exact Finset.sum_congr rfl fun j _ => by ring
  have hsum' : ∀ {n : ℕ} (f g : Fin n → ℂ) (c : ℂ), ∑ j, f j * c * g j = (∑ j, f j * g j) * c := by
    intro n f g c
    rw [Finset.sum_mul]
    exact Finset.sum_congr rfl fun j _ => by ring
  intro i k
  induction k using Fin.addCases with
  | left k =>
    have e := closed_iff hu i k
    constructor <;> rw [Fin.sum_univ_add] <;>
      simp only [Slater.applyRotation, Slater.getFullU, blockDiag, Matrix.of_apply, Fin.addCases_left, Fin.addCases_right, mul_zero, zero_mul,
        Finset.sum_const_zero, add_zero, zero_add, neg_zero, hsum, hsum', e]
  | right k =>
    have e := closed_iff hd i k
    constructor <;> rw [Fin.sum_univ_add] <;>
      simp only [Slater.applyRotation, Slater.getFullU, blockDiag, Matrix.of_apply, Fin.addCases_left, Fin.addCases_right, mul_zero, zero_mul,
        Finset.sum_const_zero, add_zero, zero_add, zero_sub, neg_zero, mul_neg, neg_mul, Finset.sum_neg_distrib, hsum, hsum', e]

/-! ## Models -/

variable [Fintype κ] [Fintype ι]

/-- The output transformation `jnp.sum`. -/
def sumOut : (Fin M → κ → ι → ℂ) → ℂ := fun v => ∑ m, ∑ s, ∑ t, v m s t

/-- The amplitude as a vector. -/
noncomputable def state (mod : Slater.Module L nu nd M κ ι) : Occ (Mode L) → ℂ :=
  ∑ m, ∑ s, ∑ t, mod.chars s • slaterState (List.ofFn fun k => stacked (movedBy (mod.symmetries t) fun r => Slater.fullU mod.orbs m r k s))

theorem full_eq (mod : Slater.Module L nu nd M κ ι) (hout : mod.out_transformation = sumOut) (x : Cfg L)
    (hx : numElec false x = nu ∧ numElec true x = nd) : (Slater.model mod).full x = state mod (occOf x) := by
  show mod.out_transformation _ = _
  rw [hout]
  unfold sumOut state
  simp only [C105_slater mod x hx, Finset.sum_apply, Pi.smul_apply, smul_eq_mul]
  exact Finset.sum_congr rfl fun m _ => Finset.sum_congr rfl fun s _ => Finset.sum_congr rfl fun t _ => mul_comm _ _

theorem state_eigen (mod : Slater.Module L nu nd M κ ι) (h : Matrix (Fin L) (Fin L) ℂ)
    (hsym : ∀ t, Function.Bijective (mod.symmetries t) ∧ ∀ i j, h (mod.symmetries t i) (mod.symmetries t j) = h i j) (E : ℂ)
    (horb : ∀ m s, ∃ B, Closed h (fun r k => Slater.fullU mod.orbs m r k s) B ∧ B.trace = E) : oneBody h *ᵥ state mod = E • state mod := by
  unfold state
  simp only [Matrix.mulVec_sum, Matrix.mulVec_smul, Finset.smul_sum]
  refine Finset.sum_congr rfl fun m _ => Finset.sum_congr rfl fun s _ => Finset.sum_congr rfl fun t _ => ?_
  obtain ⟨B, hB, rfl⟩ := horb m s
  rw [closed_eigen (closed_moved hB (hsym t).1 (hsym t).2), smul_comm]

/-- **C201**, Hubbard models: let the orbitals of every determinant of a `Slater` model (of any kind, with symmetry operations of the lattice)
span a space that the hopping does not leave, and let the energies in these spaces be `E`.  Then the local energy at every configuration with
the right numbers of electrons and a nonzero amplitude is `E` plus `U` times the number of doubly occupied sites of the configuration. -/
theorem C201_hubbard (mod : Slater.Module L nu nd M κ ι) (hout : mod.out_transformation = sumOut) (U : ℂ) (edges : List ((Fin L × Fin L) × ℂ))
    (hne : ∀ e ∈ edges, e.1.1 ≠ e.1.2)
    (hsym : ∀ t, Function.Bijective (mod.symmetries t) ∧
      ∀ i j, hopMatrix edges (mod.symmetries t i) (mod.symmetries t j) = hopMatrix edges i j) (E : ℂ)
    (horb : ∀ m s, ∃ B, Closed (hopMatrix edges) (fun r k => Slater.fullU mod.orbs m r k s) B ∧ B.trace = E) (x : Cfg L)
    (hx : numElec false x = nu ∧ numElec true x = nd) (hpsi : (Slater.model mod).full x ≠ 0) :
    floatHubbard (Slater.model mod).full U edges x = FC.ofC (E + U * doubly x) := by
  rw [float_hubbard U edges hne _ x hpsi]
  congr 1
  have hrow : ∑ y, hubbard U edges (occOf x) (occOf y) * (Slater.model mod).full y =
      ∑ y, hubbard U edges (occOf x) (occOf y) * state mod (occOf y) := by
    refine Finset.sum_congr rfl fun y _ => ?_
    by_cases hy : hubbard U edges (occOf x) (occOf y) = 0
    · rw [hy, zero_mul, zero_mul]
    · rw [full_eq mod hout y ⟨by rw [ParticleHole.hubbard_conserves U edges x y hy, hx.1], by rw [ParticleHole.hubbard_conserves U edges x y hy, hx.2]⟩]
  rw [hrow, hubbard_row, state_eigen mod (hopMatrix edges) hsym E horb, full_eq mod hout x hx]
  rw [full_eq mod hout x hx] at hpsi
  rw [Pi.smul_apply, smul_eq_mul]
  field_simp

/-- **C201**, molecules whose electrons do not interact: the local energy is the energy of the orbitals. -/
theorem C201_molecule (mod : Slater.Module L nu nd M κ ι) (hout : mod.out_transformation = sumOut) (h : Matrix (Fin L) (Fin L) ℂ)
    (hsym : ∀ t, Function.Bijective (mod.symmetries t) ∧ ∀ i j, h (mod.symmetries t i) (mod.symmetries t j) = h i j) (E : ℂ)
    (horb : ∀ m s, ∃ B, Closed h (fun r k => Slater.fullU mod.orbs m r k s) B ∧ B.trace = E) (x : Cfg L)
    (hx : numElec false x = nu ∧ numElec true x = nd) (hpsi : (Slater.model mod).full x ≠ 0) :
    floatMolecule (Slater.model mod).full (nu, nd) (abT h fun _ _ _ _ => 0) (fun _ _ _ _ => 0) x = FC.ofC E := by
  have hf := float_molecule h (fun _ _ _ _ => 0) (fun _ _ _ _ => rfl) (Slater.model mod).full x hpsi
  rw [hx.1, hx.2] at hf
  rw [hf]
  congr 1
  have h2 : (1 / 2 : ℂ) • abInitioTwice h (fun _ _ _ _ => 0) = oneBody h := by
    unfold abInitioTwice oneBody
    simp only [zero_smul, Finset.sum_const_zero, add_zero, Finset.smul_sum, smul_smul]
    refine Finset.sum_congr rfl fun p _ => Finset.sum_congr rfl fun q _ => ?_
    congr 1
    ring
  have he : ∀ y, (1 / 2) * abInitioTwice h (fun _ _ _ _ => 0) (occOf x) (occOf y) = oneBody h (occOf x) (occOf y) := by
    intro y
    rw [← h2, Matrix.smul_apply, smul_eq_mul]
  have hrow : ∑ y, (1 / 2) * abInitioTwice h (fun _ _ _ _ => 0) (occOf x) (occOf y) * (Slater.model mod).full y =
      ∑ y, oneBody h (occOf x) (occOf y) * state mod (occOf y) := by
    refine Finset.sum_congr rfl fun y _ => ?_
    by_cases hy : (1 / 2) * abInitioTwice h (fun _ _ _ _ => 0) (occOf x) (occOf y) = 0
    · rw [hy, ← he, hy, zero_mul, zero_mul]
    · have hc : ∀ s, numElec s y = numElec s x := by
        intro s
        by_contra hn
        exact hy (by rw [SampledEnergy.abInitio_conserves h _ s x y (Ne.symm hn), mul_zero])
      rw [he, full_eq mod hout y ⟨by rw [hc, hx.1], by rw [hc, hx.2]⟩]
  rw [hrow, sum_cfg fun n => oneBody h (occOf x) n * state mod n]
  change (oneBody h *ᵥ state mod) (occOf x) / _ = _
  rw [state_eigen mod h hsym E horb, full_eq mod hout x hx]
  rw [full_eq mod hout x hx] at hpsi
  rw [Pi.smul_apply, smul_eq_mul, mul_div_cancel_right₀ _ hpsi]

/-! ## Orbitals with energies -/

theorem energies_trace {n : ℕ} (ε : Fin n → ℂ) : (Matrix.diagonal ε).trace = ∑ k, ε k := Matrix.trace_diagonal ε

/-- **C201**, orbitals with energies: if the up and down orbitals solve the equation of one electron, then the local energies are the sum of
their energies plus `U` times the number of doubly occupied sites. -/
theorem C201_orbitals (Uu : Fin L → Fin nu → ℂ) (Ud : Fin L → Fin nd → ℂ) (ct : Bool) (U : ℂ) (edges : List ((Fin L × Fin L) × ℂ))
    (hne : ∀ e ∈ edges, e.1.1 ≠ e.1.2) (εu : Fin nu → ℂ) (εd : Fin nd → ℂ) (hu : HasEnergies (hopMatrix edges) (Matrix.of Uu) εu)
    (hd : HasEnergies (hopMatrix edges) (Matrix.of Ud) εd) (x : Cfg L) (hx : numElec false x = nu ∧ numElec true x = nd) :
    let psi := (Slater.model (⟨.fixedMag (fun _ => Uu) (fun _ => Ud), fun _ i => i, fun _ => 1, ct, sumOut⟩ : Slater.Module L nu nd 1 Unit Unit)).full
    psi x ≠ 0 → floatHubbard psi U edges x = FC.ofC (∑ k, εu k + ∑ k, εd k + U * doubly x) := by
  intro psi hpsi
  refine C201_hubbard _ rfl U edges hne (fun _ => ⟨Function.bijective_id, fun _ _ => rfl⟩) _ (fun m s => ?_) x hx hpsi
  exact ⟨_, closed_fixed hu hd, by rw [blockDiag_trace, energies_trace, energies_trace]⟩

/-- **C201**, projection on total spin: the same if the determinant is projected. -/
theorem C201_projected (Uu : Fin L → Fin nu → ℂ) (Ud : Fin L → Fin nd → ℂ) (angle : κ → ℝ) (chars : κ → ℂ) (ct : Bool) (U : ℂ)
    (edges : List ((Fin L × Fin L) × ℂ)) (hne : ∀ e ∈ edges, e.1.1 ≠ e.1.2) (εu : Fin nu → ℂ) (εd : Fin nd → ℂ)
    (hu : HasEnergies (hopMatrix edges) (Matrix.of Uu) εu) (hd : HasEnergies (hopMatrix edges) (Matrix.of Ud) εd) (x : Cfg L)
    (hx : numElec false x = nu ∧ numElec true x = nd) :
    let psi := (Slater.model (⟨.projected (fun _ => Uu) (fun _ => Ud) angle, fun _ i => i, chars, ct, sumOut⟩ : Slater.Module L nu nd 1 κ Unit)).full
    psi x ≠ 0 → floatHubbard psi U edges x = FC.ofC (∑ k, εu k + ∑ k, εd k + U * doubly x) := by
  intro psi hpsi
  refine C201_hubbard _ rfl U edges hne (fun _ => ⟨Function.bijective_id, fun _ _ => rfl⟩) _ (fun m s => ?_) x hx hpsi
  exact ⟨_, closed_rotated hu hd (angle s), by rw [blockDiag_trace, energies_trace, energies_trace]⟩

theorem doubly_polarised (x : Cfg L) (hx : numElec true x = 0) : doubly x = 0 := by
  unfold doubly
  unfold numElec at hx
  rw [Finset.card_eq_zero] at hx ⊢
  rw [Finset.filter_eq_empty_iff] at hx ⊢
  intro i hi h3
  exact hx hi (by rw [h3]; rfl)

/-- **C201**, electrons of one spin never meet: their local energies are the energies of the orbitals for every `U`. -/
theorem C201_polarised (Uu : Fin L → Fin nu → ℂ) (Ud : Fin L → Fin 0 → ℂ) (ct : Bool) (U : ℂ) (edges : List ((Fin L × Fin L) × ℂ))
    (hne : ∀ e ∈ edges, e.1.1 ≠ e.1.2) (ε : Fin nu → ℂ) (hu : HasEnergies (hopMatrix edges) (Matrix.of Uu) ε) (x : Cfg L)
    (hx : numElec false x = nu ∧ numElec true x = 0) :
    let psi := (Slater.model (⟨.fixedMag (fun _ => Uu) (fun _ => Ud), fun _ i => i, fun _ => 1, ct, sumOut⟩ : Slater.Module L nu 0 1 Unit Unit)).full
    psi x ≠ 0 → floatHubbard psi U edges x = FC.ofC (∑ k, ε k) := by
  intro psi hpsi
  have := C201_orbitals Uu Ud ct U edges hne ε (fun k => k.elim0) hu (by ext i k; exact k.elim0) x hx hpsi
  rw [this, doubly_polarised x hx.2]
  simp

/-! ## Plane waves -/

/-- The plane wave with momentum `2 π q / L`. -/
noncomputable def planeWave (L : ℕ) (q : ℤ) (j : Fin L) : ℂ := Complex.exp (2 * Real.pi * Complex.I * q / L) ^ j.val

theorem hop_ring [NeZero L] (t : ℂ) (φ : Fin L → ℂ) (i : Fin L) :
    ∑ j, hopMatrix (ringEdges L t) i j * φ j = -(t * (φ (i + 1) + φ (i - 1))) := by
  have h1 : ∀ j, hopMatrix (ringEdges L t) i j = -∑ k : Fin L, ((if (k, k + 1) = (i, j) then t else 0) + if (k, k + 1) = (j, i) then t else 0) := by
    intro j
    unfold hopMatrix edgeBetween ringEdges
    rw [Matrix.of_apply, List.map_map, ← List.sum_ofFn, List.ofFn_eq_map]
    rfl
  simp only [h1, neg_mul, Finset.sum_neg_distrib, Finset.sum_mul]
  congr 1
  rw [Finset.sum_comm]
  simp only [add_mul, Finset.sum_add_distrib, mul_add]
  congr 1
  · rw [Finset.sum_eq_single i, Finset.sum_eq_single (i + 1)]
    · simp
    · intro j _ hj
      rw [if_neg (fun h => hj (Prod.mk.inj h).2.symm), zero_mul]
    · simp
    · intro k _ hk
      exact Finset.sum_eq_zero fun j _ => by rw [if_neg (fun h => hk (Prod.mk.inj h).1), zero_mul]
    · simp
  · rw [Finset.sum_eq_single (i - 1), Finset.sum_eq_single (i - 1)]
    · simp
    · intro j _ hj
      rw [if_neg (fun h => hj (Prod.mk.inj h).1.symm), zero_mul]
    · simp
    · intro k _ hk
      exact Finset.sum_eq_zero fun j _ => by rw [if_neg (fun h => hk (eq_sub_of_add_eq (Prod.mk.inj h).2)), zero_mul]
    · simp

theorem planeWave_next [NeZero L] (q : ℤ) (j : Fin L) :
    planeWave L q (j + 1) = Complex.exp (2 * Real.pi * Complex.I * q / L) * planeWave L q j := by
  unfold planeWave
  set z := Complex.exp (2 * Real.pi * Complex.I * q / L) with hz
  have hL : (L : ℂ) ≠ 0 := Nat.cast_ne_zero.mpr (NeZero.ne L)
  have hzL : z ^ L = 1 := by
    rw [hz, ← Complex.exp_nat_mul, show (L : ℂ) * (2 * Real.pi * Complex.I * q / L) = q * (2 * Real.pi * Complex.I) by field_simp]
    exact Complex.exp_int_mul_two_pi_mul_I q
  rw [Fin.val_add, Fin.val_one', Nat.add_mod_mod, ← pow_succ']
  conv_rhs => rw [← Nat.mod_add_div (j.val + 1) L, pow_add, pow_mul, hzL, one_pow, mul_one]

theorem planeWave_energy [NeZero L] (t : ℂ) {n : ℕ} (q : Fin n → ℤ) :
    HasEnergies (hopMatrix (ringEdges L t)) (Matrix.of fun j k => planeWave L (q k) j) fun k => -(2 * t * Complex.cos (2 * Real.pi * q k / L)) := by
  ext i k
  rw [Matrix.mul_apply, Matrix.mul_diagonal]
  simp only [Matrix.of_apply]
  rw [hop_ring t (planeWave L (q k)) i, planeWave_next]
  have hprev := planeWave_next (q k) (i - 1)
  rw [sub_add_cancel] at hprev
  have hinv : planeWave L (q k) (i - 1) = Complex.exp (-(2 * Real.pi * Complex.I * q k / L)) * planeWave L (q k) i := by
    rw [hprev, ← mul_assoc, ← Complex.exp_add, neg_add_cancel, Complex.exp_zero, one_mul]
  rw [hinv, Complex.cos]
  rw [show (2 * Real.pi * q k / L : ℂ) * Complex.I = 2 * Real.pi * Complex.I * q k / L by ring,
    show -(2 * Real.pi * q k / L : ℂ) * Complex.I = -(2 * Real.pi * Complex.I * q k / L) by ring]
  ring

/-- **C201**, rings: determinants of plane waves have the local energies `-2 t Σ cos(2 π q / L)` plus `U` times the number of doubly occupied
sites. -/
theorem C201_ring [NeZero L] (hL : 2 ≤ L) (t U : ℂ) (p : Fin nu → ℤ) (q : Fin nd → ℤ) (ct : Bool) (x : Cfg L)
    (hx : numElec false x = nu ∧ numElec true x = nd) :
    let psi := (Slater.model (⟨.fixedMag (fun _ j k => planeWave L (p k) j) (fun _ j k => planeWave L (q k) j), fun _ i => i, fun _ => 1, ct, sumOut⟩ :
      Slater.Module L nu nd 1 Unit Unit)).full
    psi x ≠ 0 → floatHubbard psi U (ringEdges L t) x =
      FC.ofC (∑ k, -(2 * t * Complex.cos (2 * Real.pi * p k / L)) + ∑ k, -(2 * t * Complex.cos (2 * Real.pi * q k / L)) + U * doubly x) := by
  refine C201_orbitals _ _ ct U (ringEdges L t) (fun e he => ?_) _ _ (planeWave_energy t p) (planeWave_energy t q) x hx
  unfold ringEdges at he
  obtain ⟨i, _, rfl⟩ := List.mem_map.mp he
  intro h
  have h1 : (1 : Fin L) = 0 := by
    have : i + 0 = i + 1 := by rw [add_zero]; exact h
    exact (add_left_cancel this).symm
  have := congrArg Fin.val h1
  rw [Fin.val_one', Fin.val_zero, Nat.mod_eq_of_lt (by omega)] at this
  exact absurd this one_ne_zero

/-! ## The hypotheses are met -/

/-- one up and one down electron: the amplitude is the product of the orbitals at their sites -/
theorem one_pair (Uu Ud : Fin L → Fin 1 → ℂ) (ct : Bool) (x : Cfg L) (i j : Fin L) (hi : ∀ k, hasSpin false (x k) = true ↔ i = k)
    (hj : ∀ k, hasSpin true (x k) = true ↔ j = k) (hx : numElec false x = 1 ∧ numElec true x = 1) :
    (Slater.model (⟨.fixedMag (fun _ => Uu) (fun _ => Ud), fun _ i => i, fun _ => 1, ct, sumOut⟩ : Slater.Module L 1 1 1 Unit Unit)).full x =
      Uu i 0 * Ud j 0 := by
  show ∑ m, ∑ s, ∑ t, Slater.detValues (⟨.fixedMag (fun _ => Uu) (fun _ => Ud), fun (_ : Unit) i => i, fun _ => 1, ct, sumOut⟩ :
    Slater.Module L 1 1 1 Unit Unit) x m s t * 1 = _
  simp only [Finset.univ_unique, Finset.sum_singleton, mul_one]
  refine (C105_slater_fixed (fun _ => Uu) (fun _ => Ud) (fun (_ : Unit) i => i) (fun _ => 1) ct sumOut x hx 0 ()).trans ?_
  rw [upDownState_det _ _ x (fun _ => i) (fun _ => j) (Subsingleton.strictMono _) (Subsingleton.strictMono _)
    (fun k => by rw [hi]; simp) (fun k => by rw [hj]; simp)]
  simp

/-- two electrons that meet on a ring of three sites: the local energy is finite and depends on `U` -/
example (t U : ℂ) : let psi := (Slater.model (⟨.fixedMag (fun _ j k => planeWave 3 (![0] k) j) (fun _ j k => planeWave 3 (![1] k) j), fun _ i => i,
      fun _ => 1, true, sumOut⟩ : Slater.Module 3 1 1 1 Unit Unit)).full
    floatHubbard psi U (ringEdges 3 t) ![0, 3, 0] =
      FC.ofC (-(2 * t) + -(2 * t * Complex.cos (2 * Real.pi / 3)) + U) ∧
    floatHubbard psi U (ringEdges 3 t) ![0, 1, 2] = FC.ofC (-(2 * t) + -(2 * t * Complex.cos (2 * Real.pi / 3))) := by
  intro psi
  have hne : ∀ (q : ℤ) (j : Fin 3), planeWave 3 q j ≠ 0 := fun q j => pow_ne_zero _ (Complex.exp_ne_zero _)
  have h1 : psi ![0, 3, 0] ≠ 0 := by
    rw [show psi ![0, 3, 0] = _ from one_pair _ _ true ![0, 3, 0] 1 1 (by decide) (by decide) (by decide)]
    exact mul_ne_zero (hne _ _) (hne _ _)
  have h2 : psi ![0, 1, 2] ≠ 0 := by
    rw [show psi ![0, 1, 2] = _ from one_pair _ _ true ![0, 1, 2] 1 2 (by decide) (by decide) (by decide)]
    exact mul_ne_zero (hne _ _) (hne _ _)
  have e1 := C201_ring (L := 3) (by norm_num) t U ![0] ![1] true ![0, 3, 0] (by decide) h1
  have e2 := C201_ring (L := 3) (by norm_num) t U ![0] ![1] true ![0, 1, 2] (by decide) h2
  have d1 : doubly (![0, 3, 0] : Cfg 3) = 1 := by decide
  have d2 : doubly (![0, 1, 2] : Cfg 3) = 0 := by decide
  rw [d1] at e1
  rw [d2] at e2
  refine ⟨e1.trans ?_, e2.trans ?_⟩
  · simp
  · simp

/-- the hypotheses on the orbitals are met by the generalised orbitals of one electron whose spin points elsewhere -/
example (t c d : ℂ) : Closed (hopMatrix (ringEdges 3 t)) (fun r (_ : Fin 1) => Fin.addCases (motive := fun _ => ℂ) (fun j => c * planeWave 3 1 j)
    (fun j => d * planeWave 3 1 j) r) (Matrix.diagonal fun _ => -(2 * t * Complex.cos (2 * Real.pi / 3))) := by
  intro i k
  have h := congrFun (congrFun (planeWave_energy (L := 3) t (n := 1) fun _ => 1) i) k
  rw [Matrix.mul_apply, Matrix.mul_diagonal] at h
  simp only [Matrix.of_apply, Int.cast_one, mul_one] at h
  simp only [Fin.addCases_left, Fin.addCases_right, Finset.univ_unique, Finset.sum_singleton]
  have hk : k = 0 := Subsingleton.elim _ _
  subst hk
  have hs : ∀ a : ℂ, ∑ j, hopMatrix (ringEdges 3 t) i j * (a * planeWave 3 1 j) = a * planeWave 3 1 i * -(2 * t * Complex.cos (2 * Real.pi / 3)) := by
    intro a
    rw [mul_assoc, ← Nat.cast_ofNat (R := ℂ) (n := 3), ← h, Finset.mul_sum]
    exact Finset.sum_congr rfl fun j _ => by ring
  exact ⟨by rw [hs]; simp, by rw [hs]; simp⟩

end GPSKet.FreeElectrons
