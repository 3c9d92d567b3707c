import Verif.Model.FrozenRun
import Verif.Spec.FrozenRun
import Verif.Props.ZeroEnergy
import Verif.Props.AbInitioUninterrupted
import Verif.Props.SplitBasis
import Verif.Props.Reference

/-! # Property C180: optimisations that start from a determinant in its own orbitals -/

namespace GPSKet.FrozenRun
open Spec Floats Floats.F ZeroEnergy ZeroSampler AbInitioRun EarlyStopping
open HoppingChain hiding chain target

variable {X κ : Type} {L p n k : ℕ}

/-! ## Means -/

theorem ofC_neg (z : ℂ) : -FC.ofC z = FC.ofC (-z) := rfl

theorem ofC_zero : (0 : FC) = FC.ofC 0 := rfl

theorem mean_const {l : List FC} (hl : l ≠ []) {z : ℂ} (h : ∀ v ∈ l, v = FC.ofC z) : mean l = FC.ofC z := by
  obtain ⟨m, rfl⟩ : ∃ m : List ℂ, l = m.map FC.ofC := ⟨List.replicate l.length z, by
    rw [List.map_replicate]; exact List.eq_replicate_iff.mpr ⟨rfl, h⟩⟩
  have hz : ∀ w ∈ m, w = z := fun w hw => by
    have := h _ (List.mem_map_of_mem hw)
    have h1 := congrArg FC.re this
    have h2 := congrArg FC.im this
    simp only [FC.ofC, fin.injEq] at h1 h2
    exact Complex.ext h1 h2
  have hm : m = List.replicate m.length z := List.eq_replicate_iff.mpr ⟨rfl, hz⟩
  have h0 : (m.length : ℂ) ≠ 0 := by
    rw [Nat.cast_ne_zero]
    intro h
    rw [List.length_eq_zero_iff] at h
    exact hl (by rw [h]; rfl)
  unfold mean
  rw [sum_ofC, FC.ofC_mul, List.length_map]
  congr 1
  rw [hm, List.sum_replicate, List.length_replicate, nsmul_eq_mul]
  field_simp

theorem mean_not_finite {l : List FC} {v : FC} (hv : v ∈ l) (h : ¬Finite v) : ¬Finite (mean l) := fun hf => h (finite_of_sum (finite_of_mul hf).1 v hv)

theorem finite_neg {v : FC} (h : Finite (-v)) : Finite v := by
  rw [finite_iff] at h ⊢
  obtain ⟨⟨x, hx⟩, ⟨y, hy⟩⟩ := h
  obtain ⟨r, i⟩ := v
  constructor
  · cases r <;> first | exact ⟨_, rfl⟩ | exact absurd hx (by intro h; cases h)
  · cases i <;> first | exact ⟨_, rfl⟩ | exact absurd hy (by intro h; cases h)

/-- If all samples are the same configuration, at which local energy and derivatives are finite, the mean is its local energy, and variance, forces and changes of the
parameters are zero. -/
theorem equal_samples (P : Problem X p) (hsol : ∀ M, P.solver M (fun _ => FC.ofC 0) = fun _ => FC.ofC 0) (θ : Fin p → ℂ) (x : X) {E : ℂ} (hE : P.energy θ x = FC.ofC E)
    (hO : ∀ k, Finite (P.deriv θ x k)) {xs : List X} (hne : xs ≠ []) (hx : ∀ y ∈ xs, y = x) :
    rowEnergy P θ xs = FC.ofC (E + P.nuc_en) ∧ rowVariance P θ xs = fin 0 ∧ (∀ k, forces (P.deriv θ) (P.energy θ) xs k = FC.ofC 0) ∧
      ∀ k, advance P θ xs k = FC.ofC (θ k) := by
  have hm : mean (xs.map (P.energy θ)) = FC.ofC E := mean_const (by simpa using hne) fun v hv => by
    obtain ⟨y, hy, rfl⟩ := List.mem_map.mp hv
    rw [hx y hy, hE]
  have hd : ∀ y ∈ xs, P.energy θ y + -mean (xs.map (P.energy θ)) = FC.ofC 0 := fun y hy => by
    rw [hm, hx y hy, hE, ofC_neg, FC.ofC_add, add_neg_cancel]
  have hF : ∀ k, forces (P.deriv θ) (P.energy θ) xs k = FC.ofC 0 := fun k => mean_const (by simpa using hne) fun v hv => by
    obtain ⟨y, hy, rfl⟩ := List.mem_map.mp hv
    rw [hd y hy, hx y hy]
    obtain ⟨o, ho⟩ := hO k
    rw [ho]
    show FC.ofC ((starRingEnd ℂ) o) * FC.ofC 0 = _
    rw [FC.ofC_mul, mul_zero]
  refine ⟨by unfold rowEnergy; rw [hm, FC.ofC_add], ?_, hF, fun k => ?_⟩
  · unfold rowVariance variance
    have : ((xs.map (P.energy θ)).map fun v => absSq (v + -mean (xs.map (P.energy θ)))) = List.replicate xs.length (fin 0) := by
      refine List.eq_replicate_iff.mpr ⟨by simp, fun v hv => ?_⟩
      rw [List.map_map] at hv
      obtain ⟨y, hy, rfl⟩ := List.mem_map.mp hv
      show absSq _ = _
      rw [hd y hy]
      show fin _ = fin _
      congr 1
      norm_num [FC.ofC]
    rw [this, List.sum_replicate]
    have h0 : ∀ m : ℕ, m • (fin 0 : F) = fin 0 := fun m => smul_zero m
    rw [h0]
    show fin _ = fin _
    rw [zero_mul]
  · unfold advance update
    rw [show forces (P.deriv θ) (P.energy θ) xs = fun _ => FC.ofC 0 from funext hF, hsol, FC.ofC_mul, mul_zero, FC.ofC_add, add_zero]

/-- If the local energy of one sample is not finite, neither are the mean, the variance and the forces. -/
theorem bad_sample (P : Problem X p) (θ : Fin p → ℂ) {xs : List X} {x : X} (hx : x ∈ xs) (hE : ¬Finite (P.energy θ x)) :
    ¬Finite (rowEnergy P θ xs) ∧ (∀ v, rowVariance P θ xs ≠ fin v) ∧ ∀ k, ¬Finite (forces (P.deriv θ) (P.energy θ) xs k) := by
  have hm : ¬Finite (mean (xs.map (P.energy θ))) := mean_not_finite (List.mem_map_of_mem hx) hE
  have hd : ¬Finite (P.energy θ x + -mean (xs.map (P.energy θ))) := fun h => hm (finite_neg (finite_of_add h).2)
  refine ⟨fun h => hm (finite_of_add h).1, fun v hv => ?_, fun k => ?_⟩
  · unfold rowVariance variance at hv
    obtain ⟨⟨s, hs⟩, -⟩ := fin_of_mul hv
    have key : ∀ (l : List F) (s : ℝ), l.sum = fin s → ∀ a ∈ l, ∃ y, a = fin y := by
      intro l
      induction l with
      | nil => simp
      | cons b l ih =>
        intro s hs a ha
        rw [List.sum_cons] at hs
        obtain ⟨h1, ⟨t, h2⟩⟩ := fin_of_add hs
        rcases List.mem_cons.mp ha with rfl | ha
        · exact h1
        · exact ih t h2 a ha
    obtain ⟨y, hy⟩ := key _ s hs _ (List.mem_map_of_mem (List.mem_map_of_mem hx))
    obtain ⟨⟨a, ha⟩, ⟨b, hb⟩⟩ := fin_of_add (show _ * _ + _ * _ = fin y from hy)
    exact hd ((finite_iff _).mpr ⟨(fin_of_mul ha).1, (fin_of_mul hb).1⟩)
  · exact mean_not_finite (List.mem_map_of_mem hx) fun h => hd (finite_of_mul h).2

/-! ## Local energies of a molecule at configurations of zero amplitude -/

/-- The local energy of a molecule at a configuration of zero amplitude is infinite or NaN, if there are an electron and an empty orbital of the same spin. -/
theorem zero_molecule (psi : Cfg L → ℂ) (t : Fin L → Fin L → ℂ) (eri : Fin L → Fin L → Fin L → Fin L → ℂ) (x : Cfg L) (hx : psi x = 0)
    (h0 : 0 < numElec false x) (h1 : numElec false x < L) : ¬Finite (floatMolecule psi (numElec false x, numElec true x) t eri x) := by
  intro hf
  unfold floatMolecule moleculeEnergy at hf
  dsimp only at hf
  obtain ⟨hf, -⟩ := finite_of_add hf
  obtain ⟨hf, -⟩ := finite_of_add hf
  obtain ⟨hf, -⟩ := finite_of_add hf
  obtain ⟨hf, -⟩ := finite_of_add hf
  obtain ⟨-, hf⟩ := finite_of_add hf
  have hocc : (occInds x 1).length = numElec false x := by
    rw [← List.toFinset_card_of_nodup (occInds_nodup x 1), show (1 : Fin 4) = spinInt false from rfl, occInds_toFinset]; rfl
  have hun : (unoccInds x 1).length = L - numElec false x := by
    have := unoccInds_length x false
    show (unoccInds x (spinInt false)).length = _
    omega
  rw [nonzeroSize_eq _ _ hocc, nonzeroSize_eq _ _ hun] at hf
  obtain ⟨i, hi⟩ := List.exists_mem_of_length_pos (l := occInds x 1) (by omega)
  obtain ⟨a, ha⟩ := List.exists_mem_of_length_pos (l := unoccInds x 1) (by omega)
  have h2 := finite_of_sum (finite_of_sum hf _ (List.mem_map_of_mem hi)) _ (List.mem_map_of_mem ha)
  have h3 := (finite_of_mul (finite_of_mul h2).2).1
  rw [hx] at h3
  exact floatRatio_zero _ h3

/-! ## The chain -/

theorem drawn_frozen [Fintype X] [DecidableEq X] {step : Matrix X X ℝ} {sweep discard : ℕ} {x : X} (hP : IsKernel step) (hf : Frozen step x) {xs : List X}
    (h : Drawn step sweep discard x xs) : ∀ y ∈ xs, y = x := by
  obtain ⟨ys, -, hc⟩ := h
  have hk : ∀ m, IsKernel (step ^ m) := Markov.pow_kernel hP
  have hone : ∀ y, 0 < (step ^ sweep) x y → y = x := fun y hy => by
    by_contra hne
    have h2 := (hk sweep).sum x
    rw [← Finset.add_sum_erase _ _ (Finset.mem_univ x), hf sweep] at h2
    have h3 : ∑ z ∈ Finset.univ.erase x, (step ^ sweep) x z = 0 := by linarith
    have := (Finset.sum_eq_zero_iff_of_nonneg fun z _ => (hk sweep).nonneg x z).mp h3 y (by simp [hne])
    exact hy.ne' this
  have hall : ∀ l : List X, List.IsChain (fun a b => 0 < (step ^ sweep) a b) (x :: l) → ∀ y ∈ l, y = x := by
    intro l
    induction l with
    | nil => simp
    | cons a l ih =>
      intro hc y hy
      rw [List.isChain_cons_cons] at hc
      have ha := hone a hc.1
      subst ha
      rcases List.mem_cons.mp hy with rfl | hy
      · rfl
      · exact ih hc.2 y hy
  exact fun y hy => hall _ hc y (List.mem_append_right _ hy)

/-! ## Determinants in their own orbitals -/

/-- Orbitals that are combinations of the first `n` orbitals of the basis (`basis_type` 1 and 2 of H2O.py). -/
structure OwnBasis (phi : Fin (n + k) → Fin n → ℂ) : Prop where
  occupied : (Matrix.of fun i j : Fin n => phi (Fin.castAdd k i) j).det ≠ 0
  virtual : ∀ (l : Fin k) j, phi (Fin.natAdd n l) j = 0

theorem own_det {phi : Fin (n + k) → Fin n → ℂ} (h : OwnBasis phi) (e : Fin n → Fin (n + k)) (he : StrictMono e) :
    (Matrix.of fun i j => phi (e i) j).det ≠ 0 ↔ ∀ i, (e i).val < n := by
  constructor
  · intro hd i
    by_contra hi
    apply hd
    refine Matrix.det_eq_zero_of_row_eq_zero i fun j => ?_
    obtain ⟨l, hl⟩ : ∃ l : Fin k, e i = Fin.natAdd n l := ⟨⟨(e i).val - n, by have := (e i).isLt; omega⟩, Fin.ext (by simp; omega)⟩
    simp [hl, h.virtual]
  · intro hi
    have : (fun i j => phi (e i) j) = fun i j => phi (Fin.castAdd k i) j := by
      funext i j
      rw [OrbitalBasis.enum_first he hi]
    rw [this]
    exact h.occupied

theorem own_single {phi : Fin (n + k) → Fin n → ℂ} (h : OwnBasis phi) (x : Cfg (n + k)) (hx : numElec false x = n ∧ numElec true x = n) :
    upDownState phi phi (occOf x) ≠ 0 ↔ x = OrbitalBasis.filled n k := by
  obtain ⟨up, dn, hxx⟩ := SlaterAmplitudes.exists_enumerates hx
  rw [upDownState_det _ _ x up dn hxx.up_mono hxx.dn_mono hxx.up_iff hxx.dn_iff, mul_ne_zero_iff, own_det h up hxx.up_mono, own_det h dn hxx.dn_mono]
  constructor
  · rintro ⟨hu, hd⟩
    funext i
    have h1 : hasSpin false (x i) = true ↔ i.val < n := by
      rw [hxx.up_iff]
      refine ⟨fun ⟨j, hj⟩ => hj ▸ hu j, fun hi => ⟨⟨i.val, hi⟩, ?_⟩⟩
      rw [OrbitalBasis.enum_first hxx.up_mono hu]; rfl
    have h2 : hasSpin true (x i) = true ↔ i.val < n := by
      rw [hxx.dn_iff]
      refine ⟨fun ⟨j, hj⟩ => hj ▸ hd j, fun hi => ⟨⟨i.val, hi⟩, ?_⟩⟩
      rw [OrbitalBasis.enum_first hxx.dn_mono hd]; rfl
    unfold OrbitalBasis.filled
    generalize x i = v at h1 h2
    by_cases hi : i.val < n
    · rw [if_pos hi]
      have a := h1.mpr hi
      have b := h2.mpr hi
      revert a b
      fin_cases v <;> simp [hasSpin]
    · rw [if_neg hi]
      have a : hasSpin false v ≠ true := fun hh => hi (h1.mp hh)
      have b : hasSpin true v ≠ true := fun hh => hi (h2.mp hh)
      revert a b
      fin_cases v <;> simp [hasSpin]
  · rintro rfl
    constructor <;> intro i
    · have := (hxx.up_iff (up i)).mpr ⟨i, rfl⟩
      unfold OrbitalBasis.filled at this
      by_contra hc
      rw [if_neg hc] at this
      exact absurd this (by decide)
    · have := (hxx.dn_iff (dn i)).mpr ⟨i, rfl⟩
      unfold OrbitalBasis.filled at this
      by_contra hc
      rw [if_neg hc] at this
      exact absurd this (by decide)

/-- The canonical orbitals in the split-localised basis of the script (`basis_type` 2, and 1 if nothing is rotated) are of this kind. -/
theorem own_split {m : OrbitalBasis.Integrals (n + k)} {occ : Matrix (Fin n) (Fin n) ℝ} {vrt : Matrix (Fin k) (Fin k) ℝ}
    (hm : OrbitalBasis.Orthonormal m m.mo_coeff) (ho : occ.transpose * occ = 1) :
    OwnBasis fun i (j : Fin n) => (OrbitalBasis.canonicalToLocal m (OrbitalBasis.splitBasis m.mo_coeff occ vrt) i (Fin.castAdd k j) : ℂ) := by
  rw [OrbitalBasis.canonical_split hm]
  constructor
  · have : (Matrix.of fun i j : Fin n => (((OrbitalBasis.blockU occ vrt).transpose (Fin.castAdd k i) (Fin.castAdd k j) : ℝ) : ℂ)) =
        Complex.ofRealHom.mapMatrix occ.transpose := by
      ext i j
      simp [OrbitalBasis.blockU]
    rw [this, ← RingHom.map_det, Matrix.det_transpose]
    have h1 := congrArg Matrix.det ho
    rw [Matrix.det_mul, Matrix.det_transpose, Matrix.det_one] at h1
    refine (map_ne_zero _).mpr fun h0 => ?_
    rw [h0] at h1
    simp at h1
  · intro l j
    simp [OrbitalBasis.blockU]

/-- Such orbitals exist. -/
example : OwnBasis fun (i : Fin (n + k)) (j : Fin n) => if i = Fin.castAdd k j then (1 : ℂ) else 0 := by
  constructor
  · have : (Matrix.of fun i j : Fin n => if Fin.castAdd k i = Fin.castAdd k j then (1 : ℂ) else 0) = 1 := by
      ext i j
      simp [Matrix.one_apply]
    rw [this, Matrix.det_one]
    exact one_ne_zero
  · intro l j
    rw [if_neg]
    intro h
    have := congrArg Fin.val h
    simp at this
    omega

/-- The reference states 1, 2 and 5 of H2O.py. -/
def IsDeterminant : Reference.Ref → Prop
  | .slater => True
  | .projectedSlater a => Reference.totalWeight a ≠ 0
  | .fullSlater => True
  | _ => False

/-- The configuration with all electrons in the first orbitals. -/
def reference (n k : ℕ) : Sector (n + k) n n := ⟨OrbitalBasis.filled n k, OrbitalBasis.filled_card _, OrbitalBasis.filled_card _⟩

/-- **C180**: the initial state of H2O.py with a determinant as reference, in a basis whose first orbitals span the determinant, is a single configuration, whatever the
parameters of the qGPS are. -/
theorem C180_single [NeZero (n + k)] {Mq : ℕ} {τ : Type} [Fintype τ] {phi : Fin (n + k) → Fin n → ℂ} (h : OwnBasis phi) {r : Reference.Ref} (hr : IsDeterminant r)
    (q : Option (QGPS.Module (n + k) 4 Mq τ)) (psi : Arr (n + k) → ℂ)
    (hpsi : ∀ y : Sector (n + k) n n, some (psi (embed y.1)) = Reference.times (Reference.initial phi y.1 r) (q.map fun q => (QGPS.model q).full y.1)) :
    OnlyAt (amp psi) (reference n k) := by
  intro y
  have key : ∃ c : ℂ, c ≠ 0 ∧ Reference.initial phi y.1 r = some (c * upDownState phi phi (occOf y.1)) := by
    cases r with
    | slater => exact ⟨1, one_ne_zero, by rw [one_mul]; exact (Reference.C122_determinants phi y.1 y.2 []).1⟩
    | projectedSlater a => exact ⟨_, hr, (Reference.C122_determinants phi y.1 y.2 a).2.2⟩
    | fullSlater => exact ⟨1, one_ne_zero, by rw [one_mul]; exact (Reference.C122_determinants phi y.1 y.2 []).2.1⟩
    | pfaffian => exact hr.elim
    | projectedPfaffian a => exact hr.elim
  obtain ⟨c, hc, hi⟩ := key
  have hy := hpsi y
  rw [hi] at hy
  have hv : amp psi y ≠ 0 ↔ upDownState phi phi (occOf y.1) ≠ 0 := by
    unfold amp
    cases q with
    | none =>
      have : psi (embed y.1) = c * upDownState phi phi (occOf y.1) := Option.some.inj hy
      rw [this, mul_ne_zero_iff]
      exact ⟨fun h => h.2, fun h => ⟨hc, h⟩⟩
    | some q =>
      have : psi (embed y.1) = c * upDownState phi phi (occOf y.1) * Complex.exp ((QGPS.model q).full y.1) := Option.some.inj hy
      rw [this, mul_ne_zero_iff, mul_ne_zero_iff]
      exact ⟨fun h => h.1.2, fun h => ⟨⟨hc, h⟩, Complex.exp_ne_zero _⟩⟩
  rw [hv, own_single h y.1 y.2]
  exact ⟨fun h => Subtype.ext h, fun h => congrArg Subtype.val h⟩

/-! ## C180 -/

/-- The Hamiltonian of the molecule between configurations. -/
noncomputable def molecule (h : Fin L → Fin L → ℂ) (e : Fin L → Fin L → Fin L → Fin L → ℂ) (x y : Sector L n n) : ℂ :=
  (1 / 2) * abInitioTwice h e (occOf x.1) (occOf y.1)

/-- What H2O.py optimises: local energies by `AbInitioHamiltonianOnTheFly` (H2O.py line 120) of the amplitudes `psi θ`, with any derivatives and any solver. -/
noncomputable def problem (h : Fin L → Fin L → ℂ) (e : Fin L → Fin L → Fin L → Fin L → ℂ) (psi : (Fin p → ℂ) → Arr L → ℂ)
    (deriv : (Fin p → ℂ) → Sector L n n → Fin p → FC) (solver : Matrix (Fin p) (Fin p) FC → (Fin p → FC) → Fin p → FC) (nuc_en : ℝ) : Problem (Sector L n n) p where
  energy := fun θ x => floatMolecule (fun y => psi θ (embed y)) (n, n) (abT h e) e x.1
  deriv := deriv
  solver := solver
  nuc_en := nuc_en

theorem rayleigh_single {C : Type} [Fintype C] (H : C → C → ℂ) {psi : C → ℂ} {x₀ : C} (h : OnlyAt psi x₀) : rayleigh H psi = H x₀ x₀ := by
  have h0 : ∀ y, y ≠ x₀ → psi y = 0 := fun y hy => by_contra fun hc => hy ((h y).mp hc)
  have hx : psi x₀ ≠ 0 := (h x₀).mpr rfl
  unfold rayleigh bornNorm
  rw [Finset.sum_eq_single x₀ (fun y _ hy => by simp [h0 y hy]) (by simp), Finset.sum_eq_single x₀ (fun y _ hy => by simp [h0 y hy]) (by simp),
    Finset.sum_eq_single x₀ (fun y _ hy => by simp [h0 y hy]) (by simp)]
  rw [← Complex.normSq_eq_norm_sq, ← Complex.mul_conj]
  have : (starRingEnd ℂ) (psi x₀) ≠ 0 := (map_ne_zero _).mpr hx
  field_simp

theorem local_single {C : Type} [Fintype C] (H : C → C → ℂ) {psi : C → ℂ} {x₀ : C} (h : OnlyAt psi x₀) : localValue H psi x₀ = H x₀ x₀ := by
  have h0 : ∀ y, y ≠ x₀ → psi y = 0 := fun y hy => by_contra fun hc => hy ((h y).mp hc)
  have hx : psi x₀ ≠ 0 := (h x₀).mpr rfl
  unfold localValue
  rw [Finset.sum_eq_single x₀ (fun y _ hy => by simp [h0 y hy]) (by simp)]
  field_simp

variable {h : Fin L → Fin L → ℂ} {e : Fin L → Fin L → Fin L → Fin L → ℂ} {psi : (Fin p → ℂ) → Arr L → ℂ}
  {deriv : (Fin p → ℂ) → Sector L n n → Fin p → FC} {solver : Matrix (Fin p) (Fin p) FC → (Fin p → FC) → Fin p → FC} {nuc_en : ℝ}
  {θ₀ : Fin p → ℂ} {x₀ : Sector L n n}

theorem energy_reference (hsym : ∀ p q r s, e p q r s = e r s p q) (hs : OnlyAt (amp (psi θ₀)) x₀) :
    (problem h e psi deriv solver nuc_en).energy θ₀ x₀ = FC.ofC (rayleigh (molecule (n := n) h e) (amp (psi θ₀))) := by
  have := float_molecule h e hsym (fun y => psi θ₀ (embed y)) x₀.1 ((hs x₀).mpr rfl)
  rw [x₀.2.1, x₀.2.2] at this
  refine this.trans ?_
  congr 1
  rw [rayleigh_single _ hs, ← local_single (molecule h e) hs]
  exact localValue_restrict (fun x y => (1 / 2) * abInitioTwice h e (occOf x) (occOf y)) (fun x y hx hy =>
      SampledEnergy.sector_conserves (H := fun x y => (1 / 2) * abInitioTwice h e (occOf x) (occOf y))
        (fun s x y hxy => by rw [SampledEnergy.abInitio_conserves h e s x y hxy, mul_zero]) x y hx hy) (fun y => psi θ₀ (embed y)) x₀

/-- **C180**: as long as the parameters are the initial ones, every row of `out.txt` has the exact energy of the state and variance zero, or neither a number for the energy nor
one for the variance; in this case no entry of the forces is a number either. -/
theorem C180_rows (hn : 0 < n) (hL : n < L) (hsym : ∀ p q r s, e p q r s = e r s p q) (hs : OnlyAt (amp (psi θ₀)) x₀)
    (hsol : ∀ M, solver M (fun _ => FC.ofC 0) = fun _ => FC.ofC 0) (hO : ∀ k, Finite (deriv θ₀ x₀ k)) (xs : List (Sector L n n)) (hne : xs ≠ []) :
    let P := problem h e psi deriv solver nuc_en
    (rowEnergy P θ₀ xs = FC.ofC (rayleigh (molecule (n := n) h e) (amp (psi θ₀)) + nuc_en) ∧ rowVariance P θ₀ xs = fin 0) ∨
      (¬Finite (rowEnergy P θ₀ xs) ∧ (∀ v, rowVariance P θ₀ xs ≠ fin v) ∧ ∀ k, ¬Finite (forces (P.deriv θ₀) (P.energy θ₀) xs k)) := by
  intro P
  by_cases hall : ∀ y ∈ xs, y = x₀
  · have := equal_samples P hsol θ₀ x₀ (energy_reference hsym hs) hO hne hall
    exact Or.inl ⟨this.1, this.2.1⟩
  · push Not at hall
    obtain ⟨y, hy, hne'⟩ := hall
    refine Or.inr (bad_sample P θ₀ hy ?_)
    have hz : psi θ₀ (embed y.1) = 0 := by_contra fun hc => hne' ((hs y).mp hc)
    have := zero_molecule (fun y => psi θ₀ (embed y)) (abT h e) e y.1 hz (by rw [y.2.1]; exact hn) (by rw [y.2.1]; exact hL)
    rw [y.2.1, y.2.2] at this
    exact this

theorem chain_kernel (hn : 0 < n) {hop : ℝ} (h0 : 0 ≤ hop) (h1 : hop ≤ 1) (psi : Arr L → ℂ) :
    IsKernel (chain psi 2 hop none : Matrix (Sector L n n) (Sector L n n) ℝ) :=
  (C178_invariant (by omega) psi two_pos h0 h1 (T := none) trivial trivial trivial).1

/-- **C180**: if the chain starts more than one hop away from the reference configuration, there is no row with numbers. -/
theorem C180_elsewhere (hn : 0 < n) (hL : n < L) {hop : ℝ} (h0 : 0 ≤ hop) (h1 : hop ≤ 1) (hs : OnlyAt (amp (psi θ₀)) x₀) {x : Sector L n n} (hx : x ≠ x₀)
    (hfar : ¬Proposed hop none x x₀) {sweep discard : ℕ} {xs : List (Sector L n n)} (hne : xs ≠ [])
    (hd : Drawn (chain (psi θ₀) 2 hop none) sweep discard x xs) :
    let P := problem h e psi deriv solver nuc_en
    ¬Finite (rowEnergy P θ₀ xs) ∧ (∀ v, rowVariance P θ₀ xs ≠ fin v) ∧ ∀ k, ¬Finite (forces (P.deriv θ₀) (P.energy θ₀) xs k) := by
  intro P
  have hz : ∀ y, y ≠ x₀ → amp (psi θ₀) y = 0 := fun y hy => by_contra fun hc => hy ((hs y).mp hc)
  have hfro : Frozen (chain (psi θ₀) 2 hop none) x := C178_frozen (by omega) (psi θ₀) two_pos h0 h1 (T := none) trivial trivial trivial x fun y _ hp => by
    refine hz y fun hc => hfar (hc ▸ hp)
  have hall := drawn_frozen (chain_kernel hn h0 h1 (psi θ₀)) hfro hd
  obtain ⟨y, hy⟩ := List.exists_mem_of_ne_nil xs hne
  refine bad_sample P θ₀ hy ?_
  have := zero_molecule (fun y => psi θ₀ (embed y)) (abT h e) e y.1 (hz y (by rw [hall y hy]; exact hx)) (by rw [y.2.1]; exact hn) (by rw [y.2.1]; exact hL)
  rw [y.2.1, y.2.2] at this
  exact this

/-- **C180 is false for the progress of the optimisation**: if the chain starts at the reference configuration, H2O.py writes `max_count + 1` times the energy of the initial state with
variance zero, changes no parameter, and ends with the initial parameters as the best ones. -/
theorem C180_progress_fails (hn : 0 < n) {hop : ℝ} (h0 : 0 ≤ hop) (h1 : hop ≤ 1) (hsym : ∀ p q r s, e p q r s = e r s p q) (hs : OnlyAt (amp (psi θ₀)) x₀)
    (hsol : ∀ M, solver M (fun _ => FC.ofC 0) = fun _ => FC.ofC 0) (hO : ∀ k, Finite (deriv θ₀ x₀ k)) {sweep discard N : ℕ} (hN : 0 < N) {max_count : ℕ} (hc : 0 < max_count)
    {u : (Fin p → ℂ) → Sector L n n × κ → Eval (Fin p → ℂ) (Sector L n n × κ) ℝ ℂ Unit}
    (hu : Evaluates (problem h e psi deriv solver nuc_en) (fun θ => chain (psi θ) 2 hop none) sweep discard N u) (key : κ) :
    (∀ j, (traj (stepOf u) θ₀ (x₀, key) j).1 = θ₀) ∧
    ∃ j, (runs ⟨max_count, none⟩ u θ₀ (x₀, key) j).2 = .finished ∧
      (runs ⟨max_count, none⟩ u θ₀ (x₀, key) j).1.out = some (List.replicate (max_count + 1) (0, rayleigh (molecule (n := n) h e) (amp (psi θ₀)) + nuc_en)) ∧
      (runs ⟨max_count, none⟩ u θ₀ (x₀, key) j).1.pars = some (some θ₀) ∧ (runs ⟨max_count, none⟩ u θ₀ (x₀, key) j).1.best = some (some θ₀) := by
  have hz : ∀ y, y ≠ x₀ → amp (psi θ₀) y = 0 := fun y hy => by_contra fun hc => hy ((hs y).mp hc)
  have hfro : Frozen (chain (psi θ₀) 2 hop none) x₀ := C178_frozen (by omega) (psi θ₀) two_pos h0 h1 (T := none) trivial trivial trivial x₀ fun y hy _ => hz y hy
  have hstep : ∀ key, (u θ₀ (x₀, key)).next = θ₀ ∧ (u θ₀ (x₀, key)).sampler.1 = x₀ ∧ (u θ₀ (x₀, key)).var = 0 ∧
      (u θ₀ (x₀, key)).stats = rayleigh (molecule (n := n) h e) (amp (psi θ₀)) + nuc_en := by
    intro key
    obtain ⟨xs, last, key', hlen, hd, hl, he⟩ := hu θ₀ (x₀, key)
    have hall := drawn_frozen (chain_kernel hn h0 h1 (psi θ₀)) hfro hd
    have hne : xs ≠ [] := by rintro rfl; simp at hlen; omega
    obtain ⟨e1, e2, -, e4⟩ := equal_samples (problem h e psi deriv solver nuc_en) hsol θ₀ x₀ (energy_reference hsym hs) hO hne hall
    rw [he]
    refine ⟨?_, hall last (List.mem_of_getLast? hl), ?_, ?_⟩
    · funext k
      show valueC (advance _ θ₀ xs k) = _
      rw [e4]; rfl
    · show value (rowVariance _ θ₀ xs) = 0
      rw [e2]; rfl
    · show valueC (rowEnergy _ θ₀ xs) = _
      rw [e1]; rfl
  have htraj : ∀ j, (traj (stepOf u) θ₀ (x₀, key) j).1 = θ₀ ∧ ∃ key', (traj (stepOf u) θ₀ (x₀, key) j).2 = (x₀, key') := by
    intro j
    induction j with
    | zero => exact ⟨rfl, key, rfl⟩
    | succ j ih =>
      obtain ⟨h1, key', h2⟩ := ih
      show (u (traj (stepOf u) θ₀ (x₀, key) j).1 (traj (stepOf u) θ₀ (x₀, key) j).2).next = _ ∧ _
      refine ⟨by rw [h1, h2]; exact (hstep key').1, (u θ₀ (x₀, key')).sampler.2, ?_⟩
      show (u (traj (stepOf u) θ₀ (x₀, key) j).1 (traj (stepOf u) θ₀ (x₀, key) j).2).sampler = _
      rw [h1, h2]
      exact Prod.ext (hstep key').2.1 rfl
  have hvar : ∀ j, varOf u (traj (stepOf u) θ₀ (x₀, key) j) = 0 := fun j => by
    obtain ⟨h1, key', h2⟩ := htraj j
    show (u _ _).var = 0
    rw [h1, h2]; exact (hstep key').2.2.1
  have hrow : ∀ j, rowOf u (traj (stepOf u) θ₀ (x₀, key) j) = (0, rayleigh (molecule (n := n) h e) (amp (psi θ₀)) + nuc_en) := fun j => by
    obtain ⟨h1, key', h2⟩ := htraj j
    show ((u _ _).var, (u _ _).stats) = _
    rw [h1, h2, (hstep key').2.2.1, (hstep key').2.2.2]
  have hvars : ∀ m, ((List.range m).map (traj (stepOf u) θ₀ (x₀, key))).map (varOf u) = List.replicate m 0 := fun m =>
    List.eq_replicate_iff.mpr ⟨by simp, fun v hv => by
      obtain ⟨a, ha, rfl⟩ := List.mem_map.mp hv
      obtain ⟨j, -, rfl⟩ := List.mem_map.mp ha
      exact hvar j⟩
  have hrows : ∀ m, ((List.range m).map (traj (stepOf u) θ₀ (x₀, key))).map (rowOf u) =
      List.replicate m (0, rayleigh (molecule (n := n) h e) (amp (psi θ₀)) + nuc_en) := fun m =>
    List.eq_replicate_iff.mpr ⟨by simp, fun v hv => by
      obtain ⟨a, ha, rfl⟩ := List.mem_map.mp hv
      obtain ⟨j, -, rfl⟩ := List.mem_map.mp ha
      exact hrow j⟩
  refine ⟨fun j => (htraj j).1, ?_⟩
  obtain ⟨j, hj⟩ := C114_terminates (r := ⟨max_count, none⟩) u θ₀ (x₀, key) hc (max_count + 1) (by
    show Exhausted max_count (List.drop 0 _)
    rw [List.drop_zero, hvars]
    refine ⟨0, ⟨0, by simp, fun w hw => (List.eq_of_mem_replicate hw).ge, fun i w hi => absurd hi (by omega)⟩, by simp; omega⟩)
  obtain ⟨m, b, hm, hb, -, ho, hp, hbest, -⟩ := C114_uninterrupted (r := ⟨max_count, none⟩) u θ₀ (x₀, key) hc hj
  have hm' : m = b + 1 + max_count := by simpa using hm
  have hb0 : b = 0 := by
    change IsFirstMin (List.drop 0 _) b at hb
    rw [List.drop_zero, hvars] at hb
    obtain ⟨v, hv, -, hlt⟩ := hb
    by_contra hne
    have h1 := hlt 0 0 (by omega) (by rw [List.getElem?_replicate, if_pos (by omega)])
    have h2 := List.eq_of_mem_replicate (List.mem_of_getElem? hv)
    rw [h2] at h1
    exact lt_irrefl _ h1
  subst hb0
  refine ⟨j, hj, ?_, ?_, ?_⟩
  · rw [ho, hrows, hm']
    congr 2
    omega
  · rw [hp, (htraj _).1]
  · rw [hbest, if_pos rfl]

/-- There are evaluations as in the hypothesis of `C180_progress_fails`, for all amplitudes. -/
theorem evaluates_exists [Fintype X] [DecidableEq X] (P : Problem X p) (step : (Fin p → ℂ) → Matrix X X ℝ) (hk : ∀ θ, IsKernel (step θ)) (sweep discard : ℕ) {N : ℕ} (hN : 0 < N) :
    ∃ u : (Fin p → ℂ) → X × κ → Eval (Fin p → ℂ) (X × κ) ℝ ℂ Unit, Evaluates P step sweep discard N u := by
  have hpath : ∀ (θ : Fin p → ℂ) (m : ℕ) (x : X), ∃ l : List X, l.length = m ∧ List.IsChain (fun a b => 0 < (step θ ^ sweep) a b) (x :: l) := by
    intro θ m
    induction m with
    | zero => exact fun x => ⟨[], rfl, List.isChain_singleton x⟩
    | succ m ih =>
      intro x
      obtain ⟨y, -, hy⟩ : ∃ y ∈ Finset.univ, (step θ ^ sweep) x y ≠ 0 := by
        apply Finset.exists_ne_zero_of_sum_ne_zero
        rw [(Markov.pow_kernel (hk θ) sweep).sum x]
        exact one_ne_zero
      obtain ⟨l, hl, hc⟩ := ih y
      exact ⟨y :: l, by simp [hl], List.isChain_cons_cons.mpr ⟨lt_of_le_of_ne ((Markov.pow_kernel (hk θ) sweep).nonneg x y) (Ne.symm hy), hc⟩⟩
  have hex : ∀ (θ : Fin p → ℂ) (s : X × κ), ∃ (w : Eval (Fin p → ℂ) (X × κ) ℝ ℂ Unit) (xs : List X) (last : X) (key : κ),
      xs.length = N ∧ Drawn (step θ) sweep discard s.1 xs ∧ xs.getLast? = some last ∧ w = evaluation P θ xs last key := by
    intro θ s
    obtain ⟨l, hl, hc⟩ := hpath θ (discard + N) s.1
    have hlen : (l.drop discard).length = N := by rw [List.length_drop]; omega
    have hne : l.drop discard ≠ [] := fun h => by rw [h] at hlen; simp at hlen; omega
    refine ⟨_, l.drop discard, (l.drop discard).getLast hne, s.2, hlen, ⟨l.take discard, ?_, ?_⟩, List.getLast?_eq_some_getLast hne, rfl⟩
    · rw [List.length_take]; omega
    · rw [List.take_append_drop]; exact hc
  choose w hw using hex
  exact ⟨w, hw⟩

/-- The hypotheses are met for two orbitals and two electrons, with the identity as orbitals and no qGPS. -/
example : ∃ psi : Arr (1 + 1) → ℂ, OnlyAt (amp psi) (reference 1 1) ∧ ∃ x : Sector (1 + 1) 1 1, x ≠ reference 1 1 := by
  classical
  refine ⟨fun a => if a = embed (reference 1 1).1 then 1 else 0, fun y => ?_, ⟨![0, 3], by decide, by decide⟩, by decide⟩
  unfold amp
  constructor
  · intro h
    by_contra hc
    exact h (if_neg fun he => hc (emb_inj he))
  · rintro rfl
    beta_reduce
    rw [if_pos rfl]
    exact one_ne_zero

end GPSKet.FrozenRun
