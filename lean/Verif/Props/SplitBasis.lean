import Verif.Model.SplitBasis
import Verif.Props.OrbitalBasis
import Verif.Props.SlaterState
import Mathlib.LinearAlgebra.Matrix.Determinant.Basic

/-!
# C135: split-localised orbitals; C136: names of bases

Specification used: `Verif/Spec/HartreeFock.lean` (`hartreeFock`).
-/

namespace GPSKet.OrbitalBasis
open Matrix GPSKet.Spec

section sector
variable {L : ℕ} {K : Type} [CommRing K]

/-- A determinant of orbitals with definite spins has definite numbers of electrons of either spin. -/
theorem slaterState_spin (l : List (Bool × (Fin L → K))) (n : Occ (Mode L)) (s : Bool)
    (h : slaterState (l.map fun t => spinOrbital t.1 t.2) n ≠ 0) :
    (Finset.univ.filter fun i => n (mode s i) = true).card = (l.filter fun t => t.1 = s).length := by
  induction l generalizing n with
  | nil =>
    by_cases hn : n = fun _ => false
    · subst hn; simp
    · simp [slaterState, vacuum, hn] at h
  | cons t l ih =>
    change (creOrb (spinOrbital t.1 t.2) *ᵥ slaterState (l.map fun t => spinOrbital t.1 t.2)) n ≠ 0 at h
    rw [creOrb_mulVec] at h
    obtain ⟨p, _, hp⟩ := Finset.exists_ne_zero_of_sum_ne_zero h
    split_ifs at hp with hn
    · have h1 := ih _ (right_ne_zero_of_mul hp)
      obtain ⟨u, j, rfl⟩ : ∃ u j, p = mode u j := ⟨(ofLex p).1, (ofLex p).2, rfl⟩
      have hu : u = t.1 := by
        by_contra hu
        have : spinOrbital t.1 t.2 (mode u j) = (0 : K) := if_neg hu
        rw [this] at hp
        simp at hp
      rw [List.filter_cons]
      by_cases hs : t.1 = s
      · rw [if_pos (by simpa using hs), List.length_cons, ← h1]
        have : (Finset.univ.filter fun i => n (mode s i) = true) =
            insert j (Finset.univ.filter fun i => Function.update n (mode u j) false (mode s i) = true) := by
          ext i
          by_cases hi : i = j
          · subst hi; simp only [Finset.mem_filter, Finset.mem_univ, true_and, Finset.mem_insert, true_or, iff_true]
            rw [← hs, ← hu]; exact hn
          · have : mode s i ≠ mode u j := by rw [Ne, mode_inj]; tauto
            simp [Function.update_of_ne this, hi]
        rw [this, Finset.card_insert_of_notMem]
        simp [hu, hs]
      · rw [if_neg (by simpa using hs), ← h1]
        congr 1
        ext i
        have : mode s i ≠ mode u j := by
          rw [Ne, mode_inj]
          rintro ⟨h3, _⟩
          exact hs (by rw [← hu, h3])
        simp [Function.update_of_ne this]
    · exact absurd rfl hp

theorem upDownState_sector {n_up n_down : ℕ} (a : Fin L → Fin n_up → K) (b : Fin L → Fin n_down → K) (x : Cfg L)
    (h : upDownState a b (occOf x) ≠ 0) : numElec false x = n_up ∧ numElec true x = n_down := by
  have hl : List.ofFn (fun k => spinOrbital false fun i => a i k) ++ List.ofFn (fun k => spinOrbital true fun i => b i k) =
      (List.ofFn (fun k => (false, fun i => a i k)) ++ List.ofFn (fun k => (true, fun i => b i k))).map fun t => spinOrbital t.1 t.2 := by
    rw [List.map_append, List.map_ofFn, List.map_ofFn]
    rfl
  unfold upDownState at h
  rw [hl] at h
  have hf := slaterState_spin _ _ false h
  have ht := slaterState_spin _ _ true h
  have e1 : ∀ (s : Bool) (m : ℕ) (g : Fin m → (Fin L → K)) (r : Bool), ((List.ofFn fun k => (s, g k)).filter fun t => t.1 = r).length = if s = r then m else 0 := by
    intro s m g r
    by_cases hsr : s = r
    · rw [if_pos hsr, List.filter_eq_self.mpr, List.length_ofFn]
      intro t ht
      obtain ⟨k, rfl⟩ := List.mem_ofFn.mp ht
      simpa using hsr
    · rw [if_neg hsr, List.filter_eq_nil_iff.mpr, List.length_nil]
      intro t ht
      obtain ⟨k, rfl⟩ := List.mem_ofFn.mp ht
      simpa using hsr
  rw [List.filter_append, List.length_append, e1, e1] at hf ht
  simp at hf ht
  exact ⟨hf, ht⟩

end sector

variable {n k : ℕ}

/-- The configuration with the first `n` orbitals doubly occupied. -/
def filled (n k : ℕ) : Cfg (n + k) := fun i => if i.val < n then 3 else 0

section
variable {m : Integrals (n + k)} {occ : Matrix (Fin n) (Fin n) ℝ} {vrt : Matrix (Fin k) (Fin k) ℝ}

/-- The orthogonal matrix of the two localisations. -/
def blockU (occ : Matrix (Fin n) (Fin n) ℝ) (vrt : Matrix (Fin k) (Fin k) ℝ) : Matrix (Fin (n + k)) (Fin (n + k)) ℝ :=
  (Matrix.fromBlocks occ 0 0 vrt).submatrix finSumFinEquiv.symm finSumFinEquiv.symm

theorem splitBasis_eq (mo : Matrix (Fin (n + k)) (Fin (n + k)) ℝ) : splitBasis mo occ vrt = mo * blockU occ vrt := by
  ext a j
  rw [Matrix.mul_apply, ← finSumFinEquiv.sum_comp, Fintype.sum_sum_type]
  induction j using Fin.addCases with
  | left j => simp [splitBasis, blockU]
  | right j => simp [splitBasis, blockU]

theorem blockU_orthogonal (ho : occᵀ * occ = 1) (hv : vrtᵀ * vrt = 1) : (blockU occ vrt)ᵀ * blockU occ vrt = 1 := by
  unfold blockU
  rw [transpose_submatrix, submatrix_mul_equiv, fromBlocks_transpose, fromBlocks_multiply, ho, hv]
  simp

/-- **C135**: the split-localised basis passes the check of the script. -/
theorem C135_orthonormal (hm : Orthonormal m m.mo_coeff) (ho : occᵀ * occ = 1) (hv : vrtᵀ * vrt = 1) :
    Orthonormal m (splitBasis m.mo_coeff occ vrt) := by
  unfold Orthonormal at *
  rw [splitBasis_eq, transpose_mul]
  calc (blockU occ vrt)ᵀ * m.mo_coeffᵀ * m.ovlp * (m.mo_coeff * blockU occ vrt)
      = (blockU occ vrt)ᵀ * (m.mo_coeffᵀ * m.ovlp * m.mo_coeff) * blockU occ vrt := by simp only [Matrix.mul_assoc]
    _ = 1 := by rw [hm, Matrix.mul_one, blockU_orthogonal ho hv]

theorem canonical_split (hm : Orthonormal m m.mo_coeff) : canonicalToLocal m (splitBasis m.mo_coeff occ vrt) = (blockU occ vrt)ᵀ := by
  unfold Orthonormal at hm
  unfold canonicalToLocal
  rw [splitBasis_eq, transpose_mul, Matrix.mul_assoc, ← Matrix.mul_assoc m.mo_coeffᵀ, hm, Matrix.mul_one]

theorem enum_first {e : Fin n → Fin (n + k)} (he : StrictMono e) (hlt : ∀ i, (e i).val < n) (i : Fin n) : e i = Fin.castAdd k i := by
  let f : Fin n → Fin n := fun i => ⟨(e i).val, hlt i⟩
  have hf : StrictMono f := fun a b hab => he hab
  have hid : f = id := by
    have := Subsingleton.elim (hf.orderIsoOfSurjective f (Finite.injective_iff_surjective.mp hf.injective)) (OrderIso.refl (Fin n))
    funext i
    exact congrArg (fun g : Fin n ≃o Fin n => g i) this
  have := congrFun hid i
  have h2 : (e i).val = i.val := congrArg Fin.val this
  exact Fin.ext h2

theorem det_first (e : Fin n → Fin (n + k)) (he : StrictMono e) :
    (Matrix.of fun (i j : Fin n) => (((blockU occ vrt)ᵀ (e i) (Fin.castLE (Nat.le_add_right n k) j) : ℝ) : ℂ)).det
      = if ∀ i, (e i).val < n then ((occ.det : ℝ) : ℂ) else 0 := by
  split_ifs with h
  · have : (Matrix.of fun (i j : Fin n) => (((blockU occ vrt)ᵀ (e i) (Fin.castLE (Nat.le_add_right n k) j) : ℝ) : ℂ))
        = (Complex.ofRealHom.mapMatrix occᵀ) := by
      ext i j
      have hc : Fin.castLE (Nat.le_add_right n k) j = Fin.castAdd k j := rfl
      simp [enum_first he h i, blockU, hc]
    rw [this, ← RingHom.map_det, det_transpose]
    rfl
  · push Not at h
    obtain ⟨i, hi⟩ := h
    refine det_eq_zero_of_row_eq_zero i fun j => ?_
    obtain ⟨l, hl⟩ : ∃ l : Fin k, e i = Fin.natAdd n l := ⟨⟨(e i).val - n, by have := (e i).isLt; omega⟩, Fin.ext (by simp; omega)⟩
    have hc : Fin.castLE (Nat.le_add_right n k) j = Fin.castAdd k j := rfl
    simp [hl, blockU, hc]

theorem filled_card (s : Bool) : numElec s (filled n k) = n := by
  unfold numElec filled
  have : (Finset.univ.filter fun i : Fin (n + k) => hasSpin s (if i.val < n then 3 else 0) = true)
      = Finset.univ.image (Fin.castAdd k : Fin n → Fin (n + k)) := by
    ext i
    simp only [Finset.mem_filter, Finset.mem_univ, true_and, Finset.mem_image]
    constructor
    · intro h
      by_cases hi : i.val < n
      · exact ⟨⟨i.val, hi⟩, rfl⟩
      · rw [if_neg hi] at h
        cases s <;> simp [hasSpin] at h
    · rintro ⟨j, rfl⟩
      rw [if_pos (by simp)]
      cases s <;> rfl
  rw [this, Finset.card_image_of_injective _ (Fin.castAdd_injective _ _), Finset.card_univ, Fintype.card_fin]

/-- **C135**: for equal numbers `n` of up and down electrons, the Hartree-Fock state in the split-localised basis is a single
configuration, with the first `n` orbitals doubly occupied. -/
theorem C135_single (hm : Orthonormal m m.mo_coeff) (ho : occᵀ * occ = 1) (x : Cfg (n + k)) :
    hartreeFock (fun i j => (canonicalToLocal m (splitBasis m.mo_coeff occ vrt) i j : ℂ))
        (fun i j => (canonicalToLocal m (splitBasis m.mo_coeff occ vrt) i j : ℂ)) (Nat.le_add_right n k) (Nat.le_add_right n k) (occOf x)
      = if x = filled n k then 1 else 0 := by
  rw [canonical_split hm]
  unfold hartreeFock
  by_cases hx : numElec false x = n ∧ numElec true x = n
  · obtain ⟨up, dn, h⟩ := SlaterAmplitudes.exists_enumerates hx
    rw [upDownState_det _ _ x up dn h.up_mono h.dn_mono h.up_iff h.dn_iff, det_first up h.up_mono, det_first dn h.dn_mono]
    have hdet : occ.det * occ.det = 1 := by
      have := congrArg Matrix.det ho
      rwa [det_mul, det_transpose, det_one] at this
    by_cases hu : ∀ i, (up i).val < n
    · by_cases hd : ∀ i, (dn i).val < n
      · rw [if_pos hu, if_pos hd, ← Complex.ofReal_mul, hdet, if_pos]
        · simp
        · funext i
          have h1 : hasSpin false (x i) = true ↔ i.val < n := by
            rw [h.up_iff]
            refine ⟨fun ⟨j, hj⟩ => hj ▸ hu j, fun hi => ⟨⟨i.val, hi⟩, ?_⟩⟩
            rw [enum_first h.up_mono hu]; rfl
          have h2 : hasSpin true (x i) = true ↔ i.val < n := by
            rw [h.dn_iff]
            refine ⟨fun ⟨j, hj⟩ => hj ▸ hd j, fun hi => ⟨⟨i.val, hi⟩, ?_⟩⟩
            rw [enum_first h.dn_mono hd]; rfl
          unfold filled
          have h12 : hasSpin false (x i) = hasSpin true (x i) := Bool.eq_iff_iff.mpr (h1.trans h2.symm)
          by_cases hi : i.val < n
          · rw [if_pos hi]
            have a := h1.mpr hi
            have b := h2.mpr hi
            revert a b
            generalize x i = v
            revert v
            decide
          · rw [if_neg hi]
            have a := fun t => hi (h1.mp t)
            have b := fun t => hi (h2.mp t)
            revert a b
            generalize x i = v
            revert v
            decide
      · rw [if_neg hd, mul_zero, if_neg]
        rintro rfl
        push Not at hd
        obtain ⟨i, hi⟩ := hd
        have := (h.dn_iff (dn i)).mpr ⟨i, rfl⟩
        rw [filled, if_neg (by omega)] at this
        simp [hasSpin] at this
    · rw [if_neg hu, zero_mul, if_neg]
      rintro rfl
      push Not at hu
      obtain ⟨i, hi⟩ := hu
      have := (h.up_iff (up i)).mpr ⟨i, rfl⟩
      rw [filled, if_neg (by omega)] at this
      simp [hasSpin] at this
  · rw [if_neg]
    · by_contra h
      exact hx (upDownState_sector _ _ x h)
    · rintro rfl
      exact hx ⟨filled_card false, filled_card true⟩

/-- Hypotheses that are met: two occupied and two other orbitals, both mixed. -/
example : Orthonormal (⟨1, 0, fun _ _ _ _ => 0, 1⟩ : Integrals (2 + 2)) 1 ∧
    (!![3 / 5, -4 / 5; 4 / 5, 3 / 5] : Matrix (Fin 2) (Fin 2) ℝ)ᵀ * !![3 / 5, -4 / 5; 4 / 5, 3 / 5] = 1 := by
  refine ⟨by simp [Orthonormal], ?_⟩
  ext i j
  fin_cases i <;> fin_cases j <;> simp [Matrix.mul_apply, Fin.sum_univ_two] <;> norm_num

/-- **C135** fails for different numbers of up and down electrons: half of the electrons, rounded down, is then not the number of
occupied orbitals of either spin, and the Hartree-Fock state has several configurations. -/
theorem C135_open_fails : ∃ (m : Integrals (1 + 2)) (occ : Matrix (Fin 1) (Fin 1) ℝ) (vrt : Matrix (Fin 2) (Fin 2) ℝ) (x y : Cfg (1 + 2)),
    Orthonormal m m.mo_coeff ∧ occᵀ * occ = 1 ∧ vrtᵀ * vrt = 1 ∧ x ≠ y ∧
    ∀ z ∈ [x, y], hartreeFock (n_up := 2) (n_down := 1) (fun i j => (canonicalToLocal m (splitBasis m.mo_coeff occ vrt) i j : ℂ))
        (fun i j => (canonicalToLocal m (splitBasis m.mo_coeff occ vrt) i j : ℂ)) (by decide) (by decide) (occOf z) ≠ 0 := by
  let m : Integrals (1 + 2) := ⟨1, 0, fun _ _ _ _ => 0, 1⟩
  have hm : Orthonormal m m.mo_coeff := by simp [Orthonormal, m]
  refine ⟨m, 1, !![3 / 5, -4 / 5; 4 / 5, 3 / 5], ![3, 1, 0], ![3, 0, 1], hm, by simp, ?_, by decide, ?_⟩
  · ext i j
    fin_cases i <;> fin_cases j <;> simp [Matrix.mul_apply, Fin.sum_univ_two] <;> norm_num
  · intro z hz
    rw [canonical_split hm]
    unfold hartreeFock
    have hb : ∀ i j : Fin (1 + 2), (blockU (1 : Matrix (Fin 1) (Fin 1) ℝ) !![3 / 5, -4 / 5; 4 / 5, 3 / 5])ᵀ i j =
        (!![1, 0, 0; 0, 3 / 5, 4 / 5; 0, -4 / 5, 3 / 5] : Matrix (Fin 3) (Fin 3) ℝ) i j := by
      intro i j
      induction i using Fin.addCases with
      | left i =>
        induction j using Fin.addCases with
        | left j => fin_cases i; fin_cases j; simp [blockU]; rfl
        | right j => fin_cases i; fin_cases j <;> simp [blockU] <;> rfl
      | right i =>
        induction j using Fin.addCases with
        | left j => fin_cases i <;> fin_cases j <;> simp [blockU] <;> rfl
        | right j => fin_cases i <;> fin_cases j <;> simp [blockU] <;> rfl
    rcases List.mem_cons.mp hz with rfl | hz
    · rw [upDownState_det _ _ _ ![0, 1] ![0] (by decide) (by decide) (by decide) (by decide), det_fin_two, det_fin_one]
      simp only [hb, of_apply]
      simp
    · rw [List.mem_singleton.mp hz]
      rw [upDownState_det _ _ _ ![0, 2] ![0] (by decide) (by decide) (by decide) (by decide), det_fin_two, det_fin_one]
      simp only [hb, of_apply]
      simp

end

/-! ## C136: names of bases -/

/-- **C136**: the names that the script lists choose the bases they describe. -/
theorem C136_names : choose "canonical" = some .canonical ∧ choose "local-boys" = some .boys ∧ choose "local-pipek-mezey" = some .pipekMezey ∧
    choose "local-edmiston-ruedenberg" = some .edmistonRuedenberg ∧ choose "local-split" = some .split := by
  refine ⟨?_, ?_, ?_, ?_, ?_⟩ <;> decide

/-- **C136**, part: a name is rejected if it neither is `canonical` nor has the letters `local`. -/
theorem C136_rejects_partial (name : String) (h : name ≠ "canonical") : choose name = none ↔ ¬ "local".toList <:+: name.toList := by
  have hc : contains name "local" = true ↔ "local".toList <:+: name.toList := decide_eq_true_iff
  rw [← hc]
  unfold choose
  by_cases hl : contains name "local" = true
  · rw [if_pos hl]
    exact ⟨fun hn => absurd hn (Option.some_ne_none _), fun hn => absurd hl hn⟩
  · rw [if_neg hl, if_neg h]
    exact ⟨fun _ => hl, fun _ => rfl⟩

/-- **C136** fails: misspelt names are accepted, and give Löwdin orbitals without localisation. -/
theorem C136_fails : ∃ name, name ∉ ["canonical", "local-boys", "local-pipek-mezey", "local-edmiston-ruedenberg", "local-split"] ∧
    choose name = some .lowdin :=
  ⟨"local-pipek", by decide, by decide⟩

end GPSKet.OrbitalBasis
