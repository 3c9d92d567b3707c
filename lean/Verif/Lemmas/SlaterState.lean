import Verif.Spec.SlaterState
import Verif.Lemmas.Fock
import Mathlib.LinearAlgebra.Matrix.Determinant.Basic
import Mathlib.LinearAlgebra.Matrix.SchurComplement

/-! # The amplitudes of a Slater determinant -/

namespace GPSKet.Spec
open Matrix

variable {ι : Type} [Fintype ι] [LinearOrder ι] {K : Type} [CommRing K]

theorem creOrb_mulVec (φ : ι → K) (ψ : Occ ι → K) (n : Occ ι) :
    (creOrb φ *ᵥ ψ) n = ∑ p, if n p = true then φ p * ((jwSign p n : ℤ) : K) * ψ (Function.update n p false) else 0 := by
  unfold creOrb Matrix.mulVec dotProduct
  simp only [Matrix.sum_apply, Finset.sum_mul]
  rw [Finset.sum_comm]
  refine Finset.sum_congr rfl fun p _ => ?_
  simp only [Matrix.smul_apply, toK, Matrix.map_apply, cre, Matrix.transpose_apply, ann, smul_eq_mul]
  by_cases h : n p = true
  · rw [Finset.sum_eq_single (Function.update n p false)]
    · simp [h]
    · intro b _ hb; simp [hb]
    · simp
  · simp [h]

theorem jwSign_enum {N : ℕ} (n : Occ ι) (e : Fin N → ι) (he : StrictMono e) (hn : ∀ p, n p = true ↔ ∃ i, e i = p) (i : Fin N) :
    jwSign (e i) n = (-1) ^ i.val := by
  unfold jwSign
  have : (Finset.univ.filter fun q => q < e i ∧ n q = true) = (Finset.univ.filter fun j : Fin N => j < i).image e := by
    ext q
    simp only [Finset.mem_filter, Finset.mem_univ, true_and, Finset.mem_image, hn]
    constructor
    · rintro ⟨h, j, rfl⟩; exact ⟨j, he.lt_iff_lt.mp h, rfl⟩
    · rintro ⟨j, h, rfl⟩; exact ⟨he h, j, rfl⟩
  rw [this, Finset.card_image_of_injective _ he.injective]
  congr 1
  have : (Finset.univ.filter fun j : Fin N => j < i) = Finset.Iio i := by ext; simp
  rw [this, Fin.card_Iio]

/-- The amplitude of a Slater determinant is the determinant of the orbitals at the occupied modes, in increasing order. -/
theorem slaterState_det {N : ℕ} (Φ : Fin N → ι → K) (n : Occ ι) (e : Fin N → ι) (he : StrictMono e)
    (hn : ∀ p, n p = true ↔ ∃ i, e i = p) : slaterState (List.ofFn Φ) n = (Matrix.of fun i k => Φ k (e i)).det := by
  induction N generalizing n with
  | zero =>
    have : n = fun _ => false := by
      funext p
      by_contra h
      obtain ⟨i, _⟩ := (hn p).mp (by simpa using h)
      exact i.elim0
    simp [slaterState, vacuum, this]
  | succ N ih =>
    rw [List.ofFn_succ]
    change (creOrb (Φ 0) *ᵥ slaterState (List.ofFn fun i => Φ i.succ)) n = _
    rw [creOrb_mulVec, Matrix.det_succ_column_zero]
    have hs : (∑ p, if n p = true then Φ 0 p * ((jwSign p n : ℤ) : K) *
        slaterState (List.ofFn fun i => Φ i.succ) (Function.update n p false) else 0) =
        ∑ i, Φ 0 (e i) * ((jwSign (e i) n : ℤ) : K) * slaterState (List.ofFn fun i => Φ i.succ) (Function.update n (e i) false) := by
      rw [← Finset.sum_filter, ← Finset.sum_image (s := Finset.univ) (g := e)
        (f := fun p => Φ 0 p * ((jwSign p n : ℤ) : K) * slaterState (List.ofFn fun i => Φ i.succ) (Function.update n p false))
        (fun a _ b _ h => he.injective h)]
      refine Finset.sum_congr ?_ fun _ _ => rfl
      ext p
      simp [hn]
    rw [hs]
    refine Finset.sum_congr rfl fun i _ => ?_
    rw [jwSign_enum n e he hn, ih (fun k => Φ k.succ) (Function.update n (e i) false) (fun j => e (i.succAbove j))
      (he.comp (Fin.strictMono_succAbove i))]
    · simp only [Matrix.of_apply]
      push_cast
      rw [mul_comm (Φ 0 (e i))]
      rfl
    · intro p
      by_cases hp : p = e i
      · subst hp
        simp only [Function.update_self]
        constructor
        · intro h; simp at h
        · rintro ⟨j, hj⟩; exact absurd (he.injective hj) (Fin.succAbove_ne i j)
      · rw [Function.update_of_ne hp, hn]
        constructor
        · rintro ⟨j, rfl⟩
          obtain ⟨k, hk⟩ := Fin.exists_succAbove_eq (x := j) (y := i) (fun h => hp (by rw [h]))
          exact ⟨k, by rw [hk]⟩
        · rintro ⟨j, rfl⟩; exact ⟨_, rfl⟩

/-- A Slater determinant has a definite number of particles. -/
theorem slaterState_card (l : List (ι → K)) (n : Occ ι) (h : slaterState l n ≠ 0) :
    (Finset.univ.filter fun p => n p = true).card = l.length := by
  induction l generalizing n with
  | nil =>
    by_cases hn : n = fun _ => false
    · subst hn; simp
    · simp [slaterState, vacuum, hn] at h
  | cons φ l ih =>
    change (creOrb φ *ᵥ slaterState l) n ≠ 0 at h
    rw [creOrb_mulVec] at h
    obtain ⟨p, _, hp⟩ := Finset.exists_ne_zero_of_sum_ne_zero h
    split_ifs at hp with hn
    · have h1 := ih _ (right_ne_zero_of_mul hp)
      rw [List.length_cons, ← h1]
      have : (Finset.univ.filter fun q => n q = true) =
          insert p (Finset.univ.filter fun q => Function.update n p false q = true) := by
        ext q
        by_cases hq : q = p
        · subst hq; simp [hn]
        · simp [hq]
      rw [this, Finset.card_insert_of_notMem (by simp)]
    · exact absurd rfl hp

/-- Up electrons before down electrons. -/
def upDown {L n_up n_down : ℕ} (up : Fin n_up → Fin L) (dn : Fin n_down → Fin L) : Fin (n_up + n_down) → Mode L :=
  Fin.addCases (motive := fun _ => Mode L) (fun i => mode false (up i)) (fun i => mode true (dn i))

theorem upDown_strictMono {L n_up n_down : ℕ} {up : Fin n_up → Fin L} {dn : Fin n_down → Fin L} (hu : StrictMono up)
    (hd : StrictMono dn) : StrictMono (upDown up dn) := by
  intro a b hab
  unfold upDown
  induction a using Fin.addCases with
  | left a =>
    induction b using Fin.addCases with
    | left b =>
      simp only [Fin.addCases_left]
      exact Prod.Lex.toLex_lt_toLex.mpr (Or.inr ⟨rfl, hu (Fin.lt_def.mpr (Fin.lt_def.mp hab))⟩)
    | right b =>
      simp only [Fin.addCases_left, Fin.addCases_right]
      exact Prod.Lex.toLex_lt_toLex.mpr (Or.inl (show false < true by decide))
  | right a =>
    induction b using Fin.addCases with
    | left b =>
      have := Fin.lt_def.mp hab
      simp at this
      omega
    | right b =>
      simp only [Fin.addCases_right]
      exact Prod.Lex.toLex_lt_toLex.mpr (Or.inr ⟨rfl, hd (by simpa using hab)⟩)

theorem upDown_occ {L n_up n_down : ℕ} (x : Cfg L) {up : Fin n_up → Fin L} {dn : Fin n_down → Fin L}
    (hu : ∀ i, hasSpin false (x i) = true ↔ ∃ n, up n = i) (hd : ∀ i, hasSpin true (x i) = true ↔ ∃ n, dn n = i) (p : Mode L) :
    occOf x p = true ↔ ∃ i, upDown up dn i = p := by
  obtain ⟨⟨s, i⟩, rfl⟩ := toLex.surjective p
  change hasSpin s (x i) = true ↔ _
  cases s with
  | false =>
    rw [hu]
    constructor
    · rintro ⟨k, rfl⟩; exact ⟨Fin.castAdd _ k, by simp [upDown, mode]⟩
    · rintro ⟨k, hk⟩
      induction k using Fin.addCases with
      | left k =>
        simp only [upDown, Fin.addCases_left, mode] at hk
        exact ⟨k, (Prod.ext_iff.mp (toLex.injective hk)).2⟩
      | right k =>
        simp only [upDown, Fin.addCases_right, mode] at hk
        exact absurd (Prod.ext_iff.mp (toLex.injective hk)).1 (by simp)
  | true =>
    rw [hd]
    constructor
    · rintro ⟨k, rfl⟩; exact ⟨Fin.natAdd _ k, by simp [upDown, mode]⟩
    · rintro ⟨k, hk⟩
      induction k using Fin.addCases with
      | left k =>
        simp only [upDown, Fin.addCases_left, mode] at hk
        exact absurd (Prod.ext_iff.mp (toLex.injective hk)).1 (by simp)
      | right k =>
        simp only [upDown, Fin.addCases_right, mode] at hk
        exact ⟨k, (Prod.ext_iff.mp (toLex.injective hk)).2⟩

/-- The amplitude of a general Slater determinant of spin-orbitals. -/
theorem slaterState_upDown {L n_up n_down : ℕ} (Φ : Fin (n_up + n_down) → Mode L → K) (x : Cfg L) (up : Fin n_up → Fin L)
    (dn : Fin n_down → Fin L) (hup : StrictMono up) (hdn : StrictMono dn) (hu : ∀ i, hasSpin false (x i) = true ↔ ∃ n, up n = i)
    (hd : ∀ i, hasSpin true (x i) = true ↔ ∃ n, dn n = i) :
    slaterState (List.ofFn Φ) (occOf x) = (Matrix.of fun i k => Φ k (upDown up dn i)).det :=
  slaterState_det Φ _ _ (upDown_strictMono hup hdn) (upDown_occ x hu hd)

/-- The amplitude of a Slater determinant of up and down orbitals: the product of two determinants. -/
theorem upDownState_det {L n_up n_down : ℕ} (a : Fin L → Fin n_up → K) (b : Fin L → Fin n_down → K) (x : Cfg L) (up : Fin n_up → Fin L)
    (dn : Fin n_down → Fin L) (hup : StrictMono up) (hdn : StrictMono dn) (hu : ∀ i, hasSpin false (x i) = true ↔ ∃ n, up n = i)
    (hd : ∀ i, hasSpin true (x i) = true ↔ ∃ n, dn n = i) :
    upDownState a b (occOf x) = (Matrix.of fun i k => a (up i) k).det * (Matrix.of fun i k => b (dn i) k).det := by
  unfold upDownState
  have hl : List.ofFn (fun k => spinOrbital false fun i => a i k) ++ List.ofFn (fun k => spinOrbital true fun i => b i k) =
      List.ofFn (Fin.addCases (motive := fun _ => Mode L → K) (fun k => spinOrbital false fun i => a i k)
        (fun k => spinOrbital true fun i => b i k)) := by
    rw [List.ofFn_add]
    congr 1 <;> congr 1 <;> funext k
    · exact (Fin.addCases_left (motive := fun _ => Mode L → K) (left := fun k => spinOrbital false fun i => a i k)
        (right := fun k => spinOrbital true fun i => b i k) k).symm
    · exact (Fin.addCases_right (motive := fun _ => Mode L → K) (left := fun k => spinOrbital false fun i => a i k)
        (right := fun k => spinOrbital true fun i => b i k) k).symm
  rw [hl, slaterState_upDown _ x up dn hup hdn hu hd, ← Matrix.det_submatrix_equiv_self finSumFinEquiv]
  have hb : (Matrix.of fun (i k : Fin (n_up + n_down)) => Fin.addCases (motive := fun _ => Mode L → K) (fun k => spinOrbital false fun i => a i k)
        (fun k => spinOrbital true fun i => b i k) k (upDown up dn i)).submatrix finSumFinEquiv finSumFinEquiv =
      Matrix.fromBlocks (Matrix.of fun i k => a (up i) k) 0 0 (Matrix.of fun i k => b (dn i) k) := by
    ext i k
    rcases i with i | i <;> rcases k with k | k <;> simp [upDown, spinOrbital, mode]
  rw [hb, Matrix.det_fromBlocks_zero₂₁]

end GPSKet.Spec
