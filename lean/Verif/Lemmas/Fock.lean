import Verif.Spec.Fock
import Mathlib.Algebra.Ring.Parity
import Mathlib.Tactic.Ring
import Mathlib.Tactic.Linarith
import Mathlib.Tactic.SplitIfs
import Mathlib.LinearAlgebra.Matrix.Notation

/-! # Lemmas about the Fock-space specification: signed partial maps, CAR, hop signs -/

namespace GPSKet.Spec
open Matrix

variable {ι : Type} [Fintype ι] [LinearOrder ι]

/-- A signed partial map of basis states; every monomial in `c, c†` acts this way. -/
abbrev SMap (ι : Type) := Occ ι → Option (ℤ × Occ ι)

def SMap.mat (f : SMap ι) : Matrix (Occ ι) (Occ ι) ℤ := fun n' n =>
  match f n with
  | none => 0
  | some (s, m) => if n' = m then s else 0

def SMap.comp (f g : SMap ι) : SMap ι := fun n =>
  match g n with
  | none => none
  | some (s, m) => match f m with
    | none => none
    | some (s', m') => some (s' * s, m')

theorem SMap.mat_comp (f g : SMap ι) : (f.comp g).mat = f.mat * g.mat := by
  ext n' n
  rw [Matrix.mul_apply]
  unfold SMap.mat SMap.comp
  rcases hg : g n with _ | ⟨s, m⟩
  · simp
  · rw [Finset.sum_eq_single m]
    · rcases hf : f m with _ | ⟨s', m'⟩
      · simp [hf]
      · simp [hf]
    · intro b _ hb
      simp [hb]
    · simp

def annS (p : ι) : SMap ι := fun n =>
  if n p = true then some (jwSign p n, Function.update n p false) else none

def creS (p : ι) : SMap ι := fun n =>
  if n p = true then none else some (jwSign p n, Function.update n p true)

theorem upd_self {n : Occ ι} {i : ι} {b : Bool} (h : n i = b) : Function.update n i b = n := by
  rw [← h]; simp

theorem jwSign_update_of_le {p q : ι} (h : p ≤ q) (n : Occ ι) (b : Bool) :
    jwSign p (Function.update n q b) = jwSign p n := by
  unfold jwSign
  congr 2
  ext r
  simp only [Finset.mem_filter, Finset.mem_univ, true_and]
  constructor <;> rintro ⟨h1, h2⟩ <;> refine ⟨h1, ?_⟩
  · rwa [Function.update_of_ne (ne_of_lt (lt_of_lt_of_le h1 h))] at h2
  · rwa [Function.update_of_ne (ne_of_lt (lt_of_lt_of_le h1 h))]

theorem jwSign_update_of_lt {p q : ι} (h : q < p) (n : Occ ι) (b : Bool) (hb : n q ≠ b) :
    jwSign p (Function.update n q b) = - jwSign p n := by
  unfold jwSign
  rcases b with _ | _
  · have hn : n q = true := by simpa using hb
    have : (Finset.univ.filter fun r => r < p ∧ n r = true)
        = insert q (Finset.univ.filter fun r => r < p ∧ Function.update n q false r = true) := by
      ext r
      by_cases hr : r = q
      · subst hr; simp [h, hn]
      · simp [hr]
    rw [this, Finset.card_insert_of_notMem (by simp), pow_succ]
    ring
  · have hn : n q = false := by simpa using hb
    have : (Finset.univ.filter fun r => r < p ∧ Function.update n q true r = true)
        = insert q (Finset.univ.filter fun r => r < p ∧ n r = true) := by
      ext r
      by_cases hr : r = q
      · subst hr; simp [h]
      · simp [hr]
    rw [this, Finset.card_insert_of_notMem (by simp [hn]), pow_succ]
    ring

theorem jwSign_mul_self (p : ι) (n : Occ ι) : jwSign p n * jwSign p n = 1 := by
  unfold jwSign
  rw [← pow_add, ← two_mul, pow_mul]
  simp

theorem ann_eq (p : ι) : ann p = (annS p).mat := by
  ext n' n
  unfold ann annS SMap.mat
  by_cases h : n p = true
  · simp [h]
  · simp [h]

theorem cre_eq (p : ι) : cre p = (creS p).mat := by
  ext n' n
  rw [cre, transpose_apply]
  unfold ann creS SMap.mat
  by_cases h : n p = true
  · simp only [h, if_true]
    rw [if_neg]
    rintro ⟨_, h2⟩
    rw [h2] at h
    simp at h
  · have h' : n p = false := by simpa using h
    simp only [h]
    by_cases h2 : n' = Function.update n p true
    · subst h2
      simp [upd_self h', jwSign_update_of_le]
    · rw [if_neg]
      · simp [h2]
      · rintro ⟨h3, h4⟩
        apply h2
        rw [h4]
        simp [upd_self h3]

/-- `c†_a c_i` as a signed partial map. -/
def hopS (a i : ι) : SMap ι := (creS a).comp (annS i)

theorem hopS_mat (a i : ι) : (hopS a i).mat = cre a * ann i := by
  rw [hopS, SMap.mat_comp, ann_eq, cre_eq]

theorem cre_mul_ann_transpose (a i : ι) : (cre a * ann i)ᵀ = cre i * ann a := by
  unfold cre
  rw [transpose_mul, transpose_transpose]

/-- occupied modes strictly between two modes -/
def between (a i : ι) (n : Occ ι) : Finset ι :=
  Finset.univ.filter fun r => min a i < r ∧ r < max a i ∧ n r = true

theorem between_comm (a i : ι) (n : Occ ι) : between a i n = between i a n := by
  unfold between; rw [min_comm, max_comm]

theorem jwSign_mul_of_lt {p q : ι} (h : p < q) (n : Occ ι) (hp : n p = false) :
    jwSign p n * jwSign q n = (-1) ^ (between p q n).card := by
  unfold jwSign
  have : (Finset.univ.filter fun r => r < q ∧ n r = true)
      = (Finset.univ.filter fun r => r < p ∧ n r = true) ∪ between p q n := by
    ext r
    simp only [between, Finset.mem_filter, Finset.mem_univ, true_and, Finset.mem_union,
      min_eq_left h.le, max_eq_right h.le]
    rcases lt_trichotomy r p with hr | hr | hr
    · simp [hr, hr.trans h, hr.not_gt]
    · subst hr; simp [hp]
    · simp [hr, hr.not_gt]
  rw [this, Finset.card_union_of_disjoint, pow_add, ← mul_assoc, ← pow_add, ← two_mul, pow_mul]
  · simp
  · rw [Finset.disjoint_left]
    intro r h1 h2
    simp only [between, Finset.mem_filter, Finset.mem_univ, true_and, min_eq_left h.le] at h1 h2
    exact absurd h1.1 (h2.1.not_gt)

theorem hopS_self (i : ι) (n : Occ ι) : hopS i i n = if n i = true then some (1, n) else none := by
  unfold hopS SMap.comp annS creS
  by_cases h : n i = true
  · simp [h, jwSign_update_of_le, jwSign_mul_self, upd_self h]
  · simp [h]

theorem between_update_left (a i : ι) (n : Occ ι) (b : Bool) :
    between a i (Function.update n i b) = between a i n := by
  unfold between
  ext r
  simp only [Finset.mem_filter, Finset.mem_univ, true_and]
  by_cases hr : r = i
  · subst hr
    constructor <;> rintro ⟨h1, h2, _⟩ <;>
      (rcases le_total a r with h | h <;> simp [h] at h1 h2)
  · simp [hr]

theorem hopS_of_ne {a i : ι} (hai : a ≠ i) (n : Occ ι) :
    hopS a i n = if n i = true ∧ n a = false then
      some ((-1) ^ (between a i n).card, Function.update (Function.update n i false) a true) else none := by
  unfold hopS SMap.comp annS creS
  by_cases h : n i = true
  · by_cases h2 : n a = true
    · simp [h, h2, Function.update_of_ne hai]
    · have h2' : n a = false := by simpa using h2
      simp only [h, if_true, Function.update_of_ne hai, h2', true_and, if_false, Bool.false_eq_true]
      congr 2
      rw [← between_update_left a i n false]
      rcases lt_or_gt_of_ne hai with hlt | hlt
      · rw [← jwSign_mul_of_lt hlt (Function.update n i false) (by simp [Function.update_of_ne hai, h2']),
          jwSign_update_of_le le_rfl n false]
      · rw [between_comm, ← jwSign_mul_of_lt hlt (Function.update n i false) (by simp),
          jwSign_update_of_le le_rfl n false, mul_comm]
  · simp [h]

/-- CAR: sanity check of the specification, `c_p c†_p + c†_p c_p = 1`. -/
theorem car_same (p : ι) : ann p * cre p + cre p * ann p = 1 := by
  rw [ann_eq, cre_eq, ← SMap.mat_comp, ← SMap.mat_comp]
  ext n' n
  rw [Matrix.add_apply, Matrix.one_apply]
  unfold SMap.mat SMap.comp annS creS
  by_cases h : n p = true
  · simp [h, jwSign_update_of_le, jwSign_mul_self, upd_self h]
  · have h' : n p = false := by simpa using h
    simp [h', jwSign_update_of_le, jwSign_mul_self, upd_self h']

private theorem sgn_lt {p q : ι} (h : p < q) (n : Occ ι) (b : Bool) (hb : n p ≠ b) (b' : Bool) :
    jwSign p (Function.update n q b') * jwSign q n = - (jwSign q (Function.update n p b) * jwSign p n) := by
  rw [jwSign_update_of_le h.le, jwSign_update_of_lt h n b hb]; ring

/-- CAR: distinct annihilators anticommute. -/
theorem car_ann_ann {p q : ι} (h : p ≠ q) : ann p * ann q + ann q * ann p = 0 := by
  rw [ann_eq, ann_eq, ← SMap.mat_comp, ← SMap.mat_comp]
  ext n' n
  rw [Matrix.add_apply, Matrix.zero_apply]
  unfold SMap.mat SMap.comp annS
  by_cases hp : n p = true
  · by_cases hq : n q = true
    · simp only [hp, hq, if_true, Function.update_of_ne h, Function.update_of_ne h.symm]
      rw [Function.update_comm h]
      rcases lt_or_gt_of_ne h with hlt | hlt
      · rw [sgn_lt hlt n false (by simp [hp]) false]
        split_ifs <;> simp
      · rw [sgn_lt hlt n false (by simp [hq]) false]
        split_ifs <;> simp
    · simp [hp, hq, Function.update_of_ne h.symm]
  · by_cases hq : n q = true
    · simp [hp, hq, Function.update_of_ne h]
    · simp [hp, hq]

/-- CAR: an annihilator and a creator of different modes anticommute. -/
theorem car_ann_cre {p q : ι} (h : p ≠ q) : ann p * cre q + cre q * ann p = 0 := by
  rw [ann_eq, cre_eq, ← SMap.mat_comp, ← SMap.mat_comp]
  ext n' n
  rw [Matrix.add_apply, Matrix.zero_apply]
  unfold SMap.mat SMap.comp annS creS
  by_cases hp : n p = true
  · by_cases hq : n q = true
    · simp [hp, hq, Function.update_of_ne h.symm]
    · have hq' : n q = false := by simpa using hq
      simp only [hp, hq', if_true, if_false, Function.update_of_ne h, Function.update_of_ne h.symm,
        Bool.false_eq_true]
      rw [Function.update_comm h]
      rcases lt_or_gt_of_ne h with hlt | hlt
      · rw [sgn_lt hlt n false (by simp [hp]) true]
        split_ifs <;> simp
      · rw [sgn_lt hlt n true (by simp [hq']) false]
        split_ifs <;> simp
  · by_cases hq : n q = true
    · simp [hp, hq]
    · simp [hp, hq, Function.update_of_ne h]

end GPSKet.Spec
