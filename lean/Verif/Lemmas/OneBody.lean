import Verif.Lemmas.OrbitalRotation
import Verif.Lemmas.PairState
import Verif.Lemmas.Sector
import Verif.Spec.TotalSpin
import Mathlib.LinearAlgebra.Multilinear.Basic
import Mathlib.Data.Fintype.Powerset
import Mathlib.Data.Finset.Piecewise

/-! # One-particle operators acting on Slater determinants -/

namespace GPSKet.Spec
namespace OneBody

open Matrix Rotation

variable {ι : Type} [Fintype ι] [LinearOrder ι] {K : Type} [Field K]

/-! ## Slater determinants are multilinear in the orbitals -/

theorem creOrb_add (φ χ : ι → K) : creOrb (φ + χ) = creOrb φ + creOrb χ := by
  unfold creOrb
  simp only [Pi.add_apply, add_smul, Finset.sum_add_distrib]

theorem creOrb_smul (c : K) (φ : ι → K) : creOrb (c • φ) = c • creOrb φ := by
  unfold creOrb
  simp only [Pi.smul_apply, smul_eq_mul, mul_smul, Finset.smul_sum]

theorem ofFn_update_zero {N : ℕ} {X : Type} (Φ : Fin (N + 1) → X) (u : X) :
    List.ofFn (Function.update Φ 0 u) = u :: List.ofFn fun k => Φ k.succ := by
  rw [List.ofFn_succ, Function.update_self]
  congr 1

theorem ofFn_update_succ {N : ℕ} {X : Type} (Φ : Fin (N + 1) → X) (k : Fin N) (u : X) :
    List.ofFn (Function.update Φ k.succ u) = Φ 0 :: List.ofFn (Function.update (fun k => Φ k.succ) k u) := by
  rw [List.ofFn_succ, Function.update_of_ne (Fin.succ_ne_zero k).symm]
  congr 2
  funext j
  by_cases h : j = k
  · subst h; simp
  · rw [Function.update_of_ne h, Function.update_of_ne (fun h' => h (Fin.succ_injective _ h'))]

theorem slater_update_add {N : ℕ} (Φ : Fin N → ι → K) (k : Fin N) (u v : ι → K) :
    slaterState (List.ofFn (Function.update Φ k (u + v))) =
      slaterState (List.ofFn (Function.update Φ k u)) + slaterState (List.ofFn (Function.update Φ k v)) := by
  induction N with
  | zero => exact k.elim0
  | succ N ih =>
    refine Fin.cases ?_ (fun k => ?_) k
    · simp only [ofFn_update_zero, slaterState, creOrb_add, Matrix.add_mulVec]
    · simp only [ofFn_update_succ, slaterState, ih, Matrix.mulVec_add]

theorem slater_update_smul {N : ℕ} (Φ : Fin N → ι → K) (k : Fin N) (c : K) (u : ι → K) :
    slaterState (List.ofFn (Function.update Φ k (c • u))) = c • slaterState (List.ofFn (Function.update Φ k u)) := by
  induction N with
  | zero => exact k.elim0
  | succ N ih =>
    refine Fin.cases ?_ (fun k => ?_) k
    · simp only [ofFn_update_zero, slaterState, creOrb_smul, Matrix.smul_mulVec]
    · simp only [ofFn_update_succ, slaterState, ih, Matrix.mulVec_smul]

/-- The Slater determinant as a multilinear map. -/
def slaterML (ι : Type) [Fintype ι] [LinearOrder ι] (K : Type) [Field K] (N : ℕ) : MultilinearMap K (fun _ : Fin N => ι → K) (Occ ι → K) where
  toFun Φ := slaterState (List.ofFn Φ)
  map_update_add' := by
    intro inst Φ k u v
    rw [Subsingleton.elim inst (instDecidableEqFin N)]
    exact slater_update_add Φ k u v
  map_update_smul' := by
    intro inst Φ k c u
    rw [Subsingleton.elim inst (instDecidableEqFin N)]
    exact slater_update_smul Φ k c u

/-- The determinant of orbitals that are combinations of two orbitals. -/
theorem slater_expand {N : ℕ} (a b : Fin N → K) (X Y : Fin N → ι → K) :
    slaterState (List.ofFn fun k => a k • X k + b k • Y k) =
      ∑ s : Finset (Fin N), (∏ k, if k ∈ s then a k else b k) • slaterState (List.ofFn (s.piecewise X Y)) := by
  have h := (slaterML ι K N).map_add_univ (fun k => a k • X k) (fun k => b k • Y k)
  change slaterState (List.ofFn ((fun k => a k • X k) + fun k => b k • Y k)) = _ at h
  change slaterState (List.ofFn ((fun k => a k • X k) + fun k => b k • Y k)) = _
  rw [h]
  refine Finset.sum_congr rfl fun s _ => ?_
  have e : (s.piecewise (fun k => a k • X k) fun k => b k • Y k) = fun k => (if k ∈ s then a k else b k) • s.piecewise X Y k := by
    funext k
    by_cases hk : k ∈ s <;> simp [Finset.piecewise, hk]
  rw [e, (slaterML ι K N).map_smul_univ]
  rfl

/-! ## Operators that act on one particle -/

/-- `A` acts on every particle as `a` does on its orbital. -/
def Lifts (A : Matrix (Occ ι) (Occ ι) K) (a : (ι → K) → ι → K) : Prop :=
  A *ᵥ vacuum = 0 ∧ ∀ φ, A * creOrb φ = creOrb φ * A + creOrb (a φ)

theorem lifts_hop (p q : ι) : Lifts (toK K (cre p * ann q)) fun φ r => if r = p then φ q else 0 := by
  have hq : annOrb (atMode K q) = toK K (ann q) := by
    unfold annOrb atMode
    rw [Finset.sum_eq_single q] <;> simp +contextual
  constructor
  · rw [toK_mul', ← Matrix.mulVec_mulVec, ← hq, annOrb_vacuum, Matrix.mulVec_zero]
  · intro φ
    have h2 : creOrb (fun r => if r = p then φ q else 0) = φ q • toK K (cre p) := by
      unfold creOrb
      rw [Finset.sum_eq_single p] <;> simp +contextual
    rw [toK_mul', mul_assoc, ← hq, annOrb_creOrb, mul_sub, mul_smul_comm, mul_one, ← mul_assoc, ← creOrb_atMode, creOrb_anti, h2, hq]
    have h3 : ∑ r, atMode K q r * φ r = φ q := by
      unfold atMode
      rw [Finset.sum_eq_single q] <;> simp +contextual
    rw [h3, creOrb_atMode, neg_mul, sub_neg_eq_add, mul_assoc, add_comm]

theorem Lifts.sum {T : Type} (S : Finset T) {A : T → Matrix (Occ ι) (Occ ι) K} {a : T → (ι → K) → ι → K} (h : ∀ t, Lifts (A t) (a t)) :
    Lifts (∑ t ∈ S, A t) fun φ => ∑ t ∈ S, a t φ := by
  classical
  constructor
  · rw [Matrix.sum_mulVec]
    exact Finset.sum_eq_zero fun t _ => (h t).1
  · intro φ
    induction S using Finset.induction_on with
    | empty =>
      simp only [Finset.sum_empty, zero_mul, mul_zero, zero_add]
      unfold creOrb; simp
    | insert t S ht ih =>
      dsimp only at ih ⊢
      rw [Finset.sum_insert ht, Finset.sum_insert ht, add_mul, ih, (h t).2, mul_add, creOrb_add]; abel

theorem Lifts.slater {A : Matrix (Occ ι) (Occ ι) K} {a : (ι → K) → ι → K} (h : Lifts A a) {N : ℕ} (Φ : Fin N → ι → K) :
    A *ᵥ slaterState (List.ofFn Φ) = ∑ k, slaterState (List.ofFn (Function.update Φ k (a (Φ k)))) := by
  induction N with
  | zero => simp [slaterState, h.1]
  | succ N ih =>
    rw [Fin.sum_univ_succ]
    simp only [ofFn_update_zero, ofFn_update_succ]
    rw [List.ofFn_succ]
    simp only [slaterState]
    rw [Matrix.mulVec_mulVec, h.2, Matrix.add_mulVec, ← Matrix.mulVec_mulVec, ih, Matrix.mulVec_sum, add_comm]

/-! ## Spins -/

variable {L : ℕ}

omit [Fintype ι] [LinearOrder ι] in
theorem toK_sum {T : Type} (S : Finset T) (A : T → Matrix (Occ ι) (Occ ι) ℤ) : toK K (∑ t ∈ S, A t) = ∑ t ∈ S, toK K (A t) := by
  ext i j
  simp [toK, Matrix.sum_apply]

theorem lifts_up : Lifts (toK K (totalUp : Op L)) fun φ => spinOrbital false fun i => φ (mode true i) := by
  have h := Lifts.sum (K := K) Finset.univ fun i : Fin L => lifts_hop (K := K) (mode false i) (mode true i)
  unfold totalUp spinUp
  rw [toK_sum]
  convert h using 1
  funext φ r
  rw [Finset.sum_apply]
  unfold spinOrbital
  by_cases hr : (ofLex r).1 = false
  · rw [if_pos hr, Finset.sum_eq_single (ofLex r).2]
    · have : r = mode false (ofLex r).2 := by
        unfold mode; rw [← hr]; rfl
      rw [if_pos this]
    · intro b _ hb
      rw [if_neg]
      intro h'; apply hb; rw [h']; rfl
    · simp
  · rw [if_neg hr]
    refine (Finset.sum_eq_zero fun i _ => ?_).symm
    rw [if_neg]
    intro h'; apply hr; rw [h']; rfl

theorem lifts_num (s : Bool) : Lifts (toK K (numTot s : Op L)) fun φ => spinOrbital s fun i => φ (mode s i) := by
  have h := Lifts.sum (K := K) Finset.univ fun i : Fin L => lifts_hop (K := K) (mode s i) (mode s i)
  unfold numTot
  rw [toK_sum]
  convert h using 1
  funext φ r
  rw [Finset.sum_apply]
  unfold spinOrbital
  by_cases hr : (ofLex r).1 = s
  · rw [if_pos hr, Finset.sum_eq_single (ofLex r).2]
    · have : r = mode s (ofLex r).2 := by
        unfold mode; rw [← hr]; rfl
      rw [if_pos this]
    · intro b _ hb
      rw [if_neg]
      intro h'; apply hb; rw [h']; rfl
    · simp
  · rw [if_neg hr]
    refine (Finset.sum_eq_zero fun i _ => ?_).symm
    rw [if_neg]
    intro h'; apply hr; rw [h']; rfl

theorem spinOrbital_zero (s : Bool) : (spinOrbital s fun _ : Fin L => (0 : K)) = 0 := by
  funext m
  unfold spinOrbital
  split_ifs <;> rfl

/-- The determinant with the electrons of `s` in up orbitals and the others in down orbitals. -/
def assigned {N : ℕ} (φ : Fin N → Fin L → K) (s : Finset (Fin N)) : Occ (Mode L) → K :=
  slaterState (List.ofFn (s.piecewise (fun k => spinOrbital false (φ k)) fun k => spinOrbital true (φ k)))

theorem slater_update_zero {N : ℕ} (Φ : Fin N → ι → K) (k : Fin N) : slaterState (List.ofFn (Function.update Φ k 0)) = 0 := by
  have := slater_update_smul Φ k (0 : K) 0
  simpa using this

theorem up_assigned {N : ℕ} (φ : Fin N → Fin L → K) (s : Finset (Fin N)) :
    toK K (totalUp : Op L) *ᵥ assigned φ s = ∑ k ∈ sᶜ, assigned φ (insert k s) := by
  unfold assigned
  rw [lifts_up.slater, ← Finset.sum_subset (Finset.subset_univ sᶜ)]
  · refine Finset.sum_congr rfl fun k hk => ?_
    have hk' : k ∉ s := Finset.mem_compl.mp hk
    congr 2
    funext j
    by_cases hj : j = k
    · subst hj
      rw [Function.update_self, Finset.piecewise_eq_of_notMem _ _ _ hk', Finset.piecewise_eq_of_mem _ _ _ (Finset.mem_insert_self _ _)]
      funext m
      simp [spinOrbital, mode]
    · rw [Function.update_of_ne hj]
      by_cases hs : j ∈ s
      · rw [Finset.piecewise_eq_of_mem _ _ _ hs, Finset.piecewise_eq_of_mem _ _ _ (Finset.mem_insert_of_mem hs)]
      · rw [Finset.piecewise_eq_of_notMem _ _ _ hs, Finset.piecewise_eq_of_notMem]
        simp [hj, hs]
  · intro k _ hk
    have hk' : k ∈ s := by simpa using hk
    rw [Finset.piecewise_eq_of_mem _ _ _ hk']
    have : (spinOrbital false fun i => spinOrbital false (φ k) (mode true i) : Mode L → K) = 0 := by
      rw [← spinOrbital_zero false]
      congr 1
    rw [this, slater_update_zero]

theorem num_assigned {N : ℕ} (φ : Fin N → Fin L → K) (s : Finset (Fin N)) :
    toK K (numTot false : Op L) *ᵥ assigned φ s = (s.card : K) • assigned φ s := by
  unfold assigned
  rw [(lifts_num false).slater, ← Finset.sum_subset (Finset.subset_univ s)]
  · have : ∀ k ∈ s, slaterState (List.ofFn (Function.update (s.piecewise (fun k => spinOrbital false (φ k)) fun k => spinOrbital true (φ k)) k
        (spinOrbital false fun i => (s.piecewise (fun k => spinOrbital false (φ k)) fun k => spinOrbital true (φ k)) k (mode false i)))) =
        slaterState (List.ofFn (s.piecewise (fun k => spinOrbital false (φ k)) fun k => spinOrbital true (φ k))) := by
      intro k hk
      congr 2
      rw [Function.update_eq_self_iff, Finset.piecewise_eq_of_mem _ _ _ hk]
      rfl
    rw [Finset.sum_congr rfl this, Finset.sum_const, ← Nat.cast_smul_eq_nsmul K]
  · intro k _ hk
    rw [Finset.piecewise_eq_of_notMem _ _ _ hk]
    have : (spinOrbital false fun i => spinOrbital true (φ k) (mode false i) : Mode L → K) = 0 := by
      rw [← spinOrbital_zero false]
      congr 1
    rw [this, slater_update_zero]

/-- Such a determinant has as many up electrons as orbitals of that kind. -/
theorem assigned_sector [CharZero K] {N : ℕ} (φ : Fin N → Fin L → K) (s : Finset (Fin N)) (x : Cfg L) (hx : numElec false x ≠ s.card) :
    assigned φ s (occOf x) = 0 := by
  have h := congrFun (num_assigned φ s) (occOf x)
  rw [Matrix.mulVec, dotProduct] at h
  simp only [toK, Matrix.map_apply, numTot_apply, Pi.smul_apply, smul_eq_mul] at h
  rw [Finset.sum_eq_single (occOf x)] at h
  · rw [if_pos rfl] at h
    push_cast at h
    have h2 : ((numElec false x : K) - s.card) * assigned φ s (occOf x) = 0 := by rw [sub_mul, h, sub_self]
    rcases mul_eq_zero.mp h2 with h3 | h3
    · exact absurd (by exact_mod_cast sub_eq_zero.mp h3) hx
    · exact h3
  · intro n _ hn
    rw [if_neg hn.symm]
    simp
  · simp

theorem num_down_assigned {N : ℕ} (φ : Fin N → Fin L → K) (s : Finset (Fin N)) :
    toK K (numTot true : Op L) *ᵥ assigned φ s = (sᶜ.card : K) • assigned φ s := by
  unfold assigned
  rw [(lifts_num true).slater, ← Finset.sum_subset (Finset.subset_univ sᶜ)]
  · have : ∀ k ∈ sᶜ, slaterState (List.ofFn (Function.update (s.piecewise (fun k => spinOrbital false (φ k)) fun k => spinOrbital true (φ k)) k
        (spinOrbital true fun i => (s.piecewise (fun k => spinOrbital false (φ k)) fun k => spinOrbital true (φ k)) k (mode true i)))) =
        slaterState (List.ofFn (s.piecewise (fun k => spinOrbital false (φ k)) fun k => spinOrbital true (φ k))) := by
      intro k hk
      congr 2
      rw [Function.update_eq_self_iff, Finset.piecewise_eq_of_notMem _ _ _ (Finset.mem_compl.mp hk)]
      rfl
    rw [Finset.sum_congr rfl this, Finset.sum_const, ← Nat.cast_smul_eq_nsmul K]
  · intro k _ hk
    have hk' : k ∈ s := by simpa using hk
    rw [Finset.piecewise_eq_of_mem _ _ _ hk']
    have : (spinOrbital true fun i => spinOrbital false (φ k) (mode true i) : Mode L → K) = 0 := by
      rw [← spinOrbital_zero true]
      congr 1
    rw [this, slater_update_zero]

/-- and as many down electrons as others. -/
theorem assigned_sector_down [CharZero K] {N : ℕ} (φ : Fin N → Fin L → K) (s : Finset (Fin N)) (x : Cfg L) (hx : numElec true x ≠ sᶜ.card) :
    assigned φ s (occOf x) = 0 := by
  have h := congrFun (num_down_assigned φ s) (occOf x)
  rw [Matrix.mulVec, dotProduct] at h
  simp only [toK, Matrix.map_apply, numTot_apply, Pi.smul_apply, smul_eq_mul] at h
  rw [Finset.sum_eq_single (occOf x)] at h
  · rw [if_pos rfl] at h
    push_cast at h
    have h2 : ((numElec true x : K) - (sᶜ.card : ℕ)) * assigned φ s (occOf x) = 0 := by rw [sub_mul, h, sub_self]
    rcases mul_eq_zero.mp h2 with h3 | h3
    · exact absurd (by exact_mod_cast sub_eq_zero.mp h3) hx
    · exact h3
  · intro n _ hn
    rw [if_neg hn.symm]
    simp
  · simp

end OneBody
end GPSKet.Spec
