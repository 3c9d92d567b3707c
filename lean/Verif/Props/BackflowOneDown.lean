import Verif.Props.BackflowScript
import Verif.Lemmas.OrbitalRotation

/-! # C106: generalised orbitals of molecules with one down electron -/

namespace GPSKet.BackflowScript
open Spec Matrix

variable {L M K nu : ℕ}

section Slater

variable {ι : Type} [Fintype ι] [LinearOrder ι] {F : Type} [CommRing F]

/-- No second electron can be added in an occupied orbital. -/
theorem creOrb_occupied (χ : ι → F) : ∀ l : List (ι → F), χ ∈ l → creOrb χ *ᵥ slaterState l = 0
  | [], h => absurd h (by simp)
  | φ :: l, h => by
    rw [slaterState, mulVec_mulVec]
    rcases List.mem_cons.mp h with h | h
    · rw [h, Rotation.creOrb_sq, zero_mulVec]
    · rw [Rotation.creOrb_anti, neg_mulVec, ← mulVec_mulVec, creOrb_occupied χ l h, mulVec_zero, neg_zero]

theorem creOrb_add_smul (φ χ : ι → F) (t : F) : creOrb (φ + t • χ) = creOrb φ + t • creOrb χ := by
  unfold creOrb
  rw [Finset.smul_sum, ← Finset.sum_add_distrib]
  refine Finset.sum_congr rfl fun p _ => ?_
  rw [Pi.add_apply, Pi.smul_apply, add_smul, smul_assoc]

/-- Multiples of the last orbital can be added to the others. -/
theorem slaterState_add_last (χ : ι → F) : ∀ l : List ((ι → F) × F),
    slaterState (l.map (fun e => e.1 + e.2 • χ) ++ [χ]) = slaterState (l.map Prod.fst ++ [χ])
  | [] => rfl
  | e :: l => by
    rw [List.map_cons, List.map_cons, List.cons_append, List.cons_append, slaterState, slaterState, slaterState_add_last χ l,
      creOrb_add_smul, add_mulVec, smul_mulVec, creOrb_occupied χ _ (by simp), smul_zero, add_zero]

end Slater

/-- **C106**, molecules, generalised orbitals, without cutoff, one down electron and at least one up electron: numpy repeats the orbital
of the down electron in the columns of the up electrons other than the first one.  The amplitudes are those of the Hartree-Fock
determinant all the same. -/
theorem C106_generalised_one_down [NeZero L] [NeZero M] (c : Matrix (Fin L) (Fin L) ℂ) (hu : nu ≤ L) (hd : 1 ≤ L) (h2 : 2 ≤ nu)
    (restricted : Bool) :
    ∃ phi, orbitalsFromFile (savedOrbitals (toArr c) (nu, 1)) (nu, 1) true restricted false = some phi ∧
      ∀ x : Cfg L, numElec false x = nu ∧ numElec true x = 1 →
        (Built.full (M := M) (K := K) (.generalised nu 1) (initEpsilon phi 0)).call x false =
          some (Complex.log (hartreeFock c c hu hd (occOf x))) := by
  obtain ⟨hr, hc, hg⟩ := saved_ne c hu hd (by omega : nu ≠ 1)
  set f := savedOrbitals (toArr c) (nu, 1) with hf
  have e1 : (f.takeCols nu).cols = nu - 0 := by simp [Arr.takeCols, hc]
  have e2 : (f.takeCols 1).cols = 1 := by simp [Arr.takeCols, hc]
  have e2' : ¬ (f.takeCols 1).cols = nu + 1 - 1 := by rw [e2]; omega
  obtain ⟨o, ho⟩ : ∃ o, (Arr.zeros (2 * f.rows) (nu + 1)).setBlock 0 0 nu (f.takeCols nu) = some o := ⟨_, by rw [Arr.setBlock, if_pos e1]⟩
  obtain ⟨phi, hp⟩ : ∃ phi, o.setBlock f.rows 1 (nu + 1) (f.takeCols 1) = some phi := ⟨_, by rw [Arr.setBlock, if_neg e2', if_pos e2]⟩
  refine ⟨phi, ?_, fun x hx => ?_⟩
  · unfold orbitalsFromFile
    simp only [Bool.false_eq_true, if_false, if_true, ho]
    exact hp
  have ho' := ho
  have hp' := hp
  rw [Arr.setBlock, if_pos e1, Option.some_inj] at ho'
  rw [Arr.setBlock, if_neg e2', if_pos e2, Option.some_inj] at hp'
  have hrow : phi.rows = L + L := by
    rw [← hp', ← ho']
    simp only [Arr.zeros, hr]
    omega
  have hcol : phi.cols = nu + 1 := by
    rw [← hp', ← ho']
    rfl
  have hup : ∀ (i : Fin L) (j : ℕ), phi.get i j = if j < nu then (toArr c).get i j else 0 := by
    intro i j
    rw [← hp', ← ho']
    have h1 : ¬ L ≤ i.val := by omega
    simp only [hr, h1, false_and, if_false, Arr.takeCols, Arr.zeros, zero_le, true_and, zero_add, i.isLt, Nat.sub_zero]
    by_cases hj : j < nu
    · rw [if_pos hj, if_pos hj, hg, if_pos hj]
    · rw [if_neg hj, if_neg hj]
  have hdn : ∀ (i : Fin L) (j : ℕ), j < nu + 1 → phi.get (L + i) j = if 1 ≤ j then (toArr c).get i 0 else 0 := by
    intro i j hj
    rw [← hp', ← ho']
    have h1 : L ≤ L + i.val := by omega
    have h3 : ¬ L + i.val < 0 + L := by omega
    have h4 : L + i.val < L + L := by omega
    simp only [hr, h1, h4, hj, h3, true_and, and_true, false_and, and_false, if_false, Arr.takeCols, Arr.zeros, Nat.add_sub_cancel_left]
    by_cases h5 : 1 ≤ j
    · rw [if_pos h5, if_pos h5, hg, if_pos (by omega)]
    · rw [if_neg h5, if_neg h5]
  unfold Built.call
  dsimp only
  rw [full_generalised (NeZero.pos M) _ hrow hcol x hx]
  unfold hartreeFock upDownState
  obtain ⟨χ, hχ⟩ : ∃ χ : Mode L → ℂ, χ = spinOrbital true fun i => c i (Fin.castLE hd 0) := ⟨_, rfl⟩
  have hlast : (List.ofFn fun k : Fin 1 => spinOrbital true fun i => c i (Fin.castLE hd k)) = [χ] := by
    rw [hχ]
    simp
  obtain ⟨l, hl⟩ : ∃ l : List ((Mode L → ℂ) × ℂ), l = List.ofFn fun k : Fin nu =>
      (spinOrbital false (fun i => c i (Fin.castLE hu k)), if 1 ≤ k.val then 1 else 0) := ⟨_, rfl⟩
  have hfst : (List.ofFn fun k : Fin nu => spinOrbital false fun i => c i (Fin.castLE hu k)) = l.map Prod.fst := by
    rw [hl, List.map_ofFn]
    rfl
  rw [hlast, hfst, ← slaterState_add_last, List.ofFn_add]
  congr 5
  · rw [hl, List.map_ofFn]
    congr 1
    funext k m
    have hk : k.val < nu := k.isLt
    simp only [stacked, Function.comp, Pi.add_apply, Pi.smul_apply, hχ, spinOrbital, Fin.val_castAdd, Fin.val_natAdd]
    rcases h : (ofLex m).1
    · simp only [Bool.false_eq_true, if_false, if_true, smul_zero, add_zero]
      rw [hup]
      refine (if_pos hk).trans ?_
      exact toArr_get' _ _ _ (lt_of_lt_of_le hk hu)
    · simp only [Bool.true_eq_false, if_false, if_true, zero_add]
      rw [hdn _ _ (by omega), toArr_get' _ _ _ (lt_of_lt_of_le Nat.zero_lt_one hd)]
      by_cases hk1 : 1 ≤ k.val
      · rw [if_pos hk1, one_smul]
        refine (if_pos hk1).trans ?_
        rfl
      · rw [if_neg hk1, zero_smul]
        exact if_neg hk1
  · rw [hχ]
    simp only [List.ofFn_succ, List.ofFn_zero]
    congr 1
    funext m
    simp only [stacked, spinOrbital, Fin.val_castAdd, Fin.val_natAdd]
    rcases h : (ofLex m).1
    · simp only [Bool.false_eq_true, if_false]
      rw [hup, if_neg (by simp)]
    · simp only [if_true]
      rw [hdn _ _ (by simp), if_pos (by simp; omega), toArr_get' _ _ _ (lt_of_lt_of_le Nat.zero_lt_one hd)]
      rfl

/-- **C106** fails for generalised orbitals with one down electron and no up electron: all orbitals are zero, and so are all amplitudes. -/
theorem C106_generalised_no_up_fails [NeZero L] [NeZero M] (c : Matrix (Fin L) (Fin L) ℂ) (hd : 1 ≤ L) (restricted : Bool) :
    ∃ phi, orbitalsFromFile (savedOrbitals (toArr c) (0, 1)) (0, 1) true restricted false = some phi ∧ (∀ i j, phi.get i j = 0) ∧
      ∀ x : Cfg L, numElec false x = 0 ∧ numElec true x = 1 →
        (Built.full (M := M) (K := K) (.generalised 0 1) (initEpsilon phi 0)).call x false = some (Complex.log 0) := by
  obtain ⟨hr, hc, hg⟩ := saved_ne c (Nat.zero_le L) hd (by omega : 0 ≠ 1)
  set f := savedOrbitals (toArr c) (0, 1) with hf
  have e1 : (f.takeCols 0).cols = 0 - 0 := by simp [Arr.takeCols]
  have e2 : (f.takeCols 1).cols = 1 := by simp [Arr.takeCols, hc]
  have e2' : ¬ (f.takeCols 1).cols = 0 + 1 - 1 := by rw [e2]; omega
  obtain ⟨o, ho⟩ : ∃ o, (Arr.zeros (2 * f.rows) (0 + 1)).setBlock 0 0 0 (f.takeCols 0) = some o := ⟨_, by rw [Arr.setBlock, if_pos e1]⟩
  obtain ⟨phi, hp⟩ : ∃ phi, o.setBlock f.rows 1 (0 + 1) (f.takeCols 1) = some phi := ⟨_, by rw [Arr.setBlock, if_neg e2', if_pos e2]⟩
  have ho' := ho
  have hp' := hp
  rw [Arr.setBlock, if_pos e1, Option.some_inj] at ho'
  rw [Arr.setBlock, if_neg e2', if_pos e2, Option.some_inj] at hp'
  have hz : ∀ i j, phi.get i j = 0 := by
    intro i j
    rw [← hp', ← ho']
    simp only [Arr.zeros]
    rw [if_neg (by omega), if_neg (by omega)]
  refine ⟨phi, ?_, hz, fun x hx => ?_⟩
  · unfold orbitalsFromFile
    simp only [Bool.false_eq_true, if_false, if_true, ho]
    exact hp
  · have hrow : phi.rows = L + L := by
      rw [← hp', ← ho']
      simp only [Arr.zeros, hr]
      omega
    have hcol : phi.cols = 0 + 1 := by
      rw [← hp', ← ho']
      rfl
    unfold Built.call
    dsimp only
    rw [full_generalised (NeZero.pos M) _ hrow hcol x hx]
    congr 2
    simp only [hz, List.ofFn_succ, slaterState]
    have : creOrb (stacked fun _ : Fin (L + L) => (0 : ℂ)) = 0 := by
      unfold creOrb stacked
      simp
    rw [this, zero_mulVec]
    rfl

/-- Two up electrons and one down electron on two sites. -/
example : numElec false (![3, 1] : Cfg 2) = 2 ∧ numElec true (![3, 1] : Cfg 2) = 1 ∧ (2 : ℕ) ≤ 2 := by decide

/-- The Hartree-Fock amplitude of one down electron on the first of two sites does not vanish. -/
example : hartreeFock (n_up := 0) (n_down := 1) (1 : Matrix (Fin 2) (Fin 2) ℂ) 1 (by omega) (by omega) (occOf (![2, 0] : Cfg 2)) ≠ 0 := by
  unfold hartreeFock
  rw [upDownState_det _ _ _ (fun i : Fin 0 => i.elim0) (fun _ : Fin 1 => 0) (fun i => i.elim0) (Subsingleton.strictMono _) (by decide) (by decide)]
  have h : (1 : Matrix (Fin 2) (Fin 2) ℂ) 0 (Fin.castLE (by omega : 1 ≤ 2) 0) = 1 := Matrix.one_apply_eq 0
  simp [h]

end GPSKet.BackflowScript
