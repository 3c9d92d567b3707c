import Verif.Model.Hilbert
import Verif.Lemmas.Fermion

/-! # Properties C19, C20: the fermionic Hilbert space -/

namespace GPSKet
open Spec

variable {L : ℕ}

/-! ## C19 -/

/-- **C19**: the constraint accepts exactly the configurations with the given numbers of electrons of each spin. -/
theorem C19_constraint_iff (n : ℕ × ℕ) (x : Cfg L) :
    fermionicSumConstraint n x = true ↔ numElec false x = n.1 ∧ numElec true x = n.2 := by
  have e1 : ∑ i, (if x i = 1 then 1 else if x i = 3 then 1 else 0) = numElec false x := by
    unfold numElec
    rw [Finset.card_filter]
    apply Finset.sum_congr rfl
    intro i _
    generalize x i = v
    revert v; decide
  have e2 : ∑ i, (if x i = 2 then 1 else if x i = 3 then 1 else 0) = numElec true x := by
    unfold numElec
    rw [Finset.card_filter]
    apply Finset.sum_congr rfl
    intro i _
    generalize x i = v
    revert v; decide
  simp only [fermionicSumConstraint, e1, e2, Bool.and_eq_true, decide_eq_true_eq]

private theorem scatterAdd_apply (x : Cfg L) (pos : List (Fin L)) (hn : pos.Nodup) (v : Fin 4) (j : Fin L) :
    scatterAdd x pos v j = if j ∈ pos then x j + v else x j := by
  unfold scatterAdd
  induction pos generalizing x with
  | nil => simp
  | cons p ps ih =>
    rw [List.nodup_cons] at hn
    rw [List.foldl_cons, ih _ hn.2]
    by_cases h1 : j ∈ ps
    · have : j ≠ p := fun h => hn.1 (h ▸ h1)
      simp [h1, this]
    · by_cases h2 : j = p
      · subst h2; simp [h1]
      · simp [h1, h2]

private theorem randomState_apply (d : RandomDraw L) (hu : d.up_pos.Nodup) (hd : d.down_pos.Nodup) (j : Fin L) :
    randomState d j = (if j ∈ d.up_pos then 1 else 0) + (if j ∈ d.down_pos then 2 else 0) := by
  unfold randomState
  rw [scatterAdd_apply _ _ hd, scatterAdd_apply _ _ hu]
  split_ifs <;> simp

/-- The up electrons of a random state are at the first drawn positions, the down electrons at the second ones. -/
theorem randomState_electrons (d : RandomDraw L) (hu : d.up_pos.Nodup) (hd : d.down_pos.Nodup) (j : Fin L) :
    hasSpin false (randomState d j) = decide (j ∈ d.up_pos) ∧ hasSpin true (randomState d j) = decide (j ∈ d.down_pos) := by
  rw [randomState_apply d hu hd]
  by_cases a : j ∈ d.up_pos <;> by_cases b : j ∈ d.down_pos <;> simp [a, b] <;> decide

/-- **C19**: whatever positions are drawn, the random state satisfies the constraint. -/
theorem C19_random_state_valid (n : ℕ × ℕ) (d : RandomDraw L) (h : d.Possible n) :
    fermionicSumConstraint n (randomState d) = true := by
  obtain ⟨h1, h2, h3, h4⟩ := h
  rw [C19_constraint_iff]
  have hs : ∀ j, hasSpin false (randomState d j) = decide (j ∈ d.up_pos) ∧
      hasSpin true (randomState d j) = decide (j ∈ d.down_pos) := by
    exact randomState_electrons d h2 h4
  constructor
  · unfold numElec
    simp only [(hs _).1, decide_eq_true_eq]
    rw [← h1, ← List.toFinset_card_of_nodup h2]
    congr 1
    ext j; simp
  · unfold numElec
    simp only [(hs _).2, decide_eq_true_eq]
    rw [← h3, ← List.toFinset_card_of_nodup h4]
    congr 1
    ext j; simp

/-- **C19**: every configuration of the sector is the random state of some possible (hence equally likely) draw. -/
theorem C19_random_state_support (n : ℕ × ℕ) (x : Cfg L) (h : fermionicSumConstraint n x = true) :
    ∃ d : RandomDraw L, d.Possible n ∧ randomState d = x := by
  rw [C19_constraint_iff] at h
  refine ⟨⟨(Finset.univ.filter fun i => hasSpin false (x i) = true).toList,
    (Finset.univ.filter fun i => hasSpin true (x i) = true).toList⟩, ⟨?_, ?_, ?_, ?_⟩, ?_⟩
  · rw [Finset.length_toList]; exact h.1
  · exact Finset.nodup_toList _
  · rw [Finset.length_toList]; exact h.2
  · exact Finset.nodup_toList _
  · funext j
    rw [randomState_apply _ (Finset.nodup_toList _) (Finset.nodup_toList _)]
    simp only [Finset.mem_toList, Finset.mem_filter, Finset.mem_univ, true_and]
    generalize x j = v
    revert v; decide

/-- a possible draw for three sites with two up electrons and one down electron -/
example : (⟨[2, 0], [0]⟩ : RandomDraw 3).Possible (2, 1) ∧ randomState (⟨[2, 0], [0]⟩ : RandomDraw 3) = ![3, 0, 1] := by
  constructor
  · simp [RandomDraw.Possible]
  · decide

/-! ## C20 -/

/-- **C20 is false**: for every space with fixed electron numbers `**` raises. -/
theorem C20_pow_fails (size n : ℕ) (ne : ℕ × ℕ) :
    ¬ ∃ h', (FermionicHilbert.mk size (some ne)).pow n = .ok h' := by
  rintro ⟨h', h⟩
  simp [FermionicHilbert.pow] at h

/-- **C20 (partial: unconstrained spaces)**: `h ** n` has `n` times the sites, and accepts every configuration, as the
`n`-fold product of an unconstrained space does.  Missing: constrained spaces, for which the property is false
(`C20_pow_fails`). -/
theorem C20_pow_unconstrained_partial (size n : ℕ) :
    ∃ h', (FermionicHilbert.mk size none).pow n = .ok h' ∧ h'.size = n * size ∧ h'.n_elec = none ∧
      ∀ x, h'.accepts x = true := by
  refine ⟨⟨size * n, none⟩, rfl, Nat.mul_comm _ _, rfl, fun _ => rfl⟩

end GPSKet
