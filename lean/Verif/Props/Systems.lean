import Verif.Model.Systems
import Verif.Props.J1J2

/-!
# C175: the systems of the scripts have the electrons of the configuration
-/

namespace GPSKet.Systems

/-- The electron numbers of a molecule are those with the given sum and difference. -/
theorem molNelec_iff (ne : ℕ) (spin a b : ℤ) : molNelec ne spin = some (a, b) ↔ a + b = ne ∧ a - b = spin ∧ 0 ≤ b := by
  unfold molNelec
  simp only
  split
  · rename_i h
    simp only [Option.some.injEq, Prod.mk.injEq]
    constructor
    · rintro ⟨rfl, rfl⟩
      exact ⟨h.2, by ring, h.1⟩
    · rintro ⟨h1, h2, h3⟩
      have hs : (ne : ℤ) + spin = a * 2 := by omega
      have ha : ((ne : ℤ) + spin) / 2 = a := by rw [hs]; exact Int.mul_ediv_cancel _ (by norm_num)
      exact ⟨ha, by rw [ha]; omega⟩
  · rename_i h
    simp only [reduceCtorEq, false_iff, not_and]
    intro h1 h2 h3
    apply h
    have hs : (ne : ℤ) + spin = a * 2 := by omega
    have ha : ((ne : ℤ) + spin) / 2 = a := by rw [hs]; exact Int.mul_ediv_cancel _ (by norm_num)
    rw [ha]
    omega

/-- **C175**, molecules of the backflow script: the Hilbert space has the configured electrons exactly if the molecule is neutral
with them. -/
theorem C175_molecule_partial (charges : List ℕ) (u d : ℕ) :
    cpdMolecule charges (some (u, d)) = some ((u : ℤ), (d : ℤ)) ↔ u + d = charges.sum := by
  unfold cpdMolecule configSpin
  rw [molNelec_iff]
  dsimp only
  omega

/-- **C175**, molecules without configured electrons: a closed shell with all electrons of the neutral molecule; with an odd number of
electrons there is an exception.  Backflow script. -/
theorem C175_molecule_default (charges : List ℕ) (a b : ℤ) :
    cpdMolecule charges none = some (a, b) ↔ a = b ∧ a + b = charges.sum := by
  unfold cpdMolecule configSpin
  rw [molNelec_iff]
  dsimp only
  omega

/-- The same for the autoregressive script. -/
theorem C175_argps_molecule (charges : List ℕ) (a b : ℤ) :
    argpsMolecule charges = some (a, b) ↔ a = b ∧ a + b = charges.sum := by
  unfold argpsMolecule
  constructor
  · intro h
    obtain ⟨⟨x, y⟩, hx, h⟩ := Option.map_eq_some_iff.mp h
    rw [molNelec_iff] at hx
    simp only [Prod.mk.injEq] at h
    omega
  · rintro ⟨rfl, h⟩
    have : molNelec charges.sum 0 = some (a, a) := by rw [molNelec_iff]; omega
    rw [this]
    simp only [Option.map_some, Option.some.injEq, Prod.mk.injEq, and_self]
    omega

/-- **C175** fails for ions: if the configuration asks for two electrons less than the neutral molecule has (or four, six, ...), the Hilbert
space has all electrons of the neutral molecule, without an exception. -/
theorem C175_ion_fails (charges : List ℕ) (u d k : ℕ) (hk : 0 < k) (h : u + d + 2 * k = charges.sum) :
    ∃ n, cpdMolecule charges (some (u, d)) = some n ∧ n ≠ ((u : ℤ), (d : ℤ)) ∧ n = ((u : ℤ) + k, (d : ℤ) + k) := by
  refine ⟨((u : ℤ) + k, (d : ℤ) + k), ?_, ?_, rfl⟩
  · unfold cpdMolecule configSpin
    rw [molNelec_iff]
    dsimp only
    omega
  · simp only [ne_eq, Prod.mk.injEq, not_and]
    omega

/-- With the wrong parity there is an exception. -/
theorem C175_parity (charges : List ℕ) (u d : ℕ) (h : (u + d) % 2 ≠ charges.sum % 2) : cpdMolecule charges (some (u, d)) = none := by
  cases hc : cpdMolecule charges (some (u, d)) with
  | none => rfl
  | some n =>
    obtain ⟨a, b⟩ := n
    unfold cpdMolecule configSpin at hc
    rw [molNelec_iff] at hc
    dsimp only at hc
    omega

/-- **C175**, Hubbard models of the backflow script: the configured electrons. -/
theorem C175_hubbard (sites u d : ℕ) : cpdHubbard sites (some (u, d)) = (u, d) := rfl

/-- **C175**, Hubbard models at half filling (one electron per site, as many of one spin as of the other), for an even number of sites; both
scripts. -/
theorem C175_half_filling_partial (sites : ℕ) (h : sites % 2 = 0) :
    cpdHubbard sites none = argpsHubbard sites ∧ (argpsHubbard sites).1 + (argpsHubbard sites).2 = sites ∧
      (argpsHubbard sites).1 = (argpsHubbard sites).2 := by
  unfold cpdHubbard argpsHubbard
  simp only [Option.getD_none, true_and, and_true]
  omega

/-- **C175** fails for an odd number of sites: there is one electron less than sites, without an exception. -/
theorem C175_half_filling_fails (sites : ℕ) (h : sites % 2 = 1) :
    (argpsHubbard sites).1 + (argpsHubbard sites).2 + 1 = sites ∧ (cpdHubbard sites none).1 + (cpdHubbard sites none).2 + 1 = sites := by
  unfold cpdHubbard argpsHubbard
  simp only [Option.getD_none]
  omega

/-- **C175** fails for Heisenberg models of the autoregressive script: there is an exception for all couplings and sign rules (see C79). -/
theorem C175_heisenberg_fails (J1 J2 : ℝ) (signRule : Bool) : heisenberg J1 J2 signRule = none := C79_on_the_fly_fails J1 J2 signRule

/-- **C175**, names: the backflow script has an exception for all names but the four of its systems. -/
theorem C175_names (name : String) :
    (cpdKind name = some .molecule ↔ name = "Hchain" ∨ name = "Hsheet" ∨ name = "H2O") ∧
    (cpdKind name = some .hubbard ↔ name = "FermiHubbard") ∧ cpdKind name ≠ some .heisenberg := by
  unfold cpdKind
  by_cases h1 : name ∈ ["Hchain", "Hsheet", "H2O"]
  · rw [if_pos h1]
    have h1' : name = "Hchain" ∨ name = "Hsheet" ∨ name = "H2O" := by simpa using h1
    refine ⟨by simp [h1'], ?_, by simp⟩
    simp only [Option.some.injEq, reduceCtorEq, false_iff]
    rintro rfl
    revert h1'
    decide
  · rw [if_neg h1]
    have h1' : ¬(name = "Hchain" ∨ name = "Hsheet" ∨ name = "H2O") := by simpa using h1
    by_cases h2 : name = "FermiHubbard"
    · rw [if_pos h2]
      exact ⟨by simp [h1'], by simp [h2], by simp⟩
    · rw [if_neg h2]
      exact ⟨by simp [h1'], by simp [h2], by simp⟩

/-- The configurations of the autoregressive script reach the systems they are named after. -/
theorem C175_argps_names :
    argpsKind "Heisenberg2d" false = some .heisenberg ∧ argpsKind "Hubbard1d" false = some .hubbard ∧
    argpsKind "Hchain" true = some .molecule ∧ argpsKind "Hsheet" true = some .molecule := by
  refine ⟨?_, ?_, ?_, ?_⟩ <;> decide

/-- A name without a system gives `None` instead of an exception in the autoregressive script. -/
theorem C175_argps_unknown (name : String) (h : ∀ s ∈ ["Heisenberg", "J1J2", "Hubbard"], HubbardScript.contains s name = false) :
    argpsKind name false = none := by
  simp only [List.mem_cons, List.not_mem_nil, or_false, forall_eq_or_imp, forall_eq] at h
  unfold argpsKind
  simp [h.1, h.2.1, h.2.2]

/-! Water in the 6-31g basis has five electrons of each spin; its cation with nine electrons is refused, its dication is not. -/

example : cpdMolecule [1, 1, 8] none = some (5, 5) := (C175_molecule_default _ _ _).mpr (by decide)
example : cpdMolecule [1, 1, 8] (some (6, 4)) = some (6, 4) := (C175_molecule_partial _ _ _).mpr (by decide)
example : cpdMolecule [1, 1, 8] (some (5, 4)) = none := C175_parity _ _ _ (by decide)
example : ∃ n, cpdMolecule [1, 1, 8] (some (4, 4)) = some n ∧ n ≠ (4, 4) ∧ n = (5, 5) := C175_ion_fails [1, 1, 8] 4 4 1 (by decide) (by decide)
example : argpsMolecule [1, 1, 1, 1] = some (2, 2) := (C175_argps_molecule _ _ _).mpr (by decide)
example : argpsKind "LiH" false = none := C175_argps_unknown "LiH" (by decide)
example : argpsHubbard 5 = (2, 2) := rfl

end GPSKet.Systems
