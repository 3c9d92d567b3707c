import Verif.Model.AutoregTutorial
import Verif.Props.Autoreg

/-!
# The constraint function of the state-fitting tutorial (C33)
-/

namespace GPSKet.Props
open Spec AR

variable {L M : ℕ} {ι : Type} [Fintype ι]

theorem mask_tutorial (p q s t : Prop) [Decidable p] [Decidable q] [Decidable s] [Decidable t] (d : Fin 4) :
    (let log_psi : Fin 4 → Bool := fun _ => true
      let log_psi := if p then Function.update log_psi 1 false else log_psi
      let log_psi := if q then Function.update log_psi 2 false else log_psi
      let log_psi := if p ∨ q then Function.update log_psi 3 false else log_psi
      let log_psi := if s ∨ t then Function.update log_psi 0 false else log_psi
      let log_psi := if s then Function.update log_psi 2 false else log_psi
      let log_psi := if t then Function.update log_psi 1 false else log_psi
      log_psi) d =
    (let log_psi : Fin 4 → Bool := fun _ => true
      let log_psi := if p then Function.update log_psi 1 false else log_psi
      let log_psi := if q then Function.update log_psi 2 false else log_psi
      let log_psi := if p ∨ q then Function.update log_psi 3 false else log_psi
      let log_psi := if s then Function.update (Function.update log_psi 0 false) 2 false else log_psi
      let log_psi := if t then Function.update (Function.update log_psi 0 false) 1 false else log_psi
      log_psi) d := by
  by_cases h0 : p <;> by_cases h1 : q <;> by_cases h2 : s <;> by_cases h3 : t <;>
    simp only [h0, h1, h2, h3, if_true, if_false, or_true, or_false] <;> clear h0 h1 h2 h3 <;>
    revert d <;> decide

/-- The function of the tutorial sets the same entries as the one of the ARGPS scripts, for every state of the counters. -/
theorem tutorial_eq (n : ℤ × ℤ) (size : ℕ) (c : Fin 4 → ℤ) (index : ℕ) :
    renormalizeTutorial n size c index = renormalizeFermionic n size c index := by
  funext d
  exact mask_tutorial (n.1 - c 1 = 0) (n.2 - c 2 = 0) (n.1 - c 1 ≥ (size : ℤ) - index) (n.2 - c 2 ≥ (size : ℤ) - index) d

/-- The constraint functions of the tutorial. -/
structure FermionicTutorial (L : ℕ) (n_elec : ℕ × ℕ) (f : Fields 4 M) : Prop where
  con : f.constrained = true
  cnt : f.count_spins = countSpinsFermionic
  ren : f.renormalize = renormalizeTutorial (n_elec.1, n_elec.2) L

/-- C33 for the tutorial on state fitting: with its constraint functions the autoregressive models give non-zero probability
exactly to the configurations with `n_elec` electrons of each spin. -/
theorem C33_tutorial [NeZero L] [Nonempty ι] (n : ℕ × ℕ) (m : Machine L 4 M) (hm : ProvidedAR m)
    (hp : m.fields.machine_pow ≠ 0) (hf : FermionicTutorial L n m.fields) (h1 : n.1 ≤ L) (h2 : n.2 ≤ L)
    (syms : ι → Cfg L → Cfg L) (hs : ∀ t x s, numElec s (syms t x) = numElec s x) (x : Cfg L) :
    0 < bornWeight m.fields.machine_pow (m.logPsi syms x) ↔ numElec false x = n.1 ∧ numElec true x = n.2 :=
  C33_fermionic_constraint n m hm hp ⟨hf.con, hf.cnt, hf.ren.trans (by funext c i; exact tutorial_eq _ _ _ _)⟩ h1 h2 syms hs x

/-- An instance: the model of the tutorial on three sites with two up electrons and one down electron. -/
example (epsilon : Fin 4 → Fin 2 → Fin 3 → ℂ) :
    let f : Fields 4 2 := ⟨2, true, true, countSpinsFermionic, renormalizeTutorial ((2 : ℕ), (1 : ℕ)) 3, sumOut⟩
    let m : Machine 3 4 2 := arqGPS f epsilon
    0 < bornWeight 2 (m.logPsi (fun (_ : Unit) y => y) ![3, 0, 1]) ∧
      ¬ 0 < bornWeight 2 (m.logPsi (fun (_ : Unit) y => y) ![3, 3, 0]) := by
  intro f m
  have hp : m.fields.machine_pow ≠ 0 := by change (2 : ℝ) ≠ 0; norm_num
  have h := C33_tutorial (ι := Unit) (2, 1) m (.qgps f epsilon) hp ⟨rfl, rfl, rfl⟩ (by norm_num) (by norm_num) (fun _ y => y)
    (fun _ _ _ => rfl)
  exact ⟨(h _).mpr (by decide), fun hh => absurd ((h _).mp hh) (by decide)⟩

end GPSKet.Props
