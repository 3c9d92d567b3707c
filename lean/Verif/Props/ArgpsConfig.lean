import Verif.Props.ArgpsFails

/-!
C100 as far as it holds for the training script of ARGPS: `config.yaml` is the configuration of the process
from the moment that it is saved until the next process starts to save its own, and a process started without
a configuration continues with the saved one, with the same seed.
-/

namespace GPSKet.ArgpsRun

open Workdir TrainingSpec

variable {V O E S T R : Type}

/-- The configuration of a process that has saved it. -/
def savedBy : Proc V O E S T R → Option (Config R)
  | .restoring c => some c
  | .logging c _ _ => some c
  | .logOpen c _ _ => some c
  | .loop c _ _ _ => some c
  | .advanced c _ _ _ _ => some c
  | .logged c _ _ _ => some c
  | .finished c _ => some c
  | _ => none

/-- **C100** (part): in every history, once a process has saved its configuration, the file holds it. -/
theorem C100_saved {fresh : Config R → Driver V O E × S} {u : Update V O E S T} {c₀ : Config R} {n : Nat}
    {k : Disk V O E T R} {p : Option (Proc V O E S T R)} (h : Reach fresh u c₀ n k p) :
    ∀ q c, p = some q → savedBy q = some c → k.config = some (some c) := by
  induction h with
  | empty => simp
  | start arg drawn _ _ _ =>
    rintro q c hq hc
    cases hq
    simp [savedBy] at hc
  | @run n k p _ ih =>
    rintro q c hq hc
    obtain rfl : (exec fresh u k p).2 = q := by simpa using hq
    cases p with
    | boot arg drawn =>
      simp only [exec] at hc
      cases hr : readConfig arg k.config <;> simp [hr, savedBy] at hc
    | configOpen c' =>
      simp only [exec, savedBy, Option.some.injEq] at hc ⊢
      exact hc
    | restoring c' => exact ih _ c rfl hc
    | logging c' d s =>
      have ih' := ih _ c' rfl rfl
      simp only [exec] at hc ⊢
      cases hm : k.metrics <;> simp only [hm, savedBy, Option.some.injEq] at hc ⊢ <;> rw [ih', hc]
    | logOpen c' d s => exact ih _ c rfl hc
    | loop c' step d s =>
      have ih' := ih _ c' rfl rfl
      simp only [exec] at hc ⊢
      split at hc <;> rename_i hs <;> simp only [hs, if_true, if_false, savedBy, Option.some.injEq] at hc ⊢ <;> rw [ih', hc]
    | advanced c' step d s t => exact ih _ c rfl hc
    | logged c' step d s =>
      have ih' := ih _ c' rfl rfl
      simp only [exec] at hc ⊢
      split at hc
      · rename_i hs
        rw [if_pos hs]
        revert hc
        cases saveCheckpoint k.ckpts step (serialize d) with
        | none => simp [savedBy]
        | some cs =>
          simp only [savedBy, Option.some.injEq]
          rintro rfl
          exact ih'
      · rename_i hs
        rw [if_neg hs]
        simp only [savedBy, Option.some.injEq] at hc
        rw [ih', hc]
    | finished c' d => exact ih _ c rfl hc
    | raised => simp [exec, savedBy] at hc
  | kill _ _ => simp
  | exit _ _ => simp

/-- **C100** (part): in every history, if `config.yaml` is not empty it is the configuration given by the
user, with a seed, and a process started without a configuration continues with it unchanged, whatever seed
it would draw. -/
theorem C100_partial {fresh : Config R → Driver V O E × S} {u : Update V O E S T} {c₀ : Config R}
    (hfresh : ∀ c, (fresh c).1.count = 0) {n : Nat} {k : Disk V O E T R} {p : Option (Proc V O E S T R)}
    (h : Reach fresh u c₀ n k p) {c : Config R} (hc : k.config = some (some c)) :
    (∃ seed, (c₀.seed = none ∨ c₀.seed = some seed) ∧ c = { c₀ with seed := some seed }) ∧
    ∀ drawn, (exec fresh u k (.boot none drawn)).2 = .configOpen c := by
  have hcfg := (inv_reach hfresh h).1 c hc
  refine ⟨hcfg.eq, fun drawn => ?_⟩
  obtain ⟨m, rfl⟩ := hcfg
  simp [exec, readConfig, hc, resolve_resolve]

/-- The hypotheses are met after the first process of the examples. -/
example : (exec sumFresh sumUpdate disk1 (.boot none 5)).2 = .configOpen twoSteps :=
  (C100_partial (fun _ => rfl) reach1 (c := twoSteps) rfl).2 5

end GPSKet.ArgpsRun
