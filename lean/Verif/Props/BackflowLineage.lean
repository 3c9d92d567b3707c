import Verif.Props.BackflowRun

/-!
C103 as far as it holds: without a running average (the drivers `VMC` and `VMC_SRt`) the checkpoints of the
training script for backflow states hold the result of exactly as many steps as their labels say.
-/

namespace GPSKet.BackflowRun

open Workdir TrainingSpec
open ArgpsRun (IsConfig Start Sampler)

variable {V O E S T R X : Type}

/-- The driver has done `d.count` steps of training. -/
def Done (P : Setup V O E S T R X) (c₀ : Config R) (d : Driver V O E) (s : S) : Prop :=
  Trained P.train (Start P.fresh c₀) (Sampler P.fresh c₀) d.count d.vars d.opt d.ema s

theorem Done.advance {P : Setup V O E S T R X} {c₀ : Config R} {d : Driver V O E} {s : S} (h : Done P c₀ d s) :
    Done P c₀ (Workdir.advance P.train d s).1 (Workdir.advance P.train d s).2.1 :=
  Trained.step h rfl

/-- Invariant without descent finishing. -/
def LInv (P : Setup V O E S T R X) (c₀ : Config R) (k : Disk V O T R X) (p : Option (Proc V O E S T R X)) : Prop :=
  (∀ l sd, (l, sd) ∈ k.ckpts → ∃ e s, Trained P.train (Start P.fresh c₀) (Sampler P.fresh c₀) sd.2.2 sd.1 sd.2.1 e s) ∧
  match p with
  | some (.logging _ d s) => Done P c₀ d s
  | some (.logOpen _ d s) => Done P c₀ d s
  | some (.training _ d s) => Done P c₀ d s
  | some (.loop f _ _ d s) => f.finishing = false ∧ Done P c₀ d s
  | some (.advanced f _ d s _) => f.finishing = false ∧ Done P c₀ d s
  | some (.logged f _ d s _) => f.finishing = false ∧ Done P c₀ d s
  | some (.bestOpen f _ d s _ _) => f.finishing = false ∧ Done P c₀ d s
  | some (.bestDone f _ d s) => f.finishing = false ∧ Done P c₀ d s
  | some (.descent _ _ _ d s) => Done P c₀ d s
  | some (.finished _ d) => ∃ s, Done P c₀ d s
  | _ => True

theorem linv_exec [LinearOrder X] [Subsingleton E] {P : Setup V O E S T R X} {c₀ : Config R}
    (hfresh : ∀ c, (P.fresh c).1.count = 0) (hfin : c₀.finishing = none) {k : Disk V O T R X} {p : Proc V O E S T R X}
    (hI : Inv c₀ k (some p)) (h : LInv P c₀ k (some p)) : LInv P c₀ (exec P k p).1 (some (exec P k p).2) := by
  obtain ⟨hk, h⟩ := h
  obtain ⟨-, -, hp⟩ := hI
  cases p with
  | boot arg drawn =>
    simp only [exec]
    cases readConfig arg k.config with
    | none => exact ⟨hk, trivial⟩
    | some c => exact ⟨hk, trivial⟩
  | configOpen c => exact ⟨hk, trivial⟩
  | restoring c =>
    refine ⟨hk, ?_⟩
    obtain ⟨seed, hseed, hce⟩ := IsConfig.eq hp
    have hS : Sampler P.fresh c₀ (P.fresh c).2 := ⟨seed, hseed, by rw [hce]⟩
    simp only [exec, restore]
    cases hl : latest k.ckpts with
    | none =>
      have h0 := hfresh c
      unfold Done
      simp only [h0]
      refine Trained.start ⟨seed, hseed, ?_⟩
      rw [← hce]
      generalize P.fresh c = x at h0
      obtain ⟨⟨v, o, e, n⟩, s⟩ := x
      simp only at h0
      simp [h0]
    | some b =>
      obtain ⟨l, sd⟩ := b
      obtain ⟨hm, -⟩ := latest_spec hl
      obtain ⟨e, s, hs⟩ := hk l sd hm
      have he : (P.fresh c).1.ema = e := Subsingleton.elim _ _
      show Trained _ _ _ sd.2.2 sd.1 sd.2.1 (P.fresh c).1.ema _
      rw [he]
      exact Trained.sampler hs hS
  | logging c d s =>
    simp only [exec]
    cases k.metrics <;> exact ⟨hk, h⟩
  | logOpen c d s => exact ⟨hk, h⟩
  | training c d s =>
    simp only [exec]
    split
    · cases k.best with
      | none => exact ⟨hk, rfl, h⟩
      | some b => cases b with
        | none => exact ⟨hk, trivial⟩
        | some b => exact ⟨hk, rfl, h⟩
    · exact ⟨hk, h⟩
  | loop f step next d s =>
    obtain ⟨hf, hd⟩ := h
    simp only [exec, hf, if_false, Bool.false_eq_true]
    split
    · exact ⟨hk, hf, hd.advance⟩
    · exact ⟨hk, hd⟩
  | advanced f step d s t => exact ⟨hk, h⟩
  | logged f step d s t =>
    simp only [exec]
    split <;> exact ⟨hk, h⟩
  | bestOpen f step d s e v => exact ⟨hk, h⟩
  | bestDone f step d s =>
    simp only [exec]
    split
    · cases hsv : saveCheckpoint k.ckpts step (serialize d) with
      | none => exact ⟨hk, trivial⟩
      | some cs =>
        refine ⟨fun l sd hl => ?_, h⟩
        obtain ⟨-, rfl⟩ := save_some.mp hsv
        rcases List.mem_append.mp hl with hl | hl
        · exact hk l sd hl
        · obtain ⟨rfl, rfl⟩ : l = step ∧ sd = serialize d := by simpa using hl
          exact ⟨d.ema, s, h.2⟩
    · exact ⟨hk, h⟩
  | descent c init step d s =>
    simp only [exec]
    have hc : c.finishing = none := by rw [IsConfig.fin hp.1, hfin]
    rw [if_neg (by simp [hc])]
    exact ⟨hk, s, h⟩
  | finished c d => exact ⟨hk, h⟩
  | raised => exact ⟨hk, h⟩

theorem linv_reach [LinearOrder X] [Subsingleton E] {P : Setup V O E S T R X} {c₀ : Config R}
    (hfresh : ∀ c, (P.fresh c).1.count = 0) (hfin : c₀.finishing = none) {n : Nat} {seen : List T}
    {k : Disk V O T R X} {p : Option (Proc V O E S T R X)} (h : Reach P c₀ n seen k p) : LInv P c₀ k p := by
  induction h with
  | empty => exact ⟨by simp, trivial⟩
  | start arg drawn _ _ ih => exact ⟨ih.1, trivial⟩
  | run hr ih => exact linv_exec hfresh hfin (inv_reach hfresh hr) ih
  | kill _ ih => exact ⟨ih.1, trivial⟩
  | exit _ ih => exact ⟨ih.1, trivial⟩

/-- **C103** (part): without a running average and without descent finishing, in every history a checkpoint
labelled `l` holds the variables and the optimiser state after exactly `l` steps from a starting point, each
step continuing from the previous one. -/
theorem C103_partial [LinearOrder X] [Subsingleton E] {P : Setup V O E S T R X} {c₀ : Config R}
    (hfresh : ∀ c, (P.fresh c).1.count = 0) (hfin : c₀.finishing = none) {n : Nat} {seen : List T}
    {k : Disk V O T R X} {p : Option (Proc V O E S T R X)} (h : Reach P c₀ n seen k p)
    {l : Nat} {v : V} {o : O} {count : Nat} (hl : (l, (v, o, count)) ∈ k.ckpts) :
    count = l ∧ ∃ e s, Trained P.train (Start P.fresh c₀) (Sampler P.fresh c₀) l v o e s := by
  obtain ⟨h1, -⟩ := C101_labels hfresh h hl
  have hle := ((inv_reach hfresh h).2.1 l _ hl).2.2.2.2
  have : total c₀ = c₀.steps := by simp [total, hfin]
  obtain rfl : count = l := h1 (by omega)
  exact ⟨rfl, (linv_reach hfresh hfin h).1 _ _ hl⟩

/-- What a restart restores: variables, optimiser state and step count of the latest checkpoint, but the
running average of the driver that was just built. -/
theorem C103_restored (d : Driver V O E) (cs : List (Nat × (V × O × Nat))) {l : Nat} {v : V} {o : O} {count : Nat}
    (hl : (l, (v, o, count)) ∈ cs) (hmax : ∀ c ∈ cs, c ≠ (l, (v, o, count)) → c.1 < l) :
    restore d cs = ⟨v, o, d.ema, count⟩ := by
  simp [restore, latest_max hl hmax, deserialize]

end GPSKet.BackflowRun
