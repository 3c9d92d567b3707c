import Verif.Model.UniqueCache
import Mathlib.Tactic.Common
import Mathlib.Order.Basic
import Mathlib.Order.Nat

/-!
# Property C151: samples of `MCStateUniqueSamples` are never stale
-/

namespace GPSKet.UniqueCache

variable {Par Smp : Type}

/-- Actions that change what is sampled, or ask for new samples. -/
def Action.refreshes : Action Par Smp → Bool
  | .setParameters _ | .setSampler _ | .setNSamples _ | .reset => true
  | _ => false

/-- Cached samples were drawn with the present parameters, sampler and number of samples, before now. -/
def Inv (s : State Par Smp) : Prop :=
  ∀ u, s.unique = some u → u.settings.parameters = s.settings.parameters ∧ u.settings.sampler = s.settings.sampler ∧
    u.settings.n_samples = s.settings.n_samples ∧ u.draw < s.draws

theorem inv_step (s : State Par Smp) (h : Inv s) (a : Action Par Smp) : Inv (step s a) := by
  cases a with
  | setParameters p => intro u hu; simp [step, reset] at hu
  | setSampler p => intro u hu; simp [step, reset] at hu
  | setNSamples p => intro u hu; simp [step, reset] at hu
  | reset => intro u hu; simp [step, reset] at hu
  | setMaxSteps m => exact h
  | setBatchSize b => exact h
  | sample =>
    intro u hu
    obtain ⟨h1, h2, h3, h4⟩ := h u hu
    exact ⟨h1, h2, h3, Nat.lt_succ_of_lt h4⟩
  | read =>
    unfold step readSamples
    cases hc : s.unique with
    | some v => exact h
    | none =>
      intro u hu
      have : u = ⟨s.settings, s.draws⟩ := by simpa using hu.symm
      subst this
      exact ⟨rfl, rfl, rfl, Nat.lt_succ_self _⟩

theorem inv_run (s : State Par Smp) (h : Inv s) (l : List (Action Par Smp)) : Inv (run s l) := by
  unfold run
  induction l generalizing s with
  | nil => exact h
  | cons a l ih => exact ih _ (inv_step s h a)

/-- The samples a user gets after a history. -/
def samplesAfter (s : State Par Smp) (h : List (Action Par Smp)) : Samples Par Smp := (readSamples (run s h)).1

/-- C151, the part that holds: after any history the samples were drawn with the parameters, the sampler and the number of samples that are set
at the moment.  Missing: `max_sampling_steps` and `batch_size`, see `C151_fails`. -/
theorem C151_current_partial (p : Par) (q : Smp) (n : ℕ) (m b : Option ℕ) (h : List (Action Par Smp)) :
    let s := run (construct p q n m b) h
    let u := samplesAfter (construct p q n m b) h
    u.settings.parameters = s.settings.parameters ∧ u.settings.sampler = s.settings.sampler ∧ u.settings.n_samples = s.settings.n_samples := by
  intro s u
  have hinv : Inv s := inv_run _ (by intro v hv; simp [construct] at hv) h
  have hu : u = (readSamples s).1 := rfl
  rw [hu]
  unfold readSamples
  cases hc : s.unique with
  | some v => exact ⟨(hinv v hc).1, (hinv v hc).2.1, (hinv v hc).2.2.1⟩
  | none => exact ⟨rfl, rfl, rfl⟩

/-- The settings after a history are the ones assigned last. -/
theorem C151_settings (s : State Par Smp) (h : List (Action Par Smp)) (p : Par) (q : Smp) (n : ℕ) :
    (run s (h ++ [.setParameters p])).settings.parameters = p ∧ (run s (h ++ [.setSampler q])).settings.sampler = q ∧
      (run s (h ++ [.setNSamples n])).settings.n_samples = n := by
  unfold run
  simp only [List.foldl_append, List.foldl_cons, List.foldl_nil]
  exact ⟨rfl, rfl, rfl⟩

theorem unique_keep (s : State Par Smp) (u : Samples Par Smp) (hu : s.unique = some u) (l : List (Action Par Smp))
    (hl : ∀ a ∈ l, a.refreshes = false) : (run s l).unique = some u := by
  unfold run
  induction l generalizing s with
  | nil => exact hu
  | cons a l ih =>
    rw [List.foldl_cons]
    apply ih _ _ fun b hb => hl b (List.mem_cons_of_mem _ hb)
    have ha := hl a List.mem_cons_self
    cases a <;> simp_all [Action.refreshes, step, readSamples]

/-- C151: between two changes all expectation values and gradients use the same samples. -/
theorem C151_same_samples (s : State Par Smp) (h l : List (Action Par Smp)) (hl : ∀ a ∈ l, a.refreshes = false) :
    samplesAfter s (h ++ .read :: l) = samplesAfter s h := by
  have hrun : run s (h ++ .read :: l) = run (step (run s h) .read) l := by
    unfold run
    rw [List.foldl_append, List.foldl_cons]
  have hu : (step (run s h) .read).unique = some (readSamples (run s h)).1 := by
    unfold step readSamples
    cases hc : (run s h).unique with
    | some v => exact hc
    | none => rfl
  unfold samplesAfter
  rw [hrun]
  have := unique_keep _ _ hu l hl
  generalize hs : run (step (run s h) .read) l = s' at this
  unfold readSamples at this ⊢
  rw [this]

theorem draws_mono (s : State Par Smp) (l : List (Action Par Smp)) : s.draws ≤ (run s l).draws := by
  unfold run
  induction l generalizing s with
  | nil => exact le_rfl
  | cons a l ih =>
    rw [List.foldl_cons]
    refine le_trans ?_ (ih _)
    cases a with
    | sample => exact Nat.le_succ _
    | read =>
      unfold step readSamples
      cases s.unique with
      | some v => exact le_rfl
      | none => exact Nat.le_succ _
    | _ => exact le_rfl

/-- C151: after a change of parameters, sampler or number of samples, or a reset, the samples are new ones. -/
theorem C151_fresh (p : Par) (q : Smp) (n : ℕ) (m b : Option ℕ) (h l : List (Action Par Smp)) (a : Action Par Smp)
    (ha : a.refreshes = true) :
    (samplesAfter (construct p q n m b) h).draw < (samplesAfter (construct p q n m b) (h ++ .read :: a :: l)).draw := by
  set s := run (construct p q n m b) h with hs
  have hinv : Inv s := inv_run _ (by intro v hv; simp [construct] at hv) h
  set s1 := step s .read with hs1
  have hold : (readSamples s).1.draw < s1.draws := by
    have : (readSamples s).2.draws = s1.draws := rfl
    rw [← this]
    unfold readSamples
    cases hc : s.unique with
    | some v => exact (hinv v hc).2.2.2
    | none => exact Nat.lt_succ_self _
  have hrun : run (construct p q n m b) (h ++ .read :: a :: l) = run (step s1 a) l := by
    unfold run at hs ⊢
    rw [List.foldl_append, List.foldl_cons, List.foldl_cons, ← hs]
  have hnone : (step s1 a).unique = none ∧ (step s1 a).draws = s1.draws := by
    cases a <;> simp_all [Action.refreshes, step, reset]
  -- samples cached from here on are drawn later
  have hlater : ∀ (l : List (Action Par Smp)) (t : State Par Smp), (∀ u, t.unique = some u → s1.draws ≤ u.draw) → s1.draws ≤ t.draws →
      (∀ u, (run t l).unique = some u → s1.draws ≤ u.draw) ∧ s1.draws ≤ (run t l).draws := by
    intro l
    induction l with
    | nil => exact fun t h1 h2 => ⟨h1, h2⟩
    | cons c l ih =>
      intro t h1 h2
      apply ih (step t c)
      · cases c with
        | read =>
          unfold step readSamples
          cases hc : t.unique with
          | some v => exact fun u hu => h1 u hu
          | none =>
            intro u hu
            have : u = ⟨t.settings, t.draws⟩ := by simpa using hu.symm
            subst this
            exact h2
        | setMaxSteps m => exact h1
        | setBatchSize b => exact h1
        | sample => exact h1
        | _ => intro u hu; simp [step, reset] at hu
      · exact le_trans h2 (draws_mono t [c])
  obtain ⟨k1, k2⟩ := hlater l (step s1 a) (by intro u hu; rw [hnone.1] at hu; cases hu) hnone.2.ge
  unfold samplesAfter
  rw [hrun]
  refine lt_of_lt_of_le hold ?_
  generalize run (step s1 a) l = t at k1 k2
  unfold readSamples
  cases hc : t.unique with
  | some v => exact k1 v hc
  | none => exact k2

/-- C151 is false for `batch_size` and `max_sampling_steps`, whose assignment keeps the samples drawn with the old values; for a batch size
left to its default, which stays at the number of samples of the construction; and for `sample()`, after which the old samples are still
used. -/
theorem C151_fails (p : Par) (q : Smp) (n b b' : ℕ) (hb : b ≠ b') :
    (samplesAfter (construct p q n none (some b)) [.read, .setBatchSize b']).settings.batch_size ≠ b' ∧
    (samplesAfter (construct p q n none (some b)) [.read, .setMaxSteps (some b')]).settings.max_sampling_steps ≠ some b' ∧
    (samplesAfter (construct p q b none none) [.setNSamples b']).settings.batch_size ≠ b' ∧
    samplesAfter (construct p q n none (some b)) [.read, .sample] = samplesAfter (construct p q n none (some b)) [] :=
  ⟨hb, by simp [samplesAfter, run, step, readSamples, construct], hb, rfl⟩

/-- Instances: a history with changes and reads. -/
example : (samplesAfter (construct (0 : ℕ) "exchange" 100 none none) [.read, .setParameters 1, .setNSamples 50]).settings.parameters = 1 :=
  (C151_current_partial 0 "exchange" 100 none none [.read, .setParameters 1, .setNSamples 50]).1

example : samplesAfter (construct (0 : ℕ) "exchange" 100 none none) [.read, .read, .setBatchSize 3, .read] =
    samplesAfter (construct (0 : ℕ) "exchange" 100 none none) [] :=
  C151_same_samples _ [] [.read, .setBatchSize 3, .read] (by decide)

example := C151_fresh (0 : ℕ) "exchange" 100 none none [.read] [.read, .sample] (.setParameters 1) rfl

end GPSKet.UniqueCache
