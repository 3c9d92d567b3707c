import Verif.Lemmas.SharedFiles

/-!
# C177: the files that the processes of a training run share
-/

namespace GPSKet.SharedFiles

variable {n : ℕ} {C P B : Type}

/-! ## Lemmas about `main` -/

theorem stepWrites_written (s : StepFiles P B) (a : Act (Dir C P B) (Seen C P B)) (ha : a ∈ stepWrites s) :
    ∃ f : Dir C P B → Dir C P B, a = .file fun k => (f k, .written) := by
  unfold stepWrites at ha
  rcases List.mem_append.mp ha with h | h
  · rcases hb : s.best with _ | b <;> simp only [hb, Option.elim, saveBest, List.mem_cons, List.not_mem_nil, or_false] at h
    rcases h with rfl | rfl <;> exact ⟨_, rfl⟩
  · rcases hb : s.ckpt with _ | b <;> simp only [hb, Option.elim, saveCheckpoint, List.mem_cons, List.not_mem_nil, or_false] at h
    exact ⟨_, h⟩

/-- What an action shows. -/
def Shows (φ : Seen C P B → Prop) (a : Act (Dir C P B) (Seen C P B)) : Prop := ∃ f k, a = .file f ∧ φ (f k).2

theorem trainLoop_shows (rank : ℕ) (steps : List (StepFiles P B)) (φ : Seen C P B → Prop) (h1 : ¬φ .written) (h2 : ∀ b, ¬φ (.oldBest b))
    (a : Act (Dir C P B) (Seen C P B)) (ha : a ∈ trainLoop rank steps) : ¬Shows φ a := by
  rintro ⟨f, k, rfl, hf⟩
  unfold trainLoop at ha
  rcases List.mem_append.mp ha with h | h
  · by_cases h0 : rank = 0
    · simp only [h0, if_true, List.mem_singleton, Act.file.injEq] at h
      subst h
      exact h2 _ hf
    · simp [h0] at h
  · obtain ⟨s, -, hs⟩ := List.mem_flatMap.mp h
    unfold trainStep at hs
    rcases List.mem_cons.mp hs with hs | hs
    · cases hs
    · by_cases h0 : rank = 0
      · rw [if_pos h0] at hs
        obtain ⟨f', hf'⟩ := stepWrites_written s _ hs
        simp only [Act.file.injEq] at hf'
        subst hf'
        exact h1 hf
      · simp [h0] at hs

theorem prologue_shows (given : Bool) (c : C) (setup : List Bool) (rank : ℕ) (φ : Seen C P B → Prop) (h1 : ¬φ .written)
    (h2 : ∀ b, ¬φ (.config b)) (a : Act (Dir C P B) (Seen C P B)) (ha : a ∈ prologue given c setup rank) : ¬Shows φ a := by
  rintro ⟨f, k, rfl, hf⟩
  unfold prologue saveConfig readConfig at ha
  simp only [List.mem_append, List.mem_map, reduceCtorEq, and_false, exists_false, or_false, List.mem_singleton] at ha
  rcases ha with h | h
  · cases given
    · simp only [Bool.false_eq_true, if_false, List.mem_singleton, Act.file.injEq] at h
      subst h
      exact h2 _ hf
    · simp at h
  · by_cases h0 : rank = 0
    · simp only [h0, if_true, List.mem_cons, List.not_mem_nil, or_false, Act.file.injEq] at h
      rcases h with rfl | rfl <;> exact h1 hf
    · simp [h0] at h

theorem evaluation_shows (evaluate : Bool) (evals : ℕ) (φ : Seen C P B → Prop) (h1 : ∀ b, ¬φ (.best b)) (a : Act (Dir C P B) (Seen C P B))
    (ha : a ∈ if evaluate then evaluation evals else []) : ¬Shows φ a := by
  rintro ⟨f, k, rfl, hf⟩
  cases evaluate
  · simp at ha
  · simp only [if_true, evaluation, List.mem_cons, Act.file.injEq, List.mem_replicate, reduceCtorEq, and_false, or_false] at ha
    subst ha
    exact h1 _ hf

theorem readOnly_main (given : Bool) (c : C) (setup : List Bool) (loops : List (List (StepFiles P B))) (evaluate : Bool) (evals : ℕ) :
    ReadOnly fun r : Fin (n + 1) => main given c setup loops evaluate evals r := by
  intro r hr f hf k
  have h0 : (r : ℕ) ≠ 0 := fun h => hr (Fin.ext h)
  simp only [main, prologue, trainLoop, trainStep, if_neg h0, readConfig, restoreCheckpoint, evaluation, List.mem_append, List.mem_cons,
    List.mem_flatMap, List.mem_map, List.not_mem_nil, reduceCtorEq, and_false, exists_false, or_false, false_or, Act.file.injEq] at hf
  rcases hf with hf | hf | hf
  · cases given <;> simp at hf
    subst hf
    rfl
  · subst hf
    rfl
  · cases evaluate <;> simp at hf
    subst hf
    rfl

theorem calls_stepWrites (s : StepFiles P B) (a : Act (Dir C P B) (Seen C P B)) (ha : a ∈ stepWrites s) : a.isCall = false := by
  obtain ⟨f, rfl⟩ := stepWrites_written s a ha
  rfl

theorem calls_prologue (given : Bool) (c : C) (setup : List Bool) (rank : ℕ) :
    ((prologue (P := P) (B := B) given c setup rank).filter Act.isCall).length = setup.length + 1 := by
  have h : ∀ l : List Bool, ((l.map (Act.call (K := Dir C P B) (V := Seen C P B))).filter Act.isCall) = l.map .call := by
    intro l
    refine List.filter_eq_self.mpr fun a ha => ?_
    obtain ⟨b, -, rfl⟩ := List.mem_map.mp ha
    rfl
  unfold prologue
  simp only [List.filter_append, List.length_append, h, List.length_map]
  cases given <;> by_cases h0 : rank = 0 <;> simp [h0, readConfig, saveConfig, Act.isCall] <;> exact Nat.add_comm 1 _

theorem calls_trainLoop (rank : ℕ) (steps : List (StepFiles P B)) :
    ((trainLoop (C := C) rank steps).filter Act.isCall).length = steps.length := by
  have h : ∀ l : List (StepFiles P B), ((l.flatMap (trainStep (C := C) rank)).filter Act.isCall).length = l.length := by
    intro l
    induction l with
    | nil => rfl
    | cons s l ih =>
      rw [List.flatMap_cons, List.filter_append, List.length_append, ih]
      have : ((trainStep (C := C) rank s).filter Act.isCall).length = 1 := by
        unfold trainStep
        rw [List.filter_cons_of_pos (by rfl), List.filter_eq_nil_iff.mpr]
        · rfl
        · intro a ha
          by_cases h0 : rank = 0
          · rw [if_pos h0] at ha
            rw [calls_stepWrites s a ha]
            simp
          · simp [h0] at ha
      rw [this, List.length_cons]
      omega
  unfold trainLoop
  rw [List.filter_append, List.length_append, h]
  by_cases h0 : rank = 0 <;> simp [h0, Act.isCall]

theorem calls_loops (rank : ℕ) (loops : List (List (StepFiles P B))) :
    ((loops.flatMap (trainLoop (C := C) rank)).filter Act.isCall).length = loops.flatten.length := by
  induction loops with
  | nil => rfl
  | cons s l ih => rw [List.flatMap_cons, List.filter_append, List.length_append, ih, calls_trainLoop, List.flatten_cons, List.length_append]

theorem prologue_keeps {X : Type} (g : Dir C P B → X) (hg : ∀ k c, g { k with config := c } = g k) (given : Bool) (c : C) (setup : List Bool) (rank : ℕ) :
    Keeps g (prologue given c setup rank) := by
  unfold prologue
  refine ((Keeps.append ?_ ?_).append ?_).append ?_
  · cases given
    · exact Keeps.cons (fun _ => rfl) Keeps.nil
    · exact Keeps.nil
  · exact Keeps.cons (fun _ => rfl) Keeps.nil
  · split
    · exact Keeps.cons (fun k => hg k _) (Keeps.cons (fun k => hg k _) Keeps.nil)
    · exact Keeps.nil
  · intro a ha
    obtain ⟨b, -, rfl⟩ := List.mem_map.mp ha
    exact fun _ => rfl

theorem evaluation_keeps {X : Type} (g : Dir C P B → X) (evaluate : Bool) (evals : ℕ) :
    Keeps g (if evaluate then evaluation evals else []) := by
  cases evaluate
  · exact Keeps.nil
  · refine Keeps.cons (fun _ => rfl) ?_
    intro a ha
    rw [List.mem_replicate] at ha
    rw [ha.2]
    exact fun _ => rfl

theorem trainLoop_guarded {X : Type} (g : Dir C P B → X) (rank : ℕ) (steps : List (StepFiles P B)) : Guarded g (trainLoop rank steps) := by
  unfold trainLoop
  refine Guarded.append (Keeps.guarded ?_) (Guarded.flatMap (fun _ => Guarded.call _) _)
  split
  · exact Keeps.cons (fun _ => rfl) Keeps.nil
  · exact Keeps.nil

/-- A change of something other than the configuration comes after a reduction that follows the prologue. -/
theorem main_guarded {X : Type} (g : Dir C P B → X) (hg : ∀ k c, g { k with config := c } = g k) (given : Bool) (c : C) (setup : List Bool)
    (loops : List (List (StepFiles P B))) (evaluate : Bool) (evals : ℕ) (rank : ℕ) (p : ℕ) (a : Act (Dir C P B) (Seen C P B))
    (hp : (main given c setup loops evaluate evals rank)[p]? = some a) (hk : ∃ k, g (effect k a) ≠ g k) :
    ∃ q, q < p ∧ (main given c setup loops evaluate evals rank)[q]? = some (.call true) ∧
      setup.length + 1 ≤ callsBefore (main given c setup loops evaluate evals rank) q := by
  have hA : Keeps g (prologue given c setup rank) := prologue_keeps g hg given c setup rank
  have hB : Guarded g (restoreCheckpoint :: (loops.flatMap (trainLoop rank) ++ if evaluate then evaluation evals else [])) := by
    have h1 : Guarded g [(restoreCheckpoint : Act (Dir C P B) (Seen C P B))] := (Keeps.cons (fun _ => rfl) Keeps.nil).guarded
    exact h1.append ((Guarded.flatMap (trainLoop_guarded g rank) loops).append (evaluation_keeps g evaluate evals).guarded)
  unfold main at hp ⊢
  by_cases hl : p < (prologue (P := P) (B := B) given c setup rank).length
  · rw [List.getElem?_append_left hl] at hp
    obtain ⟨k, hk⟩ := hk
    exact absurd (hA a (List.mem_of_getElem? hp) k) hk
  · rw [List.getElem?_append_right (by omega)] at hp
    obtain ⟨q, hq, hq'⟩ := hB _ a hp hk
    refine ⟨(prologue (P := P) (B := B) given c setup rank).length + q, by omega, ?_, ?_⟩
    · rw [List.getElem?_append_right (by omega), Nat.add_sub_cancel_left]
      exact hq'
    · refine le_trans ?_ (callsBefore_mono _ (Nat.le_add_right _ q))
      rw [callsBefore_append, calls_prologue]

/-! ## The checkpoint -/

/-- **All processes continue from the same checkpoint**, the one that was there at the beginning, in any order of the processes: no process can be so late that it finds
a checkpoint of the run itself. -/
theorem C177_checkpoint (given : Bool) (c : C) (setup : List Bool) (loops : List (List (StepFiles P B))) (evaluate : Bool) (evals : ℕ)
    (k : Dir C P B) (m : State n (Dir C P B) (Seen C P B))
    (hm : Reachable (fun r : Fin (n + 1) => main given c setup loops evaluate evals r) k m) (r : Fin (n + 1)) (v : Option P)
    (hv : .ckpt v ∈ m.seen r) : v = k.ckpt := by
  obtain ⟨m0, f, hm0, hf, hin, hvf⟩ := seen_of_reachable hm r _ hv
  have hi := Inv.reachable (readOnly_main given c setup loops evaluate evals) hm0
  set φ : Seen C P B → Prop := fun x => ∃ v, x = .ckpt v with hφ
  have hpos : m0.pos r = (prologue (P := P) (B := B) given c setup r).length := by
    refine index_of_split (Shows φ) (A := prologue given c setup r) (x := restoreCheckpoint)
      (prologue_shows given c setup r φ (by simp [hφ]) (by simp [hφ])) ?_ hf ⟨f, m0.disk, rfl, v, hvf.symm⟩
    intro a ha
    rcases List.mem_append.mp ha with ha | ha
    · obtain ⟨s, -, hs⟩ := List.mem_flatMap.mp ha
      exact trainLoop_shows r s φ (by simp [hφ]) (by simp [hφ]) a hs
    · exact evaluation_shows evaluate evals φ (by simp [hφ]) a ha
  have hent : entered (fun r : Fin (n + 1) => main given c setup loops evaluate evals r) m0 r ≤ setup.length + 1 := by
    unfold entered
    rw [hin, hpos]
    simp only [main, Bool.false_eq_true, if_false, Nat.add_zero]
    rw [callsBefore_append, calls_prologue]
  have h0 : m0.disk.ckpt = k.ckpt :=
    hi.before (fun d => d.ckpt) r _ hent fun p a hp hk => main_guarded (fun d => d.ckpt) (fun _ _ => rfl) given c setup loops evaluate evals 0 p a hp hk
  have hf0 : f = fun k => (k, .ckpt k.ckpt) := by
    rw [hpos] at hf
    simp only [main] at hf
    rw [List.getElem?_append_right le_rfl, Nat.sub_self, List.getElem?_cons_zero] at hf
    simp only [restoreCheckpoint, Option.some.injEq, Act.file.injEq] at hf
    exact hf.symm
  rw [hf0] at hvf
  simp only [Seen.ckpt.injEq] at hvf
  rw [hvf, h0]

/-! ## The configuration -/

/-- **The root reads the configuration that was there at the beginning**; the other processes read that one, the one that the root saves, or [a truncated file,
`C177_config_fails`]. -/
theorem C177_config_partial (given : Bool) (c : C) (setup : List Bool) (loops : List (List (StepFiles P B))) (evaluate : Bool) (evals : ℕ)
    (k : Dir C P B) (m : State n (Dir C P B) (Seen C P B))
    (hm : Reachable (fun r : Fin (n + 1) => main given c setup loops evaluate evals r) k m) (r : Fin (n + 1)) (v : Option (Option C))
    (hv : .config v ∈ m.seen r) : given = false ∧ (v = k.config ∨ r ≠ 0 ∧ (v = some none ∨ v = some (some c))) := by
  obtain ⟨m0, f, hm0, hf, hin, hvf⟩ := seen_of_reachable hm r _ hv
  have hi := Inv.reachable (readOnly_main given c setup loops evaluate evals) hm0
  set φ : Seen C P B → Prop := fun x => ∃ v, x = .config v with hφ
  have hrest : ∀ a ∈ (restoreCheckpoint : Act (Dir C P B) (Seen C P B)) ::
      (loops.flatMap (trainLoop r) ++ if evaluate then evaluation evals else []), ¬Shows φ a := by
    intro a ha
    rcases List.mem_cons.mp ha with rfl | ha
    · rintro ⟨f, k, hf, v, hv⟩
      simp only [restoreCheckpoint, Act.file.injEq] at hf
      subst hf
      simp at hv
    · rcases List.mem_append.mp ha with ha | ha
      · obtain ⟨s, -, hs⟩ := List.mem_flatMap.mp ha
        exact trainLoop_shows r s φ (by simp [hφ]) (by simp [hφ]) a hs
      · exact evaluation_shows evaluate evals φ (by simp [hφ]) a ha
  have hpro : ∀ a ∈ [Act.call false] ++ (if (r : ℕ) = 0 then saveConfig c else []) ++ setup.map .call, ¬Shows (P := P) (B := B) φ a := by
    intro a ha
    have ha' : a ∈ prologue true c setup r := by simpa [prologue] using ha
    rintro ⟨f, k, rfl, v, hv⟩
    simp only [List.mem_append, List.mem_map, reduceCtorEq, and_false, exists_false, or_false, List.mem_singleton, false_or] at ha
    by_cases h0 : (r : ℕ) = 0
    · simp only [h0, if_true, saveConfig, List.mem_cons, List.not_mem_nil, or_false, Act.file.injEq] at ha
      rcases ha with rfl | rfl <;> simp at hv
    · simp [h0] at ha
  have hshow : Shows φ (.file f) := ⟨f, m0.disk, rfl, v, hvf.symm⟩
  cases given with
  | true =>
    exfalso
    have hmem := List.mem_of_getElem? hf
    simp only [main, prologue, if_true, List.nil_append] at hmem
    rcases List.mem_append.mp hmem with h | h
    · exact hpro _ h hshow
    · exact hrest _ h hshow
  | false =>
    refine ⟨rfl, ?_⟩
    have hsplit : ∀ rank : ℕ, main (P := P) (B := B) false c setup loops evaluate evals rank = [] ++ readConfig ::
        (([Act.call false] ++ (if rank = 0 then saveConfig c else []) ++ setup.map .call) ++
          restoreCheckpoint :: (loops.flatMap (trainLoop rank) ++ if evaluate then evaluation evals else [])) := by
      intro rank
      simp [main, prologue]
    have hpos : m0.pos r = 0 := by
      rw [hsplit] at hf
      refine index_of_split (A := []) (Shows φ) (fun a h => absurd h List.not_mem_nil) ?_ hf hshow
      intro a ha
      rcases List.mem_append.mp ha with h | h
      · exact hpro a h
      · exact hrest a h
    have hf0 : f = fun k => (k, .config k.config) := by
      rw [hpos] at hf
      rw [hsplit, List.nil_append, List.getElem?_cons_zero] at hf
      simp only [readConfig, Option.some.injEq, Act.file.injEq] at hf
      exact hf.symm
    rw [hf0] at hvf
    simp only [Seen.config.injEq] at hvf
    subst hvf
    by_cases hr : r = 0
    · left
      subst hr
      rw [hi.disk, hpos]
      rfl
    · have hconf : ∀ (l : List (Act (Dir C P B) (Seen C P B))) (d : Dir C P B),
          (∀ a ∈ l, ∀ d, (effect d a).config = d.config ∨ (effect d a).config = some none ∨ (effect d a).config = some (some c)) →
          (l.foldl effect d).config = d.config ∨ (l.foldl effect d).config = some none ∨ (l.foldl effect d).config = some (some c) := by
        intro l
        induction l with
        | nil => exact fun d _ => Or.inl rfl
        | cons a l ih =>
          intro d h
          rw [List.foldl_cons]
          rcases ih (effect d a) (fun b hb => h b (List.mem_cons_of_mem _ hb)) with h1 | h1
          · rw [h1]
            exact h a List.mem_cons_self d
          · exact Or.inr h1
      have := hconf ((main false c setup loops evaluate evals ((0 : Fin (n + 1)) : ℕ)).take (m0.pos 0)) k ?_
      · rw [← hi.disk] at this
        rcases this with h | h
        · exact Or.inl h
        · exact Or.inr ⟨hr, h⟩
      · intro a ha d
        replace ha := List.mem_of_mem_take ha
        rw [hsplit, List.nil_append] at ha
        rcases List.mem_cons.mp ha with rfl | ha
        · exact Or.inl rfl
        rcases List.mem_append.mp ha with ha | ha
        · simp only [Fin.val_zero, if_true, saveConfig, List.mem_append, List.mem_cons, List.not_mem_nil, or_false, List.mem_map] at ha
          rcases ha with (rfl | rfl | rfl) | ⟨b, -, rfl⟩
          · exact Or.inl rfl
          · exact Or.inr (Or.inl rfl)
          · exact Or.inr (Or.inr rfl)
          · exact Or.inl rfl
        · left
          rcases List.mem_cons.mp ha with rfl | ha
          · rfl
          rcases List.mem_append.mp ha with ha | ha
          · obtain ⟨l, -, ha⟩ := List.mem_flatMap.mp ha
            unfold trainLoop at ha
            rcases List.mem_append.mp ha with ha | ha
            · simp only [Fin.val_zero, if_true, List.mem_singleton] at ha
              subst ha
              rfl
            · obtain ⟨s, -, ha⟩ := List.mem_flatMap.mp ha
              unfold trainStep at ha
              rcases List.mem_cons.mp ha with rfl | ha
              · rfl
              · simp only [Fin.val_zero, if_true, stepWrites, List.mem_append] at ha
                rcases ha with ha | ha
                · rcases hb : s.best with _ | b <;> simp only [hb, Option.elim, saveBest, List.mem_cons, List.not_mem_nil, or_false] at ha
                  rcases ha with rfl | rfl <;> rfl
                · rcases hb : s.ckpt with _ | b <;> simp only [hb, Option.elim, saveCheckpoint, List.mem_cons, List.not_mem_nil, or_false] at ha
                  subst ha
                  rfl
          · exact evaluation_keeps (fun d => d.config) evaluate evals a ha d

/-! ## The best parameters -/

/-- The file of the best parameters after the steps: the last ones written, or the ones before. -/
def bestAfter (b : Option (Option B)) (steps : List (StepFiles P B)) : Option (Option B) :=
  steps.foldl (fun b s => match s.best with | some x => some (some x) | none => b) b

theorem foldl_stepWrites (s : StepFiles P B) (k : Dir C P B) :
    ((stepWrites s).foldl effect k).best = match s.best with | some x => some (some x) | none => k.best := by
  rcases s with ⟨_ | b, _ | c⟩ <;> rfl

theorem foldl_trainSteps (steps : List (StepFiles P B)) (k : Dir C P B) :
    ((steps.flatMap (trainStep 0)).foldl effect k).best = bestAfter k.best steps := by
  induction steps generalizing k with
  | nil => rfl
  | cons s l ih =>
    rw [List.flatMap_cons, List.foldl_append, ih]
    show bestAfter ((stepWrites s).foldl effect k).best l = _
    rw [foldl_stepWrites]
    rfl

theorem foldl_loops (loops : List (List (StepFiles P B))) (k : Dir C P B) :
    ((loops.flatMap (trainLoop 0)).foldl effect k).best = bestAfter k.best loops.flatten := by
  induction loops generalizing k with
  | nil => rfl
  | cons s l ih =>
    rw [List.flatMap_cons, List.foldl_append, ih, List.flatten_cons]
    show bestAfter ((s.flatMap (trainStep 0)).foldl effect k).best _ = _
    rw [foldl_trainSteps]
    unfold bestAfter
    rw [List.foldl_append]

/-- What precedes the evaluation. -/
def body (given : Bool) (c : C) (setup : List Bool) (loops : List (List (StepFiles P B))) (rank : ℕ) : List (Act (Dir C P B) (Seen C P B)) :=
  prologue given c setup rank ++ restoreCheckpoint :: loops.flatMap (trainLoop rank)

theorem main_eq_body (given : Bool) (c : C) (setup : List Bool) (loops : List (List (StepFiles P B))) (evals : ℕ) (rank : ℕ) :
    main given c setup loops true evals rank =
      body given c setup loops rank ++ (.file fun k => (k, .best k.best)) :: List.replicate evals (.call true) := by
  simp [main, body, evaluation]

theorem foldl_body (given : Bool) (c : C) (setup : List Bool) (loops : List (List (StepFiles P B))) (k : Dir C P B) :
    ((body given c setup loops 0).foldl effect k).best = bestAfter k.best loops.flatten := by
  unfold body
  rw [List.foldl_append, List.foldl_cons, foldl_loops]
  show bestAfter ((prologue given c setup 0).foldl effect k).best _ = _
  rw [foldl_keep (fun d : Dir C P B => d.best) _ (prologue_keeps (fun d => d.best) (fun _ _ => rfl) given c setup 0)]

theorem body_shows (given : Bool) (c : C) (setup : List Bool) (loops : List (List (StepFiles P B))) (rank : ℕ) (φ : Seen C P B → Prop)
    (h1 : ¬φ .written) (h2 : ∀ b, ¬φ (.config b)) (h3 : ∀ b, ¬φ (.ckpt b)) (h4 : ∀ b, ¬φ (.oldBest b)) (a : Act (Dir C P B) (Seen C P B))
    (ha : a ∈ body given c setup loops rank) : ¬Shows φ a := by
  unfold body at ha
  rcases List.mem_append.mp ha with ha | ha
  · exact prologue_shows given c setup rank φ h1 h2 a ha
  rcases List.mem_cons.mp ha with rfl | ha
  · rintro ⟨f, k, hf, hφ⟩
    simp only [restoreCheckpoint, Act.file.injEq] at hf
    subst hf
    exact h3 _ hφ
  · obtain ⟨s, -, hs⟩ := List.mem_flatMap.mp ha
    exact trainLoop_shows rank s φ h1 h4 a hs

/-- Where and how a process sees the best parameters. -/
theorem best_seen (given : Bool) (c : C) (setup : List Bool) (loops : List (List (StepFiles P B))) (evaluate : Bool) (evals : ℕ)
    (k : Dir C P B) (m : State n (Dir C P B) (Seen C P B))
    (hm : Reachable (fun r : Fin (n + 1) => main given c setup loops evaluate evals r) k m) (r : Fin (n + 1)) (v : Option (Option B))
    (hv : .best v ∈ m.seen r) :
    evaluate = true ∧ ∃ m0, Inv (fun r : Fin (n + 1) => main given c setup loops evaluate evals r) k m0 ∧
      m0.pos r = (body (P := P) (B := B) given c setup loops r).length ∧ v = m0.disk.best := by
  obtain ⟨m0, f, hm0, hf, hin, hvf⟩ := seen_of_reachable hm r _ hv
  have hi := Inv.reachable (readOnly_main given c setup loops evaluate evals) hm0
  set φ : Seen C P B → Prop := fun x => ∃ v, x = .best v with hφ
  have hshow : Shows φ (.file f) := ⟨f, m0.disk, rfl, v, hvf.symm⟩
  have hbody := body_shows given c setup loops r φ (by simp [hφ]) (by simp [hφ]) (by simp [hφ]) (by simp [hφ])
  cases evaluate with
  | false =>
    exfalso
    have hmem := List.mem_of_getElem? hf
    simp only [main, Bool.false_eq_true, if_false, List.append_nil] at hmem
    exact hbody _ hmem hshow
  | true =>
    refine ⟨rfl, m0, hi, ?_⟩
    rw [main_eq_body] at hf
    have hpos := index_of_split (Shows φ) hbody (by
      intro a ha
      rw [List.mem_replicate] at ha
      rw [ha.2]
      rintro ⟨f, k, h, -⟩
      cases h) hf hshow
    refine ⟨hpos, ?_⟩
    rw [hpos, List.getElem?_append_right le_rfl, Nat.sub_self, List.getElem?_cons_zero] at hf
    simp only [Option.some.injEq, Act.file.injEq] at hf
    subst hf
    simpa using hvf

/-- **The root evaluates the last best parameters that it wrote**, or the ones of the earlier run. -/
theorem C177_evaluate_root (given : Bool) (c : C) (setup : List Bool) (loops : List (List (StepFiles P B))) (evaluate : Bool) (evals : ℕ)
    (k : Dir C P B) (m : State n (Dir C P B) (Seen C P B))
    (hm : Reachable (fun r : Fin (n + 1) => main given c setup loops evaluate evals r) k m) (v : Option (Option B))
    (hv : .best v ∈ m.seen 0) : v = bestAfter k.best loops.flatten := by
  obtain ⟨rfl, m0, hi, hpos, rfl⟩ := best_seen given c setup loops evaluate evals k m hm 0 v hv
  rw [hi.disk, hpos]
  rw [main_eq_body, List.take_left']
  · exact foldl_body given c setup loops k
  · rfl

theorem settled_steps (rank : ℕ) (steps : List (StepFiles P B)) (hne : steps ≠ []) (h : ∀ s, steps.getLast? = some s → s.best = none) :
    Settled (fun d : Dir C P B => d.best) (steps.flatMap (trainStep rank)) := by
  obtain ⟨l, s, rfl⟩ := (List.eq_nil_or_concat' steps).resolve_left hne
  have hs : s.best = none := h s (by simp)
  refine ⟨l.flatMap (trainStep rank), if rank = 0 then stepWrites s else [], by simp [trainStep], ?_, ?_⟩
  · intro a ha
    by_cases h0 : rank = 0
    · rw [if_pos h0] at ha
      exact calls_stepWrites s a ha
    · simp [h0] at ha
  · split
    · unfold stepWrites
      rw [hs]
      rcases s.ckpt with _ | x
      · exact Keeps.nil
      · exact Keeps.cons (fun _ => rfl) Keeps.nil
    · exact Keeps.nil

theorem settled_loops (rank : ℕ) (loops : List (List (StepFiles P B))) (hne : loops.flatten ≠ [])
    (h : ∀ s, loops.flatten.getLast? = some s → s.best = none) :
    Settled (fun d : Dir C P B => d.best) (loops.flatMap (trainLoop rank)) := by
  induction loops with
  | nil => exact absurd rfl hne
  | cons s l ih =>
    rw [List.flatten_cons] at hne h
    rw [List.flatMap_cons]
    by_cases hl : l.flatten = []
    · rw [hl, List.append_nil] at hne h
      have hempty : ∀ l : List (List (StepFiles P B)), l.flatten = [] → ∀ a ∈ l.flatMap (trainLoop (C := C) rank),
          a = .file fun k => (k, .oldBest k.best) := by
        intro l hl a ha
        obtain ⟨x, hx, ha⟩ := List.mem_flatMap.mp ha
        have hx0 : x = [] := List.flatten_eq_nil_iff.mp hl x hx
        subst hx0
        unfold trainLoop at ha
        by_cases h0 : rank = 0
        · simpa [h0] using ha
        · simp [h0] at ha
      refine Settled.append_right ((settled_steps rank s hne h).append_left _) ?_ ?_
      · intro a ha
        rw [hempty l hl a ha]
        rfl
      · intro a ha
        rw [hempty l hl a ha]
        exact fun _ => rfl
    · refine (ih hl ?_).append_left _
      intro x hx
      exact h x (by rw [List.getLast?_append_of_ne_nil _ hl]; exact hx)

/-- **All processes evaluate the same parameters**, the last best ones that the root wrote, if the last step wrote none [see `C177_evaluate_fails`]. -/
theorem C177_evaluate_partial (given : Bool) (c : C) (setup : List Bool) (loops : List (List (StepFiles P B))) (evaluate : Bool) (evals : ℕ)
    (k : Dir C P B) (m : State n (Dir C P B) (Seen C P B))
    (hm : Reachable (fun r : Fin (n + 1) => main given c setup loops evaluate evals r) k m)
    (hlast : ∀ s, loops.flatten.getLast? = some s → s.best = none) (r : Fin (n + 1)) (v : Option (Option B))
    (hv : .best v ∈ m.seen r) : v = bestAfter k.best loops.flatten := by
  obtain ⟨rfl, m0, hi, hpos, rfl⟩ := best_seen given c setup loops evaluate evals k m hm r v hv
  have hfin : ((main given c setup loops true evals 0).foldl effect k).best = bestAfter k.best loops.flatten := by
    rw [main_eq_body, List.foldl_append, ← foldl_body given c setup loops k]
    refine foldl_keep (fun d : Dir C P B => d.best) _ ?_ _
    exact evaluation_keeps (fun d => d.best) true evals
  by_cases hne : loops.flatten = []
  · rw [hi.disk, hne]
    refine foldl_keep (fun d : Dir C P B => d.best) _ ?_ k
    intro a ha k'
    replace ha : a ∈ main given c setup loops true evals 0 := List.mem_of_mem_take ha
    by_contra hk
    obtain ⟨p, hp⟩ := List.getElem?_of_mem ha
    rw [main_eq_body] at ha
    rcases List.mem_append.mp ha with ha | ha
    · unfold body at ha
      rcases List.mem_append.mp ha with ha | ha
      · exact hk (prologue_keeps (fun d => d.best) (fun _ _ => rfl) given c setup 0 a ha k')
      rcases List.mem_cons.mp ha with rfl | ha
      · exact hk rfl
      · obtain ⟨x, hx, ha⟩ := List.mem_flatMap.mp ha
        have hx0 : x = [] := List.flatten_eq_nil_iff.mp hne x hx
        subst hx0
        simp only [trainLoop, if_true, List.flatMap_nil, List.append_nil, List.mem_singleton] at ha
        subst ha
        exact hk rfl
    · exact hk (evaluation_keeps (fun d => d.best) true evals a ha k')
  · have hset : ∀ rank : ℕ, Settled (fun d : Dir C P B => d.best) (body given c setup loops rank) := fun rank => by
      unfold body
      exact (Settled.append_left (settled_loops rank loops hne hlast) [restoreCheckpoint]).append_left _
    have hcount : ∀ rank : ℕ, ((body given c setup loops rank).filter Act.isCall).length = setup.length + 1 + loops.flatten.length := fun rank => by
      unfold body
      rw [List.filter_append, List.length_append, calls_prologue, List.filter_cons_of_neg (by simp [restoreCheckpoint, Act.isCall]), calls_loops]
    obtain ⟨x, y, hxy, hy, -⟩ := hset r
    obtain ⟨x0, y0, hxy0, hy0, hk0⟩ := hset 0
    have hc := hcount r
    have hc0 := hcount 0
    rw [hxy, length_filter_append_call hy] at hc
    rw [hxy0, length_filter_append_call hy0] at hc0
    have hmr : main given c setup loops true evals r = x ++ (.call true :: y ++ (.file fun k => (k, .best k.best)) :: List.replicate evals (.call true)) := by
      rw [main_eq_body, hxy, List.append_assoc]
    have hm0 : main given c setup loops true evals 0 =
        x0 ++ (.call true :: y0 ++ (.file fun k => (k, .best k.best)) :: List.replicate evals (.call true)) := by
      rw [main_eq_body, hxy0, List.append_assoc]
    have hpass := hi.passed r x.length (by rw [hpos, hxy]; simp) (by rw [hmr, List.getElem?_append_right le_rfl]; simp) 0
    have hent : callsBefore (main (P := P) (B := B) given c setup loops true evals ((0 : Fin (n + 1)) : ℕ)) x0.length + 1 ≤
        entered (fun r : Fin (n + 1) => main given c setup loops true evals r) m0 0 := by
      refine le_trans (le_of_eq ?_) hpass
      rw [hmr, callsBefore_append]
      show callsBefore (main given c setup loops true evals 0) x0.length + 1 = _
      rw [hm0, callsBefore_append]
      omega
    have := hi.after (fun d => d.best) x0.length hent (by
      intro p a hp ha k'
      replace ha : (main given c setup loops true evals 0)[p]? = some a := ha
      rw [hm0, List.getElem?_append_right hp] at ha
      rcases List.mem_append.mp (List.mem_of_getElem? ha) with h | h
      · rcases List.mem_cons.mp h with rfl | h
        · rfl
        · exact hk0 a h k'
      · exact evaluation_keeps (fun d => d.best) true evals a h k')
    rw [← hfin]
    exact this

/-! ## Schedules -/

/-- One process makes a step. -/
def next {n : ℕ} {K V : Type} (acts : Fin (n + 1) → List (Act K V)) (m : State n K V) (r : Fin (n + 1)) : Option (State n K V) :=
  match (acts r)[m.pos r]? with
  | none => none
  | some (.file f) =>
    if m.inside r = false then
      some { m with
        disk := (f m.disk).1
        pos := Function.update m.pos r (m.pos r + 1)
        seen := Function.update m.seen r (m.seen r ++ [(f m.disk).2]) }
    else none
  | some (.call b) =>
    if m.inside r = false then some { m with inside := Function.update m.inside r true }
    else if ∀ s, (b = true ∨ s = 0) → callsBefore (acts r) (m.pos r) + 1 ≤ entered acts m s then
      some { m with inside := Function.update m.inside r false, pos := Function.update m.pos r (m.pos r + 1) }
    else none

theorem next_step {n : ℕ} {K V : Type} {acts : Fin (n + 1) → List (Act K V)} {m m' : State n K V} {r : Fin (n + 1)} (h : next acts m r = some m') :
    Step acts m m' := by
  unfold next at h
  split at h
  · cases h
  · rename_i f hf
    split at h
    · cases h
      exact Step.file m r f hf (by assumption)
    · cases h
  · rename_i b hb
    split at h
    · cases h
      exact Step.enter m r b hb (by assumption)
    · split at h
      · cases h
        exact Step.leave m r b hb (by simpa using ‹¬m.inside r = false›) (by assumption)
      · cases h

theorem reachable_of_foldlM {n : ℕ} {K V : Type} {acts : Fin (n + 1) → List (Act K V)} (sched : List (Fin (n + 1))) {k : K} {m m' : State n K V}
    (hm : Reachable acts k m) (h : sched.foldlM (next acts) m = some m') : Reachable acts k m' := by
  induction sched generalizing m with
  | nil => cases h; exact hm
  | cons r l ih =>
    rw [List.foldlM_cons] at h
    rcases hn : next acts m r with _ | m1
    · rw [hn] at h; cases h
    · rw [hn] at h
      exact ih (Relation.ReflTransGen.tail hm (next_step hn)) h

/-- **When a run is continued, a process that is late may find an empty `config.yaml`**: the root saves the configuration that it has read, and no reduction separates this from the
reading of the others. -/
theorem C177_config_fails (c c0 : C) (p : Option P) (b : Option (Option B)) :
    ∃ m : State 1 (Dir C P B) (Seen C P B),
      Reachable (fun r : Fin 2 => main false c [] [] false 0 r) ⟨some (some c0), p, b⟩ m ∧
      .config (some (some c0)) ∈ m.seen 0 ∧ .config (some none) ∈ m.seen 1 := by
  obtain ⟨m, hm, h0, h1⟩ : ∃ m : State 1 (Dir C P B) (Seen C P B),
      ([0, 0, 0, 0, 1] : List (Fin 2)).foldlM (next fun r : Fin 2 => main false c [] [] false 0 r)
        (start ⟨some (some c0), p, b⟩) = some m ∧
      .config (some (some c0)) ∈ m.seen 0 ∧ .config (some none) ∈ m.seen 1 :=
    ⟨_, rfl, List.mem_cons_self, List.mem_cons_self⟩
  exact ⟨m, reachable_of_foldlM _ Relation.ReflTransGen.refl hm, h0, h1⟩

/-- **If the last step is the best one, the processes may evaluate different parameters**: the root is still writing the file when the others read it, and these find the parameters from before, or an
empty file. -/
theorem C177_evaluate_fails (c : C) (b : B) (k : Dir C P B) (evals : ℕ) :
    (∃ m : State 1 (Dir C P B) (Seen C P B),
      Reachable (fun r : Fin 2 => main true c [] [[⟨some b, none⟩]] true evals r) k m ∧
      .best (some (some b)) ∈ m.seen 0 ∧ .best k.best ∈ m.seen 1) ∧
    ∃ m : State 1 (Dir C P B) (Seen C P B),
      Reachable (fun r : Fin 2 => main true c [] [[⟨some b, none⟩]] true evals r) k m ∧
      .best (some (some b)) ∈ m.seen 0 ∧ .best (some none) ∈ m.seen 1 := by
  constructor
  · obtain ⟨m, hm, h0, h1⟩ : ∃ m : State 1 (Dir C P B) (Seen C P B),
        ([0, 0, 0, 0, 0, 0, 0, 1, 1, 1, 1, 1, 1, 0, 0, 0, 0] : List (Fin 2)).foldlM
          (next fun r : Fin 2 => main true c [] [[⟨some b, none⟩]] true evals r) (start k) = some m ∧
        .best (some (some b)) ∈ m.seen 0 ∧ .best k.best ∈ m.seen 1 :=
      ⟨_, rfl, by show _ ∈ [_, _, _, _, _, _, _]; simp, by show _ ∈ [_, Seen.best k.best]; simp⟩
    exact ⟨m, reachable_of_foldlM _ Relation.ReflTransGen.refl hm, h0, h1⟩
  · obtain ⟨m, hm, h0, h1⟩ : ∃ m : State 1 (Dir C P B) (Seen C P B),
        ([0, 0, 0, 0, 0, 0, 0, 1, 1, 1, 1, 1, 0, 0, 1, 0, 0] : List (Fin 2)).foldlM
          (next fun r : Fin 2 => main true c [] [[⟨some b, none⟩]] true evals r) (start k) = some m ∧
        .best (some (some b)) ∈ m.seen 0 ∧ .best (some none) ∈ m.seen 1 :=
      ⟨_, rfl, by show _ ∈ [_, _, _, _, _, _, _]; simp, by show _ ∈ [_, _]; simp⟩
    exact ⟨m, reachable_of_foldlM _ Relation.ReflTransGen.refl hm, h0, h1⟩

/-- A run on two processes that continues from a checkpoint, improves in its first step, writes a checkpoint after the second, and is evaluated: both processes see the old
checkpoint and the new best parameters. -/
example : ∃ m : State 1 (Dir ℕ ℕ ℕ) (Seen ℕ ℕ ℕ),
    Reachable (fun r : Fin 2 => main false 5 [true] [[⟨some 7, none⟩, ⟨none, some 9⟩]] true 1 r) ⟨some (some 5), some 8, none⟩ m ∧
    (∀ s, [[(⟨some 7, none⟩ : StepFiles ℕ ℕ), ⟨none, some 9⟩]].flatten.getLast? = some s → s.best = none) ∧
    m.disk.ckpt = some 9 ∧ .ckpt (some 8) ∈ m.seen 1 ∧ .config (some (some 5)) ∈ m.seen 1 ∧ .best (some (some 7)) ∈ m.seen 0 ∧
    .best (some (some 7)) ∈ m.seen 1 := by
  obtain ⟨m, hm, h⟩ : ∃ m : State 1 (Dir ℕ ℕ ℕ) (Seen ℕ ℕ ℕ),
      ([1, 0, 0, 0, 1, 1, 0, 0, 0, 1, 0, 1, 1, 0, 0, 0, 1, 1, 0, 0, 0, 0, 1, 0, 1, 0, 0, 1] : List (Fin 2)).foldlM
        (next fun r : Fin 2 => main false 5 [true] [[⟨some 7, none⟩, ⟨none, some 9⟩]] true 1 r) (start ⟨some (some 5), some 8, none⟩) = some m ∧
      m.disk.ckpt = some 9 ∧ .ckpt (some 8) ∈ m.seen 1 ∧ .config (some (some 5)) ∈ m.seen 1 ∧ .best (some (some 7)) ∈ m.seen 0 ∧
      .best (some (some 7)) ∈ m.seen 1 :=
    ⟨_, rfl, by decide, by decide, by decide, by decide, by decide⟩
  exact ⟨m, reachable_of_foldlM _ Relation.ReflTransGen.refl hm, by simp, h⟩

end GPSKet.SharedFiles
