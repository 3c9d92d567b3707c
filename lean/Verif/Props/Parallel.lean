import Verif.Model.Parallel
import Verif.Model.AbInitioRun
import Verif.Lemmas.Parallel
import Mathlib.Tactic.NormNum

/-!
# C176: parallel runs neither hang nor diverge

Every theorem is about all numbers of ranks, all data of the ranks and all orders in which they proceed (`Spec/Parallel.lean`).
-/

namespace GPSKet.Parallel

open UniqueSamples (Dict processBatch stops sampleLoop samplesWithCounts rankSlice arrays)

variable {n : ℕ} {V A B S D W P C U : Type}

/-! ## Calls in a row -/

theorem calls_together (ops : Ops n V) (f : Fin (n + 1) → List V → V) (kinds : List Coll) :
    ∀ got : Fin (n + 1) → List V, Together ops (fun r => calls (f r) kinds (got r)) fun a =>
      ∃ vs : Fin (n + 1) → List V, (a = some fun r => got r ++ vs r) ∧ (∀ r, (vs r).length = kinds.length) ∧
        ∀ (i : ℕ) (c : Coll), kinds[i]? = some c → c.Shared → ∀ r, (vs r)[i]? = (vs 0)[i]? := by
  induction kinds with
  | nil => exact fun got => .done _ got (fun _ => rfl) ⟨fun _ => [], by simp, fun _ => rfl, by simp⟩
  | cons c cs ih =>
    intro got
    refine .call _ c (fun r => f r (got r)) (fun r v => calls (f r) cs (got r ++ [v])) (fun _ => rfl) ?_
    refine (ih fun r => got r ++ [result ops c (fun r => f r (got r)) r]).mono ?_
    rintro a ⟨vs, ha, hl, hs⟩
    refine ⟨fun r => result ops c (fun r => f r (got r)) r :: vs r, ?_, ?_, ?_⟩
    · rw [ha]
      congr 1
      funext r
      simp
    · intro r
      simp [hl r]
    · intro i c' hc' hsh r
      cases i with
      | zero =>
        simp only [List.length_cons, Nat.zero_lt_succ, List.getElem?_eq_getElem, List.getElem_cons_zero, Option.some.injEq] at hc' ⊢
        subst hc'
        exact result_shared ops hsh _ r
      | succ i =>
        simp only [List.getElem?_cons_succ] at hc' ⊢
        exact hs i c' hc' hsh r

/-! ## The drivers -/

theorem minsr_together (ops : Ops n V) (counts : Bool) (netket : List Coll) (chunk samples : ℕ) (f : Fin (n + 1) → List V → V)
    (update : List V → U) :
    Together ops (fun r => minsrStep counts netket chunk samples (f r) update) fun a =>
      if samples / chunk * chunk = samples then Same a else a = none := by
  unfold minsrStep
  by_cases h : samples / chunk * chunk = samples
  · simp only [h, if_true]
    refine Together.bind (calls_together ops f _ fun _ => []) ?_ ?_
    · rintro a ⟨vs, ha, hl, hs⟩
      simp only [List.nil_append, Option.some.injEq] at ha
      subst ha
      refine .done _ _ (fun _ => rfl) ⟨update ((vs 0).drop ((vs 0).length - samples / chunk)), ?_⟩
      congr 1
      funext r
      congr 1
      rw [hl r, hl 0]
      apply List.ext_getElem?
      intro i
      rw [List.getElem?_drop, List.getElem?_drop]
      by_cases hi : i < samples / chunk
      · refine hs _ .sum ?_ shared_sum r
        unfold minsrKinds
        rw [List.length_append, List.length_map, List.length_range, Nat.add_sub_cancel,
          List.getElem?_append_right (by omega), Nat.add_sub_cancel_left, List.getElem?_map, List.getElem?_range hi]
        rfl
      · have hk : samples / chunk ≤ (minsrKinds counts netket (samples / chunk)).length := by
          unfold minsrKinds
          rw [List.length_append, List.length_map, List.length_range]
          omega
        rw [List.getElem?_eq_none (by rw [hl r]; omega), List.getElem?_eq_none (by rw [hl 0]; omega)]
    · rintro ⟨vs, ha, _⟩
      cases ha
  · simp only [h, if_false]
    exact .raise _ (fun _ => rfl) rfl

/-- **The minSR driver** makes its step on all ranks, which all get the same update; if the samples do not fit into chunks all ranks raise an exception. -/
theorem C176_minsr [Inhabited V] (ops : Ops n V) (counts : Bool) (netket : List Coll) (chunk samples : ℕ) (f : Fin (n + 1) → List V → V)
    (update : List V → U) :
    Safe ops (fun r => minsrStep counts netket chunk samples (f r) update) fun a =>
      if samples / chunk * chunk = samples then Same a else a = none :=
  (minsr_together ops counts netket chunk samples f update).safe

/-- The sums of real numbers. -/
noncomputable def realOps (n : ℕ) : Ops n ℝ where
  combine := fun _ xs => ∑ r, xs r
  split := fun x _ => x

example (f : Fin 4 → List ℝ → ℝ) : Safe (realOps 3) (fun r => minsrStep false [.sum] 2 6 (f r) List.sum) fun a =>
    if 6 / 2 * 2 = 6 then Same a else a = none := C176_minsr _ _ _ _ _ _ _

/-- **The SR-RMSProp driver** makes its step on all ranks if the mode is real or there is a single rank; all ranks get the same update. -/
theorem C176_srrmsprop_partial [Inhabited V] (ops : Ops n V) (netket : List Coll) (mode : Mode) (m p : ℕ) (f : Fin (n + 1) → List V → V)
    (h : mode = .real ∨ n = 0) :
    Safe ops (fun r => srRmsPropStep netket mode (n + 1) r m p (f r)) fun a =>
      ∃ u got, (a = some got) ∧ ∀ r, (got r).getLast? = some u := by
  apply Together.safe
  unfold srRmsPropStep
  refine Together.bind (calls_together ops f _ fun _ => []) ?_ ?_
  · rintro a ⟨vs, ha, hl, hs⟩
    have hno : ∀ r : Fin (n + 1),
        ¬ (mode = .complex ∧ (reshapeFront (gatherShape (n + 1) r (jacobianShape m p mode))).length ≠ 3) := by
      rintro r ⟨hm, hlen⟩
      rcases h with h | h
      · rw [h] at hm
        cases hm
      · subst h
        subst hm
        have : r = 0 := by omega
        subst this
        exact hlen rfl
    simp only [hno, if_false]
    refine (calls_together ops f _ a).mono ?_
    rintro b ⟨ws, hb, hl', hs'⟩
    have h3 := fun r => hs' 3 .bcast rfl shared_bcast r
    have hsome : ∃ u, (ws 0)[3]? = some u := ⟨_, List.getElem?_eq_getElem (by rw [hl' 0]; decide)⟩
    obtain ⟨u, hu⟩ := hsome
    refine ⟨u, fun r => a r ++ ws r, hb, fun r => ?_⟩
    have hne : ws r ≠ [] := by
      intro h0
      have := hl' r
      rw [h0] at this
      simp at this
    rw [List.getLast?_append_of_ne_nil _ hne, List.getLast?_eq_getElem?, hl' r]
    exact (h3 r).trans hu
  · rintro ⟨vs, ha, _⟩
    cases ha

example (f : Fin 4 → List ℝ → ℝ) : Safe (realOps 3) (fun r => srRmsPropStep [.sum, .mean] .real 4 r 100 8 (f r)) fun a =>
    ∃ u got, (a = some got) ∧ ∀ r, (got r).getLast? = some u := C176_srrmsprop_partial _ _ _ _ _ _ (Or.inl rfl)

/-- **In complex mode with several ranks the root waits for ever**: the other ranks, where `gather` adds no axis, raise an exception. -/
theorem C176_srrmsprop_complex_fails [Inhabited V] (ops : Ops (n + 1) V) (netket : List Coll) (m p : ℕ) (f : Fin (n + 2) → List V → V) :
    Hangs ops (fun r => srRmsPropStep netket .complex (n + 2) r m p (f r)) 0 := by
  apply Stuck.hangs
  unfold srRmsPropStep
  refine Together.bind_stuck (calls_together ops f _ fun _ => []) ?_ ?_
  · rintro ⟨vs, ha, _⟩
    cases ha
  · rintro a -
    have hother : ∀ r : Fin (n + 2), r ≠ 0 →
        (Mode.complex = .complex ∧ (reshapeFront (gatherShape (n + 2) r (jacobianShape m p .complex))).length ≠ 3) := by
      intro r hr
      have : (r : ℕ) ≠ 0 := fun h => hr (Fin.ext h)
      refine ⟨rfl, ?_⟩
      unfold gatherShape
      rw [if_neg this]
      simp [reshapeFront, jacobianShape]
    refine .here _ ?_ ?_
    · exact not_ended_call
    · intro s c x k hs
      by_cases h0 : s = 0
      · subst h0
        refine ⟨1, ?_, Or.inr (if_pos (hother 1 (by simp)))⟩
        have : c = .gather := by
          have h : Prog.call Coll.gather _ _ = Prog.call c x k := hs
          cases h
          rfl
        subst this
        exact Or.inl rfl
      · rw [if_pos (hother s h0)] at hs
        cases hs

example (f : Fin 4 → List ℝ → ℝ) : Hangs (realOps 3) (fun r => srRmsPropStep [.sum, .mean] .complex 4 r 100 8 (f r)) 0 :=
  C176_srrmsprop_complex_fails _ _ _ _ _

/-- **The state-fitting driver** makes its step on all ranks if the mini-batch fits in the smallest shard (or all raise an exception if it is larger than the
largest); all ranks get the same loss and gradient. -/
theorem C176_statefit_partial [Inhabited V] (ops : Ops n V) (batch leaves : ℕ) (size : Fin (n + 1) → ℕ) (f : Fin (n + 1) → List V → V)
    (h : (∀ r, batch ≤ size r) ∨ ∀ r, size r < batch) :
    Safe ops (fun r => stateFitStep (size r) batch leaves (f r)) fun a =>
      if ∀ r, batch ≤ size r then Same a else a = none := by
  apply Together.safe
  unfold stateFitStep
  by_cases hb : ∀ r, batch ≤ size r
  · have hno : ∀ r, ¬ size r < batch := fun r => not_lt.mpr (hb r)
    simp only [hno, if_false, if_pos hb]
    refine (calls_together ops f _ fun _ => []).mono ?_
    rintro a ⟨vs, ha, hl, hs⟩
    refine ⟨vs 0, ?_⟩
    rw [ha]
    congr 1
    funext r
    simp only [List.nil_append]
    apply List.ext_getElem?
    intro i
    by_cases hi : i < (Coll.mean :: List.replicate leaves Coll.sum).length
    · refine hs i _ (List.getElem?_eq_getElem hi) ?_ r
      cases i with
      | zero => simp only [List.getElem_cons_zero]; exact ⟨by decide, by decide⟩
      | succ i => simp only [List.getElem_cons_succ, List.getElem_replicate]; exact shared_sum
    · rw [List.getElem?_eq_none (by rw [hl r]; omega), List.getElem?_eq_none (by rw [hl 0]; omega)]
  · have hall : ∀ r, size r < batch := by
      rcases h with h | h
      · exact absurd h hb
      · exact h
    simp only [hall, if_true, if_neg hb]
    exact .raise _ (fun _ => rfl) rfl

example (f : Fin 2 → List ℝ → ℝ) : Safe (realOps 1) (fun r => stateFitStep (![4, 3] r) 3 2 (f r)) fun a =>
    if ∀ r, 3 ≤ (![4, 3] : Fin 2 → ℕ) r then Same a else a = none :=
  C176_statefit_partial _ _ _ _ _ (Or.inl fun r => by fin_cases r <;> decide)

/-- The number of configurations of rank `r` (`np.array_split`). -/
theorem shard_size (N R r : ℕ) (hr : r < R) :
    (StateFitting.sectionSizes N R)[r]? = some (if r < N % R then N / R + 1 else N / R) := by
  unfold StateFitting.sectionSizes
  have hR : N % R < R := Nat.mod_lt _ (by omega)
  by_cases h : r < N % R
  · rw [List.getElem?_append_left (by simpa using h), if_pos h, List.getElem?_replicate, if_pos h]
  · rw [List.getElem?_append_right (by simpa using h), if_neg h, List.length_replicate, List.getElem?_replicate, if_pos (by omega)]

/-- **If the data cannot be divided evenly and the mini-batches are as large as the larger shards, the ranks with the larger shards wait for ever**, while the others
raise an exception. -/
theorem C176_statefit_fails [Inhabited V] (ops : Ops n V) (N leaves : ℕ) (size : Fin (n + 1) → ℕ) (f : Fin (n + 1) → List V → V)
    (hsize : ∀ r : Fin (n + 1), (StateFitting.sectionSizes N (n + 1))[(r : ℕ)]? = some (size r)) (r : Fin (n + 1))
    (hr : (r : ℕ) < N % (n + 1)) :
    Hangs ops (fun r => stateFitStep (size r) (N / (n + 1) + 1) leaves (f r)) r := by
  apply Stuck.hangs
  have hs : ∀ s : Fin (n + 1), size s = if (s : ℕ) < N % (n + 1) then N / (n + 1) + 1 else N / (n + 1) := by
    intro s
    have := hsize s
    rw [shard_size N (n + 1) s s.2] at this
    exact (Option.some.inj this).symm
  have hR : N % (n + 1) < n + 1 := Nat.mod_lt _ (by omega)
  have hbig : ∀ s : Fin (n + 1), (s : ℕ) < N % (n + 1) →
      stateFitStep (size s) (N / (n + 1) + 1) leaves (f s) = calls (f s) (.mean :: List.replicate leaves .sum) [] := by
    intro s h
    unfold stateFitStep
    rw [hs s, if_pos h, if_neg (lt_irrefl _)]
  have hsmall : ∀ s : Fin (n + 1), ¬ (s : ℕ) < N % (n + 1) → stateFitStep (size s) (N / (n + 1) + 1) leaves (f s) = .raise := by
    intro s h
    unfold stateFitStep
    rw [hs s, if_neg h, if_pos (by omega)]
  refine .here _ ?_ ?_
  · simp only [hbig r hr]
    exact not_ended_call
  · intro s c x k hk
    by_cases h : (s : ℕ) < N % (n + 1)
    · rw [hbig s h] at hk
      cases hk
      exact ⟨Fin.last n, trivial, Or.inr (hsmall (Fin.last n) (by simp; omega))⟩
    · rw [hsmall s h] at hk
      cases hk

example (f : Fin 2 → List ℝ → ℝ) (ops : Ops 1 ℝ) :
    Hangs ops (fun r => stateFitStep (![4, 3] r) (7 / 2 + 1) 1 (f r)) 0 :=
  C176_statefit_fails ops 7 1 ![4, 3] f (fun r => by fin_cases r <;> rfl) 0 (by decide)

/-! ## The sampled states -/

/-- The stratified states keep together. -/
theorem C176_stratified [Inhabited V] (ops : Ops n V) (renormalize randNorm : Bool) (f : Fin (n + 1) → List V → V) :
    Safe ops (fun r => calls (f r) (stratifiedKinds renormalize randNorm) []) Same := by
  apply Together.safe
  refine (calls_together ops f _ fun _ => []).mono ?_
  rintro a ⟨vs, ha, hl, hs⟩
  refine ⟨vs 0, ?_⟩
  rw [ha]
  congr 1
  funext r
  simp only [List.nil_append]
  apply List.ext_getElem?
  intro i
  have hall : ∀ c ∈ stratifiedKinds renormalize randNorm, c.Shared := by
    intro c hc
    unfold stratifiedKinds at hc
    cases renormalize <;> cases randNorm <;> simp at hc <;> (try rcases hc with rfl | rfl | rfl) <;>
      exact ⟨by decide, by decide⟩
  by_cases hi : i < (stratifiedKinds renormalize randNorm).length
  · exact hs i _ (List.getElem?_eq_getElem hi) (hall _ (List.getElem_mem hi)) r
  · rw [List.getElem?_eq_none (by rw [hl r]; omega), List.getElem?_eq_none (by rw [hl 0]; omega)]

section unique

variable [DecidableEq C]

/-- The merged batches of all ranks. -/
def merged (batch : Fin (n + 1) → ℕ → List C) (i : ℕ) : List C := (List.ofFn fun r => batch r i).flatten

theorem uniqueLoop_together (ops : Ops n (Sent C)) (hgather : ∀ xs : Fin (n + 1) → List C,
      ops.combine .allgather (fun r => .samples (xs r)) = .samples (List.ofFn xs).flatten)
    (N : ℕ) (maxSteps : Option ℕ) (batch : Fin (n + 1) → ℕ → List C) (rounds : ℕ) :
    ∀ count d, Together ops (fun r => uniqueLoop N maxSteps (batch r) rounds count d) fun a =>
      a = some fun _ => (sampleLoop N maxSteps count d ((List.range' count rounds).map (merged batch))).map fun e => (e.1, e.2.1) := by
  induction rounds with
  | zero => exact fun count d => .done _ (fun _ => none) (fun _ => rfl) rfl
  | succ rounds ih =>
    intro count d
    refine .call _ .allgather (fun r => .samples (batch r count)) _ (fun _ => rfl) ?_
    have hv : ∀ r, (result ops .allgather (fun r => Sent.samples (batch r count)) r).toSamples = merged batch count := by
      intro r
      have : result ops .allgather (fun r => Sent.samples (batch r count)) r = .samples (merged batch count) := hgather fun r => batch r count
      rw [this]
      rfl
    simp only [hv, List.range'_succ, List.map_cons, sampleLoop]
    by_cases hs : stops N maxSteps (count + 1) (processBatch N d (merged batch count)).length = true
    · simp only [hs, if_true]
      exact .done _ _ (fun _ => rfl) rfl
    · simp only [hs]
      exact ih _ _

/-- **Collecting unique samples**: for any batches drawn by the ranks, all ranks make the same number of rounds, and each ends with its part of the
samples and counts of the merged batches. -/
theorem C176_unique (ops : Ops n (Sent C)) (hgather : ∀ xs : Fin (n + 1) → List C,
      ops.combine .allgather (fun r => .samples (xs r)) = .samples (List.ofFn xs).flatten)
    (hsum : ∀ xs : Fin (n + 1) → ℝ, ops.combine .sum (fun r => .number (xs r)) = .number (∑ r, xs r))
    (perRank : ℕ) (maxSteps : Option ℕ) (rounds : ℕ) (batch : Fin (n + 1) → ℕ → List C) (hmax : maxSteps ≠ some 0)
    (hbatch : ∀ r i, batch r i ≠ []) :
    Safe ops (fun r => uniqueSamples (n + 1) perRank maxSteps rounds r (batch r)) fun a =>
      a = some fun r => (samplesWithCounts (n + 1) perRank maxSteps ((List.range rounds).map (merged batch))).map fun w => w r := by
  have : Inhabited (Sent C) := ⟨.number 0⟩
  apply Together.safe
  unfold uniqueSamples
  simp only [if_neg hmax]
  refine Together.bind (uniqueLoop_together ops hgather _ maxSteps batch rounds 0 []) ?_ (fun h => by cases h)
  intro a ha
  have ha' := Option.some.inj ha
  subst ha'
  unfold samplesWithCounts
  rw [if_neg hmax, ← List.range_eq_range']
  cases hloop : sampleLoop ((n + 1) * perRank) maxSteps 0 [] ((List.range rounds).map (merged batch)) with
  | none => exact .done _ (fun _ => none) (fun _ => rfl) rfl
  | some e =>
    obtain ⟨d, b, k⟩ := e
    simp only [Option.map_some]
    have hb : ∃ i, b = merged batch i := by
      have hmem : ∀ (bs : List (List C)) count d0, sampleLoop ((n + 1) * perRank) maxSteps count d0 bs = some (d, b, k) → b ∈ bs := by
        intro bs
        induction bs with
        | nil => intro count d0 h; cases h
        | cons b0 bs ih =>
          intro count d0 h
          unfold sampleLoop at h
          simp only at h
          split at h
          · cases h
            exact List.mem_cons_self
          · exact List.mem_cons_of_mem _ (ih _ _ h)
      obtain ⟨i, _, hi⟩ := List.mem_map.mp (hmem _ _ _ hloop)
      exact ⟨i, hi.symm⟩
    obtain ⟨i, rfl⟩ := hb
    have hne : merged batch i ≠ [] := by
      intro h0
      unfold merged at h0
      rw [List.flatten_eq_nil_iff] at h0
      exact hbatch 0 i (h0 _ (List.mem_ofFn.mpr ⟨0, rfl⟩))
    obtain ⟨pad, hpad⟩ : ∃ pad, (merged batch i).head? = some pad := by
      cases hm : merged batch i with
      | nil => exact absurd hm hne
      | cons x xs => exact ⟨x, rfl⟩
    simp only [hpad, Option.map_some]
    refine .call _ .sum _ _ (fun _ => rfl) ?_
    have hv : ∀ r, (result ops .sum (fun s : Fin (n + 1) =>
        Sent.number ((rankSlice perRank s (arrays ((n + 1) * perRank) d pad)).map Prod.snd).sum) r).toNumber
        = ∑ s : Fin (n + 1), ((rankSlice perRank s (arrays ((n + 1) * perRank) d pad)).map Prod.snd).sum := by
      intro r
      have := hsum fun s : Fin (n + 1) => ((rankSlice perRank s (arrays ((n + 1) * perRank) d pad)).map Prod.snd).sum
      show (ops.combine .sum _).toNumber = _
      rw [this]
      rfl
    simp only [hv]
    exact .done _ _ (fun _ => rfl) rfl

/-- Merging lists and adding numbers. -/
noncomputable def sentOps (n : ℕ) (C : Type) : Ops n (Sent C) where
  combine := fun c xs => match c with
    | .allgather => .samples (List.ofFn fun r => (xs r).toSamples).flatten
    | _ => .number (∑ r, (xs r).toNumber)
  split := fun x _ => x

example (batch : Fin 3 → ℕ → List ℕ) (hb : ∀ r i, batch r i ≠ []) :
    Safe (sentOps 2 ℕ) (fun r => uniqueSamples 3 2 (some 5) 10 r (batch r)) fun a =>
      a = some fun r => (samplesWithCounts 3 2 (some 5) ((List.range 10).map (merged batch))).map fun w => w r :=
  C176_unique _ (fun _ => rfl) (fun _ => rfl) 2 _ 10 batch (by decide) hb

end unique

/-! ## The supervised fits -/

theorem setup_together (ops : Ops n V) (F : Fit V S D) (factor : S → Option (V × V)) (pinv : S → V × V) (s : S) :
    Together ops (fun _ => setupAlphaDep F true factor pinv s) Same := by
  unfold setupAlphaDep
  by_cases ha : F.active s = true
  · simp only [ha, if_true]
    cases factor s with
    | none =>
      exact .shared .bcast shared_bcast _ _ (fun _ => rfl) fun w => .shared .bcast shared_bcast _ _ (fun _ => rfl) fun L =>
        .done _ _ (fun _ => rfl) ⟨_, rfl⟩
    | some wL =>
      exact .shared .bcast shared_bcast _ _ (fun _ => rfl) fun w => .shared .bcast shared_bcast _ _ (fun _ => rfl) fun L =>
        .done _ _ (fun _ => rfl) ⟨_, rfl⟩
  · simp only [ha]
    exact .done _ _ (fun _ => rfl) ⟨_, rfl⟩

theorem Together.bind_same {ops : Ops n V} {ps : Fin (n + 1) → Prog V A} {fs : Fin (n + 1) → A → Prog V B} {post}
    (h : Together ops ps Same) (hf : ∀ a, Together ops (fun r => fs r a) post) : Together ops (fun r => (ps r).bind (fs r)) post := by
  refine h.bind ?_ (fun ⟨_, hn⟩ => by cases hn)
  rintro a ⟨u, hu⟩
  cases hu
  exact hf u

theorem optLoop_together (ops : Ops n V) (F : Fit V S D) (factor : S → Option (V × V)) (pinv : S → V × V) (optAlpha optBeta : Bool)
    (maxIter : Option ℕ) (d : Fin (n + 1) → D) (rounds : ℕ) :
    ∀ j s, Together ops (fun r => optLoop F true factor pinv optAlpha optBeta maxIter (d r) rounds j s) Same := by
  induction rounds with
  | zero => exact fun j s => .done _ _ (fun _ => rfl) ⟨_, rfl⟩
  | succ rounds ih =>
    intro j s
    have hrest : ∀ s2, Together ops (fun r =>
        if F.conv s s2 || reached maxIter (j + 1) then Prog.done s2
        else (setupAlphaDep F true factor pinv s2).bind (optLoop F true factor pinv optAlpha optBeta maxIter (d r) rounds (j + 1))) Same := by
      intro s2
      by_cases hc : (F.conv s s2 || reached maxIter (j + 1)) = true
      · simp only [hc, if_true]
        exact .done _ _ (fun _ => rfl) ⟨_, rfl⟩
      · simp only [hc]
        exact (setup_together ops F factor pinv s2).bind_same (ih (j + 1))
    unfold optLoop
    by_cases ha : F.active s = true
    · simp only [ha, if_true]
      by_cases hb : (optBeta && F.cholesky (if optAlpha = true then F.updateAlpha s else s)) = true
      · simp only [hb, if_true]
        exact .shared .sum shared_sum _ _ (fun _ => rfl) fun N => .shared .sum shared_sum _ _ (fun _ => rfl) fun e => hrest _
      · simp only [hb]
        exact hrest _
    · simp only [ha]
      exact .done _ _ (fun _ => rfl) ⟨_, rfl⟩

/-- **The linear fits**: if all ranks start from the same state, and the Cholesky factorisation gives the same on all of them, then all ranks make the same calls,
whatever their data, and end in the same state. -/
theorem C176_fit_partial [Inhabited V] (ops : Ops n V) (F : Fit V S D) (factor : S → Option (V × V)) (pinv : S → V × V)
    (optAlpha optBeta : Bool) (maxIter : Option ℕ) (rounds : ℕ) (d : Fin (n + 1) → D) (s : S) :
    Safe ops (fun r => fitStep F true factor pinv optAlpha optBeta maxIter rounds (d r) s) Same := by
  apply Together.safe
  unfold fitStep
  refine .shared .sum shared_sum _ _ (fun _ => rfl) fun K => .shared .sum shared_sum _ _ (fun _ => rfl) fun y => ?_
  refine (setup_together ops F factor pinv _).bind_same fun s1 => ?_
  by_cases h : ((optAlpha || optBeta) && decide (maxIter ≠ some 0)) = true
  · simp only [h, if_true]
    exact optLoop_together ops F factor pinv optAlpha optBeta maxIter d rounds 0 s1
  · simp only [h]
    exact .done _ _ (fun _ => rfl) ⟨_, rfl⟩

/-- **The broadcasts do not make up for a factorisation that fails on some ranks only**: the flag stays different, and with `opt_noise` the root, where it
succeeds, waits for ever for the sums over all ranks. -/
theorem C176_fit_flag_fails [Inhabited V] (ops : Ops (n + 1) V) (F : Fit V S D) (factor : Fin (n + 2) → S → Option (V × V))
    (pinv : S → V × V) (optAlpha : Bool) (rounds : ℕ) (d : Fin (n + 2) → D) (s : S)
    (hset : ∀ s b w L, F.cholesky (F.setFit s b w L) = b ∧ F.active (F.setFit s b w L) = F.active s)
    (halpha : ∀ s, F.cholesky (F.updateAlpha s) = F.cholesky s)
    (hactive : F.active (F.stored s (ops.combine .sum fun r => F.KtK (d r) s) (ops.combine .sum fun r => F.y (d r) s)) = true)
    (hroot : (factor 0 (F.stored s (ops.combine .sum fun r => F.KtK (d r) s) (ops.combine .sum fun r => F.y (d r) s))).isSome)
    (hother : ∀ r, r ≠ 0 →
      factor r (F.stored s (ops.combine .sum fun r => F.KtK (d r) s) (ops.combine .sum fun r => F.y (d r) s)) = none) :
    Hangs ops (fun r => fitStep F true (factor r) pinv optAlpha true (some 1) (rounds + 1) (d r) s) 0 := by
  apply Stuck.hangs
  unfold fitStep
  refine .call _ .sum _ _ (fun _ => rfl) (.call _ .sum _ _ (fun _ => rfl) ?_)
  simp only [show ∀ (c : Coll) (xs : Fin (n + 2) → V) (r : Fin (n + 2)), c = .sum → result ops c xs r = ops.combine .sum xs from
    fun c xs r h => by subst h; rfl]
  generalize F.stored s (ops.combine .sum fun r => F.KtK (d r) s) (ops.combine .sum fun r => F.y (d r) s) = s1 at hactive hroot hother ⊢
  obtain ⟨wL, hwL⟩ := Option.isSome_iff_exists.mp hroot
  -- the programs after the two sums
  have hprog : ∀ r, setupAlphaDep F true (factor r) pinv s1 =
      .call .bcast (if r = 0 then wL.1 else (pinv s1).1) fun w => .call .bcast (if r = 0 then wL.2 else (pinv s1).2) fun L =>
        .done (F.setFit s1 (decide (r = 0)) w L) := by
    intro r
    unfold setupAlphaDep
    rw [if_pos hactive]
    by_cases hr : r = 0
    · subst hr
      rw [hwL]
      simp
    · rw [hother r hr]
      simp [hr]
  simp only [hprog]
  refine .call _ .bcast _ _ (fun _ => rfl) (.call _ .bcast _ _ (fun _ => rfl) ?_)
  simp only [Prog.bind]
  have hgo : ∀ (r : Fin (n + 2)) (w L : V), ∃ s2, F.cholesky s2 = decide (r = 0) ∧
      (if ((optAlpha || true) && decide (some 1 ≠ some 0)) = true then
        optLoop F true (factor r) pinv optAlpha true (some 1) (d r) (rounds + 1) 0 (F.setFit s1 (decide (r = 0)) w L)
        else .done (F.setFit s1 (decide (r = 0)) w L)) =
      if r = 0 then .call .sum (F.size (d r) s2) fun N => .call .sum (F.err (d r) s2) fun e => .done (F.updateBeta s2 N e)
      else .done s2 := by
    intro r w L
    refine ⟨if optAlpha then F.updateAlpha (F.setFit s1 (decide (r = 0)) w L) else F.setFit s1 (decide (r = 0)) w L, ?_, ?_⟩
    · split
      · rw [halpha, (hset _ _ _ _).1]
      · rw [(hset _ _ _ _).1]
    · rw [if_pos (by simp)]
      unfold optLoop
      rw [if_pos (by rw [(hset _ _ _ _).2]; exact hactive)]
      have hch : F.cholesky (if optAlpha = true then F.updateAlpha (F.setFit s1 (decide (r = 0)) w L)
          else F.setFit s1 (decide (r = 0)) w L) = decide (r = 0) := by
        split
        · rw [halpha, (hset _ _ _ _).1]
        · rw [(hset _ _ _ _).1]
      simp only [hch, Bool.true_and]
      by_cases hr : r = 0
      · simp [hr, reached]
      · simp [hr, reached]
  choose s2 hs2 hgo using hgo
  simp only [hgo]
  refine .here _ ?_ ?_
  · simp only [if_true]
    exact not_ended_call
  · intro r c x k hk
    by_cases hr : r = 0
    · subst hr
      simp only [if_true] at hk
      cases hk
      exact ⟨1, trivial, Or.inl ⟨_, if_neg (by simp)⟩⟩
    · simp only [if_neg hr] at hk
      cases hk

/-- A fit that keeps its flag and the size of its data. -/
def toyFit : Fit ℕ (Bool × ℕ) ℕ where
  KtK := fun d _ => d
  y := fun d _ => d
  stored := fun s K _ => (s.1, K)
  active := fun s => decide (0 < s.2)
  setFit := fun s b _ _ => (b, s.2)
  noFit := id
  cholesky := Prod.fst
  updateAlpha := id
  size := fun d _ => d
  err := fun d _ => d
  updateBeta := fun s _ _ => s
  conv := fun _ _ => false

example : Hangs (⟨fun _ xs => ∑ r, xs r, fun x _ => x⟩ : Ops 1 ℕ)
    (fun r => fitStep toyFit true (fun _ => if r = 0 then some (1, 1) else none) (fun _ => (0, 0)) true true (some 1) (4 + 1) 7 (true, 0)) 0 :=
  C176_fit_flag_fails _ toyFit (fun r _ => if r = 0 then some (1, 1) else none) _ true 4 (fun _ => 7) (true, 0) (fun _ _ _ _ => ⟨rfl, rfl⟩)
    (fun _ => rfl) (by decide) (by decide) (fun r hr => if_neg hr)

/-- **Without `mpi4py` the linear fits raise an exception**, whenever some element is active. -/
theorem C176_fit_serial_fails [Inhabited V] (ops : Ops 0 V) (F : Fit V S D) (factor : S → Option (V × V)) (pinv : S → V × V)
    (optAlpha optBeta : Bool) (maxIter : Option ℕ) (rounds : ℕ) (d : D) (s : S) (hactive : ∀ K y, F.active (F.stored s K y) = true) :
    Safe ops (fun _ => fitStep F false factor pinv optAlpha optBeta maxIter rounds d s) fun a => a = none := by
  apply Together.safe
  unfold fitStep
  refine .shared .sum shared_sum _ _ (fun _ => rfl) fun K => .shared .sum shared_sum _ _ (fun _ => rfl) fun y => ?_
  have : setupAlphaDep F false factor pinv (F.stored s K y) = .raise := by
    unfold setupAlphaDep
    rw [if_pos (hactive K y)]
    cases factor (F.stored s K y) <;> rfl
  rw [this]
  exact .raise _ (fun _ => rfl) rfl

example : Safe (⟨fun _ xs => ∑ r, xs r, fun x _ => x⟩ : Ops 0 ℕ)
    (fun _ => fitStep { toyFit with stored := fun s _ _ => (s.1, 1) } false (fun _ => some (1, 1)) (fun _ => (0, 0)) true true none 4 7 (true, 0))
    fun a => a = none :=
  C176_fit_serial_fails _ _ _ _ _ _ _ _ _ _ fun _ _ => rfl

theorem runQuery_together (ops : Ops n V) (part : Fin (n + 1) → Fin 3 → W → V) (q : Query W V A) :
    Together ops (fun r => runQuery (part r) q) Same := by
  induction q with
  | done a => exact .done _ _ (fun _ => rfl) ⟨_, rfl⟩
  | ask i w k ih => exact .shared .sum shared_sum _ _ (fun _ => rfl) ih

theorem irls_together (ops : Ops n V) (g : GenLin V S W D) (d : Fin (n + 1) → D) (k : ℕ) :
    ∀ s, Together ops (fun r => irlsSteps g (d r) k s) Same := by
  induction k with
  | zero => exact fun s => .done _ _ (fun _ => rfl) ⟨_, rfl⟩
  | succ k ih =>
    exact fun s => .shared .sum shared_sum _ _ (fun _ => rfl) fun K => .shared .sum shared_sum _ _ (fun _ => rfl) fun y => ih _

/-- **The generalised linear fit**: for any minimiser and any line search, all ranks make the same calls and end in the same state, even if the Cholesky
factorisation does not give the same on all ranks. -/
theorem C176_genlin [Inhabited V] (ops : Ops n V) (g : GenLin V S W D) (factor : Fin (n + 1) → S → V × V × Bool) (logInit : Bool) (steps : ℕ)
    (minimize : Option (S → Query W V W)) (linesearch : Option (S → V → V → V → Query W V V)) (d : Fin (n + 1) → D) (s : S) :
    Safe ops (fun r => genLinSetup g (factor r) logInit steps minimize linesearch (d r) s) Same := by
  apply Together.safe
  unfold genLinSetup
  refine .shared .sum shared_sum _ _ (fun _ => rfl) fun v => ?_
  refine Together.bind_same ?_ fun s => Together.bind_same (irls_together ops g d steps s) fun s => Together.bind_same ?_ fun s => ?_
  · cases logInit with
    | true =>
      exact .shared .sum shared_sum _ _ (fun _ => rfl) fun K => .shared .sum shared_sum _ _ (fun _ => rfl) fun y =>
        .done _ _ (fun _ => rfl) ⟨_, rfl⟩
    | false => exact .done _ _ (fun _ => rfl) ⟨_, rfl⟩
  · cases minimize with
    | none => exact .done _ _ (fun _ => rfl) ⟨_, rfl⟩
    | some m => exact (runQuery_together ops (fun r => g.part (d r) s) (m s)).bind_same fun w => .done _ _ (fun _ => rfl) ⟨_, rfl⟩
  · refine .shared .sum shared_sum _ _ (fun _ => rfl) fun h => .shared .sum shared_sum _ _ (fun _ => rfl) fun gr =>
      .shared .sum shared_sum _ _ (fun _ => rfl) fun l => ?_
    by_cases ha : g.active (g.stored s h gr l) = true
    · simp only [ha, if_true]
      refine .shared .bcast shared_bcast _ _ (fun _ => rfl) fun M => .shared .bcast shared_bcast _ _ (fun _ => rfl) fun dir =>
        .shared .bcast shared_bcast _ _ (fun _ => rfl) fun ok => ?_
      cases linesearch with
      | none => exact .done _ _ (fun _ => rfl) ⟨_, rfl⟩
      | some q => exact (runQuery_together ops (fun r => g.part (d r) _) _).bind_same fun w => .done _ _ (fun _ => rfl) ⟨_, rfl⟩
    · simp only [ha]
      exact .done _ _ (fun _ => rfl) ⟨_, rfl⟩

/-! ## The scripts -/

/-- **`get_molecular_system`**: if the root can build the molecule and the integrals, all ranks get them. -/
theorem C176_molecule_partial [Inhabited V] (ops : Ops n V) (dummy : V) (a : V × V × V) (h : V × V) (integrals : V × V × V → Option (V × V))
    (hh : integrals a = some h) :
    Safe ops (fun r => molecularSystem dummy (some a) integrals r) fun b => b = some fun _ => [a.1, a.2.1, a.2.2, h.1, h.2] := by
  apply Together.safe
  have hp : ∀ r : Fin (n + 1), molecularSystem dummy (some a) integrals r =
      molNumbers (if r = 0 then a else (dummy, dummy, dummy)) (if r = 0 then molRoot integrals else molMatrices (dummy, dummy)) := by
    intro r
    unfold molecularSystem
    by_cases hr : r = 0
    · subst hr
      simp
    · have : (r : ℕ) ≠ 0 := fun h => hr (Fin.ext h)
      simp [hr, this]
  simp only [hp]
  refine .call _ .bcast _ _ (fun _ => rfl) (.call _ .bcast _ _ (fun _ => rfl) (.call _ .bcast _ _ (fun _ => rfl) ?_))
  simp only [result, if_true]
  have hq : ∀ r : Fin (n + 1), (if r = 0 then molRoot integrals else molMatrices (dummy, dummy)) (a.1, a.2.1, a.2.2) =
      molMatrices (if r = 0 then h else (dummy, dummy)) a := by
    intro r
    by_cases hr : r = 0
    · simp only [hr, if_true]
      unfold molRoot
      rw [hh]
    · simp only [hr, if_false]
  simp only [hq]
  refine .call _ .bcast _ _ (fun _ => rfl) (.call _ .bcast _ _ (fun _ => rfl) ?_)
  simp only [result, if_true]
  exact .done _ _ (fun _ => rfl) rfl

/-- **If the root cannot build the molecule, or cannot make or read the integrals, all other ranks wait for ever.** -/
theorem C176_molecule_fails [Inhabited V] (ops : Ops n V) (dummy : V) (scf : Option (V × V × V)) (integrals : V × V × V → Option (V × V))
    (h : scf.bind integrals = none) (r : Fin (n + 1)) (hr : r ≠ 0) :
    Hangs ops (fun r => molecularSystem dummy scf integrals r) r := by
  apply Stuck.hangs
  have hother : ∀ r : Fin (n + 1), r ≠ 0 → molecularSystem dummy scf integrals r =
      molNumbers (dummy, dummy, dummy) (molMatrices (dummy, dummy)) := by
    intro r hr
    have : (r : ℕ) ≠ 0 := fun h => hr (Fin.ext h)
    unfold molecularSystem
    simp [this]
  cases scf with
  | none =>
    have h0 : molecularSystem dummy none integrals ((0 : Fin (n + 1)) : ℕ) = .raise := by
      unfold molecularSystem
      simp
    refine .here _ ?_ ?_
    · simp only [hother r hr]
      exact not_ended_call
    · intro s c x k hs
      by_cases hs0 : s = 0
      · subst hs0
        rw [h0] at hs
        cases hs
      · rw [hother s hs0] at hs
        cases hs
        exact ⟨0, rfl, Or.inr h0⟩
  | some a =>
    have hp : ∀ r : Fin (n + 1), molecularSystem dummy (some a) integrals r =
        molNumbers (if r = 0 then a else (dummy, dummy, dummy)) (if r = 0 then molRoot integrals else molMatrices (dummy, dummy)) := by
      intro r
      by_cases hr : r = 0
      · subst hr
        unfold molecularSystem
        simp
      · rw [hother r hr]
        simp [hr]
    simp only [hp]
    refine .call _ .bcast _ _ (fun _ => rfl) (.call _ .bcast _ _ (fun _ => rfl) (.call _ .bcast _ _ (fun _ => rfl) ?_))
    have hi : integrals a = none := h
    have hroot : molRoot integrals (a.1, a.2.1, a.2.2) = .raise := by
      unfold molRoot
      rw [hi]
    simp only [result, if_true]
    refine .here _ ?_ ?_
    · simp only [if_neg hr]
      exact not_ended_call
    · intro s c x k hs
      by_cases hs0 : s = 0
      · simp only [hs0, if_true, hroot] at hs
        cases hs
      · simp only [if_neg hs0] at hs
        cases hs
        exact ⟨0, rfl, Or.inr (by simp only [if_true, hroot])⟩

example (r : Fin 3) (hr : r ≠ 0) (ops : Ops 2 ℕ) : Hangs ops (fun r => molecularSystem 0 (some (4, 2, 4)) (fun _ => none) r) r :=
  C176_molecule_fails ops 0 _ _ rfl r hr

example (ops : Ops 2 ℕ) : Safe ops (fun r => molecularSystem 0 (some (4, 2, 4)) (fun a => some (a.1, 7)) r) fun b =>
    b = some fun _ => [4, 2, 4, 4, 7] := C176_molecule_partial ops 0 (4, 2, 4) (4, 7) _ rfl

theorem runLoop_together (ops : Ops n (Note P)) (maxCount minGlobal : ℕ) (step : P → Query W (Note P) (ℝ × P))
    (part : Fin (n + 1) → P → Fin 3 → W → Note P) (rounds : ℕ) :
    ∀ total count best p, Together ops (fun r => runLoop maxCount minGlobal step (part r) rounds total count best p) Same := by
  induction rounds with
  | zero => exact fun _ _ _ _ => .done _ _ (fun _ => rfl) ⟨_, rfl⟩
  | succ rounds ih =>
    intro total count best p
    unfold runLoop
    by_cases h : count < maxCount
    · simp only [h, if_true]
      exact (runQuery_together ops (fun r => part r p) (step p)).bind_same fun a => ih _ _ _ _
    · simp only [h, if_false]
      exact .done _ _ (fun _ => rfl) ⟨_, rfl⟩

/-- **The runs of the ab-initio scripts**: whatever the initial parameters of the ranks and the files of the root, if these can be read then all ranks
decide to stop after the same step, and end with the same parameters. -/
theorem C176_run_partial [Inhabited P] (ops : Ops n (Note P)) (maxCount minGlobal : ℕ) (a : Option ℝ × ℕ × ℕ × P) (p : Fin (n + 1) → P)
    (step : P → Query W (Note P) (ℝ × P)) (part : Fin (n + 1) → P → Fin 3 → W → Note P) (rounds : ℕ) :
    Safe ops (fun r => abinitioRun maxCount minGlobal (some a) r (p r) step (part r) rounds) Same := by
  have : Inhabited (Note P) := ⟨.num 0⟩
  apply Together.safe
  have hp : ∀ r : Fin (n + 1), abinitioRun maxCount minGlobal (some a) r (p r) step (part r) rounds =
      .call .bcast (.var (if r = 0 then a.1 else none)) fun best => .call .bcast (.num (if r = 0 then a.2.1 else 0)) fun count =>
        .call .bcast (.num (if r = 0 then a.2.2.1 else 0)) fun total => .call .bcast (.pars (if r = 0 then a.2.2.2 else p r)) fun q =>
          runLoop maxCount minGlobal step (part r) rounds total.toNum count.toNum best.toVar (q.toPars (p r)) := by
    intro r
    unfold abinitioRun
    by_cases hr : r = 0
    · subst hr
      simp
    · have : (r : ℕ) ≠ 0 := fun h => hr (Fin.ext h)
      simp [hr, this]
  simp only [hp]
  refine .call _ .bcast _ _ (fun _ => rfl) (.call _ .bcast _ _ (fun _ => rfl) (.call _ .bcast _ _ (fun _ => rfl)
    (.call _ .bcast _ _ (fun _ => rfl) ?_)))
  simp only [result, if_true, Note.toPars]
  exact runLoop_together ops maxCount minGlobal step part rounds _ _ _ _

/-- The decision that every rank takes after a step is the one of the single process of C114 (`AbInitioRun.exec`): between the evaluation and the row of
`out.txt` that process replaces its best variance and its counter by those of `judge`, and the next parameters are chosen alike. -/
theorem C176_judge {S T D : Type} (r : AbInitioRun.Rules) (u : P → S → AbInitioRun.Eval P S ℝ T D) (k : AbInitioRun.Disk P ℝ T D) (θ : P) (s : S)
    (best : Option ℝ) (count g : ℕ) :
    let b := judge (decide (g < r.minGlobal.getD 0)) best count (u θ s).var
    ∃ steps k', (fun st => AbInitioRun.exec r u st.1 st.2)^[steps] (k, .evaluate θ s best count g) =
      (k', .loop (if b.2 < r.maxCount then (u θ s).next else θ) (u θ s).sampler b.1 b.2 (g + 1)) := by
  intro b
  have hdec : ∀ k b' c', ∃ steps k', (fun st => AbInitioRun.exec r u st.1 st.2)^[steps] (k, .decided θ s b' c' g) =
      (k', .loop (if c' < r.maxCount then (u θ s).next else θ) (u θ s).sampler (if g < r.minGlobal.getD 0 then none else b') c' (g + 1)) := by
    intro k b' c'
    cases hm : r.minGlobal with
    | none => exact ⟨2, _, by simp [Function.iterate_succ, AbInitioRun.exec, hm, AbInitioRun.reset]; rfl⟩
    | some m => exact ⟨3, _, by simp [Function.iterate_succ, AbInitioRun.exec, hm, AbInitioRun.reset]; rfl⟩
  have hgo : ∃ steps k', (fun st => AbInitioRun.exec r u st.1 st.2)^[steps] (k, .evaluate θ s best count g) =
      (k', .decided θ s (judge false best count (u θ s).var).1 (judge false best count (u θ s).var).2 g) := by
    cases best with
    | none => exact ⟨1, _, rfl⟩
    | some w =>
      by_cases h : (u θ s).var < w
      · exact ⟨2, _, by simp [Function.iterate_succ, AbInitioRun.exec, judge, h]; rfl⟩
      · exact ⟨1, _, by simp [AbInitioRun.exec, judge, h]; rfl⟩
  obtain ⟨n1, k1, h1⟩ := hgo
  obtain ⟨n2, k2, h2⟩ := hdec k1 (judge false best count (u θ s).var).1 (judge false best count (u θ s).var).2
  refine ⟨n2 + n1, k2, ?_⟩
  rw [Function.iterate_add_apply, h1, h2]
  simp [b, judge]

/-- **If the root cannot read its files, all other ranks wait for ever.** -/
theorem C176_run_fails [Inhabited P] (ops : Ops n (Note P)) (maxCount minGlobal : ℕ) (p : Fin (n + 1) → P)
    (step : P → Query W (Note P) (ℝ × P)) (part : Fin (n + 1) → P → Fin 3 → W → Note P) (rounds : ℕ) (r : Fin (n + 1)) (hr : r ≠ 0) :
    Hangs ops (fun r => abinitioRun maxCount minGlobal none r (p r) step (part r) rounds) r := by
  have : Inhabited (Note P) := ⟨.num 0⟩
  apply Stuck.hangs
  have h0 : abinitioRun maxCount minGlobal none ((0 : Fin (n + 1)) : ℕ) (p 0) step (part 0) rounds = .raise := by
    unfold abinitioRun
    simp
  have hother : ∀ r : Fin (n + 1), r ≠ 0 → ∃ k, abinitioRun maxCount minGlobal none r (p r) step (part r) rounds = .call .bcast (.var none) k := by
    intro r hr
    have : (r : ℕ) ≠ 0 := fun h => hr (Fin.ext h)
    unfold abinitioRun
    simp only [this, if_false]
    exact ⟨_, rfl⟩
  refine .here _ ?_ ?_
  · obtain ⟨k, hk⟩ := hother r hr
    rw [hk]
    exact not_ended_call
  · intro s c x k hs
    by_cases hs0 : s = 0
    · subst hs0
      rw [h0] at hs
      cases hs
    · obtain ⟨k', hk'⟩ := hother s hs0
      rw [hk'] at hs
      cases hs
      exact ⟨0, rfl, Or.inr h0⟩

end GPSKet.Parallel
