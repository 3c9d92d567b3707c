import Verif.Model.UniqueSamples
import Mathlib.Algebra.BigOperators.Field
import Mathlib.Tactic.Ring
import Mathlib.Tactic.Linarith
import Mathlib.Tactic.Positivity
import Mathlib.Tactic.FieldSimp

/-! # Property C50: unique-sample states -/

namespace GPSKet.Props
open UniqueSamples

variable {C : Type} [DecidableEq C]

/-- The dictionary counts the processed samples `P`. -/
structure Counts (d : Dict C) (P : List C) : Prop where
  nodup : (d.map Prod.fst).Nodup
  count : ∀ e ∈ d, e.2 = P.count e.1
  mem : ∀ c, c ∈ d.map Prod.fst ↔ c ∈ P

theorem addSample_keys (d : Dict C) (c : C) :
    (addSample d c).map Prod.fst = if c ∈ d.map Prod.fst then d.map Prod.fst else d.map Prod.fst ++ [c] := by
  induction d with
  | nil => simp [addSample]
  | cons e d ih =>
    simp only [addSample]
    by_cases h : e.1 = c
    · simp [h]
    · have h' : ¬ c = e.1 := fun h2 => h h2.symm
      simp only [h, if_false, List.map_cons, ih, List.mem_cons, h', false_or]
      split <;> simp

theorem addSample_counts {d : Dict C} {P : List C} (h : Counts d P) (c : C) : Counts (addSample d c) (P ++ [c]) := by
  refine ⟨?_, ?_, ?_⟩
  · rw [addSample_keys]
    split
    · exact h.nodup
    · rename_i hc
      rw [List.nodup_append]
      exact ⟨h.nodup, List.nodup_singleton c, fun a ha b hb => by
        rw [List.mem_singleton] at hb; subst hb; intro hab; subst hab; exact hc ha⟩
  · have key : ∀ d : Dict C, (d.map Prod.fst).Nodup → (∀ e ∈ d, e.2 = P.count e.1) → (c ∉ d.map Prod.fst → P.count c = 0) →
        ∀ e ∈ addSample d c, e.2 = (P ++ [c]).count e.1 := by
      intro d
      induction d with
      | nil =>
        intro _ _ h0 e he
        simp only [addSample, List.mem_singleton] at he
        subst he
        rw [List.count_append, h0 (by simp)]
        simp
      | cons a d ih =>
        intro hn hc h0 e he
        rw [List.map_cons, List.nodup_cons] at hn
        simp only [addSample] at he
        split at he
        · rename_i ha
          rcases List.mem_cons.mp he with rfl | he
          · have := hc a List.mem_cons_self
            rw [List.count_append]
            simp [this, ha]
          · have hne : e.1 ≠ c := by
              intro hec
              apply hn.1
              rw [ha, ← hec]
              exact List.mem_map_of_mem he
            rw [hc e (List.mem_cons_of_mem a he), List.count_append]
            simp [Ne.symm hne]
        · rename_i ha
          rcases List.mem_cons.mp he with rfl | he
          · rw [hc e List.mem_cons_self, List.count_append]
            simp [Ne.symm ha]
          · apply ih hn.2 (fun e he => hc e (List.mem_cons_of_mem a he)) _ e he
            intro hcd
            apply h0
            rw [List.map_cons, List.mem_cons]
            rintro (h1 | h1)
            · exact ha h1.symm
            · exact hcd h1
    apply key d h.nodup h.count
    intro hc
    exact List.count_eq_zero_of_not_mem fun hP => hc ((h.mem c).mpr hP)
  · intro c'
    rw [addSample_keys, List.mem_append, List.mem_singleton]
    split
    · rename_i hc
      rw [h.mem]
      constructor
      · exact Or.inl
      · rintro (h1 | h1)
        · exact h1
        · subst h1; exact (h.mem c').mp hc
    · rw [List.mem_append, List.mem_singleton, h.mem]

theorem addSample_length (d : Dict C) (c : C) : d.length ≤ (addSample d c).length ∧ (addSample d c).length ≤ d.length + 1 := by
  have h := congrArg List.length (addSample_keys d c)
  split at h <;> simp at h <;> omega

/-- What the inner loop processes. -/
theorem processBatch_spec (n : ℕ) (d : Dict C) (P b : List C) (h : Counts d P) (hd : d.length < n) :
    ∃ p, p <+: b ∧ (b ≠ [] → p ≠ []) ∧ Counts (processBatch n d b) (P ++ p) ∧ (processBatch n d b).length ≤ n ∧
      ((processBatch n d b).length < n → p = b) := by
  induction b generalizing d P with
  | nil => exact ⟨[], List.prefix_rfl, by simp, by simpa [processBatch] using h, by simpa [processBatch] using hd.le, fun _ => rfl⟩
  | cons c b ih =>
    simp only [processBatch]
    have hc := addSample_counts h c
    have hl := addSample_length d c
    split
    · rename_i hn
      exact ⟨[c], by simp, by simp, hc, by omega, fun hlt => absurd hlt (by omega)⟩
    · rename_i hn
      obtain ⟨p, h1, _, h3, h4, h5⟩ := ih (addSample d c) (P ++ [c]) hc (by omega)
      refine ⟨c :: p, List.cons_prefix_cons.mpr ⟨rfl, h1⟩, by simp, ?_, h4, fun hlt => by rw [h5 hlt]⟩
      simpa using h3

/-- What the outer loop processes. -/
theorem sampleLoop_spec (n : ℕ) (maxSteps : Option ℕ) (batches : List (List C)) (count : ℕ) (d : Dict C) (P : List C)
    (h : Counts d P) (hd : d.length < n) (hmax : ∀ k, maxSteps = some k → count < k) (d' : Dict C) (b : List C) (used : ℕ)
    (hres : sampleLoop n maxSteps count d batches = some (d', b, used)) :
    ∃ p, p <+: (batches.take (used - count)).flatten ∧ count < used ∧ (∀ k, maxSteps = some k → used ≤ k) ∧ b ∈ batches ∧
      (b ≠ [] → p ≠ []) ∧ Counts d' (P ++ p) ∧ d'.length ≤ n ∧
      (d'.length < n → p = (batches.take (used - count)).flatten ∧ maxSteps = some used) := by
  induction batches generalizing count d P with
  | nil => simp [sampleLoop] at hres
  | cons b0 rest ih =>
    simp only [sampleLoop] at hres
    obtain ⟨p, h1, h2, h3, h4, h5⟩ := processBatch_spec n d P b0 h hd
    by_cases hstop : stops n maxSteps (count + 1) (processBatch n d b0).length = true
    · rw [if_pos hstop] at hres
      simp only [Option.some.injEq, Prod.mk.injEq] at hres
      obtain ⟨rfl, rfl, rfl⟩ := hres
      rw [Nat.add_sub_cancel_left]
      have ht : (List.take 1 (b0 :: rest)).flatten = b0 := by simp
      rw [ht]
      refine ⟨p, h1, by omega, ?_, List.mem_cons_self, h2, h3, h4, ?_⟩
      · intro k hk; exact hmax k hk
      · intro hlt
        refine ⟨h5 hlt, ?_⟩
        unfold stops at hstop
        rw [Bool.or_eq_true] at hstop
        rcases hstop with hs | hs
        · cases maxSteps with
          | none => simp at hs
          | some k =>
            have := hmax k rfl
            have hk : k ≤ count + 1 := by simpa using hs
            congr 1; omega
        · exact absurd (of_decide_eq_true hs) (not_le.mpr hlt)
    · rw [if_neg hstop] at hres
      unfold stops at hstop
      rw [Bool.or_eq_true, not_or] at hstop
      have hlt : (processBatch n d b0).length < n := by
        by_contra hc; exact hstop.2 (decide_eq_true (not_lt.mp hc))
      have hp : p = b0 := h5 hlt
      subst hp
      obtain ⟨q, g1, g2, g3, g4, g5, g6, g7, g8⟩ := ih (count + 1) _ (P ++ p) h3 hlt (by
        intro k hk
        subst hk
        have h9 := hstop.1
        simp only [decide_eq_true_eq] at h9
        omega) hres
      have ht : (List.take (used - count) (p :: rest)).flatten = p ++ (rest.take (used - (count + 1))).flatten := by
        have : used - count = (used - (count + 1)) + 1 := by omega
        rw [this, List.take_succ_cons, List.flatten_cons]
      rw [ht]
      refine ⟨p ++ q, (List.prefix_append_right_inj p).mpr g1, by omega, g3, List.mem_cons_of_mem p g4, ?_, ?_, g7, ?_⟩
      · intro hb hpq; exact g5 hb (List.append_eq_nil_iff.mp hpq).2
      · rw [← List.append_assoc]; exact g6
      · intro hl
        obtain ⟨e1, e2⟩ := g8 hl
        exact ⟨by rw [e1], e2⟩

/-- The slices of the ranks make up the whole array. -/
theorem slices_flatten (perRank : ℕ) (l : List (C × ℝ)) (ranks : ℕ) :
    (List.finRange ranks).flatMap (fun r : Fin ranks => rankSlice perRank r.val l) = l.take (ranks * perRank) := by
  induction ranks with
  | zero => simp
  | succ k ih =>
    have h : (List.finRange (k + 1)) = (List.finRange k).map Fin.castSucc ++ [Fin.last k] := List.finRange_succ_last
    rw [h, List.flatMap_append, List.flatMap_map]
    simp only [Fin.val_castSucc]
    rw [ih, List.flatMap_singleton, Fin.val_last]
    unfold rankSlice
    rw [Nat.succ_mul, ← List.take_add]

theorem sum_ranks {α : Type} [AddCommMonoid α] {ranks : ℕ} {β : Type} (sw : Fin ranks → List β) (g : β → α) :
    ∑ r, ((sw r).map g).sum = (((List.finRange ranks).flatMap sw).map g).sum := by
  rw [Fin.sum_univ_def, List.map_flatMap]
  induction List.finRange ranks with
  | nil => rfl
  | cons a l ih => rw [List.map_cons, List.sum_cons, List.flatMap_cons, List.sum_append, ih]

theorem count_sum {α : Type} [AddCommMonoid α] {d : Dict C} {P : List C} (h : Counts d P) (f : C → α) :
    (d.map fun e => e.2 • f e.1).sum = (P.map f).sum := by
  have h1 : (d.map fun e => e.2 • f e.1) = (d.map Prod.fst).map fun c => P.count c • f c := by
    rw [List.map_map]
    apply List.map_congr_left
    intro e he
    rw [Function.comp_apply, h.count e he]
  have h2 : P.toFinset = (d.map Prod.fst).toFinset := by
    ext c; rw [List.mem_toFinset, List.mem_toFinset, h.mem]
  rw [h1, Finset.sum_list_map_count P, h2, List.sum_toFinset _ h.nodup]

/-- The whole array, normalised. -/
theorem arrays_sum {n : ℕ} {d : Dict C} {P : List C} (h : Counts d P) (hd : d.length ≤ n) (pad : C) (f : C → ℂ) :
    ((arrays n d pad).map fun e => (e.2 : ℂ) * f e.1).sum = (P.map f).sum := by
  unfold arrays
  rw [List.take_of_length_le hd, List.map_append, List.sum_append, List.map_replicate, List.map_map]
  rw [← count_sum h f]
  simp [Function.comp_def]

theorem arrays_length {n : ℕ} {d : Dict C} (hd : d.length ≤ n) (pad : C) : (arrays n d pad).length = n := by
  unfold arrays
  rw [List.take_of_length_le hd]
  simp only [List.length_append, List.length_map, List.length_replicate]
  omega

/-- C50: when the state stops sampling it has processed a non-empty initial part `P` of the stream of merged batches, of at most
`max_sampling_steps` batches, ending either with the requested number of different configurations or with the permitted number of
batches.  Over all ranks, the weights are non-negative and sum to one; the configurations with non-zero weight are pairwise
distinct, are exactly those of `P`, and have their relative frequency in `P` as weight; and every expectation value, variance and
gradient is the one of the plain stream `P` of samples. -/
theorem C50_unique_samples (ranks perRank : ℕ) (hn : 0 < ranks * perRank) (maxSteps : Option ℕ) (batches : List (List C))
    (sw : Fin ranks → List (C × ℝ)) (hsw : samplesWithCounts ranks perRank maxSteps batches = some sw) :
    ∃ (P : List C) (used : ℕ), P ≠ [] ∧ P <+: (batches.take used).flatten ∧ 0 < used ∧ (∀ k, maxSteps = some k → used ≤ k) ∧
      (P.dedup.length = ranks * perRank ∨
        (P.dedup.length < ranks * perRank ∧ P = (batches.take used).flatten ∧ maxSteps = some used)) ∧
      (∀ r, (sw r).length = perRank) ∧
      (∀ r, ∀ e ∈ sw r, 0 ≤ e.2 ∧ (e.2 ≠ 0 → e.2 = (P.count e.1 : ℝ) / P.length)) ∧
      ((((List.finRange ranks).flatMap sw).filter (fun e => decide (e.2 ≠ 0))).map Prod.fst).Nodup ∧
      (∀ c, (∃ r, ∃ w, (c, w) ∈ sw r ∧ w ≠ 0) ↔ c ∈ P) ∧
      ∑ r, ((sw r).map Prod.snd).sum = 1 ∧
      ∀ loc O : C → ℂ,
        mean sw loc = (P.map loc).sum / P.length ∧
        variance sw loc = (P.map fun c => ((‖loc c - (P.map loc).sum / P.length‖ ^ 2 : ℝ) : ℂ)).sum / P.length ∧
        gradient sw loc O = (P.map fun c => (starRingEnd ℂ) (O c) * (loc c - (P.map loc).sum / P.length)).sum / P.length := by
  unfold samplesWithCounts at hsw
  split at hsw
  · simp at hsw
  rename_i hmax
  split at hsw
  · simp at hsw
  rename_i d b used hloop
  split at hsw
  · simp at hsw
  rename_i pad hpad
  have hb : b ≠ [] := by intro h; subst h; simp at hpad
  obtain ⟨P, g1, g2, g3, _, g5, g6, g7, g8⟩ := sampleLoop_spec (ranks * perRank) maxSteps batches 0 [] [] ⟨by simp, by simp, by simp⟩
    (by simpa using hn) (by intro k hk; rcases k with _ | k; · exact absurd hk hmax
                            · omega) d b used hloop
  rw [List.nil_append] at g6
  rw [Nat.sub_zero] at g1 g8
  have hP : P ≠ [] := g5 hb
  have hPl : (P.length : ℝ) ≠ 0 := by
    rw [Nat.cast_ne_zero]; exact fun h => hP (List.length_eq_zero_iff.mp h)
  have hcard : P.dedup.length = d.length := by
    rw [← List.length_map (f := Prod.fst) (as := d)]
    apply List.Perm.length_eq
    rw [List.perm_ext_iff_of_nodup (List.nodup_dedup P) g6.nodup]
    intro c
    rw [List.mem_dedup, g6.mem]
  set A := arrays (ranks * perRank) d pad with hA
  have hAl : A.length = ranks * perRank := arrays_length g7 pad
  have hflat : (List.finRange ranks).flatMap (fun r : Fin ranks => rankSlice perRank r.val A) = A := by
    rw [slices_flatten, List.take_of_length_le hAl.le]
  have hsum : ∀ f : C → ℂ, (A.map fun e => (e.2 : ℂ) * f e.1).sum = (P.map f).sum := arrays_sum g6 g7 pad
  have htot : ∑ r : Fin ranks, ((rankSlice perRank r A).map Prod.snd).sum = (P.length : ℝ) := by
    rw [sum_ranks, hflat]
    have h1 := hsum fun _ => 1
    have h2 : (((A.map Prod.snd).sum : ℝ) : ℂ) = ((P.length : ℝ) : ℂ) := by
      rw [List.map_const', List.sum_replicate] at h1
      have h3 : ∀ l : List (C × ℝ), (((l.map Prod.snd).sum : ℝ) : ℂ) = (l.map fun e => (e.2 : ℂ) * 1).sum := by
        intro l
        induction l with
        | nil => simp
        | cons e l ih => rw [List.map_cons, List.sum_cons, List.map_cons, List.sum_cons, Complex.ofReal_add, ih, mul_one]
      rw [h3, h1]; simp
    exact_mod_cast h2
  simp only [Option.some.injEq] at hsw
  rw [htot] at hsw
  subst hsw
  have hfl : (List.finRange ranks).flatMap (fun r : Fin ranks => (rankSlice perRank r.val A).map fun e => (e.1, e.2 / (P.length : ℝ)))
      = A.map fun e => (e.1, e.2 / (P.length : ℝ)) := by
    rw [← List.map_flatMap, hflat]
  have hmemA : ∀ e ∈ A, 0 ≤ e.2 ∧ (e.2 ≠ 0 → e.2 = (P.count e.1 : ℝ)) := by
    intro e he
    rw [hA] at he
    unfold arrays at he
    rw [List.take_of_length_le g7, List.mem_append] at he
    rcases he with he | he
    · rw [List.mem_map] at he
      obtain ⟨e', he', rfl⟩ := he
      exact ⟨Nat.cast_nonneg _, fun _ => by rw [g6.count e' he']⟩
    · rw [List.mem_replicate] at he
      rw [he.2]; simp
  have hgen : ∀ f : C → ℂ, ∑ r : Fin ranks, (((rankSlice perRank r.val A).map fun e => (e.1, e.2 / (P.length : ℝ))).map
      fun e => (e.2 : ℂ) * f e.1).sum = (P.map f).sum / P.length := by
    intro f
    rw [sum_ranks, hfl, List.map_map, ← hsum f]
    have : ∀ l : List (C × ℝ), (l.map ((fun e : C × ℝ => (e.2 : ℂ) * f e.1) ∘ fun e => (e.1, e.2 / (P.length : ℝ)))).sum
        = (l.map fun e => (e.2 : ℂ) * f e.1).sum / (P.length : ℂ) := by
      intro l
      induction l with
      | nil => simp
      | cons e l ih =>
        rw [List.map_cons, List.sum_cons, ih, List.map_cons, List.sum_cons]
        simp only [Function.comp_apply]
        push_cast
        ring
    exact this A
  have hfilt : ((A.map fun e => (e.1, e.2 / (P.length : ℝ))).filter (fun e => decide (e.2 ≠ 0))).map Prod.fst = d.map Prod.fst := by
    rw [hA]
    unfold arrays
    rw [List.take_of_length_le g7, List.map_append, List.filter_append, List.map_append, List.map_replicate]
    have h1 : (List.replicate (ranks * perRank - d.length) (pad, (0 : ℝ) / (P.length : ℝ))).filter (fun e => decide (e.2 ≠ 0)) = [] := by
      rw [List.filter_eq_nil_iff]
      intro e he
      rw [(List.mem_replicate.mp he).2]; simp
    rw [h1, List.map_nil, List.append_nil, List.map_map, List.filter_eq_self.mpr]
    · rw [List.map_map]; rfl
    · intro e he
      rw [List.mem_map] at he
      obtain ⟨e', he', rfl⟩ := he
      have h2 : e'.2 ≠ 0 := by
        rw [g6.count e' he']
        exact (List.count_pos_iff.mpr ((g6.mem e'.1).mp (List.mem_map_of_mem he'))).ne'
      simp only [Function.comp_apply, ne_eq, decide_eq_true_eq, div_eq_zero_iff, not_or]
      exact ⟨by exact_mod_cast h2, hPl⟩
  refine ⟨P, used, hP, g1, g2, g3, ?_, ?_, ?_, ?_, ?_, ?_, ?_⟩
  · rw [hcard]
    rcases Nat.lt_or_ge d.length (ranks * perRank) with h | h
    · exact Or.inr ⟨h, g8 h⟩
    · exact Or.inl (le_antisymm g7 h)
  · intro r
    rw [List.length_map]
    unfold rankSlice
    rw [List.length_take, List.length_drop, hAl, Nat.min_eq_left]
    have : (r.val + 1) * perRank ≤ ranks * perRank := Nat.mul_le_mul_right _ r.isLt
    rw [Nat.succ_mul] at this
    omega
  · intro r e he
    rw [List.mem_map] at he
    obtain ⟨e', he', rfl⟩ := he
    have hin : e' ∈ A := List.mem_of_mem_drop (List.mem_of_mem_take he')
    obtain ⟨h1, h2⟩ := hmemA e' hin
    refine ⟨div_nonneg h1 (Nat.cast_nonneg _), fun h => ?_⟩
    simp only
    rw [h2 (fun h0 => h (by simp [h0]))]
  · rw [hfl, hfilt]; exact g6.nodup
  · intro c
    rw [← g6.mem, ← hfilt, ← hfl, List.mem_map]
    constructor
    · rintro ⟨r, w, hmem, hw⟩
      exact ⟨(c, w), List.mem_filter.mpr ⟨List.mem_flatMap.mpr ⟨r, List.mem_finRange r, hmem⟩, by simpa using hw⟩, rfl⟩
    · rintro ⟨⟨c', w⟩, hmem, rfl⟩
      obtain ⟨h1, h2⟩ := List.mem_filter.mp hmem
      obtain ⟨r, _, h3⟩ := List.mem_flatMap.mp h1
      exact ⟨r, w, h3, by simpa using h2⟩
  · simp only [List.map_map, Function.comp_def]
    have h1 : ∀ l : List (C × ℝ), (l.map fun e => e.2 / (P.length : ℝ)).sum = (l.map Prod.snd).sum / (P.length : ℝ) := by
      intro l
      induction l with
      | nil => simp
      | cons e l ih => rw [List.map_cons, List.sum_cons, ih, List.map_cons, List.sum_cons, add_div]
    simp only [h1]
    rw [← Finset.sum_div, htot, div_self hPl]
  · intro loc O
    have hm := hgen loc
    refine ⟨hm, ?_, ?_⟩
    · unfold variance
      rw [show mean _ loc = _ from hm]
      exact hgen fun c => ((‖loc c - (P.map loc).sum / P.length‖ ^ 2 : ℝ) : ℂ)
    · unfold gradient
      rw [show mean _ loc = _ from hm]
      refine Eq.trans ?_ (hgen fun c => (starRingEnd ℂ) (O c) * (loc c - (P.map loc).sum / P.length))
      apply Finset.sum_congr rfl
      intro r _
      congr 1
      apply List.map_congr_left
      intro e _
      ring

/-- The hypotheses are met: two ranks with two samples each, two batches over three configurations, of which the second one
completes the four requested configurations before its end; and a run stopped by `max_sampling_steps`. -/
example : ∃ sw, samplesWithCounts (C := ℕ) 2 2 (some 5) [[7, 7, 3], [7, 5, 9, 7, 1]] = some sw := by
  have h : sampleLoop (C := ℕ) (2 * 2) (some 5) 0 [] [[7, 7, 3], [7, 5, 9, 7, 1]]
      = some ([(7, 3), (3, 1), (5, 1), (9, 1)], [7, 5, 9, 7, 1], 2) := by decide
  simp [samplesWithCounts, h]

example : ∃ sw, samplesWithCounts (C := ℕ) 2 2 (some 1) [[7, 7, 3], [7, 5, 9, 7, 1]] = some sw := by
  have h : sampleLoop (C := ℕ) (2 * 2) (some 1) 0 [] [[7, 7, 3], [7, 5, 9, 7, 1]]
      = some ([(7, 2), (3, 1)], [7, 7, 3], 1) := by decide
  simp [samplesWithCounts, h]

end GPSKet.Props
