import Verif.Props.Autoreg
import Verif.Props.QGPS

/-! # Properties C36, C37: ARqGPSFull -/

namespace GPSKet.Props
open Spec AR ARFull QGPS

variable {L D M : ℕ} {ι : Type}

/-! ## C37 -/

theorem lowerIndex_succ (i : ℕ) : lowerIndex (i + 1) = lowerIndex i + (i + 1) := by
  unfold lowerIndex
  have h : (i + 1) * (i + 1 + 1) = i * (i + 1) + 2 * (i + 1) := by ring
  rw [h, Nat.add_mul_div_left _ _ (by norm_num)]

theorem packedSize_eq (L : ℕ) : packedSize L = lowerIndex L := rfl

theorem lowerIndex_mono {i j : ℕ} (h : i ≤ j) : lowerIndex i ≤ lowerIndex j := by
  induction j with
  | zero => have : i = 0 := by omega
            rw [this]
  | succ j ih =>
    by_cases hij : i = j + 1
    · rw [hij]
    · rw [lowerIndex_succ]
      have := ih (by omega)
      omega

theorem slice_fits {i L : ℕ} (h : i < L) : lowerIndex i + L ≤ packedSize L := by
  rw [packedSize_eq]
  obtain ⟨k, rfl⟩ : ∃ k, L = k + 1 := ⟨L - 1, by omega⟩
  rw [lowerIndex_succ]
  have := lowerIndex_mono (show i ≤ k by omega)
  omega

/-- C37.  In the packed array of `L(L+1)/2` entries, every position belongs to exactly one site `i` as one of the `i + 1`
entries starting at `lower_index`; and the slice of length `L` that is read for a site starts there (is not clamped) and does
not run past the end. -/
theorem C37_triangular_layout (L : ℕ) :
    (∀ k, k < packedSize L → ∃! ij : ℕ × ℕ, ij.1 < L ∧ ij.2 ≤ ij.1 ∧ lowerIndex ij.1 + ij.2 = k) ∧
    (∀ i, i < L → ∀ j, j ≤ i → lowerIndex i + j < packedSize L) ∧
    ∀ i, i < L → sliceStart L (lowerIndex i) = lowerIndex i ∧ lowerIndex i + L ≤ packedSize L := by
  refine ⟨?_, ?_, ?_⟩
  · intro k hk
    have hex : ∀ n, k < lowerIndex n → ∃ i j, i < n ∧ j ≤ i ∧ lowerIndex i + j = k := by
      intro n
      induction n with
      | zero => intro h; exact absurd h (by simp [lowerIndex])
      | succ n ih =>
        intro h
        by_cases h' : k < lowerIndex n
        · obtain ⟨i, j, h1, h2, h3⟩ := ih h'
          exact ⟨i, j, by omega, h2, h3⟩
        · rw [lowerIndex_succ] at h
          exact ⟨n, k - lowerIndex n, by omega, by omega, by omega⟩
    obtain ⟨i, j, h1, h2, h3⟩ := hex L hk
    refine ⟨(i, j), ⟨h1, h2, h3⟩, ?_⟩
    rintro ⟨i', j'⟩ ⟨h1', h2', h3'⟩
    dsimp only at h1' h2' h3'
    have hi : i' = i := by
      rcases Nat.lt_trichotomy i' i with h | h | h
      · have := lowerIndex_mono (show i' + 1 ≤ i by omega)
        rw [lowerIndex_succ] at this
        omega
      · exact h
      · have := lowerIndex_mono (show i + 1 ≤ i' by omega)
        rw [lowerIndex_succ] at this
        omega
    subst hi
    exact Prod.ext rfl (by dsimp only; omega)
  · intro i hi j hj
    have := slice_fits hi
    omega
  · intro i hi
    have := slice_fits hi
    exact ⟨by unfold sliceStart; omega, this⟩

theorem sliceStart_eq {i L : ℕ} (h : i < L) : sliceStart L (lowerIndex i) = lowerIndex i := (C37_triangular_layout L).2.2 i h |>.1

/-- C37, seen from the conditionals: the conditional of site `i` only depends on the `i + 1` parameters starting at
`lower_index`. -/
theorem C37_own_parameters (f : Fields D M) (epsilon epsilon' : Fin D → Fin M → ℕ → ℂ) (i : Fin L)
    (h : ∀ d m j, j ≤ i.val → epsilon d m (lowerIndex i + j) = epsilon' d m (lowerIndex i + j)) (x : Fin L → Fin D) :
    (arqGPSFull f epsilon).conditionals x i = (arqGPSFull f epsilon').conditionals x i := by
  have hread : ∀ d m j, j ≤ i.val → readPacked epsilon L d m (lowerIndex i + j) = readPacked epsilon' L d m (lowerIndex i + j) := by
    intro d m j hj
    have := (C37_triangular_layout L).2.1 i i.isLt j hj
    unfold readPacked
    rw [min_eq_left (by omega)]
    exact h d m j hj
  have hval : fullVal f epsilon i x = fullVal f epsilon' i x := by
    funext d
    unfold fullVal
    congr 1
    funext m
    rw [hread d m i.val (le_refl _)]
    congr 1
    unfold contextProd
    apply Finset.prod_congr rfl
    intro j _
    by_cases hj : j.val ≥ i.val
    · rw [if_pos hj, if_pos hj]
    · rw [if_neg hj, if_neg hj, sliceStart_eq i.isLt]
      exact hread _ _ _ (by omega)
  funext d
  unfold Machine.conditionals
  rw [(arqGPSFull_good f epsilon).log, (arqGPSFull_good f epsilon').log, hval]
  rfl

/-- For four sites, position 7 of the ten entries is entry 1 of site 3, and nothing else. -/
example : packedSize 4 = 10 ∧ lowerIndex 3 + 1 = 7 ∧
    ∀ i j, i < 4 → j ≤ i → lowerIndex i + j = 7 → i = 3 ∧ j = 1 := by
  refine ⟨by decide, by decide, ?_⟩
  intro i j hi hj h
  obtain ⟨p, _, hp⟩ := (C37_triangular_layout 4).1 7 (by decide)
  have h1 := hp (i, j) ⟨hi, hj, h⟩
  have h2 := hp (3, 1) ⟨by decide, by decide, by decide⟩
  rw [← h2] at h1
  exact Prod.mk.injEq .. ▸ h1

/-! ## C36 -/

/-- Evaluation with given context products is the evaluation of the model if they are the fresh ones. -/
theorem conditionalsFrom_fresh (f : Fields D M) (epsilon : Fin D → Fin M → ℕ → ℂ) (x : Fin L → Fin D) :
    conditionalsFrom f epsilon x (contextProd epsilon x) = (arqGPSFull f epsilon).conditionalsLog x := rfl

/-- The model's `__call__` in the fast-update form is the `__call__` of the previous properties. -/
theorem callFull_eq [Fintype ι] (f : Fields D M) (epsilon : Fin D → Fin M → ℕ → ℂ) (syms : Syms L D ι) (x : Fin L → Fin D) :
    (callFull f epsilon syms x).1 = (arqGPSFull f epsilon).logPsi (fun t x => syms.symmetries x t) x := rfl

theorem fastContexts_eq (epsilon : Fin D → Fin M → ℕ → ℂ) (syms : Syms L D ι) (hs : SymsConsistent syms)
    (x : Fin L → Fin D) (upd : List (Fin L × Fin D)) (hp : Padded x upd)
    (h0 : ∀ i t m, freshContexts epsilon syms x i t m ≠ 0) :
    fastContexts epsilon syms ⟨x, freshContexts epsilon syms x⟩ upd = freshContexts epsilon syms (applyUpdate x upd) := by
  funext i t m
  obtain ⟨e, f, h1, h2⟩ := hs t
  have hx : syms.symmetries x t = fun i => f (x (e i)) := funext (h1 x)
  have hy : syms.symmetries (applyUpdate x upd) t = fun i => f (applyUpdate x upd (e i)) := funext (h1 _)
  let g : Fin L → Fin D → ℂ := fun j d => if j.val ≥ i.val then 1
    else readPacked epsilon L d m (sliceStart L (lowerIndex i) + j.val)
  have hnz : ∀ j, g j (f (x (e j))) ≠ 0 := by
    intro j hj
    apply h0 i t m
    unfold freshContexts contextProd
    rw [hx]
    exact Finset.prod_eq_zero (Finset.mem_univ j) hj
  have key := prod_applyUpdate g (fun j => f (x (e j))) (upd.map fun u => (e.symm u.1, f u.2)) (padded_map e f hp)
    (fun u _ => hnz u.1)
  unfold fastContexts contextUpdate
  dsimp only
  rw [h2, h2]
  dsimp only
  have hR : freshContexts epsilon syms (applyUpdate x upd) i t m =
      ∏ j, g j (applyUpdate (fun j => f (x (e j))) (upd.map fun u => (e.symm u.1, f u.2)) j) := by
    unfold freshContexts contextProd
    rw [hy, applyUpdate_map]
  have hL : freshContexts epsilon syms x i t m = ∏ j, g j (f (x (e j))) := by
    unfold freshContexts contextProd
    rw [hx]
  rw [hR, key, ← hL]
  have hz : ((((upd.map Prod.fst).map x).map f).zip ((upd.map Prod.snd).map f)).zip ((upd.map Prod.fst).map e.symm) =
      upd.map fun u => ((f (x u.1), f u.2), e.symm u.1) := by
    simp [List.zip_map']
  rw [hz, List.map_map, List.map_map, List.map_map]
  have hfac : ∀ u : Fin L × Fin D, updateFactor epsilon i m ((f (x u.1), f u.2), e.symm u.1) =
      g (e.symm u.1) (f u.2) / g (e.symm u.1) (f (x u.1)) := by
    intro u
    unfold updateFactor
    simp only [g]
    split_ifs with hge
    · rw [div_one]
    · rw [sliceStart_eq i.isLt, add_comm (lowerIndex i.val)]
  have hlist : ∀ l : List (Fin L × Fin D),
      (l.map ((updateFactor epsilon i m) ∘ fun u => ((f (x u.1), f u.2), e.symm u.1))).prod =
      (l.map ((fun u : Fin L × Fin D => g u.1 u.2) ∘ fun u => (e.symm u.1, f u.2))).prod /
      (l.map ((fun u : Fin L × Fin D => g u.1 (f (x (e u.1)))) ∘ fun u => (e.symm u.1, f u.2))).prod := by
    intro l
    induction l with
    | nil => simp
    | cons u l ih =>
      simp only [List.map_cons, List.prod_cons, ih, Function.comp_apply, hfac, Equiv.apply_symm_apply]
      rw [div_mul_div_comm]
  rw [hlist]
  ring

/-- C36.  For parameters with non-zero factors, the fast update returns the log-amplitude of the updated configuration and
stores the intermediates a fresh evaluation stores.  (A site may be listed again as a dummy repeating its old occupation.) -/
theorem C36_fast_update [Fintype ι] (f : Fields D M) (epsilon : Fin D → Fin M → ℕ → ℂ) (syms : Syms L D ι)
    (hs : SymsConsistent syms) (x : Fin L → Fin D) (upd : List (Fin L × Fin D)) (hp : Padded x upd)
    (h0 : ∀ d m k, epsilon d m k ≠ 0) :
    callUpdate f epsilon syms (callFull f epsilon syms x).2 upd = callFull f epsilon syms (applyUpdate x upd) := by
  have hctx := fastContexts_eq epsilon syms hs x upd hp (by
    intro i t m
    unfold freshContexts contextProd
    rw [Finset.prod_ne_zero_iff]
    intro j _
    split_ifs
    · exact one_ne_zero
    · exact h0 _ _ _)
  unfold callUpdate callFull
  dsimp only
  have hcfg : updateConfig x upd = applyUpdate x upd := (applyUpdate_foldr x upd).symm
  rw [hctx, hcfg]

/-- C36 over histories: after any sequence of fast updates value and cache are those of a fresh evaluation of the final
configuration. -/
theorem C36_history [Fintype ι] (f : Fields D M) (epsilon : Fin D → Fin M → ℕ → ℂ) (syms : Syms L D ι)
    (hs : SymsConsistent syms) (h0 : ∀ d m k, epsilon d m k ≠ 0) (x : Fin L → Fin D)
    (upds : List (List (Fin L × Fin D))) (hp : ∀ pre upd, pre ++ [upd] <+: upds → Padded (pre.foldl applyUpdate x) upd) :
    upds.foldl (fun r upd => callUpdate f epsilon syms r.2 upd) (callFull f epsilon syms x) =
      callFull f epsilon syms (upds.foldl applyUpdate x) := by
  induction upds generalizing x with
  | nil => rfl
  | cons upd rest ih =>
    rw [List.foldl_cons, List.foldl_cons, C36_fast_update f epsilon syms hs x upd (hp [] upd (by simp)) h0]
    apply ih
    intro pre u hpre
    have := hp (upd :: pre) u (by rw [List.cons_append]; exact List.cons_prefix_cons.mpr ⟨rfl, hpre⟩)
    exact this

/-- The hypotheses hold for a three-site model with translations, an update of two sites and an update with a dummy. -/
example : (∀ (d : Fin 2) (m : Fin 1) (k : ℕ), ((d.val + m.val + k + 1 : ℕ) : ℂ) ≠ 0) ∧
    SymsConsistent (symsAut (L := 3) (T := 3) fun i j => i + j) ∧
    Padded (![0, 1, 1] : Fin 3 → Fin 2) [(0, 1), (1, 0)] ∧
    Padded (applyUpdate (![0, 1, 1] : Fin 3 → Fin 2) [(0, 1), (1, 0)]) [(2, 0), (2, 1)] := by
  refine ⟨fun d m k => Nat.cast_ne_zero.mpr (by omega), ?_, ?_, ?_⟩
  · exact (C35_syms_consistent (D := 2) (T := 3) fun j => Equiv.addRight j).1
  · simp only [Padded, List.pairwise_cons]; decide
  · simp only [Padded, List.pairwise_cons]; decide

end GPSKet.Props
