import Verif.Lemmas.HoppingRule
import Verif.Spec.Sampling
import Verif.Spec.Updates
import Mathlib.Algebra.BigOperators.Field

/-! # Properties C21, C22: the fermionic hopping / exchange rule -/

namespace GPSKet
open Spec

variable {L : ℕ}

/-! ## C21 -/

/-- **C21 is false for the empty state**: with no electron at all the rule "moves" one anyway; the start site
underflows to 255, which is not a local state.  Witness: two empty sites, plain hopping, target site 1. -/
theorem C21_stays_in_space_fails :
    ∃ (x : Cfg 2) (d : HopDraw 2), d.Possible 1 none (embed x) ∧ ¬ ∃ x' : Cfg 2, (applyElectronHop (embed x) d).1 = embed x' := by
  refine ⟨fun _ => 0, ⟨0, 0, 0, 1⟩, ⟨?_, ?_, ?_, ?_⟩, ?_⟩
  · left; simp [hopExchangeProbs]
  · right
    refine ⟨fun j => ?_, rfl⟩
    simp [occProb, occAt_eq, hasSpin]
  · right
    refine ⟨fun j => ?_, rfl⟩
    simp [spinProbs, embed]
  · left
    have : targetSiteProbs (embed (fun _ => 0 : Cfg 2)) 0 (spinOf 0) 1 = true := by decide
    simp [targetDrawProbs, this]
  · rintro ⟨x', h⟩
    have h0 := congrFun h 0
    have e : (applyElectronHop (embed (fun _ => 0 : Cfg 2)) ⟨0, 0, 0, 1⟩).1 0 = 255 := by decide
    rw [e] at h0
    simp only [embed] at h0
    revert h0
    generalize x' 0 = v
    revert v; decide

/-- **C21 (partial: at least one electron)**.  For every configuration with at least one electron, every hop
probability, every table and every draw that can occur, the proposal is a configuration with the same numbers of
electrons of both spins, it differs from the old one at most on the two reported sites, and the reported update (the
proposal's occupations on those sites, in the reported order) denotes the proposal.
Missing: the empty state, for which the property is false (`C21_stays_in_space_fails`). -/
theorem C21_stays_in_space_partial (x : Cfg L) (hx : 0 < numElec false x + numElec true x) (hop : ℝ)
    (T : Option (Fin L → Fin L → ℝ)) (d : HopDraw L) (hd : d.Possible hop T (embed x)) :
    ∃ x' : Cfg L, (applyElectronHop (embed x) d).1 = embed x' ∧
      (∀ s, numElec s x' = numElec s x) ∧
      (let r := applyElectronHop (embed x) d
       (∀ j, j ≠ r.2.1 → j ≠ r.2.2 → x' j = x j) ∧
       applyUpdate x [(r.2.1, x' r.2.1), (r.2.2, x' r.2.2)] = x') := by
  have upd : ∀ (x' : Cfg L) (i a : Fin L), (∀ j, j ≠ i → j ≠ a → x' j = x j) →
      applyUpdate x [(i, x' i), (a, x' a)] = x' := by
    intro x' i a h
    funext j
    unfold applyUpdate
    by_cases h1 : i = j
    · subst h1; simp
    · by_cases h2 : a = j
      · subst h2; simp [h1]
      · simp [h1, h2, h j (Ne.symm h1) (Ne.symm h2)]
  rcases draw_cases x d hd.2.1 hd.2.2.1 with h | ⟨x', g⟩ | ⟨_, h0, _⟩
  · exact ⟨x, apply_of_target_eq _ _ h, fun _ => rfl, fun _ _ _ => rfl, upd x _ _ fun _ _ _ => rfl⟩
  · have e : applyElectronHop (embed x) d = (embed x', d.start_site, finalTarget (embed x) d) := by
      by_cases ht : targetSiteProbs (embed x) d.hopping_or_exchange (spinOf d.spin_index) d.target_site = false
      · exact absurd (by simp [finalTarget, ht]) g.ne
      · have hf : finalTarget (embed x) d = d.target_site := by simp [finalTarget, ht]
        have := good_apply g
        rw [hf] at this ⊢
        exact this
    have loc : ∀ j, j ≠ d.start_site → j ≠ finalTarget (embed x) d → x' j = x j := by
      intro j h1 h2
      rcases fin2_01 d.hopping_or_exchange with h0 | h0
      · rw [g.hop h0]; unfold moveCfg; rw [Function.update_of_ne h2, Function.update_of_ne h1]
      · rw [g.exch h0]; simp only [Equiv.swap_apply_of_ne_of_ne h1 h2]
    refine ⟨x', by rw [e], good_numElec g, ?_⟩
    rw [e]
    exact ⟨loc, upd x' _ _ loc⟩
  · exfalso
    have : ∀ s, numElec s x = 0 := by
      intro s
      unfold numElec
      rw [Finset.card_eq_zero, Finset.filter_eq_empty_iff]
      intro j _
      rw [h0 j]
      cases s <;> decide
    rw [this, this] at hx
    exact absurd hx (by simp)

/-- a non-trivial instance: two electrons, an exchange draw that can occur -/
example : (⟨1, 0, 0, 1⟩ : HopDraw 2).Possible (1/2) none (embed ![1, 2]) ∧
    (applyElectronHop (embed ![1, 2]) (⟨1, 0, 0, 1⟩ : HopDraw 2)).1 = embed ![2, 1] := by
  refine ⟨⟨?_, ?_, ?_, ?_⟩, by decide⟩
  · left; norm_num [hopExchangeProbs]
  · left
    have : occAt (embed (![1, 2] : Cfg 2)) 0 = 1 := by decide
    simp [occProb, this]
  · left
    have : ¬ (embed (![1, 2] : Cfg 2) 0 &&& 1 = 0) := by decide
    simp [spinProbs, this]
  · left
    have : targetSiteProbs (embed (![1, 2] : Cfg 2)) 1 (spinOf 0) 1 = true := by decide
    simp [targetDrawProbs, this]

/-! ## C22 -/

theorem choiceLaw_sum {n : ℕ} (p : Fin (n + 1) → ℝ) : ∑ i, choiceLaw p i = 1 := by
  unfold choiceLaw
  by_cases h : ∑ j, p j = 0
  · simp only [h, if_true]
    rw [Finset.sum_eq_single 0]
    · simp
    · intro b _ hb
      rw [if_neg]
      intro h'
      exact hb (Fin.ext h')
    · simp
  · simp only [h, if_false]
    rw [← Finset.sum_div, div_self h]

/-- The modelled probabilities of the draws sum to one. -/
theorem C22_draws_normalised (hop : ℝ) (T : Option (Fin (L + 1) → Fin (L + 1) → ℝ)) (x : Cfg (L + 1)) :
    ∑ e : Fin 2, ∑ i : Fin (L + 1), ∑ k : Fin 2, ∑ a : Fin (L + 1),
      (⟨e, i, k, a⟩ : HopDraw (L + 1)).prob hop T (embed x) = 1 := by
  unfold HopDraw.prob
  simp only [← Finset.mul_sum, choiceLaw_sum, mul_one]

theorem choiceLaw_possible {n : ℕ} {p : Fin n → ℝ} (hp : ∀ i, 0 ≤ p i) {i : Fin n} (h : choiceLaw p i ≠ 0) :
    ChoicePossible p i := by
  unfold choiceLaw at h
  split_ifs at h with h1 h2
  · right
    refine ⟨fun j => ?_, h2⟩
    exact (Finset.sum_eq_zero_iff_of_nonneg (fun j _ => hp j)).mp h1 j (Finset.mem_univ j)
  · exact absurd rfl h
  · left
    have : p i ≠ 0 := by
      intro h0; rw [h0] at h; simp at h
    exact lt_of_le_of_ne (hp i) (Ne.symm this)

theorem occProb_nonneg (y : Arr L) (e : Fin 2) (i : Fin L) : 0 ≤ occProb y e i := by
  unfold occProb; split_ifs <;> positivity

theorem spinProbs_nonneg (y : Arr L) (i : Fin L) (k : Fin 2) : 0 ≤ spinProbs y i k := by
  unfold spinProbs; split_ifs <;> positivity

theorem spinProbs_eq (x : Cfg L) (i : Fin L) (k : Fin 2) :
    spinProbs (embed x) i k = if hasSpin (sOf k) (x i) = true then 1 else 0 := by
  have e1 : (if k = 0 then (1 : UInt8) else 2) = spinOf k := by revert k; decide
  simp only [spinProbs, e1, embed_and]
  by_cases h : hasSpin (sOf k) (x i) = true <;> simp [h]

private theorem sum_spinProbs (x : Cfg L) (i : Fin L) : ∑ k, spinProbs (embed x) i k = occAt (embed x) i := by
  rw [Fin.sum_univ_two, spinProbs_eq, spinProbs_eq, occAt_eq]
  cases h0 : hasSpin false (x i) <;> cases h1 : hasSpin true (x i) <;> norm_num [sOf, h0, h1]

private theorem sum_occAt (x : Cfg L) : ∑ i, (occAt (embed x) i : ℝ) = (numElec false x + numElec true x : ℕ) := by
  have : ∀ s, numElec s x = ∑ i, (hasSpin s (x i)).toNat := by
    intro s
    unfold numElec
    rw [Finset.card_filter]
    apply Finset.sum_congr rfl
    intro i _
    cases hasSpin s (x i) <;> simp
  rw [this, this, ← Finset.sum_add_distrib, Nat.cast_sum]
  apply Finset.sum_congr rfl
  intro i _
  rw [occAt_eq]

/-- number of sites without an electron of spin `s` -/
private theorem sum_free (x : Cfg L) (k : Fin 2) :
    ∑ i, (if targetSiteProbs (embed x) 0 (spinOf k) i = true then (1 : ℝ) else 0) = L - numElec (sOf k) x := by
  have h1 : ∀ i, (if targetSiteProbs (embed x) 0 (spinOf k) i = true then (1 : ℝ) else 0) =
      1 - (if hasSpin (sOf k) (x i) = true then 1 else 0) := by
    intro i
    simp only [targetSiteProbs, if_true, decide_eq_true_eq, embed_and]
    cases hasSpin (sOf k) (x i) <;> simp
  simp only [h1, Finset.sum_sub_distrib]
  unfold numElec
  rw [Finset.card_filter]
  simp

/-- sums over sites of a function of the local state do not change under an exchange -/
private theorem sum_swap {M : Type} [AddCommMonoid M] (x : Cfg L) (i a : Fin L) (f : Fin 4 → M) :
    ∑ j, f (x (Equiv.swap i a j)) = ∑ j, f (x j) :=
  Equiv.sum_comp (Equiv.swap i a) fun j => f (x j)

/-- A table is balanced if all rows have the same non-zero sum; no table counts as balanced. -/
def TableBalanced (T : Option (Fin L → Fin L → ℝ)) : Prop :=
  match T with
  | none => True
  | some T => (∀ i, ∑ j, T i j ≠ 0) ∧ ∀ i a, ∑ j, T i j = ∑ j, T a j

private theorem good_prob {x x' : Cfg L} {e : Fin 2} {i : Fin L} {k : Fin 2} {a : Fin L} (g : Good x e i k a x')
    (hop : ℝ) (T : Option (Fin L → Fin L → ℝ)) (hT : tableAccepted T) (hb : TableBalanced T) :
    (⟨e, i, k, a⟩ : HopDraw L).prob hop T (embed x) = (⟨e, a, k, i⟩ : HopDraw L).prob hop T (embed x') := by
  have g' := good_symm g
  -- start and spin together
  have hstart : ∀ {x x' : Cfg L} {i a : Fin L}, Good x e i k a x' →
      choiceLaw (occProb (embed x) e) i * choiceLaw (spinProbs (embed x) i) k
        = 1 / ∑ j, occProb (embed x) e j := by
    intro x x' i a g
    have hi1 : (1 : ℝ) ≤ occAt (embed x) i := by
      rw [occAt_eq]
      have := g.hi
      have : 1 ≤ (hasSpin false (x i)).toNat + (hasSpin true (x i)).toNat := by
        cases hs : sOf k <;> rw [hs] at this <;> rw [this] <;> simp
      exact_mod_cast this
    have hpi : spinProbs (embed x) i k = 1 := by rw [spinProbs_eq, if_pos g.hi]
    have h2 : choiceLaw (spinProbs (embed x) i) k = 1 / occAt (embed x) i := by
      unfold choiceLaw
      rw [sum_spinProbs, if_neg (by linarith), hpi]
    have hocc : 0 < occProb (embed x) e i := by
      rcases fin2_01 e with h0 | h0
      · simp only [occProb, h0, if_true]; linarith
      · have : occAt (embed x) i ≠ 2 ∧ occAt (embed x) i ≠ 0 := by
          rw [single_iff]
          have p := g.hi; have q := g.exi h0
          cases hs : sOf k <;> simp_all
        simp [occProb, h0, this]
    have hsum : ∑ j, occProb (embed x) e j ≠ 0 := by
      have : 0 < ∑ j, occProb (embed x) e j :=
        Finset.sum_pos' (fun j _ => occProb_nonneg _ _ _) ⟨i, Finset.mem_univ i, hocc⟩
      exact this.ne'
    rw [h2]
    unfold choiceLaw
    rw [if_neg hsum]
    rcases fin2_01 e with h0 | h0
    · have : occProb (embed x) e i = occAt (embed x) i := by simp [occProb, h0]
      rw [this]
      field_simp
    · have hs : occAt (embed x) i ≠ 2 ∧ occAt (embed x) i ≠ 0 := by
        rw [single_iff]
        have p := g.hi; have q := g.exi h0
        cases hs : sOf k <;> simp_all
      have h1 : occAt (embed x) i = 1 := by
        have : occAt (embed x) i ≤ 2 := by
          rw [occAt_eq]; cases hasSpin false (x i) <;> cases hasSpin true (x i) <;> simp
        omega
      have : occProb (embed x) e i = 1 := by
        unfold occProb; rw [if_neg (by rw [h0]; decide), if_pos hs]
      rw [this, h1]
      simp
  have hocc_eq : ∑ j, occProb (embed x) e j = ∑ j, occProb (embed x') e j := by
    rcases fin2_01 e with h0 | h0
    · simp only [occProb, h0, if_true, sum_occAt, good_numElec g]
    · have hx := g.exch h0
      have : ∀ (y : Cfg L) j, occProb (embed y) e j = if hasSpin false (y j) ≠ hasSpin true (y j) then (1 : ℝ) else 0 := by
        intro y j
        unfold occProb
        rw [if_neg (by rw [h0]; decide)]
        simp only [single_iff]
      simp only [this]
      rw [hx]
      exact (sum_swap x i a fun v => if hasSpin false v ≠ hasSpin true v then (1 : ℝ) else 0).symm
  have htarget : choiceLaw (targetDrawProbs T (embed x) e i (spinOf k)) a =
      choiceLaw (targetDrawProbs T (embed x') e a (spinOf k)) i := by
    cases T with
    | some T =>
      simp only [tableAccepted] at hT
      simp only [TableBalanced] at hb
      unfold choiceLaw targetDrawProbs
      simp only
      rw [if_neg (hb.1 i), if_neg (hb.1 a), hb.2 i a, sub_eq_zero.mp (hT i a)]
    | none =>
      have one : ∀ {x x' : Cfg L} {i a : Fin L}, Good x e i k a x' →
          targetSiteProbs (embed x) e (spinOf k) a = true := by
        intro x x' i a g
        unfold targetSiteProbs
        have h1 : embed x a &&& spinOf k = 0 := (embed_and x a k).mpr g.ha
        rcases fin2_01 e with h0 | h0
        · simp [h0, h1]
        · have h2 : occAt (embed x) a ≠ 2 ∧ occAt (embed x) a ≠ 0 := by
            rw [single_iff]
            have p := g.ha; have q := g.exa h0
            cases hs : sOf k <;> simp_all
          simp [h0, h1, h2]
      have hsum : ∑ j, targetDrawProbs none (embed x) e i (spinOf k) j =
          ∑ j, targetDrawProbs none (embed x') e a (spinOf k) j := by
        unfold targetDrawProbs
        rcases fin2_01 e with h0 | h0
        · subst h0
          simp only [sum_free, good_numElec g]
        · have hx := g.exch h0
          have : ∀ (y : Cfg L) j, (if targetSiteProbs (embed y) e (spinOf k) j = true then (1 : ℝ) else 0) =
              if hasSpin false (y j) ≠ hasSpin true (y j) ∧ hasSpin (sOf k) (y j) = false then (1 : ℝ) else 0 := by
            intro y j
            have h1 : ¬ e = 0 := by rw [h0]; decide
            simp only [targetSiteProbs, h1, if_false, Bool.and_eq_true, decide_eq_true_eq, single_iff, embed_and]
          simp only [this]
          rw [hx]
          exact (sum_swap x i a fun v =>
            if hasSpin false v ≠ hasSpin true v ∧ hasSpin (sOf k) v = false then (1 : ℝ) else 0).symm
      have hpos : ∑ j, targetDrawProbs none (embed x) e i (spinOf k) j ≠ 0 := by
        have : 0 < ∑ j, targetDrawProbs none (embed x) e i (spinOf k) j := by
          apply Finset.sum_pos'
          · intro j _; unfold targetDrawProbs; dsimp only; split_ifs <;> positivity
          · exact ⟨a, Finset.mem_univ a, by simp [targetDrawProbs, one g]⟩
        exact this.ne'
      unfold choiceLaw
      rw [if_neg hpos, if_neg (hsum ▸ hpos), hsum]
      simp [targetDrawProbs, one g, one g']
  unfold HopDraw.prob
  dsimp only
  have r1 := hstart g
  have r2 := hstart g'
  rw [← hocc_eq] at r2
  rw [htarget, mul_assoc (choiceLaw (hopExchangeProbs hop) e) (choiceLaw (occProb (embed x) e) i), r1,
    mul_assoc (choiceLaw (hopExchangeProbs hop) e) (choiceLaw (occProb (embed x') e) a), r2]

/-- A draw with non-zero probability that proposes a different configuration is a proper move. -/
theorem draw_good {x x' : Cfg L} (hne : x ≠ x') {hop : ℝ} {T : Option (Fin L → Fin L → ℝ)} {d : HopDraw L}
    (h : (applyElectronHop (embed x) d).1 = embed x') (hp : d.prob hop T (embed x) ≠ 0) :
    Good x d.hopping_or_exchange d.start_site d.spin_index d.target_site x' := by
  unfold HopDraw.prob at hp
  have h1 : choiceLaw (occProb (embed x) d.hopping_or_exchange) d.start_site ≠ 0 := by
    intro h0; rw [h0] at hp; simp at hp
  have h2 : choiceLaw (spinProbs (embed x) d.start_site) d.spin_index ≠ 0 := by
    intro h0; rw [h0] at hp; simp at hp
  rcases draw_cases x d (choiceLaw_possible (occProb_nonneg _ _) h1) (choiceLaw_possible (spinProbs_nonneg _ _) h2)
    with h0 | ⟨y, g⟩ | ⟨_, _, _, h0⟩
  · rw [apply_of_target_eq _ _ h0] at h
    exact absurd (embed_inj h) hne
  · have hf : finalTarget (embed x) d = d.target_site := by
      by_cases ht : targetSiteProbs (embed x) d.hopping_or_exchange (spinOf d.spin_index) d.target_site = false
      · exact absurd (by simp [finalTarget, ht]) g.ne
      · simp [finalTarget, ht]
    rw [hf] at g
    have := good_apply g
    have he : applyElectronHop (embed x) d = (embed y, d.start_site, d.target_site) := this
    rw [he] at h
    have := embed_inj h
    rw [← this]
    exact g
  · exfalso
    rw [h] at h0
    simp only [embed] at h0
    revert h0
    generalize x' d.start_site = v
    revert v; decide

/-- **C22 (partial)**: without a table, and with every accepted (symmetric) table all of whose rows have the same
non-zero sum, the proposal probability is symmetric, for every hop probability and all pairs of configurations.
Missing: accepted tables with different row sums, for which the property is false (`C22_symmetric_fails`). -/
theorem C22_symmetric_partial (hop : ℝ) (T : Option (Fin L → Fin L → ℝ)) (hT : tableAccepted T)
    (hb : TableBalanced T) (x x' : Cfg L) : proposalProb hop T x x' = proposalProb hop T x' x := by
  by_cases hne : x = x'
  · rw [hne]
  unfold proposalProb
  apply Finset.sum_congr rfl
  intro e _
  have term : ∀ (i : Fin L) (k : Fin 2) (a : Fin L),
      (if (applyElectronHop (embed x) ⟨e, i, k, a⟩).1 = embed x' then
        (⟨e, i, k, a⟩ : HopDraw L).prob hop T (embed x) else 0) =
      (if (applyElectronHop (embed x') ⟨e, a, k, i⟩).1 = embed x then
        (⟨e, a, k, i⟩ : HopDraw L).prob hop T (embed x') else 0) := by
    have half : ∀ {x x' : Cfg L}, x ≠ x' → ∀ (i : Fin L) (k : Fin 2) (a : Fin L),
        (if (applyElectronHop (embed x) ⟨e, i, k, a⟩).1 = embed x' then
          (⟨e, i, k, a⟩ : HopDraw L).prob hop T (embed x) else 0) ≠ 0 →
        (if (applyElectronHop (embed x) ⟨e, i, k, a⟩).1 = embed x' then
          (⟨e, i, k, a⟩ : HopDraw L).prob hop T (embed x) else 0) =
        (if (applyElectronHop (embed x') ⟨e, a, k, i⟩).1 = embed x then
          (⟨e, a, k, i⟩ : HopDraw L).prob hop T (embed x') else 0) := by
      intro x x' hne i k a h
      by_cases h1 : (applyElectronHop (embed x) ⟨e, i, k, a⟩).1 = embed x'
      · rw [if_pos h1] at h ⊢
        have g := draw_good hne h1 h
        have g' := good_symm g
        rw [if_pos (by rw [good_apply g']), good_prob g hop T hT hb]
      · rw [if_neg h1] at h; exact absurd rfl h
    intro i k a
    by_cases h : (if (applyElectronHop (embed x) ⟨e, i, k, a⟩).1 = embed x' then
          (⟨e, i, k, a⟩ : HopDraw L).prob hop T (embed x) else 0) = 0
    · by_cases h' : (if (applyElectronHop (embed x') ⟨e, a, k, i⟩).1 = embed x then
          (⟨e, a, k, i⟩ : HopDraw L).prob hop T (embed x') else 0) = 0
      · rw [h, h']
      · exact (half (Ne.symm hne) a k i h').symm
    · exact half hne i k a h
  simp only [term]
  -- exchange the names of start and target
  have comm : ∀ f : Fin L → Fin 2 → Fin L → ℝ, ∑ i, ∑ k, ∑ a, f a k i = ∑ i, ∑ k, ∑ a, f i k a := by
    intro f
    calc ∑ i, ∑ k, ∑ a, f a k i = ∑ k, ∑ i, ∑ a, f a k i := Finset.sum_comm
      _ = ∑ k, ∑ i, ∑ a, f i k a := by
        apply Finset.sum_congr rfl; intro k _; exact Finset.sum_comm
      _ = ∑ i, ∑ k, ∑ a, f i k a := Finset.sum_comm
  exact comm fun i k a => if (applyElectronHop (embed x') ⟨e, i, k, a⟩).1 = embed x then
          (⟨e, i, k, a⟩ : HopDraw L).prob hop T (embed x') else 0

/-- **C22**: consequently the Metropolis chain satisfies detailed balance with respect to every positive weight. -/
theorem C22_detailed_balance_partial (hop : ℝ) (T : Option (Fin L → Fin L → ℝ)) (hT : tableAccepted T)
    (hb : TableBalanced T) (π : Cfg L → ℝ) (hπ : ∀ x, 0 < π x) : DetailedBalance π (proposalProb hop T) := by
  intro x x'
  rw [C22_symmetric_partial hop T hT hb x x']
  have h1 := hπ x
  have h2 := hπ x'
  have : π x * metropolisAccept π x x' = π x' * metropolisAccept π x' x := by
    unfold metropolisAccept
    rw [mul_min_of_nonneg _ _ h1.le, mul_min_of_nonneg _ _ h2.le, mul_one, mul_one,
      mul_div_cancel₀ _ h1.ne', mul_div_cancel₀ _ h2.ne', min_comm]
  calc π x * (proposalProb hop T x' x * metropolisAccept π x x')
      = proposalProb hop T x' x * (π x * metropolisAccept π x x') := by ring
    _ = proposalProb hop T x' x * (π x' * metropolisAccept π x' x) := by rw [this]
    _ = _ := by ring

/-- balanced tables exist: nearest-neighbour hopping on a ring of three sites -/
example : tableAccepted (some fun i a : Fin 3 => if i = a then (0 : ℝ) else 1) ∧
    TableBalanced (some fun i a : Fin 3 => if i = a then (0 : ℝ) else 1) := by
  have h : ∀ i : Fin 3, ∑ j, (if i = j then (0 : ℝ) else 1) = 2 := by
    intro i; fin_cases i <;> rw [Fin.sum_univ_three] <;> norm_num [Fin.ext_iff]
  refine ⟨fun i a => ?_, fun i => by rw [h]; norm_num, fun i a => by rw [h, h]⟩
  by_cases h : i = a <;> simp [h, eq_comm]

/-- the table of a path of three sites: symmetric, hence accepted, but with row sums 1, 2, 1 -/
def pathTable : Fin 3 → Fin 3 → ℝ := fun i a => if i.val + 1 = a.val ∨ a.val + 1 = i.val then 1 else 0

theorem single_term {x x' : Cfg 3} (hne : x ≠ x') (i : Fin 3) (k : Fin 2) (a : Fin 3)
    (h1 : ∀ i' k', hasSpin (sOf k') (x i') = true → i' = i ∧ k' = k)
    (h2 : ∀ a', hasSpin (!(sOf k)) (x a') = false)
    (h3 : ∀ a', x' = moveCfg x (sOf k) i a' → a' = a)
    (hap : (applyElectronHop (embed x) ⟨0, i, k, a⟩).1 = embed x')
    (hk : k = 0) {hop : ℝ} {T : Option (Fin 3 → Fin 3 → ℝ)} :
    proposalProb hop T x x' = (⟨0, i, k, a⟩ : HopDraw 3).prob hop T (embed x) := by
  unfold proposalProb
  have term : ∀ (e' : Fin 2) (i' : Fin 3) (k' : Fin 2) (a' : Fin 3), ¬ (e' = 0 ∧ i' = i ∧ k' = k ∧ a' = a) →
      (if (applyElectronHop (embed x) ⟨e', i', k', a'⟩).1 = embed x' then
        (⟨e', i', k', a'⟩ : HopDraw 3).prob hop T (embed x) else 0) = 0 := by
    intro e' i' k' a' hn
    by_contra hc
    split_ifs at hc with h
    · have g := draw_good hne h hc
      dsimp only at g
      obtain ⟨r1, r2⟩ := h1 _ _ g.hi
      subst r1 r2
      rcases fin2_01 e' with h0 | h0
      · exact hn ⟨h0, rfl, rfl, h3 _ (g.hop h0)⟩
      · have := g.exa h0
        rw [h2] at this
        exact absurd this (by decide)
    · exact hc rfl
  rw [Finset.sum_eq_single 0, Finset.sum_eq_single i, Finset.sum_eq_single k, Finset.sum_eq_single a]
  · dsimp only; rw [if_pos hap]
  · intro b _ hb; exact term _ _ _ _ (by tauto)
  · simp
  · intro b _ hb; exact Finset.sum_eq_zero fun _ _ => term _ _ _ _ (by tauto)
  · simp
  · intro b _ hb; exact Finset.sum_eq_zero fun _ _ => Finset.sum_eq_zero fun _ _ => term _ _ _ _ (by tauto)
  · simp
  · intro b _ hb
    exact Finset.sum_eq_zero fun _ _ => Finset.sum_eq_zero fun _ _ => Finset.sum_eq_zero fun _ _ =>
      term _ _ _ _ (by tauto)
  · simp

/-- **C22 is false** for tables the constructors accept: on a path of three sites with its adjacency table, one
electron on the first site is moved to the middle with probability 1, but moved back with probability 1/2. -/
theorem C22_symmetric_fails :
    ∃ (T : Option (Fin 3 → Fin 3 → ℝ)) (x x' : Cfg 3), tableAccepted T ∧
      proposalProb 1 T x x' = 1 ∧ proposalProb 1 T x' x = 1 / 2 := by
  refine ⟨some pathTable, ![1, 0, 0], ![0, 1, 0], ?_, ?_, ?_⟩
  · intro i a
    fin_cases i <;> fin_cases a <;> simp [pathTable]
  · rw [single_term (by decide) 0 0 1]
    · have o : ∀ j, occAt (embed (![1, 0, 0] : Cfg 3)) j = if j = 0 then 1 else 0 := by decide
      have s0 : ¬ (embed (![1, 0, 0] : Cfg 3) 0 &&& 1 = 0) := by decide
      have s1 : embed (![1, 0, 0] : Cfg 3) 0 &&& 2 = 0 := by decide
      have r : ∑ j, pathTable 0 j = 1 := by rw [Fin.sum_univ_three]; norm_num [pathTable]
      have t : pathTable 0 1 = 1 := by norm_num [pathTable]
      simp [HopDraw.prob, choiceLaw, hopExchangeProbs, occProb, spinProbs, targetDrawProbs, r, t,
        Fin.sum_univ_two, o, s0, s1]
    · decide
    · decide
    · decide
    · decide
    · decide
  · rw [single_term (by decide) 1 0 0]
    · have o : ∀ j, occAt (embed (![0, 1, 0] : Cfg 3)) j = if j = 1 then 1 else 0 := by decide
      have s0 : ¬ (embed (![0, 1, 0] : Cfg 3) 1 &&& 1 = 0) := by decide
      have s1 : embed (![0, 1, 0] : Cfg 3) 1 &&& 2 = 0 := by decide
      have r : ∑ j, pathTable 1 j = 2 := by rw [Fin.sum_univ_three]; norm_num [pathTable]
      have t : pathTable 1 0 = 1 := by norm_num [pathTable]
      norm_num [HopDraw.prob, choiceLaw, hopExchangeProbs, occProb, spinProbs, targetDrawProbs, r, t,
        Fin.sum_univ_two, o, s0, s1]
    · decide
    · decide
    · decide
    · decide
    · decide

end GPSKet
