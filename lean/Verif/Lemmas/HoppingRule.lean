import Verif.Model.HoppingRule
import Verif.Lemmas.Hubbard

/-! # Lemmas about the fermionic hopping rule -/

namespace GPSKet
open Spec

variable {L : ℕ}

/-- spin named by an index -/
def sOf (k : Fin 2) : Bool := decide (k = 1)

theorem embed_inj {x y : Cfg L} (h : embed x = embed y) : x = y := by
  funext i
  have := congrFun h i
  simp only [embed] at this
  revert this
  generalize x i = v
  generalize y i = w
  revert v w
  decide

theorem embed_update (x : Cfg L) (i : Fin L) (v : Fin 4) :
    embed (Function.update x i v) = Function.update (embed x) i (UInt8.ofNat v.val) := by
  funext j
  by_cases h : j = i
  · subst h; simp [embed]
  · simp [embed, h]

theorem embed_and (x : Cfg L) (i : Fin L) (k : Fin 2) :
    (embed x i &&& spinOf k = 0) ↔ hasSpin (sOf k) (x i) = false := by
  simp only [embed]
  generalize x i = v
  revert v k
  decide

theorem addAt_sub (x : Cfg L) (i : Fin L) (k : Fin 2) (h : hasSpin (sOf k) (x i) = true) :
    addAt (embed x) i (-(spinOf k)) = embed (Function.update x i (x i - spinInt (sOf k))) := by
  rw [embed_update, addAt]
  congr 1
  simp only [embed]
  revert h
  generalize x i = v
  revert v k
  decide

theorem addAt_add (x : Cfg L) (i : Fin L) (k : Fin 2) (h : hasSpin (sOf k) (x i) = false) :
    addAt (embed x) i (spinOf k) = embed (Function.update x i (x i + spinInt (sOf k))) := by
  rw [embed_update, addAt]
  congr 1
  simp only [embed]
  revert h
  generalize x i = v
  revert v k
  decide

/-- an electron of spin `s` moved from `i` to `a` -/
def moveCfg (x : Cfg L) (s : Bool) (i a : Fin L) : Cfg L :=
  Function.update (Function.update x i (x i - spinInt s)) a (x a + spinInt s)

theorem other_spin (k : Fin 2) : (3 : UInt8) - spinOf k = spinOf (1 - k) := by revert k; decide

theorem sOf_other (k : Fin 2) : sOf (1 - k) = !(sOf k) := by revert k; decide

theorem occAt_eq (x : Cfg L) (i : Fin L) :
    occAt (embed x) i = (hasSpin false (x i)).toNat + (hasSpin true (x i)).toNat := by
  have key : ∀ v : Fin 4, ((if UInt8.ofNat v.val &&& 1 = 0 then 0 else 1) +
      if UInt8.ofNat v.val &&& 2 = 0 then 0 else 1) = (hasSpin false v).toNat + (hasSpin true v).toNat := by decide
  exact key (x i)

/-- singly occupied -/
theorem single_iff (x : Cfg L) (i : Fin L) :
    (occAt (embed x) i ≠ 2 ∧ occAt (embed x) i ≠ 0) ↔ (hasSpin false (x i) ≠ hasSpin true (x i)) := by
  rw [occAt_eq]
  generalize x i = v
  revert v
  decide

theorem moveCfg_eq (x : Cfg L) (k : Fin 2) {i a : Fin L} (h : a ≠ i) (hi : hasSpin (sOf k) (x i) = true)
    (ha : hasSpin (sOf k) (x a) = false) :
    addAt (addAt (embed x) i (-(spinOf k))) a (spinOf k) = embed (moveCfg x (sOf k) i a) := by
  rw [addAt_sub x i k hi, addAt_add _ a k (by rw [Function.update_of_ne h]; exact ha), moveCfg,
    Function.update_of_ne h]

/-- `target = start` leaves the array alone -/
theorem addAt_cancel (y : Arr L) (i : Fin L) (v : UInt8) : addAt (addAt y i (-v)) i v = y := by
  funext j
  by_cases h : j = i
  · subst h; simp [addAt, UInt8.add_assoc, UInt8.add_left_neg]
  · simp [addAt, h]

theorem addAt_cancel' (y : Arr L) (i : Fin L) (v : UInt8) : addAt (addAt y i v) i (-v) = y := by
  funext j
  by_cases h : j = i
  · subst h; simp [addAt, UInt8.add_assoc, UInt8.add_right_neg]
  · simp [addAt, h]

/-- A proper move: what a draw does when the start site holds the drawn spin and the target is allowed and different. -/
structure Good (x : Cfg L) (e : Fin 2) (i : Fin L) (k : Fin 2) (a : Fin L) (x' : Cfg L) : Prop where
  ne : a ≠ i
  hi : hasSpin (sOf k) (x i) = true
  ha : hasSpin (sOf k) (x a) = false
  hop : e = 0 → x' = moveCfg x (sOf k) i a
  exi : e = 1 → hasSpin (!(sOf k)) (x i) = false
  exa : e = 1 → hasSpin (!(sOf k)) (x a) = true
  exch : e = 1 → x' = fun j => x (Equiv.swap i a j)

theorem fin2_01 (e : Fin 2) : e = 0 ∨ e = 1 := by omega

theorem apply_of_target_eq (y : Arr L) (d : HopDraw L) (h : finalTarget y d = d.start_site) :
    (applyElectronHop y d).1 = y := by
  unfold applyElectronHop
  simp only [h, addAt_cancel, addAt_cancel', ite_self]

/-- two successive opposite moves of opposite spins exchange two singly occupied sites -/
theorem move_move (x : Cfg L) (s : Bool) {i a : Fin L} (h : a ≠ i)
    (hi : hasSpin s (x i) = true) (ha : hasSpin s (x a) = false)
    (hi' : hasSpin (!s) (x i) = false) (ha' : hasSpin (!s) (x a) = true) :
    moveCfg (moveCfg x s i a) (!s) a i = fun j => x (Equiv.swap i a j) := by
  have key : ∀ (s : Bool) (v w : Fin 4), hasSpin s v = true → hasSpin (!s) v = false → hasSpin s w = false →
      hasSpin (!s) w = true → v - spinInt s + spinInt (!s) = w ∧ w + spinInt s - spinInt (!s) = v := by decide
  obtain ⟨k1, k2⟩ := key s (x i) (x a) hi hi' ha ha'
  funext j
  unfold moveCfg
  by_cases hj : j = i
  · subst hj
    simp [h.symm, k1]
  · by_cases hj2 : j = a
    · subst hj2
      simp [h, k2]
    · rw [Equiv.swap_apply_of_ne_of_ne hj hj2]
      simp [hj, hj2]

theorem good_apply {x : Cfg L} {e : Fin 2} {i : Fin L} {k : Fin 2} {a : Fin L} {x' : Cfg L}
    (g : Good x e i k a x') :
    applyElectronHop (embed x) ⟨e, i, k, a⟩ = (embed x', i, a) := by
  have hne := g.ne
  have ht : finalTarget (embed x) ⟨e, i, k, a⟩ = a := by
    unfold finalTarget
    rw [if_neg]
    simp only [Bool.not_eq_false]
    unfold targetSiteProbs
    have h1 : embed x a &&& spinOf k = 0 := (embed_and x a k).mpr g.ha
    rcases fin2_01 e with h0 | h0
    · simp [h0, h1]
    · have h2 : occAt (embed x) a ≠ 2 ∧ occAt (embed x) a ≠ 0 := by
        rw [single_iff]
        have p := g.ha; have q := g.exa h0
        cases hs : sOf k <;> simp_all
      simp [h0, h1, h2]
  unfold applyElectronHop
  simp only [ht, moveCfg_eq x k hne g.hi g.ha]
  rcases fin2_01 e with h0 | h0
  · simp [h0, g.hop h0]
  · subst h0
    simp only [Fin.isValue, one_ne_zero, if_false, other_spin, Prod.mk.injEq, and_true]
    rw [g.exch rfl]
    have p1 : hasSpin (sOf (1 - k)) (moveCfg x (sOf k) i a i) = false := by
      rw [sOf_other]
      unfold moveCfg
      rw [Function.update_of_ne hne.symm, Function.update_self, hasSpin_sub _ _ _ g.hi]
      simp [g.exi rfl]
    have p2 : hasSpin (sOf (1 - k)) (moveCfg x (sOf k) i a a) = true := by
      rw [sOf_other]
      unfold moveCfg
      rw [Function.update_self, hasSpin_add _ _ _ g.ha]
      simp [g.exa rfl]
    have comm : ∀ (y : Arr L) (v : UInt8), addAt (addAt y i v) a (-v) = addAt (addAt y a (-v)) i v := by
      intro y v
      unfold addAt
      rw [Function.update_of_ne hne, Function.update_of_ne hne.symm]
      exact Function.update_comm hne.symm _ _ _
    rw [comm, moveCfg_eq _ (1 - k) hne.symm p2 p1, sOf_other,
      move_move x (sOf k) hne g.hi g.ha (g.exi rfl) (g.exa rfl)]

theorem good_numElec {x : Cfg L} {e : Fin 2} {i : Fin L} {k : Fin 2} {a : Fin L} {x' : Cfg L}
    (g : Good x e i k a x') (s' : Bool) : numElec s' x' = numElec s' x := by
  rcases fin2_01 e with h0 | h0
  · rw [g.hop h0]
    exact numElec_move x g.ne _ _ g.hi g.ha
  · rw [g.exch h0]
    unfold numElec
    apply Finset.card_bij (fun j _ => Equiv.swap i a j)
    · intro j hj; simpa using hj
    · intro j1 _ j2 _ h; exact (Equiv.swap i a).injective h
    · intro j hj
      exact ⟨Equiv.swap i a j, by simpa using hj, by simp⟩

theorem good_symm {x : Cfg L} {e : Fin 2} {i : Fin L} {k : Fin 2} {a : Fin L} {x' : Cfg L}
    (g : Good x e i k a x') : Good x' e a k i x := by
  have hne := g.ne
  rcases fin2_01 e with h0 | h0
  · have hx := g.hop h0
    have ei : x' i = x i - spinInt (sOf k) := by
      rw [hx]; unfold moveCfg; rw [Function.update_of_ne hne.symm, Function.update_self]
    have ea : x' a = x a + spinInt (sOf k) := by rw [hx]; unfold moveCfg; rw [Function.update_self]
    refine ⟨hne.symm, ?_, ?_, ?_, ?_, ?_, ?_⟩
    · rw [ea, hasSpin_add _ _ _ g.ha]; simp
    · rw [ei, hasSpin_sub _ _ _ g.hi]; simp
    · intro _
      funext j
      unfold moveCfg
      by_cases hj : j = i
      · subst hj
        rw [Function.update_self, ei, sub_add_cancel]
      · by_cases hj2 : j = a
        · subst hj2
          rw [Function.update_of_ne hj, Function.update_self, ea, add_sub_cancel_right]
        · rw [Function.update_of_ne hj, Function.update_of_ne hj2, hx]
          unfold moveCfg
          simp [hj, hj2]
    all_goals (intro h1; rw [h0] at h1; exact absurd h1 (by decide))
  · have hx := g.exch h0
    have ei : x' i = x a := by rw [hx]; simp
    have ea : x' a = x i := by rw [hx]; simp
    refine ⟨hne.symm, ?_, ?_, ?_, ?_, ?_, ?_⟩
    · rw [ea]; exact g.hi
    · rw [ei]; exact g.ha
    · intro h1; rw [h0] at h1; exact absurd h1 (by decide)
    · intro _; rw [ea]; exact g.exi h0
    · intro _; rw [ei]; exact g.exa h0
    · intro _
      funext j
      rw [hx]
      simp only [Equiv.swap_comm a i, Equiv.swap_apply_self]

/-- The three possibilities for a draw that can occur: nothing happens, a proper move, or (only for the empty state)
an underflow at the start site. -/
theorem draw_cases (x : Cfg L) (d : HopDraw L)
    (hs : ChoicePossible (occProb (embed x) d.hopping_or_exchange) d.start_site)
    (hk : ChoicePossible (spinProbs (embed x) d.start_site) d.spin_index) :
    finalTarget (embed x) d = d.start_site ∨
    (∃ x', Good x d.hopping_or_exchange d.start_site d.spin_index (finalTarget (embed x) d) x') ∨
    (d.hopping_or_exchange = 0 ∧ (∀ j, x j = 0) ∧ finalTarget (embed x) d ≠ d.start_site ∧
      (applyElectronHop (embed x) d).1 d.start_site = 255) := by
  rcases d with ⟨e, i, k, a⟩
  dsimp only at hs hk ⊢
  by_cases ht : finalTarget (embed x) ⟨e, i, k, a⟩ = i
  · exact Or.inl ht
  right
  have hne : finalTarget (embed x) ⟨e, i, k, a⟩ = a ∧ targetSiteProbs (embed x) e (spinOf k) a = true := by
    unfold finalTarget at ht ⊢
    dsimp only at ht ⊢
    split_ifs at ht ⊢ with h
    · exact absurd rfl ht
    · exact ⟨rfl, by simpa using h⟩
  obtain ⟨hta, hok⟩ := hne
  have hai : a ≠ i := by rw [hta] at ht; exact ht
  rw [hta]
  have sp : ∀ k, spinProbs (embed x) i k = if hasSpin (sOf k) (x i) = true then 1 else 0 := by
    intro k
    have e1 : (if k = 0 then (1 : UInt8) else 2) = spinOf k := by revert k; decide
    simp only [spinProbs, e1, embed_and]
    by_cases h : hasSpin (sOf k) (x i) = true <;> simp [h]
  have haf : hasSpin (sOf k) (x a) = false := by
    rw [← embed_and]
    unfold targetSiteProbs at hok
    rcases fin2_01 e with h0 | h0
    · simpa [h0] using hok
    · simp only [h0, Fin.isValue, one_ne_zero, if_false, Bool.and_eq_true, decide_eq_true_eq] at hok
      exact hok.2
  rcases fin2_01 e with h0 | h0
  · subst h0
    rcases hk with hk | ⟨hk, hk0⟩
    · left
      have hi : hasSpin (sOf k) (x i) = true := by
        rw [sp] at hk; by_contra h; simp [h] at hk
      refine ⟨moveCfg x (sOf k) i a, hai, hi, haf, fun _ => rfl, ?_, ?_, ?_⟩ <;> intro h <;> exact absurd h (by decide)
    · right
      have hxi : x i = 0 := by
        have a1 := hk 0; have a2 := hk 1
        rw [sp] at a1 a2
        have b1 : ¬ (hasSpin (sOf 0) (x i) = true) := fun h => by simp [h] at a1
        have b2 : ¬ (hasSpin (sOf 1) (x i) = true) := fun h => by simp [h] at a2
        revert b1 b2
        generalize x i = v
        revert v; decide
      have hk' : k = 0 := Fin.ext hk0
      subst hk'
      refine ⟨rfl, ?_, by simpa [hta] using ht, ?_⟩
      · rcases hs with h | ⟨h, _⟩
        · exfalso
          simp only [occProb, if_true, occAt_eq, hxi, hasSpin] at h
          simp at h
        · intro j
          have := h j
          simp only [occProb, if_true, occAt_eq, Nat.cast_eq_zero] at this
          revert this
          generalize x j = v
          revert v; decide
      · unfold applyElectronHop
        simp only [hta, if_true]
        unfold addAt
        rw [Function.update_of_ne hai.symm, Function.update_self]
        simp only [embed, hxi]
        decide
  · subst h0
    left
    have hsa : hasSpin false (x a) ≠ hasSpin true (x a) := by
      rw [← single_iff]
      simp only [targetSiteProbs, Fin.isValue, one_ne_zero, if_false, Bool.and_eq_true, decide_eq_true_eq] at hok
      exact hok.1
    have hsi : hasSpin false (x i) ≠ hasSpin true (x i) := by
      rcases hs with h | ⟨h, _⟩
      · rw [← single_iff]
        by_contra hc
        simp only [occProb, Fin.isValue, one_ne_zero, if_false, hc] at h
        simp at h
      · exfalso
        have := h a
        rw [← single_iff] at hsa
        simp [occProb, hsa] at this
    have hi : hasSpin (sOf k) (x i) = true := by
      rcases hk with h | ⟨h, _⟩
      · rw [sp] at h; by_contra hc; simp [hc] at h
      · exfalso
        have a1 := h 0; have a2 := h 1
        rw [sp] at a1 a2
        have b1 : ¬ (hasSpin (sOf 0) (x i) = true) := fun h => by simp [h] at a1
        have b2 : ¬ (hasSpin (sOf 1) (x i) = true) := fun h => by simp [h] at a2
        simp only [sOf] at b1 b2
        simp_all
    refine ⟨fun j => x (Equiv.swap i a j), hai, hi, haf, ?_, ?_, ?_, fun _ => rfl⟩
    · intro h; exact absurd h (by decide)
    · intro _; cases hs : sOf k <;> simp_all
    · intro _; cases hs : sOf k <;> simp_all

end GPSKet
