import Verif.Props.HoppingRule
import Verif.Lemmas.SamplerChain

/-! # The chain of the hopping sampler: kernel, balance, connectedness -/

namespace GPSKet.HoppingChain
open Spec SamplerChain Relation

variable {L : ℕ}

/-- the pairs of sites the table lets an electron hop between -/
def Edge (T : Option (Fin L → Fin L → ℝ)) (i a : Fin L) : Prop :=
  match T with
  | none => True
  | some T => 0 < T i a

/-- no negative entries -/
def TableNonneg (T : Option (Fin L → Fin L → ℝ)) : Prop :=
  match T with
  | none => True
  | some T => ∀ i a, 0 ≤ T i a

/-! ### Configurations as two sets of sites -/

theorem cfg_ext {x y : Cfg L} (h : ∀ s j, hasSpin s (x j) = hasSpin s (y j)) : x = y := by
  funext j
  have h0 := h false j
  have h1 := h true j
  revert h0 h1
  generalize x j = u
  generalize y j = v
  revert u v
  decide

theorem hasSpin_move (x : Cfg L) (s : Bool) {i a : Fin L} (hi : hasSpin s (x i) = true) (ha : hasSpin s (x a) = false)
    (s' : Bool) (j : Fin L) : hasSpin s' (moveCfg x s i a j) =
      if s' = s then (if j = a then true else if j = i then false else hasSpin s (x j)) else hasSpin s' (x j) := by
  have hai : a ≠ i := by
    intro h; rw [h, hi] at ha; exact absurd ha (by decide)
  unfold moveCfg
  by_cases h1 : j = a
  · subst h1
    rw [Function.update_self, if_pos rfl]
    clear hi hai
    generalize x j = v at ha ⊢
    revert v s s'
    decide
  · rw [Function.update_of_ne h1, if_neg h1]
    by_cases h2 : j = i
    · subst h2
      rw [Function.update_self, if_pos rfl]
      clear ha hai h1
      generalize x j = v at hi ⊢
      revert v s s'
      decide
    · rw [Function.update_of_ne h2, if_neg h2]
      by_cases h3 : s' = s <;> simp [h3]

/-- one electron hops along an edge to a site free for its spin -/
def Move (T : Option (Fin L → Fin L → ℝ)) (x y : Cfg L) : Prop :=
  ∃ (s : Bool) (i a : Fin L), Edge T i a ∧ hasSpin s (x i) = true ∧ hasSpin s (x a) = false ∧ y = moveCfg x s i a

theorem move_good {x : Cfg L} {k : Fin 2} {i a : Fin L} (hi : hasSpin (sOf k) (x i) = true)
    (ha : hasSpin (sOf k) (x a) = false) : Good x 0 i k a (moveCfg x (sOf k) i a) where
  ne := by intro h; rw [h, hi] at ha; exact absurd ha (by decide)
  hi := hi
  ha := ha
  hop := fun _ => rfl
  exi := fun h => absurd h (by decide)
  exa := fun h => absurd h (by decide)
  exch := fun h => absurd h (by decide)

theorem exists_k (s : Bool) : ∃ k : Fin 2, sOf k = s := by revert s; decide

theorem move_numElec {T : Option (Fin L → Fin L → ℝ)} {x y : Cfg L} (h : Move T x y) (s : Bool) :
    numElec s y = numElec s x := by
  obtain ⟨s', i, a, _, hi, ha, rfl⟩ := h
  obtain ⟨k, rfl⟩ := exists_k s'
  exact good_numElec (move_good hi ha) s

/-- An electron can be transported along every path of edges, whatever else is on the way. -/
theorem transport {T : Option (Fin L → Fin L → ℝ)} (s : Bool) {i a : Fin L} (hp : ReflTransGen (Edge T) i a) :
    ∀ x : Cfg L, hasSpin s (x i) = true → hasSpin s (x a) = false → ReflTransGen (Move T) x (moveCfg x s i a) := by
  induction hp using ReflTransGen.head_induction_on with
  | refl => intro x h1 h2; rw [h1] at h2; exact absurd h2 (by decide)
  | @head i v hiv _ ih =>
    intro x hi ha
    have hia : i ≠ a := by
      intro h; rw [h, ha] at hi; exact absurd hi (by decide)
    by_cases hv : hasSpin s (x v) = true
    · -- the next site is occupied: its electron goes first
      have hva : v ≠ a := by
        intro h; rw [h, ha] at hv; exact absurd hv (by decide)
      by_cases hvi : v = i
      · subst hvi; exact ih x hi ha
      have m := hasSpin_move x s hv ha
      have h1 : hasSpin s (moveCfg x s v a i) = true := by
        rw [m, if_pos rfl, if_neg hia, if_neg (Ne.symm hvi), hi]
      have h2 : hasSpin s (moveCfg x s v a v) = false := by
        rw [m, if_pos rfl, if_neg hva, if_pos rfl]
      have e : moveCfg (moveCfg x s v a) s i v = moveCfg x s i a := by
        apply cfg_ext
        intro s' j
        rw [hasSpin_move _ s h1 h2, m, m, hasSpin_move x s hi ha]
        by_cases hs : s' = s
        · simp only [hs, if_true]
          by_cases j1 : j = v
          · subst j1; simp [hv, hva, hvi]
          · by_cases j2 : j = i
            · subst j2; simp [j1, hia]
            · simp [j1, j2]
        · simp [hs]
      rw [← e]
      exact (ih x hv ha).tail ⟨s, i, v, hiv, h1, h2, rfl⟩
    · -- the next site is free: hop there and go on
      have hv' : hasSpin s (x v) = false := by simpa using hv
      have m := hasSpin_move x s hi hv'
      have first : ReflTransGen (Move T) x (moveCfg x s i v) := ReflTransGen.single ⟨s, i, v, hiv, hi, hv', rfl⟩
      by_cases hva : v = a
      · rw [← hva]; exact first
      have hiv' : v ≠ i := by
        intro h; rw [h] at hv'; rw [hi] at hv'; exact absurd hv' (by decide)
      have h1 : hasSpin s (moveCfg x s i v v) = true := by rw [m, if_pos rfl, if_pos rfl]
      have h2 : hasSpin s (moveCfg x s i v a) = false := by
        rw [m, if_pos rfl, if_neg (Ne.symm hva), if_neg (Ne.symm hia), ha]
      have e : moveCfg (moveCfg x s i v) s v a = moveCfg x s i a := by
        apply cfg_ext
        intro s' j
        rw [hasSpin_move _ s h1 h2, m, m, hasSpin_move x s hi ha]
        by_cases hs : s' = s
        · simp only [hs, if_true]
          by_cases j1 : j = a
          · subst j1; simp
          · by_cases j2 : j = v
            · subst j2; simp [j1, hv', hiv']
            · simp [j1, j2]
        · simp [hs]
      rw [← e]
      exact first.trans (ih _ h1 h2)

/-- the sites occupied in `x` but not in `y` -/
def surplus (s : Bool) (x y : Cfg L) : Finset (Fin L) :=
  Finset.univ.filter fun j => hasSpin s (x j) = true ∧ hasSpin s (y j) = false

theorem surplus_card {s : Bool} {x y : Cfg L} (h : numElec s x = numElec s y) :
    (surplus s x y).card = (surplus s y x).card := by
  have key : ∀ x y : Cfg L, (surplus s x y).card +
      (Finset.univ.filter fun j => hasSpin s (x j) = true ∧ hasSpin s (y j) = true).card = numElec s x := by
    intro x y
    unfold surplus numElec
    rw [← Finset.card_union_of_disjoint]
    · congr 1
      ext j
      simp only [Finset.mem_union, Finset.mem_filter, Finset.mem_univ, true_and]
      cases hasSpin s (x j) <;> cases hasSpin s (y j) <;> simp
    · rw [Finset.disjoint_filter]
      rintro j _ ⟨_, h1⟩ ⟨_, h2⟩
      rw [h1] at h2; exact absurd h2 (by decide)
  have h1 := key x y
  have h2 := key y x
  have h3 : (Finset.univ.filter fun j => hasSpin s (x j) = true ∧ hasSpin s (y j) = true) =
      Finset.univ.filter fun j => hasSpin s (y j) = true ∧ hasSpin s (x j) = true := by
    ext j; simp [and_comm]
  rw [h3] at h1
  omega

theorem surplus_empty {s : Bool} {x y : Cfg L} (h1 : (surplus s x y).card = 0) (h2 : (surplus s y x).card = 0) (j : Fin L) :
    hasSpin s (x j) = hasSpin s (y j) := by
  rw [Finset.card_eq_zero] at h1 h2
  have a : j ∉ surplus s x y := by rw [h1]; simp
  have b : j ∉ surplus s y x := by rw [h2]; simp
  simp only [surplus, Finset.mem_filter, Finset.mem_univ, true_and] at a b
  revert a b
  cases hasSpin s (x j) <;> cases hasSpin s (y j) <;> simp

/-- one species can be arranged at will, without touching the other -/
theorem arrange {T : Option (Fin L → Fin L → ℝ)} (hc : ∀ i a, ReflTransGen (Edge T) i a) (s : Bool) (y : Cfg L) :
    ∀ (n : ℕ) (x : Cfg L), (surplus s x y).card = n → numElec s x = numElec s y →
      ∃ z, ReflTransGen (Move T) x z ∧ (∀ j, hasSpin s (z j) = hasSpin s (y j)) ∧
        ∀ j, hasSpin (!s) (z j) = hasSpin (!s) (x j) := by
  intro n
  induction n with
  | zero =>
    intro x h0 hn
    exact ⟨x, ReflTransGen.refl, surplus_empty h0 (surplus_card hn ▸ h0), fun _ => rfl⟩
  | succ n ih =>
    intro x h0 hn
    obtain ⟨i, hi⟩ := Finset.card_pos.mp (by rw [h0]; exact Nat.succ_pos n : 0 < (surplus s x y).card)
    obtain ⟨a, ha⟩ := Finset.card_pos.mp (by rw [← surplus_card hn, h0]; exact Nat.succ_pos n : 0 < (surplus s y x).card)
    simp only [surplus, Finset.mem_filter, Finset.mem_univ, true_and] at hi ha
    have m := hasSpin_move x s hi.1 ha.2
    have hx' : (surplus s (moveCfg x s i a) y).card = n := by
      have : surplus s (moveCfg x s i a) y = (surplus s x y).erase i := by
        ext j
        simp only [surplus, Finset.mem_filter, Finset.mem_univ, true_and, Finset.mem_erase, m]
        by_cases h1 : j = a
        · subst h1; simp [ha.1]
        · by_cases h2 : j = i
          · subst h2; simp [h1]
          · simp [h1, h2]
      rw [this, Finset.card_erase_of_mem (by simp [surplus, hi]), h0]
      rfl
    have hn' : numElec s (moveCfg x s i a) = numElec s y := by
      obtain ⟨k, rfl⟩ := exists_k s
      rw [good_numElec (move_good hi.1 ha.2), hn]
    obtain ⟨z, hz1, hz2, hz3⟩ := ih _ hx' hn'
    refine ⟨z, (transport s (hc i a) x hi.1 ha.2).trans hz1, hz2, fun j => ?_⟩
    rw [hz3, m, if_neg (by cases s <;> decide)]

/-- Configurations with the same numbers of electrons are connected by hops along the edges of a connected table. -/
theorem connected {T : Option (Fin L → Fin L → ℝ)} (hc : ∀ i a, ReflTransGen (Edge T) i a) {x y : Cfg L}
    (h : ∀ s, numElec s x = numElec s y) : ReflTransGen (Move T) x y := by
  obtain ⟨z, h1, h2, h3⟩ := arrange hc false y _ x rfl (h false)
  have hz : numElec true z = numElec true y := by
    rw [← h true]
    unfold numElec
    congr 1
    ext j
    simp only [Finset.mem_filter, Finset.mem_univ, true_and]
    rw [show hasSpin true (z j) = hasSpin true (x j) from h3 j]
  obtain ⟨u, g1, g2, g3⟩ := arrange hc true y _ z rfl hz
  have : u = y := by
    apply cfg_ext
    intro s j
    cases s
    · rw [show hasSpin false (u j) = hasSpin false (z j) from g3 j, h2]
    · exact g2 j
  rw [← this]
  exact h1.trans g1

/-! ### The kernel -/

theorem choiceLaw_nonneg {n : ℕ} {p : Fin n → ℝ} (hp : ∀ i, 0 ≤ p i) (i : Fin n) : 0 ≤ choiceLaw p i := by
  unfold choiceLaw
  split_ifs
  · exact zero_le_one
  · exact le_refl _
  · exact div_nonneg (hp i) (Finset.sum_nonneg fun j _ => hp j)

theorem choiceLaw_pos {n : ℕ} {p : Fin n → ℝ} (hp : ∀ i, 0 ≤ p i) {i : Fin n} (hi : 0 < p i) : 0 < choiceLaw p i := by
  have : 0 < ∑ j, p j := Finset.sum_pos' (fun j _ => hp j) ⟨i, Finset.mem_univ i, hi⟩
  unfold choiceLaw
  rw [if_neg this.ne']
  exact div_pos hi this

theorem hopExchange_nonneg {hop : ℝ} (h0 : 0 ≤ hop) (h1 : hop ≤ 1) (e : Fin 2) : 0 ≤ hopExchangeProbs hop e := by
  rcases fin2_01 e with h | h <;> rw [h] <;> simp [hopExchangeProbs] <;> linarith

theorem targetDraw_nonneg {T : Option (Fin L → Fin L → ℝ)} (hT : TableNonneg T) (y : Arr L) (e : Fin 2) (i : Fin L)
    (s : UInt8) (a : Fin L) : 0 ≤ targetDrawProbs T y e i s a := by
  cases T with
  | none => unfold targetDrawProbs; dsimp only; split_ifs <;> norm_num
  | some T => exact hT i a

theorem prob_nonneg {hop : ℝ} (h0 : 0 ≤ hop) (h1 : hop ≤ 1) {T : Option (Fin L → Fin L → ℝ)} (hT : TableNonneg T)
    (y : Arr L) (d : HopDraw L) : 0 ≤ d.prob hop T y :=
  mul_nonneg (mul_nonneg (mul_nonneg (choiceLaw_nonneg (hopExchange_nonneg h0 h1) _)
    (choiceLaw_nonneg (occProb_nonneg _ _) _)) (choiceLaw_nonneg (spinProbs_nonneg _ _) _))
    (choiceLaw_nonneg (targetDraw_nonneg hT _ _ _ _) _)

theorem prob_possible {hop : ℝ} (h0 : 0 ≤ hop) (h1 : hop ≤ 1) {T : Option (Fin L → Fin L → ℝ)} (hT : TableNonneg T)
    {y : Arr L} {d : HopDraw L} (h : d.prob hop T y ≠ 0) : d.Possible hop T y := by
  unfold HopDraw.prob at h
  simp only [mul_ne_zero_iff] at h
  exact ⟨choiceLaw_possible (hopExchange_nonneg h0 h1) h.1.1.1, choiceLaw_possible (occProb_nonneg _ _) h.1.1.2,
    choiceLaw_possible (spinProbs_nonneg _ _) h.1.2, choiceLaw_possible (targetDraw_nonneg hT _ _ _ _) h.2⟩

/-- a hop along an edge to a free site is drawn with positive probability -/
theorem prob_pos {hop : ℝ} (h0 : 0 < hop) (h1 : hop ≤ 1) {T : Option (Fin L → Fin L → ℝ)} (hT : TableNonneg T)
    {x : Cfg L} {k : Fin 2} {i a : Fin L} (hi : hasSpin (sOf k) (x i) = true) (ha : hasSpin (sOf k) (x a) = false)
    (he : Edge T i a) : 0 < (⟨0, i, k, a⟩ : HopDraw L).prob hop T (embed x) := by
  refine mul_pos (mul_pos (mul_pos (choiceLaw_pos (hopExchange_nonneg h0.le h1) ?_)
    (choiceLaw_pos (occProb_nonneg _ _) ?_)) (choiceLaw_pos (spinProbs_nonneg _ _) ?_))
    (choiceLaw_pos (targetDraw_nonneg hT _ _ _ _) ?_)
  · simpa [hopExchangeProbs] using h0
  · simp only [occProb, if_true, occAt_eq]
    have : 0 < (hasSpin false (x i)).toNat + (hasSpin true (x i)).toNat := by
      cases hs : sOf k <;> rw [hs] at hi <;> rw [hi] <;> simp
    exact_mod_cast this
  · simp only [spinProbs_eq, hi, if_true]; norm_num
  · cases T with
    | some T => exact he
    | none =>
      have : targetSiteProbs (embed x) 0 (spinOf k) a = true := by
        simp [targetSiteProbs, (embed_and x a k).mpr ha]
      simp [targetDrawProbs, this]

/-- `proposed` is the probability of C22 -/
theorem proposed_eq (hop : ℝ) (T : Option (Fin L → Fin L → ℝ)) (x y : Cfg L) :
    proposed (fun x d => (toDraw d).prob hop T x) (fun d x => applyElectronHop x (toDraw d)) (embed x) (embed y) =
      proposalProb hop T x y := by
  unfold proposed proposalProb
  simp only [Fintype.sum_prod_type]
  refine Finset.sum_congr rfl fun e _ => Finset.sum_congr rfl fun i _ => Finset.sum_congr rfl fun k _ =>
    Finset.sum_congr rfl fun a _ => ?_
  by_cases h : (applyElectronHop (embed x) ⟨e, i, k, a⟩).1 = embed y
  · exact (if_pos h).trans (if_pos h).symm
  · exact (if_neg h).trans (if_neg h).symm

end GPSKet.HoppingChain
