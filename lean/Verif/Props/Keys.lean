import Verif.Model.Keys
import Verif.Props.Hilbert
import Mathlib.Data.List.Nodup
import Mathlib.Data.List.Range
import Mathlib.Tactic.Common
import Mathlib.Data.Fin.VecNotation

/-! # Random keys (C152, C153) -/

namespace GPSKet.Keys

/-- Every key is used up at most once: the rule under which JAX's random numbers are independent of each other. -/
def Once (us : List Use) : Prop := (us.map Use.key).Nodup

/-- All keys used descend from `k`. -/
def Below (k : Key) (us : List Use) : Prop := ∀ u ∈ us, k <:+ u.key

theorem suffix_cons_self (a : ℕ × ℕ) (k : Key) : k <:+ a :: k := List.suffix_cons a k

theorem child_below (k : Key) (n j : ℕ) : k <:+ child k n j := suffix_cons_self _ _

/-- Descendants of different children of a key are different. -/
theorem child_disjoint {k x : Key} {n j n' j' : ℕ} (h : child k n j <:+ x) (h' : child k n' j' <:+ x) : (n, j) = (n', j') := by
  have hl : (child k n j).length = (child k n' j').length := rfl
  have := (List.suffix_of_suffix_length_le h h' hl.le).eq_of_length hl
  simpa [child] using this

/-- A child is not above its parent. -/
theorem not_child_suffix (k : Key) (n j : ℕ) : ¬ child k n j <:+ k := by
  intro h
  have := h.length_le
  simp [child] at this

/-- Steps that use keys below the given one, each once, and hand on a key whose descendants are unused. -/
structure Good (step : Key → List Use × Key) : Prop where
  once : ∀ k, Once (step k).1
  below : ∀ k, Below k (step k).1
  handed : ∀ k, k <:+ (step k).2
  unused : ∀ k, ∀ u ∈ (step k).1, ¬ (step k).2 <:+ u.key

theorem repeated_good {step : Key → List Use × Key} (h : Good step) (m : ℕ) (k : Key) :
    Once (repeated step m k) ∧ Below k (repeated step m k) := by
  induction m generalizing k with
  | zero => exact ⟨by simp [repeated, Once], by simp [repeated, Below]⟩
  | succ m ih =>
    obtain ⟨h1, h2⟩ := ih (step k).2
    constructor
    · unfold Once repeated
      rw [List.map_append, List.nodup_append]
      refine ⟨h.once k, h1, ?_⟩
      rintro a ha b hb rfl
      obtain ⟨u, hu, rfl⟩ := List.mem_map.mp ha
      obtain ⟨v, hv, hvk⟩ := List.mem_map.mp hb
      exact h.unused k u hu (hvk ▸ h2 v hv)
    · intro u hu
      unfold repeated at hu
      rcases List.mem_append.mp hu with hu | hu
      · exact h.below k u hu
      · exact (h.handed k).trans (h2 u hu)

/-- Rules that use keys below the given one, each once. -/
structure GoodRule (rule : Key → List Use) : Prop where
  once : ∀ k, Once (rule k)
  below : ∀ k, Below k (rule k)

theorem exchangeRule_good : GoodRule exchangeRule :=
  ⟨fun k => by simp [exchangeRule, Once], fun k u hu => by simp [exchangeRule] at hu; subst hu; exact List.suffix_refl _⟩

theorem hopOne_below (k : Key) : Below k (hopOne k) := by
  intro u hu
  simp only [hopOne, List.mem_cons, List.not_mem_nil, or_false] at hu
  rcases hu with rfl | rfl | rfl | rfl | rfl
  · exact List.suffix_refl _
  all_goals exact child_below _ _ _

theorem hopOne_once (k : Key) : Once (hopOne k) := by
  have h : ∀ j, k ≠ child k 4 j := fun j h => not_child_suffix k 4 j (by rw [← h])
  simp [Once, hopOne, Use.key, h, child]

theorem flatMap_once {n : ℕ} {k : Key} (f : Key → List Use) (h1 : ∀ k, Once (f k)) (h2 : ∀ k, Below k (f k)) :
    ∀ l : List ℕ, l.Nodup → Once (l.flatMap fun c => f (child k n c)) := by
  intro l
  induction l with
  | nil => intro; simp [Once]
  | cons c l ih =>
    intro hl
    rw [List.nodup_cons] at hl
    unfold Once
    rw [List.flatMap_cons, List.map_append, List.nodup_append]
    refine ⟨h1 _, ih hl.2, ?_⟩
    rintro a ha b hb rfl
    obtain ⟨u, hu, rfl⟩ := List.mem_map.mp ha
    obtain ⟨v, hv, hvk⟩ := List.mem_map.mp hb
    obtain ⟨c', hc', hv'⟩ := List.mem_flatMap.mp hv
    have e1 := h2 _ u hu
    have e2 := h2 _ v hv'
    rw [hvk] at e2
    have := child_disjoint e1 e2
    simp only [Prod.mk.injEq, true_and] at this
    exact hl.1 (this ▸ hc')

theorem hoppingRule_good (chains : ℕ) : GoodRule (hoppingRule chains) := by
  constructor
  · intro k
    unfold Once hoppingRule
    rw [List.map_cons, List.nodup_cons]
    refine ⟨?_, flatMap_once hopOne hopOne_once hopOne_below _ List.nodup_range⟩
    intro h
    obtain ⟨u, hu, hk⟩ := List.mem_map.mp h
    obtain ⟨c, -, hu⟩ := List.mem_flatMap.mp hu
    have := hopOne_below _ u hu
    rw [hk] at this
    exact not_child_suffix _ _ _ this
  · intro k u hu
    unfold hoppingRule at hu
    rcases List.mem_cons.mp hu with rfl | hu
    · exact List.suffix_refl _
    · obtain ⟨c, -, hu⟩ := List.mem_flatMap.mp hu
      exact (child_below _ _ _).trans (hopOne_below _ u hu)

theorem fastStep_good {rule : Key → List Use} (h : GoodRule rule) : Good (fastStep rule) := by
  constructor
  · intro k
    unfold Once fastStep
    rw [List.map_cons, List.nodup_cons, List.map_append, List.nodup_append]
    refine ⟨?_, h.once _, by simp, ?_⟩
    · intro hk
      rcases List.mem_append.mp hk with hk | hk
      · obtain ⟨u, hu, hk⟩ := List.mem_map.mp hk
        have := h.below _ u hu
        rw [hk] at this
        exact not_child_suffix _ _ _ this
      · simp only [List.map_cons, List.map_nil, List.mem_singleton, Use.key] at hk
        exact not_child_suffix k 3 2 (by rw [← hk])
    · rintro a ha b hb rfl
      obtain ⟨u, hu, rfl⟩ := List.mem_map.mp ha
      simp only [List.map_cons, List.map_nil, List.mem_singleton] at hb
      have e := h.below _ u hu
      rw [hb] at e
      have := child_disjoint e (List.suffix_refl (child k 3 2))
      simp at this
  · intro k u hu
    unfold fastStep at hu
    rcases List.mem_cons.mp hu with rfl | hu
    · exact List.suffix_refl _
    · rcases List.mem_append.mp hu with hu | hu
      · exact (child_below _ _ _).trans (h.below _ u hu)
      · rw [List.mem_singleton] at hu; subst hu; exact child_below _ _ _
  · intro k; exact child_below _ _ _
  · intro k u hu hs
    unfold fastStep at hu hs
    rcases List.mem_cons.mp hu with rfl | hu
    · exact not_child_suffix _ _ _ hs
    · rcases List.mem_append.mp hu with hu | hu
      · have := child_disjoint hs (h.below _ u hu); simp at this
      · rw [List.mem_singleton] at hu; subst hu
        have := child_disjoint hs (List.suffix_refl (child k 3 2)); simp at this

theorem fastNext_good {rule : Key → List Use} (h : GoodRule rule) (sweep : ℕ) : Good (fastNext rule sweep) := by
  have hr := fun k => repeated_good (fastStep_good h) sweep k
  constructor
  · intro k
    unfold Once fastNext
    rw [List.map_cons, List.nodup_cons]
    refine ⟨?_, (hr _).1⟩
    intro hk
    obtain ⟨u, hu, hk⟩ := List.mem_map.mp hk
    have := (hr _).2 u hu
    rw [hk] at this
    exact not_child_suffix _ _ _ this
  · intro k u hu
    rcases List.mem_cons.mp hu with rfl | hu
    · exact List.suffix_refl _
    · exact (child_below _ _ _).trans ((hr _).2 u hu)
  · intro k; exact child_below _ _ _
  · intro k u hu hs
    rcases List.mem_cons.mp hu with rfl | hu
    · exact not_child_suffix _ _ _ hs
    · have := child_disjoint hs ((hr _).2 u hu); simp at this

/-- C152 for Metropolis sampling with the exchange rule: in any number of calls of the sampler, with any number of steps per call,
no key is used twice. -/
theorem C152_exchange_sampler (sweep calls : ℕ) (seed : Key) : Once (repeated (fastNext exchangeRule sweep) calls seed) :=
  (repeated_good (fastNext_good exchangeRule_good sweep) calls seed).1

/-- C152 for Metropolis sampling with the hopping rules and any number of chains. -/
theorem C152_hopping_sampler (chains sweep calls : ℕ) (seed : Key) :
    Once (repeated (fastNext (hoppingRule chains) sweep) calls seed) :=
  (repeated_good (fastNext_good (hoppingRule_good chains) sweep) calls seed).1

theorem directStep_good : Good directStep := by
  constructor
  · intro k
    have h : k ≠ child k 2 1 := fun h => not_child_suffix k 2 1 (by rw [← h])
    simp [Once, directStep, Use.key, h]
  · intro k u hu
    simp only [directStep, List.mem_cons, List.not_mem_nil, or_false] at hu
    rcases hu with rfl | rfl
    · exact List.suffix_refl _
    · exact child_below _ _ _
  · intro k; exact child_below _ _ _
  · intro k u hu hs
    simp only [directStep, List.mem_cons, List.not_mem_nil, or_false] at hu hs
    rcases hu with rfl | rfl
    · exact not_child_suffix _ _ _ hs
    · have := child_disjoint hs (List.suffix_refl (child k 2 1)); simp at this

theorem directChain_good (L : ℕ) : Good (directChain L) := by
  have hr := fun k => repeated_good directStep_good L k
  have hne : ∀ k j, k ≠ child k 4 j := fun k j h => not_child_suffix k 4 j (by rw [← h])
  constructor
  · intro k
    unfold Once directChain
    simp only [List.map_cons, List.map_append, List.map_nil, List.nodup_cons, List.nodup_append]
    refine ⟨?_, ?_, (hr _).1, by simp, ?_⟩
    · intro h
      simp only [List.mem_cons, List.mem_append, List.not_mem_nil, or_false, Use.key] at h
      rcases h with h | h | h
      · exact hne _ _ h
      · obtain ⟨u, hu, hk⟩ := List.mem_map.mp h
        have := (hr _).2 u hu
        rw [hk] at this
        exact not_child_suffix _ _ _ this
      · exact hne _ _ h
    · intro h
      simp only [List.mem_cons, List.mem_append, List.not_mem_nil, or_false, Use.key] at h
      rcases h with h | h
      · obtain ⟨u, hu, hk⟩ := List.mem_map.mp h
        have := (hr _).2 u hu
        rw [hk] at this
        have := child_disjoint this (List.suffix_refl (child k 4 1)); simp at this
      · simp [child] at h
    · rintro a ha b hb rfl
      obtain ⟨u, hu, rfl⟩ := List.mem_map.mp ha
      simp only [List.mem_cons, List.not_mem_nil, or_false] at hb
      have e := (hr _).2 u hu
      rw [hb] at e
      have := child_disjoint e (List.suffix_refl (child k 4 3)); simp at this
  · intro k u hu
    simp only [directChain, List.mem_cons, List.mem_append, List.not_mem_nil, or_false] at hu
    rcases hu with rfl | rfl | hu | rfl
    · exact List.suffix_refl _
    · exact child_below _ _ _
    · exact (child_below _ _ _).trans ((hr _).2 u hu)
    · exact child_below _ _ _
  · intro k; exact child_below _ _ _
  · intro k u hu hs
    simp only [directChain, List.mem_cons, List.mem_append, List.not_mem_nil, or_false] at hu hs
    rcases hu with rfl | rfl | hu | rfl
    · exact not_child_suffix _ _ _ hs
    · have := child_disjoint hs (List.suffix_refl (child k 4 1)); simp at this
    · have := child_disjoint hs ((hr _).2 u hu); simp at this
    · have := child_disjoint hs (List.suffix_refl (child k 4 3)); simp at this

/-- C152 for direct sampling: in any number of calls of the sampler, for any number of sites, no key is used twice. -/
theorem C152_direct_sampler (L calls : ℕ) (seed : Key) : Once (repeated (directChain L) calls seed) :=
  (repeated_good (directChain_good L) calls seed).1

/-- C152 for initial parameters and for the unconstrained random states. -/
theorem C152_initializers (n : ℕ) (k : Key) :
    Once (normalInit k) ∧ Once (orthogonalInit n k) ∧ Once (freeRandomState k) := by
  refine ⟨by simp [Once, normalInit], ?_, by simp [Once, freeRandomState]⟩
  unfold Once orthogonalInit
  rw [List.map_cons, List.nodup_cons, List.map_map]
  constructor
  · intro h
    obtain ⟨i, -, hi⟩ := List.mem_map.mp h
    exact not_child_suffix k n i (by rw [show child k n i = k from hi])
  · refine List.Nodup.map (fun a b hab => ?_) List.nodup_range
    simpa [Use.key, child] using hab

/-- The keys from which numbers are drawn. -/
def drawKeys (us : List Use) : List Key := us.filterMap fun u => match u with | .draw k => some k | .split _ _ => none

/-- All keys a scan over random states draws from are longer than its key, and are different. -/
theorem drawKeys_random (b : ℕ) (k : Key) :
    (drawKeys (fermionRandomState b k)).Nodup ∧ ∀ x ∈ drawKeys (fermionRandomState b k), k.length < x.length := by
  induction b generalizing k with
  | zero => simp [fermionRandomState, repeated, drawKeys]
  | succ b ih =>
    obtain ⟨h1, h2⟩ := ih (child k 2 0)
    have e : drawKeys (fermionRandomState (b + 1) k) =
        child k 2 0 :: child k 2 1 :: drawKeys (fermionRandomState b (child k 2 0)) := rfl
    rw [e]
    constructor
    · rw [List.nodup_cons, List.nodup_cons]
      refine ⟨?_, ?_, h1⟩
      · intro h
        rcases List.mem_cons.mp h with h | h
        · simp [child] at h
        · exact absurd (h2 _ h) (lt_irrefl _)
      · intro h
        have := h2 _ h
        simp [child] at this
    · intro x hx
      rcases List.mem_cons.mp hx with rfl | hx
      · simp [child]
      · rcases List.mem_cons.mp hx with rfl | hx
        · simp [child]
        · exact lt_trans (by simp [child]) (h2 x hx)

/-- The part of C152 that holds for random fermionic configurations: one configuration uses every key once, and no two draws use the
same key.  Missing: for two or more configurations see `C152_random_state_fails`. -/
theorem C152_random_state_partial (b : ℕ) (k : Key) :
    Once (fermionRandomState 1 k) ∧ (drawKeys (fermionRandomState b k)).Nodup := by
  refine ⟨?_, (drawKeys_random b k).1⟩
  have h : ∀ j, k ≠ child k 2 j := fun j h => not_child_suffix k 2 j (by rw [← h])
  simp [Once, fermionRandomState, repeated, randomStateStep, Use.key, h, child]

/-- C152 is false for random fermionic configurations: whenever two or more are made, the key from which the positions of the first
spin-up electrons were drawn is split again to make the next configuration. -/
theorem C152_random_state_fails (b : ℕ) (k : Key) :
    Use.draw (child k 2 0) ∈ fermionRandomState (b + 2) k ∧ Use.split (child k 2 0) 2 ∈ fermionRandomState (b + 2) k ∧
      ¬ Once (fermionRandomState (b + 2) k) := by
  have e : fermionRandomState (b + 2) k = [.split k 2, .draw (child k 2 0), .draw (child k 2 1), .split (child k 2 0) 2,
      .draw (child (child k 2 0) 2 0), .draw (child (child k 2 0) 2 1)] ++ fermionRandomState b (child (child k 2 0) 2 0) := rfl
  rw [e]
  refine ⟨by simp, by simp, ?_⟩
  unfold Once
  simp [Use.key]

/-- The part of C152 that holds for state fitting: no two mini-batches are drawn with the same key.  Missing: see
`C152_fitting_fails`. -/
theorem C152_fitting_partial (steps : ℕ) (k : Key) : (drawKeys (repeated fittingStep steps k)).Nodup := by
  have h : ∀ k, (drawKeys (repeated fittingStep steps k)).Nodup ∧
      ∀ x ∈ drawKeys (repeated fittingStep steps k), k.length < x.length := by
    induction steps with
    | zero => intro k; simp [repeated, drawKeys]
    | succ m ih =>
      intro k
      obtain ⟨h1, h2⟩ := ih (child k 2 0)
      have e : drawKeys (repeated fittingStep (m + 1) k) = child k 2 0 :: drawKeys (repeated fittingStep m (child k 2 0)) := rfl
      rw [e]
      constructor
      · rw [List.nodup_cons]
        exact ⟨fun h => absurd (h2 _ h) (lt_irrefl _), h1⟩
      · intro x hx
        rcases List.mem_cons.mp hx with rfl | hx
        · simp [child]
        · exact lt_trans (by simp [child]) (h2 x hx)
  exact (h k).1

/-- C152 is false for state fitting: from the second step on, the key from which the mini-batch was drawn is split again. -/
theorem C152_fitting_fails (m : ℕ) (k : Key) :
    Use.draw (child k 2 0) ∈ repeated fittingStep (m + 2) k ∧ Use.split (child k 2 0) 2 ∈ repeated fittingStep (m + 2) k ∧
      ¬ Once (repeated fittingStep (m + 2) k) := by
  have e : repeated fittingStep (m + 2) k = [.split k 2, .draw (child k 2 0), .split (child k 2 0) 2,
      .draw (child (child k 2 0) 2 0)] ++ repeated fittingStep m (child (child k 2 0) 2 0) := rfl
  rw [e]
  refine ⟨by simp, by simp, ?_⟩
  unfold Once
  simp [Use.key]

/-- the rule is no tautology: two draws from one key break it -/
example : ¬ Once [.draw [], .draw []] := by simp [Once]

/-! ### Random states of the stratified states -/

variable {K : Type} {L : ℕ} (g : Gen K L) (n_elec : ℕ × ℕ)

theorem states_length (b : ℕ) (key : K) : (g.states n_elec b key).length = b := by
  induction b generalizing key with
  | zero => rfl
  | succ b ih => simp [Gen.states, ih]

/-- Random states made with the first half of the split of a key are the random states made with the key, without the first one. -/
theorem states_shift (b : ℕ) (key : K) : g.states n_elec b (g.split key).1 = (g.states n_elec (b + 1) key).drop 1 := by
  simp [Gen.states]

theorem states_take (b c : ℕ) (key : K) : (g.states n_elec (b + c) key).take b = g.states n_elec b key := by
  induction b generalizing key with
  | zero => simp [Gen.states]
  | succ b ih =>
    rw [Nat.add_right_comm]
    simp [Gen.states, ih]

theorem states_advance (T b : ℕ) (key : K) : g.states n_elec b (g.advance T key) = (g.states n_elec (T + b) key).drop T := by
  induction T generalizing key with
  | zero => simp [Gen.advance]
  | succ T ih =>
    rw [Gen.advance, ih, Nat.add_right_comm]
    simp [Gen.states]

theorem takeRandom_eq (det : List (Cfg L)) (need : ℕ) (l : List (Cfg L)) :
    Stratified.takeRandom det need l = (l.filter fun c => decide (c ∉ det)).take need := by
  induction l generalizing need with
  | nil => simp [Stratified.takeRandom]
  | cons c l ih =>
    cases need with
    | zero => simp [Stratified.takeRandom]
    | succ need =>
      unfold Stratified.takeRandom Stratified.inDet
      by_cases h : c ∈ det
      · simp [h, ih]
      · simp [h, ih]

/-- The configurations of the first proposed batch that are outside the deterministic set. -/
def accepted (det : List (Cfg L)) (R : ℕ) (rng : K) : List (Cfg L) :=
  (g.states n_elec R (g.split (g.split rng).1).1).filter fun c => decide (c ∉ det)

/-- The part of C153 that holds: if none of the proposed configurations is in the deterministic set, the norm is estimated from one
batch of random states.  Missing: see `C153_fails`. -/
theorem C153_one_batch_partial (det : List (Cfg L)) (R M : ℕ) (hM : 0 < M) (rng : K)
    (h : ∀ c ∈ g.states n_elec R (g.split (g.split rng).1).1, c ∉ det) :
    g.normSamples n_elec det R M rng = some (g.states n_elec R (g.split (g.split rng).1).1) := by
  obtain ⟨M, rfl⟩ := Nat.exists_eq_succ_of_ne_zero hM.ne'
  have hf : ((g.states n_elec R (g.split (g.split rng).1).1).filter fun c => decide (c ∉ det)) =
      g.states n_elec R (g.split (g.split rng).1).1 := List.filter_eq_self.mpr fun c hc => by simpa using h c hc
  unfold Gen.normSamples
  cases R with
  | zero => simp [Stratified.randomSamples, Gen.states]
  | succ R =>
    have hl := states_length g n_elec (R + 1) (g.split (g.split rng).1).1
    simp only [Gen.proposals, Stratified.randomSamples, takeRandom_eq, hf]
    rw [List.take_of_length_le hl.le, hl, Nat.sub_self]
    simp [Stratified.randomSamples]

/-- C153 is false: if some, but fewer than half, of the proposed configurations are in the deterministic set, the missing ones are taken
from a second batch, and are copies of the configurations of the first one, for every generator of random numbers.  `A` are the
accepted configurations of the first batch; the copies start with its first one, or with its second one if the very first
proposal was accepted. -/
theorem C153_fails (det : List (Cfg L)) (R M : ℕ) (hM : 2 ≤ M) (rng : K) (A : List (Cfg L)) (hA : A = accepted g n_elec det R rng)
    (h1 : A.length < R) (h2 : R < 2 * A.length) :
    g.normSamples n_elec det R M rng = some (A ++ A.take (R - A.length)) ∨
      g.normSamples n_elec det R M rng = some (A ++ (A.drop 1).take (R - A.length)) := by
  obtain ⟨M, rfl⟩ : ∃ m, M = m + 2 := ⟨M - 2, by omega⟩
  obtain ⟨R, rfl⟩ : ∃ r, R = r + 1 := ⟨R - 1, by omega⟩
  set key := (g.split (g.split rng).1).1 with hkey
  have hl := states_length g n_elec (R + 1) key
  have hA' : A = (g.states n_elec (R + 1) key).filter fun c => decide (c ∉ det) := by rw [hA, accepted, hkey]
  -- the second batch is the first one shifted
  have hs : g.states n_elec (R + 1) (g.split key).1 =
      (g.states n_elec (R + 1) key).drop 1 ++ (g.states n_elec (R + 2) key).drop (R + 1) := by
    rw [states_shift]
    conv_lhs => rw [← List.take_append_drop (R + 1) (g.states n_elec (R + 1 + 1) key)]
    rw [states_take g n_elec (R + 1) 1, List.drop_append, hl]
    simp
  have hf2 : ∃ x : List (Cfg L), ((g.states n_elec (R + 1) (g.split key).1).filter fun c => decide (c ∉ det)) = A ++ x ∨
      ((g.states n_elec (R + 1) (g.split key).1).filter fun c => decide (c ∉ det)) = A.drop 1 ++ x := by
    refine ⟨((g.states n_elec (R + 2) key).drop (R + 1)).filter fun c => decide (c ∉ det), ?_⟩
    rw [hs, List.filter_append, hA']
    simp only [Gen.states, List.drop_succ_cons, List.drop_zero]
    by_cases hc : g.state n_elec key ∈ det
    · left; simp [hc]
    · right; simp [hc]
  obtain ⟨x, hx⟩ := hf2
  have hrun : g.normSamples n_elec det (R + 1) (M + 2) rng =
      some (A ++ ((g.states n_elec (R + 1) (g.split key).1).filter fun c => decide (c ∉ det)).take (R + 1 - A.length)) := by
    unfold Gen.normSamples
    simp only [Gen.proposals, Stratified.randomSamples, takeRandom_eq]
    rw [← hkey, ← hA', List.take_of_length_le h1.le]
    obtain ⟨d, hd⟩ : ∃ d, R + 1 - A.length = d + 1 := ⟨R - A.length, by omega⟩
    rw [hd]
    have hlen : (((g.states n_elec (R + 1) (g.split key).1).filter fun c => decide (c ∉ det)).take (d + 1)).length = d + 1 := by
      rw [List.length_take]
      have : d + 1 ≤ ((g.states n_elec (R + 1) (g.split key).1).filter fun c => decide (c ∉ det)).length := by
        rcases hx with hx | hx <;> rw [hx] <;> simp <;> omega
      omega
    simp only [Stratified.randomSamples, takeRandom_eq, hlen, Nat.sub_self]
    simp
  rw [hrun]
  rcases hx with hx | hx
  · left; rw [hx, List.take_append_of_le_length (by omega)]
  · right; rw [hx, List.take_append_of_le_length (by simp; omega)]

/-- C153 is false from one estimate to the next as well: if the sampler made `T` steps in between and nothing is rejected, all but `T` of
the configurations are those of the previous estimate. -/
theorem C153_next_estimate_fails (det : List (Cfg L)) (R M T : ℕ) (hM : 0 < M) (hT : T ≤ R) (rng : K)
    (h : ∀ c ∈ g.states n_elec (T + R) (g.split (g.split rng).1).1, c ∉ det) :
    ∃ old new, g.normSamples n_elec det R M rng = some old ∧ g.normSamples n_elec det R M (g.advance T rng) = some new ∧
      new.take (R - T) = old.drop T := by
  have hadv : ∀ T rng, (g.split (g.advance T rng)).1 = g.advance T (g.split rng).1 := by
    intro T
    induction T with
    | zero => intro; rfl
    | succ T ih => intro rng; simp only [Gen.advance]; exact ih _
  have ht : g.states n_elec R (g.split (g.split rng).1).1 = (g.states n_elec (T + R) (g.split (g.split rng).1).1).take R := by
    rw [Nat.add_comm, states_take]
  have hn : g.states n_elec R (g.split (g.split (g.advance T rng)).1).1 =
      (g.states n_elec (T + R) (g.split (g.split rng).1).1).drop T := by
    rw [hadv, hadv, states_advance]
  refine ⟨_, _, C153_one_batch_partial g n_elec det R M hM rng fun c hc => h c ?_,
    C153_one_batch_partial g n_elec det R M hM _ fun c hc => h c ?_, ?_⟩
  · rw [ht] at hc; exact List.mem_of_mem_take hc
  · rw [hn] at hc; exact List.mem_of_mem_drop hc
  · rw [hn, ht, List.take_drop, List.drop_take, List.drop_take]
    congr 1
    omega

/-- **C153**: the `i`-th configuration of a batch of random states has its up electrons at the sites drawn with the first half of
the split of the `i`-th key, and its down electrons at the sites drawn with the second half, for every generator that draws
without replacement.  So no two draws of one configuration share a key. -/
theorem C153_electrons (hc : ∀ k n, (g.choice k n).Nodup) (R i : ℕ) (hi : i < R) (key : K) :
    ∃ c, (g.states n_elec R key)[i]? = some c ∧ ∀ j,
      (Spec.hasSpin false (c j) = true ↔ j ∈ g.choice (g.split (g.advance i key)).1 n_elec.1) ∧
      (Spec.hasSpin true (c j) = true ↔ j ∈ g.choice (g.split (g.advance i key)).2 n_elec.2) := by
  refine ⟨g.state n_elec (g.advance i key), ?_, fun j => ?_⟩
  · induction i generalizing R key with
    | zero =>
      obtain ⟨R, rfl⟩ : ∃ r, R = r + 1 := ⟨R - 1, by omega⟩
      simp [Gen.states, Gen.advance]
    | succ i ih =>
      obtain ⟨R, rfl⟩ : ∃ r, R = r + 1 := ⟨R - 1, by omega⟩
      simpa [Gen.states, Gen.advance] using ih R (by omega) _
  · have := randomState_electrons (L := L) ⟨g.choice (g.split (g.advance i key)).1 n_elec.1,
      g.choice (g.split (g.advance i key)).2 n_elec.2⟩ (hc _ _) (hc _ _) j
    unfold Gen.state
    rw [this.1, this.2]
    simp

/-- A generator for examples: keys are numbers, one electron is put on site `key % 3`. -/
def counter : Gen ℕ 3 := ⟨fun k => (k + 1, k + 1001), fun k n => if n = 1 then [⟨k % 3, Nat.mod_lt _ (by omega)⟩] else []⟩

/-- hypotheses met: the two electrons of the second configuration are on the sites of the two halves of the second key -/
example : (∀ k n, (counter.choice k n).Nodup) ∧ (counter.states (1, 1) 3 0)[1]? = some ![2, 0, 1] ∧
    (counter.states (1, 1) 3 0)[2]? = some ![1, 2, 0] ∧ counter.split (counter.advance 1 0) = (2, 1002) := by
  refine ⟨fun k n => ?_, ?_, ?_, ?_⟩
  · unfold counter; dsimp only; split <;> simp
  · decide
  · decide
  · decide

/-- hypotheses met: one of three proposals is in the deterministic set, and the third sample is a copy -/
example : (accepted counter (1, 0) [![1, 0, 0]] 3 0).length = 2 ∧
    counter.normSamples (1, 0) [![1, 0, 0]] 3 2 0 = some [![0, 1, 0], ![0, 0, 1], ![0, 1, 0]] := by
  decide

/-- hypotheses met: nothing is rejected, and after one step of the sampler two of three samples are the old ones -/
example : (∀ c ∈ counter.states (1, 0) 4 (counter.split (counter.split 0).1).1, c ∉ ([] : List (Cfg 3))) ∧
    counter.normSamples (1, 0) [] 3 1 0 = some [![1, 0, 0], ![0, 1, 0], ![0, 0, 1]] ∧
    counter.normSamples (1, 0) [] 3 1 (counter.advance 1 0) = some [![0, 1, 0], ![0, 0, 1], ![1, 0, 0]] := by
  decide

end GPSKet.Keys
