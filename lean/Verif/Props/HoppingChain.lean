import Verif.Lemmas.HoppingChain
import Mathlib.Tactic.FinCases

/-! # Properties C137–C139: the Markov chain of the hopping samplers -/

namespace GPSKet.HoppingChain
open Spec SamplerChain Relation

variable {L nu nd : ℕ}

/-- the configurations of `L` sites with `nu` electrons of spin up and `nd` of spin down -/
abbrev Sector (L nu nd : ℕ) := {x : Cfg L // numElec false x = nu ∧ numElec true x = nd}

/-- the chain of the hopping sampler on a sector -/
noncomputable def chain (logpsi : Arr L → ℂ) (machine_pow hop_probability : ℝ)
    (transition_probs : Option (Fin L → Fin L → ℝ)) : Matrix (Sector L nu nd) (Sector L nu nd) ℝ :=
  Matrix.of fun x y => hoppingStep logpsi machine_pow hop_probability transition_probs (embed x.1) (embed y.1)

/-- what is to be sampled, up to normalisation: `|ψ(x)|^machine_pow` -/
noncomputable def target (logpsi : Arr L → ℂ) (machine_pow : ℝ) (x : Sector L nu nd) : ℝ :=
  ‖Complex.exp (logpsi (embed x.1))‖ ^ machine_pow

theorem target_pos (logpsi : Arr L → ℂ) (pow : ℝ) (x : Sector L nu nd) : 0 < target logpsi pow x :=
  weight_pos logpsi pow (embed x.1)

theorem chain_apply (logpsi : Arr L → ℂ) (pow hop : ℝ) (T : Option (Fin L → Fin L → ℝ)) (x y : Sector L nu nd) :
    chain logpsi pow hop T x y = stepProb logpsi pow (fun x d => (toDraw d).prob hop T x)
      (fun d x => applyElectronHop x (toDraw d)) (embed x.1) (embed y.1) := rfl

theorem emb_inj : Function.Injective fun x : Sector L nu nd => embed x.1 :=
  fun _ _ h => Subtype.ext (embed_inj h)

/-- the law of the rule's outcome is normalised -/
theorem prob_sum (hn : 0 < nu + nd) (hop : ℝ) (T : Option (Fin L → Fin L → ℝ)) (x : Sector L nu nd) :
    ∑ d, (toDraw d).prob hop T (embed x.1) = 1 := by
  cases L with
  | zero =>
    exfalso
    have h := x.2
    unfold numElec at h
    simp only [Finset.univ_eq_empty, Finset.filter_empty, Finset.card_empty] at h
    omega
  | succ n =>
    rw [← C22_draws_normalised hop T x.1]
    simp only [Fintype.sum_prod_type]
    rfl

theorem closed (hn : 0 < nu + nd) {hop : ℝ} (h0 : 0 ≤ hop) (h1 : hop ≤ 1) {T : Option (Fin L → Fin L → ℝ)}
    (hT : TableNonneg T) (x : Sector L nu nd) (d : Fin 2 × Fin L × Fin 2 × Fin L)
    (hd : (toDraw d).prob hop T (embed x.1) ≠ 0) :
    ∃ x' : Sector L nu nd, (applyElectronHop (embed x.1) (toDraw d)).1 = embed x'.1 := by
  obtain ⟨x', e, hs, _⟩ := C21_stays_in_space_partial x.1 (by rw [x.2.1, x.2.2]; exact hn) hop T (toDraw d)
    (prob_possible h0 h1 hT hd)
  exact ⟨⟨x', by rw [hs, x.2.1], by rw [hs, x.2.2]⟩, e⟩

/-! ## C137 -/

/-- **C137**: with at least one electron, a hop probability in `[0, 1]` and a table without negative entries, the sampler
is a Markov chain on the configurations with the given electron numbers: it never leaves them. -/
theorem C137_kernel (hn : 0 < nu + nd) (logpsi : Arr L → ℂ) (pow : ℝ) {hop : ℝ} (h0 : 0 ≤ hop) (h1 : hop ≤ 1)
    {T : Option (Fin L → Fin L → ℝ)} (hT : TableNonneg T) :
    IsKernel (chain logpsi pow hop T : Matrix (Sector L nu nd) (Sector L nu nd) ℝ) :=
  kernel (emb := fun x : Sector L nu nd => embed x.1) emb_inj (fun _ _ => prob_nonneg h0 h1 hT _ _)
    (fun x => prob_sum hn hop T x) fun x d hd => closed hn h0 h1 hT x d hd

theorem detailed (logpsi : Arr L → ℂ) (pow hop : ℝ) {T : Option (Fin L → Fin L → ℝ)} (hT : tableAccepted T)
    (hb : TableBalanced T) (x y : Sector L nu nd) :
    target logpsi pow x * chain logpsi pow hop T x y = target logpsi pow y * chain logpsi pow hop T y x :=
  reversible (logpsi := logpsi) (pow := pow) (law := fun x d => (toDraw d).prob hop T x)
    (proposal := fun d x => applyElectronHop x (toDraw d)) (emb := fun x : Sector L nu nd => embed x.1)
    (fun x y => by rw [proposed_eq, proposed_eq]; exact C22_symmetric_partial hop T hT hb x.1 y.1) emb_inj x y

/-- **C137**: without a table, or with an accepted table whose rows have the same sum, `|ψ|^machine_pow` is invariant
under every step of the sampler, for every wave function without zeros and every `machine_pow`. -/
theorem C137_invariant (hn : 0 < nu + nd) (logpsi : Arr L → ℂ) (pow : ℝ) {hop : ℝ} (h0 : 0 ≤ hop) (h1 : hop ≤ 1)
    {T : Option (Fin L → Fin L → ℝ)} (hT : TableNonneg T) (ha : tableAccepted T) (hb : TableBalanced T) :
    Invariant (chain logpsi pow hop T : Matrix (Sector L nu nd) (Sector L nu nd) ℝ) (target logpsi pow) :=
  Markov.invariant_of_reversible (C137_kernel hn logpsi pow h0 h1 hT) (detailed logpsi pow hop ha hb)

/-- a step to another configuration has the probability of proposing times that of accepting it -/
theorem chain_ne (logpsi : Arr L → ℂ) (pow hop : ℝ) (T : Option (Fin L → Fin L → ℝ)) {x y : Sector L nu nd} (h : x ≠ y) :
    chain logpsi pow hop T x y = proposalProb hop T x.1 y.1 *
      metropolisAccept (weight logpsi pow) (embed x.1) (embed y.1) := by
  have h' : embed x.1 ≠ embed y.1 := fun e => h (emb_inj e)
  rw [chain_apply, stepProb_ne h', proposed_eq]

/-- **C137 is false for accepted tables with different row sums**: on a path of three sites the nearest-neighbour table
makes the sampler leave the uniform distribution of one electron, although all amplitudes are equal. -/
theorem C137_unbalanced_fails : ∃ T : Option (Fin 3 → Fin 3 → ℝ), TableNonneg T ∧ tableAccepted T ∧
    ¬ Invariant (chain (fun _ => 0) 2 1 T : Matrix (Sector 3 1 0) (Sector 3 1 0) ℝ) (target (fun _ => 0) 2) := by
  have hnn : TableNonneg (some pathTable) := by
    intro i a; unfold pathTable; split_ifs <;> norm_num
  refine ⟨some pathTable, hnn, ?_, ?_⟩
  · intro i a
    fin_cases i <;> fin_cases a <;> simp [pathTable]
  intro hinv
  let x0 : Sector 3 1 0 := ⟨![1, 0, 0], by decide, by decide⟩
  let x1 : Sector 3 1 0 := ⟨![0, 1, 0], by decide, by decide⟩
  let x2 : Sector 3 1 0 := ⟨![0, 0, 1], by decide, by decide⟩
  have hacc : ∀ x y : Sector 3 1 0, metropolisAccept (weight (fun _ : Arr 3 => (0 : ℂ)) 2) (embed x.1) (embed y.1) = 1 := by
    intro x y; simp [metropolisAccept, weight]
  have p0 : proposalProb 1 (some pathTable) x0.1 x1.1 = 1 := by
    rw [single_term (by decide) 0 0 1]
    · have o : ∀ j, occAt (embed (![1, 0, 0] : Cfg 3)) j = if j = 0 then 1 else 0 := by decide
      have s0 : ¬ (embed (![1, 0, 0] : Cfg 3) 0 &&& 1 = 0) := by decide
      have s1 : embed (![1, 0, 0] : Cfg 3) 0 &&& 2 = 0 := by decide
      have r : ∑ j, pathTable 0 j = 1 := by rw [Fin.sum_univ_three]; norm_num [pathTable]
      have t : pathTable 0 1 = 1 := by norm_num [pathTable]
      simp [x0, HopDraw.prob, choiceLaw, hopExchangeProbs, occProb, spinProbs, targetDrawProbs, r, t,
        Fin.sum_univ_two, o, s0, s1]
    · decide
    · decide
    · decide
    · decide
    · rfl
  have p2 : proposalProb 1 (some pathTable) x2.1 x1.1 = 1 := by
    rw [single_term (by decide) 2 0 1]
    · have o : ∀ j, occAt (embed (![0, 0, 1] : Cfg 3)) j = if j = 2 then 1 else 0 := by decide
      have s0 : ¬ (embed (![0, 0, 1] : Cfg 3) 2 &&& 1 = 0) := by decide
      have s1 : embed (![0, 0, 1] : Cfg 3) 2 &&& 2 = 0 := by decide
      have r : ∑ j, pathTable 2 j = 1 := by rw [Fin.sum_univ_three]; norm_num [pathTable]
      have t : pathTable 2 1 = 1 := by norm_num [pathTable]
      simp [x2, HopDraw.prob, choiceLaw, hopExchangeProbs, occProb, spinProbs, targetDrawProbs, r, t,
        Fin.sum_univ_two, o, s0, s1]
    · decide
    · decide
    · decide
    · decide
    · rfl
  have h : ∑ x : Sector 3 1 0, target (fun _ => 0) 2 x * chain (fun _ => 0) 2 1 (some pathTable) x x1 =
      target (fun _ => 0) 2 x1 := hinv x1
  have ht : ∀ x : Sector 3 1 0, target (fun _ => 0) 2 x = 1 := by intro x; simp [target]
  simp only [ht, one_mul] at h
  have hk := C137_kernel (L := 3) (nu := 1) (nd := 0) (by norm_num) (fun _ => 0) 2 (hop := 1) (by norm_num) (le_refl _) hnn
  have hle : chain (fun _ => 0) 2 1 (some pathTable) x0 x1 + chain (fun _ => 0) 2 1 (some pathTable) x2 x1 ≤
      ∑ x : Sector 3 1 0, chain (fun _ => 0) 2 1 (some pathTable) x x1 := by
    rw [← Finset.sum_pair (f := fun x => chain (fun _ => 0) 2 1 (some pathTable) x x1) (by decide : x0 ≠ x2)]
    exact Finset.sum_le_sum_of_subset_of_nonneg (Finset.subset_univ _) fun x _ _ => hk.nonneg _ _
  rw [h, chain_ne _ _ _ _ (by decide), chain_ne _ _ _ _ (by decide), p0, p2, hacc, hacc] at hle
  norm_num at hle

/-! ## C138 -/

/-- the table connects all sites; without a table an electron may go anywhere -/
def TableConnected (T : Option (Fin L → Fin L → ℝ)) : Prop :=
  match T with
  | none => True
  | some T => ∀ i a, ReflTransGen (fun i a => 0 < T i a) i a

theorem edges {T : Option (Fin L → Fin L → ℝ)} (h : TableConnected T) (i a : Fin L) : ReflTransGen (Edge T) i a := by
  cases T with
  | none => exact ReflTransGen.single trivial
  | some T => exact h i a

theorem chain_move {hop : ℝ} (h0 : 0 < hop) (h1 : hop ≤ 1) {T : Option (Fin L → Fin L → ℝ)}
    (hT : TableNonneg T) (logpsi : Arr L → ℂ) (pow : ℝ) {x y : Sector L nu nd} (hm : Move T x.1 y.1) :
    0 < chain logpsi pow hop T x y := by
  obtain ⟨s, i, a, he, hi, ha, hy⟩ := hm
  obtain ⟨k, rfl⟩ := exists_k s
  have := stepProb_pos (logpsi := logpsi) (pow := pow) (law := fun x d => (toDraw d).prob hop T x)
    (proposal := fun d x => applyElectronHop x (toDraw d)) (x := embed x.1)
    (fun d => prob_nonneg h0.le h1 hT _ _) (0, i, k, a) (prob_pos h0 h1 hT hi ha he)
  have e : (applyElectronHop (embed x.1) (toDraw (0, i, k, a))).1 = embed y.1 := by
    rw [hy]
    exact congrArg Prod.fst (good_apply (move_good hi ha))
  rw [chain_apply, ← e]
  exact this

/-- **C138**: if hops are made at all and the table connects all sites, every configuration with the same electron numbers
is reached from every other with positive probability. -/
theorem C138_irreducible (hn : 0 < nu + nd) (logpsi : Arr L → ℂ) (pow : ℝ) {hop : ℝ} (h0 : 0 < hop) (h1 : hop ≤ 1)
    {T : Option (Fin L → Fin L → ℝ)} (hT : TableNonneg T) (hc : TableConnected T) :
    Spec.Irreducible (chain logpsi pow hop T : Matrix (Sector L nu nd) (Sector L nu nd) ℝ) := by
  intro x y
  apply Markov.reach_pow (C137_kernel hn logpsi pow h0.le h1 hT)
  have lift : ∀ z : Cfg L, ReflTransGen (Move T) x.1 z → ∃ h : numElec false z = nu ∧ numElec true z = nd,
      ReflTransGen (fun a b : Sector L nu nd => 0 < chain logpsi pow hop T a b) x ⟨z, h⟩ := by
    intro z hz
    induction hz with
    | refl => exact ⟨x.2, ReflTransGen.refl⟩
    | tail _ hs ih =>
      obtain ⟨h, hr⟩ := ih
      refine ⟨⟨by rw [move_numElec hs, h.1], by rw [move_numElec hs, h.2]⟩, hr.tail ?_⟩
      exact chain_move h0 h1 hT logpsi pow hs
  have hxy : ∀ s, numElec s x.1 = numElec s y.1 := by
    intro s
    cases s
    · rw [x.2.1, y.2.1]
    · rw [x.2.2, y.2.2]
  obtain ⟨_, h⟩ := lift y.1 (connected (edges hc) hxy)
  exact h

/-- **C138**: then the normalised `|ψ|^machine_pow` is the only distribution the sampler leaves invariant. -/
theorem C138_unique (hn : 0 < nu + nd) (logpsi : Arr L → ℂ) (pow : ℝ) {hop : ℝ} (h0 : 0 < hop) (h1 : hop ≤ 1)
    {T : Option (Fin L → Fin L → ℝ)} (hT : TableNonneg T) (ha : tableAccepted T) (hb : TableBalanced T)
    (hc : TableConnected T) (μ : Sector L nu nd → ℝ) (hμ : Invariant (chain logpsi pow hop T) μ) (hs : ∑ x, μ x = 1)
    (x : Sector L nu nd) : μ x = target logpsi pow x / ∑ y : Sector L nu nd, target logpsi pow y := by
  have hu := Markov.unique (C137_kernel hn logpsi pow h0.le h1 hT) (detailed logpsi pow hop ha hb)
    (target_pos logpsi pow) (C138_irreducible hn logpsi pow h0 h1 hT hc) hμ x
  have hZ : 0 < ∑ y : Sector L nu nd, target logpsi pow y :=
    Finset.sum_pos (fun y _ => target_pos logpsi pow y) ⟨x, Finset.mem_univ x⟩
  rw [eq_div_iff hZ.ne', Finset.mul_sum, Finset.sum_congr rfl fun y _ => hu y, ← Finset.sum_mul, hs, one_mul]

/-- the hypotheses are met without a table, e.g. for the default sampler of two up and one down electrons on four sites -/
example : TableNonneg (none : Option (Fin 4 → Fin 4 → ℝ)) ∧ tableAccepted (none : Option (Fin 4 → Fin 4 → ℝ)) ∧
    TableBalanced (none : Option (Fin 4 → Fin 4 → ℝ)) ∧ TableConnected (none : Option (Fin 4 → Fin 4 → ℝ)) ∧
    Nonempty (Sector 4 2 1) :=
  ⟨trivial, trivial, trivial, trivial, ⟨⟨![3, 1, 0, 0], by decide, by decide⟩⟩⟩

/-- and by the nearest-neighbour table of a ring of three sites -/
example : TableNonneg (some fun i a : Fin 3 => if i = a then (0 : ℝ) else 1) ∧
    TableConnected (some fun i a : Fin 3 => if i = a then (0 : ℝ) else 1) := by
  refine ⟨fun i a => by by_cases h : i = a <;> simp [h], fun i a => ?_⟩
  by_cases h : i = a
  · rw [h]
  · exact ReflTransGen.single (by simp [h])

theorem never_moves {hop : ℝ} (h0 : 0 ≤ hop) (h1 : hop ≤ 1) {T : Option (Fin L → Fin L → ℝ)} (hT : TableNonneg T)
    (logpsi : Arr L → ℂ) (pow : ℝ) (hn : 0 < nu + nd) {x : Sector L nu nd}
    (hstay : ∀ d : HopDraw L, d.Possible hop T (embed x.1) → (applyElectronHop (embed x.1) d).1 = embed x.1)
    {y : Sector L nu nd} (hne : x ≠ y) (n : ℕ) : (chain logpsi pow hop T ^ n) x y = 0 := by
  have hz : ∀ z : Sector L nu nd, x ≠ z → chain logpsi pow hop T x z = 0 := by
    intro z hxz
    rw [chain_ne _ _ _ _ hxz, ← proposed_eq]
    have : proposed (fun x d => (toDraw d).prob hop T x) (fun d x => applyElectronHop x (toDraw d)) (embed x.1)
        (embed z.1) = 0 := by
      unfold proposed
      apply Finset.sum_eq_zero
      intro d _
      by_cases hd : (toDraw d).prob hop T (embed x.1) = 0
      · split_ifs
        · exact hd
        · rfl
      · apply if_neg
        rw [hstay _ (prob_possible h0 h1 hT hd)]
        exact fun e => hxz (emb_inj e)
    rw [this, zero_mul]
  have hk := C137_kernel hn logpsi pow h0 h1 hT (L := L) (nu := nu) (nd := nd)
  induction n with
  | zero => rw [pow_zero, Matrix.one_apply_ne hne]
  | succ n ih =>
    rw [pow_succ', Matrix.mul_apply]
    apply Finset.sum_eq_zero
    intro z _
    by_cases hxz : x = z
    · rw [← hxz, ih, mul_zero]
    · rw [hz z hxz, zero_mul]

/-- **C138 is false for pure exchanges** (`hop_probability = 0`): a doubly occupied and an empty site are never changed,
so the sampler of two sites with one electron of each spin stays forever on the configuration it starts from. -/
theorem C138_exchange_only_fails : ∃ x y : Sector 2 1 1, ∀ (logpsi : Arr 2 → ℂ) (pow : ℝ) (n : ℕ),
    x ≠ y ∧ (chain logpsi pow 0 none ^ n) x y = 0 := by
  refine ⟨⟨![3, 0], by decide, by decide⟩, ⟨![1, 2], by decide, by decide⟩, fun logpsi pow n => ⟨by decide, ?_⟩⟩
  refine never_moves (le_refl _) zero_le_one (T := none) trivial logpsi pow (by norm_num) ?_ (by decide) n
  intro d hd
  have he := hd.1
  clear hd
  rcases d with ⟨e, i, k, a⟩
  dsimp only at he
  have he1 : e = 1 := by
    rcases fin2_01 e with h | h
    · subst h
      rcases he with h' | ⟨h', _⟩
      · simp [hopExchangeProbs] at h'
      · have := h' 1
        simp [hopExchangeProbs] at this
    · exact h
  subst he1
  clear he
  revert i k a
  decide

/-- **C138 is false for tables that do not connect the sites**, which the constructors accept: the identity table moves
nothing. -/
theorem C138_disconnected_fails : ∃ (T : Option (Fin 2 → Fin 2 → ℝ)) (x y : Sector 2 1 0), TableNonneg T ∧
    tableAccepted T ∧ TableBalanced T ∧ ∀ (logpsi : Arr 2 → ℂ) (pow : ℝ) (n : ℕ),
    x ≠ y ∧ (chain logpsi pow 1 T ^ n) x y = 0 := by
  have hnn : TableNonneg (some fun i a : Fin 2 => if i = a then (1 : ℝ) else 0) := by
    intro i a; dsimp only; split_ifs <;> norm_num
  refine ⟨some fun i a => if i = a then 1 else 0, ⟨![1, 0], by decide, by decide⟩, ⟨![0, 1], by decide, by decide⟩,
    hnn, ?_, ⟨?_, ?_⟩, fun logpsi pow n => ⟨by decide, ?_⟩⟩
  · intro i a; simp only [eq_comm, sub_self]
  · intro i; simp
  · intro i a; simp
  refine never_moves zero_le_one (le_refl _) hnn logpsi pow (by norm_num) ?_ (by decide) n
  rintro ⟨e, i, k, a⟩ ⟨_, _, _, h⟩
  dsimp only at h
  have hia : a = i := by
    rcases h with h | ⟨h, _⟩
    · simp only [targetDrawProbs] at h
      by_contra hne
      rw [if_neg (fun e => hne e.symm)] at h
      exact lt_irrefl _ h
    · have := h i
      simp [targetDrawProbs] at this
  subst hia
  apply apply_of_target_eq
  unfold finalTarget
  dsimp only
  split_ifs <;> rfl

/-! ## C139 -/

/-- **C139**: on at least three sites the default sampler (no table) with at least one electron converges: started
anywhere, the probability of every configuration tends to its share of `|ψ|^machine_pow`, for every wave function without
zeros. -/
theorem C139_converges (hn : 0 < nu + nd) (hL : 3 ≤ L) (logpsi : Arr L → ℂ) (pow : ℝ) {hop : ℝ} (h0 : 0 < hop)
    (h1 : hop ≤ 1) :
    Converges (chain logpsi pow hop none : Matrix (Sector L nu nd) (Sector L nu nd) ℝ) (target logpsi pow) := by
  intro x y
  have hT : TableNonneg (none : Option (Fin L → Fin L → ℝ)) := trivial
  have hk := C137_kernel (L := L) hn logpsi pow h0.le h1 hT
  have hi := C137_invariant hn logpsi pow h0.le h1 hT trivial trivial (L := L)
  have hir := C138_irreducible hn logpsi pow h0 h1 hT trivial (L := L)
  by_cases hfree : ∃ s, 0 < numElec s x.1 ∧ numElec s x.1 < L
  · obtain ⟨s, hs0, hs1⟩ := hfree
    -- an occupied site, a free site, and a third one
    obtain ⟨i, hi'⟩ := Finset.card_pos.mp hs0
    have hocc : hasSpin s (x.1 i) = true := by simpa using hi'
    obtain ⟨a, hfr⟩ : ∃ a, hasSpin s (x.1 a) = false := by
      by_contra hno
      push Not at hno
      have : numElec s x.1 = L := by
        unfold numElec
        rw [Finset.filter_true_of_mem fun j _ => by simpa using hno j, Finset.card_univ, Fintype.card_fin]
      omega
    have hai : a ≠ i := by intro h; rw [h, hocc] at hfr; exact absurd hfr (by decide)
    obtain ⟨b, hbi, hba⟩ : ∃ b : Fin L, b ≠ i ∧ b ≠ a := by
      have : ({i, a} : Finset (Fin L)).card < Fintype.card (Fin L) := by
        rw [Fintype.card_fin]; exact lt_of_le_of_lt (Finset.card_le_two) (by omega)
      obtain ⟨b, hb⟩ := Finset.exists_mem_notMem_of_card_lt_card (s := {i, a}) (t := Finset.univ)
        (by rwa [Finset.card_univ])
      simp only [Finset.mem_insert, Finset.mem_singleton, not_or] at hb
      exact ⟨b, hb.2.1, hb.2.2⟩
    have step : ∀ (z : Sector L nu nd) (i a : Fin L), hasSpin s (z.1 i) = true → hasSpin s (z.1 a) = false →
        ∃ z' : Sector L nu nd, z'.1 = moveCfg z.1 s i a ∧ 0 < (chain logpsi pow hop none ^ 1) z z' := by
      intro z i a hi ha
      have hm : Move none z.1 (moveCfg z.1 s i a) := ⟨s, i, a, trivial, hi, ha, rfl⟩
      refine ⟨⟨moveCfg z.1 s i a, by rw [move_numElec hm, z.2.1], by rw [move_numElec hm, z.2.2]⟩, rfl, ?_⟩
      rw [pow_one]
      exact chain_move h0 h1 hT logpsi pow hm
    -- back after two steps
    obtain ⟨z1, e1, p1⟩ := step x i a hocc hfr
    have m1 := hasSpin_move x.1 s hocc hfr
    rw [← e1] at m1
    have two : 0 < (chain logpsi pow hop none ^ 2) x x := by
      have ha1 : hasSpin s (z1.1 a) = true := by rw [m1]; simp
      have hi1 : hasSpin s (z1.1 i) = false := by rw [m1]; simp [Ne.symm hai]
      obtain ⟨z2, e2, p2⟩ := step z1 a i ha1 hi1
      have : z2 = x := by
        apply Subtype.ext
        apply cfg_ext
        intro s' j
        rw [e2, hasSpin_move _ s ha1 hi1, m1, m1]
        by_cases hs : s' = s
        · subst hs
          by_cases j1 : j = i
          · subst j1; simp [hocc]
          · by_cases j2 : j = a
            · subst j2; simp [j1, hfr]
            · simp [j1, j2]
        · simp [hs]
      rw [this] at p2
      exact Markov.pow_add_pos hk p1 p2
    -- and after three
    have three : 0 < (chain logpsi pow hop none ^ 3) x x := by
      by_cases hb : hasSpin s (x.1 b) = true
      · have hb1 : hasSpin s (z1.1 b) = true := by rw [m1]; simp [hba, hbi, hb]
        have hi1 : hasSpin s (z1.1 i) = false := by rw [m1]; simp [Ne.symm hai]
        obtain ⟨z2, e2, p2⟩ := step z1 b i hb1 hi1
        have m2 := hasSpin_move z1.1 s hb1 hi1
        rw [← e2] at m2
        have ha2 : hasSpin s (z2.1 a) = true := by rw [m2, m1]; simp [hai, Ne.symm hba]
        have hb2 : hasSpin s (z2.1 b) = false := by rw [m2]; simp [hbi]
        obtain ⟨z3, e3, p3⟩ := step z2 a b ha2 hb2
        have : z3 = x := by
          apply Subtype.ext
          apply cfg_ext
          intro s' j
          rw [e3, hasSpin_move _ s ha2 hb2, m2, m2, m1, m1]
          by_cases hs : s' = s
          · subst hs
            by_cases j0 : j = b
            · subst j0; simp [hb]
            · by_cases j1 : j = i
              · subst j1; simp [hocc, j0, Ne.symm hai]
              · by_cases j2 : j = a
                · subst j2; simp [j0, hfr]
                · simp [j0, j1, j2]
          · simp [hs]
        rw [this] at p3
        exact Markov.pow_add_pos hk (Markov.pow_add_pos hk p1 p2) p3
      · have hb' : hasSpin s (x.1 b) = false := by simpa using hb
        have ha1 : hasSpin s (z1.1 a) = true := by rw [m1]; simp
        have hb1 : hasSpin s (z1.1 b) = false := by rw [m1]; simp [hba, hbi, hb']
        obtain ⟨z2, e2, p2⟩ := step z1 a b ha1 hb1
        have m2 := hasSpin_move z1.1 s ha1 hb1
        rw [← e2] at m2
        have hb2 : hasSpin s (z2.1 b) = true := by rw [m2]; simp
        have hi2 : hasSpin s (z2.1 i) = false := by rw [m2, m1]; simp [Ne.symm hai, Ne.symm hbi]
        obtain ⟨z3, e3, p3⟩ := step z2 b i hb2 hi2
        have : z3 = x := by
          apply Subtype.ext
          apply cfg_ext
          intro s' j
          rw [e3, hasSpin_move _ s hb2 hi2, m2, m2, m1, m1]
          by_cases hs : s' = s
          · subst hs
            by_cases j1 : j = i
            · subst j1; simp [hocc]
            · by_cases j0 : j = b
              · subst j0; simp [j1, hb']
              · by_cases j2 : j = a
                · subst j2; simp [j0, j1, hfr]
                · simp [j0, j1, j2]
          · simp [hs]
        rw [this] at p3
        exact Markov.pow_add_pos hk (Markov.pow_add_pos hk p1 p2) p3
    refine Markov.converges_of_return hk hi (target_pos logpsi pow) hir x 2 (fun n hn2 => ?_) x y
    have all : ∀ m, 0 < (chain logpsi pow hop none ^ (m + 2)) x x ∧ 0 < (chain logpsi pow hop none ^ (m + 3)) x x := by
      intro m
      induction m with
      | zero => exact ⟨two, three⟩
      | succ m ih => exact ⟨ih.2, by
          rw [show m + 1 + 3 = (m + 2) + 2 by omega]
          exact Markov.pow_add_pos hk ih.1 two⟩
    have := (all (n - 2)).1
    rwa [Nat.sub_add_cancel hn2] at this
  · -- all electrons are stuck: there is only one configuration
    push Not at hfree
    have sub : ∀ z : Sector L nu nd, z = x := by
      intro z
      apply Subtype.ext
      apply cfg_ext
      intro s j
      have hzx : numElec s z.1 = numElec s x.1 := by
        cases s
        · rw [z.2.1, x.2.1]
        · rw [z.2.2, x.2.2]
      by_cases h : 0 < numElec s x.1
      · have hfull : ∀ z : Sector L nu nd, numElec s z.1 = numElec s x.1 → hasSpin s (z.1 j) = true := by
          intro z hz
          have hge := hfree s h
          rw [← hz] at hge
          have : (Finset.univ.filter fun i => hasSpin s (z.1 i) = true) = Finset.univ := by
            apply Finset.eq_univ_of_card
            apply le_antisymm
            · exact Finset.card_le_univ _
            · rw [Fintype.card_fin]; exact hge
          have hj := Finset.mem_univ j
          rw [← this] at hj
          simpa using hj
        rw [hfull z hzx, hfull x rfl]
      · have hempty : ∀ z : Sector L nu nd, numElec s z.1 = numElec s x.1 → hasSpin s (z.1 j) = false := by
          intro z hz
          have : numElec s z.1 = 0 := by omega
          unfold numElec at this
          rw [Finset.card_eq_zero, Finset.filter_eq_empty_iff] at this
          simpa using this (Finset.mem_univ j)
        rw [hempty z hzx, hempty x rfl]
    refine Markov.converges_of_loop hk hi (target_pos logpsi pow) hir x ?_ x y
    have := hk.sum x
    rw [show (Finset.univ : Finset (Sector L nu nd)) = {x} by ext z; simp [sub z], Finset.sum_singleton] at this
    rw [this]; norm_num

/-- **C139**: with any connected balanced table and any number of sites the sampler converges if the modulus of the wave
function is not the same for all configurations of the sector. -/
theorem C139_converges_table (hn : 0 < nu + nd) (logpsi : Arr L → ℂ) (pow : ℝ) {hop : ℝ} (h0 : 0 < hop) (h1 : hop ≤ 1)
    {T : Option (Fin L → Fin L → ℝ)} (hT : TableNonneg T) (ha : tableAccepted T) (hb : TableBalanced T)
    (hc : TableConnected T) (hvary : ∃ x y : Sector L nu nd, target logpsi pow x ≠ target logpsi pow y) :
    Converges (chain logpsi pow hop T : Matrix (Sector L nu nd) (Sector L nu nd) ℝ) (target logpsi pow) := by
  have hk := C137_kernel (L := L) (nu := nu) (nd := nd) hn logpsi pow h0.le h1 hT
  have hi := C137_invariant (nu := nu) (nd := nd) hn logpsi pow h0.le h1 hT ha hb
  have hir := C138_irreducible (nu := nu) (nd := nd) hn logpsi pow h0 h1 hT hc
  -- moves are symmetric
  have msymm : ∀ {x y : Cfg L}, Move T x y → Move T y x := by
    rintro x y ⟨s, i, a, he, hi, hf, rfl⟩
    have m := hasSpin_move x s hi hf
    have hai : a ≠ i := by intro h; rw [h, hi] at hf; exact absurd hf (by decide)
    have h1 : hasSpin s (moveCfg x s i a a) = true := by rw [m]; simp
    have h2 : hasSpin s (moveCfg x s i a i) = false := by rw [m]; simp [Ne.symm hai]
    refine ⟨s, a, i, ?_, h1, h2, ?_⟩
    · cases T with
      | none => trivial
      | some T =>
        have : T i a = T a i := sub_eq_zero.mp (ha i a)
        show 0 < T a i
        rw [← this]; exact he
    · apply cfg_ext
      intro s' j
      rw [hasSpin_move _ s h1 h2, m, m]
      by_cases hs : s' = s
      · subst hs
        by_cases j1 : j = i
        · subst j1; simp [hi]
        · by_cases j2 : j = a
          · subst j2; simp [j1, hf]
          · simp [j1, j2]
      · simp [hs]
  -- some move leads downhill
  obtain ⟨u, v, hm, hlt⟩ : ∃ u v : Sector L nu nd, Move T u.1 v.1 ∧ target logpsi pow v < target logpsi pow u := by
    by_contra hno
    push Not at hno
    have eqm : ∀ u v : Sector L nu nd, Move T u.1 v.1 → target logpsi pow v = target logpsi pow u :=
      fun u v hm => le_antisymm (hno v u (msymm hm)) (hno u v hm)
    obtain ⟨x, y, hxy⟩ := hvary
    have path : ∀ z : Cfg L, ReflTransGen (Move T) x.1 z → ∃ h : numElec false z = nu ∧ numElec true z = nd,
        target logpsi pow (⟨z, h⟩ : Sector L nu nd) = target logpsi pow x := by
      intro z hz
      induction hz with
      | refl => exact ⟨x.2, rfl⟩
      | tail _ hs ih =>
        obtain ⟨h, hr⟩ := ih
        refine ⟨⟨by rw [move_numElec hs, h.1], by rw [move_numElec hs, h.2]⟩, ?_⟩
        rw [← hr]
        exact eqm _ _ hs
    have hs : ∀ s, numElec s x.1 = numElec s y.1 := by
      intro s
      cases s
      · rw [x.2.1, y.2.1]
      · rw [x.2.2, y.2.2]
    obtain ⟨_, h⟩ := path y.1 (connected (edges hc) hs)
    exact hxy h.symm
  refine Markov.converges_of_loop hk hi (target_pos logpsi pow) hir u ?_
  obtain ⟨s, i, a, he, hi', ha', hv⟩ := hm
  obtain ⟨k, rfl⟩ := exists_k s
  have e : (applyElectronHop (embed u.1) (toDraw (0, i, k, a))).1 = embed v.1 := by
    rw [hv]
    exact congrArg Prod.fst (good_apply (move_good hi' ha'))
  have hd := prob_pos h0 h1 hT hi' ha' he
  exact stepProb_stay (law := fun x d => (toDraw d).prob hop T x) (proposal := fun d x => applyElectronHop x (toDraw d))
    (fun d => prob_nonneg h0.le h1 hT _ _) (0, i, k, a) hd (by
      show weight logpsi pow (applyElectronHop (embed u.1) (toDraw (0, i, k, a))).1 < _
      rw [e]; exact hlt)

/-- **C139 is false on two sites** for a wave function of constant modulus: one electron on two sites is moved to the
other site in every step, so after every even number of steps (a sweep of the default length 2, for instance) the sampler
is where it started: it always returns the same configuration. -/
theorem C139_two_sites_fails : ∀ (pow : ℝ) (n : ℕ),
    (chain (fun _ => 0) pow 1 none ^ (2 * n) : Matrix (Sector 2 1 0) (Sector 2 1 0) ℝ) = 1 := by
  intro pow n
  have hk := C137_kernel (L := 2) (nu := 1) (nd := 0) (by norm_num) (fun _ => 0) pow zero_le_one (le_refl _)
    (T := none) trivial
  have hmoves : ∀ (x : Sector 2 1 0) (d : HopDraw 2), d.Possible 1 none (embed x.1) →
      (applyElectronHop (embed x.1) d).1 ≠ embed x.1 := by
    rintro ⟨x, hx⟩ ⟨e, i, k, a⟩ ⟨he, hi, hsp, ha⟩
    dsimp only at he hi hsp ha ⊢
    have he0 : e = 0 := by
      rcases fin2_01 e with h | h
      · exact h
      · subst h
        rcases he with h' | ⟨h', _⟩
        · simp [hopExchangeProbs] at h'
        · have := h' 0
          simp [hopExchangeProbs] at this
    subst he0
    have hx' : x = ![1, 0] ∨ x = ![0, 1] := by
      clear he hi hsp ha; revert x; decide
    have hocc : ∃ j, occAt (embed x) j ≠ 0 := by
      rcases hx' with rfl | rfl
      · exact ⟨0, by decide⟩
      · exact ⟨1, by decide⟩
    have hi' : occAt (embed x) i ≠ 0 := by
      rcases hi with h | ⟨h, _⟩
      · simp only [occProb, if_true] at h
        intro h0; rw [h0] at h; simp at h
      · obtain ⟨j, hj⟩ := hocc
        have := h j
        simp only [occProb, if_true] at this
        exact absurd (by exact_mod_cast this) hj
    have hk' : embed x i &&& (if k = 0 then 1 else 2) ≠ 0 := by
      rcases hsp with h | ⟨h, _⟩
      · unfold spinProbs at h
        intro h0; rw [if_pos h0] at h; exact lt_irrefl _ h
      · exfalso
        have a0 := h 0
        have a1 := h 1
        unfold spinProbs at a0 a1
        revert a0 a1 hi'
        rcases hx' with rfl | rfl <;> fin_cases i <;> simp [embed, occAt]
    have ha' : targetSiteProbs (embed x) 0 (spinOf k) a = true := by
      rcases ha with h | ⟨h, _⟩
      · simp only [targetDrawProbs] at h
        by_contra hc
        rw [if_neg hc] at h
        exact lt_irrefl _ h
      · exfalso
        have b0 := h 0
        have b1 := h 1
        simp only [targetDrawProbs] at b0 b1
        have c0 : ¬ targetSiteProbs (embed x) 0 (spinOf k) 0 = true := by
          intro hc; rw [if_pos hc] at b0; norm_num at b0
        have c1 : ¬ targetSiteProbs (embed x) 0 (spinOf k) 1 = true := by
          intro hc; rw [if_pos hc] at b1; norm_num at b1
        clear h b0 b1 hx hsp hi he hocc hi' hk'
        rcases hx' with rfl | rfl <;> revert c0 c1 <;> revert k <;> decide
    clear hx hsp hi he ha hocc
    rcases hx' with rfl | rfl <;> revert i k a <;> decide
  have hdiag : ∀ x : Sector 2 1 0, chain (fun _ => 0) pow 1 none x x = 0 := by
    intro x
    classical
    rw [chain_apply]
    unfold stepProb
    apply Finset.sum_eq_zero
    intro d _
    by_cases hd : (toDraw d).prob 1 none (embed x.1) = 0
    · exact mul_eq_zero_of_left hd _
    · rw [volume_step, if_neg (hmoves x _ (prob_possible zero_le_one (le_refl _) (T := none) trivial hd))]
      simp [metropolisAccept, weight]
  have hother : ∀ x y : Sector 2 1 0, x ≠ y → chain (fun _ => 0) pow 1 none x y = 1 := by
    intro x y hxy
    have hs := hk.sum x
    have hu : (Finset.univ : Finset (Sector 2 1 0)) = {x, y} := by
      clear hs hk hmoves hdiag; revert x y; decide
    rw [hu, Finset.sum_pair hxy, hdiag, zero_add] at hs
    exact hs
  have hsq : (chain (fun _ => 0) pow 1 none * chain (fun _ => 0) pow 1 none : Matrix (Sector 2 1 0) (Sector 2 1 0) ℝ) = 1 := by
    ext x y
    rw [Matrix.mul_apply]
    by_cases hxy : x = y
    · subst hxy
      rw [Matrix.one_apply_eq]
      obtain ⟨z, hz⟩ : ∃ z : Sector 2 1 0, x ≠ z := by
        clear hk hmoves hdiag hother; revert x; decide
      have hu : (Finset.univ : Finset (Sector 2 1 0)) = {x, z} := by
        clear hk hmoves hdiag hother; revert x z; decide
      rw [hu, Finset.sum_pair hz, hdiag, hother x z hz, hother z x (Ne.symm hz)]
      norm_num
    · rw [Matrix.one_apply_ne hxy]
      have hu : (Finset.univ : Finset (Sector 2 1 0)) = {x, y} := by
        clear hk hmoves hdiag hother; revert x y; decide
      rw [hu, Finset.sum_pair hxy, hdiag, hdiag]
      simp
  rw [pow_mul, pow_two, hsq, one_pow]

end GPSKet.HoppingChain
