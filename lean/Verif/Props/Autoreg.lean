import Verif.Lemmas.AutoregGood
import Verif.Lemmas.PrefixCount
import Verif.Spec.Occupation

/-!
# Properties of the autoregressive models (C28–C33)
-/

namespace GPSKet.Props
open Spec AR

variable {L D M : ℕ} {ι : Type} [Fintype ι]

/-- The autoregressive models of the package, with any parameters, sizes and static fields.  For the plaquette model the
masks hide the plaquette entries at or after the site. -/
inductive ProvidedAR [NeZero L] : Machine L D M → Prop
  | qgps (f : Fields D M) (epsilon : Fin D → Fin M → Fin L → ℂ) : ProvidedAR (arqGPS f epsilon)
  | full (f : Fields D M) (epsilon : Fin D → Fin M → ℕ → ℂ) : ProvidedAR (ARFull.arqGPSFull f epsilon)
  | plaquette (f : Fields D M) (epsilon : Fin D → Fin M → Fin L → ℂ) (pl : ARPlaquette.Plaquettes L)
      (hidden : ∀ i k, i ≤ pl.plaquettes i k → pl.masks i k = false) : ProvidedAR (ARPlaquette.arPlaquette f epsilon pl)

/-- The masks of `get_plaquettes_and_masks` hide the entries at or after the site, so the previous case is inhabited for
every table of plaquettes. -/
theorem masks_hide (plaquettes : Fin L → Fin L → Fin L) (i k : Fin L)
    (h : i ≤ (ARPlaquette.withMasks plaquettes).plaquettes i k) : (ARPlaquette.withMasks plaquettes).masks i k = false := by
  unfold ARPlaquette.withMasks at *
  exact if_pos h

theorem ProvidedAR.good [NeZero L] {m : Machine L D M} (h : ProvidedAR m) : ∃ val, Good m val := by
  cases h with
  | qgps f epsilon => exact ⟨_, arqGPS_good f epsilon⟩
  | full f epsilon => exact ⟨_, ARFull.arqGPSFull_good f epsilon⟩
  | plaquette f epsilon pl hidden =>
    refine ⟨_, ARPlaquette.arPlaquette_good f epsilon pl fun i k hk => ?_⟩
    by_contra hc
    rw [hidden i k (not_lt.mp hc)] at hk
    exact absurd hk (by simp)

/-! ## C29, C30 -/

theorem Good.conditionals_causal {m : Machine L D M} {val} (g : Good m val) : Causal fun i x => m.conditionals x i := by
  intro i x y h
  funext d
  unfold Machine.conditionals
  dsimp only
  rw [g.log, g.log, g.causal i x y h]
  have := spinsAt_causal m.fields i x y h
  dsimp only at this
  rw [this]

/-- C29.  The conditional of site `i` does not change when the occupations at sites `i, i+1, ...` change. -/
theorem C29_causal [NeZero L] (m : Machine L D M) (hm : ProvidedAR m) : Causal fun i x => m.conditionals x i := by
  obtain ⟨val, g⟩ := hm.good
  exact Good.conditionals_causal g

/-- The conditionals do depend on earlier sites: a model with two sites, and two configurations that differ at site 0. -/
example : ∃ (f : Fields 2 1) (e : Fin 2 → Fin 1 → Fin 2 → ℂ), f.normalize = true ∧
    (arqGPS f e).conditionals (fun _ => 0) 1 0 ≠ (arqGPS f e).conditionals (fun _ => 1) 1 0 := by
  let f : Fields 2 1 := ⟨2, true, true, defaultCountSpins, defaultRenormalize 2, sumOut⟩
  refine ⟨f, fun _ _ _ => 1, rfl, ?_⟩
  have h0 : (arqGPS (L := 2) f fun _ _ _ => 1).conditionals (fun _ => 0) 1 0 = 0 := by
    simp only [Machine.conditionals]
    rw [(arqGPS_good f _).log]
    have : spinsAt f (fun _ : Fin 2 => (0 : Fin 2)) 1 0 = 1 := by decide
    simp [maybeNormalize, normalizeLog, mask, arqGPS, f, defaultRenormalize] at this ⊢
    simp [this, weight]
  have h1 : 0 < (arqGPS (L := 2) f fun _ _ _ => 1).conditionals (fun _ => 1) 1 0 := by
    simp only [Machine.conditionals]
    rw [(arqGPS_good f _).log]
    have : spinsAt f (fun _ : Fin 2 => (1 : Fin 2)) 1 0 = 0 := by decide
    rw [weight_pos_iff]
    simp [maybeNormalize, normalizeLog, mask, arqGPS, f, defaultRenormalize] at this ⊢
    simp [this]
  rw [h0]
  exact ne_of_lt h1

/-- C30.  Calling `_conditional` for sites `0, 1, ..., L-1` with the mutable cache gives the probabilities that
`conditionals` computes in one pass: whatever the buffer `bufs i` passed at site `i` holds at and after site `i`, as long as
it agrees with `x` before. -/
theorem C30_cached_eq_batched [NeZero L] (m : Machine L D M) (hm : ProvidedAR m) (x : Fin L → Fin D)
    (bufs : ℕ → Fin L → Fin D) (hb : ∀ (i j : Fin L), j < i → bufs i j = x j) (i : Fin L) :
    scanOut (fun c i => m.conditionalP c (bufs i) i) m.initCache i = m.conditionals x i := by
  obtain ⟨val, g⟩ := hm.good
  have hs : ∀ k, scanState (fun c (i : Fin L) => m.conditionalP c (bufs i) i) m.initCache k =
      scanState (fun c (i : Fin L) => m.conditional c (bufs i) i) m.initCache k := by
    intro k
    induction k with
    | zero => rfl
    | succ k ih =>
      simp only [scanState]
      split_ifs with h
      · rw [ih]; rfl
      · exact ih
  have h1 := g.cached x bufs hb i
  funext d
  unfold scanOut at h1 ⊢
  rw [hs]
  unfold Machine.conditionalP Machine.conditionals
  dsimp only
  rw [h1, g.log]

/-- The hypothesis of C30 is met by the buffer the sampler uses, which is overwritten site by site. -/
example (x b : Fin L → Fin D) : ∀ (i j : Fin L), j < i → (fun (k : ℕ) (j : Fin L) => if j.val < k then x j else b j) i j = x j := by
  intro i j h
  exact if_pos h

/-! ## Support -/

/-- A model is admissible for the statements on probabilities if `machine_pow` is not zero (it is 2 by default). -/
def PowOk (m : Machine L D M) : Prop := m.fields.machine_pow ≠ 0

theorem Good.conditionals_pos {m : Machine L D M} {val} (g : Good m val) (hp : PowOk m) (x : Fin L → Fin D) (i : Fin L)
    (d : Fin D) : 0 < m.conditionals x i d ↔ m.fields.renormalize (spinsAt m.fields x i) i d = true := by
  have hmask : ∀ d, 0 < weight m.fields.machine_pow (mask m.fields (spinsAt m.fields x i) i (val i x) d) ↔
      m.fields.renormalize (spinsAt m.fields x i) i d = true := by
    intro d
    rw [weight_pos_iff]
    unfold mask
    split_ifs with h
    · simp [h]
    · simp [h]
  unfold Machine.conditionals maybeNormalize
  rw [g.log]
  split_ifs with hn
  · rw [weight_normalize hp, ← hmask d]
    constructor
    · intro h
      by_contra hc
      have h0 := le_antisymm (not_lt.mp hc) (weight_nonneg _ _)
      rw [h0, zero_div] at h
      exact lt_irrefl _ h
    · intro h
      exact div_pos h (Finset.sum_pos' (fun e _ => weight_nonneg _ _) ⟨d, Finset.mem_univ d, h⟩)
  · exact hmask d

theorem conditionals_nonneg (m : Machine L D M) (x : Fin L → Fin D) (i : Fin L) (d : Fin D) : 0 ≤ m.conditionals x i d :=
  weight_nonneg _ _

theorem Good.one_pos {m : Machine L D M} {val} (g : Good m val) (hp : PowOk m) (x : Fin L → Fin D) :
    0 < weight m.fields.machine_pow (m.logPsiOne x) ↔
      ∀ i, m.fields.renormalize (spinsAt m.fields x i) i (x i) = true := by
  rw [weight_logPsiOne]
  unfold chainLaw
  constructor
  · intro h i
    rw [← Good.conditionals_pos g hp]
    rcases (conditionals_nonneg m x i (x i)).lt_or_eq with hh | hh
    · exact hh
    · rw [Finset.prod_eq_zero (Finset.mem_univ i) hh.symm] at h
      exact absurd h (lt_irrefl _)
  · intro h
    exact Finset.prod_pos fun i _ => (Good.conditionals_pos g hp x i (x i)).mpr (h i)

theorem Good.sym_pos {m : Machine L D M} (hp : PowOk m) (syms : ι → (Fin L → Fin D) → Fin L → Fin D) (x : Fin L → Fin D) :
    0 < bornWeight m.fields.machine_pow (m.logPsi syms x) ↔
      ∃ t, 0 < weight m.fields.machine_pow (m.logPsiOne (syms t x)) := by
  rw [bornWeight_eq]
  unfold Machine.logPsi
  rw [weight_symmetrise hp]
  constructor
  · intro h
    by_contra hc
    push Not at hc
    have : ∑ t, weight m.fields.machine_pow (m.logPsiOne (syms t x)) = 0 :=
      Finset.sum_eq_zero fun t _ => le_antisymm (hc t) (weight_nonneg _ _)
    rw [this, mul_zero] at h
    exact lt_irrefl _ h
  · rintro ⟨t, ht⟩
    have : Nonempty ι := ⟨t⟩
    refine mul_pos (one_div_pos.mpr (by exact_mod_cast Fintype.card_pos)) ?_
    exact Finset.sum_pos' (fun e _ => weight_nonneg _ _) ⟨t, Finset.mem_univ t, ht⟩

/-! ## C28 -/

/-- Every prefix of positive probability can be continued. -/
def Continuable (m : Machine L D M) : Prop :=
  ∀ x i, (∀ j, j < i → 0 < m.conditionals x j (x j)) → ∃ d, 0 < m.conditionals x i d

/-- C28, for models in which no prefix of positive probability is a dead end (shown below for each provided constraint):
the probabilities `|ψ(x)|^machine_pow` of all configurations sum to one, with any bijective symmetry operations. -/
theorem C28_normalised_of_continuable [NeZero L] [NeZero D] [Nonempty ι] (m : Machine L D M) (hm : ProvidedAR m)
    (hn : m.fields.normalize = true) (hp : m.fields.machine_pow ≠ 0) (hc : Continuable m)
    (syms : ι → (Fin L → Fin D) → Fin L → Fin D) (hs : ∀ t, Function.Bijective (syms t)) :
    ∑ x, bornWeight m.fields.machine_pow (m.logPsi syms x) = 1 := by
  obtain ⟨val, g⟩ := hm.good
  have h1 : ∑ x, weight m.fields.machine_pow (m.logPsiOne x) = 1 := by
    rw [Finset.sum_congr rfl fun x _ => weight_logPsiOne m x]
    apply sum_chainLaw
    · exact Good.conditionals_causal g
    · intro i x h
      obtain ⟨d, hd⟩ := hc x i fun j hj => lt_of_le_of_ne (conditionals_nonneg m x j (x j)) (Ne.symm (h j hj))
      unfold Machine.conditionals maybeNormalize at hd ⊢
      rw [if_pos hn] at hd ⊢
      simp only [weight_normalize hp] at hd ⊢
      rw [← Finset.sum_div]
      apply div_self
      intro h0
      rw [h0, div_zero] at hd
      exact lt_irrefl _ hd
  have h2 : ∀ t, ∑ x, weight m.fields.machine_pow (m.logPsiOne (syms t x)) = 1 := by
    intro t
    rw [← h1]
    exact Equiv.sum_comp (Equiv.ofBijective (syms t) (hs t)) fun x => weight m.fields.machine_pow (m.logPsiOne x)
  calc ∑ x, bornWeight m.fields.machine_pow (m.logPsi syms x)
      = ∑ x, (1 / (Fintype.card ι : ℝ)) * ∑ t, weight m.fields.machine_pow (m.logPsiOne (syms t x)) := by
        apply Finset.sum_congr rfl
        intro x _
        rw [bornWeight_eq]
        unfold Machine.logPsi
        rw [weight_symmetrise hp]
    _ = 1 := by
        rw [← Finset.mul_sum, Finset.sum_comm, Finset.sum_congr rfl fun t _ => h2 t]
        simp

/-! ## Spin-1/2 -/

/-- The constraint functions of a spin-1/2 space of `L` sites: the defaults, with `constrained` telling whether the
space fixes `total_sz = 0`. -/
structure SpinHalf (L : ℕ) (constrained : Bool) (f : Fields 2 M) : Prop where
  con : f.constrained = constrained
  cnt : f.count_spins = defaultCountSpins
  ren : f.renormalize = defaultRenormalize L

theorem defaultCountSpins_eq (s d : Fin 2) : defaultCountSpins s d = if s = d then 1 else 0 := by
  have key : ∀ s d : Fin 2, defaultCountSpins s d = if s = d then 1 else 0 := by decide
  exact key s d

theorem spin_allowed {f : Fields 2 M} (hf : SpinHalf L true f) (x : Fin L → Fin 2) (i : Fin L) (d : Fin 2) :
    f.renormalize (spinsAt f x i) i d = true ↔ pc (fun j => decide (x j = d)) i < ((L / 2 : ℕ) : ℤ) := by
  rw [hf.ren]
  unfold defaultRenormalize
  rw [decide_eq_true_iff]
  have : spinsAt f x i d = pc (fun j => decide (x j = d)) i := by
    unfold spinsAt pc
    rw [if_pos hf.con, hf.cnt]
    apply Finset.sum_congr rfl
    intro j _
    rw [defaultCountSpins_eq]
    by_cases h1 : j < i
    · by_cases h2 : x j = d
      · rw [if_pos h1, if_pos h2, if_pos ⟨h1, by simpa using h2⟩]
      · rw [if_pos h1, if_neg h2, if_neg (fun h => h2 (by simpa using h.2))]
    · rw [if_neg h1, if_neg (fun h => h1 h.1)]
  rw [this]
  omega

theorem free_allowed {f : Fields 2 M} (hf : SpinHalf L false f) (x : Fin L → Fin 2) (i : Fin L) (d : Fin 2) :
    f.renormalize (spinsAt f x i) i d = true ↔
      (if i.val > 0 then (if x (prevSite i) = d then 1 else 0) else 0) < L / 2 := by
  rw [hf.ren]
  unfold defaultRenormalize
  rw [decide_eq_true_iff]
  unfold spinsAt
  rw [if_neg (by rw [hf.con]; simp), hf.cnt, defaultCountSpins_eq]
  split_ifs <;> omega

theorem pc_two (x : Fin L → Fin 2) (k : ℕ) (hk : k ≤ L) :
    pc (fun j => decide (x j = 0)) k + pc (fun j => decide (x j = 1)) k = k := by
  have := pc_compl (fun j => decide (x j = 0)) k hk
  rw [← this]
  congr 1
  apply pc_congr
  intro j _
  have key : ∀ v : Fin 2, decide (v = 1) = !decide (v = 0) := by decide
  exact key (x j)

theorem spin_continuable [NeZero L] {m : Machine L 2 M} (hm : ProvidedAR m) (hp : PowOk m) (hf : SpinHalf L true m.fields)
    (hL : Even L) : Continuable m := by
  obtain ⟨val, g⟩ := hm.good
  intro x i _
  have h2 := pc_two x i i.isLt.le
  have hi := i.isLt
  obtain ⟨h, rfl⟩ := hL
  by_cases h0 : pc (fun j => decide (x j = 0)) i < (((h + h) / 2 : ℕ) : ℤ)
  · exact ⟨0, (Good.conditionals_pos g hp x i 0).mpr ((spin_allowed hf x i 0).mpr h0)⟩
  · exact ⟨1, (Good.conditionals_pos g hp x i 1).mpr ((spin_allowed hf x i 1).mpr (by omega))⟩

/-- As many spins in local state 0 as in local state 1, i.e. `total_sz = 0`. -/
def Balanced (x : Fin L → Fin 2) : Prop :=
  (Finset.univ.filter fun i => x i = 0).card = (Finset.univ.filter fun i => x i = 1).card

theorem one_balanced {m : Machine L 2 M} {val} (g : Good m val) (hp : PowOk m) (hf : SpinHalf L true m.fields) (hL : Even L)
    (x : Fin L → Fin 2) : 0 < weight m.fields.machine_pow (m.logPsiOne x) ↔ Balanced x := by
  rw [Good.one_pos g hp]
  simp only [spin_allowed hf]
  have hf0 := pc_full (fun j => decide (x j = 0))
  have hf1 := pc_full (fun j => decide (x j = 1))
  have h2 := pc_two x L (le_refl L)
  simp only [decide_eq_true_eq] at hf0 hf1
  have cap := fun d => pc_cap (fun j => decide (x j = d)) ((L / 2 : ℕ) : ℤ) (by positivity) L (le_refl L)
  have hall : (∀ i : Fin L, pc (fun j => decide (x j = x i)) i < ((L / 2 : ℕ) : ℤ)) ↔
      ∀ d, pc (fun j => decide (x j = d)) L ≤ ((L / 2 : ℕ) : ℤ) := by
    constructor
    · intro h d
      rw [← cap d]
      intro i _ hi
      have := h i
      rw [decide_eq_true_eq] at hi
      rw [hi] at this
      exact this
    · intro h i
      exact (cap (x i)).mpr (h (x i)) i i.isLt (by simp)
  rw [hall, Fin.forall_fin_two]
  unfold Balanced
  obtain ⟨h, rfl⟩ := hL
  constructor
  · rintro ⟨h0, h1⟩
    omega
  · intro hb
    constructor <;> omega

/-- C31.  On a spin-1/2 space with `total_sz = 0` (so an even number of sites), the autoregressive models give non-zero
probability exactly to the configurations with equally many spins in either state, and every prefix of positive
probability has an allowed continuation. -/
theorem C31_zero_magnetisation [NeZero L] [Nonempty ι] (m : Machine L 2 M) (hm : ProvidedAR m)
    (hp : m.fields.machine_pow ≠ 0) (hf : SpinHalf L true m.fields) (hL : Even L)
    (syms : ι → (Fin L → Fin 2) → Fin L → Fin 2) (hs : ∀ t x, Balanced (syms t x) ↔ Balanced x) :
    (∀ x, 0 < bornWeight m.fields.machine_pow (m.logPsi syms x) ↔ Balanced x) ∧ Continuable m := by
  refine ⟨fun x => ?_, spin_continuable hm hp hf hL⟩
  obtain ⟨val, g⟩ := hm.good
  rw [Good.sym_pos hp]
  simp only [one_balanced g hp hf hL, hs]
  exact ⟨fun ⟨_, h⟩ => h, fun h => ⟨Classical.arbitrary ι, h⟩⟩

/-- Site permutations and a global exchange of the two states keep the number of spins balanced. -/
theorem balanced_perm (σ : Equiv.Perm (Fin L)) (x : Fin L → Fin 2) : Balanced (fun i => x (σ i)) ↔ Balanced x := by
  unfold Balanced
  have : ∀ d, (Finset.univ.filter fun i => x (σ i) = d).card = (Finset.univ.filter fun i => x i = d).card := by
    intro d
    apply Finset.card_equiv σ
    intro i
    simp
  rw [this, this]

theorem balanced_flip (x : Fin L → Fin 2) : Balanced (fun i => 1 - x i) ↔ Balanced x := by
  unfold Balanced
  have k0 : ∀ v : Fin 2, 1 - v = 0 ↔ v = 1 := by decide
  have k1 : ∀ v : Fin 2, 1 - v = 1 ↔ v = 0 := by decide
  simp only [k0, k1]
  exact eq_comm

/-- A non-trivial instance of C31: four sites, the full ARqGPS with arbitrary parameters, translations as symmetries; the
alternating configuration has positive probability, the constant one has none. -/
example (epsilon : Fin 2 → Fin 3 → ℕ → ℂ) :
    let f : Fields 2 3 := ⟨2, true, true, defaultCountSpins, defaultRenormalize 4, sumOut⟩
    let m : Machine 4 2 3 := ARFull.arqGPSFull f epsilon
    let syms : Fin 4 → (Fin 4 → Fin 2) → Fin 4 → Fin 2 := fun t x i => x (i + t)
    0 < bornWeight 2 (m.logPsi syms ![0, 1, 0, 1]) ∧ ¬ 0 < bornWeight 2 (m.logPsi syms ![0, 0, 0, 0]) := by
  intro f m syms
  have h := (C31_zero_magnetisation (ι := Fin 4) m (.full f epsilon) (by change (2 : ℝ) ≠ 0; norm_num) ⟨rfl, rfl, rfl⟩
    (by decide) syms (fun t x => balanced_perm (Equiv.addRight t) x)).1
  have b1 : Balanced (![0, 1, 0, 1] : Fin 4 → Fin 2) := by unfold Balanced; decide
  have b2 : ¬ Balanced (![0, 0, 0, 0] : Fin 4 → Fin 2) := by unfold Balanced; decide
  exact ⟨(h _).mpr b1, fun hh => b2 ((h _).mp hh)⟩

/-- C28 for a spin-1/2 space with `total_sz = 0`. -/
theorem C28_normalised_spin [NeZero L] [Nonempty ι] (m : Machine L 2 M) (hm : ProvidedAR m)
    (hn : m.fields.normalize = true) (hp : m.fields.machine_pow ≠ 0) (hf : SpinHalf L true m.fields) (hL : Even L)
    (syms : ι → (Fin L → Fin 2) → Fin L → Fin 2) (hs : ∀ t, Function.Bijective (syms t)) :
    ∑ x, bornWeight m.fields.machine_pow (m.logPsi syms x) = 1 :=
  C28_normalised_of_continuable m hm hn hp (spin_continuable hm hp hf hL) syms hs

/-! ## Unconstrained spin-1/2 -/

/-- C28 for an unconstrained spin-1/2 space of at least two sites (`C32_small_fails` covers one site). -/
theorem C28_normalised_free [NeZero L] [Nonempty ι] (m : Machine L 2 M) (hm : ProvidedAR m)
    (hn : m.fields.normalize = true) (hp : m.fields.machine_pow ≠ 0) (hf : SpinHalf L false m.fields) (hL : 2 ≤ L)
    (syms : ι → (Fin L → Fin 2) → Fin L → Fin 2) (hs : ∀ t, Function.Bijective (syms t)) :
    ∑ x, bornWeight m.fields.machine_pow (m.logPsi syms x) = 1 := by
  refine C28_normalised_of_continuable m hm hn hp ?_ syms hs
  obtain ⟨val, g⟩ := hm.good
  intro x i _
  refine ⟨1 - x (prevSite i), (Good.conditionals_pos g hp x i _).mpr ((free_allowed hf x i _).mpr ?_)⟩
  have key : ∀ v : Fin 2, v ≠ 1 - v := by decide
  rw [if_neg (key _)]
  split_ifs <;> omega

/-- The part of C32 that holds: on an unconstrained spin-1/2 space of at least four sites every configuration has positive
probability.  Missing: sizes 1, 2 and 3, where the claim is false, see `C32_small_fails`. -/
theorem C32_full_support_partial [NeZero L] [Nonempty ι] (m : Machine L 2 M) (hm : ProvidedAR m)
    (hp : m.fields.machine_pow ≠ 0) (hf : SpinHalf L false m.fields) (hL : 4 ≤ L)
    (syms : ι → (Fin L → Fin 2) → Fin L → Fin 2) (x : Fin L → Fin 2) :
    0 < bornWeight m.fields.machine_pow (m.logPsi syms x) := by
  obtain ⟨val, g⟩ := hm.good
  rw [Good.sym_pos hp]
  refine ⟨Classical.arbitrary ι, ?_⟩
  rw [Good.one_pos g hp]
  intro i
  rw [free_allowed hf]
  split_ifs <;> omega

example : ∃ f : Fields 2 3, SpinHalf 5 false f ∧ f.machine_pow ≠ 0 :=
  ⟨⟨2, true, false, defaultCountSpins, defaultRenormalize 5, sumOut⟩, ⟨rfl, rfl, rfl⟩, by norm_num⟩

/-- C32 is false on small lattices: the default constraint function is applied to unconstrained spaces as well, with the
counts of the preceding site only.  For `L // 2 ≤ 1` it forbids repeating the previous state; for a single site it forbids
everything.  So constant configurations have probability zero for 2 and 3 sites, and every configuration for one site, with
whatever parameters. -/
theorem C32_small_fails [NeZero L] (m : Machine L 2 M) (hm : ProvidedAR m)
    (hp : m.fields.machine_pow ≠ 0) (hf : SpinHalf L false m.fields) (hL : L ≤ 3) (x : Fin L → Fin 2)
    (hx : 2 ≤ L → ∃ v, ∀ i, x i = v) :
    bornWeight m.fields.machine_pow (m.logPsi (fun (_ : Unit) y => y) x) = 0 := by
  have hnn : 0 ≤ bornWeight m.fields.machine_pow (m.logPsi (fun (_ : Unit) y => y) x) := by
    rw [bornWeight_eq]; exact weight_nonneg _ _
  by_contra hne
  have hpos := lt_of_le_of_ne hnn (Ne.symm hne)
  obtain ⟨val, g⟩ := hm.good
  rw [Good.sym_pos hp] at hpos
  obtain ⟨_, h⟩ := hpos
  rw [Good.one_pos g hp] at h
  have hL0 : 0 < L := NeZero.pos L
  by_cases h1 : L = 1
  · have := (free_allowed hf x ⟨0, hL0⟩ _).mp (h ⟨0, hL0⟩)
    dsimp only at this
    rw [if_neg (by omega)] at this
    omega
  · obtain ⟨v, hv⟩ := hx (by omega)
    have := (free_allowed hf x ⟨1, by omega⟩ _).mp (h ⟨1, by omega⟩)
    dsimp only at this
    rw [if_pos (by omega), hv, hv, if_pos rfl] at this
    omega

example : ∃ (f : Fields 2 3) (x : Fin 3 → Fin 2), SpinHalf 3 false f ∧ f.machine_pow ≠ 0 ∧ (2 ≤ 3 → ∃ v, ∀ i, x i = v) :=
  ⟨⟨2, true, false, defaultCountSpins, defaultRenormalize 3, sumOut⟩, fun _ => 0, ⟨rfl, rfl, rfl⟩, by norm_num,
    fun _ => ⟨0, fun _ => rfl⟩⟩

/-! ## Fermions -/

/-- The constraint functions for a fixed number of electrons of each spin. -/
structure Fermionic (L : ℕ) (n_elec : ℕ × ℕ) (f : Fields 4 M) : Prop where
  con : f.constrained = true
  cnt : f.count_spins = countSpinsFermionic
  ren : f.renormalize = renormalizeFermionic (n_elec.1, n_elec.2) L

theorem mask_aux (p q s t : Prop) [Decidable p] [Decidable q] [Decidable s] [Decidable t] (d : Fin 4) :
    (let log_psi : Fin 4 → Bool := fun _ => true
      let log_psi := if p then Function.update log_psi 1 false else log_psi
      let log_psi := if q then Function.update log_psi 2 false else log_psi
      let log_psi := if p ∨ q then Function.update log_psi 3 false else log_psi
      let log_psi := if s then Function.update (Function.update log_psi 0 false) 2 false else log_psi
      let log_psi := if t then Function.update (Function.update log_psi 0 false) 1 false else log_psi
      log_psi) d = true ↔
      ((hasSpin false d = true → ¬ p) ∧ (hasSpin false d = false → ¬ s)) ∧
      ((hasSpin true d = true → ¬ q) ∧ (hasSpin true d = false → ¬ t)) := by
  by_cases h0 : p <;> by_cases h1 : q <;> by_cases h2 : s <;> by_cases h3 : t <;>
    simp only [h0, h1, h2, h3, if_true, if_false, or_true, or_false] <;> clear h0 h1 h2 h3 <;>
    revert d <;> decide

theorem renormalizeFermionic_iff (n : ℤ × ℤ) (size : ℕ) (c : Fin 4 → ℤ) (index : ℕ) (d : Fin 4) :
    renormalizeFermionic n size c index d = true ↔
      ((hasSpin false d = true → n.1 - c 1 ≠ 0) ∧ (hasSpin false d = false → n.1 - c 1 < (size : ℤ) - index)) ∧
      ((hasSpin true d = true → n.2 - c 2 ≠ 0) ∧ (hasSpin true d = false → n.2 - c 2 < (size : ℤ) - index)) := by
  unfold renormalizeFermionic
  simp only [← not_le]
  exact mask_aux (n.1 - c 1 = 0) (n.2 - c 2 = 0) (n.1 - c 1 ≥ (size : ℤ) - index) (n.2 - c 2 ≥ (size : ℤ) - index) d

theorem fermi_allowed {n : ℕ × ℕ} {f : Fields 4 M} (hf : Fermionic L n f) (x : Cfg L) (i : Fin L) (d : Fin 4) :
    f.renormalize (spinsAt f x i) i d = true ↔
      ((hasSpin false d = true → (n.1 : ℤ) - pc (fun j => hasSpin false (x j)) i ≠ 0) ∧
        (hasSpin false d = false → (n.1 : ℤ) - pc (fun j => hasSpin false (x j)) i < (L : ℤ) - i.val)) ∧
      ((hasSpin true d = true → (n.2 : ℤ) - pc (fun j => hasSpin true (x j)) i ≠ 0) ∧
        (hasSpin true d = false → (n.2 : ℤ) - pc (fun j => hasSpin true (x j)) i < (L : ℤ) - i.val)) := by
  have k1 : ∀ v : Fin 4, countSpinsFermionic v 1 = if hasSpin false v = true then 1 else 0 := by decide
  have k2 : ∀ v : Fin 4, countSpinsFermionic v 2 = if hasSpin true v = true then 1 else 0 := by decide
  have c1 : spinsAt f x i 1 = pc (fun j => hasSpin false (x j)) i := by
    unfold spinsAt pc
    rw [if_pos hf.con, hf.cnt]
    apply Finset.sum_congr rfl
    intro j _
    rw [k1, ite_and]
    rfl
  have c2 : spinsAt f x i 2 = pc (fun j => hasSpin true (x j)) i := by
    unfold spinsAt pc
    rw [if_pos hf.con, hf.cnt]
    apply Finset.sum_congr rfl
    intro j _
    rw [k2, ite_and]
    rfl
  rw [hf.ren, renormalizeFermionic_iff, c1, c2]

theorem fermi_continuable [NeZero L] {n : ℕ × ℕ} {m : Machine L 4 M} (hm : ProvidedAR m) (hp : PowOk m)
    (hf : Fermionic L n m.fields) (h1 : n.1 ≤ L) (h2 : n.2 ≤ L) : Continuable m := by
  obtain ⟨val, g⟩ := hm.good
  intro x i h
  have hall : ∀ j, j < i → _ := fun j hj =>
    (fermi_allowed hf x j (x j)).mp ((Good.conditionals_pos g hp x j (x j)).mp (h j hj))
  have i1 := pc_inv (fun j => hasSpin false (x j)) n.1 (by omega) (by omega) i i.isLt.le fun j hj => (hall j hj).1
  have i2 := pc_inv (fun j => hasSpin true (x j)) n.2 (by omega) (by omega) i i.isLt.le fun j hj => (hall j hj).2
  have hi := i.isLt
  have hex : ∀ a b : Bool, ∃ d : Fin 4, hasSpin false d = a ∧ hasSpin true d = b := by decide
  obtain ⟨d, hd1, hd2⟩ := hex (decide ((L : ℤ) - i.val ≤ (n.1 : ℤ) - pc (fun j => hasSpin false (x j)) i))
    (decide ((L : ℤ) - i.val ≤ (n.2 : ℤ) - pc (fun j => hasSpin true (x j)) i))
  refine ⟨d, (Good.conditionals_pos g hp x i d).mpr ((fermi_allowed hf x i d).mpr ?_)⟩
  rw [hd1, hd2]
  simp only [decide_eq_true_eq, decide_eq_false_iff_not]
  omega

theorem one_fermi {n : ℕ × ℕ} {m : Machine L 4 M} {val} (g : Good m val) (hp : PowOk m) (hf : Fermionic L n m.fields)
    (h1 : n.1 ≤ L) (h2 : n.2 ≤ L) (x : Cfg L) : 0 < weight m.fields.machine_pow (m.logPsiOne x) ↔
      numElec false x = n.1 ∧ numElec true x = n.2 := by
  rw [Good.one_pos g hp]
  simp only [fermi_allowed hf]
  rw [forall_and, pc_exact (fun j => hasSpin false (x j)) n.1 (by omega) (by omega),
    pc_exact (fun j => hasSpin true (x j)) n.2 (by omega) (by omega), pc_full, pc_full]
  unfold numElec
  constructor <;> rintro ⟨ha, hb⟩ <;> constructor <;> omega

/-- C33.  With the fermionic constraint functions the autoregressive models give non-zero probability exactly to the
configurations with `n_elec` electrons of each spin. -/
theorem C33_fermionic_constraint [NeZero L] [Nonempty ι] (n : ℕ × ℕ) (m : Machine L 4 M) (hm : ProvidedAR m)
    (hp : m.fields.machine_pow ≠ 0) (hf : Fermionic L n m.fields) (h1 : n.1 ≤ L) (h2 : n.2 ≤ L)
    (syms : ι → Cfg L → Cfg L) (hs : ∀ t x s, numElec s (syms t x) = numElec s x) (x : Cfg L) :
    0 < bornWeight m.fields.machine_pow (m.logPsi syms x) ↔ numElec false x = n.1 ∧ numElec true x = n.2 := by
  obtain ⟨val, g⟩ := hm.good
  rw [Good.sym_pos hp]
  simp only [one_fermi g hp hf h1 h2, hs]
  exact ⟨fun ⟨_, h⟩ => h, fun h => ⟨Classical.arbitrary ι, h⟩⟩

/-- C28 with the fermionic constraint functions. -/
theorem C28_normalised_fermionic [NeZero L] [Nonempty ι] (n : ℕ × ℕ) (m : Machine L 4 M) (hm : ProvidedAR m)
    (hn : m.fields.normalize = true) (hp : m.fields.machine_pow ≠ 0) (hf : Fermionic L n m.fields) (h1 : n.1 ≤ L)
    (h2 : n.2 ≤ L) (syms : ι → Cfg L → Cfg L) (hs : ∀ t, Function.Bijective (syms t)) :
    ∑ x, bornWeight m.fields.machine_pow (m.logPsi syms x) = 1 :=
  C28_normalised_of_continuable m hm hn hp (fermi_continuable hm hp hf h1 h2) syms hs

/-- An instance of C33 and C28: three sites, two up electrons and one down electron, the plaquette model on a ring with the
masks of `get_plaquettes_and_masks`. -/
example (epsilon : Fin 4 → Fin 2 → Fin 3 → ℂ) :
    let f : Fields 4 2 := ⟨2, true, true, countSpinsFermionic, renormalizeFermionic ((2 : ℕ), (1 : ℕ)) 3, sumOut⟩
    let m : Machine 3 4 2 := ARPlaquette.arPlaquette f epsilon (ARPlaquette.withMasks ARPlaquette.circulantPlaquettes)
    0 < bornWeight 2 (m.logPsi (fun (_ : Unit) y => y) ![3, 0, 1]) ∧
      ¬ 0 < bornWeight 2 (m.logPsi (fun (_ : Unit) y => y) ![3, 3, 0]) ∧
      ∑ x, bornWeight 2 (m.logPsi (fun (_ : Unit) y => y) x) = 1 := by
  intro f m
  have hm : ProvidedAR m := .plaquette f epsilon _ (masks_hide _)
  have hp : m.fields.machine_pow ≠ 0 := by change (2 : ℝ) ≠ 0; norm_num
  have hf : Fermionic 3 (2, 1) m.fields := ⟨rfl, rfl, rfl⟩
  have h := C33_fermionic_constraint (ι := Unit) (2, 1) m hm hp hf (by norm_num) (by norm_num) (fun _ y => y)
    (fun _ _ _ => rfl)
  refine ⟨(h _).mpr (by decide), fun hh => absurd ((h _).mp hh) (by decide), ?_⟩
  exact C28_normalised_fermionic (2, 1) m hm rfl hp hf (by norm_num) (by norm_num) _ (fun _ => Function.bijective_id)

end GPSKet.Props
