import Verif.Lemmas.SamplerChain
import Verif.Props.Metropolis
import Mathlib.GroupTheory.Perm.ClosureSwap
import Mathlib.Tactic.FinCases

/-! # Property C140: the Markov chain of a Metropolis sampler with the exchange rule -/

set_option linter.unusedSectionVars false

namespace GPSKet.ExchangeChain
open Spec SamplerChain Relation

variable {S A : Type} [Fintype S] [DecidableEq S] [Fintype A] [DecidableEq A]

/-- the configurations with as many sites in each local state as `σ₀`, e.g. with its magnetisation -/
abbrev Sector (σ₀ : S → A) := {σ : S → A // ∀ v, (Finset.univ.filter fun j => σ j = v).card =
  (Finset.univ.filter fun j => σ₀ j = v).card}

/-- the chain of the exchange sampler -/
noncomputable def chain (σ₀ : S → A) (logpsi : (S → A) → ℂ) (machine_pow : ℝ) (clusters : List (S × S)) :
    Matrix (Sector σ₀) (Sector σ₀) ℝ :=
  Matrix.of fun x y => exchangeStep logpsi machine_pow clusters x.1 y.1

/-- what is to be sampled, up to normalisation: `|ψ(x)|^machine_pow` -/
noncomputable def target (σ₀ : S → A) (logpsi : (S → A) → ℂ) (machine_pow : ℝ) (x : Sector σ₀) : ℝ :=
  ‖Complex.exp (logpsi x.1)‖ ^ machine_pow

variable {σ₀ : S → A} {clusters : List (S × S)}

theorem target_pos (logpsi : (S → A) → ℂ) (pow : ℝ) (x : Sector σ₀) : 0 < target σ₀ logpsi pow x :=
  weight_pos logpsi pow x.1

theorem law_sum (hne : clusters ≠ []) : ∑ _d : Fin clusters.length, 1 / (clusters.length : ℝ) = 1 := by
  have : (clusters.length : ℝ) ≠ 0 := by
    rw [Nat.cast_ne_zero]; exact fun h => hne (List.length_eq_zero_iff.mp h)
  rw [Finset.sum_const, Finset.card_univ, Fintype.card_fin, nsmul_eq_mul]
  field_simp

theorem law_pos (hne : clusters ≠ []) : 0 < 1 / (clusters.length : ℝ) := by
  have : 0 < clusters.length := List.length_pos_of_ne_nil hne
  positivity

/-- **C140**: the sampler with the exchange rule is a Markov chain on the configurations with the same number of sites in
each local state. -/
theorem C140_kernel (hne : clusters ≠ []) (logpsi : (S → A) → ℂ) (pow : ℝ) : IsKernel (chain σ₀ logpsi pow clusters) :=
  kernel (emb := fun x : Sector σ₀ => x.1) Subtype.val_injective (fun _ _ => (law_pos hne).le) (fun _ => law_sum hne)
    fun x d _ => ⟨⟨_, fun v => by rw [C23_exchange_conserves]; exact x.2 v⟩, rfl⟩

theorem back (c : S × S) (x y : S → A) : (exchangeUpdate x c).1 = y ↔ (exchangeUpdate y c).1 = x := by
  have h := C23_exchange_symmetric [c] x y
  by_cases h1 : (exchangeUpdate x c).1 = y <;> by_cases h2 : (exchangeUpdate y c).1 = x <;> simp_all

theorem detailed (logpsi : (S → A) → ℂ) (pow : ℝ) (x y : Sector σ₀) :
    target σ₀ logpsi pow x * chain σ₀ logpsi pow clusters x y = target σ₀ logpsi pow y * chain σ₀ logpsi pow clusters y x := by
  classical
  refine reversible (logpsi := logpsi) (pow := pow) (D := Fin clusters.length)
    (law := fun _ _ => 1 / (clusters.length : ℝ)) (proposal := fun d x => exchangeUpdate x clusters[d])
    (emb := fun x : Sector σ₀ => x.1) (fun x y => ?_) Subtype.val_injective x y
  unfold proposed
  apply Finset.sum_congr rfl
  intro d _
  by_cases h1 : (exchangeUpdate x.1 clusters[d]).1 = y.1
  · exact (if_pos h1).trans (if_pos ((back _ _ _).mp h1)).symm
  · exact (if_neg h1).trans (if_neg fun h2 => h1 ((back _ _ _).mpr h2)).symm

/-- **C140**: `|ψ|^machine_pow` is invariant under every step, for every list of clusters. -/
theorem C140_invariant (hne : clusters ≠ []) (logpsi : (S → A) → ℂ) (pow : ℝ) :
    Invariant (chain σ₀ logpsi pow clusters) (target σ₀ logpsi pow) :=
  Markov.invariant_of_reversible (C140_kernel hne logpsi pow) (detailed logpsi pow)

/-- the clusters connect all sites -/
def Connected (clusters : List (S × S)) : Prop :=
  ∀ i j, ReflTransGen (fun i j => (i, j) ∈ clusters ∨ (j, i) ∈ clusters) i j

theorem swap_eq (σ : S → A) (cl : S × S) : (exchangeUpdate σ cl).1 = σ ∘ Equiv.swap cl.1 cl.2 :=
  (C23_exchange_swaps σ cl).1

/-- `σ'` is `σ` with the two sites of some cluster exchanged -/
def Swapped (clusters : List (S × S)) (σ σ' : S → A) : Prop := ∃ cl ∈ clusters, σ' = σ ∘ Equiv.swap cl.1 cl.2

theorem swapped_symm {σ σ' : S → A} (h : Swapped clusters σ σ') : Swapped clusters σ' σ := by
  obtain ⟨cl, hc, rfl⟩ := h
  refine ⟨cl, hc, ?_⟩
  funext j
  simp

/-- exchanges along connected clusters realise every permutation of the sites -/
theorem permute (hc : Connected clusters) (π : Equiv.Perm S) (σ : S → A) :
    ReflTransGen (Swapped clusters) σ (σ ∘ π) := by
  let G : Set (Equiv.Perm S) := {f | ∃ cl ∈ clusters, cl.1 ≠ cl.2 ∧ f = Equiv.swap cl.1 cl.2}
  have hG : ∀ f ∈ G, f.IsSwap := by
    rintro f ⟨cl, _, hne, rfl⟩
    exact ⟨cl.1, cl.2, hne, rfl⟩
  have htrans : MulAction.IsPretransitive (Subgroup.closure G) S := by
    constructor
    intro i j
    induction hc i j with
    | refl => exact ⟨1, by simp⟩
    | @tail b c _ hbc ih =>
      obtain ⟨g, hg⟩ := ih
      by_cases hb : b = c
      · exact ⟨g, by rw [hg, hb]⟩
      have hsw : Equiv.swap b c ∈ Subgroup.closure G := by
        apply Subgroup.subset_closure
        rcases hbc with h | h
        · exact ⟨(b, c), h, hb, rfl⟩
        · exact ⟨(c, b), h, Ne.symm hb, Equiv.swap_comm b c⟩
      refine ⟨⟨Equiv.swap b c, hsw⟩ * g, ?_⟩
      rw [mul_smul, hg]
      exact Equiv.swap_apply_left b c
  have htop := closure_of_isSwap_of_isPretransitive hG
  have hmem : π ∈ Subgroup.closure G := by rw [htop]; trivial
  revert σ
  induction hmem using Subgroup.closure_induction with
  | mem f hf =>
    obtain ⟨cl, h, _, rfl⟩ := hf
    exact fun σ => ReflTransGen.single ⟨cl, h, rfl⟩
  | one => exact fun σ => ReflTransGen.refl
  | mul f g _ _ h1 h2 =>
    intro σ
    have := (h1 σ).trans (h2 (σ ∘ f))
    exact this
  | inv f _ h =>
    intro σ
    have := h (σ ∘ ⇑f⁻¹)
    have e : (σ ∘ ⇑f⁻¹) ∘ ⇑f = σ := by funext j; simp
    rw [e] at this
    have hsym : Std.Symm (Swapped (A := A) clusters) := ⟨fun _ _ => swapped_symm⟩
    exact ReflTransGen.stdSymm.symm _ _ this

/-- two configurations with the same numbers of sites in each state differ by a permutation of the sites -/
theorem exists_perm (σ τ : S → A)
    (h : ∀ v, (Finset.univ.filter fun j => σ j = v).card = (Finset.univ.filter fun j => τ j = v).card) :
    ∃ π : Equiv.Perm S, τ = σ ∘ π := by
  have e : ∀ v, Nonempty ({j // τ j = v} ≃ {j // σ j = v}) := by
    intro v
    rw [← Fintype.card_eq, Fintype.card_subtype, Fintype.card_subtype, h]
  exact ⟨Equiv.ofFiberEquiv fun v => Classical.choice (e v), by
    funext j
    exact (Equiv.ofFiberEquiv_map (fun v => Classical.choice (e v)) j).symm⟩

theorem chain_swapped (hne : clusters ≠ []) (logpsi : (S → A) → ℂ) (pow : ℝ) {x y : Sector σ₀}
    (h : Swapped clusters x.1 y.1) : 0 < chain σ₀ logpsi pow clusters x y := by
  obtain ⟨cl, hc, hy⟩ := h
  obtain ⟨d, hd, rfl⟩ := List.mem_iff_getElem.mp hc
  have := stepProb_pos (logpsi := logpsi) (pow := pow) (D := Fin clusters.length)
    (law := fun _ _ => 1 / (clusters.length : ℝ)) (proposal := fun d x => exchangeUpdate x clusters[d]) (x := x.1)
    (fun _ => (law_pos hne).le) ⟨d, hd⟩ (law_pos hne)
  rw [show (exchangeUpdate x.1 clusters[(⟨d, hd⟩ : Fin clusters.length)]).1 = y.1 by rw [swap_eq, hy]; rfl] at this
  exact this

/-- **C140**: if the clusters connect all sites, every configuration of the sector is reached from every other. -/
theorem C140_irreducible (hne : clusters ≠ []) (hc : Connected clusters) (logpsi : (S → A) → ℂ) (pow : ℝ) :
    Spec.Irreducible (chain σ₀ logpsi pow clusters) := by
  intro x y
  apply Markov.reach_pow (C140_kernel hne logpsi pow)
  have lift : ∀ z : S → A, ReflTransGen (Swapped clusters) x.1 z → ∃ h, 
      ReflTransGen (fun a b : Sector σ₀ => 0 < chain σ₀ logpsi pow clusters a b) x ⟨z, h⟩ := by
    intro z hz
    induction hz with
    | refl => exact ⟨x.2, ReflTransGen.refl⟩
    | @tail b c _ hs ih =>
      obtain ⟨h, hr⟩ := ih
      have hcnt : ∀ v, (Finset.univ.filter fun j => c j = v).card = (Finset.univ.filter fun j => σ₀ j = v).card := by
        intro v
        obtain ⟨cl, _, rfl⟩ := hs
        rw [← swap_eq, C23_exchange_conserves]
        exact h v
      exact ⟨hcnt, hr.tail (chain_swapped hne logpsi pow hs)⟩
  obtain ⟨π, hπ⟩ := exists_perm x.1 y.1 fun v => (x.2 v).trans (y.2 v).symm
  obtain ⟨h, hr⟩ := lift (x.1 ∘ π) (permute hc π x.1)
  have : (⟨x.1 ∘ π, h⟩ : Sector σ₀) = y := Subtype.ext hπ.symm
  rw [← this]
  exact hr

/-- **C140**: then the normalised `|ψ|^machine_pow` is the only invariant distribution. -/
theorem C140_unique (hne : clusters ≠ []) (hc : Connected clusters) (logpsi : (S → A) → ℂ) (pow : ℝ)
    (μ : Sector σ₀ → ℝ) (hμ : Invariant (chain σ₀ logpsi pow clusters) μ) (hs : ∑ x, μ x = 1) (x : Sector σ₀) :
    μ x = target σ₀ logpsi pow x / ∑ y : Sector σ₀, target σ₀ logpsi pow y := by
  have hu := Markov.unique (C140_kernel hne logpsi pow) (detailed logpsi pow) (target_pos logpsi pow)
    (C140_irreducible hne hc logpsi pow) hμ x
  have hZ : 0 < ∑ y : Sector σ₀, target σ₀ logpsi pow y :=
    Finset.sum_pos (fun y _ => target_pos logpsi pow y) ⟨x, Finset.mem_univ x⟩
  rw [eq_div_iff hZ.ne', Finset.mul_sum, Finset.sum_congr rfl fun y _ => hu y, ← Finset.sum_mul, hs, one_mul]

/-- **C140**: and if two sites are in the same local state (always the case for more sites than local states), the
probability of every configuration tends to its share of `|ψ|^machine_pow`, wherever the sampler is started. -/
theorem C140_converges (hne : clusters ≠ []) (hc : Connected clusters) (logpsi : (S → A) → ℂ) (pow : ℝ)
    (hpair : ∃ i j, i ≠ j ∧ σ₀ i = σ₀ j) : Converges (chain σ₀ logpsi pow clusters) (target σ₀ logpsi pow) := by
  obtain ⟨i, j, hij, hσ⟩ := hpair
  -- bring the two equal sites onto a cluster
  obtain ⟨cl, hcl⟩ := List.exists_mem_of_ne_nil clusters hne
  obtain ⟨z, hz⟩ : ∃ z : Sector σ₀, z.1 cl.1 = z.1 cl.2 := by
    by_cases h12 : cl.1 = cl.2
    · exact ⟨⟨σ₀, fun _ => rfl⟩, by rw [h12]⟩
    obtain ⟨π, h1, h2⟩ : ∃ π : Equiv.Perm S, π cl.1 = i ∧ π cl.2 = j := by
      refine ⟨Equiv.swap (Equiv.swap cl.1 i cl.2) j * Equiv.swap cl.1 i, ?_, ?_⟩
      · rw [Equiv.Perm.mul_apply, Equiv.swap_apply_left, Equiv.swap_apply_of_ne_of_ne _ hij]
        intro h
        have := congrArg (Equiv.swap cl.1 i) h
        rw [Equiv.swap_apply_right, Equiv.swap_apply_self] at this
        exact h12 this
      · rw [Equiv.Perm.mul_apply, Equiv.swap_apply_left]
    refine ⟨⟨σ₀ ∘ π, fun v => ?_⟩, by simp [h1, h2, hσ]⟩
    apply Finset.card_bij (fun k _ => π k)
    · intro k hk; simpa using hk
    · intro a _ b _ h; exact π.injective h
    · intro k hk; exact ⟨π.symm k, by simpa using hk, by simp⟩
  refine Markov.converges_of_loop (C140_kernel hne logpsi pow) (C140_invariant hne logpsi pow) (target_pos logpsi pow)
    (C140_irreducible hne hc logpsi pow) z (chain_swapped hne logpsi pow ⟨cl, hcl, ?_⟩)
  funext k
  simp only [Function.comp]
  by_cases k1 : k = cl.1
  · subst k1; rw [Equiv.swap_apply_left, hz]
  · by_cases k2 : k = cl.2
    · subst k2; rw [Equiv.swap_apply_right, hz]
    · rw [Equiv.swap_apply_of_ne_of_ne k1 k2]

/-- the hypotheses are met by the bonds of an open chain of four spins -/
example : ([(0, 1), (1, 2), (2, 3)] : List (Fin 4 × Fin 4)) ≠ [] ∧
    Connected ([(0, 1), (1, 2), (2, 3)] : List (Fin 4 × Fin 4)) ∧
    ∃ i j : Fin 4, i ≠ j ∧ (![0, 0, 1, 1] : Fin 4 → Fin 2) i = ![0, 0, 1, 1] j := by
  refine ⟨by simp, ?_, 0, 1, by decide, by decide⟩
  have step : ∀ i j : Fin 4, ((i, j) ∈ [((0 : Fin 4), (1 : Fin 4)), (1, 2), (2, 3)] ∨
      (j, i) ∈ [((0 : Fin 4), (1 : Fin 4)), (1, 2), (2, 3)]) →
      ReflTransGen (fun i j => (i, j) ∈ [((0 : Fin 4), (1 : Fin 4)), (1, 2), (2, 3)] ∨
        (j, i) ∈ [((0 : Fin 4), (1 : Fin 4)), (1, 2), (2, 3)]) i j := fun i j h => ReflTransGen.single h
  have to0 : ∀ i : Fin 4, ReflTransGen (fun i j => (i, j) ∈ [((0 : Fin 4), (1 : Fin 4)), (1, 2), (2, 3)] ∨
        (j, i) ∈ [((0 : Fin 4), (1 : Fin 4)), (1, 2), (2, 3)]) i 0 := by
    have h1 := step 1 0 (by decide)
    have h2 := step 2 1 (by decide)
    have h3 := step 3 2 (by decide)
    intro i
    fin_cases i
    · exact ReflTransGen.refl
    · exact h1
    · exact h2.trans h1
    · exact h3.trans (h2.trans h1)
  intro i j
  have hsym : Std.Symm (fun i j : Fin 4 => (i, j) ∈ [((0 : Fin 4), (1 : Fin 4)), (1, 2), (2, 3)] ∨
        (j, i) ∈ [((0 : Fin 4), (1 : Fin 4)), (1, 2), (2, 3)]) := ⟨fun _ _ h => h.symm⟩
  exact (to0 i).trans (ReflTransGen.stdSymm.symm _ _ (to0 j))

/-- **C140 is false if the clusters do not connect the sites**: with the only cluster `(0, 1)` a spin on site 2 never
moves. -/
theorem C140_disconnected_fails : ∃ x y : Sector (![0, 1, 0] : Fin 3 → Fin 2), ∀ (logpsi : (Fin 3 → Fin 2) → ℂ) (pow : ℝ)
    (n : ℕ), (chain (![0, 1, 0] : Fin 3 → Fin 2) logpsi pow [(0, 1)] ^ n) x y = 0 := by
  refine ⟨⟨![0, 1, 0], fun _ => rfl⟩, ⟨![0, 0, 1], by decide⟩, fun logpsi pow n => ?_⟩
  have key : ∀ n (x y : Sector (![0, 1, 0] : Fin 3 → Fin 2)), x.1 2 ≠ y.1 2 →
      (chain (![0, 1, 0] : Fin 3 → Fin 2) logpsi pow [(0, 1)] ^ n) x y = 0 := by
    intro n
    induction n with
    | zero => intro x y h; rw [pow_zero, Matrix.one_apply_ne (by intro e; rw [e] at h; exact h rfl)]
    | succ n ih =>
      intro x y h
      rw [pow_succ', Matrix.mul_apply]
      apply Finset.sum_eq_zero
      intro z _
      by_cases hz : x.1 2 = z.1 2
      · rw [ih z y (by rw [← hz]; exact h), mul_zero]
      · have hxz : x.1 ≠ z.1 := by intro e; rw [e] at hz; exact hz rfl
        have : chain (![0, 1, 0] : Fin 3 → Fin 2) logpsi pow [(0, 1)] x z = 0 := by
          show stepProb (D := Fin [((0 : Fin 3), (1 : Fin 3))].length) logpsi pow
            (fun _ _ => 1 / ([((0 : Fin 3), (1 : Fin 3))].length : ℝ))
            (fun d x => exchangeUpdate x [((0 : Fin 3), (1 : Fin 3))][d]) x.1 z.1 = 0
          rw [stepProb_ne hxz]
          have : proposed (D := Fin [((0 : Fin 3), (1 : Fin 3))].length)
              (fun _ _ => 1 / ([((0 : Fin 3), (1 : Fin 3))].length : ℝ))
              (fun d x => exchangeUpdate x [((0 : Fin 3), (1 : Fin 3))][d]) x.1 z.1 = 0 := by
            unfold proposed
            apply Finset.sum_eq_zero
            intro d _
            apply if_neg
            intro e
            apply hz
            have := congrFun e 2
            rw [← this]
            revert d
            show ∀ d : Fin 1, _
            intro d
            have hd : d = 0 := Subsingleton.elim _ _
            subst hd
            simp [exchangeUpdate]
          rw [this, zero_mul]
        rw [this, zero_mul]
  exact key n _ _ (by decide)

end GPSKet.ExchangeChain
