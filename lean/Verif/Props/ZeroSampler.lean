import Verif.Lemmas.ZeroSampler
import Verif.Props.HoppingChain
import Verif.Props.ExchangeChain

/-! # Property C178: the Metropolis samplers for wave functions with zeros -/

namespace GPSKet.ZeroSampler
open Spec Relation HoppingChain

variable {L nu nd : ℕ}

/-- the chain of the hopping sampler on a sector -/
noncomputable def chain (psi : Arr L → ℂ) (machine_pow hop_probability : ℝ) (transition_probs : Option (Fin L → Fin L → ℝ)) :
    Matrix (Sector L nu nd) (Sector L nu nd) ℝ :=
  Matrix.of fun x y => hoppingStep psi machine_pow hop_probability transition_probs (embed x.1) (embed y.1)

/-- the chain of the fast hopping sampler with a determinant model -/
noncomputable def inverseChain (psi : Arr L → ℂ) (machine_pow hop_probability : ℝ) (transition_probs : Option (Fin L → Fin L → ℝ)) :
    Matrix (Sector L nu nd) (Sector L nu nd) ℝ :=
  Matrix.of fun x y => inverseHoppingStep psi machine_pow hop_probability transition_probs (embed x.1) (embed y.1)

/-- what is to be sampled, up to normalisation: `|ψ(x)|^machine_pow` -/
noncomputable def target (psi : Arr L → ℂ) (machine_pow : ℝ) (x : Sector L nu nd) : ℝ := ‖psi (embed x.1)‖ ^ machine_pow

/-- the amplitude of a configuration -/
def amp (psi : Arr L → ℂ) (x : Sector L nu nd) : ℂ := psi (embed x.1)

/-- The hopping sampler proposes `y` from `x` with positive probability. -/
def Proposed (hop : ℝ) (T : Option (Fin L → Fin L → ℝ)) (x y : Sector L nu nd) : Prop := 0 < proposalProb hop T x.1 y.1

theorem zeros (hn : 0 < nu + nd) (psi : Arr L → ℂ) {pow : ℝ} (hp : 0 < pow) {hop : ℝ} (h0 : 0 ≤ hop) (h1 : hop ≤ 1)
    {T : Option (Fin L → Fin L → ℝ)} (hT : TableNonneg T) (ha : tableAccepted T) (hb : TableBalanced T) :
    Zeros (chain psi pow hop T : Matrix (Sector L nu nd) (Sector L nu nd) ℝ) (Matrix.of fun x y => proposalProb hop T x.1 y.1) (target psi pow) := by
  have := plain_zeros (psi := psi) hp (emb := fun x : Sector L nu nd => embed x.1) emb_inj (law := fun x d => (toDraw d).prob hop T x)
    (proposal := fun d x => applyElectronHop x (toDraw d)) (fun _ _ => prob_nonneg h0 h1 hT _ _) (fun x => prob_sum hn hop T x)
    (fun x d hd => closed hn h0 h1 hT x d hd) fun x y => by rw [proposed_eq, proposed_eq]; exact C22_symmetric_partial hop T ha hb x.1 y.1
  simp only [proposed_eq] at this
  exact this

theorem target_eq_zero (psi : Arr L → ℂ) {pow : ℝ} (hp : 0 < pow) (x : Sector L nu nd) : target psi pow x = 0 ↔ amp psi x = 0 := by
  unfold target amp
  rw [Real.rpow_eq_zero (norm_nonneg _) hp.ne', norm_eq_zero]

theorem move_proposed {hop : ℝ} (h0 : 0 < hop) (h1 : hop ≤ 1) {T : Option (Fin L → Fin L → ℝ)} (hT : TableNonneg T) {x y : Sector L nu nd}
    (hm : Move T x.1 y.1) : Proposed hop T x y := by
  classical
  obtain ⟨s, i, a, he, hi, ha, hy⟩ := hm
  obtain ⟨k, rfl⟩ := exists_k s
  have e : (applyElectronHop (embed x.1) (toDraw (0, i, k, a))).1 = embed y.1 := by
    rw [hy]
    exact congrArg Prod.fst (good_apply (move_good hi ha))
  unfold Proposed
  rw [← proposed_eq]
  unfold SamplerChain.proposed
  refine Finset.sum_pos' (fun d _ => ?_) ⟨(0, i, k, a), Finset.mem_univ _, ?_⟩
  · split
    · exact prob_nonneg h0.le h1 hT _ _
    · exact le_rfl
  · rw [if_pos e]
    exact prob_pos h0 h1 hT hi ha he

theorem sector_connected {T : Option (Fin L → Fin L → ℝ)} (hc : TableConnected T) (x y : Sector L nu nd) :
    ReflTransGen (fun a b : Sector L nu nd => Move T a.1 b.1) x y := by
  have lift : ∀ z : Cfg L, ReflTransGen (Move T) x.1 z → ∃ h : numElec false z = nu ∧ numElec true z = nd,
      ReflTransGen (fun a b : Sector L nu nd => Move T a.1 b.1) x ⟨z, h⟩ := by
    intro z hz
    induction hz with
    | refl => exact ⟨x.2, ReflTransGen.refl⟩
    | tail _ hs ih =>
      obtain ⟨h, hr⟩ := ih
      exact ⟨⟨by rw [move_numElec hs, h.1], by rw [move_numElec hs, h.2]⟩, hr.tail hs⟩
  have hxy : ∀ s, numElec s x.1 = numElec s y.1 := by
    intro s
    cases s
    · rw [x.2.1, y.2.1]
    · rw [x.2.2, y.2.2]
  obtain ⟨_, h⟩ := lift y.1 (connected (edges hc) hxy)
  exact h

/-- A path from inside a set to outside leaves it somewhere. -/
theorem crossing {α : Type} {R : α → α → Prop} {x y : α} (h : ReflTransGen R x y) (p : α → Prop) (hx : p x) (hy : ¬p y) :
    ∃ a b, R a b ∧ p a ∧ ¬p b := by
  induction h with
  | refl => exact absurd hx hy
  | @tail b c _ hbc ih =>
    by_cases hb : p b
    · exact ⟨b, c, hbc, hb, hy⟩
    · exact ih hb

theorem step_eq {S A D : Type} [Fintype D] (logpsi : (S → A) → ℂ) {pow : ℝ} (hp : 0 < pow) (law : (S → A) → D → ℝ)
    (proposal : D → (S → A) → (S → A) × S × S) (x y : S → A) :
    plainStep (fun x => Complex.exp (logpsi x)) pow law proposal x y = GPSKet.stepProb logpsi pow law proposal x y := by
  classical
  have hacc : ∀ a b : S → A, accept (logProb pow (Complex.exp (logpsi b))) (logProb pow (Complex.exp (logpsi a))) =
      metropolisAccept (SamplerChain.weight logpsi pow) a b := by
    intro a b
    rw [accept_amp hp, if_neg]
    · rfl
    · exact (SamplerChain.weight_pos logpsi pow a).ne'
  unfold plainStep stepProb GPSKet.stepProb
  refine Finset.sum_congr rfl fun d _ => ?_
  rw [volume_select, SamplerChain.volume_step, hacc]
  by_cases h1 : (proposal d x).1 = y
  · rw [if_pos h1, if_pos h1, h1]
  · rw [if_neg h1, if_neg h1]

/-! ## C178 for the hopping samplers -/

/-- **C178**: for wave functions without zeros the chain is the one of C137–C139. -/
theorem C178_same (logpsi : Arr L → ℂ) {pow : ℝ} (hp : 0 < pow) (hop : ℝ) (T : Option (Fin L → Fin L → ℝ)) :
    (chain (fun x => Complex.exp (logpsi x)) pow hop T : Matrix (Sector L nu nd) (Sector L nu nd) ℝ) = HoppingChain.chain logpsi pow hop T := by
  ext x y
  exact step_eq logpsi hp (fun x d => (toDraw d).prob hop T x) (fun d x => applyElectronHop x (toDraw d)) (embed x.1) (embed y.1)

/-- **C178**: `|ψ|^machine_pow` is invariant also for wave functions with zeros. -/
theorem C178_invariant (hn : 0 < nu + nd) (psi : Arr L → ℂ) {pow : ℝ} (hp : 0 < pow) {hop : ℝ} (h0 : 0 ≤ hop) (h1 : hop ≤ 1)
    {T : Option (Fin L → Fin L → ℝ)} (hT : TableNonneg T) (ha : tableAccepted T) (hb : TableBalanced T) :
    IsKernel (chain psi pow hop T : Matrix (Sector L nu nd) (Sector L nu nd) ℝ) ∧ Invariant (chain psi pow hop T) (target psi pow : Sector L nu nd → ℝ) :=
  ⟨(zeros hn psi hp h0 h1 hT ha hb).kernel, (zeros hn psi hp h0 h1 hT ha hb).invariant⟩

/-- **C178**: a chain that is at a configuration of non-zero amplitude never gets to one of zero amplitude. -/
theorem C178_support (hn : 0 < nu + nd) (psi : Arr L → ℂ) {pow : ℝ} (hp : 0 < pow) {hop : ℝ} (h0 : 0 ≤ hop) (h1 : hop ≤ 1)
    {T : Option (Fin L → Fin L → ℝ)} (hT : TableNonneg T) (ha : tableAccepted T) (hb : TableBalanced T) (x y : Sector L nu nd)
    (hx : amp psi x ≠ 0) (hy : amp psi y = 0) (n : ℕ) : (chain psi pow hop T ^ n) x y = 0 :=
  (zeros hn psi hp h0 h1 hT ha hb).pow_support (fun h => hx ((target_eq_zero psi hp x).mp h)) ((target_eq_zero psi hp y).mpr hy) n

/-- **C178**: from a configuration of zero amplitude a proposal is accepted if and only if its amplitude is not zero. -/
theorem C178_enter (hn : 0 < nu + nd) (psi : Arr L → ℂ) {pow : ℝ} (hp : 0 < pow) {hop : ℝ} (h0 : 0 ≤ hop) (h1 : hop ≤ 1)
    {T : Option (Fin L → Fin L → ℝ)} (hT : TableNonneg T) (ha : tableAccepted T) (hb : TableBalanced T) (x y : Sector L nu nd) (hxy : x ≠ y)
    (hx : amp psi x = 0) : chain psi pow hop T x y = if amp psi y = 0 then 0 else proposalProb hop T x.1 y.1 := by
  have h := zeros hn psi hp h0 h1 hT ha hb (L := L)
  have hx' := (target_eq_zero psi hp x).mpr hx
  split
  · next hy => exact h.frozen hxy hx' ((target_eq_zero psi hp y).mpr hy)
  · next hy => exact h.enter hx' fun h => hy ((target_eq_zero psi hp y).mp h)

/-- **C178**: if single hops connect the configurations of non-zero amplitude, the law of the chain tends to `|ψ|^machine_pow` from every start that has a non-zero amplitude or
from which one is proposed. -/
theorem C178_converges_partial (hn : 0 < nu + nd) (psi : Arr L → ℂ) {pow : ℝ} (hp : 0 < pow) {hop : ℝ} (h0 : 0 < hop) (h1 : hop ≤ 1)
    {T : Option (Fin L → Fin L → ℝ)} (hT : TableNonneg T) (ha : tableAccepted T) (hb : TableBalanced T) (hc : TableConnected T)
    (hz : ∃ z : Sector L nu nd, amp psi z = 0)
    (hconn : ∀ x y : Sector L nu nd, amp psi x ≠ 0 → amp psi y ≠ 0 → ReflTransGen (fun a b => Proposed hop T a b ∧ amp psi b ≠ 0) x y)
    (x : Sector L nu nd) (hx : amp psi x ≠ 0 ∨ ∃ y, Proposed hop T x y ∧ amp psi y ≠ 0) :
    ConvergesFrom (chain psi pow hop T) (target psi pow) x := by
  have h := zeros hn psi hp h0.le h1 hT ha hb (L := L) (nu := nu) (nd := nd)
  have hne : ∀ x : Sector L nu nd, target psi pow x ≠ 0 ↔ amp psi x ≠ 0 := fun x => not_congr (target_eq_zero psi hp x)
  obtain ⟨z, hz⟩ := hz
  obtain ⟨s, hs⟩ : ∃ s : Sector L nu nd, amp psi s ≠ 0 := by
    rcases hx with hx | ⟨y, -, hy⟩
    · exact ⟨x, hx⟩
    · exact ⟨y, hy⟩
  obtain ⟨a, b, hab, hpa, hpb⟩ := crossing (sector_connected hc s z) (fun a => amp psi a ≠ 0) hs (not_not.mpr hz)
  refine h.converges ?_ ((hne a).mpr hpa) ((target_eq_zero psi hp b).mpr (not_not.mp hpb)) (move_proposed h0 h1 hT hab) ?_
  · intro u v hu hv
    exact ReflTransGen.mono (fun c d (hcd : Proposed hop T c d ∧ amp psi d ≠ 0) => ⟨hcd.1, (hne d).mpr hcd.2⟩) _ _ (hconn u v ((hne u).mp hu) ((hne v).mp hv))
  · rcases hx with hx | ⟨y, hy, hy'⟩
    · exact Or.inl ((hne x).mpr hx)
    · exact Or.inr ⟨y, hy, (hne y).mpr hy'⟩

/-- **C178**: otherwise, if the amplitude of the start and those of all configurations proposed from it are zero, the chain never moves. -/
theorem C178_frozen (hn : 0 < nu + nd) (psi : Arr L → ℂ) {pow : ℝ} (hp : 0 < pow) {hop : ℝ} (h0 : 0 ≤ hop) (h1 : hop ≤ 1)
    {T : Option (Fin L → Fin L → ℝ)} (hT : TableNonneg T) (ha : tableAccepted T) (hb : TableBalanced T) (x : Sector L nu nd)
    (hx : ∀ y : Sector L nu nd, y ≠ x → Proposed hop T x y → amp psi y = 0) : Frozen (chain psi pow hop T) x := by
  have h := zeros hn psi hp h0 h1 hT ha hb (L := L) (nu := nu) (nd := nd)
  have hq : ∀ y, x ≠ y → proposalProb hop T x.1 y.1 ≠ 0 → target psi pow y = 0 := fun y hxy hy =>
    (target_eq_zero psi hp y).mpr (hx y (Ne.symm hxy) (lt_of_le_of_ne (h.proposals.nonneg x y) (Ne.symm hy)))
  by_cases hx0 : target psi pow x = 0
  · exact h.stuck hx0 hq
  · exact h.stuck_inside hx0 hq

/-- Two configurations of two electrons that differ in both. -/
def left : Sector 4 2 0 := ⟨![1, 1, 0, 0], by decide, by decide⟩
def right : Sector 4 2 0 := ⟨![0, 0, 1, 1], by decide, by decide⟩

theorem not_proposed (hop : ℝ) (T : Option (Fin 4 → Fin 4 → ℝ)) : ¬Proposed hop T right left ∧ ¬Proposed hop T left right := by
  constructor
  · unfold Proposed
    rw [← proposed_eq]
    unfold SamplerChain.proposed
    rw [Finset.sum_eq_zero]
    · exact lt_irrefl 0
    · intro d _
      refine if_neg ?_
      revert d
      decide
  · unfold Proposed
    rw [← proposed_eq]
    unfold SamplerChain.proposed
    rw [Finset.sum_eq_zero]
    · exact lt_irrefl 0
    · intro d _
      refine if_neg ?_
      revert d
      decide

open Classical in
/-- A single determinant in its own basis: one configuration only. -/
noncomputable def oneConfiguration (x : Arr 4) : ℂ := if x = embed left.1 then 1 else 0

open Classical in
/-- Two configurations of equal weight. -/
noncomputable def twoConfigurations (x : Arr 4) : ℂ := if x = embed left.1 ∨ x = embed right.1 then 1 else 0

/-- **C178 is false for starts of zero amplitude**: for a determinant in the basis of its own orbitals the sampler that starts at a configuration with both electrons excited stays there for ever,
and returns a configuration of probability zero. -/
theorem C178_zero_start_fails {hop : ℝ} (h0 : 0 ≤ hop) (h1 : hop ≤ 1) {pow : ℝ} (hp : 0 < pow) :
    amp oneConfiguration left ≠ 0 ∧ amp oneConfiguration right = 0 ∧
      Frozen (chain oneConfiguration pow hop none : Matrix (Sector 4 2 0) (Sector 4 2 0) ℝ) right := by
  have hne : embed right.1 ≠ embed left.1 := by decide
  refine ⟨by simp [amp, oneConfiguration], by simp [amp, oneConfiguration, hne], ?_⟩
  refine C178_frozen (by norm_num) _ hp h0 h1 (T := none) trivial trivial trivial right fun y _ hy => ?_
  unfold amp oneConfiguration
  refine if_neg fun h => ?_
  have : y = left := Subtype.ext (embed_inj h)
  exact (not_proposed hop none).1 (this ▸ hy)

/-- **C178 is false if hops do not connect the support**: two configurations of equal weight that differ in two electrons, of which the sampler only ever returns the one it starts with. -/
theorem C178_disconnected_fails {hop : ℝ} (h0 : 0 ≤ hop) (h1 : hop ≤ 1) {pow : ℝ} (hp : 0 < pow) :
    target twoConfigurations pow left = target twoConfigurations pow right ∧ target twoConfigurations pow left ≠ 0 ∧
      Frozen (chain twoConfigurations pow hop none : Matrix (Sector 4 2 0) (Sector 4 2 0) ℝ) left := by
  refine ⟨by simp [target, twoConfigurations], by simp [target, twoConfigurations], ?_⟩
  refine C178_frozen (by norm_num) _ hp h0 h1 (T := none) trivial trivial trivial left fun y hyl hy => ?_
  unfold amp twoConfigurations
  refine if_neg ?_
  rintro (h | h)
  · exact hyl (Subtype.ext (embed_inj h))
  · have : y = right := Subtype.ext (embed_inj h)
    exact (not_proposed hop none).2 (this ▸ hy)

/-! ## Determinant models with fast updates -/

theorem inverse_row (psi : Arr L → ℂ) (pow hop : ℝ) (T : Option (Fin L → Fin L → ℝ)) (x y : Sector L nu nd) (hx : amp psi x ≠ 0) :
    inverseChain psi pow hop T x y = chain psi pow hop T x y := by
  show inverseHoppingStep _ _ _ _ _ _ = hoppingStep _ _ _ _ _ _
  unfold hoppingStep inverseHoppingStep plainStep inverseStep stepProb
  refine Finset.sum_congr rfl fun d _ => ?_
  beta_reduce
  rw [if_neg (show psi (embed x.1) ≠ 0 from hx)]

/-- **C178**: from a configuration of non-zero amplitude the fast sampler of a determinant model has the law of the plain sampler. -/
theorem C178_inverse_partial (hn : 0 < nu + nd) (psi : Arr L → ℂ) {pow : ℝ} (hp : 0 < pow) {hop : ℝ} (h0 : 0 ≤ hop) (h1 : hop ≤ 1)
    {T : Option (Fin L → Fin L → ℝ)} (hT : TableNonneg T) (ha : tableAccepted T) (hb : TableBalanced T) (x y : Sector L nu nd)
    (hx : amp psi x ≠ 0) (n : ℕ) : (inverseChain psi pow hop T ^ n) x y = (chain psi pow hop T ^ n) x y := by
  have h := zeros hn psi hp h0 h1 hT ha hb (L := L) (nu := nu) (nd := nd)
  induction n generalizing x with
  | zero => rfl
  | succ n ih =>
    rw [pow_succ', pow_succ', Matrix.mul_apply, Matrix.mul_apply]
    refine Finset.sum_congr rfl fun z _ => ?_
    rw [inverse_row psi pow hop T x z hx]
    by_cases hz : amp psi z = 0
    · rw [h.support (fun h => hx ((target_eq_zero psi hp x).mp h)) ((target_eq_zero psi hp z).mpr hz), zero_mul, zero_mul]
    · rw [ih z hz]

/-- **C178 is false for fast updates by inverse matrices**: from any configuration of zero amplitude the fast sampler of a determinant model never moves, although the plain sampler may. -/
theorem C178_inverse_fails (hn : 0 < nu + nd) (psi : Arr L → ℂ) (pow : ℝ) {hop : ℝ} (h0 : 0 ≤ hop) (h1 : hop ≤ 1)
    {T : Option (Fin L → Fin L → ℝ)} (hT : TableNonneg T) (x : Sector L nu nd) (hx : amp psi x = 0) :
    Frozen (inverseChain psi pow hop T : Matrix (Sector L nu nd) (Sector L nu nd) ℝ) x := by
  classical
  have hk : IsKernel (inverseChain psi pow hop T : Matrix (Sector L nu nd) (Sector L nu nd) ℝ) :=
    kernel (old := fun x => logProb pow (psi x)) (new := fun x p => if psi x = 0 then Floats.F.nan else logProb pow (psi p))
      (emb := fun x : Sector L nu nd => embed x.1) emb_inj (law := fun x d => (toDraw d).prob hop T x)
      (proposal := fun d x => applyElectronHop x (toDraw d)) (fun _ _ => prob_nonneg h0 h1 hT _ _) (fun x => prob_sum hn hop T x)
      (fun x d hd => closed hn h0 h1 hT x d hd)
  refine frozen_of_row hk fun y hxy => ?_
  have e := stepProb_ne (old := fun x => logProb pow (psi x)) (new := fun x p => if psi x = 0 then Floats.F.nan else logProb pow (psi p))
    (law := fun x d => (toDraw d).prob hop T x) (proposal := fun d x => applyElectronHop x (toDraw d)) (x := embed x.1) (y := embed y.1)
    fun e => hxy (emb_inj e)
  rw [if_pos (show psi (embed x.1) = 0 from hx)] at e
  rw [show accept Floats.F.nan (logProb pow (psi (embed x.1))) = 0 from accept_nan _, mul_zero] at e
  exact e

/-- The hypotheses are met, e.g. by one electron on three sites with an amplitude of zero at the last one. -/
example : ∃ psi : Arr 3 → ℂ, (∃ z : Sector 3 1 0, amp psi z = 0) ∧
    (∀ x y : Sector 3 1 0, amp psi x ≠ 0 → amp psi y ≠ 0 → ReflTransGen (fun a b => Proposed 1 none a b ∧ amp psi b ≠ 0) x y) ∧
    ∀ x : Sector 3 1 0, amp psi x ≠ 0 ∨ ∃ y, Proposed 1 none x y ∧ amp psi y ≠ 0 := by
  classical
  let z : Sector 3 1 0 := ⟨![0, 0, 1], by decide, by decide⟩
  let a : Sector 3 1 0 := ⟨![1, 0, 0], by decide, by decide⟩
  have hmove : ∀ x y : Sector 3 1 0, x ≠ y → Proposed 1 none x y := by
    intro x y hxy
    refine move_proposed one_pos le_rfl (T := none) trivial ?_
    have hall : ∀ x y : Cfg 3, numElec false x = 1 → numElec true x = 0 → numElec false y = 1 → numElec true y = 0 → x ≠ y →
        ∃ s i a, hasSpin s (x i) = true ∧ hasSpin s (x a) = false ∧ y = moveCfg x s i a := by
      set_option maxRecDepth 100000 in decide
    obtain ⟨s, i, a, h1, h2, h3⟩ := hall x.1 y.1 x.2.1 x.2.2 y.2.1 y.2.2 fun h => hxy (Subtype.ext h)
    exact ⟨s, i, a, trivial, h1, h2, h3⟩
  refine ⟨fun x => if x = embed z.1 then 0 else 1, ⟨z, by simp [amp]⟩, ?_, ?_⟩
  · intro x y _ hy
    by_cases hxy : x = y
    · rw [hxy]
    · exact ReflTransGen.single ⟨hmove x y hxy, hy⟩
  · intro x
    by_cases hx : x = z
    · right
      refine ⟨a, hmove x a ?_, ?_⟩
      · rw [hx]; decide
      · have : embed a.1 ≠ embed z.1 := by decide
        simp [amp, this]
    · left
      have : embed x.1 ≠ embed z.1 := fun h => hx (Subtype.ext (embed_inj h))
      simp [amp, this]

/-! ## C178 for the exchange rule -/

section exchange
variable {S A : Type} [Fintype S] [DecidableEq S] [Fintype A] [DecidableEq A]

/-- the chain of the exchange sampler on the configurations with as many sites in each local state as `σ₀` -/
noncomputable def spinChain (σ₀ : S → A) (psi : (S → A) → ℂ) (machine_pow : ℝ) (clusters : List (S × S)) :
    Matrix (ExchangeChain.Sector σ₀) (ExchangeChain.Sector σ₀) ℝ :=
  Matrix.of fun x y => exchangeStep psi machine_pow clusters x.1 y.1

/-- what is to be sampled, up to normalisation -/
noncomputable def spinTarget (σ₀ : S → A) (psi : (S → A) → ℂ) (machine_pow : ℝ) (x : ExchangeChain.Sector σ₀) : ℝ := ‖psi x.1‖ ^ machine_pow

variable {σ₀ : S → A} {clusters : List (S × S)}

theorem spin_zeros (hne : clusters ≠ []) (psi : (S → A) → ℂ) {pow : ℝ} (hp : 0 < pow) :
    Zeros (spinChain σ₀ psi pow clusters) (Matrix.of fun x y => SamplerChain.proposed (D := Fin clusters.length) (fun _ _ => 1 / (clusters.length : ℝ))
      (fun d x => exchangeUpdate x clusters[d]) x.1 y.1) (spinTarget σ₀ psi pow) := by
  classical
  refine plain_zeros (psi := psi) hp (D := Fin clusters.length) (emb := fun x : ExchangeChain.Sector σ₀ => x.1) Subtype.val_injective
    (law := fun _ _ => 1 / (clusters.length : ℝ)) (proposal := fun d x => exchangeUpdate x clusters[d])
    (fun _ _ => (ExchangeChain.law_pos hne).le) (fun _ => ExchangeChain.law_sum hne)
    (fun x d _ => ⟨⟨_, fun v => by rw [C23_exchange_conserves]; exact x.2 v⟩, rfl⟩) fun x y => ?_
  unfold SamplerChain.proposed
  apply Finset.sum_congr rfl
  intro d _
  by_cases h1 : (exchangeUpdate x.1 clusters[d]).1 = y.1
  · exact (if_pos h1).trans (if_pos ((ExchangeChain.back _ _ _).mp h1)).symm
  · exact (if_neg h1).trans (if_neg fun h2 => h1 ((ExchangeChain.back _ _ _).mpr h2)).symm

omit [DecidableEq S] [Fintype A] in
theorem spinTarget_eq_zero (psi : (S → A) → ℂ) {pow : ℝ} (hp : 0 < pow) (x : ExchangeChain.Sector σ₀) : spinTarget σ₀ psi pow x = 0 ↔ psi x.1 = 0 := by
  unfold spinTarget
  rw [Real.rpow_eq_zero (norm_nonneg _) hp.ne', norm_eq_zero]

theorem swapped_proposed (hne : clusters ≠ []) {x y : S → A} (h : ExchangeChain.Swapped clusters x y) :
    0 < SamplerChain.proposed (D := Fin clusters.length) (fun _ _ => 1 / (clusters.length : ℝ)) (fun d x => exchangeUpdate x clusters[d]) x y := by
  classical
  obtain ⟨cl, hc, hy⟩ := h
  obtain ⟨d, hd, rfl⟩ := List.mem_iff_getElem.mp hc
  unfold SamplerChain.proposed
  refine Finset.sum_pos' (fun d _ => ?_) ⟨⟨d, hd⟩, Finset.mem_univ _, ?_⟩
  · split
    · exact (ExchangeChain.law_pos hne).le
    · exact le_rfl
  · have e : (exchangeUpdate x clusters[(⟨d, hd⟩ : Fin clusters.length)]).1 = y := by rw [ExchangeChain.swap_eq, hy]; rfl
    rw [if_pos e]
    exact ExchangeChain.law_pos hne

theorem spin_connected (hc : ExchangeChain.Connected clusters) (x y : ExchangeChain.Sector σ₀) :
    ReflTransGen (fun a b : ExchangeChain.Sector σ₀ => ExchangeChain.Swapped clusters a.1 b.1) x y := by
  have lift : ∀ z : S → A, ReflTransGen (ExchangeChain.Swapped clusters) x.1 z → ∃ h,
      ReflTransGen (fun a b : ExchangeChain.Sector σ₀ => ExchangeChain.Swapped clusters a.1 b.1) x ⟨z, h⟩ := by
    intro z hz
    induction hz with
    | refl => exact ⟨x.2, ReflTransGen.refl⟩
    | @tail b c _ hs ih =>
      obtain ⟨h, hr⟩ := ih
      have hcnt : ∀ v, (Finset.univ.filter fun j => c j = v).card = (Finset.univ.filter fun j => σ₀ j = v).card := by
        intro v
        obtain ⟨cl, _, rfl⟩ := hs
        rw [← ExchangeChain.swap_eq, C23_exchange_conserves]
        exact h v
      exact ⟨hcnt, hr.tail hs⟩
  obtain ⟨π, hπ⟩ := ExchangeChain.exists_perm x.1 y.1 fun v => (x.2 v).trans (y.2 v).symm
  obtain ⟨h, hr⟩ := lift (x.1 ∘ π) (ExchangeChain.permute hc π x.1)
  have : (⟨x.1 ∘ π, h⟩ : ExchangeChain.Sector σ₀) = y := Subtype.ext hπ.symm
  rw [← this]
  exact hr

/-- **C178**: the exchange sampler keeps `|ψ|^machine_pow` invariant also for wave functions with zeros, and does not enter them. -/
theorem C178_exchange_invariant (hne : clusters ≠ []) (psi : (S → A) → ℂ) {pow : ℝ} (hp : 0 < pow) :
    IsKernel (spinChain σ₀ psi pow clusters) ∧ Invariant (spinChain σ₀ psi pow clusters) (spinTarget σ₀ psi pow) ∧
      ∀ x y : ExchangeChain.Sector σ₀, psi x.1 ≠ 0 → psi y.1 = 0 → ∀ n, (spinChain σ₀ psi pow clusters ^ n) x y = 0 :=
  ⟨(spin_zeros hne psi hp).kernel, (spin_zeros hne psi hp).invariant, fun x y hx hy n =>
    (spin_zeros hne psi hp).pow_support (fun h => hx ((spinTarget_eq_zero psi hp x).mp h)) ((spinTarget_eq_zero psi hp y).mpr hy) n⟩

/-- **C178**: its law tends to `|ψ|^machine_pow` if exchanges connect the configurations of non-zero amplitude, from every start that has a non-zero amplitude or is one
exchange away from one. -/
theorem C178_exchange_converges_partial (hne : clusters ≠ []) (hc : ExchangeChain.Connected clusters) (psi : (S → A) → ℂ) {pow : ℝ} (hp : 0 < pow)
    (hz : ∃ z : ExchangeChain.Sector σ₀, psi z.1 = 0)
    (hconn : ∀ x y : ExchangeChain.Sector σ₀, psi x.1 ≠ 0 → psi y.1 ≠ 0 →
      ReflTransGen (fun a b : ExchangeChain.Sector σ₀ => ExchangeChain.Swapped clusters a.1 b.1 ∧ psi b.1 ≠ 0) x y)
    (x : ExchangeChain.Sector σ₀) (hx : psi x.1 ≠ 0 ∨ ∃ y : ExchangeChain.Sector σ₀, ExchangeChain.Swapped clusters x.1 y.1 ∧ psi y.1 ≠ 0) :
    ConvergesFrom (spinChain σ₀ psi pow clusters) (spinTarget σ₀ psi pow) x := by
  have h := spin_zeros (σ₀ := σ₀) hne psi hp
  have hne' : ∀ x : ExchangeChain.Sector σ₀, spinTarget σ₀ psi pow x ≠ 0 ↔ psi x.1 ≠ 0 := fun x => not_congr (spinTarget_eq_zero psi hp x)
  obtain ⟨z, hz⟩ := hz
  obtain ⟨s, hs⟩ : ∃ s : ExchangeChain.Sector σ₀, psi s.1 ≠ 0 := by
    rcases hx with hx | ⟨y, -, hy⟩
    · exact ⟨x, hx⟩
    · exact ⟨y, hy⟩
  obtain ⟨a, b, hab, hpa, hpb⟩ := crossing (spin_connected hc s z) (fun a => psi a.1 ≠ 0) hs (not_not.mpr hz)
  refine h.converges ?_ ((hne' a).mpr hpa) ((spinTarget_eq_zero psi hp b).mpr (not_not.mp hpb)) (swapped_proposed hne hab) ?_
  · intro u v hu hv
    exact ReflTransGen.mono (fun c d (hcd : ExchangeChain.Swapped clusters c.1 d.1 ∧ psi d.1 ≠ 0) => ⟨swapped_proposed hne hcd.1, (hne' d).mpr hcd.2⟩) _ _ (hconn u v ((hne' u).mp hu) ((hne' v).mp hv))
  · rcases hx with hx | ⟨y, hy, hy'⟩
    · exact Or.inl ((hne' x).mpr hx)
    · exact Or.inr ⟨y, swapped_proposed hne hy, (hne' y).mpr hy'⟩

/-- The hypotheses are met, e.g. by one flipped spin among three with an amplitude of zero at one end. -/
example : ∃ psi : (Fin 3 → Fin 2) → ℂ, (∃ z : ExchangeChain.Sector (![0, 0, 1] : Fin 3 → Fin 2), psi z.1 = 0) ∧
    ∃ x : ExchangeChain.Sector (![0, 0, 1] : Fin 3 → Fin 2), psi x.1 = 0 ∧
      ∃ y : ExchangeChain.Sector (![0, 0, 1] : Fin 3 → Fin 2), ExchangeChain.Swapped [((0 : Fin 3), (1 : Fin 3)), (1, 2)] x.1 y.1 ∧ psi y.1 ≠ 0 :=
  ⟨fun x => if x = ![0, 0, 1] then 0 else 1, ⟨⟨_, fun _ => rfl⟩, if_pos rfl⟩, ⟨_, fun _ => rfl⟩, if_pos rfl,
    ⟨![0, 1, 0], by decide⟩, ⟨(1, 2), by decide, by decide⟩, by simp⟩

end exchange

end GPSKet.ZeroSampler
