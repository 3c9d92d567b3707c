import Verif.Model.SamplerChain
import Verif.Spec.Sampling
import Verif.Lemmas.Markov
import Mathlib.Analysis.SpecialFunctions.Pow.Real

/-! # The kernel of a Metropolis chain with a symmetric proposal -/

namespace GPSKet.SamplerChain
open Spec MeasureTheory

variable {S A D : Type}

/-- the unnormalised target: a power of the modulus of the amplitude -/
noncomputable def weight (logpsi : (S → A) → ℂ) (pow : ℝ) (x : S → A) : ℝ := ‖Complex.exp (logpsi x)‖ ^ pow

theorem weight_eq (logpsi : (S → A) → ℂ) (pow : ℝ) (x : S → A) :
    weight logpsi pow x = Real.exp (pow * (logpsi x).re) := by
  rw [weight, Complex.norm_exp, ← Real.exp_mul, mul_comm]

theorem weight_pos (logpsi : (S → A) → ℂ) (pow : ℝ) (x : S → A) : 0 < weight logpsi pow x := by
  rw [weight_eq]; exact Real.exp_pos _

theorem accept_pos {C : Type} {π : C → ℝ} (h : ∀ x, 0 < π x) (x y : C) : 0 < metropolisAccept π x y :=
  lt_min one_pos (div_pos (h y) (h x))

theorem accept_le {C : Type} (π : C → ℝ) (x y : C) : metropolisAccept π x y ≤ 1 := min_le_left _ _

theorem accept_symm {C : Type} {π : C → ℝ} (h : ∀ x, 0 < π x) (x y : C) :
    π x * metropolisAccept π x y = π y * metropolisAccept π y x := by
  have h1 := h x
  have h2 := h y
  unfold metropolisAccept
  rw [mul_min_of_nonneg _ _ h1.le, mul_min_of_nonneg _ _ h2.le, mul_one, mul_one,
    mul_div_cancel₀ _ h1.ne', mul_div_cancel₀ _ h2.ne', min_comm]

open Classical in
/-- the law of one accept test: the uniform variate accepts with the Metropolis probability -/
theorem volume_step (logpsi : (S → A) → ℂ) (pow : ℝ) (proposal : D → (S → A) → (S → A) × S × S) (d : D) (x y : S → A) :
    (volume {u : ℝ | u ∈ Set.Ico (0 : ℝ) 1 ∧ mhStep logpsi pow (fun _ => x) (drawInput proposal d u) () = y}).toReal =
      (if (proposal d x).1 = y then metropolisAccept (weight logpsi pow) x y else 0) +
      (if x = y then 1 - metropolisAccept (weight logpsi pow) x (proposal d x).1 else 0) := by
  set p := (proposal d x).1 with hp
  set r := metropolisAccept (weight logpsi pow) x p with hr
  have hr0 : 0 < r := accept_pos (weight_pos logpsi pow) x p
  have hr1 : r ≤ 1 := accept_le _ _ _
  have hacc : ∀ u : ℝ, u ∈ Set.Ico (0 : ℝ) 1 → (Accepts logpsi pow (fun _ => x) (drawInput proposal d u) () ↔ u < r) := by
    intro u hu
    unfold Accepts
    simp only [drawInput]
    rw [add_zero, ← hp, Real.exp_sub, ← weight_eq, ← weight_eq, hr, metropolisAccept, lt_min_iff]
    exact ⟨fun h => ⟨hu.2, h⟩, fun h => h.2⟩
  have hstep : ∀ u : ℝ, u ∈ Set.Ico (0 : ℝ) 1 →
      mhStep logpsi pow (fun _ => x) (drawInput proposal d u) () = if u < r then p else x := by
    intro u hu
    unfold mhStep
    by_cases h : u < r
    · rw [if_pos h, if_pos ((hacc u hu).mpr h)]; rfl
    · rw [if_neg h, if_neg (fun h' => h ((hacc u hu).mp h'))]
  have hset : {u : ℝ | u ∈ Set.Ico (0 : ℝ) 1 ∧ mhStep logpsi pow (fun _ => x) (drawInput proposal d u) () = y} =
      {u : ℝ | u ∈ Set.Ico (0 : ℝ) 1 ∧ (if u < r then p else x) = y} := by
    ext u
    constructor
    · rintro ⟨h1, h2⟩; exact ⟨h1, by rw [← hstep u h1]; exact h2⟩
    · rintro ⟨h1, h2⟩; exact ⟨h1, by rw [hstep u h1]; exact h2⟩
  rw [hset]
  by_cases h1 : p = y
  · by_cases h2 : x = y
    · have : {u : ℝ | u ∈ Set.Ico (0 : ℝ) 1 ∧ (if u < r then p else x) = y} = Set.Ico 0 1 := by
        ext u
        simp only [h1, h2, ite_self, and_true, Set.mem_ofPred_eq]
      rw [this, Real.volume_Ico, if_pos h1, if_pos h2, hr, h1]
      simp
    · have : {u : ℝ | u ∈ Set.Ico (0 : ℝ) 1 ∧ (if u < r then p else x) = y} = Set.Ico 0 r := by
        ext u
        simp only [Set.mem_ofPred_eq, Set.mem_Ico]
        constructor
        · rintro ⟨⟨a, b⟩, c⟩
          refine ⟨a, ?_⟩
          by_contra h
          rw [if_neg h] at c
          exact h2 c
        · rintro ⟨a, b⟩
          exact ⟨⟨a, lt_of_lt_of_le b hr1⟩, by rw [if_pos b, h1]⟩
      rw [this, Real.volume_Ico, if_pos h1, if_neg h2, hr, h1]
      rw [← h1, ← hr]
      simp [hr0.le]
  · by_cases h2 : x = y
    · have : {u : ℝ | u ∈ Set.Ico (0 : ℝ) 1 ∧ (if u < r then p else x) = y} = Set.Ico r 1 := by
        ext u
        simp only [Set.mem_ofPred_eq, Set.mem_Ico]
        constructor
        · rintro ⟨⟨a, b⟩, c⟩
          refine ⟨?_, b⟩
          by_contra h
          rw [if_pos (not_le.mp h)] at c
          exact h1 c
        · rintro ⟨a, b⟩
          exact ⟨⟨hr0.le.trans a, b⟩, by rw [if_neg (not_lt.mpr a), h2]⟩
      rw [this, Real.volume_Ico, if_neg h1, if_pos h2, ENNReal.toReal_ofReal (by linarith)]
      simp
    · have : {u : ℝ | u ∈ Set.Ico (0 : ℝ) 1 ∧ (if u < r then p else x) = y} = ∅ := by
        ext u
        simp only [Set.mem_ofPred_eq, Set.mem_empty_iff_false, iff_false, not_and]
        intro _ c
        split_ifs at c
        · exact h1 c
        · exact h2 c
      rw [this, if_neg h1, if_neg h2]
      simp

variable [Fintype D] {logpsi : (S → A) → ℂ} {pow : ℝ} {law : (S → A) → D → ℝ}
  {proposal : D → (S → A) → (S → A) × S × S}

open Classical in
/-- probability that the rule proposes `y` from `x` -/
noncomputable def proposed (law : (S → A) → D → ℝ) (proposal : D → (S → A) → (S → A) × S × S) (x y : S → A) : ℝ :=
  ∑ d, if (proposal d x).1 = y then law x d else 0

/-- a step to another configuration: proposed and accepted -/
theorem stepProb_ne {x y : S → A} (h : x ≠ y) :
    stepProb logpsi pow law proposal x y = proposed law proposal x y * metropolisAccept (weight logpsi pow) x y := by
  classical
  unfold stepProb proposed
  rw [Finset.sum_mul]
  apply Finset.sum_congr rfl
  intro d _
  rw [volume_step, if_neg h, add_zero]
  by_cases h1 : (proposal d x).1 = y <;> simp [h1]

theorem stepProb_nonneg (x y : S → A) (hl : ∀ d, 0 ≤ law x d) : 0 ≤ stepProb logpsi pow law proposal x y :=
  Finset.sum_nonneg fun d _ => mul_nonneg (hl d) ENNReal.toReal_nonneg

variable {α : Type} [Fintype α] {emb : α → S → A}

/-- If the rule's outcomes have a law and proposals stay in the space, the chain has a transition kernel. -/
theorem kernel (hinj : Function.Injective emb) (hl : ∀ x d, 0 ≤ law (emb x) d) (hs : ∀ x, ∑ d, law (emb x) d = 1)
    (hc : ∀ x d, law (emb x) d ≠ 0 → ∃ x', (proposal d (emb x)).1 = emb x') :
    IsKernel (Matrix.of fun x y => stepProb logpsi pow law proposal (emb x) (emb y)) := by
  classical
  refine ⟨fun x y => stepProb_nonneg _ _ (hl x), fun x => ?_⟩
  simp only [Matrix.of_apply]
  unfold stepProb
  rw [Finset.sum_comm]
  refine Eq.trans ?_ (hs x)
  apply Finset.sum_congr rfl
  intro d _
  rw [← Finset.mul_sum]
  by_cases h0 : law (emb x) d = 0
  · rw [h0, zero_mul]
  obtain ⟨x', hx'⟩ := hc x d h0
  have e : ∀ y, (volume {u : ℝ | u ∈ Set.Ico (0 : ℝ) 1 ∧
      mhStep logpsi pow (fun _ => emb x) (drawInput proposal d u) () = emb y}).toReal =
      (if x' = y then metropolisAccept (weight logpsi pow) (emb x) (emb y) else 0) +
      (if x = y then 1 - metropolisAccept (weight logpsi pow) (emb x) (emb x') else 0) := by
    intro y
    rw [volume_step, hx']
    simp only [hinj.eq_iff]
  rw [Finset.sum_congr rfl fun y _ => e y, Finset.sum_add_distrib, Finset.sum_ite_eq, Finset.sum_ite_eq]
  simp

omit [Fintype α] in
/-- Detailed balance. -/
theorem reversible (hsym : ∀ x y, proposed law proposal (emb x) (emb y) = proposed law proposal (emb y) (emb x))
    (hinj : Function.Injective emb) (x y : α) :
    weight logpsi pow (emb x) * stepProb logpsi pow law proposal (emb x) (emb y) =
      weight logpsi pow (emb y) * stepProb logpsi pow law proposal (emb y) (emb x) := by
  by_cases h : x = y
  · rw [h]
  have h' : emb x ≠ emb y := fun e => h (hinj e)
  rw [stepProb_ne h', stepProb_ne h'.symm, hsym]
  linear_combination proposed law proposal (emb y) (emb x) * accept_symm (weight_pos logpsi pow) (emb x) (emb y)

/-- A proposal of positive probability is made and accepted with positive probability. -/
theorem stepProb_pos {x : S → A} (hl : ∀ d, 0 ≤ law x d) (d : D) (hd : 0 < law x d) :
    0 < stepProb logpsi pow law proposal x (proposal d x).1 := by
  classical
  unfold stepProb
  apply Finset.sum_pos' (fun d _ => mul_nonneg (hl d) ENNReal.toReal_nonneg)
  refine ⟨d, Finset.mem_univ d, mul_pos hd ?_⟩
  rw [volume_step, if_pos rfl]
  have := accept_pos (weight_pos logpsi pow) x (proposal d x).1
  have h1 := accept_le (weight logpsi pow) x (proposal d x).1
  split_ifs <;> linarith

/-- If a less likely configuration is proposed, the chain may stay. -/
theorem stepProb_stay {x : S → A} (hl : ∀ d, 0 ≤ law x d) (d : D) (hd : 0 < law x d)
    (hw : weight logpsi pow (proposal d x).1 < weight logpsi pow x) : 0 < stepProb logpsi pow law proposal x x := by
  classical
  unfold stepProb
  apply Finset.sum_pos' (fun d _ => mul_nonneg (hl d) ENNReal.toReal_nonneg)
  refine ⟨d, Finset.mem_univ d, mul_pos hd ?_⟩
  rw [volume_step, if_pos rfl]
  have h1 : metropolisAccept (weight logpsi pow) x (proposal d x).1 < 1 :=
    min_lt_of_right_lt ((div_lt_one (weight_pos logpsi pow x)).mpr hw)
  have h2 := accept_pos (weight_pos logpsi pow) x x
  split_ifs <;> linarith

end GPSKet.SamplerChain
