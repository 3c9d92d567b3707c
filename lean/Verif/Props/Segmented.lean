import Verif.Model.Segmented
import Mathlib.Data.List.GetD
import Mathlib.Tactic.IntervalCases
import Mathlib.Tactic.FinCases

/-!
# Property C44: segmented qGPS

Specification: `before p x i` is the number of sites before `i` whose local state satisfies `p`.
-/

namespace GPSKet.Seg
open Spec

variable {L D M : ℕ}

/-- Number of sites before `i` whose local state satisfies `p`. -/
def before {A : Type} (p : A → Prop) [DecidablePred p] (x : Fin L → A) (i : Fin L) : ℕ :=
  (Finset.univ.filter fun j => j < i ∧ p (x j)).card

/-- Number of sites whose local state satisfies `p`. -/
def total {A : Type} (p : A → Prop) [DecidablePred p] (x : Fin L → A) : ℕ := (Finset.univ.filter fun j => p (x j)).card

theorem before_le_total {A : Type} (p : A → Prop) [DecidablePred p] (x : Fin L → A) (i : Fin L) : before p x i ≤ total p x :=
  Finset.card_le_card fun j hj => by simp only [Finset.mem_filter] at *; exact ⟨hj.1, hj.2.2⟩

theorem paddedCounts_getD (f : ℕ → ℕ) (l : List ℕ) (i : ℕ) (hi : i < l.length) :
    (paddedCounts f l).getD i 0 = ((l.map f).take i).sum := by
  unfold paddedCounts
  cases i with
  | zero => simp
  | succ i =>
    rw [List.getD_cons_succ]
    unfold cumsum
    rw [List.getD_eq_getElem _ _ (by simp; omega), List.getElem_map, List.getElem_range]
    congr 1
    rw [← List.map_take, ← List.map_take, List.dropLast_eq_take, List.take_take]
    congr 2
    omega

theorem paddedCounts_before (f : ℕ → ℕ) (p : Fin D → Prop) [DecidablePred p] (hf : ∀ d, f d.val = if p d then 1 else 0)
    (x : Fin L → Fin D) (i : Fin L) :
    (paddedCounts f (List.ofFn fun i => (x i).val)).getD i 0 = before p x i := by
  rw [paddedCounts_getD _ _ _ (by simp), List.map_ofFn, List.sum_take_ofFn]
  unfold before
  rw [Finset.card_filter]
  simp only [Function.comp_apply, hf]
  rw [Finset.sum_filter]
  apply Finset.sum_congr rfl
  intro j _
  by_cases h : j < i
  · simp [h]
  · simp [h]

theorem logPsi_eq {U W : ℕ} (countFn : List ℕ → List ℕ × List ℕ) (epsilon : Fin D → Fin M → Fin L → Fin (U + 1) → Fin (W + 1) → ℂ)
    (x : Fin L → Fin D) (u w : Fin L → ℕ) (hu : ∀ i : Fin L, (countFn (List.ofFn fun i => (x i).val)).1.getD i 0 = u i)
    (hw : ∀ i : Fin L, (countFn (List.ofFn fun i => (x i).val)).2.getD i 0 = w i) (hU : ∀ i, u i ≤ U) (hW : ∀ i, w i ≤ W) :
    logPsi countFn epsilon x = some (∑ m, ∏ i, epsilon (x i) m i ⟨u i, Nat.lt_succ_of_le (hU i)⟩ ⟨w i, Nat.lt_succ_of_le (hW i)⟩) := by
  have hl : ∀ m i, lookup epsilon (x i) m i (u i) (w i) =
      some (epsilon (x i) m i ⟨u i, Nat.lt_succ_of_le (hU i)⟩ ⟨w i, Nat.lt_succ_of_le (hW i)⟩) := by
    intro m i
    unfold lookup
    rw [dif_pos ⟨Nat.lt_succ_of_le (hU i), Nat.lt_succ_of_le (hW i)⟩]
  have hs : ∀ m, siteProduct (fun i => lookup epsilon (x i) m i (u i) (w i)) =
      some (∏ i, epsilon (x i) m i ⟨u i, Nat.lt_succ_of_le (hU i)⟩ ⟨w i, Nat.lt_succ_of_le (hW i)⟩) := by
    intro m
    unfold siteProduct
    rw [if_pos (by intro i; dsimp only; rw [hl]; rfl)]
    simp only [hl, Option.getD_some]
  unfold logPsi
  simp only [hu, hw, hs, Option.isSome_some, Option.getD_some, implies_true, if_true]

theorem card_sum_one_sub {A : Type} (p q : A → Prop) [DecidablePred p] [DecidablePred q] (h : ∀ a, q a ↔ ¬ p a) (x : Fin L → A) :
    total p x + total q x = L := by
  unfold total
  have : (Finset.univ.filter fun j => q (x j)) = (Finset.univ.filter fun j => ¬ p (x j)) := by
    apply Finset.filter_congr
    intro j _
    exact h (x j)
  rw [this, Finset.card_filter_add_card_filter_not, Finset.card_univ, Fintype.card_fin]

/-- **C44**, spins.  For every magnetisation `two_sz` and every configuration with it (`n_up - n_down = two_sz`), the model is set up, its
parameter table has room for `n_up + 1` and `n_down + 1` counts, no look-up is out of bounds, and the value is
`Σ_m Π_i ε[x_i, m, i, #up before i, #down before i]`. -/
theorem C44_spins (two_sz : ℤ) (x : Fin L → Fin 2) (hx : (total (· = 1) x : ℤ) - total (· = 0) x = two_sz) :
    setup L (.spinHalf (some two_sz)) = some (((total (· = 1) x : ℤ), (total (· = 0) x : ℤ)), countSpins) ∧
    ∀ (epsilon : Fin 2 → Fin M → Fin L → Fin (total (· = 1) x + 1) → Fin (total (· = 0) x + 1) → ℂ),
      logPsi countSpins epsilon x = some (∑ m, ∏ i, epsilon (x i) m i ⟨before (· = 1) x i, Nat.lt_succ_of_le (before_le_total _ _ _)⟩
        ⟨before (· = 0) x i, Nat.lt_succ_of_le (before_le_total _ _ _)⟩) := by
  have hsum := card_sum_one_sub (L := L) (fun a : Fin 2 => a = 1) (fun a => a = 0) (by decide) x
  constructor
  · unfold setup
    dsimp only
    have habs : |two_sz| = two_sz ∨ |two_sz| = -two_sz := abs_choice two_sz
    have habs0 := le_abs_self two_sz
    have habs1 := neg_le_abs two_sz
    split_ifs with h1 h2
    · simp only [Option.some.injEq, Prod.mk.injEq, and_true]; constructor <;> omega
    · simp only [Option.some.injEq, Prod.mk.injEq, and_true]; constructor <;> omega
    · simp only [Option.some.injEq, Prod.mk.injEq, and_true]; constructor <;> omega
  · intro epsilon
    apply logPsi_eq _ _ _ _ _ _ _ (fun i => before_le_total _ _ _) (fun i => before_le_total _ _ _)
    · intro i
      exact paddedCounts_before _ (· = 1) (by decide) x i
    · intro i
      exact paddedCounts_before _ (· = 0) (by decide) x i

/-- **C44**, fermions.  For every configuration of the space with `n_elec` electrons. -/
theorem C44_fermions (n_elec : ℕ × ℕ) (x : Cfg L) (hx : numElec false x = n_elec.1 ∧ numElec true x = n_elec.2) :
    setup L (.fermionic (some n_elec)) = some (((n_elec.1 : ℤ), (n_elec.2 : ℤ)), countFermions) ∧
    ∃ (hu : ∀ i, before (fun v => hasSpin false v = true) x i ≤ n_elec.1) (hw : ∀ i, before (fun v => hasSpin true v = true) x i ≤ n_elec.2),
    ∀ (epsilon : Fin 4 → Fin M → Fin L → Fin (n_elec.1 + 1) → Fin (n_elec.2 + 1) → ℂ),
      logPsi countFermions epsilon x = some (∑ m, ∏ i, epsilon (x i) m i
        ⟨before (fun v => hasSpin false v = true) x i, Nat.lt_succ_of_le (hu i)⟩
        ⟨before (fun v => hasSpin true v = true) x i, Nat.lt_succ_of_le (hw i)⟩) := by
  have hu : ∀ i, before (fun v => hasSpin false v = true) x i ≤ n_elec.1 := by
    intro i; rw [← hx.1]; exact before_le_total _ _ _
  have hw : ∀ i, before (fun v => hasSpin true v = true) x i ≤ n_elec.2 := by
    intro i; rw [← hx.2]; exact before_le_total _ _ _
  refine ⟨rfl, hu, hw, ?_⟩
  · intro epsilon
    apply logPsi_eq _ _ _ _ _ _ _ hu hw
    · intro i
      exact paddedCounts_before _ (fun v => hasSpin false v = true) (by decide) x i
    · intro i
      exact paddedCounts_before _ (fun v => hasSpin true v = true) (by decide) x i

/-- Spaces without a fixed number of particles are rejected when the model is set up. -/
theorem C44_unconstrained (L : ℕ) : setup L (.fermionic none) = none ∧ setup L (.spinHalf none) = none := ⟨rfl, rfl⟩

/-- three spins with magnetisation 1/2, configuration down up up: the counts before the last site are one and one -/
example : let x : Fin 3 → Fin 2 := ![0, 1, 1]
    (total (· = 1) x : ℤ) - total (· = 0) x = 1 ∧ before (· = 1) x 2 = 1 ∧ before (· = 0) x 2 = 1 := by decide

/-- a doubly occupied and an empty orbital -/
example : let x : Cfg 2 := ![3, 0]
    numElec false x = 1 ∧ numElec true x = 1 ∧ before (fun v => hasSpin false v = true) x 1 = 1 := by decide

end GPSKet.Seg
