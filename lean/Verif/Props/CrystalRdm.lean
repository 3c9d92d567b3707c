import Verif.Model.CrystalRdm
import Verif.Props.RdmsScript

/-!
# C128: the one-body density matrix of the hydrogen cluster script
-/

namespace GPSKet.CrystalRdm

open Spec

variable {L : ℕ}

/-- The operator `c†_{iσ} c_{jσ}`. -/
abbrev hop (s : Bool) (i j : Fin L) : Op L := cre (mode s i) * ann (mode s j)

theorem hop_row (x : Cfg L) (s : Bool) (i j : Fin L) (x' : Cfg L) :
    hop s i j (occOf x) (occOf x') = if x' = (conn x s i j).2 then (conn x s i j).1 else 0 := by
  have h : hop s i j (occOf x) (occOf x') = (hopS (mode s j) (mode s i)).mat (occOf x') (occOf x) := by
    rw [hopS_mat]
    exact (congrFun (congrFun (cre_mul_ann_transpose (mode s j) (mode s i)) (occOf x)) (occOf x')).symm
  rw [h]
  unfold SMap.mat
  rw [applyHopping_hopS]
  dsimp only
  unfold conn
  generalize applyHopping i j x (spinInt s) (some (cumsum (isOcc x (spinInt s)))) = r
  by_cases h0 : r.1 = 0
  · simp [h0]
  · simp only [if_neg h0, occOf_injective.eq_iff]

/-- **C128**: what a sample contributes is the local estimator of `c†_{iσ} c_{jσ}`. -/
theorem C128_local (psi : Cfg L → ℂ) (x : Cfg L) (s : Bool) (i j : Fin L) :
    psi (conn x s i j).2 / psi x * ((conn x s i j).1 : ℂ) = (∑ x', (hop s i j (occOf x) (occOf x') : ℂ) * psi x') / psi x := by
  simp only [hop_row]
  rw [Finset.sum_eq_single (conn x s i j).2]
  · rw [if_pos rfl]; ring
  · intro b _ hb
    rw [if_neg hb]; simp
  · simp

/-- The samples `samples ω r k` (rank `r`, `k`-th sample) have the distribution `|ψ|²`, each for itself; they may depend on each other. -/
def Drawn {Ω : Type} [Fintype Ω] {R : ℕ} (w : Ω → ℝ) (num : Fin R → ℕ) (samples : Ω → (r : Fin R) → Fin (num r) → Cfg L) (psi : Cfg L → ℂ) : Prop :=
  ∀ r k x, (∑ ω with samples ω r k = x, (w ω : ℂ)) = star (psi x) * psi x / normSq psi

/-- The lists of samples of all ranks. -/
def lists {R : ℕ} {num : Fin R → ℕ} (samples : (r : Fin R) → Fin (num r) → Cfg L) : List (List (Cfg L)) :=
  List.ofFn fun r => List.ofFn (samples r)

theorem oneRDM_lists (psi : Cfg L → ℂ) {R : ℕ} {num : Fin R → ℕ} (samples : (r : Fin R) → Fin (num r) → Cfg L) (s : Bool) (i j : Fin L) :
    oneRDM psi (lists samples) s i j = (∑ r, ∑ k, psi (conn (samples r k) s i j).2 / psi (samples r k) * ((conn (samples r k) s i j).1 : ℂ))
      / ((∑ r, num r : ℕ) : ℂ) := by
  unfold oneRDM lists
  simp only [List.map_ofFn, List.sum_ofFn, Function.comp_def, List.length_ofFn]

theorem mean_local {Ω : Type} [Fintype Ω] {R : ℕ} (w : Ω → ℝ) (num : Fin R → ℕ) (samples : Ω → (r : Fin R) → Fin (num r) → Cfg L)
    (psi : Cfg L → ℂ) (hd : Drawn w num samples psi) (r : Fin R) (k : Fin (num r)) (s : Bool) (i j : Fin L) :
    (∑ ω, (w ω : ℂ) * (psi (conn (samples ω r k) s i j).2 / psi (samples ω r k) * ((conn (samples ω r k) s i j).1 : ℂ)))
      = expect (hop s i j) psi := by
  rw [← Finset.sum_fiberwise (s := Finset.univ) (g := fun ω => samples ω r k)]
  unfold expect braket
  rw [Finset.sum_div]
  refine Finset.sum_congr rfl fun x _ => ?_
  have h1 : ∀ ω ∈ Finset.univ.filter (fun ω => samples ω r k = x),
      (w ω : ℂ) * (psi (conn (samples ω r k) s i j).2 / psi (samples ω r k) * ((conn (samples ω r k) s i j).1 : ℂ))
        = (w ω : ℂ) * ((∑ x', (hop s i j (occOf x) (occOf x') : ℂ) * psi x') / psi x) := by
    intro ω hω
    rw [(Finset.mem_filter.mp hω).2, C128_local]
  rw [Finset.sum_congr rfl h1, ← Finset.sum_mul, hd r k x]
  by_cases hx : psi x = 0
  · simp [hx]
  · rw [show (∑ x', star (psi x) * (hop s i j (occOf x) (occOf x') : ℂ) * psi x')
        = star (psi x) * ∑ x', (hop s i j (occOf x) (occOf x') : ℂ) * psi x' by
      rw [Finset.mul_sum]; exact Finset.sum_congr rfl fun _ _ => by ring]
    field_simp

/-- **C128**: the expected value of the array that `get_1RDM` returns is the one-body density matrix `⟨c†_{iσ} c_{jσ}⟩`, for every wave
function (with zeros or without, in one sector or not), every number of ranks and every number of samples on each of them. -/
theorem C128 {Ω : Type} [Fintype Ω] {R : ℕ} (w : Ω → ℝ) (num : Fin R → ℕ) (samples : Ω → (r : Fin R) → Fin (num r) → Cfg L)
    (psi : Cfg L → ℂ) (hd : Drawn w num samples psi) (hn : 0 < ∑ r, num r) (s : Bool) (i j : Fin L) :
    (∑ ω, (w ω : ℂ) * oneRDM psi (lists (samples ω)) s i j) = expect (cre (mode s i) * ann (mode s j)) psi := by
  have hn' : ((∑ r, num r : ℕ) : ℂ) ≠ 0 := by exact_mod_cast hn.ne'
  simp only [oneRDM_lists, ← mul_div_assoc]
  rw [← Finset.sum_div, div_eq_iff hn']
  simp only [Finset.mul_sum]
  rw [Finset.sum_comm]
  have h : ∀ r, (∑ ω, ∑ k, (w ω : ℂ) * (psi (conn (samples ω r k) s i j).2 / psi (samples ω r k) * ((conn (samples ω r k) s i j).1 : ℂ)))
      = (num r : ℂ) * expect (hop s i j) psi := by
    intro r
    rw [Finset.sum_comm, Finset.sum_congr rfl fun k _ => mean_local w num samples psi hd r k s i j]
    simp
  rw [Finset.sum_congr rfl fun r _ => h r, ← Finset.sum_mul]
  push_cast
  ring

/-! ### The diagonal, for every set of samples -/

theorem conn_diag (x : Cfg L) (s : Bool) (i : Fin L) : conn x s i i = (if hasSpin s (x i) = true then 1 else 0, x) := by
  unfold conn applyHopping
  by_cases h : hasSpin s (x i) = true
  · have h' := (hasSpin_iff s _).mp h
    simp only [h', if_false, if_true, h]
    simp
  · have h' : x i &&& spinInt s = 0 := by
      by_contra h2
      exact h ((hasSpin_iff s _).mpr h2)
    simp [h', h]

/-- **C128**: the diagonal has the exact share of the samples in which the orbital is occupied; in particular it is real and between 0 and 1. -/
theorem C128_diagonal (psi : Cfg L → ℂ) (ranks : List (List (Cfg L))) (hpsi : ∀ x ∈ ranks.flatten, psi x ≠ 0) (s : Bool) (i : Fin L) :
    oneRDM psi ranks s i i = (ranks.flatten.countP fun x => hasSpin s (x i)) / ranks.flatten.length := by
  unfold oneRDM
  dsimp only
  rw [List.length_flatten]
  congr 1
  have hone : ∀ l : List (Cfg L), (∀ x ∈ l, psi x ≠ 0) →
      (l.map fun y => psi (conn y s i i).2 / psi y * ((conn y s i i).1 : ℂ)).sum = (l.countP fun x => hasSpin s (x i) : ℕ) := by
    intro l
    induction l with
    | nil => simp
    | cons y l ih =>
      intro h
      rw [List.map_cons, List.sum_cons, ih fun x hx => h x (List.mem_cons_of_mem _ hx), conn_diag, List.countP_cons,
        div_self (h y List.mem_cons_self)]
      by_cases hy : hasSpin s (y i) = true
      · simp [hy, add_comm]
      · simp [hy]
  induction ranks with
  | nil => simp
  | cons l ranks ih =>
    rw [List.map_cons, List.sum_cons, hone l fun x hx => hpsi x (by simp [hx]), ih fun x hx => hpsi x (by
      rw [List.flatten_cons]; exact List.mem_append_right _ hx), List.flatten_cons, List.countP_append]
    push_cast; ring

/-- **C128**: the trace is the number of electrons of the spin, exactly and for every set of samples. -/
theorem C128_trace (psi : Cfg L → ℂ) (ranks : List (List (Cfg L))) (hpsi : ∀ x ∈ ranks.flatten, psi x ≠ 0) (hne : ranks.flatten ≠ [])
    (s : Bool) (n : ℕ) (hn : ∀ x ∈ ranks.flatten, numElec s x = n) : (∑ i, oneRDM psi ranks s i i) = n := by
  simp only [C128_diagonal psi ranks hpsi]
  rw [← Finset.sum_div, div_eq_iff (Nat.cast_ne_zero.mpr fun h => hne (List.length_eq_zero_iff.mp h))]
  have h : ∀ l : List (Cfg L), (∀ x ∈ l, numElec s x = n) → (∑ i : Fin L, (l.countP fun x => hasSpin s (x i))) = n * l.length := by
    intro l
    induction l with
    | nil => simp
    | cons y l ih =>
      intro h
      have hy : (∑ i : Fin L, if hasSpin s (y i) = true then 1 else 0) = n := by
        rw [← h y List.mem_cons_self, numElec, Finset.card_filter]
      simp only [List.countP_cons, Finset.sum_add_distrib]
      rw [ih fun x hx => h x (List.mem_cons_of_mem _ hx), hy, List.length_cons]
      ring
  exact_mod_cast h _ hn

/-! ### The hypotheses are met -/

/-- A state of one electron on two sites with amplitudes `1` and `2`, and no amplitude elsewhere. -/
noncomputable def tiny : Cfg 2 → ℂ := fun x => if x = ![1, 0] then 1 else if x = ![0, 1] then 2 else 0

theorem tiny_norm : normSq tiny = 5 := by
  unfold normSq
  have h : ∀ x : Cfg 2, star (tiny x) * tiny x = (if x = ![1, 0] then 1 else 0) + if x = ![0, 1] then 4 else 0 := by
    intro x
    unfold tiny
    by_cases h1 : x = ![1, 0]
    · subst h1
      have : (![1, 0] : Cfg 2) ≠ ![0, 1] := by decide
      simp
    · by_cases h2 : x = ![0, 1]
      · subst h2; simp; norm_num
      · simp [h1, h2]
  simp only [h, Finset.sum_add_distrib, Finset.sum_ite_eq', Finset.mem_univ, if_true]
  norm_num

/-- One rank with one sample and another with two equal ones, of this state. -/
example : Drawn (R := 2) (fun ω : Bool => if ω then 4 / 5 else 1 / 5) (fun r => r.val + 1)
    (fun ω _ _ => if ω then ![0, 1] else ![1, 0]) tiny ∧ 0 < ∑ r : Fin 2, (r.val + 1) := by
  refine ⟨fun r k x => ?_, by decide⟩
  rw [tiny_norm, Finset.sum_filter, Fintype.sum_bool]
  unfold tiny
  by_cases h1 : x = ![1, 0]
  · subst h1
    have : (![0, 1] : Cfg 2) ≠ ![1, 0] := by decide
    simp
  · by_cases h2 : x = ![0, 1]
    · subst h2; simp; norm_num
    · simp [h1, h2, Ne.symm h1, Ne.symm h2]

example : (∀ x ∈ ([[![1, 0]], [![0, 1], ![1, 0]]] : List (List (Cfg 2))).flatten, tiny x ≠ 0 ∧ numElec false x = 1) := by
  have h : (![0, 1] : Cfg 2) ≠ ![1, 0] := by decide
  intro x hx
  simp only [List.flatten_cons, List.flatten_nil, List.append_nil, List.cons_append, List.nil_append, List.mem_cons, List.not_mem_nil, or_false] at hx
  rcases hx with rfl | rfl | rfl
  · exact ⟨by simp [tiny], by decide⟩
  · exact ⟨by simp [tiny], by decide⟩
  · exact ⟨by simp [tiny], by decide⟩

end GPSKet.CrystalRdm
