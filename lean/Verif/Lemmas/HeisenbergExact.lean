import Verif.Props.ZeroEnergy

/-! # Heisenberg models as sums of exchanges (for C200) -/

set_option linter.unusedSimpArgs false

namespace GPSKet.HeisenbergExact
open Spec Floats ZeroEnergy

variable {N : ℕ}

/-- The configuration with the spins of two sites exchanged. -/
def exchanged (x : Spins N) (i j : Fin N) : Spins N := fun k => x (Equiv.swap i j k)

theorem exchanged_exchanged (x : Spins N) (i j : Fin N) : exchanged (exchanged x i j) i j = x := by
  funext k
  simp [exchanged]

theorem exchanged_comm (x : Spins N) (i j : Fin N) : exchanged x i j = exchanged x j i := by
  unfold exchanged
  rw [Equiv.swap_comm]

/-- Exchanging the spins of two sites runs through all configurations. -/
def exchangeEquiv (i j : Fin N) : Spins N ≃ Spins N :=
  ⟨fun x => exchanged x i j, fun x => exchanged x i j, fun x => exchanged_exchanged x i j, fun x => exchanged_exchanged x i j⟩

theorem exchanged_eq_update (x : Spins N) {i j : Fin N} (hij : i ≠ j) :
    Function.update (Function.update x i (x j)) j (x i) = exchanged x i j := by
  funext k
  unfold exchanged
  by_cases h1 : k = j
  · subst h1; simp
  · by_cases h2 : k = i
    · subst h2; simp [h1]
    · simp [h1, h2, Equiv.swap_apply_of_ne_of_ne]

theorem exchanged_eq_self (x : Spins N) {i j : Fin N} (h : x i = x j) : exchanged x i j = x := by
  funext k
  unfold exchanged
  rw [Equiv.swap_apply_def]
  split_ifs with h1 h2
  · rw [h1, h]
  · rw [h2, h]
  · rfl

/-- The contribution of a bond with `J = 1` to `(Hψ)(x)`: `σ_i · σ_j = 2 P_ij - 1`. -/
noncomputable def bondValue (psi : Spins N → ℂ) (x : Spins N) (i j : Fin N) : ℂ := 2 * psi (exchanged x i j) - psi x

theorem bond_row (J : ℂ) (psi : Spins N → ℂ) (x : Spins N) {i j : Fin N} (hij : i ≠ j) :
    (∑ y, (if ∀ k, k ≠ i → k ≠ j → x k = y k then
      heisenbergBond J false (pairIndex (x i) (x j)) (pairIndex (y i) (y j)) else 0) * psi y) = J * bondValue psi x i j := by
  have hO : OnlyExchange (heisenbergBond J false) := by
    intro p q p' q' h1 h2
    revert h1 h2
    cases p <;> cases q <;> cases p' <;> cases q' <;> simp [heisenbergBond, pairIndex]
  rw [bond_sum _ hO x hij, exchanged_eq_update x hij, bondValue]
  by_cases h : x i = x j
  · rw [if_neg (not_not.2 h), exchanged_eq_self x h]
    cases h1 : x j <;> simp [h, h1, heisenbergBond, pairIndex] <;> exact Or.inl (by ring)
  · rw [if_pos h]
    cases h1 : x i <;> cases h2 : x j <;> simp_all [heisenbergBond, pairIndex] <;> ring

/-- `(Hψ)(x)` as a sum over the bonds. -/
theorem row_eq (bonds : List ((Fin N × Fin N) × ℝ)) (hd : ∀ b ∈ bonds, b.1.1 ≠ b.1.2) (psi : Spins N → ℂ) (x : Spins N) :
    ∑ y, bondOperator (bonds.map fun b => (b.1, heisenbergBond (b.2 : ℂ) false)) x y * psi y
      = (bonds.map fun b => (b.2 : ℂ) * bondValue psi x b.1.1 b.1.2).sum := by
  induction bonds with
  | nil => simp [bondOperator]
  | cons b bs ih =>
    have ih := ih fun b hb => hd b (List.mem_cons_of_mem _ hb)
    rw [List.map_cons, List.map_cons, List.sum_cons, ← ih, ← bond_row (b.2 : ℂ) psi x (hd b List.mem_cons_self), ← Finset.sum_add_distrib]
    refine Finset.sum_congr rfl fun y _ => ?_
    rw [← add_mul]
    congr 1

/-- The local energy that the on-the-fly evaluation of a Heisenberg operator without sign rule returns for a model with the amplitudes
`psi`, which may vanish. -/
noncomputable def energyAt (bonds : List ((Fin N × Fin N) × ℝ)) (psi : Spins N → ℂ) (x : Spins N) : FC :=
  floatSpin (fun σ => psi (toSpins σ)) (bonds.map fun b => (b.1, heisenbergBond (b.2 : ℂ) false)) fun k => spinVal (x k)

theorem energyAt_eq (bonds : List ((Fin N × Fin N) × ℝ)) (hd : ∀ b ∈ bonds, b.1.1 ≠ b.1.2) (psi : Spins N → ℂ) (x : Spins N)
    (hx : psi x ≠ 0) :
    energyAt bonds psi x = FC.ofC ((bonds.map fun b => (b.2 : ℂ) * bondValue psi x b.1.1 b.1.2).sum / psi x) := by
  have h := float_spin (bonds.map fun b => (b.1, ((b.2 : ℂ), false)))
    (by intro b hb; obtain ⟨c, hc, rfl⟩ := List.mem_map.mp hb; exact hd c hc) psi x hx
  simp only [List.map_map, Function.comp_def] at h
  rw [energyAt, h]
  congr 2
  exact row_eq bonds hd psi x

theorem ofC_injective {a b : ℂ} (h : FC.ofC a = FC.ofC b) : a = b := by
  unfold FC.ofC at h
  simp only [FC.mk.injEq, F.fin.injEq] at h
  exact Complex.ext h.1 h.2

/-! ## Three spins -/

/-- Of three spins two are equal, so that the antisymmetric combination of their permutations vanishes. -/
theorem three (psi : Spins N → ℂ) (x : Spins N) {i j k : Fin N} (hij : i ≠ j) (hik : i ≠ k) (hjk : j ≠ k) :
    psi x + psi (exchanged (exchanged x i k) i j) + psi (exchanged (exchanged x j k) i j)
      = psi (exchanged x i j) + psi (exchanged x i k) + psi (exchanged x j k) := by
  have key : x i = x j ∨ x i = x k ∨ x j = x k := by
    cases x i <;> cases x j <;> cases x k <;> simp
  have ext3 : ∀ y z : Spins N, y i = z i → y j = z j → y k = z k → (∀ l, l ≠ i → l ≠ j → l ≠ k → y l = z l) → y = z := by
    intro y z h1 h2 h3 h4
    funext l
    by_cases e1 : l = i
    · rw [e1, h1]
    by_cases e2 : l = j
    · rw [e2, h2]
    by_cases e3 : l = k
    · rw [e3, h3]
    exact h4 l e1 e2 e3
  have hji := hij.symm
  have hki := hik.symm
  have hkj := hjk.symm
  have rest : ∀ l, l ≠ i → l ≠ j → l ≠ k → ∀ a b c d : Fin N, (a = i ∨ a = j ∨ a = k) → (b = i ∨ b = j ∨ b = k) →
      (c = i ∨ c = j ∨ c = k) → (d = i ∨ d = j ∨ d = k) → exchanged (exchanged x a b) c d l = x l := by
    intro l h1 h2 h3 a b c d ha hb hc hd
    have hn : ∀ e, (e = i ∨ e = j ∨ e = k) → l ≠ e := by
      rintro e (rfl | rfl | rfl) <;> assumption
    unfold exchanged
    rw [Equiv.swap_apply_of_ne_of_ne (hn c hc) (hn d hd), Equiv.swap_apply_of_ne_of_ne (hn a ha) (hn b hb)]
  have rest1 : ∀ l, l ≠ i → l ≠ j → l ≠ k → ∀ a b : Fin N, (a = i ∨ a = j ∨ a = k) → (b = i ∨ b = j ∨ b = k) →
      exchanged x a b l = x l := by
    intro l h1 h2 h3 a b ha hb
    have hn : ∀ e, (e = i ∨ e = j ∨ e = k) → l ≠ e := by
      rintro e (rfl | rfl | rfl) <;> assumption
    unfold exchanged
    rw [Equiv.swap_apply_of_ne_of_ne (hn a ha) (hn b hb)]
  rcases key with h | h | h
  · have e1 : exchanged (exchanged x i k) i j = exchanged x j k := by
      apply ext3
      · simp [exchanged, hij, hik, hjk, hji, hki, hkj, Equiv.swap_apply_of_ne_of_ne, h]
      · simp [exchanged, hij, hik, hjk, hji, hki, hkj, Equiv.swap_apply_of_ne_of_ne, h]
      · simp [exchanged, hij, hik, hjk, hji, hki, hkj, Equiv.swap_apply_of_ne_of_ne, h]
      · intro l h1 h2 h3
        rw [rest l h1 h2 h3 i k i j (by simp) (by simp) (by simp) (by simp), rest1 l h1 h2 h3 j k (by simp) (by simp)]
    have e2 : exchanged (exchanged x j k) i j = exchanged x i k := by
      apply ext3
      · simp [exchanged, hij, hik, hjk, hji, hki, hkj, Equiv.swap_apply_of_ne_of_ne, h]
      · simp [exchanged, hij, hik, hjk, hji, hki, hkj, Equiv.swap_apply_of_ne_of_ne, h]
      · simp [exchanged, hij, hik, hjk, hji, hki, hkj, Equiv.swap_apply_of_ne_of_ne, h]
      · intro l h1 h2 h3
        rw [rest l h1 h2 h3 j k i j (by simp) (by simp) (by simp) (by simp), rest1 l h1 h2 h3 i k (by simp) (by simp)]
    rw [e1, e2, exchanged_eq_self x h]
    ring
  · have e2 : exchanged (exchanged x j k) i j = exchanged x j k := by
      apply ext3
      · simp [exchanged, hij, hik, hjk, hji, hki, hkj, Equiv.swap_apply_of_ne_of_ne, h]
      · simp [exchanged, hij, hik, hjk, hji, hki, hkj, Equiv.swap_apply_of_ne_of_ne, h]
      · simp [exchanged, hij, hik, hjk, hji, hki, hkj, Equiv.swap_apply_of_ne_of_ne, h]
      · intro l h1 h2 h3
        rw [rest l h1 h2 h3 j k i j (by simp) (by simp) (by simp) (by simp), rest1 l h1 h2 h3 j k (by simp) (by simp)]
    rw [e2, exchanged_eq_self x h]
    ring
  · have e1 : exchanged (exchanged x i k) i j = exchanged x i k := by
      apply ext3
      · simp [exchanged, hij, hik, hjk, hji, hki, hkj, Equiv.swap_apply_of_ne_of_ne, h]
      · simp [exchanged, hij, hik, hjk, hji, hki, hkj, Equiv.swap_apply_of_ne_of_ne, h]
      · simp [exchanged, hij, hik, hjk, hji, hki, hkj, Equiv.swap_apply_of_ne_of_ne, h]
      · intro l h1 h2 h3
        rw [rest l h1 h2 h3 i k i j (by simp) (by simp) (by simp) (by simp), rest1 l h1 h2 h3 i k (by simp) (by simp)]
    rw [e1, exchanged_eq_self x h]
    ring

/-- Two spins in a singlet do not feel a third one that couples to both of them. -/
theorem singlet_screens (psi : Spins N → ℂ) {i j k : Fin N} (hij : i ≠ j) (hik : i ≠ k) (hjk : j ≠ k)
    (h : ∀ y, psi (exchanged y i j) = -psi y) (x : Spins N) : bondValue psi x i k + bondValue psi x j k = 0 := by
  have := three psi x hij hik hjk
  rw [h, h, h] at this
  unfold bondValue
  linear_combination -this

end GPSKet.HeisenbergExact
