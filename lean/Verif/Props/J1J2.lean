import Verif.Model.J1J2
import Verif.Spec.Spins
import Verif.Lemmas.Hubbard

/-!
# Property C11: on-the-fly Heisenberg local energy

Specification used: `Verif/Spec/Spins.lean`.
-/

namespace GPSKet
open Spec J1J2

variable {N : ℕ} {Cache : Type}

/-- `x` with the two sites of a bond set to given spins. -/
private theorem spin_update (x : Spins N) (i j : Fin N) (a b : Bool) :
    Function.update (Function.update (fun k => spinVal (x k)) i (spinVal a)) j (spinVal b) =
      fun k => spinVal (Function.update (Function.update x i a) j b k) := by
  funext k
  by_cases h1 : k = j
  · subst h1; simp
  · by_cases h2 : k = i
    · subst h2; simp [h1]
    · simp [h1, h2]

/-- The row of one bond operator applied to a function: diagonal plus exchange term. -/
theorem bond_sum (O : Matrix (Fin 4) (Fin 4) ℂ) (hO : OnlyExchange O) (x : Spins N) {i j : Fin N}
    (hij : i ≠ j) (f : Spins N → ℂ) :
    (∑ x', (if ∀ k, k ≠ i → k ≠ j → x k = x' k then
        O (pairIndex (x i) (x j)) (pairIndex (x' i) (x' j)) else 0) * f x') =
      O (pairIndex (x i) (x j)) (pairIndex (x i) (x j)) * f x +
      if x i ≠ x j then O (pairIndex (x i) (x j)) (pairIndex (x j) (x i)) *
        f (Function.update (Function.update x i (x j)) j (x i)) else 0 := by
  classical
  set y := Function.update (Function.update x i (x j)) j (x i) with hy
  have hyi : y i = x j := by simp [hy, hij]
  have hyj : y j = x i := by simp [hy]
  have hyk : ∀ k, k ≠ i → k ≠ j → y k = x k := by intro k h1 h2; simp [hy, h1, h2]
  have hz : ∀ x', x' ≠ x → x' ≠ y → (if ∀ k, k ≠ i → k ≠ j → x k = x' k then
        O (pairIndex (x i) (x j)) (pairIndex (x' i) (x' j)) else 0) * f x' = 0 := by
    intro x' h1 h2
    by_cases hc : ∀ k, k ≠ i → k ≠ j → x k = x' k
    · rw [if_pos hc, hO, zero_mul]
      · intro he
        simp only [Prod.mk.injEq] at he
        apply h1
        funext k
        by_cases hi : k = i
        · rw [hi, he.1]
        · by_cases hj : k = j
          · rw [hj, he.2]
          · exact (hc k hi hj).symm
      · intro he
        simp only [Prod.mk.injEq] at he
        apply h2
        funext k
        by_cases hi : k = i
        · rw [hi, hyi, he.2]
        · by_cases hj : k = j
          · rw [hj, hyj, he.1]
          · rw [hyk k hi hj]; exact (hc k hi hj).symm
    · rw [if_neg hc, zero_mul]
  by_cases hs : x i = x j
  · have hyx : y = x := by
      funext k
      by_cases hi : k = i
      · rw [hi, hyi, hs]
      · by_cases hj : k = j
        · rw [hj, hyj, hs]
        · exact hyk k hi hj
    rw [Finset.sum_eq_single x]
    · simp [hs]
    · intro x' _ h
      exact hz x' h (by rw [hyx]; exact h)
    · simp
  · have hne : x ≠ y := by
      intro h
      have := congrFun h i
      rw [hyi] at this
      exact hs this
    rw [← Finset.sum_subset (Finset.subset_univ {x, y}), Finset.sum_pair hne]
    · rw [if_pos (fun _ _ _ => rfl), if_pos (fun k h1 h2 => (hyk k h1 h2).symm), hyi, hyj, if_pos hs]
    · intro x' _ h
      simp only [Finset.mem_insert, Finset.mem_singleton, not_or] at h
      exact hz x' h.1 h.2

/-- One bond: the kernel's term is the bond operator's row applied to the amplitude ratios. -/
private theorem bondTerm_eq (src : AmpSource N ℤ Cache) (x : Spins N) (hs : src.OkAt (fun k => spinVal (x k)))
    (O : Matrix (Fin 4) (Fin 4) ℂ) (hsw : SwapInvariant O) {i j : Fin N} (hij : i ≠ j) :
    bondTerm src (fun k => spinVal (x k)) ((i, j), O) =
      O (pairIndex (x i) (x j)) (pairIndex (x i) (x j)) +
      if x i ≠ x j then O (pairIndex (x i) (x j)) (pairIndex (x j) (x i)) *
        (Complex.exp (src.logAmp fun k => spinVal (Function.update (Function.update x i (x j)) j (x i) k)) /
          Complex.exp (src.logAmp fun k => spinVal (x k))) else 0 := by
  have h1 := hsw false true false true
  have h2 := hsw false true true false
  simp only [pairIndex] at h1 h2
  unfold bondTerm computeElement
  simp only [conn_two src _ hs hij.symm]
  rcases Bool.eq_false_or_eq_true (x i) with hi | hi <;> rcases Bool.eq_false_or_eq_true (x j) with hj | hj
  · simp [hi, hj, spinVal, basisIndex, localIndex, offDiagConnected, pairIndex]
  · have e : newOcc 2 = (spinVal false, spinVal true) := rfl
    have hb : basisIndex (spinVal true) (spinVal false) = 1 := rfl
    have ho : offDiagConnected 1 = 2 := rfl
    simp only [hi, hj, hb, ho, e, spin_update, Complex.exp_sub, pairIndex]
    rw [if_pos (by decide), if_pos (by decide), h1, h2, add_comm]
  · have e : newOcc 1 = (spinVal true, spinVal false) := rfl
    have hb : basisIndex (spinVal false) (spinVal true) = 2 := rfl
    have ho : offDiagConnected 2 = 1 := rfl
    simp only [hi, hj, hb, ho, e, spin_update, Complex.exp_sub, pairIndex]
    rw [if_pos (by decide), if_pos (by decide), h1, h2, add_comm]
  · simp [hi, hj, spinVal, basisIndex, localIndex, offDiagConnected, pairIndex]

/-- **C11 (partial)**: the on-the-fly kernel returns `Σ_{x'} ⟨x|H|x'⟩ ψ(x')/ψ(x)` for every list of two-site
operators that connect only `|↓↑⟩ ↔ |↑↓⟩` *and are invariant under exchange of their two sites*, every spin
configuration and every wave function (re-evaluated or by a coherent fast update).
Missing: operators that are not exchange invariant — the kernel reads the matrix with the two sites' roles swapped,
see `C11_local_energy_fails`. -/
theorem C11_local_energy_partial (src : AmpSource N ℤ Cache)
    (bonds : List ((Fin N × Fin N) × Matrix (Fin 4) (Fin 4) ℂ))
    (hd : ∀ b ∈ bonds, b.1.1 ≠ b.1.2) (he : ∀ b ∈ bonds, OnlyExchange b.2) (hsw : ∀ b ∈ bonds, SwapInvariant b.2)
    (x : Spins N) (hs : src.OkAt (fun k => spinVal (x k))) :
    J1J2.localEn src bonds (fun k => spinVal (x k)) =
      localEnergy (fun x' => bondOperator bonds x x') (fun y => src.logAmp fun k => spinVal (y k)) x := by
  unfold J1J2.localEn localEnergy bondOperator
  induction bonds with
  | nil => simp
  | cons b bs ih =>
    simp only [List.map_cons, List.sum_cons, add_mul, Finset.sum_add_distrib]
    rw [ih (fun b' h => hd b' (List.mem_cons_of_mem _ h)) (fun b' h => he b' (List.mem_cons_of_mem _ h))
      (fun b' h => hsw b' (List.mem_cons_of_mem _ h))]
    congr 1
    rcases b with ⟨⟨i, j⟩, O⟩
    have hij : i ≠ j := hd _ List.mem_cons_self
    rw [bondTerm_eq src x hs O (hsw _ List.mem_cons_self) hij]
    rw [bond_sum O (he _ List.mem_cons_self) x hij]
    rw [div_self (Complex.exp_ne_zero _), mul_one]

/-- **C11**: the Heisenberg / J1-J2 bond matrices, with and without Marshall sign rule, satisfy the hypotheses of
`C11_local_energy_partial`; so for every J1-J2 Hamiltonian the property holds. -/
theorem C11_heisenberg (src : AmpSource N ℤ Cache) (bonds : List ((Fin N × Fin N) × (ℂ × Bool)))
    (hd : ∀ b ∈ bonds, b.1.1 ≠ b.1.2) (x : Spins N) (hs : src.OkAt (fun k => spinVal (x k))) :
    let H := bonds.map fun b => (b.1, heisenbergBond b.2.1 b.2.2)
    J1J2.localEn src H (fun k => spinVal (x k)) =
      localEnergy (fun x' => bondOperator H x x') (fun y => src.logAmp fun k => spinVal (y k)) x := by
  intro H
  apply C11_local_energy_partial src H _ _ _ x hs
  · intro b hb
    simp only [H, List.mem_map] at hb
    obtain ⟨c, hc, rfl⟩ := hb
    exact hd c hc
  · intro b hb
    simp only [H, List.mem_map] at hb
    obtain ⟨c, hc, rfl⟩ := hb
    intro p q p' q' h1 h2
    revert h1 h2
    cases p <;> cases q <;> cases p' <;> cases q' <;> simp [heisenbergBond, pairIndex]
  · intro b hb
    simp only [H, List.mem_map] at hb
    obtain ⟨c, hc, rfl⟩ := hb
    intro p q p' q'
    cases p <;> cases q <;> cases p' <;> cases q' <;> simp [heisenbergBond, pairIndex]

/-- **C11 is false in general**: for an operator that is not exchange invariant (`σz` on the first site of the bond
only, i.e. a diagonal operator) the kernel returns the value for the swapped pair.
Witness: two sites, `x = (↑, ↓)`. -/
theorem C11_local_energy_fails :
    ∃ O : Matrix (Fin 4) (Fin 4) ℂ, OnlyExchange O ∧
      J1J2.localEn (N := 2) (Cache := Unit) (.full fun _ => 0) [((0, 1), O)] (fun k => spinVal (![true, false] k)) ≠
        localEnergy (fun x' => bondOperator [((0, 1), O)] ![true, false] x') (fun _ => 0) ![true, false] := by
  have hO : OnlyExchange (Matrix.diagonal ![-1, -1, 1, 1] : Matrix (Fin 4) (Fin 4) ℂ) := by
    intro p q p' q' h1 h2
    revert h1 h2
    cases p <;> cases q <;> cases p' <;> cases q' <;> simp [pairIndex]
  refine ⟨_, hO, ?_⟩
  have e1 : J1J2.localEn (N := 2) (Cache := Unit) (.full fun _ => 0)
      [((0, 1), Matrix.diagonal ![-1, -1, 1, 1])] (fun k => spinVal (![true, false] k)) = -1 := by
    have hb : basisIndex (spinVal true) (spinVal false) = 1 := rfl
    have ho : offDiagConnected 1 = 2 := rfl
    simp [J1J2.localEn, bondTerm, computeElement, hb, ho]
  have e2 : localEnergy (fun x' => bondOperator [(((0 : Fin 2), (1 : Fin 2)), Matrix.diagonal ![-1, -1, 1, 1])]
      ![true, false] x') (fun _ => 0) ![true, false] = 1 := by
    unfold localEnergy bondOperator
    simp only [List.map_cons, List.map_nil, List.sum_cons, List.sum_nil, add_zero]
    rw [bond_sum _ hO _ (by decide)]
    simp [pairIndex]
  rw [e1, e2]
  norm_num

/-- **C11**, couplings: the graph carries exactly as many neighbour orders as there are couplings, and the coupling of
the first (second) neighbours is `J1/4` (`J2/4`), the second one present exactly if `J2 ≠ 0`. -/
theorem C11_couplings (J1 J2 : ℝ) :
    (couplings J1 J2).1 = (couplings J1 J2).2.length ∧ (couplings J1 J2).2[0]? = some (J1 / 4) ∧
      (couplings J1 J2).2[1]? = if J2 = 0 then none else some (J2 / 4) := by
  unfold couplings
  by_cases h : J2 = 0 <;> simp [h]

/-- hypotheses met: a ring of three sites -/
example : ∀ b ∈ ([((0, 1), (1, true)), ((1, 2), (1, true)), ((2, 0), (1/2, false))] :
    List ((Fin 3 × Fin 3) × (ℂ × Bool))), b.1.1 ≠ b.1.2 := by
  intro e he
  simp only [List.mem_cons, List.not_mem_nil, or_false] at he
  rcases he with h | h | h <;> rw [h] <;> simp

/-- C79: without evaluation on the fly the operator is constructed, with the couplings and the sign rule asked for. -/
theorem C79_partial (J1 J2 : ℝ) (signRule : Bool) :
    ∃ b, J1J2.construct J1 J2 signRule false = some b ∧ b "hilbert" = some .hilbert ∧ b "graph" = some .graph ∧
      b "J" = some (.coupling (if J2 = 0 then [J1 / 4] else [J1 / 4, J2 / 4])) ∧ b "sign_rule" = some (.signRule signRule) := by
  have h : (J1J2.couplings J1 J2).2 = if J2 = 0 then [J1 / 4] else [J1 / 4, J2 / 4] := by
    unfold couplings
    by_cases h : J2 = 0 <;> simp [h]
  refine ⟨_, rfl, rfl, rfl, ?_, rfl⟩
  rw [← h]
  rfl

/-- C79 fails with evaluation on the fly: the class used there does not accept the arguments, whatever their values. -/
theorem C79_on_the_fly_fails (J1 J2 : ℝ) (signRule : Bool) : J1J2.construct J1 J2 signRule true = none := by
  rfl

end GPSKet
