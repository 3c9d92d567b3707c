import Verif.Spec.TotalSpin
import Verif.Lemmas.SpinAlg
import Verif.Props.Hubbard
import Verif.Props.AbInitio
import Verif.Props.CorrelationsFails
import Mathlib.Algebra.Ring.Commute
import Mathlib.Algebra.BigOperators.Ring.Finset
import Mathlib.Data.Matrix.Basic

/-! # The fermionic Hamiltonians conserve the total spin (C154) -/

namespace GPSKet.TotalSpin

open Matrix GPSKet GPSKet.Spec

variable {L : ℕ}

theorem comm_of_sub {A B : Op L} (h : A * B - B * A = 0) : Commute A B := sub_eq_zero.mp h

theorem up_exc (p q : Fin L) : Commute totalUp (exc p q) := by
  apply comm_of_sub
  unfold totalUp
  rw [comm_sum]
  have h : ∀ A B C : Op L, A * (B + C) - (B + C) * A = (A * B - B * A) + (A * C - C * A) := by intros; noncomm_ring
  simp only [spinUp, exc, Fintype.sum_bool, h, bil_comm, mode_inj, true_and, Finset.sum_add_distrib, Finset.sum_sub_distrib, Finset.sum_ite_eq,
    Finset.sum_ite_eq', Finset.mem_univ, if_true, reduceCtorEq, false_and, if_false, Finset.sum_const_zero, Bool.true_eq_false,
    Bool.false_eq_true]
  abel

theorem down_exc (p q : Fin L) : Commute totalDown (exc p q) := by
  apply comm_of_sub
  unfold totalDown
  rw [comm_sum]
  have h : ∀ A B C : Op L, A * (B + C) - (B + C) * A = (A * B - B * A) + (A * C - C * A) := by intros; noncomm_ring
  simp only [spinDown, exc, Fintype.sum_bool, h, bil_comm, mode_inj, true_and, Finset.sum_add_distrib, Finset.sum_sub_distrib, Finset.sum_ite_eq,
    Finset.sum_ite_eq', Finset.mem_univ, if_true, reduceCtorEq, false_and, if_false, Finset.sum_const_zero, Bool.true_eq_false,
    Bool.false_eq_true]
  abel

theorem totalZ2_eq : (totalZ2 : Op L) = numTot false - numTot true := by
  unfold totalZ2 numTot spinZ2
  rw [Finset.sum_sub_distrib]

theorem z_exc (p q : Fin L) : Commute totalZ2 (exc p q) := by
  rw [totalZ2_eq]
  exact (show Commute _ _ from numTot_exc false p q).sub_left (numTot_exc true p q)

theorem totalSq4_eq : (totalSq4 : Op L) = (2 : ℤ) • (totalUp * totalDown) + (2 : ℤ) • (totalDown * totalUp) + totalZ2 * totalZ2 := by
  unfold totalSq4 spinDot4 totalUp totalDown totalZ2
  simp only [Finset.sum_mul_sum, Finset.smul_sum, Finset.sum_add_distrib]

theorem sq_exc (p q : Fin L) : Commute totalSq4 (exc p q) := by
  rw [totalSq4_eq]
  exact ((((up_exc p q).mul_left (down_exc p q)).smul_left _).add_left (((down_exc p q).mul_left (up_exc p q)).smul_left _)).add_left
    ((z_exc p q).mul_left (z_exc p q))

theorem total_exc {T : Op L} (hT : IsTotalSpin T) (p q : Fin L) : Commute T (exc p q) := by
  cases hT
  · exact up_exc p q
  · exact down_exc p q
  · exact z_exc p q
  · exact sq_exc p q

/-- Doubly occupied sites in terms of the excitation operators. -/
theorem two_double (i : Fin L) : (2 : ℤ) • (num (mode false i) * num (mode true i) : Op L) = exc i i * exc i i - exc i i := by
  have hn : ∀ s, num (mode s i) * num (mode s i) = (num (mode s i) : Op L) := by
    intro s
    unfold num
    rw [bil_mul]
    have : cre (mode s i) * cre (mode s i) * ann (mode s i) * ann (mode s i) = (0 : Op L) := by
      rw [Matrix.mul_assoc, ann_sq, Matrix.mul_zero]
    rw [this, if_pos rfl, add_zero]
  have hc : num (mode true i) * num (mode false i) = (num (mode false i) * num (mode true i) : Op L) := by
    rw [← sub_eq_zero]
    unfold num
    rw [bil_comm]
    simp [mode_inj]
  have e : (exc i i : Op L) = num (mode true i) + num (mode false i) := by
    unfold exc num
    rw [Fintype.sum_bool]
  rw [e]
  have : ∀ A B : Op L, (A + B) * (A + B) - (A + B) = (A * A - A) + (B * B - B) + A * B + B * A := by intros; noncomm_ring
  rw [this, hn, hn, hc, sub_self, sub_self, two_smul]
  abel

theorem total_double {T : Op L} (hT : IsTotalSpin T) (i : Fin L) : Commute T (num (mode false i) * num (mode true i)) := by
  have h : Commute T ((2 : ℤ) • (num (mode false i) * num (mode true i) : Op L)) := by
    rw [two_double]
    exact ((total_exc hT i i).mul_right (total_exc hT i i)).sub_right (total_exc hT i i)
  have h2 : (2 : ℤ) • (T * (num (mode false i) * num (mode true i)) - (num (mode false i) * num (mode true i)) * T) = 0 := by
    have := h.eq
    rw [mul_smul_comm, smul_mul_assoc] at this
    rw [smul_sub, this, sub_self]
  apply comm_of_sub
  ext n n'
  have := congrFun (congrFun h2 n) n'
  simp only [Matrix.smul_apply, Matrix.zero_apply, smul_eq_mul] at this ⊢
  omega

/-- Operators that commute with integer entries commute with complex ones. -/
theorem commute_toK {A B : Op L} (h : Commute A B) : Commute (toK ℂ A) (toK ℂ B) := h.map (Int.castRingHom ℂ).mapMatrix

theorem total_hubbard {T : Op L} (hT : IsTotalSpin T) (U : ℂ) (edges : List ((Fin L × Fin L) × ℂ)) :
    Commute (toK ℂ T) (hubbard U edges) := by
  unfold hubbard
  refine Commute.add_right ?_ ((commute_toK (Commute.sum_right _ _ _ fun i _ => total_double hT i)).smul_right _)
  induction edges with
  | nil => simp
  | cons e es ih =>
    rw [List.map_cons, List.sum_cons]
    refine Commute.add_right ?_ ih
    refine ((commute_toK ?_).smul_right _).neg_right
    rw [Finset.sum_add_distrib]
    exact (total_exc hT e.1.1 e.1.2).add_right (total_exc hT e.1.2 e.1.1)

theorem total_abInitio {T : Op L} (hT : IsTotalSpin T) (h : Fin L → Fin L → ℂ) (e : Fin L → Fin L → Fin L → Fin L → ℂ) :
    Commute (toK ℂ T) (abInitioTwice h e) := by
  unfold abInitioTwice
  refine Commute.add_right ?_ ?_
  · exact Commute.sum_right _ _ _ fun p _ => Commute.sum_right _ _ _ fun q _ => (commute_toK (total_exc hT p q)).smul_right _
  · refine Commute.sum_right _ _ _ fun p _ => Commute.sum_right _ _ _ fun q _ => Commute.sum_right _ _ _ fun r _ =>
      Commute.sum_right _ _ _ fun s _ => (commute_toK ?_).smul_right _
    refine ((total_exc hT p q).mul_right (total_exc hT r s)).sub_right ?_
    split_ifs
    · exact total_exc hT p s
    · exact Commute.zero_right _

/-- Commuting matrices give operators that can be applied in either order. -/
theorem apply_comm {T : Op L} {H : Matrix (Occ (Mode L)) (Occ (Mode L)) ℂ} (h : Commute (toK ℂ T) H) {row : Cfg L → List (Cfg L × ℂ)} {c : ℂ}
    (hrow : ∀ x x', rowElem (row x) x' = c * H (occOf x) (occOf x')) (psi : Cfg L → ℂ) :
    applyRows row (applyOp T psi) = applyOp T (applyRows row psi) := by
  funext x
  unfold applyRows applyOp
  have e : ∀ x y, ∑ x', H (occOf x) (occOf x') * (T (occOf x') (occOf y) : ℂ) = ∑ x', (T (occOf x) (occOf x') : ℂ) * H (occOf x') (occOf y) := by
    intro x y
    have := congrFun (congrFun h.eq (occOf x)) (occOf y)
    rw [Matrix.mul_apply, Matrix.mul_apply, sum_occ, sum_occ] at this
    exact this.symm
  simp only [hrow, Finset.mul_sum]
  rw [Finset.sum_comm]
  conv_rhs => rw [Finset.sum_comm]
  refine Finset.sum_congr rfl fun y _ => ?_
  have h1 : ∀ x', c * H (occOf x) (occOf x') * ((T (occOf x') (occOf y) : ℂ) * psi y) =
      (c * psi y) * (H (occOf x) (occOf x') * (T (occOf x') (occOf y) : ℂ)) := fun _ => by ring
  have h2 : ∀ x', (T (occOf x) (occOf x') : ℂ) * (c * H (occOf x') (occOf y) * psi y) =
      (c * psi y) * ((T (occOf x) (occOf x') : ℂ) * H (occOf x') (occOf y)) := fun _ => by ring
  rw [Finset.sum_congr rfl fun x' _ => h1 x', Finset.sum_congr rfl fun x' _ => h2 x', ← Finset.mul_sum, ← Finset.mul_sum, e]

/-- C154 for the Hubbard model: applying the operator commutes with raising, lowering and measuring the total spin, for every graph, all
amplitudes and interactions. -/
theorem C154_hubbard (U : ℂ) (edges : List ((Fin L × Fin L) × ℂ)) {T : Op L} (hT : IsTotalSpin T) (psi : Cfg L → ℂ) :
    applyRows (fun x => (hubbardKernel U edges [x]).out) (applyOp T psi) =
      applyOp T (applyRows (fun x => (hubbardKernel U edges [x]).out) psi) :=
  apply_comm (c := 1) (total_hubbard hT U edges) (fun x x' => by rw [C04_hubbard_row, one_mul]) psi

/-- C154 for molecules, with all integrals that have the symmetry of exchanging the two electrons. -/
theorem C154_ab_initio (h : Fin L → Fin L → ℂ) (e : Fin L → Fin L → Fin L → Fin L → ℂ) (hsym : ∀ p q r s, e p q r s = e r s p q)
    {T : Op L} (hT : IsTotalSpin T) (psi : Cfg L → ℂ) :
    applyRows (fun x => (abKernel (abT h e) e [x]).buf.out) (applyOp T psi) =
      applyOp T (applyRows (fun x => (abKernel (abT h e) e [x]).buf.out) psi) :=
  apply_comm (total_abInitio hT h e) (fun x x' => C13_rows two_ne_zero h e hsym x x') psi

theorem applyRows_smul (row : Cfg L → List (Cfg L × ℂ)) (c : ℂ) (psi : Cfg L → ℂ) :
    applyRows row (fun x => c * psi x) = fun x => c * applyRows row psi x := by
  funext x
  unfold applyRows
  rw [Finset.mul_sum]
  exact Finset.sum_congr rfl fun _ _ => by ring

theorem applyRows_zero (row : Cfg L → List (Cfg L × ℂ)) : applyRows row (fun _ => 0) = fun _ => 0 := by
  funext x; simp [applyRows]

/-- An operator that commutes with the total spin takes states of a total spin to such states, and singlets to singlets. -/
theorem keeps_spin {row : Cfg L → List (Cfg L × ℂ)}
    (h : ∀ {T : Op L}, IsTotalSpin T → ∀ psi, applyRows row (applyOp T psi) = applyOp T (applyRows row psi)) {psi : Cfg L → ℂ} :
    (∀ s, HasTotalSpin s psi → HasTotalSpin s (applyRows row psi)) ∧ (IsSinglet psi → IsSinglet (applyRows row psi)) := by
  constructor
  · intro s hs x
    have e : applyOp totalSq4 psi = fun x => (s * (s + 2) : ℂ) * psi x := funext hs
    rw [← h .sq, e, applyRows_smul]
  · rintro ⟨h1, h2⟩
    have e1 : applyOp totalUp psi = fun _ => 0 := funext h1
    have e2 : applyOp totalDown psi = fun _ => 0 := funext h2
    constructor
    · intro x
      have := congrFun (h .up psi) x
      rw [e1, applyRows_zero] at this
      exact this.symm
    · intro x
      have := congrFun (h .down psi) x
      rw [e2, applyRows_zero] at this
      exact this.symm

/-- C154: the Hubbard Hamiltonian keeps the total spin of a state. -/
theorem C154_hubbard_spin (U : ℂ) (edges : List ((Fin L × Fin L) × ℂ)) (psi : Cfg L → ℂ) :
    (∀ s, HasTotalSpin s psi → HasTotalSpin s (applyRows (fun x => (hubbardKernel U edges [x]).out) psi)) ∧
      (IsSinglet psi → IsSinglet (applyRows (fun x => (hubbardKernel U edges [x]).out) psi)) :=
  keeps_spin fun hT psi => C154_hubbard U edges hT psi

/-- C154: the molecular Hamiltonian keeps the total spin of a state. -/
theorem C154_ab_initio_spin (h : Fin L → Fin L → ℂ) (e : Fin L → Fin L → Fin L → Fin L → ℂ) (hsym : ∀ p q r s, e p q r s = e r s p q)
    (psi : Cfg L → ℂ) :
    (∀ s, HasTotalSpin s psi → HasTotalSpin s (applyRows (fun x => (abKernel (abT h e) e [x]).buf.out) psi)) ∧
      (IsSinglet psi → IsSinglet (applyRows (fun x => (abKernel (abT h e) e [x]).buf.out) psi)) :=
  keeps_spin fun hT psi => C154_ab_initio h e hsym hT psi

theorem applyOp_mul (A B : Op L) (psi : Cfg L → ℂ) : applyOp (A * B) psi = applyOp A (applyOp B psi) := by
  funext x
  unfold applyOp
  simp only [Matrix.mul_apply, sum_occ, Int.cast_sum, Int.cast_mul, Finset.sum_mul, Finset.mul_sum]
  rw [Finset.sum_comm]
  exact Finset.sum_congr rfl fun _ _ => Finset.sum_congr rfl fun _ _ => by ring

theorem applyOp_add (A B : Op L) (psi : Cfg L → ℂ) : applyOp (A + B) psi = fun x => applyOp A psi x + applyOp B psi x := by
  funext x
  unfold applyOp
  rw [← Finset.sum_add_distrib]
  exact Finset.sum_congr rfl fun _ _ => by rw [Matrix.add_apply]; push_cast; ring

/-- The two notions agree on singlets: they have total spin zero. -/
theorem singlet_spin_zero {psi : Cfg L → ℂ} (h : IsSinglet psi) : HasTotalSpin 0 psi := by
  have e1 : applyOp totalUp psi = fun _ => 0 := funext h.1
  have e2 : applyOp totalDown psi = fun _ => 0 := funext h.2
  have hz : (totalZ2 : Op L) = totalUp * totalDown - totalDown * totalUp := by
    have : (totalUp : Op L) * totalDown - totalDown * totalUp = ∑ i, (totalUp * spinDown i i - spinDown i i * totalUp) := by
      rw [Finset.sum_sub_distrib, ← Finset.mul_sum, ← Finset.sum_mul]; rfl
    rw [this]
    exact Finset.sum_congr rfl fun i _ => (comm_up_down i i).symm
  have e : (totalSq4 : Op L) = ((2 : ℤ) • totalUp + totalZ2 * totalUp) * totalDown + ((2 : ℤ) • totalDown - totalZ2 * totalDown) * totalUp := by
    rw [totalSq4_eq]
    nth_rw 2 [hz]
    noncomm_ring
  intro x
  rw [e, applyOp_add, applyOp_mul, applyOp_mul, e1, e2]
  simp [applyOp]

/-- The hypotheses of C154: the valence bond of two sites is a state of total spin zero, and a singlet. -/
example : IsSinglet Rdms.valence ∧ HasTotalSpin 0 Rdms.valence ∧ Rdms.valence ![1, 2] ≠ 0 :=
  ⟨Rdms.valence_singlet, singlet_spin_zero Rdms.valence_singlet, by simp [Rdms.valence]⟩

/-- The hypotheses of `C154_ab_initio`: the repulsion of the electrons of equal orbitals. -/
example : ∀ p q r s : Fin 3, (if p = q ∧ r = s then (p.val * r.val + 2 : ℂ) else 0) = if r = s ∧ p = q then (r.val * p.val + 2 : ℂ) else 0 := by
  intro p q r s
  simp only [and_comm, mul_comm]

end GPSKet.TotalSpin
