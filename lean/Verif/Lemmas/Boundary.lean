import Verif.Spec.Boundary
import Mathlib.Algebra.BigOperators.Group.List.Lemmas
import Mathlib.Algebra.BigOperators.Group.Finset.Piecewise
import Mathlib.Algebra.BigOperators.Pi
import Mathlib.Algebra.BigOperators.Group.Finset.Sigma
import Mathlib.Tactic.Ring
import Mathlib.Tactic.LinearCombination

/-! # Lemmas: hopping amplitudes, gauge transformations -/

namespace GPSKet.Spec
open Matrix

variable {K : Type} [CommRing K] {L : ℕ}

theorem castK_add {α β : Type} (A B : Matrix α β ℤ) : toK K (A + B) = toK K A + toK K B := by
  ext i j; simp [toK]

theorem castK_sum {α β ι : Type} (s : Finset ι) (f : ι → Matrix α β ℤ) : toK K (∑ i ∈ s, f i) = ∑ i ∈ s, toK K (f i) := by
  classical
  induction s using Finset.induction_on with
  | empty => ext i j; simp [toK]
  | insert a s ha ih => rw [Finset.sum_insert ha, Finset.sum_insert ha, castK_add, ih]

/-- The amplitude between two sites that a list of weighted edges describes. -/
def hopOf (edges : List ((Fin L × Fin L) × K)) (i j : Fin L) : K :=
  (edges.map fun e => (if e.1 = (i, j) then e.2 else 0) + if e.1 = (j, i) then e.2 else 0).sum

theorem edge_term (a b : Fin L) (t : K) :
    -(t • toK K (∑ s : Bool, (cre (mode s a) * ann (mode s b) + cre (mode s b) * ann (mode s a)))) =
      -(∑ i, ∑ j, ((if (a, b) = (i, j) then t else 0) + if (a, b) = (j, i) then t else 0) • toK K (exc i j)) := by
  congr 1
  have h1 : ∑ i, ∑ j, (if (a, b) = (i, j) then t else 0) • toK K (exc i j) = t • toK K (exc a b) := by
    rw [Finset.sum_eq_single a, Finset.sum_eq_single b]
    · simp
    · intro j _ hj; simp [Ne.symm hj]
    · simp
    · intro i _ hi
      refine Finset.sum_eq_zero fun j _ => ?_
      simp [Ne.symm hi]
    · simp
  have h2 : ∑ i, ∑ j, (if (a, b) = (j, i) then t else 0) • toK K (exc i j) = t • toK K (exc b a) := by
    rw [Finset.sum_eq_single b, Finset.sum_eq_single a]
    · simp
    · intro j _ hj; simp [Ne.symm hj]
    · simp
    · intro i _ hi
      refine Finset.sum_eq_zero fun j _ => ?_
      simp [Ne.symm hi]
    · simp
  simp only [add_smul, Finset.sum_add_distrib, h1, h2]
  rw [← smul_add, ← castK_add, exc, exc]

/-- A Hubbard Hamiltonian on a list of edges depends only on the amplitudes between sites. -/
theorem hubbard_eq (U : K) (edges : List ((Fin L × Fin L) × K)) : hubbard U edges = hubbardOf U (hopOf edges) := by
  unfold hubbard hubbardOf
  congr 1
  induction edges with
  | nil => simp [hopOf]
  | cons e es ih =>
    rw [List.map_cons, List.sum_cons, ih, edge_term, ← neg_add]
    congr 1
    simp only [hopOf, List.map_cons, List.sum_cons, ← Finset.sum_add_distrib, ← add_smul]

theorem hubbardOf_congr (U : K) {T T' : Fin L → Fin L → K} (h : ∀ i j, T i j = T' i j) : hubbardOf U T = hubbardOf U T' := by
  have : T = T' := by funext i j; exact h i j
  rw [this]

/-! ## Gauge transformations -/

/-- The diagonal of the gauge transformation. -/
def gaugeSign (d : Fin L → K) (n : Occ (Mode L)) : K := ∏ m : Mode L, if n m then d (ofLex m).2 else 1

theorem gaugeSign_sq (d : Fin L → K) (hd : ∀ i, d i = 1 ∨ d i = -1) (n : Occ (Mode L)) : gaugeSign d n * gaugeSign d n = 1 := by
  unfold gaugeSign
  rw [← Finset.prod_mul_distrib]
  refine Finset.prod_eq_one fun m _ => ?_
  split_ifs
  · rcases hd (ofLex m).2 with h | h <;> rw [h] <;> ring
  · ring

theorem gaugeSign_update (d : Fin L → K) (n : Occ (Mode L)) (p : Mode L) (h : n p = true) :
    gaugeSign d n = d (ofLex p).2 * gaugeSign d (Function.update n p false) := by
  classical
  unfold gaugeSign
  rw [Fintype.prod_eq_mul_prod_compl p, Fintype.prod_eq_mul_prod_compl (a := p) (f := fun m => if Function.update n p false m = true then _ else _)]
  rw [h]
  simp only [if_true, Function.update_self, Bool.false_eq_true, if_false, one_mul]
  congr 1
  refine Finset.prod_congr rfl fun m hm => ?_
  rw [Function.update_of_ne]
  simpa using hm

theorem castK_mul {α β γ : Type} [Fintype β] (A : Matrix α β ℤ) (B : Matrix β γ ℤ) : toK K (A * B) = toK K A * toK K B := by
  ext i j
  simp [toK, Matrix.mul_apply]

theorem gauge_sq (d : Fin L → K) (hd : ∀ i, d i = 1 ∨ d i = -1) : gauge d * gauge d = 1 := by
  unfold gauge
  rw [Matrix.diagonal_mul_diagonal, ← Matrix.diagonal_one]
  congr 1
  funext n
  exact gaugeSign_sq d hd n

theorem gauge_ann (d : Fin L → K) (hd : ∀ i, d i = 1 ∨ d i = -1) (p : Mode L) :
    gauge d * toK K (ann p) * gauge d = d (ofLex p).2 • toK K (ann p) := by
  ext n' n
  rw [gauge, Matrix.mul_diagonal, Matrix.diagonal_mul, Matrix.smul_apply, smul_eq_mul]
  change gaugeSign d n' * _ * gaugeSign d n = _
  simp only [toK, Matrix.map_apply]
  unfold ann
  split_ifs with h
  · obtain ⟨h1, h2⟩ := h
    rw [gaugeSign_update d n p h1, h2]
    have := gaugeSign_sq d hd (Function.update n p false)
    linear_combination (d (ofLex p).2 * ((jwSign p n : ℤ) : K)) * this
  · simp

theorem gauge_cre (d : Fin L → K) (hd : ∀ i, d i = 1 ∨ d i = -1) (p : Mode L) :
    gauge d * toK K (cre p) * gauge d = d (ofLex p).2 • toK K (cre p) := by
  have h := congrArg Matrix.transpose (gauge_ann d hd p)
  rw [Matrix.transpose_mul, Matrix.transpose_mul, Matrix.transpose_smul] at h
  have e : (gauge d)ᵀ = gauge d := Matrix.diagonal_transpose _
  have e2 : (toK K (ann p))ᵀ = toK K (cre p) := rfl
  rw [e, e2, ← Matrix.mul_assoc] at h
  exact h

theorem gauge_mul (d : Fin L → K) (hd : ∀ i, d i = 1 ∨ d i = -1) (A B : Matrix (Occ (Mode L)) (Occ (Mode L)) K) :
    gauge d * (A * B) * gauge d = (gauge d * A * gauge d) * (gauge d * B * gauge d) := by
  have h := gauge_sq (K := K) d hd
  calc gauge d * (A * B) * gauge d = gauge d * A * 1 * B * gauge d := by simp only [Matrix.mul_one, Matrix.mul_assoc]
    _ = gauge d * A * (gauge d * gauge d) * B * gauge d := by rw [h]
    _ = _ := by simp only [Matrix.mul_assoc]

theorem gauge_cre_ann (d : Fin L → K) (hd : ∀ i, d i = 1 ∨ d i = -1) (p q : Mode L) :
    gauge d * toK K (cre p * ann q) * gauge d = (d (ofLex p).2 * d (ofLex q).2) • toK K (cre p * ann q) := by
  rw [castK_mul, gauge_mul d hd, gauge_cre d hd, gauge_ann d hd, Matrix.smul_mul, Matrix.mul_smul, smul_smul]

theorem gauge_add (d : Fin L → K) (A B : Matrix (Occ (Mode L)) (Occ (Mode L)) K) :
    gauge d * (A + B) * gauge d = gauge d * A * gauge d + gauge d * B * gauge d := by
  rw [Matrix.mul_add, Matrix.add_mul]

theorem gauge_sum {ι : Type} (d : Fin L → K) (s : Finset ι) (f : ι → Matrix (Occ (Mode L)) (Occ (Mode L)) K) :
    gauge d * (∑ i ∈ s, f i) * gauge d = ∑ i ∈ s, gauge d * f i * gauge d := by
  rw [Finset.mul_sum, Finset.sum_mul]

/-- A gauge transformation of a Hubbard Hamiltonian changes the signs of its amplitudes. -/
theorem gauge_hubbardOf (d : Fin L → K) (hd : ∀ i, d i = 1 ∨ d i = -1) (U : K) (T : Fin L → Fin L → K) :
    gauge d * hubbardOf U T * gauge d = hubbardOf U fun i j => d i * T i j * d j := by
  have hsq : ∀ i, d i * d i = 1 := by
    intro i
    rcases hd i with h | h <;> rw [h] <;> ring
  unfold hubbardOf
  rw [gauge_add, Matrix.mul_neg, Matrix.neg_mul, gauge_sum, Matrix.mul_smul, Matrix.smul_mul, castK_sum, gauge_sum]
  congr 1
  · congr 1
    refine Finset.sum_congr rfl fun i _ => ?_
    rw [gauge_sum]
    refine Finset.sum_congr rfl fun j _ => ?_
    rw [Matrix.mul_smul, Matrix.smul_mul, exc, castK_sum, gauge_sum]
    simp only [gauge_cre_ann d hd]
    simp only [mode, ofLex_toLex, ← Finset.smul_sum, smul_smul]
    congr 1
    ring
  · congr 1
    refine Finset.sum_congr rfl fun i _ => ?_
    rw [castK_mul, gauge_mul d hd, num, num, gauge_cre_ann d hd, gauge_cre_ann d hd]
    simp [mode, hsq]

end GPSKet.Spec
