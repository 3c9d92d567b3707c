import Verif.Model.Asep
import Verif.Lemmas.Hubbard

/-! # Lemmas about the exclusion-process model -/

namespace GPSKet.Asep
open Spec

variable {n : ℕ}

theorem sum_moves (f : AsepMove n → ℝ) :
    ∑ m, f m = f .injectLeft + f .ejectLeft + f .injectRight + f .ejectRight
      + (∑ i, f (.hopRight i) + ∑ i, f (.hopLeft i)) := by
  let e : (Fin 4 ⊕ (Fin n ⊕ Fin n)) ≃ AsepMove n :=
    { toFun := fun
        | .inl 0 => .injectLeft
        | .inl 1 => .ejectLeft
        | .inl 2 => .injectRight
        | .inl 3 => .ejectRight
        | .inr (.inl i) => .hopRight i
        | .inr (.inr i) => .hopLeft i
      invFun := fun
        | .injectLeft => .inl 0
        | .ejectLeft => .inl 1
        | .injectRight => .inl 2
        | .ejectRight => .inl 3
        | .hopRight i => .inr (.inl i)
        | .hopLeft i => .inr (.inr i)
      left_inv := by
        rintro (i | i | i)
        · fin_cases i <;> rfl
        · rfl
        · rfl
      right_inv := by intro m; cases m <;> rfl }
  rw [← e.sum_comp, Fintype.sum_sum_type, Fintype.sum_sum_type, Fin.sum_univ_four]
  rfl

/-- The rows of one sample. -/
noncomputable def row (r : AsepRates) (x : Chain n) : List (Chain n × ℝ) :=
  boundaryRows r x ++ (List.finRange n).flatMap (bondRows r x)

theorem row_length (r : AsepRates) (x : Chain n) : (row r x).length = 4 * (1 + (n + 1)) := by
  have : ∀ l : List (Fin n), (l.flatMap (bondRows r x)).length = l.length * 4 := by
    intro l
    induction l with
    | nil => rfl
    | cons i l ih => rw [List.flatMap_cons, List.length_append, ih]; simp [bondRows]; ring
  rw [row, List.length_append, this, List.length_finRange]
  simp [boundaryRows]; ring

theorem foldl_append {α β : Type} (f : α → List β) (l : List α) (o : List β) :
    l.foldl (fun o i => o ++ f i) o = o ++ l.flatMap f := by
  induction l generalizing o with
  | nil => simp
  | cons a l ih => rw [List.foldl_cons, ih, List.flatMap_cons, List.append_assoc]

theorem kernel_eq (r : AsepRates) (xs : List (Chain n)) :
    kernel r xs = { out := xs.flatMap (row r), sections := fun j =>
      if j < xs.length then some ((j + 1) * (4 * (1 + (n + 1)))) else none } := by
  unfold kernel
  have H : ∀ (ys : List (Chain n)) (k : ℕ) (b : Buf n), b.out.length = k * (4 * (1 + (n + 1))) →
      (ys.zipIdx k).foldl (sampleStep r) b =
      { out := b.out ++ ys.flatMap (row r), sections := fun j =>
          if k ≤ j ∧ j < k + ys.length then some ((j + 1) * (4 * (1 + (n + 1)))) else b.sections j } := by
    intro ys
    induction ys with
    | nil =>
      intro k b hb
      rcases b with ⟨o, s⟩
      simp only [List.zipIdx_nil, List.foldl_nil, List.flatMap_nil, List.append_nil, Buf.mk.injEq, true_and]
      funext j
      rw [if_neg]
      simp
    | cons y ys ih =>
      intro k b hb
      have hs : sampleStep r b (y, k) =
        { out := b.out ++ row r y, sections := fun j =>
            if j = k then some ((k + 1) * (4 * (1 + (n + 1)))) else b.sections j } := by
        have : (b.out ++ row r y).length = (k + 1) * (4 * (1 + (n + 1))) := by
          rw [List.length_append, hb, row_length]; ring
        simp only [sampleStep, foldl_append, List.append_assoc]
        change Buf.mk (b.out ++ row r y) (fun j => if j = k then some (b.out ++ row r y).length else _) = _
        rw [this]
      rw [List.zipIdx_cons, List.foldl_cons, hs, ih (k + 1)]
      · simp only [List.append_assoc, List.flatMap_cons, Buf.mk.injEq, true_and, List.length_cons]
        funext j
        by_cases h1 : j = k
        · subst h1; simp
        · by_cases h2 : k + 1 ≤ j ∧ j < k + 1 + ys.length
          · rw [if_pos h2, if_pos ⟨by omega, by omega⟩]
          · rw [if_neg h2, if_neg h1, if_neg]; omega
      · rw [List.length_append, hb, row_length]; ring
  have := H xs 0 { out := [], sections := fun _ => none } (by simp)
  simpa using this

theorem fin2_cases (v : Fin 2) : v = 0 ∨ v = 1 := by omega

theorem row_elem (r : AsepRates) (x x' : Chain n) : rowElem (row r x) x' = asepGenerator r x x' := by
  unfold asepGenerator
  rw [sum_moves, row, rowElem_append]
  congr 1
  · simp only [boundaryRows, rowElem_cons, rowElem_nil, applyCreation, applyAnnihilation, AsepMove.enabled,
      AsepMove.target, AsepMove.rate, AsepMove.current]
    rcases fin2_cases (x 0) with h0 | h0 <;> rcases fin2_cases (x (Fin.last n)) with hl | hl <;>
      simp [h0, hl] <;> by_cases hx : x = x' <;> simp [hx] <;> ring
  · rw [rowElem_flatMap, ← Finset.sum_add_distrib, ← List.ofFn_eq_map, List.sum_ofFn]
    apply Finset.sum_congr rfl
    intro i _
    simp only [bondRows, rowElem_cons, rowElem_nil, applyHop, applyParticleHole, AsepMove.enabled,
      AsepMove.target, AsepMove.rate, AsepMove.current]
    rcases fin2_cases (x i.castSucc) with h0 | h0 <;> rcases fin2_cases (x i.succ) with hl | hl <;>
      simp [h0, hl] <;> by_cases hx : x = x' <;> simp [hx] <;> ring

end GPSKet.Asep
