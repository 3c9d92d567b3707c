import Verif.Model.HubbardOnTheFly
import Verif.Lemmas.Fermion
import Mathlib.Algebra.BigOperators.Group.List.Lemmas
import Mathlib.Algebra.BigOperators.Ring.Finset
import Mathlib.Tactic.FieldSimp

/-! # Lemmas about the Hubbard model -/

namespace GPSKet
open Spec Matrix

section
variable {C K : Type} [DecidableEq C]

theorem rowElem_nil [AddCommMonoid K] (x' : C) : rowElem ([] : List (C × K)) x' = 0 := rfl

theorem rowElem_append [AddCommMonoid K] (r s : List (C × K)) (x' : C) :
    rowElem (r ++ s) x' = rowElem r x' + rowElem s x' := by
  simp [rowElem, List.filter_append]

theorem rowElem_cons [AddCommMonoid K] (e : C × K) (r : List (C × K)) (x' : C) :
    rowElem (e :: r) x' = (if e.1 = x' then e.2 else 0) + rowElem r x' := by
  by_cases h : e.1 = x' <;> simp [rowElem, h]

theorem rowElem_flatMap [AddCommMonoid K] {α : Type} (l : List α) (f : α → List (C × K)) (x' : C) :
    rowElem (l.flatMap f) x' = (l.map fun a => rowElem (f a) x').sum := by
  induction l with
  | nil => rfl
  | cons a l ih => simp [rowElem_append, ih]

/-- pairing of a row with an amplitude function -/
def rowApply [CommRing K] (row : List (C × K)) (f : C → K) : K := (row.map fun e => e.2 * f e.1).sum

theorem rowApply_eq [CommRing K] [Fintype C] (row : List (C × K)) (f : C → K) :
    ∑ x', rowElem row x' * f x' = rowApply row f := by
  induction row with
  | nil => simp [rowElem_nil, rowApply]
  | cons e r ih =>
    simp only [rowElem_cons, add_mul, Finset.sum_add_distrib, ih]
    simp [rowApply]

end

variable {L : ℕ} {K : Type} [Field K]

theorem toK_apply {α β : Type} (A : Matrix α β ℤ) (i : α) (j : β) : toK K A i j = ((A i j : ℤ) : K) := rfl

theorem hop_mat (x x' : Cfg L) (i a : Fin L) (s : Bool) :
    (cre (mode s i) * ann (mode s a)) (occOf x) (occOf x') =
      (let r := applyHopping i a x (spinInt s) (some (cumsum (isOcc x (spinInt s))))
       if r.2 = x' then r.1 else 0) := by
  rw [← cre_mul_ann_transpose, transpose_apply, ← hopS_mat]
  unfold SMap.mat
  rw [applyHopping_hopS]
  dsimp only
  by_cases h : (applyHopping i a x (spinInt s) (some (cumsum (isOcc x (spinInt s))))).1 = 0
  · simp [h]
  · simp only [h, if_false]
    by_cases h2 : (applyHopping i a x (spinInt s) (some (cumsum (isOcc x (spinInt s))))).2 = x'
    · simp [h2]
    · rw [if_neg h2, if_neg]
      intro h3
      exact h2 (occOf_injective h3).symm

theorem hubbardHopRow_elem (x x' : Cfg L) (t : K) (i a : Fin L) (s : Bool) :
    (if (hubbardHopRow x t i a (spinInt s) (cumsum (isOcc x (spinInt s)))).1 = x' then
      (hubbardHopRow x t i a (spinInt s) (cumsum (isOcc x (spinInt s)))).2 else 0)
      = -t * (((cre (mode s i) * ann (mode s a)) (occOf x) (occOf x') : ℤ) : K) := by
  rw [hop_mat]
  simp only [hubbardHopRow]
  by_cases h : (applyHopping i a x (spinInt s) (some (cumsum (isOcc x (spinInt s))))).2 = x' <;> simp [h]

def hubbardHopRows (x : Cfg L) (e : (Fin L × Fin L) × K) : List (Cfg L × K) :=
  [hubbardHopRow x e.2 e.1.1 e.1.2 (spinInt false) (cumsum (isOcc x (spinInt false))),
   hubbardHopRow x e.2 e.1.2 e.1.1 (spinInt false) (cumsum (isOcc x (spinInt false))),
   hubbardHopRow x e.2 e.1.1 e.1.2 (spinInt true) (cumsum (isOcc x (spinInt true))),
   hubbardHopRow x e.2 e.1.2 e.1.1 (spinInt true) (cumsum (isOcc x (spinInt true)))]

def hubbardDiag (U : K) (x : Cfg L) : Cfg L × K :=
  (x, U * ((Finset.univ.filter fun j => x j = 3).card : K))

def hubbardRow (U : K) (edges : List ((Fin L × Fin L) × K)) (x : Cfg L) : List (Cfg L × K) :=
  hubbardDiag U x :: edges.flatMap (hubbardHopRows x)

theorem hubbardEdgeFold (x : Cfg L) (bid : ℕ) (edges : List ((Fin L × Fin L) × K)) (b : ConnBuf L K) :
    edges.foldl (hubbardEdgeStep x bid) b =
      { out := b.out ++ edges.flatMap (hubbardHopRows x)
        sections := fun k => if k = bid ∧ edges ≠ [] then some (b.out.length + 4 * edges.length)
          else b.sections k } := by
  induction edges generalizing b with
  | nil => simp
  | cons e es ih =>
    rw [List.foldl_cons, ih]
    have h1 : (hubbardEdgeStep x bid b e).out = b.out ++ hubbardHopRows x e := by
      simp [hubbardEdgeStep, ConnBuf.push, hubbardHopRows, spinInt]
    have h2 : (hubbardEdgeStep x bid b e).sections = fun k => if k = bid then some (b.out.length + 4)
        else b.sections k := by
      simp [hubbardEdgeStep, ConnBuf.push]
    rw [h1, h2]
    congr 1
    · simp
    · funext k
      have hl : (hubbardHopRows x e).length = 4 := rfl
      by_cases hk : k = bid
      · by_cases he : es = []
        · simp [hk, he]
        · simp [hk, he, hl]; ring
      · simp [hk]

theorem hubbardRow_length (U : K) (edges : List ((Fin L × Fin L) × K)) (x : Cfg L) :
    (hubbardRow U edges x).length = 1 + edges.length * 4 := by
  have : ∀ es : List ((Fin L × Fin L) × K), (es.flatMap (hubbardHopRows x)).length = es.length * 4 := by
    intro es
    induction es with
    | nil => rfl
    | cons e es ih =>
      rw [List.flatMap_cons, List.length_append, ih, List.length_cons]
      have hl : (hubbardHopRows x e).length = 4 := rfl
      omega
  rw [hubbardRow, List.length_cons, this]; omega

theorem hubbardSample_eq (U : K) (edges : List ((Fin L × Fin L) × K)) (b : ConnBuf L K) (x : Cfg L) (k : ℕ) :
    hubbardSampleStep U edges b (x, k) =
      { out := b.out ++ hubbardRow U edges x
        sections := fun j => if j = k ∧ edges ≠ [] then some (b.out.length + (1 + edges.length * 4))
          else b.sections j } := by
  simp only [hubbardSampleStep]
  rw [hubbardEdgeFold]
  congr 1
  · simp [ConnBuf.push, hubbardRow, hubbardDiag]
  · funext j
    simp only [ConnBuf.push, List.length_append, List.length_cons, List.length_nil]
    congr 2
    omega

theorem hubbardKernel_aux (U : K) (edges : List ((Fin L × Fin L) × K)) (xs : List (Cfg L)) (n : ℕ)
    (b : ConnBuf L K) :
    (xs.zipIdx n).foldl (hubbardSampleStep U edges) b =
      { out := b.out ++ xs.flatMap (hubbardRow U edges)
        sections := fun j => if n ≤ j ∧ j < n + xs.length ∧ edges ≠ [] then
            some (b.out.length + (j - n + 1) * (1 + edges.length * 4))
          else b.sections j } := by
  induction xs generalizing n b with
  | nil =>
    simp only [List.zipIdx_nil, List.foldl_nil, List.flatMap_nil, List.append_nil, List.length_nil]
    rcases b with ⟨o, sec⟩
    congr 1
    funext j
    rw [if_neg]; omega
  | cons x xs ih =>
    rw [List.zipIdx_cons, List.foldl_cons, hubbardSample_eq, ih]
    congr 1
    · simp
    · funext j
      simp only [List.length_append, hubbardRow_length, List.length_cons]
      by_cases he : edges = []
      · simp [he]
      · by_cases hj : j = n
        · subst hj
          rw [if_neg (by omega), if_pos ⟨rfl, he⟩, if_pos ⟨le_rfl, by omega, he⟩]
          simp
        · by_cases h2 : n + 1 ≤ j ∧ j < n + 1 + xs.length
          · rw [if_pos ⟨h2.1, h2.2, he⟩, if_pos ⟨by omega, by omega, he⟩]
            have : j - n = j - (n + 1) + 1 := by omega
            rw [this]; congr 1; ring
          · rw [if_neg (by tauto), if_neg (by tauto), if_neg]
            rintro ⟨h3, h4, _⟩
            exact h2 ⟨by omega, by omega⟩

theorem hubbardKernel_eq (U : K) (edges : List ((Fin L × Fin L) × K)) (xs : List (Cfg L)) :
    hubbardKernel U edges xs =
      { out := xs.flatMap (hubbardRow U edges)
        sections := fun j => if j < xs.length ∧ edges ≠ [] then
            some ((j + 1) * (1 + edges.length * 4)) else none } := by
  unfold hubbardKernel
  rw [hubbardKernel_aux]
  simp

theorem num_apply {ι : Type} [Fintype ι] [LinearOrder ι] (p : ι) (n' n : Occ ι) :
    num p n' n = if n' = n ∧ n p = true then 1 else 0 := by
  rw [num, ← hopS_mat]
  unfold SMap.mat
  rw [hopS_self]
  by_cases h : n p = true
  · simp [h]
  · simp [h]

theorem num_num_apply {ι : Type} [Fintype ι] [LinearOrder ι] (p q : ι) (n' n : Occ ι) :
    (num p * num q) n' n = if n' = n ∧ n p = true ∧ n q = true then 1 else 0 := by
  rw [Matrix.mul_apply]
  simp only [num_apply]
  rw [Finset.sum_eq_single n]
  · by_cases h : n' = n <;> by_cases h1 : n p = true <;> by_cases h2 : n q = true <;> simp [h, h1, h2]
  · intro b _ hb
    simp [hb]
  · simp

theorem hasSpin_both : ∀ v : Fin 4, (hasSpin false v = true ∧ hasSpin true v = true) ↔ v = 3 := by decide

theorem docc_apply (x x' : Cfg L) :
    (∑ i : Fin L, num (mode false i) * num (mode true i)) (occOf x) (occOf x')
      = if x = x' then ((Finset.univ.filter fun j => x j = 3).card : ℤ) else 0 := by
  rw [Matrix.sum_apply]
  simp only [num_num_apply, occOf_mode, hasSpin_both]
  by_cases h : x = x'
  · subst h
    rw [Finset.card_filter]
    simp
  · rw [if_neg h]
    apply Finset.sum_eq_zero
    intro i _
    rw [if_neg]
    rintro ⟨h1, _⟩
    exact h (occOf_injective h1)

theorem hubbardRow_elem (U : K) (edges : List ((Fin L × Fin L) × K)) (x x' : Cfg L) :
    rowElem (hubbardRow U edges x) x' = hubbard U edges (occOf x) (occOf x') := by
  rw [hubbardRow, rowElem_cons, rowElem_flatMap, add_comm]
  unfold hubbard
  rw [Matrix.add_apply]
  congr 1
  · induction edges with
    | nil => simp
    | cons e es ih =>
      rw [List.map_cons, List.sum_cons, List.map_cons, List.sum_cons, Matrix.add_apply, ih]
      congr 1
      simp only [hubbardHopRows, rowElem_cons, rowElem_nil, hubbardHopRow_elem]
      rw [Matrix.neg_apply, Matrix.smul_apply, toK_apply, Matrix.sum_apply]
      simp only [Fintype.sum_bool, Matrix.add_apply, smul_eq_mul]
      push_cast
      ring
  · rw [Matrix.smul_apply, toK_apply, docc_apply]
    simp only [hubbardDiag, smul_eq_mul]
    by_cases h : x = x' <;> simp [h]

end GPSKet

namespace GPSKet
open Spec Matrix

variable {L : ℕ}

/-! ### conservation -/

theorem applyHopping_cases (i a : Fin L) (x : Cfg L) (s : Bool) (c : Option (ℕ → ℤ)) :
    ((applyHopping i a x (spinInt s) c).2 = x) ∨
    (a ≠ i ∧ hasSpin s (x i) = true ∧ hasSpin s (x a) = false ∧
      (applyHopping i a x (spinInt s) c).2 =
        Function.update (Function.update x i (x i - spinInt s)) a (x a + spinInt s)) := by
  by_cases h0 : (applyHopping i a x (spinInt s) c).1 = 0
  · left; exact applyHopping_zero x i a _ c h0
  · by_cases hai : a = i
    · left
      subst hai
      unfold applyHopping
      dsimp only
      split_ifs <;> simp_all [fin4_sub_add]
    · by_cases hi : hasSpin s (x i) = true
      · by_cases ha : hasSpin s (x a) = true
        · exfalso; apply h0
          have ha' := (hasSpin_iff s _).mp ha
          have hi' := (hasSpin_iff s _).mp hi
          unfold applyHopping; simp [hi', ha', hai]
        · right
          refine ⟨hai, hi, by simpa using ha, ?_⟩
          have key : (applyHopping i a x (spinInt s) c).2 =
              if (applyHopping i a x (spinInt s) c).1 ≠ 0 then
                Function.update (Function.update x i (x i - spinInt s)) a
                (Function.update x i (x i - spinInt s) a + spinInt s) else x := by
            unfold applyHopping
            dsimp only
            split_ifs <;> simp_all
          rw [key, if_pos h0, Function.update_of_ne hai]
      · exfalso; apply h0
        have hi' : x i &&& spinInt s = 0 := by
          rw [hasSpin_iff, not_not] at hi; exact hi
        unfold applyHopping; simp [hi']

theorem numElec_move (x : Cfg L) {i a : Fin L} (hai : a ≠ i) (s s' : Bool)
    (hi : hasSpin s (x i) = true) (ha : hasSpin s (x a) = false) :
    numElec s' (Function.update (Function.update x i (x i - spinInt s)) a (x a + spinInt s)) = numElec s' x := by
  unfold numElec
  by_cases hs : s' = s
  · subst hs
    have : (Finset.univ.filter fun j => hasSpin s' (Function.update (Function.update x i (x i - spinInt s')) a
        (x a + spinInt s') j) = true) = insert a ((Finset.univ.filter fun j => hasSpin s' (x j) = true).erase i) := by
      ext j
      simp only [Finset.mem_filter, Finset.mem_univ, true_and, Finset.mem_insert, Finset.mem_erase]
      by_cases hja : j = a
      · subst hja; simp [hasSpin_add s' s' _ ha]
      · by_cases hji : j = i
        · subst hji; simp [hja, hasSpin_sub s' s' _ hi]
        · simp [hja, hji]
    rw [this, Finset.card_insert_of_notMem (by simp [ha]), Finset.card_erase_of_mem (by simp [hi])]
    have : 0 < (Finset.univ.filter fun j => hasSpin s' (x j) = true).card :=
      Finset.card_pos.mpr ⟨i, by simp [hi]⟩
    omega
  · congr 1
    ext j
    simp only [Finset.mem_filter, Finset.mem_univ, true_and]
    by_cases hja : j = a
    · subst hja; simp [hasSpin_add s s' _ ha, hs]
    · by_cases hji : j = i
      · subst hji; simp [hja, hasSpin_sub s s' _ hi, hs]
      · simp [hja, hji]

/-! ### on-the-fly local energy -/

theorem setSites_two (x : Cfg L) {i a : Fin L} (h : a ≠ i) (v w : Fin 4) :
    setSites x [(i, v), (a, w)] = Function.update (Function.update x i v) a w := rfl

theorem applyUpdate_two {S A : Type} [DecidableEq S] (x : S → A) {i a : S} (h : a ≠ i) (v w : A) :
    applyUpdate x [(i, v), (a, w)] = Function.update (Function.update x i v) a w := by
  funext k
  unfold applyUpdate
  by_cases hi : k = i
  · subst hi; simp [Function.update_of_ne h.symm]
  · by_cases ha : k = a
    · subst ha; simp [Ne.symm h]
    · simp [Ne.symm hi, Ne.symm ha, hi, ha]

theorem conn_two {A Cache : Type} (src : AmpSource L A Cache) (x : Fin L → A) (hs : src.OkAt x) {i a : Fin L}
    (h : a ≠ i) (v w : A) :
    src.conn x [(i, v), (a, w)] = src.logAmp (Function.update (Function.update x i v) a w) := by
  cases src with
  | full f => rfl
  | fast m =>
    simp only [AmpSource.conn, AmpSource.logAmp]
    rw [hs x _ ⟨rfl, by simpa using h.symm⟩, applyUpdate_two x h]

theorem parityMult_eq (x : Cfg L) (s : Bool) {i a : Fin L} (h : a ≠ i) :
    parityMultiplicatorHop i a (cumsum (isOcc x (spinInt s))) = (-1) ^ (siteBetween x s a i).card := by
  unfold parityMultiplicatorHop
  dsimp only
  rw [parity_cum x s h, neg_one_pow_eq_ite]
  split_ifs <;> omega

theorem applyHopping_valid (x : Cfg L) (s : Bool) {i a : Fin L} (h : a ≠ i) (hi : hasSpin s (x i) = true)
    (ha : hasSpin s (x a) = false) :
    applyHopping i a x (spinInt s) (some (cumsum (isOcc x (spinInt s)))) =
      ((-1) ^ (siteBetween x s a i).card,
        Function.update (Function.update x i (x i - spinInt s)) a (x a + spinInt s)) := by
  have hi' := (hasSpin_iff s _).mp hi
  have ha' : x a &&& spinInt s = 0 := by
    have : ¬ (hasSpin s (x a) = true) := by simp [ha]
    rw [hasSpin_iff, not_not] at this; exact this
  unfold applyHopping
  simp only [hi', h, ha', if_false, if_true, parity_cum x s h, neg_one_pow_eq_ite]
  by_cases hp : ((siteBetween x s a i).card : ℤ) % 2 = 1 <;> simp [hp, Function.update_of_ne h]

theorem applyHopping_invalid (x : Cfg L) (s : Bool) {i a : Fin L} (h : a ≠ i)
    (hia : ¬ (hasSpin s (x i) = true ∧ hasSpin s (x a) = false)) (c : Option (ℕ → ℤ)) :
    applyHopping i a x (spinInt s) c = (0, x) := by
  unfold applyHopping
  by_cases hi : hasSpin s (x i) = true
  · have ha : hasSpin s (x a) = true := by
      by_contra hh; exact hia ⟨hi, by simpa using hh⟩
    have ha' := (hasSpin_iff s _).mp ha
    have hi' := (hasSpin_iff s _).mp hi
    simp [hi', ha', h]
  · have hi' : x i &&& spinInt s = 0 := by
      rw [hasSpin_iff, not_not] at hi; exact hi
    simp [hi']

theorem hubbardHopTerm_eq {Cache : Type} (src : AmpSource L (Fin 4) Cache) (x : Cfg L) (hs : src.OkAt x) (s : Bool)
    {i a : Fin L} (h : a ≠ i) :
    hubbardHopTerm src x (spinInt s) (cumsum (isOcc x (spinInt s))) i a =
      (let r := applyHopping i a x (spinInt s) (some (cumsum (isOcc x (spinInt s))))
       (r.1 : ℂ) * (Complex.exp (src.logAmp r.2) / Complex.exp (src.logAmp x))) := by
  by_cases hv : hasSpin s (x i) = true ∧ hasSpin s (x a) = false
  · obtain ⟨hi, ha⟩ := hv
    rw [applyHopping_valid x s h hi ha]
    have hi' := (hasSpin_iff s _).mp hi
    have ha' : x a &&& spinInt s = 0 := by
      have : ¬ (hasSpin s (x a) = true) := by simp [ha]
      rw [hasSpin_iff, not_not] at this; exact this
    unfold hubbardHopTerm
    simp only [hi', ha', not_true, or_self, if_false]
    rw [parityMult_eq x s h, conn_two src x hs h, Complex.exp_sub]
  · rw [applyHopping_invalid x s h hv]
    unfold hubbardHopTerm
    simp only [Int.cast_zero, zero_mul]
    rw [if_pos]
    by_cases hi : hasSpin s (x i) = true
    · right
      have ha : hasSpin s (x a) = true := by
        by_contra hh; exact hv ⟨hi, by simpa using hh⟩
      exact (hasSpin_iff s _).mp ha
    · left
      rw [hasSpin_iff, not_not] at hi; exact hi

theorem hubbardHopTerm_self {Cache : Type} (src : AmpSource L (Fin 4) Cache) (x : Cfg L) (v : Fin 4) (c : ℕ → ℤ)
    (i : Fin L) : hubbardHopTerm src x v c i i = 0 := by
  unfold hubbardHopTerm
  dsimp only
  rw [if_pos]
  by_cases h : x i &&& v = 0
  · left; exact h
  · right; exact h

theorem hubbardLocalEn_eq {Cache : Type} (src : AmpSource L (Fin 4) Cache) (U : ℂ)
    (edges : List ((Fin L × Fin L) × ℂ)) (hne : ∀ e ∈ edges, e.1.1 ≠ e.1.2) (x : Cfg L) (hs : src.OkAt x) :
    hubbardLocalEn src U edges x =
      rowApply (hubbardRow U edges x)
        (fun x' => Complex.exp (src.logAmp x') / Complex.exp (src.logAmp x)) := by
  have hterm : ∀ s : Bool, hubbardHoppingTerm src edges x (spinInt s) (cumsum (isOcc x (spinInt s))) =
      (edges.map fun e =>
        (let c := cumsum (isOcc x (spinInt s))
         let r := applyHopping e.1.1 e.1.2 x (spinInt s) (some c)
         let r' := applyHopping e.1.2 e.1.1 x (spinInt s) (some c)
        ((r.1 : ℂ) * (Complex.exp (src.logAmp r.2) / Complex.exp (src.logAmp x))
        + (r'.1 : ℂ) * (Complex.exp (src.logAmp r'.2) / Complex.exp (src.logAmp x))) * (-e.2))).sum := by
    intro s
    unfold hubbardHoppingTerm
    congr 1
    apply List.map_congr_left
    intro e he
    rw [hubbardHopTerm_eq src x hs s (hne e he).symm, hubbardHopTerm_eq src x hs s (hne e he)]
  have hdiag : (Complex.exp (src.logAmp x) / Complex.exp (src.logAmp x)) = 1 :=
    div_self (Complex.exp_ne_zero _)
  have hall : rowApply (hubbardRow U edges x)
        (fun x' => Complex.exp (src.logAmp x') / Complex.exp (src.logAmp x)) =
      U * ((Finset.univ.filter fun j => x j = 3).card : ℂ)
        + hubbardHoppingTerm src edges x (spinInt false) (cumsum (isOcc x (spinInt false)))
        + hubbardHoppingTerm src edges x (spinInt true) (cumsum (isOcc x (spinInt true))) := by
    rw [hterm, hterm]
    unfold rowApply hubbardRow
    rw [List.map_cons, List.sum_cons, add_assoc]
    congr 1
    · simp only [hubbardDiag, hdiag, mul_one]
    · clear hterm hne
      induction edges with
      | nil => simp
      | cons e es ih =>
        simp only [List.flatMap_cons, List.map_append, List.sum_append, List.map_cons, List.sum_cons, ih]
        simp only [hubbardHopRows, List.map_cons, List.map_nil, List.sum_cons, List.sum_nil, hubbardHopRow]
        ring
  rw [hall]
  unfold hubbardLocalEn
  dsimp only
  by_cases he : edges.length > 0
  · rw [if_pos he]; rfl
  · have : edges = [] := by
      cases edges with
      | nil => rfl
      | cons e es => simp at he
    subst this
    simp [hubbardHoppingTerm]

end GPSKet
