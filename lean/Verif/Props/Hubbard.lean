import Verif.Lemmas.Hubbard

/-!
# Properties C01–C07: fermionic hops and the Hubbard operator

Specification used: `Verif/Spec/Fock.lean` (creation/annihilation operators, `hubbard`),
`Verif/Spec/Occupation.lean` (`occOf`, `numElec`, `rowElem`), `Verif/Spec/Updates.lean` (`localEnergy`).
-/

namespace GPSKet
open Spec

variable {L : ℕ}

/-! ## C01 -/

/-- **C01**.  `apply_hopping(i, a, x, spin, cumsum)` acts as `c†_{a,s} c_{i,s}` on the Fock state of `x`:
every matrix element `⟨n'| c†_{a,s} c_{i,s} |x⟩` is the returned multiplicator if `n'` is the state of the returned
configuration and `0` otherwise; the multiplicator is `0`, `1` or `-1`. -/
theorem C01_hop_sign (x : Cfg L) (i a : Fin L) (s : Bool) (n' : Occ (Mode L)) :
    let r := applyHopping i a x (spinInt s) (some (cumsum (isOcc x (spinInt s))))
    (cre (mode s a) * ann (mode s i)) n' (occOf x) = (if n' = occOf r.2 then r.1 else 0)
      ∧ (r.1 = 0 ∨ r.1 = 1 ∨ r.1 = -1) := by
  intro r
  constructor
  · rw [← hopS_mat]
    unfold SMap.mat
    rw [applyHopping_hopS]
    by_cases h : r.1 = 0
    · have h' := h
      simp only [r] at h'
      simp [h, h']
    · have h' := h
      simp only [r] at h'
      simp [h', r]
  · by_cases h : a = i
    · subst h
      by_cases hi : x a &&& spinInt s = 0
      · left; simp [r, applyHopping, hi]
      · right; left; simp [r, applyHopping, hi]
    · by_cases hv : hasSpin s (x i) = true ∧ hasSpin s (x a) = false
      · right
        simp only [r, applyHopping_valid x s h hv.1 hv.2]
        exact neg_one_pow_eq_or ℤ _
      · left; simp only [r, applyHopping_invalid x s h hv]

/-- **C01**: the multiplicator is `0` exactly when `c†_{a,s} c_{i,s}` annihilates the state. -/
theorem C01_hop_zero_iff (x : Cfg L) (i a : Fin L) (s : Bool) :
    (applyHopping i a x (spinInt s) (some (cumsum (isOcc x (spinInt s))))).1 = 0 ↔
      ∀ n', (cre (mode s a) * ann (mode s i)) n' (occOf x) = 0 := by
  constructor
  · intro h n'
    rw [(C01_hop_sign x i a s n').1]; simp [h]
  · intro h
    have := h (occOf (applyHopping i a x (spinInt s) (some (cumsum (isOcc x (spinInt s))))).2)
    rw [(C01_hop_sign x i a s _).1] at this
    simpa using this

/-- a hop past one electron: sign `-1`, and the configuration is moved -/
example : applyHopping (0 : Fin 3) 2 ![3, 1, 2] 1 (some (cumsum (isOcc ![3, 1, 2] 1))) = (-1, ![2, 1, 3]) := by
  decide +kernel

/-! ## C02 -/

/-- **C02 is false**: without `cummulative_count` the electron itself is counted (and the last site before the
right end is not), so the two calls disagree already for one electron hopping over an empty site. -/
theorem C02_count_argument_fails :
    ¬ ∀ (L : ℕ) (x : Cfg L) (i a : Fin L) (s : Bool),
      (applyHopping i a x (spinInt s) none).1 =
        (applyHopping i a x (spinInt s) (some (cumsum (isOcc x (spinInt s))))).1 := by
  intro h
  have := h 3 ![1, 0, 0] 0 2 false
  revert this
  decide +kernel

/-- sum over the half-open window used without counts -/
private theorem window_sum (x : Cfg L) (s : Bool) (l r : ℕ) :
    (∑ j : Fin L, if l ≤ j.val ∧ j.val < r then isOcc x (spinInt s) j else 0) =
      ((Finset.univ.filter fun j : Fin L => l ≤ j.val ∧ j.val < r ∧ hasSpin s (x j) = true).card : ℤ) := by
  rw [Finset.card_filter, Nat.cast_sum]
  apply Finset.sum_congr rfl
  intro j _
  rw [isOcc_eq]
  by_cases h1 : l ≤ j.val <;> by_cases h2 : j.val < r <;> simp [h1, h2]

/-- **C02 (partial)**: the exact condition under which the two calls agree.  The full property (agreement always)
is false, see `C02_count_argument_fails`; they agree precisely if the hop is impossible, or is between
neighbouring sites, or the leftmost of the two sites and the site just left of the rightmost one are both
occupied or both unoccupied. -/
theorem C02_count_argument_partial (x : Cfg L) (i a : Fin L) (s : Bool) (hia : a ≠ i) :
    (applyHopping i a x (spinInt s) none).1 =
        (applyHopping i a x (spinInt s) (some (cumsum (isOcc x (spinInt s))))).1 ↔
      (¬ (hasSpin s (x i) = true ∧ hasSpin s (x a) = false) ∨
        (max i.val a.val = min i.val a.val + 1) ∨
        ∀ j : Fin L, j.val = max i.val a.val - 1 → hasSpin s (x (min i a)) = hasSpin s (x j)) := by
  by_cases hv : hasSpin s (x i) = true ∧ hasSpin s (x a) = false
  swap
  · rw [applyHopping_invalid x s hia hv, applyHopping_invalid x s hia hv]; simp [hv]
  obtain ⟨hi, ha⟩ := hv
  rw [applyHopping_valid x s hia hi ha]
  have hi' := (hasSpin_iff s _).mp hi
  have ha' : x a &&& spinInt s = 0 := by
    have : ¬ (hasSpin s (x a) = true) := by simp [ha]
    rw [hasSpin_iff, not_not] at this; exact this
  have hne : a.val ≠ i.val := fun h' => hia (Fin.ext h')
  have e1 : (applyHopping i a x (spinInt s) none).1 = (-1) ^ (Finset.univ.filter fun j : Fin L =>
      min i.val a.val ≤ j.val ∧ j.val < max i.val a.val - 1 ∧ hasSpin s (x j) = true).card := by
    unfold applyHopping
    simp only [hi', hia, ha', if_false, if_true, window_sum, neg_one_pow_eq_ite]
    split_ifs <;> simp_all
  rw [e1]
  simp only [hi, ha, and_self, not_true, false_or]
  -- split both sets at the common inner part
  have hmin : (min i a).val = min i.val a.val := Fin.coe_min i a
  by_cases hadj : max i.val a.val = min i.val a.val + 1
  · simp only [hadj, true_or, iff_true]
    have h1 : (Finset.univ.filter fun j : Fin L =>
      min i.val a.val ≤ j.val ∧ j.val < min i.val a.val + 1 - 1 ∧ hasSpin s (x j) = true) = ∅ := by
      apply Finset.filter_eq_empty_iff.mpr
      intro j _ h
      omega
    have h2 : siteBetween x s a i = ∅ := by
      apply Finset.filter_eq_empty_iff.mpr
      rintro j _ ⟨h3, h4, _⟩
      simp only [Fin.lt_def, Fin.coe_min, Fin.coe_max] at h3 h4
      omega
    rw [h1, h2]
  · simp only [hadj, false_or]
    have hb : max i.val a.val - 1 < L := by
      have := i.isLt; have := a.isLt; omega
    set b : Fin L := ⟨max i.val a.val - 1, hb⟩ with hbdef
    set I := Finset.univ.filter fun j : Fin L =>
      min i.val a.val < j.val ∧ j.val < max i.val a.val - 1 ∧ hasSpin s (x j) = true with hI
    have A : (Finset.univ.filter fun j : Fin L =>
        min i.val a.val ≤ j.val ∧ j.val < max i.val a.val - 1 ∧ hasSpin s (x j) = true)
        = if hasSpin s (x (min i a)) = true then insert (min i a) I else I := by
      ext j
      by_cases hj : j = min i a
      · subst hj
        by_cases hs : hasSpin s (x (min i a)) = true
        · rw [if_pos hs]
          simp [hs, hmin]
          omega
        · rw [if_neg hs]; simp [hs, hI]
      · have hj' : j.val ≠ min i.val a.val := fun h => hj (Fin.ext (by rw [h, hmin]))
        split_ifs
        · simp only [Finset.mem_filter, Finset.mem_univ, true_and, Finset.mem_insert, hj, false_or, hI]
          constructor
          · rintro ⟨h1, h2, h3⟩; exact ⟨by omega, h2, h3⟩
          · rintro ⟨h1, h2, h3⟩; exact ⟨by omega, h2, h3⟩
        · simp only [Finset.mem_filter, Finset.mem_univ, true_and, hI]
          constructor
          · rintro ⟨h1, h2, h3⟩; exact ⟨by omega, h2, h3⟩
          · rintro ⟨h1, h2, h3⟩; exact ⟨by omega, h2, h3⟩
    have B : siteBetween x s a i = if hasSpin s (x b) = true then insert b I else I := by
      unfold siteBetween
      ext j
      simp only [Finset.mem_filter, Finset.mem_univ, true_and, Fin.lt_def, Fin.coe_min, Fin.coe_max]
      by_cases hj : j = b
      · subst hj
        by_cases hs : hasSpin s (x b) = true
        · rw [if_pos hs]
          have hbv : b.val = max i.val a.val - 1 := rfl
          simp only [hs, hbv, and_true, Finset.mem_insert, true_or, iff_true]
          omega
        · rw [if_neg hs]; simp [hs, hI]
      · have hj' : j.val ≠ max i.val a.val - 1 := fun h => hj (Fin.ext (by rw [h]))
        split_ifs
        · simp only [Finset.mem_filter, Finset.mem_univ, true_and, Finset.mem_insert, hj, false_or, hI]
          constructor
          · rintro ⟨h1, h2, h3⟩; exact ⟨by omega, by omega, h3⟩
          · rintro ⟨h1, h2, h3⟩; exact ⟨by omega, by omega, h3⟩
        · simp only [Finset.mem_filter, Finset.mem_univ, true_and, hI]
          constructor
          · rintro ⟨h1, h2, h3⟩; exact ⟨by omega, by omega, h3⟩
          · rintro ⟨h1, h2, h3⟩; exact ⟨by omega, by omega, h3⟩
    have hm : min i a ∉ I := by simp [hI, hmin]
    have hbI : b ∉ I := by simp [hI, hbdef]
    have hforall : (∀ j : Fin L, j.val = max i.val a.val - 1 → hasSpin s (x (min i a)) = hasSpin s (x j)) ↔
        hasSpin s (x (min i a)) = hasSpin s (x b) := by
      constructor
      · intro h; exact h b rfl
      · intro h j hj
        have : j = b := Fin.ext hj
        rw [this, h]
    rw [hforall, A, B]
    rcases Bool.eq_false_or_eq_true (hasSpin s (x (min i a))) with h1 | h1 <;>
      rcases Bool.eq_false_or_eq_true (hasSpin s (x b)) with h2 | h2
    · simp [h1, h2, Finset.card_insert_of_notMem hm, Finset.card_insert_of_notMem hbI]
    · simp only [h1, h2, if_true, Bool.false_eq_true, if_false, Finset.card_insert_of_notMem hm, pow_succ,
        iff_false, Bool.true_eq_false]
      rcases neg_one_pow_eq_or ℤ I.card with h | h <;> rw [h] <;> decide
    · simp only [h1, h2, if_true, Bool.false_eq_true, if_false, Finset.card_insert_of_notMem hbI, pow_succ,
        iff_false, Bool.false_eq_true]
      rcases neg_one_pow_eq_or ℤ I.card with h | h <;> rw [h] <;> decide
    · simp [h1, h2]

/-- both cases occur for possible long-range hops: agreement with an electron just before the right end,
disagreement without it -/
example : (3 : Fin 4) ≠ 0 ∧
    (applyHopping (0 : Fin 4) 3 ![1, 0, 1, 0] 1 none).1 =
      (applyHopping (0 : Fin 4) 3 ![1, 0, 1, 0] 1 (some (cumsum (isOcc ![1, 0, 1, 0] 1)))).1 ∧
    (applyHopping (0 : Fin 4) 3 ![1, 1, 0, 0] 1 none).1 ≠
      (applyHopping (0 : Fin 4) 3 ![1, 1, 0, 0] 1 (some (cumsum (isOcc ![1, 1, 0, 0] 1)))).1 := by
  decide +kernel

/-! ## C03 -/

/-- **C03**: a hop conserves the number of electrons of each spin, whatever counts are supplied. -/
theorem C03_hop_conserves (x : Cfg L) (i a : Fin L) (s s' : Bool) (c : Option (ℕ → ℤ)) :
    numElec s' (applyHopping i a x (spinInt s) c).2 = numElec s' x := by
  rcases applyHopping_cases i a x s c with h | ⟨h1, h2, h3, h4⟩
  · rw [h]
  · rw [h4, numElec_move x h1 s s' h2 h3]

/-- **C03**: a hop changes no other site. -/
theorem C03_hop_local (x : Cfg L) (i a j : Fin L) (s : Bool) (c : Option (ℕ → ℤ)) (h1 : j ≠ i) (h2 : j ≠ a) :
    (applyHopping i a x (spinInt s) c).2 j = x j := by
  rcases applyHopping_cases i a x s c with h | ⟨_, _, _, h⟩
  · rw [h]
  · rw [h, Function.update_of_ne h2, Function.update_of_ne h1]

/-- **C03**: multiplicator 0 means the configuration is left as it was. -/
theorem C03_hop_zero_unchanged (x : Cfg L) (i a : Fin L) (s : Bool) (c : Option (ℕ → ℤ))
    (h : (applyHopping i a x (spinInt s) c).1 = 0) : (applyHopping i a x (spinInt s) c).2 = x :=
  applyHopping_zero x i a _ c h

/-- **C03** for every history: any sequence of hop calls (site, site, spin, counts) conserves both electron
numbers. -/
theorem C03_hops_conserve (hops : List (Fin L × Fin L × Bool × Option (ℕ → ℤ))) (x : Cfg L) (s' : Bool) :
    numElec s' (hops.foldl (fun y h => (applyHopping h.1 h.2.1 y (spinInt h.2.2.1) h.2.2.2).2) x)
      = numElec s' x := by
  induction hops generalizing x with
  | nil => rfl
  | cons h hs ih => rw [List.foldl_cons, ih, C03_hop_conserves]

/-- the hypothesis of `C03_hop_zero_unchanged` is met by a non-trivial call (Pauli-blocked hop) -/
example : (applyHopping (0 : Fin 3) 2 ![3, 1, 1] 1 none).1 = 0 := by decide +kernel

/-! ## C04 -/

/-- **C04**: the entries `get_conn_flattened` returns for a single sample `x` that equal `x'` sum to
`⟨x|H|x'⟩` of the second-quantised Hubbard Hamiltonian.  (Batches: `C06_sections_partial`.) -/
theorem C04_hubbard_row {K : Type} [Field K] (U : K) (edges : List ((Fin L × Fin L) × K)) (x x' : Cfg L) :
    rowElem (hubbardKernel U edges [x]).out x' = hubbard U edges (occOf x) (occOf x') := by
  rw [hubbardKernel_eq]
  simp [hubbardRow_elem]

/-- **C04**, constructor: a scalar `t` is every edge's amplitude, a list gives edge `k` its `k`-th entry, and the
constructor's pairing keeps the edges in order. -/
theorem C04_constructor {K : Type} [Field K] (edges : List (Fin L × Fin L)) (t : HopArg K)
    (es : List ((Fin L × Fin L) × K)) (h : hubbardInit edges t = some es) :
    es.map Prod.fst = edges ∧ es.length = edges.length ∧
    (∀ k (hk : k < es.length), (match t with
      | .scalar t => some (es[k].2) = some t
      | .list ts => some (es[k].2) = ts[k]?)) := by
  cases t with
  | scalar t =>
    simp only [hubbardInit, Option.some.injEq] at h
    subst h
    refine ⟨?_, by simp, ?_⟩
    · rw [List.map_map]; exact List.map_id' _
    · intro k hk; simp
  | list ts =>
    simp only [hubbardInit] at h
    split_ifs at h with hl
    simp only [Option.some.injEq] at h
    subst h
    have hl' : edges.length ≤ ts.length := Nat.le_of_not_lt hl
    refine ⟨?_, by simp [hl'], ?_⟩
    · exact List.map_fst_zip hl'
    · intro k hk
      simp only [List.length_zip, lt_min_iff] at hk
      simp [hk.2]

/-! ## C05 -/

/-- **C05**: the operator returned row by row is symmetric, as `is_hermitian = True` says. -/
theorem C05_hubbard_symmetric {K : Type} [Field K] (U : K) (edges : List ((Fin L × Fin L) × K)) (x x' : Cfg L) :
    hubbardIsHermitian = true ∧
    rowElem (hubbardKernel U edges [x]).out x' = rowElem (hubbardKernel U edges [x']).out x := by
  refine ⟨rfl, ?_⟩
  rw [C04_hubbard_row, C04_hubbard_row]
  have hT : (hubbard U edges).transpose = hubbard U edges := by
    unfold hubbard
    rw [Matrix.transpose_add]
    congr 1
    · induction edges with
      | nil => simp
      | cons e es ih =>
        rw [List.map_cons, List.sum_cons, Matrix.transpose_add, ih]
        congr 1
        rw [Matrix.transpose_neg, Matrix.transpose_smul]
        congr 2
        unfold toK
        rw [← Matrix.transpose_map]
        congr 1
        rw [Matrix.transpose_sum]
        apply Finset.sum_congr rfl
        intro s _
        rw [Matrix.transpose_add, cre_mul_ann_transpose, cre_mul_ann_transpose, add_comm]
    · rw [Matrix.transpose_smul]
      congr 1
      unfold toK
      rw [← Matrix.transpose_map]
      congr 1
      rw [Matrix.transpose_sum]
      apply Finset.sum_congr rfl
      intro i _
      ext n' n
      rw [Matrix.transpose_apply, num_num_apply, num_num_apply]
      by_cases h : n' = n
      · subst h; rfl
      · simp [h, Ne.symm h]
  conv_lhs => rw [← hT, Matrix.transpose_apply]

/-- **C05**: every configuration a row lists has the electron numbers of the sample. -/
theorem C05_hubbard_conserves {K : Type} [Field K] (U : K) (edges : List ((Fin L × Fin L) × K)) (x : Cfg L)
    (r : Cfg L × K) (hr : r ∈ (hubbardKernel U edges [x]).out) (s' : Bool) :
    numElec s' r.1 = numElec s' x := by
  rw [hubbardKernel_eq] at hr
  simp only [List.flatMap_cons, List.flatMap_nil, List.append_nil, hubbardRow, List.mem_cons,
    List.mem_flatMap] at hr
  rcases hr with h | ⟨e, _, he⟩
  · rw [h]; rfl
  · simp only [hubbardHopRows, List.mem_cons, List.not_mem_nil, or_false] at he
    rcases he with h | h | h | h <;> rw [h] <;> exact C03_hop_conserves ..

/-! ## C06 -/

/-- **C06 is false for an empty edge list**: then `sections` is never written for any sample of any batch
(the write sits inside the loop over edges, hubbard.py:93). -/
theorem C06_sections_empty_edges_fails (K : Type) [Field K] (U : K) (xs : List (Cfg L)) (b : ℕ) :
    (hubbardKernel U [] xs).sections b = none := by
  rw [hubbardKernel_eq]; simp

/-- **C06 (partial: at least one edge)**.  The kernel writes exactly the number of rows it allocates, and for every
sample `b` of the batch the rows between the previous section end and `sections[b]` are exactly the rows the
kernel returns for that sample alone.  Missing: the empty edge list, for which the property is false
(`C06_sections_empty_edges_fails`). -/
theorem C06_sections_partial {K : Type} [Field K] (U : K) (edges : List ((Fin L × Fin L) × K))
    (hedges : edges ≠ []) (xs : List (Cfg L)) :
    (hubbardKernel U edges xs).out.length = hubbardAlloc xs.length edges.length ∧
    ∀ b (hb : b < xs.length), ∃ start stop,
      (if b = 0 then some 0 else (hubbardKernel U edges xs).sections (b - 1)) = some start ∧
      (hubbardKernel U edges xs).sections b = some stop ∧
      (((hubbardKernel U edges xs).out.drop start).take (stop - start))
        = (hubbardKernel U edges [xs[b]]).out := by
  rw [hubbardKernel_eq]
  set m := 1 + edges.length * 4 with hm
  have hlen : ∀ ys : List (Cfg L), (ys.flatMap (hubbardRow U edges)).length = ys.length * m := by
    intro ys
    induction ys with
    | nil => simp
    | cons y ys ih => rw [List.flatMap_cons, List.length_append, ih, hubbardRow_length, List.length_cons]; ring
  refine ⟨hlen xs, ?_⟩
  intro b hb
  refine ⟨b * m, (b + 1) * m, ?_, ?_, ?_⟩
  · by_cases h0 : b = 0
    · simp [h0]
    · simp only [h0, if_false]
      have : b - 1 + 1 = b := by omega
      rw [if_pos ⟨by omega, hedges⟩, this]
  · simp [hb, hedges]
  · rw [hubbardKernel_eq]
    have hsub : (b + 1) * m - b * m = m := by rw [add_mul, one_mul]; omega
    rw [hsub]
    have hsplit : xs = xs.take b ++ xs[b] :: xs.drop (b + 1) := by simp
    conv_lhs => rw [hsplit]
    rw [List.flatMap_append, List.flatMap_cons]
    have hl1 : ((xs.take b).flatMap (hubbardRow U edges)).length = b * m := by
      rw [hlen, List.length_take, min_eq_left hb.le]
    rw [List.drop_append_of_le_length (by rw [hl1]), List.drop_eq_nil_of_le (by rw [hl1]), List.nil_append,
      List.take_append_of_le_length (by rw [hubbardRow_length]), List.take_of_length_le (by rw [hubbardRow_length])]
    simp

example : ([(((0 : Fin 2), (1 : Fin 2)), (1 : ℚ))] : List _) ≠ [] := by simp

/-! ## C07 -/

/-- **C07 is false for self loops**: an edge `(i, i)` contributes `-2t n_i` per spin to the operator
(`C04_hubbard_row`) but nothing to the on-the-fly local energy.  Witness: one site, one spin-up electron, `t = 1`,
`U = 0`, constant wave function. -/
theorem C07_local_energy_self_loop_fails :
    let edges : List ((Fin 1 × Fin 1) × ℂ) := [((0, 0), 1)]
    let x : Cfg 1 := fun _ => 1
    hubbardLocalEn (Cache := Unit) (.full fun _ => 0) 0 edges x ≠
      localEnergy (fun x' => rowElem (hubbardKernel 0 edges [x]).out x') (fun _ => 0) x := by
  intro edges x
  have h1 : hubbardLocalEn (Cache := Unit) (.full fun _ => 0) 0 edges x = 0 := by
    simp [hubbardLocalEn, hubbardHoppingTerm, edges, hubbardHopTerm_self]
  have h2 : localEnergy (fun x' => rowElem (hubbardKernel 0 edges [x]).out x') (fun _ => 0) x = -2 := by
    unfold localEnergy
    rw [rowApply_eq, hubbardKernel_eq]
    have a1 : applyHopping (0 : Fin 1) 0 (fun _ => 1 : Cfg 1) 1
        (some (cumsum (isOcc (fun _ => 1 : Cfg 1) 1))) = (1, fun _ => 1) := by decide +kernel
    have a2 : applyHopping (0 : Fin 1) 0 (fun _ => 1 : Cfg 1) 2
        (some (cumsum (isOcc (fun _ => 1 : Cfg 1) 2))) = (0, fun _ => 1) := by decide +kernel
    simp only [List.flatMap_cons, List.flatMap_nil, List.append_nil, hubbardRow, rowApply, hubbardDiag, edges,
      hubbardHopRows, hubbardHopRow, spinInt, a1, a2, x]
    simp
    norm_num
  rw [h1, h2]
  norm_num

/-- **C07 (partial: no self loops)**.  The on-the-fly local energy is `Σ_{x'} ⟨x|H|x'⟩ ψ(x')/ψ(x)` for the operator
that the kernel enumerates, for every wave function, both when the model is re-evaluated and when its fast update
is used, provided that fast update is coherent for updates of distinct sites (`AmpSource.OkAt`).
Missing: edges `(i,i)`, for which the property is false (`C07_local_energy_self_loop_fails`). -/
theorem C07_local_energy_partial {Cache : Type} (src : AmpSource L (Fin 4) Cache) (U : ℂ)
    (edges : List ((Fin L × Fin L) × ℂ)) (hne : ∀ e ∈ edges, e.1.1 ≠ e.1.2) (x : Cfg L) (hs : src.OkAt x) :
    hubbardLocalEn src U edges x =
      localEnergy (fun x' => rowElem (hubbardKernel U edges [x]).out x') src.logAmp x ∧
    hubbardLocalEn src U edges x =
      localEnergy (fun x' => hubbard U edges (occOf x) (occOf x')) src.logAmp x := by
  have h : hubbardLocalEn src U edges x =
      localEnergy (fun x' => rowElem (hubbardKernel U edges [x]).out x') src.logAmp x := by
    unfold localEnergy
    rw [rowApply_eq, hubbardKernel_eq]
    simp only [List.flatMap_cons, List.flatMap_nil, List.append_nil]
    exact hubbardLocalEn_eq src U edges hne x hs
  refine ⟨h, ?_⟩
  rw [h]
  simp only [C04_hubbard_row]

/-- hypotheses of `C07_local_energy_partial` are met: a ring of three sites, re-evaluated wave function, and a
fast-update model that is coherent (it caches the whole configuration). -/
example : (AmpSource.full (L := 3) (A := Fin 4) (Cache := Unit) fun _ => 0).OkAt ![1, 2, 3] ∧
    (AmpSource.fast (L := 3) (A := Fin 4)
      ⟨fun x => ((x 0).val : ℂ), fun x => x, fun c u => ((applyUpdate c u 0).val : ℂ)⟩).OkAt ![1, 2, 3] ∧
    ∀ e ∈ ([((0, 1), 1), ((1, 2), 1), ((2, 0), 1)] : List ((Fin 3 × Fin 3) × ℂ)), e.1.1 ≠ e.1.2 := by
  refine ⟨trivial, fun x upd _ => rfl, ?_⟩
  intro e he
  simp only [List.mem_cons, List.not_mem_nil, or_false] at he
  rcases he with h | h | h <;> rw [h] <;> simp

end GPSKet
