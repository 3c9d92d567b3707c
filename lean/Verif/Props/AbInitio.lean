import Verif.Lemmas.AbInitio

/-!
# Properties C12, C13: enumeration kernel of the ab-initio Hamiltonian

Specification used: `Verif/Spec/Fock.lean` (`abInitioTwice`), `Verif/Spec/Occupation.lean` (`occOf`, `numElec`, `rowElem`).
-/

namespace GPSKet
open Spec

variable {L : ℕ} {K : Type} [Field K]

/-! ## C12 -/

/-- Number of connected configurations of a configuration with `nu` spin-up and `nd` spin-down electrons in `L` orbitals: the
configuration itself, single excitations, ordered pairs of excitations of the same spin with different origins and targets, and pairs of
an up and a down excitation. -/
def numConnected (L nu nd : ℤ) : ℤ :=
  1 + nu * (L - nu) + nd * (L - nd) + nu * (nu - 1) * ((L - nu) * (L - nu - 1)) + nd * (nd - 1) * ((L - nd) * (L - nd - 1))
    + nu * (L - nu) * (nd * (L - nd))

theorem occInds_length (x : Cfg L) (s : Bool) : (occInds x (spinInt s)).length = numElec s x := by
  rw [← List.toFinset_card_of_nodup (occInds_nodup _ _), occInds_toFinset]
  rfl

theorem unoccInds_length (x : Cfg L) (s : Bool) : (unoccInds x (spinInt s)).length + numElec s x = L := by
  rw [← occInds_length]
  have h := List.length_eq_length_filter_add (l := List.finRange L) (fun j => decide (x j &&& spinInt s = 0))
  rw [List.length_finRange] at h
  unfold occInds unoccInds
  have h' : (List.finRange L).filter (fun j => !decide (x j &&& spinInt s = 0)) = (List.finRange L).filter fun j => decide (¬ x j &&& spinInt s = 0) := by
    apply List.filter_congr
    intro j _
    simp
  rw [← h']
  exact h.symm

/-- **C12**: the number of rows allocated for a sample is a function of its electron numbers alone. -/
theorem C12_alloc (x : Cfg L) : abConnectedCon x = numConnected L (numElec false x) (numElec true x) := by
  have h1 : ((unoccInds x (spinInt false)).length : ℤ) = L - numElec false x := by have := unoccInds_length x false; omega
  have h2 : ((unoccInds x (spinInt true)).length : ℤ) = L - numElec true x := by have := unoccInds_length x true; omega
  unfold abConnectedCon numConnected
  rw [show (1 : Fin 4) = spinInt false from rfl, show (2 : Fin 4) = spinInt true from rfl]
  simp only [h1, h2, occInds_length]
  ring

theorem cast_length_flatMap {α β : Type} (l : List α) (f : α → List β) :
    ((l.flatMap f).length : ℤ) = (l.map fun u => ((f u).length : ℤ)).sum := by
  induction l with
  | nil => rfl
  | cons u l ih => rw [List.flatMap_cons, List.length_append, Nat.cast_add, ih, List.map_cons, List.sum_cons]

theorem sum_ne_card {S : Finset (Fin L)} {i : Fin L} (hi : i ∈ S) : (∑ j ∈ S, if i ≠ j then (1 : ℤ) else 0) = S.card - 1 := by
  rw [← Finset.sum_erase_add S _ hi]
  simp only [ne_eq, not_true_eq_false, if_false, add_zero]
  rw [Finset.sum_congr rfl (g := fun _ => (1 : ℤ))]
  · rw [Finset.sum_const, Finset.card_erase_of_mem hi]
    have := Finset.card_pos.mpr ⟨i, hi⟩
    simp only [nsmul_eq_mul, mul_one]
    omega
  · intro j hj
    rw [Finset.mem_erase] at hj
    rw [if_pos (Ne.symm hj.1)]

theorem abSameRows_length (e : Fin L → Fin L → Fin L → Fin L → K) (x : Cfg L) (s : Bool) (c : ℕ → ℤ) :
    ((abSameRows e x (spinInt s) c (occInds x (spinInt s)) (unoccInds x (spinInt s))).length : ℤ) =
      ((occInds x (spinInt s)).length : ℤ) * (unoccInds x (spinInt s)).length * ((occInds x (spinInt s)).length - 1)
        * ((unoccInds x (spinInt s)).length - 1) := by
  have hl : ∀ (p : Prop) [Decidable p] (r : Cfg L × K), ((if p then [r] else [] : List _).length : ℤ) = if p then 1 else 0 := by
    intro p _ r; by_cases h : p <;> simp [h]
  have hcO : ((occInds x (spinInt s)).length : ℤ) = (occSet s (occOf x)).card := by
    rw [← occInds_toFinset, List.toFinset_card_of_nodup (occInds_nodup _ _)]
  have hcV : ((unoccInds x (spinInt s)).length : ℤ) = (emptySet s (occOf x)).card := by
    rw [← unoccInds_toFinset, List.toFinset_card_of_nodup (unoccInds_nodup _ _)]
  unfold abSameRows
  simp only [cast_length_flatMap, hl, occInds_sum, unoccInds_sum, hcO, hcV]
  have : ∀ i ∈ occSet s (occOf x), ∀ a ∈ emptySet s (occOf x),
      (∑ j ∈ occSet s (occOf x), ∑ b ∈ emptySet s (occOf x), if i ≠ j ∧ a ≠ b then (1 : ℤ) else 0) =
        ((occSet s (occOf x)).card - 1) * ((emptySet s (occOf x)).card - 1) := by
    intro i hi a ha
    rw [← sum_ne_card hi, ← sum_ne_card ha, Finset.sum_mul_sum]
    apply Finset.sum_congr rfl; intro j _
    apply Finset.sum_congr rfl; intro b _
    by_cases h1 : i = j <;> by_cases h2 : a = b <;> simp [h1, h2]
  rw [Finset.sum_congr rfl (fun i hi => Finset.sum_congr rfl (this i hi))]
  simp only [Finset.sum_const, nsmul_eq_mul]
  ring

theorem abRows_length (t : Fin L → Fin L → K) (e : Fin L → Fin L → Fin L → Fin L → K) (x : Cfg L) :
    ((abRows t e x).length : ℤ) = abConnectedCon x := by
  have hone : ∀ (v : Fin 4) (c : ℕ → ℤ) (O O' V : List (Fin L)), ((abOneRows t e x v c O O' V).length : ℤ) = O.length * V.length := by
    intro v c O O' V
    unfold abOneRows
    rw [cast_length_flatMap]
    simp
  have hs1 := abSameRows_length e x false (cumsum (isOcc x 1))
  have hs2 := abSameRows_length e x true (cumsum (isOcc x 2))
  simp only [spinInt] at hs1 hs2
  unfold abRows abConnectedCon
  simp only [List.length_append, Nat.cast_add, hone, hs1, hs2, cast_length_flatMap, List.length_map, List.map_const', List.sum_replicate,
    List.length_cons, List.length_nil, nsmul_eq_mul]
  push_cast
  ring

theorem abKernel_aux (t : Fin L → Fin L → K) (e : Fin L → Fin L → Fin L → Fin L → K) (xs : List (Cfg L)) (n : ℕ) (b : AbBuf L K) :
    let r := (xs.zipIdx n).foldl (abSampleStep t e) b
    r.buf.out = b.buf.out ++ xs.flatMap (abRows t e) ∧ r.alloc = b.alloc + (xs.map abConnectedCon).sum ∧
      ∀ j, r.buf.sections j = if n ≤ j ∧ j < n + xs.length then
          some (b.buf.out.length + ((xs.take (j - n + 1)).flatMap (abRows t e)).length) else b.buf.sections j := by
  induction xs generalizing n b with
  | nil =>
    refine ⟨by simp, by simp, fun j => ?_⟩
    rw [if_neg (by simp)]
    rfl
  | cons x xs ih =>
    rw [List.zipIdx_cons, List.foldl_cons]
    obtain ⟨h1, h2, h3⟩ := ih (n + 1) (abSampleStep t e b (x, n))
    refine ⟨?_, ?_, fun j => ?_⟩
    · rw [h1]; simp [abSampleStep]
    · rw [h2]; simp [abSampleStep]; ring
    · rw [h3 j]
      simp only [abSampleStep]
      by_cases hj : j = n
      · subst hj
        rw [if_neg (by omega), if_pos rfl, if_pos (by simp)]
        simp
      · by_cases h4 : n + 1 ≤ j ∧ j < n + 1 + xs.length
        · rw [if_pos h4, if_pos (by simp only [List.length_cons]; omega)]
          have : j - n + 1 = (j - (n + 1) + 1) + 1 := by omega
          rw [this, List.take_succ_cons]
          simp [add_assoc]
        · rw [if_neg h4, if_neg hj, if_neg]
          simp only [List.length_cons]; omega

/-- **C12**.  For every batch the kernel writes exactly the number of rows it allocates, the allocation is the sum over the samples of the
number determined by their electron numbers, and for every sample `b` the rows between the previous section end and
`sections[b]` are exactly the rows the kernel returns for that sample alone. -/
theorem C12_rows (t : Fin L → Fin L → K) (e : Fin L → Fin L → Fin L → Fin L → K) (xs : List (Cfg L)) :
    ((abKernel t e xs).buf.out.length : ℤ) = (abKernel t e xs).alloc ∧
    (abKernel t e xs).alloc = (xs.map fun x => numConnected L (numElec false x) (numElec true x)).sum ∧
    ∀ b (hb : b < xs.length), ∃ start stop,
      (if b = 0 then some 0 else (abKernel t e xs).buf.sections (b - 1)) = some start ∧
      (abKernel t e xs).buf.sections b = some stop ∧ start ≤ stop ∧ stop ≤ (abKernel t e xs).buf.out.length ∧
      (((abKernel t e xs).buf.out.drop start).take (stop - start)) = (abKernel t e [xs[b]]).buf.out := by
  obtain ⟨h1, h2, h3⟩ := abKernel_aux t e xs 0 { buf := { out := [], sections := fun _ => none }, alloc := 0 }
  change (abKernel t e xs).buf.out = _ at h1
  change (abKernel t e xs).alloc = _ at h2
  change ∀ j, (abKernel t e xs).buf.sections j = _ at h3
  simp only [List.nil_append] at h1
  simp only [zero_add] at h2
  have hlen : ((xs.flatMap (abRows t e)).length : ℤ) = (xs.map abConnectedCon).sum := by
    rw [cast_length_flatMap]; simp only [abRows_length]
  refine ⟨by rw [h1, h2, hlen], ?_, ?_⟩
  · rw [h2]; simp only [← C12_alloc]
  · intro b hb
    have hsplit : xs = xs.take b ++ xs[b] :: xs.drop (b + 1) := by simp
    have htake : xs.take (b + 1) = xs.take b ++ [xs[b]] := by rw [List.take_succ_eq_append_getElem hb]
    refine ⟨((xs.take b).flatMap (abRows t e)).length, ((xs.take (b + 1)).flatMap (abRows t e)).length, ?_, ?_, ?_, ?_, ?_⟩
    · by_cases h0 : b = 0
      · simp [h0]
      · rw [if_neg h0, h3, if_pos (by omega)]
        have : b - 1 - 0 + 1 = b := by omega
        rw [this]; simp
    · rw [h3, if_pos (by omega)]; simp
    · rw [htake, List.flatMap_append, List.length_append]; omega
    · rw [h1]
      conv_rhs => rw [← List.take_append_drop (b + 1) xs, List.flatMap_append, List.length_append]
      omega
    · obtain ⟨g1, _⟩ := abKernel_aux t e [xs[b]] 0 { buf := { out := [], sections := fun _ => none }, alloc := 0 }
      change (abKernel t e [xs[b]]).buf.out = _ at g1
      rw [g1, h1, htake, List.flatMap_append, List.length_append, Nat.add_sub_cancel_left]
      have h5 : xs.flatMap (abRows t e) = (xs.take b).flatMap (abRows t e) ++ (abRows t e xs[b] ++ (xs.drop (b + 1)).flatMap (abRows t e)) := by
        conv_lhs => rw [hsplit]
        rw [List.flatMap_append, List.flatMap_cons]
      rw [h5, List.drop_left]
      simp

/-- a non-trivial count: two orbitals, one electron of each spin -/
example : abConnectedCon (![1, 2] : Cfg 2) = 4 ∧ (abRows (fun _ _ => (1 : ℚ)) (fun _ _ _ _ => 1) ![1, 2]).length = 4 := by
  decide +kernel

/-! ## C13 -/

/-- **C13**.  The entries returned for `x` sum, for each `x'`, to `⟨x|H|x'⟩` of the molecular Hamiltonian
`H = Σ h_pq E_pq + ½ Σ (pq|rs) (E_pq E_rs - δ_qr E_ps)` (`abInitioTwice h eri` is `2H`), where the operator holds
`t = h - ½ Σ_r (pr|rq)`. -/
theorem C13_rows (h2 : (2 : K) ≠ 0) (h : Fin L → Fin L → K) (e : Fin L → Fin L → Fin L → Fin L → K)
    (hsym : ∀ p q r s, e p q r s = e r s p q) (x x' : Cfg L) :
    rowElem (abKernel (abT h e) e [x]).buf.out x' = (1 / 2) * abInitioTwice h e (occOf x) (occOf x') := by
  obtain ⟨g1, _⟩ := abKernel_aux (abT h e) e [x] 0 { buf := { out := [], sections := fun _ => none }, alloc := 0 }
  change (abKernel (abT h e) e [x]).buf.out = _ at g1
  rw [g1, abInitioTwice_apply, ← abRows_apply e x (fun m => if m = occOf x' then 1 else 0) h2 h hsym]
  have : (fun y : Cfg L => if occOf y = occOf x' then (1 : K) else 0) = fun y => if y = x' then 1 else 0 := by
    funext y
    by_cases hy : y = x'
    · simp [hy]
    · rw [if_neg hy, if_neg (fun hh => hy (occOf_injective hh))]
  rw [this, ← rowApply_eq]
  simp only [List.nil_append, List.flatMap_cons, List.flatMap_nil, List.append_nil, mul_ite, mul_one, mul_zero]
  rw [Finset.sum_ite_eq' Finset.univ x', if_pos (Finset.mem_univ _)]
  field_simp

/-- the hypotheses are met by integrals which are not symmetric in any other way, and the row is not trivial -/
example : (2 : ℚ) ≠ 0 ∧ (∀ p q r s : Fin 3, (fun p q r s : Fin 3 => ((p.val + 2 * q.val) * (r.val + 2 * s.val) : ℚ)) p q r s =
    (fun p q r s : Fin 3 => ((p.val + 2 * q.val) * (r.val + 2 * s.val) : ℚ)) r s p q) := by
  refine ⟨by norm_num, ?_⟩
  intro p q r s
  simp only
  ring

/-- **C13**: without the exchange symmetry of the integrals the enumeration is not the operator.  Two orbitals, one electron of each
spin: `(00|11)` enters with weight 1 instead of `½`. -/
theorem C13_symmetry_needed : ∃ (h : Fin 2 → Fin 2 → ℚ) (e : Fin 2 → Fin 2 → Fin 2 → Fin 2 → ℚ) (x x' : Cfg 2),
    rowElem (abKernel (abT h e) e [x]).buf.out x' ≠ (1 / 2) * abInitioTwice h e (occOf x) (occOf x') := by
  refine ⟨fun _ _ => 0, fun p q r s => if p = 0 ∧ q = 0 ∧ r = 1 ∧ s = 1 then 1 else 0, ![1, 2], ![1, 2], ?_⟩
  decide +kernel

/-- **C13**: every configuration a row lists has the electron numbers of the sample. -/
theorem C13_conserves (t : Fin L → Fin L → K) (e : Fin L → Fin L → Fin L → Fin L → K) (x : Cfg L)
    (r : Cfg L × K) (hr : r ∈ (abKernel t e [x]).buf.out) (s' : Bool) : numElec s' r.1 = numElec s' x := by
  have hc : ∀ (y : Cfg L) (i a : Fin L) (s : Bool) (c : Option (ℕ → ℤ)), numElec s' (applyHopping i a y (spinInt s) c).2 = numElec s' y := by
    intro y i a s c
    rcases applyHopping_cases i a y s c with h | ⟨h1, h2, h3, h4⟩
    · rw [h]
    · rw [h4, numElec_move y h1 s s' h2 h3]
  have hf := fun (y : Cfg L) (i a : Fin L) (c : Option (ℕ → ℤ)) => hc y i a false c
  have ht := fun (y : Cfg L) (i a : Fin L) (c : Option (ℕ → ℤ)) => hc y i a true c
  simp only [spinInt] at hf ht
  obtain ⟨g1, _⟩ := abKernel_aux t e [x] 0 { buf := { out := [], sections := fun _ => none }, alloc := 0 }
  change (abKernel t e [x]).buf.out = _ at g1
  rw [g1] at hr
  simp only [List.nil_append, List.flatMap_cons, List.flatMap_nil, List.append_nil, abRows, abOneRows, abSameRows, List.mem_append,
    List.mem_flatMap, List.mem_map, List.mem_cons, List.not_mem_nil, or_false] at hr
  rcases hr with ((((h | ⟨i, _, a, _, rfl⟩) | ⟨i, _, a, _, rfl⟩) | ⟨i, _, a, _, j, _, b, _, h⟩) | ⟨i, _, a, _, j, _, b, _, h⟩) | ⟨i, _, a, _, j, _, b, _, rfl⟩
  · rw [h]
  · exact hf ..
  · exact ht ..
  · split_ifs at h
    · rw [List.mem_singleton] at h
      rw [h]
      simp only [abSameRow, hf]
    · simp at h
  · split_ifs at h
    · rw [List.mem_singleton] at h
      rw [h]
      simp only [abSameRow, ht]
    · simp at h
  · simp only [abMixedRow, ht, hf]

theorem abInitioTwice_transpose (h : Fin L → Fin L → K) (e : Fin L → Fin L → Fin L → Fin L → K) (hh : ∀ p q, h p q = h q p)
    (hsym : ∀ p q r s, e p q r s = e r s p q) (hsw : ∀ p q r s, e p q r s = e q p s r) :
    (abInitioTwice h e).transpose = abInitioTwice h e := by
  have hexc : ∀ p q : Fin L, (exc p q).transpose = exc q p := by
    intro p q
    unfold exc
    rw [Matrix.transpose_sum]
    exact Finset.sum_congr rfl fun s _ => cre_mul_ann_transpose ..
  have htoK : ∀ M : Matrix (Occ (Mode L)) (Occ (Mode L)) ℤ, (toK K M).transpose = toK K M.transpose := by
    intro M; rfl
  unfold abInitioTwice
  rw [Matrix.transpose_add]
  congr 1
  · simp only [Matrix.transpose_sum, Matrix.transpose_smul, htoK, hexc]
    rw [Finset.sum_comm]
    exact Finset.sum_congr rfl fun p _ => Finset.sum_congr rfl fun q _ => by rw [hh]
  · simp only [Matrix.transpose_sum, Matrix.transpose_smul, htoK, Matrix.transpose_sub, Matrix.transpose_mul, hexc]
    have e1 : ∀ p q r s : Fin L, (if q = r then exc p s else 0 : Matrix (Occ (Mode L)) (Occ (Mode L)) ℤ).transpose = if q = r then exc s p else 0 := by
      intro p q r s
      by_cases hqr : q = r <;> simp [hqr, hexc]
    simp only [e1]
    -- (pq|rs) E_sr E_qp with the roles (p,q,r,s) -> (s,r,q,p)
    have e2 : ∀ p q r s : Fin L, e p q r s • toK K (exc s r * exc q p - if q = r then exc s p else 0) =
        e s r q p • toK K (exc s r * exc q p - if r = q then exc s p else 0) := by
      intro p q r s
      rw [hsym p q r s, hsw r s p q]
      simp only [eq_comm]
    refine (Finset.sum_congr rfl fun p _ => Finset.sum_congr rfl fun q _ => Finset.sum_congr rfl fun r _ =>
      Finset.sum_congr rfl fun s _ => e2 p q r s).trans ?_
    rw [show (∑ p, ∑ q, ∑ r, ∑ s, e s r q p • toK K (exc s r * exc q p - if r = q then exc s p else 0)) =
      ∑ s, ∑ r, ∑ q, ∑ p, e s r q p • toK K (exc s r * exc q p - if r = q then exc s p else 0) from ?_]
    rw [show (∑ p, ∑ q, ∑ r, ∑ s, e s r q p • toK K (exc s r * exc q p - if r = q then exc s p else 0)) =
      ∑ p, ∑ s, ∑ r, ∑ q, e s r q p • toK K (exc s r * exc q p - if r = q then exc s p else 0) from ?_]
    · rw [Finset.sum_comm]
      refine Finset.sum_congr rfl fun s _ => ?_
      rw [Finset.sum_comm]
      refine Finset.sum_congr rfl fun r _ => ?_
      rw [Finset.sum_comm]
    · refine Finset.sum_congr rfl fun p _ => ?_
      rw [Finset.sum_comm]
      rw [show (∑ r, ∑ q, ∑ s, e s r q p • toK K (exc s r * exc q p - if r = q then exc s p else 0)) =
        ∑ r, ∑ s, ∑ q, e s r q p • toK K (exc s r * exc q p - if r = q then exc s p else 0) from
          Finset.sum_congr rfl fun r _ => Finset.sum_comm]
      rw [Finset.sum_comm]

/-- **C13**: for real-orbital integrals the enumerated operator is symmetric, as `is_hermitian = True` says. -/
theorem C13_symmetric (h2 : (2 : K) ≠ 0) (h : Fin L → Fin L → K) (e : Fin L → Fin L → Fin L → Fin L → K) (hh : ∀ p q, h p q = h q p)
    (hsym : ∀ p q r s, e p q r s = e r s p q) (hsw : ∀ p q r s, e p q r s = e q p s r) (x x' : Cfg L) :
    rowElem (abKernel (abT h e) e [x]).buf.out x' = rowElem (abKernel (abT h e) e [x']).buf.out x := by
  rw [C13_rows h2 h e hsym, C13_rows h2 h e hsym]
  conv_lhs => rw [← abInitioTwice_transpose h e hh hsym hsw, Matrix.transpose_apply]

end GPSKet
