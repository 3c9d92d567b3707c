import Verif.Lemmas.Boundary
import Verif.Lemmas.Hubbard
import Verif.Model.HubbardScript
import Mathlib.Data.Matrix.Basic

/-!
# C109, C110: Hubbard Hamiltonians of the scripts
-/

namespace GPSKet.HubbardScript
open Spec

variable {L Lx Ly : ℕ} {K : Type} [Field K]

theorem hopOf_append (a b : List ((Fin L × Fin L) × K)) (i j : Fin L) : hopOf (a ++ b) i j = hopOf a i j + hopOf b i j := by
  simp [hopOf]

theorem hopOf_map (edges : List (Fin L × Fin L)) (f : Fin L × Fin L → K) (i j : Fin L) :
    hopOf (edges.map fun e => (e, f e)) i j = edges.count (i, j) * f (i, j) + edges.count (j, i) * f (j, i) := by
  induction edges with
  | nil => simp [hopOf]
  | cons e es ih =>
    rw [List.map_cons, ← List.singleton_append, hopOf_append, ih]
    simp only [hopOf, List.map_cons, List.map_nil, List.sum_cons, List.sum_nil, List.count_cons]
    by_cases h1 : e = (i, j)
    · by_cases h2 : e = (j, i)
      · simp [← h1, ← h2]; ring
      · have h3 : ¬ (i, j) = (j, i) := by rw [← h1]; exact h2
        simp [h1, h3]; ring
    · by_cases h2 : e = (j, i)
      · have h3 : ¬ (j, i) = (i, j) := by rw [← h2]; exact h1
        simp [h2, h3]; ring
      · simp [h1, h2]

theorem hopOf_sym (edges : List (Fin L × Fin L)) (adj : Fin L → Fin L → Prop) [∀ i j, Decidable (adj i j)] (h : ListsEdges edges adj)
    (f : Fin L × Fin L → K) (hf : ∀ i j, f (i, j) = f (j, i)) (i j : Fin L) :
    hopOf (edges.map fun e => (e, f e)) i j = if adj i j then f (i, j) else 0 := by
  rw [hopOf_map, ← hf i j, ← add_mul]
  have := congrArg (Nat.cast : ℕ → K) (h i j)
  rw [Nat.cast_add] at this
  rw [this]
  split_ifs <;> simp

omit [Field K] in
theorem init_map (edges : List (Fin L × Fin L)) (f : Fin L × Fin L → K) :
    hubbardInit edges (.list (edges.map f)) = some (edges.map fun e => (e, f e)) := by
  simp only [hubbardInit, List.length_map, lt_irrefl, if_false, Option.some.injEq]
  induction edges with
  | nil => rfl
  | cons e es ih => simp [ih]

omit [Field K] in
theorem replicate_map (edges : List (Fin L × Fin L)) (t : K) : List.replicate edges.length t = edges.map fun _ => t := by
  simp

theorem flipLast_replicate (n : ℕ) (t : K) : flipLast (List.replicate (n + 1) t) = List.replicate n t ++ [-t] := by
  unfold flipLast
  rw [List.replicate_succ']
  simp

/-- The amplitudes of a chain without change of sign. -/
theorem plain (edges : List (Fin L × Fin L)) (adj : Fin L → Fin L → Prop) [∀ i j, Decidable (adj i j)] (h : ListsEdges edges adj) (t : K) :
    ∃ es, hubbardInit edges (.list (List.replicate edges.length t)) = some es ∧ ∀ i j, hopOf es i j = if adj i j then t else 0 := by
  refine ⟨_, by rw [replicate_map, init_map], fun i j => ?_⟩
  rw [hopOf_sym edges adj h (fun _ => t) (fun _ _ => rfl)]

/-- The amplitudes of a chain with a change of sign of the last edge. -/
theorem flipped (es : List (Fin L × Fin L)) (e : Fin L × Fin L) (adj : Fin L → Fin L → Prop) [∀ i j, Decidable (adj i j)]
    (h : ListsEdges (es ++ [e]) adj) (t : K) :
    ∃ out, hubbardInit (es ++ [e]) (.list (flipLast (List.replicate (es ++ [e]).length t))) = some out ∧
      ∀ i j, hopOf out i j = if e = (i, j) ∨ e = (j, i) then -t else if adj i j then t else 0 := by
  refine ⟨(es.map fun e => (e, t)) ++ [(e, -t)], ?_, fun i j => ?_⟩
  · rw [List.length_append, List.length_singleton, flipLast_replicate]
    simp only [hubbardInit, List.length_append, List.length_replicate, List.length_singleton, lt_irrefl, if_false, Option.some.injEq]
    rw [List.zip_append (by simp)]
    congr 1
    rw [replicate_map]
    have := init_map es (fun _ => t)
    simp only [hubbardInit, List.length_map, lt_irrefl, if_false, Option.some.injEq] at this
    exact this
  · have hc := h i j
    rw [List.count_append, List.count_append] at hc
    rw [hopOf_append, hopOf_map es (fun _ => t), ← add_mul, ← Nat.cast_add]
    simp only [hopOf, List.map_cons, List.map_nil, List.sum_cons, List.sum_nil]
    simp only [List.count_singleton, beq_iff_eq] at hc
    by_cases h1 : e = (i, j)
    · by_cases h2 : e = (j, i)
      · exfalso
        rw [if_pos h1, if_pos h2] at hc
        split_ifs at hc
        all_goals omega
      · rw [if_pos h1, if_neg h2] at hc
        rw [if_pos h1, if_neg h2, if_pos (Or.inl h1)]
        have : es.count (i, j) + es.count (j, i) = 0 := by split_ifs at hc <;> omega
        rw [this]
        simp
    · by_cases h2 : e = (j, i)
      · rw [if_neg h1, if_pos h2] at hc
        rw [if_neg h1, if_pos h2, if_pos (Or.inr h2)]
        have : es.count (i, j) + es.count (j, i) = 0 := by split_ifs at hc <;> omega
        rw [this]
        simp
      · rw [if_neg h1, if_neg h2] at hc
        rw [if_neg h1, if_neg h2, if_neg (by tauto)]
        have : es.count (i, j) + es.count (j, i) = if adj i j then 1 else 0 := by omega
        rw [this]
        split_ifs <;> simp

theorem adj_hop (hL : 3 ≤ L) (pbc : Bool) (t : K) (i j : Fin L) :
    (if chainAdj pbc i j then t else 0) = chainHop t (if pbc then t else 0) i j := by
  by_cases c1 : i.val + 1 = j.val ∨ j.val + 1 = i.val
  · have c2 : ¬ ((i.val = 0 ∧ j.val + 1 = L) ∨ (j.val = 0 ∧ i.val + 1 = L)) := by omega
    have ha : chainAdj pbc i j := Or.inl c1
    rw [if_pos ha, chainHop, if_pos c1, if_neg c2, add_zero]
  · rcases pbc <;> simp [c1, chainAdj, chainHop]

/-- A change of the signs of the sites up to `p` moves the change of sign from the edge between `p` and `p + 1` to the boundary. -/
theorem move_sign (hL : 3 ≤ L) (t : K) (i j : Fin L) (p : ℕ) (hp : p + 1 < L) (e : Prop) [Decidable e]
    (he : e ↔ (i.val = p ∧ j.val = p + 1) ∨ (j.val = p ∧ i.val = p + 1)) :
    chainHop t (-t) i j = (if i.val ≤ p then -1 else 1) * (if e then -t else if chainAdj true i j then t else 0) *
      (if j.val ≤ p then -1 else 1) := by
  have hi := i.isLt
  have hj := j.isLt
  by_cases c : e
  · rw [if_pos c]
    rw [he] at c
    have c1 : i.val + 1 = j.val ∨ j.val + 1 = i.val := by omega
    have c2 : ¬ ((i.val = 0 ∧ j.val + 1 = L) ∨ (j.val = 0 ∧ i.val + 1 = L)) := by omega
    rw [chainHop, if_pos c1, if_neg c2]
    rcases c with c | c
    · rw [if_pos (by omega), if_neg (by omega)]; ring
    · rw [if_neg (by omega), if_pos (by omega)]; ring
  · rw [if_neg c]
    rw [he] at c
    by_cases c1 : i.val + 1 = j.val ∨ j.val + 1 = i.val
    · have ha : chainAdj true i j := Or.inl c1
      have c2 : ¬ ((i.val = 0 ∧ j.val + 1 = L) ∨ (j.val = 0 ∧ i.val + 1 = L)) := by omega
      rw [if_pos ha, chainHop, if_pos c1, if_neg c2]
      by_cases h : i.val ≤ p
      · rw [if_pos h, if_pos (by omega)]; ring
      · rw [if_neg h, if_neg (by omega)]; ring
    · by_cases c2 : (i.val = 0 ∧ j.val + 1 = L) ∨ (j.val = 0 ∧ i.val + 1 = L)
      · have ha : chainAdj true i j := Or.inr ⟨rfl, c2⟩
        rw [if_pos ha, chainHop, if_neg c1, if_pos c2]
        rcases c2 with c2 | c2
        · rw [if_pos (by omega), if_neg (by omega)]; ring
        · rw [if_neg (by omega), if_pos (by omega)]; ring
      · have ha : ¬ chainAdj true i j := by
          rintro (h | h)
          · exact c1 h
          · exact c2 h.2
        rw [if_neg ha, chainHop, if_neg c1, if_neg c2]; ring

/-! ## The chain of the autoregressive script -/

theorem argps_count (L : ℕ) (i j : Fin L) : (argpsEdges L).count (i, j) = if (i.val + 1) % L = j.val then 1 else 0 := by
  unfold argpsEdges
  have hinj : Function.Injective fun i : Fin L => (i, (⟨(i.val + 1) % L, Nat.mod_lt _ i.pos⟩ : Fin L)) := fun a b h => (Prod.ext_iff.mp h).1
  by_cases h : (i.val + 1) % L = j.val
  · rw [if_pos h]
    have e : (i, j) = (fun i : Fin L => (i, (⟨(i.val + 1) % L, Nat.mod_lt _ i.pos⟩ : Fin L))) i := by
      simp [h]
    rw [e, List.count_map_of_injective _ _ hinj]
    exact List.count_eq_one_of_mem (List.nodup_finRange L) (List.mem_finRange i)
  · rw [if_neg h, List.count_eq_zero]
    intro hm
    obtain ⟨k, _, hk⟩ := List.mem_map.mp hm
    obtain ⟨h1, h2⟩ := Prod.ext_iff.mp hk
    simp only at h1 h2
    subst h1
    exact h (by rw [← h2])

theorem succ_mod (i : Fin L) : (i.val + 1) % L = if i.val + 1 = L then 0 else i.val + 1 := by
  split_ifs with h
  · rw [h, Nat.mod_self]
  · exact Nat.mod_eq_of_lt (by omega)

theorem argps_lists (hL : 3 ≤ L) : ListsEdges (argpsEdges L) (chainAdj true) := by
  intro i j
  rw [argps_count, argps_count, succ_mod, succ_mod]
  unfold chainAdj
  have hi := i.isLt
  have hj := j.isLt
  split_ifs <;> simp_all <;> omega

theorem argps_last (n : ℕ) : ∃ es, argpsEdges (n + 1) = es ++ [(Fin.last n, 0)] := by
  unfold argpsEdges
  rw [List.finRange_succ_last, List.map_append]
  exact ⟨_, by congr 1; simp⟩

/-- **C109**, closed chains: the Hamiltonian is that of the Hubbard model on a ring, with antiperiodic boundary condition if the number
of sites is a multiple of four and periodic boundary condition otherwise. -/
theorem C109_partial (hL : 3 ≤ L) (t U : K) :
    ∃ es, argpsHubbard L t true = some es ∧ hubbard U es = hubbardOf U (chainHop t (if L % 4 = 0 then -t else t)) := by
  obtain ⟨n, rfl⟩ : ∃ n, L = n + 1 := ⟨L - 1, by omega⟩
  have hlen : (argpsEdges (n + 1)).length = n + 1 := by simp [argpsEdges]
  by_cases h4 : (n + 1) % 4 = 0
  · obtain ⟨es, hes⟩ := argps_last n
    have hl := argps_lists hL
    rw [hes] at hl
    obtain ⟨out, ho, hh⟩ := flipped es _ _ hl t
    refine ⟨out, ?_, ?_⟩
    · unfold argpsHubbard
      dsimp only
      rw [if_pos ⟨rfl, h4⟩, hes]
      rw [← hes, hlen] at ho
      rw [← hes]
      exact ho
    · rw [hubbard_eq]
      refine hubbardOf_congr U fun i j => ?_
      rw [hh, if_pos h4]
      unfold chainHop chainAdj
      have hi := i.isLt
      have hj := j.isLt
      have e1 : ((Fin.last n, (0 : Fin (n + 1))) = (i, j)) ↔ (j.val = 0 ∧ i.val + 1 = n + 1) := by
        rw [Prod.mk.injEq, Fin.ext_iff, Fin.ext_iff, Fin.val_last, Fin.val_zero]
        omega
      have e2 : ((Fin.last n, (0 : Fin (n + 1))) = (j, i)) ↔ (i.val = 0 ∧ j.val + 1 = n + 1) := by
        rw [Prod.mk.injEq, Fin.ext_iff, Fin.ext_iff, Fin.val_last, Fin.val_zero]
        omega
      simp only [e1, e2]
      split_ifs <;> first | omega | simp
  · obtain ⟨es, he, hh⟩ := plain (argpsEdges (n + 1)) _ (argps_lists hL) t
    refine ⟨es, ?_, ?_⟩
    · unfold argpsHubbard
      dsimp only
      rw [if_neg (by simp [h4])]
      rwa [hlen] at he
    · rw [hubbard_eq]
      refine hubbardOf_congr U fun i j => ?_
      rw [hh, if_neg h4, adj_hop hL]
      rfl

/-- The state with one particle. -/
def single (p : Mode L) : Occ (Mode L) := fun q => decide (q = p)

theorem ann_single (q b : Mode L) (n' : Occ (Mode L)) : ann q n' (single b) = if q = b ∧ n' = fun _ => false then 1 else 0 := by
  have hj : jwSign b (single b) = 1 := by
    have : (Finset.univ.filter fun q => q < b ∧ single b q = true) = ∅ := by
      refine Finset.filter_eq_empty_iff.mpr fun q _ h => ?_
      have := of_decide_eq_true h.2
      exact absurd h.1 (by rw [this]; exact lt_irrefl _)
    simp [jwSign, this]
  have hu : Function.update (single b) b false = fun _ => false := by
    funext q
    by_cases h : q = b
    · subst h; simp
    · rw [Function.update_of_ne h]; simp [single, h]
  unfold ann
  by_cases h : q = b
  · subst h
    simp only [single, decide_true, true_and]
    change (if n' = Function.update (single q) q false then jwSign q (single q) else 0) = _
    rw [hu, hj]
  · simp [single, h]

theorem cre_ann_single (p q a b : Mode L) : (cre p * ann q) (single a) (single b) = if p = a ∧ q = b then 1 else 0 := by
  rw [Matrix.mul_apply]
  simp only [cre, Matrix.transpose_apply, ann_single]
  rw [Finset.sum_eq_single (fun _ => false)]
  · by_cases h1 : p = a <;> by_cases h2 : q = b <;> simp [h1, h2]
  · intro n _ hn
    simp [hn]
  · simp

theorem exc_single (i j a b : Fin L) : toK K (exc i j) (single (mode false a)) (single (mode false b)) = if i = a ∧ j = b then 1 else 0 := by
  unfold exc
  rw [castK_sum, Fintype.sum_bool]
  simp only [toK, Matrix.add_apply, Matrix.map_apply, cre_ann_single]
  have h1 : ∀ x y : Fin L, mode true x ≠ mode false y := fun x y h => by
    have := congrArg (fun m : Mode L => (ofLex m).1) h
    simp [mode] at this
  have h2 : ∀ x y : Fin L, mode false x = mode false y ↔ x = y := fun x y => by simp [mode]
  simp [h1, h2]

/-- The amplitudes between sites can be read off the Hamiltonian. -/
theorem hubbardOf_injective (U : K) {T T' : Fin L → Fin L → K} (h : hubbardOf U T = hubbardOf U T') (a b : Fin L) : T a b = T' a b := by
  unfold hubbardOf at h
  have h2 := neg_injective (add_right_cancel h)
  have h3 := congrFun (congrFun h2 (single (mode false a))) (single (mode false b))
  have e : ∀ S : Fin L → Fin L → K, (∑ i, ∑ j, S i j • toK K (exc i j)) (single (mode false a)) (single (mode false b)) = S a b := by
    intro S
    simp only [Matrix.sum_apply, Matrix.smul_apply, exc_single, smul_eq_mul]
    rw [Finset.sum_eq_single a, Finset.sum_eq_single b]
    · simp
    · intro j _ hj; simp [hj]
    · simp
    · intro i _ hi
      exact Finset.sum_eq_zero fun j _ => by simp [hi]
    · simp
  rwa [e, e] at h3

/-- **C109** fails for open chains: the Hamiltonian is that of the periodic one, which is a different operator. -/
theorem C109_fails (hL : 3 ≤ L) (t U : K) (ht : t ≠ 0) :
    ∃ es, argpsHubbard L t false = some es ∧ hubbard U es = hubbardOf U (chainHop t t) ∧ hubbard U es ≠ hubbardOf U (chainHop t 0) := by
  have hlen : (argpsEdges L).length = L := by simp [argpsEdges]
  obtain ⟨es, he, hh⟩ := plain (argpsEdges L) _ (argps_lists hL) t
  have h1 : hubbard U es = hubbardOf U (chainHop t t) := by
    rw [hubbard_eq]
    refine hubbardOf_congr U fun i j => ?_
    rw [hh, adj_hop hL]
    rfl
  refine ⟨es, ?_, h1, ?_⟩
  · unfold argpsHubbard
    dsimp only
    rw [if_neg (by simp)]
    rwa [hlen] at he
  · rw [h1]
    intro h
    have := hubbardOf_injective U h ⟨0, by omega⟩ ⟨L - 1, by omega⟩
    unfold chainHop at this
    have c : ¬ (0 + 1 = L - 1 ∨ L - 1 + 1 = 0) := by omega
    have c2 : (0 = 0 ∧ L - 1 + 1 = L) ∨ (L - 1 = 0 ∧ 0 + 1 = L) := by omega
    rw [if_neg c, if_pos c2, if_pos c2, zero_add, zero_add] at this
    exact ht this

/-! ## The chain and the rectangle of the backflow script -/

/-- **C110**, chains: with the edges of the graph in any order and direction, the Hamiltonian is that of the open or periodic Hubbard
chain; if the chain is closed and the number of sites is a multiple of four, it is that of the antiperiodic chain up to the signs of
sites. -/
theorem C110_chain (hL : 3 ≤ L) (pbc : Bool) (edges : List (Fin L × Fin L)) (he : ListsEdges edges (chainAdj pbc)) (t U : K) :
    ∃ es, chainHubbard edges t pbc = some es ∧
      if pbc = true ∧ L % 4 = 0 then GaugeEquivalent (hubbard U es) (hubbardOf U (chainHop t (-t)))
      else hubbard U es = hubbardOf U (chainHop t (if pbc then t else 0)) := by
  by_cases hc : pbc = true ∧ L % 4 = 0
  · obtain ⟨rfl, h4⟩ := hc
    have hne : edges ≠ [] := by
      intro h
      have := he ⟨0, by omega⟩ ⟨1, by omega⟩
      rw [h] at this
      simp [chainAdj] at this
    obtain ⟨es, e, rfl⟩ : ∃ es e, edges = es ++ [e] := ⟨edges.dropLast, edges.getLast hne, (List.dropLast_append_getLast hne).symm⟩
    obtain ⟨out, ho, hh⟩ := flipped es e _ he t
    refine ⟨out, ?_, ?_⟩
    · unfold chainHubbard
      dsimp only
      rw [if_pos ⟨rfl, h4⟩]
      exact ho
    · rw [if_pos ⟨rfl, h4⟩, hubbard_eq]
      have hadj : chainAdj true e.1 e.2 := by
        by_contra hn
        have := he e.1 e.2
        rw [if_neg hn, List.count_append, List.count_append] at this
        simp at this
      rcases hadj with hadj | ⟨-, hadj⟩
      · -- the sites up to the edge whose sign is changed
        have hd : ∀ k : Fin L, (if k.val ≤ min e.1.val e.2.val then -1 else 1 : K) = 1 ∨ (if k.val ≤ min e.1.val e.2.val then -1 else 1 : K) = -1 := by
          intro k
          split_ifs
          · exact Or.inr rfl
          · exact Or.inl rfl
        refine ⟨fun k => if k.val ≤ min e.1.val e.2.val then -1 else 1, hd, ?_⟩
        rw [gauge_hubbardOf _ hd]
        refine hubbardOf_congr U fun i j => ?_
        rw [hh]
        refine move_sign hL t i j _ (by omega) _ ?_
        rw [Prod.ext_iff, Prod.ext_iff, Fin.ext_iff, Fin.ext_iff, Fin.ext_iff, Fin.ext_iff]
        dsimp only
        omega
      · refine ⟨fun _ => 1, fun _ => Or.inl rfl, ?_⟩
        rw [gauge_hubbardOf _ fun _ => Or.inl rfl]
        refine hubbardOf_congr U fun i j => ?_
        rw [hh, one_mul, mul_one]
        by_cases c : e = (i, j) ∨ e = (j, i)
        · rw [if_pos c]
          rw [Prod.ext_iff, Prod.ext_iff, Fin.ext_iff, Fin.ext_iff, Fin.ext_iff, Fin.ext_iff] at c
          dsimp only at c
          rw [chainHop, if_neg (by omega), if_pos (by omega), zero_add]
        · rw [if_neg c, adj_hop hL, if_pos rfl]
          rw [Prod.ext_iff, Prod.ext_iff, Fin.ext_iff, Fin.ext_iff, Fin.ext_iff, Fin.ext_iff] at c
          dsimp only at c
          have c2 : ¬ ((i.val = 0 ∧ j.val + 1 = L) ∨ (j.val = 0 ∧ i.val + 1 = L)) := by omega
          rw [chainHop, chainHop, if_neg c2, if_neg c2]
  · obtain ⟨es, h1, hh⟩ := plain edges _ he t
    refine ⟨es, ?_, ?_⟩
    · unfold chainHubbard
      dsimp only
      rw [if_neg hc]
      exact h1
    · rw [if_neg hc, hubbard_eq]
      refine hubbardOf_congr U fun i j => ?_
      rw [hh, adj_hop hL]

theorem dist_mul (a b y : ℕ) : (((y + Ly * a : ℕ) : ℤ) - (y + Ly * b : ℕ)).natAbs = Ly * ((a : ℤ) - b).natAbs := by
  have : ((y + Ly * a : ℕ) : ℤ) - (y + Ly * b : ℕ) = Ly * ((a : ℤ) - b) := by push_cast; ring
  rw [this, Int.natAbs_mul, Int.natAbs_natCast]

/-- The condition of the loop recognises the edges across the boundary in the first direction, among the edges of the graph. -/
theorem boundary_iff (hx : 3 ≤ Lx) (i j : Fin (Lx * Ly)) (cy : Bool) (h : gridAdj true cy i j) :
    ((i.val : ℤ) - j.val).natAbs / Ly = Lx - 1 ↔
      (finProdFinEquiv.symm i).2 = (finProdFinEquiv.symm j).2 ∧
        (((finProdFinEquiv.symm i).1.val = 0 ∧ (finProdFinEquiv.symm j).1.val + 1 = Lx) ∨
          ((finProdFinEquiv.symm j).1.val = 0 ∧ (finProdFinEquiv.symm i).1.val + 1 = Lx)) := by
  obtain ⟨⟨a, y⟩, rfl⟩ := finProdFinEquiv.surjective i
  obtain ⟨⟨b, z⟩, rfl⟩ := finProdFinEquiv.surjective j
  have hLy : 0 < Ly := y.pos
  simp only [Equiv.symm_apply_apply]
  unfold gridAdj at h
  simp only [Equiv.symm_apply_apply] at h
  have e : ∀ (c : Fin Lx) (w : Fin Ly), (finProdFinEquiv (c, w)).val = w.val + Ly * c.val := fun c w => rfl
  rw [e, e]
  have ha := a.isLt
  have hb := b.isLt
  have hy := y.isLt
  have hz := z.isLt
  by_cases hyz : y = z
  · subst hyz
    rw [dist_mul, Nat.mul_div_cancel_left _ hLy]
    simp only [true_and]
    omega
  · have hab : a = b := by
      rcases h with h | h
      · exact absurd h.1 hyz
      · exact h.1
    subst hab
    have : (((y.val + Ly * a.val : ℕ) : ℤ) - (z.val + Ly * a.val : ℕ)).natAbs < Ly := by
      have : ((y.val + Ly * a.val : ℕ) : ℤ) - (z.val + Ly * a.val : ℕ) = (y.val : ℤ) - z.val := by push_cast; ring
      rw [this]
      omega
    rw [Nat.div_eq_of_lt this]
    constructor
    · intro h; omega
    · rintro ⟨h, -⟩; exact absurd h hyz

/-- **C110**, rectangles: with the edges of the graph in any order and direction, the Hamiltonian is that of the Hubbard model on the
rectangle, which is periodic in the second direction or open, and periodic or antiperiodic in the first direction. -/
theorem C110_grid (hx : 3 ≤ Lx) (pbc : String) (cx cy : Bool) (hp : gridPbc pbc = some (cx, cy)) (hy : cy = true → 3 ≤ Ly)
    (edges : List (Fin (Lx * Ly) × Fin (Lx * Ly))) (he : ListsEdges edges (gridAdj cx cy)) (t U : K) :
    ∃ es, gridHubbard Lx Ly edges t pbc = some es ∧
      hubbard U es = hubbardOf U (gridHop t (if contains "APBC" pbc then -t else t) (if cy then t else 0)) := by
  have hcx : cx = true := by
    unfold gridPbc at hp
    split_ifs at hp <;> simp_all
  subst hcx
  refine ⟨_, init_map edges _, ?_⟩
  rw [hubbard_eq]
  refine hubbardOf_congr U fun i j => ?_
  rw [hopOf_sym edges _ he _ (fun i j => by rw [show ((i.val : ℤ) - j.val).natAbs = ((j.val : ℤ) - i.val).natAbs by omega])]
  by_cases h : gridAdj true cy i j
  · rw [if_pos h]
    simp only [boundary_iff hx i j cy h]
    unfold gridHop
    dsimp only
    unfold gridAdj at h
    dsimp only at h
    generalize finProdFinEquiv.symm i = p at h ⊢
    generalize finProdFinEquiv.symm j = q at h ⊢
    by_cases h2 : p.2 = q.2
    · have hne : ¬ p.1 = q.1 := by
        intro h1
        rcases h with ⟨-, h⟩ | ⟨-, h⟩
        · unfold chainAdj at h
          rw [h1] at h
          omega
        · unfold chainAdj at h
          rw [h2] at h
          have := q.2.isLt
          rcases h with h | ⟨hc, h⟩
          · omega
          · have := hy hc
            omega
      have hadj : chainAdj true p.1 q.1 := by
        rcases h with h | h
        · exact h.2
        · exact absurd h.1 hne
      rw [if_pos h2, if_neg hne, add_zero, chainHop]
      simp only [h2, true_and]
      by_cases hb : (p.1.val = 0 ∧ q.1.val + 1 = Lx) ∨ (q.1.val = 0 ∧ p.1.val + 1 = Lx)
      · rw [if_neg (show ¬ (p.1.val + 1 = q.1.val ∨ q.1.val + 1 = p.1.val) by omega), if_pos hb, zero_add]
        by_cases ha : contains "APBC" pbc = true <;> simp [ha, hb]
      · have hn : p.1.val + 1 = q.1.val ∨ q.1.val + 1 = p.1.val := by
          rcases hadj with h | ⟨-, h⟩
          · exact h
          · exact absurd h hb
        rw [if_pos hn, if_neg hb, add_zero, if_neg (by simp [hb])]
    · have h1 : p.1 = q.1 ∧ chainAdj cy p.2 q.2 := by
        rcases h with h | h
        · exact absurd h.1 h2
        · exact h
      have hLy : cy = true → 3 ≤ Ly := hy
      rw [if_neg h2, if_pos h1.1, if_neg (by simp [h2]), zero_add]
      rcases hcy : cy with _ | _
      · have := h1.2
        rw [hcy] at this
        unfold chainAdj at this
        rw [chainHop, if_pos (by simpa using this)]
        simp
      · rw [← adj_hop (hy hcy) true, if_pos (by rw [← hcy]; exact h1.2)]
  · rw [if_neg h]
    unfold gridHop
    dsimp only
    unfold gridAdj at h
    dsimp only at h
    generalize finProdFinEquiv.symm i = p at h ⊢
    generalize finProdFinEquiv.symm j = q at h ⊢
    have e1 : (if p.2 = q.2 then chainHop t (if contains "APBC" pbc = true then -t else t) p.1 q.1 else 0) = 0 := by
      by_cases h2 : p.2 = q.2
      · rw [if_pos h2]
        have hn : ¬ chainAdj true p.1 q.1 := fun hn => h (Or.inl ⟨h2, hn⟩)
        unfold chainAdj at hn
        simp only [true_and, not_or] at hn
        rw [chainHop, if_neg (by tauto), if_neg (by tauto), add_zero]
      · rw [if_neg h2]
    have e2 : (if p.1 = q.1 then chainHop t (if cy = true then t else 0) p.2 q.2 else 0) = 0 := by
      by_cases h2 : p.1 = q.1
      · rw [if_pos h2]
        have hn : ¬ chainAdj cy p.2 q.2 := fun hn => h (Or.inr ⟨h2, hn⟩)
        unfold chainAdj at hn
        simp only [not_or] at hn
        rw [chainHop, if_neg (by tauto)]
        rcases cy
        · simp
        · rw [if_neg (by tauto), add_zero]
      · rw [if_neg h2]
    rw [e1, e2, add_zero]

/-- The settings that the comments of the script describe. -/
theorem C110_settings : gridPbc "PBC-PBC" = some (true, true) ∧ gridPbc "PBC-APBC" = some (true, true) ∧ gridPbc "PBC-OBC" = some (true, false) ∧
    contains "APBC" "PBC-PBC" = false ∧ contains "APBC" "PBC-APBC" = true ∧ contains "APBC" "PBC-OBC" = false := by
  decide +kernel

/-- **C110** fails for a rectangle that is to be open in both directions: the first direction is closed. -/
theorem C110_open_fails : gridPbc "OBC-OBC" = some (true, false) := by decide +kernel

/-- Instances of the hypotheses: the edges of a ring of four sites in some order and direction, and of a 3 × 2 rectangle that is
closed in the first direction. -/
example : ListsEdges ([(0, 1), (2, 1), (3, 0), (2, 3)] : List (Fin 4 × Fin 4)) (chainAdj true) ∧
    ListsEdges ([(0, 1), (2, 3), (4, 5), (0, 2), (2, 4), (0, 4), (1, 3), (3, 5), (1, 5)] : List (Fin (3 * 2) × Fin (3 * 2))) (gridAdj true false) := by
  constructor
  · unfold ListsEdges; decide +kernel
  · unfold ListsEdges; decide +kernel

/-! ## C111: the mean-field calculation -/

theorem core_of_not_mem (edges : List ((Fin L × Fin L) × K)) (h0 : Fin L → Fin L → K) (i j : Fin L)
    (h1 : (edges.map Prod.fst).count (i, j) = 0) (h2 : (edges.map Prod.fst).count (j, i) = 0) :
    (edges.foldl (fun h1 e => fun i j => if (i, j) = (e.1.2, e.1.1) then -e.2 else if (i, j) = (e.1.1, e.1.2) then -e.2 else h1 i j) h0) i j =
      h0 i j := by
  induction edges generalizing h0 with
  | nil => rfl
  | cons e es ih =>
    rw [List.map_cons, List.count_cons] at h1 h2
    have a1 : ¬ e.1 = (i, j) := by intro h; simp [h] at h1
    have a2 : ¬ e.1 = (j, i) := by intro h; simp [h] at h2
    rw [List.foldl_cons, ih _ (by omega) (by omega)]
    have b1 : ¬ (i, j) = (e.1.2, e.1.1) := fun h => a2 (by rw [Prod.mk.injEq] at h; rw [Prod.ext_iff]; exact ⟨h.2.symm, h.1.symm⟩)
    have b2 : ¬ (i, j) = (e.1.1, e.1.2) := fun h => a1 h.symm
    rw [if_neg b1, if_neg b2]

theorem core_eq (edges : List ((Fin L × Fin L) × K)) (h0 : Fin L → Fin L → K) (i j : Fin L)
    (h : (edges.map Prod.fst).count (i, j) + (edges.map Prod.fst).count (j, i) ≤ 1) :
    (edges.foldl (fun h1 e => fun i j => if (i, j) = (e.1.2, e.1.1) then -e.2 else if (i, j) = (e.1.1, e.1.2) then -e.2 else h1 i j) h0) i j =
      if (edges.map Prod.fst).count (i, j) + (edges.map Prod.fst).count (j, i) = 0 then h0 i j else -hopOf edges i j := by
  induction edges generalizing h0 with
  | nil => rfl
  | cons e es ih =>
    rw [List.map_cons, List.count_cons, List.count_cons] at h ⊢
    simp only [beq_iff_eq] at h ⊢
    by_cases a : e.1 = (i, j) ∨ e.1 = (j, i)
    · have hz : (es.map Prod.fst).count (i, j) = 0 ∧ (es.map Prod.fst).count (j, i) = 0 := by
        rcases a with a | a
        · rw [if_pos a] at h; omega
        · rw [if_pos a] at h; omega
      rw [List.foldl_cons, core_of_not_mem es _ i j hz.1 hz.2]
      have hne : ¬ (e.1 = (i, j) ∧ e.1 = (j, i)) := by
        rintro ⟨x, y⟩
        rw [if_pos x, if_pos y] at h; omega
      have hes : hopOf es i j = 0 := by
        unfold hopOf
        refine List.sum_eq_zero fun x hx => ?_
        obtain ⟨f, hf, rfl⟩ := List.mem_map.mp hx
        have m : f.1 ∈ es.map Prod.fst := List.mem_map_of_mem hf
        have n1 : ¬ f.1 = (i, j) := fun hh => List.count_eq_zero.mp hz.1 (hh ▸ m)
        have n2 : ¬ f.1 = (j, i) := fun hh => List.count_eq_zero.mp hz.2 (hh ▸ m)
        simp [n1, n2]
      have hcons : hopOf (e :: es) i j = e.2 := by
        rw [← List.singleton_append, hopOf_append, hes, add_zero]
        simp only [hopOf, List.map_cons, List.map_nil, List.sum_cons, List.sum_nil]
        by_cases x : e.1 = (i, j)
        · have y : ¬ e.1 = (j, i) := fun y => hne ⟨x, y⟩
          rw [if_pos x, if_neg y]; ring
        · have y : e.1 = (j, i) := by tauto
          rw [if_neg x, if_pos y]; ring
      rw [hcons]
      have hpos : ¬ ((es.map Prod.fst).count (i, j) + (if e.1 = (i, j) then 1 else 0) +
          ((es.map Prod.fst).count (j, i) + if e.1 = (j, i) then 1 else 0) = 0) := by
        rcases a with a | a
        · rw [if_pos a]; omega
        · rw [if_pos a]; omega
      rw [if_neg hpos]
      by_cases c : (i, j) = (e.1.2, e.1.1)
      · rw [if_pos c]
      · rw [if_neg c, if_pos]
        rcases a with a | a
        · exact a.symm
        · exact absurd (by rw [a]) c
    · have n1 : ¬ e.1 = (i, j) := by tauto
      have n2 : ¬ e.1 = (j, i) := by tauto
      rw [if_neg n1, if_neg n2] at h ⊢
      rw [List.foldl_cons, ih _ (by simpa using h)]
      have b1 : ¬ (i, j) = (e.1.2, e.1.1) := fun h => n2 (by rw [Prod.mk.injEq] at h; rw [Prod.ext_iff]; exact ⟨h.2.symm, h.1.symm⟩)
      have b2 : ¬ (i, j) = (e.1.1, e.1.2) := fun h => n1 h.symm
      rw [if_neg b1, if_neg b2]
      have hcons : hopOf (e :: es) i j = hopOf es i j := by
        rw [← List.singleton_append, hopOf_append]
        simp [hopOf, n1, n2]
      rw [hcons]
      simp

/-- The one-body matrix is the negative of the hopping amplitudes if no pair of sites occurs twice. -/
theorem coreMatrix_eq (edges : List ((Fin L × Fin L) × K))
    (h : ∀ i j, (edges.map Prod.fst).count (i, j) + (edges.map Prod.fst).count (j, i) ≤ 1) (i j : Fin L) :
    coreMatrix edges i j = -hopOf edges i j := by
  unfold coreMatrix
  rw [core_eq edges _ i j (h i j)]
  split_ifs with hz
  · have hes : hopOf edges i j = 0 := by
      unfold hopOf
      refine List.sum_eq_zero fun x hx => ?_
      obtain ⟨f, hf, rfl⟩ := List.mem_map.mp hx
      have m : f.1 ∈ edges.map Prod.fst := List.mem_map_of_mem hf
      have n1 : ¬ f.1 = (i, j) := fun hh => List.count_eq_zero.mp (by omega : (edges.map Prod.fst).count (i, j) = 0) (hh ▸ m)
      have n2 : ¬ f.1 = (j, i) := fun hh => List.count_eq_zero.mp (by omega : (edges.map Prod.fst).count (j, i) = 0) (hh ▸ m)
      simp [n1, n2]
    rw [hes, neg_zero]
  · rfl

/-- Two electrons on one site. -/
theorem exc_sq (i : Fin L) : exc i i * exc i i - exc i i = 2 • (num (mode false i) * num (mode true i)) := by
  have hE : exc i i = num (mode true i) + num (mode false i) := by
    unfold exc
    rw [Fintype.sum_bool]
    rfl
  have hn : ∀ p : Mode L, num p * num p = num p := by
    intro p
    ext n' n
    rw [num_num_apply, num_apply]
    simp
  have hc : num (mode true i) * num (mode false i) = num (mode false i) * num (mode true i) := by
    ext n' n
    rw [num_num_apply, num_num_apply]
    simp only [and_comm]
  rw [hE, Matrix.add_mul, Matrix.mul_add, Matrix.mul_add, hn, hn, hc, two_smul]
  abel

/-- The Hamiltonian with the integrals of the mean-field calculation is the Hubbard Hamiltonian, if no pair of sites occurs twice among
the edges. -/
theorem mean_field (U : K) (edges : List ((Fin L × Fin L) × K))
    (h : ∀ i j, (edges.map Prod.fst).count (i, j) + (edges.map Prod.fst).count (j, i) ≤ 1) :
    abInitioTwice (coreMatrix edges) (eriDiagonal U) = (2 : K) • hubbard U edges := by
  rw [hubbard_eq]
  unfold abInitioTwice hubbardOf
  rw [smul_add, smul_neg]
  congr 1
  · rw [Finset.smul_sum, ← Finset.sum_neg_distrib]
    refine Finset.sum_congr rfl fun i _ => ?_
    rw [Finset.smul_sum, ← Finset.sum_neg_distrib]
    refine Finset.sum_congr rfl fun j _ => ?_
    rw [coreMatrix_eq edges h, smul_smul, ← neg_smul]
    congr 1
    ring
  · have e : ∀ i : Fin L, (∑ j, ∑ k, ∑ l, eriDiagonal U i j k l • toK K (exc i j * exc k l - if j = k then exc i l else 0)) =
        U • toK K (exc i i * exc i i - exc i i) := by
      intro i
      rw [Finset.sum_eq_single i, Finset.sum_eq_single i, Finset.sum_eq_single i]
      · simp [eriDiagonal]
      · intro l _ hl; simp [eriDiagonal, hl.symm]
      · simp
      · intro k _ hk
        exact Finset.sum_eq_zero fun l _ => by simp [eriDiagonal, hk.symm]
      · simp
      · intro j _ hj
        exact Finset.sum_eq_zero fun k _ => Finset.sum_eq_zero fun l _ => by simp [eriDiagonal, hj.symm]
      · simp
    simp only [e, exc_sq]
    rw [castK_sum, Finset.smul_sum, Finset.smul_sum]
    refine Finset.sum_congr rfl fun i _ => ?_
    rw [smul_smul, mul_comm, mul_smul]
    congr 1
    rw [two_smul, castK_add, two_smul]

omit [Field K] in
theorem init_fst (edges : List (Fin L × Fin L)) (ts : List K) (es : List ((Fin L × Fin L) × K)) (h : hubbardInit edges (.list ts) = some es) :
    es.map Prod.fst = edges := by
  simp only [hubbardInit] at h
  split_ifs at h with hl
  simp only [Option.some.injEq] at h
  subst h
  exact List.map_fst_zip (by omega)

/-- **C111**: the integrals of the mean-field calculation are those of the Hubbard Hamiltonian of the script, for chains and
rectangles. -/
theorem C111_chain (pbc : Bool) (edges : List (Fin L × Fin L)) (he : ListsEdges edges (chainAdj pbc)) (t U : K)
    (es : List ((Fin L × Fin L) × K)) (h : chainHubbard edges t pbc = some es) :
    abInitioTwice (coreMatrix es) (eriDiagonal U) = (2 : K) • hubbard U es := by
  refine mean_field U es fun i j => ?_
  rw [init_fst edges _ es h, he i j]
  split_ifs <;> omega

theorem C111_grid (pbc : String) (cx cy : Bool) (edges : List (Fin (Lx * Ly) × Fin (Lx * Ly))) (he : ListsEdges edges (gridAdj cx cy)) (t U : K)
    (es : List ((Fin (Lx * Ly) × Fin (Lx * Ly)) × K)) (h : gridHubbard Lx Ly edges t pbc = some es) :
    abInitioTwice (coreMatrix es) (eriDiagonal U) = (2 : K) • hubbard U es := by
  refine mean_field U es fun i j => ?_
  rw [init_fst edges _ es h, he i j]
  split_ifs <;> omega

/-- For edges that name a pair of sites twice the two Hamiltonians differ: the matrix holds the amplitude of the last edge only. -/
theorem C111_double_edge : coreMatrix (K := ℚ) (L := 2) [((0, 1), 1), ((1, 0), 1)] 0 1 ≠ -hopOf (K := ℚ) (L := 2) [((0, 1), 1), ((1, 0), 1)] 0 1 := by
  simp [coreMatrix, hopOf]

/-- The hypotheses are met by the closed chain of four sites. -/
example : ∃ es, chainHubbard (K := ℚ) ([(0, 1), (2, 1), (3, 0), (2, 3)] : List (Fin 4 × Fin 4)) 1 true = some es ∧
    ListsEdges ([(0, 1), (2, 1), (3, 0), (2, 3)] : List (Fin 4 × Fin 4)) (chainAdj true) :=
  ⟨_, rfl, by unfold ListsEdges; decide +kernel⟩

end GPSKet.HubbardScript
