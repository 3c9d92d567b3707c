import Verif.Model.AbInitioSparse
import Verif.Lemmas.AbInitioOnTheFly
import Verif.Lemmas.Hubbard

/-! # Lemmas about the sparse ab-initio Hamiltonian -/

namespace GPSKet
open Spec

variable {L : ℕ} {Cache : Type}

/-! ### Storage -/

section
variable {K : Type} [Zero K] [DecidableEq K]

/-- The stored entries of row `i` of the one-electron integrals. -/
def nz1 (h : Fin L → Fin L → K) (i : Fin L) : List (Fin L × Fin L) :=
  ((List.finRange L).filter fun a => decide (h i a ≠ 0)).map fun a => (i, a)

theorem take_succ_finRange {k : ℕ} (hk : k < L) : (List.finRange L).take (k + 1) = (List.finRange L).take k ++ [⟨k, hk⟩] := by
  rw [List.take_succ_eq_append_getElem (by simpa using hk)]
  simp

theorem sparse1_prefix (h : Fin L → Fin L → K) (k : ℕ) (hk : k ≤ L) :
    let s := ((List.finRange L).take k).foldl (sparse1Step h) { range := fun _ => 0, ids := [], vals := [] }
    let pre : ℕ → List (Fin L × Fin L) := fun j => ((List.finRange L).take j).flatMap (nz1 h)
    s.ids = (pre k).map Prod.snd ∧ s.vals = (pre k).map (fun p => h p.1 p.2) ∧ ∀ j ≤ k, s.range j = (pre j).length := by
  induction k with
  | zero =>
    refine ⟨rfl, rfl, fun j hj => ?_⟩
    obtain rfl : j = 0 := by omega
    rfl
  | succ k ih =>
    obtain ⟨h1, h2, h3⟩ := ih (by omega)
    have hk' : k < L := by omega
    intro s pre
    have hpre : pre (k + 1) = pre k ++ nz1 h ⟨k, hk'⟩ := by
      simp only [pre]
      rw [take_succ_finRange hk', List.flatMap_append]
      simp
    have hs : s = sparse1Step h (((List.finRange L).take k).foldl (sparse1Step h) { range := fun _ => 0, ids := [], vals := [] }) ⟨k, hk'⟩ := by
      simp only [s]
      rw [take_succ_finRange hk', List.foldl_append]
      rfl
    rw [hs, hpre]
    refine ⟨?_, ?_, fun j hj => ?_⟩
    · simp only [sparse1Step]
      rw [h1, List.map_append]
      simp [nz1, Function.comp_def, pre]
    · simp only [sparse1Step]
      rw [h2, List.map_append]
      simp [nz1, Function.comp_def, pre]
    · simp only [sparse1Step]
      by_cases hj' : j = k + 1
      · subst hj'
        rw [Function.update_self, h3 k le_rfl, hpre]
        simp [nz1, pre]
      · rw [Function.update_of_ne hj', h3 j (by omega)]

theorem slice_split {I V Q : Type} (A B C : List Q) (f : Q → I) (g : Q → V) {start stop : ℕ} (h1 : start = A.length)
    (h2 : stop = A.length + B.length) :
    slice ((A ++ B ++ C).map f) ((A ++ B ++ C).map g) start stop = B.map fun q => (f q, g q) := by
  unfold slice
  rw [List.zip_map']
  subst h1 h2
  rw [List.map_append, List.take_append_of_le_length (by simp), List.take_of_length_le (by simp), List.map_append, List.drop_left' (by simp)]

theorem sparse1_slice (h : Fin L → Fin L → K) (i : Fin L) :
    slice (sparse1 h).ids (sparse1 h).vals ((sparse1 h).range i.val) ((sparse1 h).range (i.val + 1)) =
      ((List.finRange L).filter fun a => decide (h i a ≠ 0)).map fun a => (a, h i a) := by
  obtain ⟨h1, h2, h3⟩ := sparse1_prefix h L le_rfl
  have hL : (List.finRange L).take L = List.finRange L := by rw [List.take_of_length_le (by simp)]
  simp only [hL] at h1 h2 h3
  change (sparse1 h).ids = _ at h1
  change (sparse1 h).vals = _ at h2
  change ∀ j ≤ L, (sparse1 h).range j = _ at h3
  have hsplit : (List.finRange L).flatMap (nz1 h) =
      ((List.finRange L).take i.val).flatMap (nz1 h) ++ nz1 h i ++ ((List.finRange L).drop (i.val + 1)).flatMap (nz1 h) := by
    conv_lhs => rw [← List.take_append_drop (i.val + 1) (List.finRange L), take_succ_finRange i.isLt, List.flatMap_append, List.flatMap_append]
    simp
  rw [h1, h2, hsplit, slice_split _ _ _ Prod.snd (fun p : Fin L × Fin L => h p.1 p.2) (h3 i.val (by omega))]
  · simp [nz1, Function.comp_def]
  · rw [h3 (i.val + 1) (by omega), take_succ_finRange i.isLt, List.flatMap_append]
    simp

/-- The stored entries of the index pair `(i, j)` of the two-electron integrals. -/
def nz2 (e : Fin L → Fin L → Fin L → Fin L → K) (i j : Fin L) : List (Fin L × Fin L × Fin L × Fin L) :=
  (nonzeros2 e i j).map fun ab => (i, j, ab)

/-- Everything stored before the pair `(i, j)`. -/
def pre2 (e : Fin L → Fin L → Fin L → Fin L → K) (i j : ℕ) : List (Fin L × Fin L × Fin L × Fin L) :=
  ((List.finRange L).take i).flatMap (fun i => (List.finRange L).flatMap (nz2 e i))
    ++ (if h : i < L then ((List.finRange L).take j).flatMap (nz2 e ⟨i, h⟩) else [])

theorem pre2_succ (e : Fin L → Fin L → Fin L → Fin L → K) (i j : Fin L) : pre2 e i.val (j.val + 1) = pre2 e i.val j.val ++ nz2 e i j := by
  unfold pre2
  rw [dif_pos i.isLt, dif_pos i.isLt, take_succ_finRange j.isLt, List.flatMap_append]
  simp

theorem pre2_row (e : Fin L → Fin L → Fin L → Fin L → K) (i : Fin L) : pre2 e (i.val + 1) 0 = pre2 e i.val L := by
  unfold pre2
  rw [dif_pos i.isLt, take_succ_finRange i.isLt, List.flatMap_append,
    List.take_of_length_le (i := L) (l := List.finRange L) (by simp)]
  simp

structure Inv2 (e : Fin L → Fin L → Fin L → Fin L → K) (i j : ℕ) (s : Sparse2 L K) : Prop where
  ids : s.ids = (pre2 e i j).map fun q => q.2.2
  vals : s.vals = (pre2 e i j).map fun q => e q.1 q.2.2.1 q.2.1 q.2.2.2
  done : ∀ i' j', i' < i → j' ≤ L → s.range i' j' = (pre2 e i' j').length
  row : i < L → ∀ j' ≤ j, s.range i j' = (pre2 e i j').length
  next : j = L → 0 < L → i + 1 < L → s.range (i + 1) 0 = (pre2 e i L).length

theorem inv2_step (e : Fin L → Fin L → Fin L → Fin L → K) (i j : Fin L) (s : Sparse2 L K) (h : Inv2 e i.val j.val s) :
    Inv2 e i.val (j.val + 1) (sparse2Step e i s j) := by
  have hstop : s.range i.val j.val + (nonzeros2 e i j).length = (pre2 e i.val (j.val + 1)).length := by
    rw [h.row i.isLt j.val le_rfl, pre2_succ]
    simp [nz2]
  have hother : ∀ i' j', i' ≤ i.val → (sparse2Step e i s j).range i' j' =
      if i' = i.val ∧ j' = j.val + 1 then (pre2 e i.val (j.val + 1)).length else s.range i' j' := by
    intro i' j' hi'
    simp only [sparse2Step, hstop]
    by_cases hc : j.val = L - 1 ∧ i.val ≠ L - 1
    · rw [if_pos hc, Function.update_of_ne (by omega)]
      by_cases h1 : i' = i.val
      · subst h1
        rw [Function.update_self]
        by_cases h2 : j' = j.val + 1
        · subst h2; simp
        · rw [Function.update_of_ne h2]; simp [h2]
      · rw [Function.update_of_ne h1]; simp [h1]
    · rw [if_neg hc]
      by_cases h1 : i' = i.val
      · subst h1
        rw [Function.update_self]
        by_cases h2 : j' = j.val + 1
        · subst h2; simp
        · rw [Function.update_of_ne h2]; simp [h2]
      · rw [Function.update_of_ne h1]; simp [h1]
  refine ⟨?_, ?_, ?_, ?_, ?_⟩
  · rw [pre2_succ, List.map_append, ← h.ids]
    simp [sparse2Step, nz2, Function.comp_def]
  · rw [pre2_succ, List.map_append, ← h.vals]
    simp [sparse2Step, nz2, Function.comp_def]
  · intro i' j' hi' hj'
    rw [hother i' j' (by omega), if_neg (by omega), h.done i' j' hi' hj']
  · intro hi j' hj'
    rw [hother _ j' le_rfl]
    by_cases h2 : j' = j.val + 1
    · subst h2; rw [if_pos ⟨rfl, rfl⟩]
    · rw [if_neg (by omega), h.row hi j' (by omega)]
  · intro hj _ hi
    simp only [sparse2Step, hstop]
    rw [if_pos (by omega), Function.update_self, Function.update_self, hj]

theorem inv2_row (e : Fin L → Fin L → Fin L → Fin L → K) (i : Fin L) (s : Sparse2 L K) (h : Inv2 e i.val 0 s) (k : ℕ) (hk : k ≤ L) :
    Inv2 e i.val k (((List.finRange L).take k).foldl (sparse2Step e i) s) := by
  induction k with
  | zero => simpa using h
  | succ k ih =>
    rw [take_succ_finRange (show k < L by omega), List.foldl_append]
    exact inv2_step e i ⟨k, by omega⟩ _ (ih (by omega))

theorem inv2_all (e : Fin L → Fin L → Fin L → Fin L → K) (k : ℕ) (hk : k ≤ L) :
    Inv2 e k 0 (((List.finRange L).take k).foldl (fun s i => (List.finRange L).foldl (sparse2Step e i) s)
      { range := fun _ _ => 0, ids := [], vals := [] }) := by
  induction k with
  | zero =>
    refine ⟨?_, ?_, fun _ _ h => absurd h (by omega), ?_, ?_⟩
    · simp [pre2]
    · simp [pre2]
    · intro h j' hj'
      obtain rfl : j' = 0 := by omega
      simp [pre2]
    · intro h1 h2; omega
  | succ k ih =>
    have hk' : k < L := by omega
    rw [take_succ_finRange hk', List.foldl_append]
    have h0 := ih (by omega)
    have h1 := inv2_row e ⟨k, hk'⟩ _ h0 L le_rfl
    rw [List.take_of_length_le (i := L) (l := List.finRange L) (by simp)] at h1
    simp only [List.foldl_cons, List.foldl_nil]
    have hrow := pre2_row e ⟨k, hk'⟩
    simp only at hrow
    refine ⟨?_, ?_, ?_, ?_, ?_⟩
    · rw [hrow]; exact h1.ids
    · rw [hrow]; exact h1.vals
    · intro i' j' hi' hj'
      by_cases h2 : i' = k
      · subst h2; exact h1.row hk' j' hj'
      · exact h1.done i' j' (by simp only; omega) hj'
    · intro hi j' hj'
      obtain rfl : j' = 0 := by omega
      rw [hrow]
      exact h1.next rfl (by omega) hi
    · intro h2 h3; omega

theorem sparse2_slice (e : Fin L → Fin L → Fin L → Fin L → K) (i j : Fin L) :
    slice (sparse2 e).ids (sparse2 e).vals ((sparse2 e).range i.val j.val) ((sparse2 e).range i.val (j.val + 1)) =
      (nonzeros2 e i j).map fun ab => (ab, e i ab.1 j ab.2) := by
  have h := inv2_all e L le_rfl
  rw [List.take_of_length_le (by simp)] at h
  change Inv2 e L 0 (sparse2 e) at h
  -- everything stored, split at the pair
  have hpre : pre2 e L 0 = pre2 e i.val j.val ++ nz2 e i j ++ (((List.finRange L).drop (j.val + 1)).flatMap (nz2 e i)
      ++ ((List.finRange L).drop (i.val + 1)).flatMap (fun i => (List.finRange L).flatMap (nz2 e i))) := by
    have e1 : pre2 e L 0 = (List.finRange L).flatMap (fun i => (List.finRange L).flatMap (nz2 e i)) := by
      unfold pre2; rw [List.take_of_length_le (by simp)]; simp
    have e2 : (List.finRange L).flatMap (nz2 e i) = ((List.finRange L).take j.val).flatMap (nz2 e i) ++ nz2 e i j
        ++ ((List.finRange L).drop (j.val + 1)).flatMap (nz2 e i) := by
      conv_lhs => rw [← List.take_append_drop (j.val + 1) (List.finRange L), take_succ_finRange j.isLt, List.flatMap_append, List.flatMap_append]
      simp
    have e3 : ∀ f : Fin L → List (Fin L × Fin L × Fin L × Fin L), (List.finRange L).flatMap f = ((List.finRange L).take i.val).flatMap f ++ f i
        ++ ((List.finRange L).drop (i.val + 1)).flatMap f := by
      intro f
      conv_lhs => rw [← List.take_append_drop (i.val + 1) (List.finRange L), take_succ_finRange i.isLt, List.flatMap_append, List.flatMap_append]
      simp
    rw [e1, e3 (fun i => (List.finRange L).flatMap (nz2 e i)), e2]
    unfold pre2
    rw [dif_pos i.isLt]
    simp [List.append_assoc]
  rw [h.ids, h.vals, hpre, slice_split _ _ _ (fun q : Fin L × Fin L × Fin L × Fin L => q.2.2)
    (fun q : Fin L × Fin L × Fin L × Fin L => e q.1 q.2.2.1 q.2.1 q.2.2.2) (h.done _ _ i.isLt (by omega))]
  · simp [nz2, Function.comp_def]
  · rw [h.done _ _ i.isLt (by omega), pre2_succ]; simp

end

theorem nonzeros2_mem {K : Type} [Zero K] [DecidableEq K] (e : Fin L → Fin L → Fin L → Fin L → K) (i j : Fin L) (ab : Fin L × Fin L) :
    ab ∈ nonzeros2 e i j ↔ e i ab.1 j ab.2 ≠ 0 := by
  unfold nonzeros2
  simp only [List.mem_flatMap, List.mem_finRange, true_and, List.mem_map, List.mem_filter, decide_eq_true_eq]
  constructor
  · rintro ⟨a, b, h, rfl⟩; exact h
  · intro h; exact ⟨ab.1, ab.2, h, rfl⟩

theorem nonzeros2_nodup {K : Type} [Zero K] [DecidableEq K] (e : Fin L → Fin L → Fin L → Fin L → K) (i j : Fin L) : (nonzeros2 e i j).Nodup := by
  unfold nonzeros2
  rw [List.nodup_flatMap]
  constructor
  · intro a _
    apply List.Nodup.map
    · intro b b' h; exact (Prod.mk.inj h).2
    · exact (List.nodup_finRange L).filter _
  · apply (List.nodup_finRange L).imp
    intro a a' hne
    simp only [Function.onFun]
    intro p h1 h2
    simp only [List.mem_map] at h1 h2
    obtain ⟨b, _, rfl⟩ := h1
    obtain ⟨b', _, h⟩ := h2
    exact hne (Prod.mk.inj h).1.symm

/-- Sum over the stored entries of a row. -/
theorem slice1_sum (h : Fin L → Fin L → ℂ) (F : Fin L → ℂ) (i : Fin L) :
    ((slice (sparse1 h).ids (sparse1 h).vals ((sparse1 h).range i.val) ((sparse1 h).range (i.val + 1))).map fun u => u.2 * F u.1).sum =
      ∑ a, h i a * F a := by
  rw [sparse1_slice, List.map_map]
  simp only [Function.comp_def]
  rw [← List.sum_toFinset (fun a => h i a * F a) ((List.nodup_finRange L).filter _), List.toFinset_filter, List.toFinset_finRange]
  apply Finset.sum_subset (Finset.filter_subset _ _)
  intro a _ ha
  simp only [Finset.mem_filter, Finset.mem_univ, true_and, decide_eq_true_eq, not_not] at ha
  rw [ha, zero_mul]

theorem slice2_sum (e : Fin L → Fin L → Fin L → Fin L → ℂ) (G : (Fin L × Fin L) × ℂ → ℂ) (F : Fin L → Fin L → ℂ) (i j : Fin L)
    (hG : ∀ a b, G ((a, b), e i a j b) = e i a j b * F a b) :
    ((slice (sparse2 e).ids (sparse2 e).vals ((sparse2 e).range i.val j.val) ((sparse2 e).range i.val (j.val + 1))).map G).sum =
      ∑ a, ∑ b, e i a j b * F a b := by
  rw [sparse2_slice, List.map_map]
  have : (G ∘ fun ab : Fin L × Fin L => (ab, e i ab.1 j ab.2)) = fun ab => e i ab.1 j ab.2 * F ab.1 ab.2 := by
    funext ab; exact hG ab.1 ab.2
  rw [this, ← List.sum_toFinset (fun ab : Fin L × Fin L => e i ab.1 j ab.2 * F ab.1 ab.2) (nonzeros2_nodup e i j),
    ← Fintype.sum_prod_type' (fun a b => e i a j b * F a b)]
  apply Finset.sum_subset (Finset.subset_univ _)
  intro ab _ hab
  rw [List.mem_toFinset, nonzeros2_mem, not_not] at hab
  rw [hab, zero_mul]

/-! ### Signs -/

/-- `-2 * (z & 1) + 1`. -/
def sg (z : ℤ) : ℤ := -2 * (z % 2) + 1

theorem sg_add (a b : ℤ) : sg (a + b) = sg a * sg b := by
  unfold sg
  rcases Int.emod_two_eq_zero_or_one a with h1 | h1 <;> rcases Int.emod_two_eq_zero_or_one b with h2 | h2 <;>
    (rw [Int.add_emod, h1, h2]; norm_num)

theorem sg_sq (a : ℤ) : sg a * sg a = 1 := by
  unfold sg
  rcases Int.emod_two_eq_zero_or_one a with h1 | h1 <;> (rw [h1]; norm_num)

theorem sg_nat (n : ℕ) : ((-1 : ℤ)) ^ n = sg n := by
  rw [neg_one_pow_eq_ite]; unfold sg
  split_ifs <;> omega

/-- Number of electrons of spin `s` left of site `k`. -/
def bel (x : Cfg L) (s : Bool) (k : Fin L) : ℤ := ∑ q : Fin L, if q < k ∧ hasSpin s (x q) = true then 1 else 0

def b2z (b : Bool) : ℤ := if b = true then 1 else 0

theorem bel_update (x : Cfg L) (s : Bool) (i k : Fin L) (v : Fin 4) :
    bel (Function.update x i v) s k = bel x s k + if i < k then b2z (hasSpin s v) - b2z (hasSpin s (x i)) else 0 := by
  unfold bel
  rw [← sub_eq_iff_eq_add', ← Finset.sum_sub_distrib, Finset.sum_eq_single i]
  · by_cases h : i < k <;> simp [h, b2z]
  · intro q _ hq
    rw [Function.update_of_ne hq, sub_self]
  · simp

theorem cumsum_bel (x : Cfg L) (s : Bool) (k : Fin L) : cumsum (isOcc x (spinInt s)) k.val = bel x s k + b2z (hasSpin s (x k)) := by
  unfold cumsum bel
  rw [← sub_eq_iff_eq_add', ← Finset.sum_sub_distrib, Finset.sum_eq_single k]
  · simp [isOcc_eq, b2z]
  · intro q _ hq
    have : q.val ≠ k.val := fun h => hq (Fin.ext h)
    rw [isOcc_eq]
    by_cases h : q < k
    · have h' : q.val ≤ k.val := by simpa [Fin.lt_def] using le_of_lt h
      simp [h, h']
    · have h' : ¬ q.val ≤ k.val := by rw [Fin.lt_def] at h; omega
      simp [h, h']
  · simp

/-- The part of the Jordan-Wigner sign that comes from the other spin. -/
def upFactor (x : Cfg L) (s : Bool) : ℤ := if s = true then sg (numElec false x) else 1

theorem upFactor_sq (x : Cfg L) (s : Bool) : upFactor x s * upFactor x s = 1 := by
  unfold upFactor; split_ifs
  · exact sg_sq _
  · norm_num

theorem jw_occOf (x : Cfg L) (s : Bool) (k : Fin L) : jwSign (mode s k) (occOf x) = sg (bel x s k) * upFactor x s := by
  unfold jwSign
  rw [sg_nat]
  have hcard : ((Finset.univ.filter fun q => q < mode s k ∧ occOf x q = true).card : ℤ) =
      ∑ t : Bool, ∑ q : Fin L, if mode t q < mode s k ∧ hasSpin t (x q) = true then (1 : ℤ) else 0 := by
    rw [Finset.card_filter, Nat.cast_sum, ← Fintype.sum_prod_type']
    rw [← Equiv.sum_comp (toLex : Bool × Fin L ≃ Mode L)]
    apply Finset.sum_congr rfl
    intro p _
    push_cast
    rfl
  rw [hcard]
  cases s with
  | false =>
    have e1 : (∑ q : Fin L, if mode true q < mode false k ∧ hasSpin true (x q) = true then (1 : ℤ) else 0) = 0 := by
      apply Finset.sum_eq_zero
      intro q _
      rw [if_neg]
      rintro ⟨h, _⟩
      unfold mode at h
      rw [Prod.Lex.toLex_lt_toLex] at h
      simp at h
      exact absurd h (by decide)
    rw [Fintype.sum_bool, e1, zero_add]
    simp only [mode_lt]
    simp [upFactor, bel]
  | true =>
    have e1 : (∑ q : Fin L, if mode false q < mode true k ∧ hasSpin false (x q) = true then (1 : ℤ) else 0) = numElec false x := by
      unfold numElec
      rw [Finset.card_filter, Nat.cast_sum]
      apply Finset.sum_congr rfl
      intro q _
      have : mode false q < mode true k := by
        unfold mode
        rw [Prod.Lex.toLex_lt_toLex]
        simp
      simp [this]
    rw [Fintype.sum_bool, e1, sg_add]
    simp only [mode_lt]
    simp [upFactor, bel]

/-! ### Normal-ordered pairs -/

/-- Removing and adding an electron. -/
def xm (x : Cfg L) (s : Bool) (i : Fin L) : Cfg L := Function.update x i (x i - spinInt s)
def xp (x : Cfg L) (s : Bool) (a : Fin L) : Cfg L := Function.update x a (x a + spinInt s)

theorem R_occOf {K : Type} [CommRing K] (g : Occ (Mode L) → K) (x : Cfg L) (s : Bool) (i : Fin L) :
    R (mode s i) g (occOf x) = if hasSpin s (x i) = true then ((sg (bel x s i) * upFactor x s : ℤ) : K) * g (occOf (xm x s i)) else 0 := by
  rw [R_apply, occOf_mode, jw_occOf]
  by_cases h : hasSpin s (x i) = true
  · rw [if_pos h, if_pos h]; unfold xm; rw [occOf_update_sub x s i h]
  · rw [if_neg h, if_neg h]

theorem A_occOf {K : Type} [CommRing K] (g : Occ (Mode L) → K) (x : Cfg L) (s : Bool) (a : Fin L) :
    A (mode s a) g (occOf x) = if hasSpin s (x a) = true then 0 else ((sg (bel x s a) * upFactor x s : ℤ) : K) * g (occOf (xp x s a)) := by
  rw [A_apply, occOf_mode, jw_occOf]
  by_cases h : hasSpin s (x a) = true
  · rw [if_pos h, if_pos h]
  · rw [if_neg h, if_neg h]; unfold xp; rw [occOf_update_add x s a (by simpa using h)]

theorem xm_spin (x : Cfg L) {s : Bool} (s' : Bool) {i : Fin L} (hi : hasSpin s (x i) = true) (k : Fin L) :
    hasSpin s' (xm x s i k) = if s' = s ∧ k = i then false else hasSpin s' (x k) := by
  unfold xm
  by_cases h : k = i
  · subst h; simp [hasSpin_sub s s' _ hi]
  · simp [h]

theorem xp_spin (x : Cfg L) {s : Bool} (s' : Bool) {a : Fin L} (ha : hasSpin s (x a) = false) (k : Fin L) :
    hasSpin s' (xp x s a k) = if s' = s ∧ k = a then true else hasSpin s' (x k) := by
  unfold xp
  by_cases h : k = a
  · subst h; simp [hasSpin_add s s' _ ha]
  · simp [h]

theorem bel_xm (x : Cfg L) {s : Bool} (s' : Bool) {i : Fin L} (hi : hasSpin s (x i) = true) (k : Fin L) :
    bel (xm x s i) s' k = bel x s' k - if s' = s ∧ i < k then 1 else 0 := by
  unfold xm
  rw [bel_update, hasSpin_sub s s' _ hi]
  by_cases h1 : s' = s <;> by_cases h2 : i < k <;> simp [h1, h2, b2z, hi]
  ring

theorem bel_xp (x : Cfg L) {s : Bool} (s' : Bool) {a : Fin L} (ha : hasSpin s (x a) = false) (k : Fin L) :
    bel (xp x s a) s' k = bel x s' k + if s' = s ∧ a < k then 1 else 0 := by
  unfold xp
  rw [bel_update, hasSpin_add s s' _ ha]
  by_cases h1 : s' = s <;> by_cases h2 : a < k <;> simp [h1, h2, b2z, ha]

theorem numElec_xp_xm_factor (x : Cfg L) {s : Bool} {b : Fin L} (hb : hasSpin s (x b) = false) (s' : Bool) (h : s' = s ∨ s' = false) :
    upFactor (xp x s b) s' = upFactor x s' := by
  unfold upFactor
  cases s' with
  | false => simp
  | true =>
    obtain rfl : s = true := by rcases h with h | h <;> simp_all
    have : numElec false (xp x true b) = numElec false x := by
      unfold numElec
      congr 1
      ext k
      simp [xp_spin x false hb]
    rw [this]

theorem upFactor_xm (x : Cfg L) {s : Bool} {i : Fin L} (hi : hasSpin s (x i) = true) (s' : Bool) (h : s' = s ∨ s' = false) :
    upFactor (xm x s i) s' = upFactor x s' := by
  unfold upFactor
  cases s' with
  | false => simp
  | true =>
    obtain rfl : s = true := by rcases h with h | h <;> simp_all
    have : numElec false (xm x true i) = numElec false x := by
      unfold numElec
      congr 1
      ext k
      simp [xm_spin x false hi]
    rw [this]

/-- `⟨n| c†_i c†_j c_b c_a` for two different electrons, same or different spin (`s` is the spin of `i` and `a`). -/
theorem RRAA {K : Type} [CommRing K] (g : Occ (Mode L) → K) (x : Cfg L) (s s' : Bool) (hss : s' = s ∨ s = false) (i j a b : Fin L) (hi : hasSpin s (x i) = true)
    (hj : hasSpin s' (x j) = true) (hij : ¬ (s' = s ∧ j = i)) :
    R (mode s i) (R (mode s' j) (A (mode s' b) (A (mode s a) g))) (occOf x) =
      (let y := xm (xm x s i) s' j
       if hasSpin s' (y b) = false ∧ hasSpin s (xp y s' b a) = false then
         ((sg (bel x s i + bel x s' j + bel x s' b + bel x s a
            - ((if s' = s ∧ i < j then 1 else 0) + (if s' = s ∧ i < b then 1 else 0) + (if j < b then 1 else 0)
              + (if i < a then 1 else 0) + (if s' = s ∧ j < a then 1 else 0) - (if s' = s ∧ b < a then 1 else 0))) : ℤ) : K)
          * g (occOf (xp (xp y s' b) s a))
       else 0) := by
  set y := xm (xm x s i) s' j with hy
  dsimp only
  have hj' : hasSpin s' (xm x s i j) = true := by rw [xm_spin x s' hi, if_neg hij, hj]
  rw [R_occOf, if_pos hi, R_occOf, if_pos hj', A_occOf]
  by_cases hb : hasSpin s' (y b) = true
  · rw [if_pos hb, if_neg (by simp [hb])]; simp
  · have hb' : hasSpin s' (y b) = false := by simpa using hb
    rw [if_neg hb, A_occOf]
    by_cases ha : hasSpin s (xp y s' b a) = true
    · rw [if_pos ha, if_neg (by simp [ha])]; simp
    · rw [if_neg ha, if_pos ⟨hb', by simpa using ha⟩]
      have u1 : upFactor (xp y s' b) s = upFactor x s := by
        rcases hss with h | h
        · subst h
          rw [numElec_xp_xm_factor y hb' _ (Or.inl rfl), upFactor_xm _ hj' _ (Or.inl rfl), upFactor_xm _ hi _ (Or.inl rfl)]
        · subst h; simp [upFactor]
      have u2 : upFactor y s' = upFactor (xm x s i) s' := upFactor_xm _ hj' _ (Or.inl rfl)
      have hcalc : (sg (bel x s i) * upFactor x s) * ((sg (bel (xm x s i) s' j) * upFactor (xm x s i) s') *
          ((sg (bel y s' b) * upFactor y s') * (sg (bel (xp y s' b) s a) * upFactor (xp y s' b) s))) =
          sg (bel x s i + bel x s' j + bel x s' b + bel x s a
            - ((if s' = s ∧ i < j then 1 else 0) + (if s' = s ∧ i < b then 1 else 0) + (if j < b then 1 else 0)
              + (if i < a then 1 else 0) + (if s' = s ∧ j < a then 1 else 0) - (if s' = s ∧ b < a then 1 else 0))) := by
        rw [u1, u2]
        have hs1 := upFactor_sq x s
        have hs2 := upFactor_sq (xm x s i) s'
        have e1 : bel (xm x s i) s' j = bel x s' j - if s' = s ∧ i < j then 1 else 0 := bel_xm x s' hi j
        have e2 : bel y s' b = bel x s' b - (if s' = s ∧ i < b then 1 else 0) - if j < b then 1 else 0 := by
          simp only [y]
          rw [bel_xm _ s' hj' b, bel_xm x s' hi b]
          simp
        have e3 : bel (xp y s' b) s a = bel x s a - (if i < a then 1 else 0) - (if s' = s ∧ j < a then 1 else 0)
            + if s' = s ∧ b < a then 1 else 0 := by
          rw [bel_xp y s hb' a]
          simp only [y]
          rw [bel_xm _ s hj' a, bel_xm x s hi a]
          simp only [eq_comm (a := s) (b := s'), true_and]
        rw [e1, e2, e3]
        calc _ = (sg (bel x s i) * sg (bel x s' j - if s' = s ∧ i < j then 1 else 0) *
              sg (bel x s' b - (if s' = s ∧ i < b then 1 else 0) - if j < b then 1 else 0) *
              sg (bel x s a - (if i < a then 1 else 0) - (if s' = s ∧ j < a then 1 else 0)
            + if s' = s ∧ b < a then 1 else 0)) * (upFactor x s * upFactor x s) * (upFactor (xm x s i) s' * upFactor (xm x s i) s') := by ring
          _ = _ := by
            rw [hs1, hs2, mul_one, mul_one, ← sg_add, ← sg_add, ← sg_add]
            congr 1
            ring
      rw [← hcalc]
      push_cast
      ring

/-! ### Update lists -/

theorem updateConfig_fst (x : Cfg L) (site : Fin L) (upd : List (Fin L × Fin 4)) (v : Fin 4) (d : ℤ) (create : Bool) :
    (updateConfig x site upd v d create).1 = prevMove x upd site (if create then d else -d) := rfl

theorem find_modify_bit {S A : Type} [DecidableEq S] (x : S → A) (l : List (S × A)) (site : S) (h : site ∈ l.map Prod.fst) :
    (l[l.findIdx fun u => decide (u.1 = site)]?).map Prod.snd = some (applyUpdate x l site) := by
  induction l with
  | nil => simp at h
  | cons u l ih =>
    rw [applyUpdate_cons]
    by_cases hu : u.1 = site
    · subst hu; simp [List.findIdx_cons]
    · rw [Function.update_of_ne (Ne.symm hu), ← ih]
      · simp [List.findIdx_cons, hu]
      · rw [List.map_cons, List.mem_cons] at h
        rcases h with h | h
        · exact absurd h.symm hu
        · exact h

theorem updateConfig_snd (x : Cfg L) (site : Fin L) (upd : List (Fin L × Fin 4)) (s : Bool) (d : ℤ) (create : Bool) :
    (updateConfig x site upd (spinInt s) d create).2 =
      if create then !(hasSpin s (applyUpdate x upd site)) else hasSpin s (applyUpdate x upd site) := by
  have h := find_modify_bit x (upd ++ [(site, x site)]) site (by simp)
  rw [applyUpdate_append_old] at h
  unfold updateConfig
  dsimp only
  obtain ⟨u, hu, hv⟩ := Option.map_eq_some_iff.mp h
  rw [hu]
  dsimp only
  rw [hv]
  have : decide (¬ applyUpdate x upd site &&& spinInt s = 0) = hasSpin s (applyUpdate x upd site) := by
    rw [Bool.eq_iff_iff, decide_eq_true_eq, ← hasSpin_iff]
  rw [this]

/-! ### The normal-ordered Hamiltonian -/

section
variable {K : Type} [CommRing K]

/-- `⟨n| c†_{si} c†_{s'j} c_{s'b} c_{sa}`. -/
def NO (s s' : Bool) (i j a b : Fin L) (g : Occ (Mode L) → K) (n : Occ (Mode L)) : K :=
  R (mode s i) (R (mode s' j) (A (mode s' b) (A (mode s a) g))) n

theorem NO_swap (s s' : Bool) (i j a b : Fin L) (g : Occ (Mode L) → K) (n : Occ (Mode L)) :
    NO s s' i j a b g n = NO s' s j i b a g n := by
  unfold NO
  rw [R_R_anti]
  have : A (mode s' b) (A (mode s a) g) = fun m => -A (mode s a) (A (mode s' b) g) m := by
    funext m; exact A_A_anti _ _ _ _
  rw [this]
  have h2 : R (mode s i) (fun m => -A (mode s a) (A (mode s' b) g) m) = fun m => -R (mode s i) (A (mode s a) (A (mode s' b) g)) m := by
    funext m; exact R_neg _ _ _
  rw [h2, R_neg, neg_neg]

theorem NO_self (s : Bool) (i a b : Fin L) (g : Occ (Mode L) → K) (n : Occ (Mode L)) : NO s s i i a b g n = 0 := by
  unfold NO
  rw [R_apply, R_apply]; simp

theorem NO_unocc (s s' : Bool) {i : Fin L} (j a b : Fin L) (g : Occ (Mode L) → K) {n : Occ (Mode L)} (h : i ∉ occSet s n) :
    NO s s' i j a b g n = 0 := by
  unfold NO
  rw [R_apply, if_neg]
  intro h'; exact h (mem_occ.mpr h')

/-- All pairs of creators on one pair of annihilators. -/
def pairF (e : Fin L → Fin L → Fin L → Fin L → K) (g : Occ (Mode L) → K) (n : Occ (Mode L)) (s s' : Bool) (i j : Fin L) : K :=
  ∑ a, ∑ b, e i a j b * NO s s' i j a b g n

theorem pairF_swap {e : Fin L → Fin L → Fin L → Fin L → K} (hsym : ∀ p q r s, e p q r s = e r s p q) (g : Occ (Mode L) → K)
    (n : Occ (Mode L)) (s s' : Bool) (i j : Fin L) : pairF e g n s s' i j = pairF e g n s' s j i := by
  unfold pairF
  rw [Finset.sum_comm]
  apply Finset.sum_congr rfl; intro b _
  apply Finset.sum_congr rfl; intro a _
  rw [hsym, NO_swap]

theorem pairF_self (e : Fin L → Fin L → Fin L → Fin L → K) (g : Occ (Mode L) → K) (n : Occ (Mode L)) (s : Bool) (i : Fin L) :
    pairF e g n s s i i = 0 := by
  simp [pairF, NO_self]

theorem pairF_sum {e : Fin L → Fin L → Fin L → Fin L → K} (hsym : ∀ p q r s, e p q r s = e r s p q) (g : Occ (Mode L) → K)
    (n : Occ (Mode L)) (s s' : Bool) :
    ∑ p, ∑ r, pairF e g n s s' p r = ∑ p ∈ occSet s n, ∑ r ∈ occSet s' n, pairF e g n s s' p r := by
  have h1 : ∀ (s s' : Bool) p r, p ∉ occSet s n → pairF e g n s s' p r = 0 := by
    intro s s' p r hp
    simp [pairF, NO_unocc s s' r _ _ g hp]
  rw [← Finset.sum_subset (Finset.subset_univ (occSet s n))]
  · apply Finset.sum_congr rfl; intro p _
    rw [← Finset.sum_subset (Finset.subset_univ (occSet s' n))]
    intro r _ hr
    rw [pairF_swap hsym]; exact h1 s' s r p hr
  · intro p _ hp
    exact Finset.sum_eq_zero fun r _ => h1 s s' p r hp

theorem sum4_comm (F : Fin L → Fin L → Fin L → Fin L → K) : ∑ p, ∑ q, ∑ r, ∑ s, F p q r s = ∑ p, ∑ r, ∑ q, ∑ s, F p q r s :=
  Finset.sum_congr rfl fun _ _ => Finset.sum_comm

theorem hTwice_normal (h : Fin L → Fin L → K) (e : Fin L → Fin L → Fin L → Fin L → K) (g : Occ (Mode L) → K) (n : Occ (Mode L)) :
    hTwice h e g n = 2 * (∑ σ : Bool, ∑ p, ∑ q, h p q * T (mode σ p) (mode σ q) g n)
      + ∑ σ : Bool, ∑ τ : Bool, ∑ p, ∑ r, pairF e g n σ τ p r := by
  unfold hTwice
  congr 1
  · simp only [Fintype.sum_bool, mul_add, Finset.sum_add_distrib, Finset.mul_sum, mul_assoc]
  · have h1 : ∀ p q r s, (∑ σ : Bool, ∑ τ : Bool, T (mode σ p) (mode σ q) (T (mode τ r) (mode τ s) g) n) -
        (if q = r then ∑ σ : Bool, T (mode σ p) (mode σ s) g n else 0) = ∑ σ : Bool, ∑ τ : Bool, NO σ τ p r q s g n := by
      intro p q r s
      unfold NO
      simp only [← T_T_normal, Fintype.sum_bool]
      have m1 : ∀ σ : Bool, (mode σ q = mode σ r) ↔ q = r := fun σ => by rw [mode_inj]; simp
      have m2 : ¬ (mode true q = mode false r) := mode_ne_spin (by decide) _ _
      have m3 : ¬ (mode false q = mode true r) := mode_ne_spin (by decide) _ _
      simp only [m1, m2, m3, if_false]
      split_ifs <;> ring
    simp only [h1, pairF]
    rw [sum4_comm]
    simp only [Fintype.sum_bool, mul_add, Finset.sum_add_distrib]

end

theorem triu_sum {α : Type} (f : α → α → ℂ) (hs : ∀ i j, f i j = f j i) (h0 : ∀ i, f i i = 0) (l : List α) :
    (l.map fun i => (l.map fun j => f i j).sum).sum = 2 * ((triuPairs l).map fun ij => f ij.1 ij.2).sum := by
  induction l with
  | nil => simp [triuPairs]
  | cons u l ih =>
    have e1 : (l.map fun i => f i u + (l.map fun j => f i j).sum).sum =
        (l.map fun j => f u j).sum + (l.map fun i => (l.map fun j => f i j).sum).sum := by
      rw [List.sum_map_add]
      congr 2
      apply List.map_congr_left
      intro i _; exact hs i u
    simp only [triuPairs, List.map_cons, List.sum_cons, List.map_append, List.sum_append, h0, List.map_map, Function.comp_def, zero_add]
    rw [e1, ih]
    ring

theorem triuPairs_mem {α : Type} {l : List α} (hl : l.Nodup) {ij : α × α} (h : ij ∈ triuPairs l) : ij.1 ∈ l ∧ ij.2 ∈ l ∧ ij.2 ≠ ij.1 := by
  induction l with
  | nil => simp [triuPairs] at h
  | cons u l ih =>
    rw [triuPairs, List.mem_append, List.mem_map] at h
    rw [List.nodup_cons] at hl
    rcases h with ⟨v, hv, rfl⟩ | h
    · refine ⟨by simp, by simp [hv], ?_⟩
      intro hvu
      dsimp only at hvu
      exact hl.1 (hvu ▸ hv)
    · obtain ⟨h1, h2, h3⟩ := ih hl.2 h
      exact ⟨by simp [h1], by simp [h2], h3⟩

/-! ### The terms -/

/-- The two `update_config` calls of the inner loops. -/
theorem pair_update (src : AmpSource L (Fin 4) Cache) (x : Cfg L) (hsrc : src.OkPaddedAt x) (s s' : Bool) (a b : Fin L)
    (upd : List (Fin L × Fin 4)) (hp : Padded x upd) :
    let y := applyUpdate x upd
    let u1 := updateConfig x b upd (spinInt s') (spinZ s') true
    let u2 := updateConfig x a u1.1 (spinInt s) (spinZ s) true
    ((u2.2 && u1.2) = true ↔ hasSpin s' (y b) = false ∧ hasSpin s (xp y s' b a) = false) ∧
    (hasSpin s' (y b) = false → hasSpin s (xp y s' b a) = false →
      ampRatio src x u2.1 = ratioF src x (occOf (xp (xp y s' b) s a))) := by
  intro y u1 u2
  have f1 : u1.1 = prevMove x upd b (spinZ s') := rfl
  have f2 : u2.1 = prevMove x u1.1 a (spinZ s) := rfl
  have p1 : Padded x u1.1 := by rw [f1]; exact prevMove_padded hp _ _
  have p2 : Padded x u2.1 := by rw [f2]; exact prevMove_padded p1 _ _
  have v1 : u1.2 = !(hasSpin s' (y b)) := by
    simp only [u1]; rw [updateConfig_snd]; rfl
  have v2 : u2.2 = !(hasSpin s (applyUpdate x u1.1 a)) := by
    simp only [u2]; rw [updateConfig_snd]; rfl
  have a1 : hasSpin s' (y b) = false → applyUpdate x u1.1 = xp y s' b := by
    intro hb
    rw [f1, prevMove_apply, occAdd_add s' _ hb]; rfl
  constructor
  · rw [v1, v2, Bool.and_eq_true, Bool.not_eq_true', Bool.not_eq_true']
    constructor
    · rintro ⟨ha, hb⟩
      rw [a1 hb] at ha
      exact ⟨hb, ha⟩
    · rintro ⟨hb, ha⟩
      rw [a1 hb]
      exact ⟨ha, hb⟩
  · intro hb ha
    rw [ampRatio_eq src x hsrc _ p2, f2, prevMove_apply, a1 hb, occAdd_add s _ ha, ratioF_apply]
    rfl

theorem b2z_eq (b : Bool) : b2z b = if b = true then 1 else 0 := rfl

theorem ge_ite (a i : Fin L) : (if a ≥ i then (1 : ℤ) else 0) = (if i < a then 1 else 0) + if a = i then 1 else 0 := by
  rcases lt_trichotomy i a with h | h | h
  · rw [if_pos (le_of_lt h), if_pos h, if_neg (ne_of_gt h)]; rfl
  · subst h; simp
  · rw [if_neg (not_le.mpr h), if_neg (not_lt.mpr (le_of_lt h)), if_neg (ne_of_lt h)]; rfl

theorem sparseSame_eq (src : AmpSource L (Fin 4) Cache) (x : Cfg L) (hsrc : src.OkPaddedAt x) (e : Fin L → Fin L → Fin L → Fin L → ℂ)
    (s : Bool) {i j : Fin L} (hi : hasSpin s (x i) = true) (hj : hasSpin s (x j) = true) (hij : j ≠ i) :
    sparseSame src x (spinInt s) (spinZ s) (cumsum (isOcc x (spinInt s))) (sparse2 e) i j = pairF e (ratioF src x) (occOf x) s s i j := by
  unfold sparseSame pairF
  dsimp only
  apply slice2_sum
  intro a b
  dsimp only
  set upd := [(i, occAdd (x i) (-spinZ s)), (j, occAdd (x j) (-spinZ s))] with hupd
  have hy : applyUpdate x upd = xm (xm x s i) s j := by
    rw [hupd, applyUpdate_two x hij, occAdd_sub s _ hi, occAdd_sub s _ hj]
    unfold xm
    rw [Function.update_of_ne hij]
  have hp : Padded x upd := by
    apply padded_of_nodup; simp [hupd, hij.symm]
  obtain ⟨h1, h2⟩ := pair_update src x hsrc s s a b upd hp
  rw [hy] at h1 h2
  unfold NO
  rw [RRAA _ x s s (Or.inl rfl) i j a b hi hj (by simp [hij])]
  dsimp only
  by_cases hv : hasSpin s (xm (xm x s i) s j b) = false ∧ hasSpin s (xp (xm (xm x s i) s j) s b a) = false
  · rw [if_pos (h1.mpr hv), if_pos hv, h2 hv.1 hv.2]
    have hb := hv.1
    have ha := hv.2
    have hj' : hasSpin s (xm x s i j) = true := by rw [xm_spin x s hi, if_neg (by simp [hij]), hj]
    rw [xp_spin _ s hb, xm_spin _ s hj', xm_spin x s hi] at ha
    rw [xm_spin _ s hj', xm_spin x s hi] at hb
    have hab : a ≠ b := by rintro rfl; simp at ha
    have ca : b2z (hasSpin s (x a)) = (if a = i then 1 else 0) + if a = j then 1 else 0 := by
      by_cases h3 : a = i
      · subst h3; simp [b2z, hi, hij.symm]
      · by_cases h4 : a = j
        · subst h4; simp [b2z, hj, h3]
        · simp only [hab, h3, h4, and_false, if_false] at ha
          simp [b2z, ha, h3, h4]
    have cb : b2z (hasSpin s (x b)) = (if b = i then 1 else 0) + if b = j then 1 else 0 := by
      by_cases h3 : b = i
      · subst h3; simp [b2z, hi, hij.symm]
      · by_cases h4 : b = j
        · subst h4; simp [b2z, hj, h3]
        · simp only [h3, h4, and_false, if_false] at hb
          simp [b2z, hb, h3, h4]
    have hcount : cumsum (isOcc x (spinInt s)) i.val + cumsum (isOcc x (spinInt s)) j.val - 2 + cumsum (isOcc x (spinInt s)) a.val
        + cumsum (isOcc x (spinInt s)) b.val - ((if a ≥ j then 1 else 0) + (if a ≥ i then 1 else 0) + (if b ≥ j then 1 else 0)
          + (if b ≥ i then 1 else 0) - (if a ≥ b then 1 else 0) + (if j > i then 1 else 0)) =
        bel x s i + bel x s j + bel x s b + bel x s a
            - ((if s = s ∧ i < j then 1 else 0) + (if s = s ∧ i < b then 1 else 0) + (if j < b then 1 else 0)
              + (if i < a then 1 else 0) + (if s = s ∧ j < a then 1 else 0) - (if s = s ∧ b < a then 1 else 0)) := by
      rw [cumsum_bel, cumsum_bel, cumsum_bel, cumsum_bel, ca, cb, hi, hj, ge_ite a j, ge_ite a i, ge_ite b j, ge_ite b i, ge_ite a b]
      simp only [true_and, hab, if_false, gt_iff_lt, b2z, if_true]
      ring
    rw [hcount]
    unfold sg
    ring
  · rw [if_neg (fun h => hv (h1.mp h)), if_neg hv, mul_zero]

theorem sparseMixed_eq (src : AmpSource L (Fin 4) Cache) (x : Cfg L) (hsrc : src.OkPaddedAt x) (e : Fin L → Fin L → Fin L → Fin L → ℂ)
    {i j : Fin L} (hi : hasSpin false (x i) = true) (hj : hasSpin true (x j) = true) :
    sparseMixed src x (cumsum (isOcc x (spinInt false))) (cumsum (isOcc x (spinInt true))) (sparse2 e) i j =
      pairF e (ratioF src x) (occOf x) false true i j := by
  unfold sparseMixed pairF
  dsimp only
  apply slice2_sum
  intro a b
  dsimp only
  set upd := (updateConfig x j [(i, occAdd (x i) (-1))] 2 2 false).1 with hupd
  have hupd' : upd = prevMove x [(i, occAdd (x i) (-1))] j (-2) := rfl
  have hj' : hasSpin true (xm x false i j) = true := by rw [xm_spin x true hi, if_neg (by simp), hj]
  have h1u : applyUpdate x [(i, occAdd (x i) (-1))] = xm x false i := by
    rw [applyUpdate_cons, applyUpdate_nil, show (-1 : ℤ) = -spinZ false from rfl, occAdd_sub false _ hi]; rfl
  have hy : applyUpdate x upd = xm (xm x false i) true j := by
    rw [hupd', prevMove_apply, h1u, show (-2 : ℤ) = -spinZ true from rfl, occAdd_sub true _ hj']; rfl
  have hp : Padded x upd := by
    rw [hupd']; apply prevMove_padded; apply padded_of_nodup; simp
  obtain ⟨h1, h2⟩ := pair_update src x hsrc false true a b upd hp
  rw [hy] at h1 h2
  unfold NO
  rw [RRAA _ x false true (Or.inr rfl) i j a b hi hj (by simp)]
  dsimp only
  simp only [spinInt, spinZ] at h1 h2
  by_cases hv : hasSpin true (xm (xm x false i) true j b) = false ∧ hasSpin false (xp (xm (xm x false i) true j) true b a) = false
  · rw [if_pos (h1.mpr hv), if_pos hv, h2 hv.1 hv.2]
    have hb := hv.1
    have ha := hv.2
    rw [xp_spin _ false hb, xm_spin _ false hj', xm_spin x false hi] at ha
    rw [xm_spin _ true hj', xm_spin x true hi] at hb
    have ca : b2z (hasSpin false (x a)) = if a = i then 1 else 0 := by
      by_cases h3 : a = i
      · subst h3; simp [b2z, hi]
      · simp [h3] at ha
        simp [b2z, ha, h3]
    have cb : b2z (hasSpin true (x b)) = if b = j then 1 else 0 := by
      by_cases h3 : b = j
      · subst h3; simp [b2z, hj]
      · simp [h3] at hb
        simp [b2z, hb, h3]
    have hcount : cumsum (isOcc x (spinInt false)) i.val + cumsum (isOcc x (spinInt true)) j.val - 2 + cumsum (isOcc x (spinInt false)) a.val
        + cumsum (isOcc x (spinInt true)) b.val - ((if a ≥ i then 1 else 0) + (if b ≥ j then 1 else 0)) =
        bel x false i + bel x true j + bel x true b + bel x false a
            - ((if true = false ∧ i < j then 1 else 0) + (if true = false ∧ i < b then 1 else 0) + (if j < b then 1 else 0)
              + (if i < a then 1 else 0) + (if true = false ∧ j < a then 1 else 0) - (if true = false ∧ b < a then 1 else 0)) := by
      rw [cumsum_bel, cumsum_bel, cumsum_bel, cumsum_bel, ca, cb, hi, hj, ge_ite a i, ge_ite b j]
      simp [b2z]
      ring
    rw [hcount]
    unfold sg
    ring
  · rw [if_neg (fun h => hv (h1.mp h)), if_neg hv, mul_zero]

theorem sparseOne_eq (src : AmpSource L (Fin 4) Cache) (x : Cfg L) (hsrc : src.OkPaddedAt x) (h : Fin L → Fin L → ℂ)
    (s : Bool) {i : Fin L} (hi : hasSpin s (x i) = true) :
    sparseOne src x (spinInt s) (spinZ s) (cumsum (isOcc x (spinInt s))) (sparse1 h) i =
      ∑ a, h i a * T (mode s i) (mode s a) (ratioF src x) (occOf x) := by
  unfold sparseOne
  rw [slice1_sum h (fun a => if x a &&& spinInt s = 0 then oneRatio src x (spinZ s) (cumsum (isOcc x (spinInt s))) i a
    else if i = a then 1 else 0)]
  apply Finset.sum_congr rfl
  intro a _
  congr 1
  by_cases ha : hasSpin s (x a) = true
  · rw [if_neg ((hasSpin_iff s _).mp ha)]
    by_cases hia : i = a
    · subst hia
      rw [if_pos rfl, T_self, occOf_mode, if_pos hi, ratioF_self]
    · rw [if_neg hia, T_occ (mode_ne (Ne.symm hia)) _ _ ha]
  · have hz : x a &&& spinInt s = 0 := by
      rw [hasSpin_iff, not_not] at ha; exact ha
    rw [if_pos hz, oneRatio_eq src x hsrc hi (by simpa using ha)]

theorem sparseLocalEn_eq (src : AmpSource L (Fin 4) Cache) (x : Cfg L) (hsrc : src.OkPaddedAt x) (h : Fin L → Fin L → ℂ)
    (e : Fin L → Fin L → Fin L → Fin L → ℂ) (hsym : ∀ p q r s, e p q r s = e r s p q) (n_elecs : ℕ × ℕ)
    (hlu : (occInds x (spinInt false)).length = n_elecs.1) (hld : (occInds x (spinInt true)).length = n_elecs.2) :
    2 * sparseLocalEn src n_elecs (sparse1 h) (sparse2 e) x = hTwice h e (ratioF src x) (occOf x) := by
  have one : ∀ s : Bool, ((occInds x (spinInt s)).map fun i => sparseOne src x (spinInt s) (spinZ s) (cumsum (isOcc x (spinInt s))) (sparse1 h) i).sum =
      ∑ p, ∑ q, h p q * T (mode s p) (mode s q) (ratioF src x) (occOf x) := by
    intro s
    rw [occInds_sum, ← Finset.sum_subset (Finset.subset_univ (occSet s (occOf x)))]
    · apply Finset.sum_congr rfl
      intro i hi
      exact sparseOne_eq src x hsrc h s (occ_site hi)
    · intro p _ hp
      apply Finset.sum_eq_zero
      intro q _
      have : occOf x (mode s p) = false := by
        by_contra hc
        exact hp (mem_occ.mpr (by simpa using hc))
      rw [T_unocc _ _ _ this, mul_zero]
  have mem : ∀ (s : Bool) (i : Fin L), i ∈ occInds x (spinInt s) → hasSpin s (x i) = true := by
    intro s i hi
    rw [← List.mem_toFinset, occInds_toFinset] at hi
    exact occ_site hi
  have same : ∀ s : Bool, 2 * ((triuPairs (occInds x (spinInt s))).map fun ij =>
      sparseSame src x (spinInt s) (spinZ s) (cumsum (isOcc x (spinInt s))) (sparse2 e) ij.1 ij.2).sum =
      ∑ p, ∑ r, pairF e (ratioF src x) (occOf x) s s p r := by
    intro s
    rw [pairF_sum hsym]
    have : ((triuPairs (occInds x (spinInt s))).map fun ij =>
        sparseSame src x (spinInt s) (spinZ s) (cumsum (isOcc x (spinInt s))) (sparse2 e) ij.1 ij.2) =
        (triuPairs (occInds x (spinInt s))).map fun ij => pairF e (ratioF src x) (occOf x) s s ij.1 ij.2 := by
      apply List.map_congr_left
      intro ij hij
      obtain ⟨h1, h2, h3⟩ := triuPairs_mem (occInds_nodup x _) hij
      exact sparseSame_eq src x hsrc e s (mem s _ h1) (mem s _ h2) h3
    rw [this, ← triu_sum (fun i j => pairF e (ratioF src x) (occOf x) s s i j) (fun i j => pairF_swap hsym _ _ _ _ _ _)
      (fun i => pairF_self _ _ _ _ _)]
    simp only [occInds_sum]
  have mixed : ((occInds x (spinInt false)).map fun i => ((occInds x (spinInt true)).map fun j =>
      sparseMixed src x (cumsum (isOcc x (spinInt false))) (cumsum (isOcc x (spinInt true))) (sparse2 e) i j).sum).sum =
      ∑ p, ∑ r, pairF e (ratioF src x) (occOf x) false true p r := by
    rw [pairF_sum hsym]
    simp only [occInds_sum]
    apply Finset.sum_congr rfl; intro i hi
    apply Finset.sum_congr rfl; intro j hj
    exact sparseMixed_eq src x hsrc e (occ_site hi) (occ_site hj)
  have mixed' : ∑ p, ∑ r, pairF e (ratioF src x) (occOf x) true false p r = ∑ p, ∑ r, pairF e (ratioF src x) (occOf x) false true p r := by
    rw [Finset.sum_comm]
    apply Finset.sum_congr rfl; intro i hi
    apply Finset.sum_congr rfl; intro j hj
    exact pairF_swap hsym _ _ _ _ _ _
  unfold sparseLocalEn
  rw [show (1 : Fin 4) = spinInt false from rfl, show (2 : Fin 4) = spinInt true from rfl]
  simp only [nonzeroSize_eq _ _ hlu, nonzeroSize_eq _ _ hld]
  have o1 := one false
  have o2 := one true
  have s1 := same false
  have s2 := same true
  simp only [spinZ] at o1 o2 s1 s2
  rw [hTwice_normal, o1, o2, mixed]
  simp only [Fintype.sum_bool]
  rw [mixed', ← s1, ← s2]
  ring

end GPSKet
