import Verif.Model.StateFitting
import Verif.Lemmas.Clocks
import Mathlib.Analysis.InnerProductSpace.Calculus
import Mathlib.Analysis.SpecialFunctions.ExpDeriv
import Mathlib.Analysis.Calculus.Deriv.Comp
import Mathlib.Data.Complex.BigOperators
import Mathlib.Data.List.Perm.Subperm
import Mathlib.Tactic.Ring
import Mathlib.Tactic.FieldSimp

/-!
# C75, C76, C77: fitting an autoregressive state to data
-/

namespace GPSKet.StateFitting

/-! ## C75: the shards of the data set -/

theorem sum_sectionSizes (len n : ℕ) (hn : 0 < n) : (sectionSizes len n).sum = len := by
  have h := Nat.mod_lt len hn
  have h2 := Nat.div_add_mod len n
  simp only [sectionSizes, List.sum_append, List.sum_replicate, smul_eq_mul]
  rw [Nat.mul_add, Nat.sub_mul]
  have h3 : len % n * (len / n) ≤ n * (len / n) := Nat.mul_le_mul_right _ h.le
  omega

theorem length_sectionSizes (len n : ℕ) (hn : 0 < n) : (sectionSizes len n).length = n := by
  have h := Nat.mod_lt len hn
  simp [sectionSizes]
  omega

theorem cut_length {α : Type} (sizes : List ℕ) (l : List α) : (cut sizes l).length = sizes.length := by
  induction sizes generalizing l with
  | nil => rfl
  | cons s sizes ih => simp [cut, ih]

theorem cut_flatten {α : Type} (sizes : List ℕ) (l : List α) (h : sizes.sum = l.length) : (cut sizes l).flatten = l := by
  induction sizes generalizing l with
  | nil =>
    have : l = [] := List.length_eq_zero_iff.mp (by simpa using h.symm)
    simp [cut, this]
  | cons s sizes ih =>
    simp only [List.sum_cons] at h
    rw [cut, List.flatten_cons, ih _ (by simp; omega), List.take_append_drop]

theorem cut_map {α β : Type} (f : α → β) (sizes : List ℕ) (l : List α) : cut sizes (l.map f) = (cut sizes l).map (List.map f) := by
  induction sizes generalizing l with
  | nil => rfl
  | cons s sizes ih => simp [cut, ← List.map_take, ← List.map_drop, ih]

theorem cut_sizes {α : Type} (sizes : List ℕ) (l : List α) (h : sizes.sum = l.length) : (cut sizes l).map List.length = sizes := by
  induction sizes generalizing l with
  | nil => rfl
  | cons s sizes ih =>
    simp only [List.sum_cons] at h
    rw [cut, List.map_cons, ih _ (by simp; omega), List.length_take, Nat.min_eq_left (by omega)]

theorem mem_sectionSizes {len n s : ℕ} (h : s ∈ sectionSizes len n) : s = len / n ∨ s = len / n + 1 := by
  rcases List.mem_append.mp h with h | h
  · exact Or.inr (List.eq_of_mem_replicate h)
  · exact Or.inl (List.eq_of_mem_replicate h)

/-- C75: the data set, a list of configurations with their amplitudes, is cut into consecutive pieces, one for each process.  Every
process gets its piece, with each amplitude next to its configuration; together the pieces are the data set; and their sizes differ by
one at most. -/
theorem C75 {X Y : Type} (nodes : ℕ) (hn : 0 < nodes) (data : List (X × Y)) :
    ∃ pieces : List (List (X × Y)), pieces.length = nodes ∧ pieces.flatten = data ∧
      (∀ r, shard nodes (data.map Prod.fst, data.map Prod.snd) r = pieces[r]?.map fun p => (p.map Prod.fst, p.map Prod.snd)) ∧
      ∀ p ∈ pieces, ∀ q ∈ pieces, p.length ≤ q.length + 1 := by
  have hs := sum_sectionSizes data.length nodes hn
  refine ⟨arraySplit nodes data, ?_, ?_, ?_, ?_⟩
  · rw [arraySplit, cut_length, length_sectionSizes _ _ hn]
  · exact cut_flatten _ _ hs
  · intro r
    simp only [shard, arraySplit, List.length_map, cut_map, List.zip_map', List.getElem?_map]
  · intro p hp q hq
    have h1 : ∀ p ∈ arraySplit nodes data, p.length = data.length / nodes ∨ p.length = data.length / nodes + 1 := by
      intro p hp
      apply mem_sectionSizes
      rw [← cut_sizes _ _ hs]
      exact List.mem_map_of_mem hp
    have := h1 p hp
    have := h1 q hq
    omega

example : shard 2 (["a", "b", "c"], [1, 2, 3]) 0 = some (["a", "b"], [1, 2]) ∧
    shard 2 (["a", "b", "c"], [1, 2, 3]) 1 = some (["c"], [3]) := by decide

/-! ## C76: the mini-batches -/

section
variable {X : Type} [Inhabited X]

/-- C76: if the process has enough data, the mini-batch has the size asked for, and is drawn without repetition: it consists of the data
at distinct places `batch`, which together with the places `rest` are all the places.  The Gumbel numbers are `-log E` for independent
exponential waiting times `E`.  The places drawn are those with the first arrivals of clocks that run at the speed of the squared
amplitudes: a place with amplitude zero is drawn only if all those with other amplitudes are, and otherwise the arrival times
`E / |amplitude|^2` of the places drawn come before the others. -/
theorem C76 (E : ℕ → ℝ) (hE : ∀ i, 0 < E i) (b : ℕ) (data : List (X × ℂ)) (hb : b ≤ data.length) :
    ∃ batch rest : List (Fin data.length), (batch ++ rest).Perm (List.finRange data.length) ∧ batch.length = b ∧
      miniBatch (fun i => -Real.log (E i)) b (data.map Prod.fst, data.map Prod.snd) = some (batch.map data.get) ∧
      ∀ i ∈ batch, ∀ j ∈ rest, ((data.get i).2 = 0 → (data.get j).2 = 0) ∧
        ((data.get j).2 ≠ 0 → E i / ‖(data.get i).2‖ ^ 2 ≤ E j / ‖(data.get j).2‖ ^ 2) := by
  classical
  set gumbel : ℕ → ℝ := fun i => -Real.log (E i) with hgum
  set p : ℕ → ℝ := fun i => ‖(data.map Prod.snd).getD i 0‖ ^ 2 with hp
  set r : ℕ → ℕ → Prop := fun i j => sortKey gumbel p i ≤ sortKey gumbel p j with hr
  set sorted := (List.range data.length).insertionSort r with hsorted
  have hperm : sorted.Perm (List.range data.length) := List.perm_insertionSort _ _
  have hpw : sorted.Pairwise r := by
    haveI : Std.Total r := ⟨fun i j => le_total _ _⟩
    haveI : IsTrans ℕ r := ⟨fun i j k => le_trans⟩
    exact List.pairwise_insertionSort _ _
  have hmem : ∀ i ∈ sorted, i < data.length := fun i hi => List.mem_range.mp (hperm.mem_iff.mp hi)
  set fsorted : List (Fin data.length) := sorted.attach.map fun i => ⟨i.1, hmem i.1 i.2⟩ with hfs
  have hval : fsorted.map Fin.val = sorted := by
    rw [hfs, List.map_map]
    exact sorted.attach_map_subtype_val
  have hfperm : fsorted.Perm (List.finRange data.length) := by
    rw [← List.map_perm_map_iff Fin.val_injective, hval, List.map_coe_finRange_eq_range]
    exact hperm
  have hget : ∀ i : Fin data.length, (data.map Prod.snd).getD i 0 = (data.get i).2 := by
    intro i
    simp [List.getD_eq_getElem?_getD]
  have hget1 : ∀ i : Fin data.length, (data.map Prod.fst).getD i default = (data.get i).1 := by
    intro i
    simp [List.getD_eq_getElem?_getD]
  have hpi : ∀ i : Fin data.length, p i = ‖(data.get i).2‖ ^ 2 := fun i => by rw [hp]; simp only [hget]
  have hp0 : ∀ i : Fin data.length, p i = 0 ↔ (data.get i).2 = 0 := fun i => by rw [hpi]; simp
  refine ⟨fsorted.take b, fsorted.drop b, ?_, ?_, ?_, ?_⟩
  · rw [List.take_append_drop]
    exact hfperm
  · rw [List.length_take, hfperm.length_eq, List.length_finRange, Nat.min_eq_left hb]
  · simp only [miniBatch, choice, List.length_map, if_neg (Nat.not_lt.mpr hb), Option.map_some]
    show some ((sorted.take b).map _) = _
    rw [← hval, ← List.map_take, List.map_map]
    congr 1
    apply List.map_congr_left
    intro i _
    exact Prod.ext (hget1 i) (hget i)
  · intro i hi j hj
    have hle : sortKey gumbel p i ≤ sortKey gumbel p j := by
      have h := hpw
      rw [← hval, List.pairwise_map, ← List.take_append_drop b fsorted] at h
      exact (List.pairwise_append.mp h).2.2 i hi j hj
    unfold sortKey at hle
    refine ⟨fun h0 => ?_, fun hj0 => ?_⟩
    · rw [if_pos ((hp0 i).mpr h0), top_le_iff] at hle
      split at hle
      · rename_i h
        exact (hp0 j).mp h
      · exact absurd hle WithTop.coe_ne_top
    · rw [if_neg (fun h => hj0 ((hp0 j).mp h))] at hle
      split at hle
      · exact absurd (top_le_iff.mp hle) WithTop.coe_ne_top
      · rename_i hi0
        have hpos : ∀ k : Fin data.length, p k ≠ 0 → 0 < p k := fun k hk => lt_of_le_of_ne (by rw [hpi]; positivity) (Ne.symm hk)
        have hpi0 := hpos i hi0
        have hpj0 := hpos j (fun h => hj0 ((hp0 j).mp h))
        rw [WithTop.coe_le_coe] at hle
        simp only [hgum, neg_neg] at hle
        rw [← Real.log_div (hE i).ne' hpi0.ne', ← Real.log_div (hE j).ne' hpj0.ne'] at hle
        have h := (Real.log_le_log_iff (div_pos (hE i) hpi0) (div_pos (hE j) hpj0)).mp hle
        rwa [hpi, hpi] at h

theorem map_take_head {β : Type} {f : ℕ → β} {s : List ℕ} {a : β} {b : ℕ} (hb : 1 ≤ b) (h : (s.take 1).map f = [a]) :
    ∃ l, (s.take b).map f = a :: l := by
  obtain ⟨b, rfl⟩ : ∃ c, b = c + 1 := ⟨b - 1, by omega⟩
  cases s with
  | nil => simp at h
  | cons c l =>
    simp only [List.take_succ_cons, List.take_zero, List.map_cons, List.map_nil, List.cons.injEq] at h ⊢
    exact ⟨_, h.1, rfl⟩

/-- C76: the first configuration of the mini-batch is distributed according to the squared amplitudes, normalised over the data of the
process.  (`Clocks.waiting` is the exponential distribution; JAX's Gumbel numbers are `-log` of independent numbers so distributed.) -/
theorem C76_first (b : ℕ) (hb : 1 ≤ b) (data : List (X × ℂ)) (hlen : b ≤ data.length) (hnodup : data.Nodup)
    (h0 : ∃ a ∈ data, a.2 ≠ 0) (i : Fin data.length) :
    (MeasureTheory.Measure.pi fun _ : Fin data.length => Clocks.waiting)
      {E | ∃ others, miniBatch (fun k => if h : k < data.length then -Real.log (E ⟨k, h⟩) else 0) b
        (data.map Prod.fst, data.map Prod.snd) = some (data.get i :: others)}
      = ENNReal.ofReal (‖(data.get i).2‖ ^ 2 / ∑ j, ‖(data.get j).2‖ ^ 2) := by
  have h01 : ∃ i : Fin data.length, ‖(data.get i).2‖ ^ 2 ≠ 0 := by
    obtain ⟨a, ha, h⟩ := h0
    obtain ⟨k, rfl⟩ := List.get_of_mem ha
    exact ⟨k, by simpa using h⟩
  have key : ∀ E : Fin data.length → ℝ, (∀ i, 0 < E i) → ∃ (i : Fin data.length) (l : List (X × ℂ)),
      miniBatch (fun k => if h : k < data.length then -Real.log (E ⟨k, h⟩) else 0) b
        (data.map Prod.fst, data.map Prod.snd) = some (data.get i :: l) ∧ ‖(data.get i).2‖ ^ 2 ≠ 0 ∧
      ∀ j, ‖(data.get j).2‖ ^ 2 ≠ 0 → E i / ‖(data.get i).2‖ ^ 2 ≤ E j / ‖(data.get j).2‖ ^ 2 := by
    intro E hE
    let F : ℕ → ℝ := fun k => if h : k < data.length then E ⟨k, h⟩ else 1
    have hF : ∀ k, 0 < F k := by
      intro k
      simp only [F]
      split
      · exact hE _
      · exact one_pos
    have hF1 : ∀ j : Fin data.length, F j = E j := fun j => by simp [F]
    have hg : (fun k => if h : k < data.length then -Real.log (E ⟨k, h⟩) else 0) = fun k => -Real.log (F k) := by
      funext k
      simp only [F]
      split <;> simp
    have h1 : 1 ≤ data.length := hb.trans hlen
    -- the first place of the mini-batch is the one of the mini-batch of size one
    obtain ⟨batch1, rest1, hperm1, hl1, hm1, ho1⟩ := C76 F hF 1 data h1
    obtain ⟨i, rfl⟩ := List.length_eq_one_iff.mp hl1
    have hhead : ∃ l, miniBatch (fun k => -Real.log (F k)) b (data.map Prod.fst, data.map Prod.snd) = some (data.get i :: l) := by
      simp only [miniBatch, choice, List.length_map, if_neg (Nat.not_lt.mpr hlen), if_neg (Nat.not_lt.mpr h1), Option.map_some,
        Option.some.injEq, List.map_cons, List.map_nil] at hm1 ⊢
      exact map_take_head hb hm1
    obtain ⟨l, hl⟩ := hhead
    have hall : ∀ j, j = i ∨ j ∈ rest1 := by
      intro j
      have : j ∈ [i] ++ rest1 := hperm1.mem_iff.mpr (List.mem_finRange j)
      simpa using this
    refine ⟨i, l, by rw [hg]; exact hl, ?_, ?_⟩
    · intro hz
      obtain ⟨j, hj⟩ := h01
      rcases hall j with rfl | hjr
      · exact hj hz
      · have := (ho1 i (by simp) j hjr).1 (by simpa using hz)
        exact hj (by rw [this]; simp)
    · intro j hj
      rcases hall j with rfl | hjr
      · exact le_rfl
      · have := (ho1 i (by simp) j hjr).2 (by simpa using hj)
        rwa [hF1, hF1] at this
  refine Clocks.first_arrival_event (fun i => ‖(data.get i).2‖ ^ 2) (fun i => by positivity)
    (fun i => {E | ∃ others, miniBatch (fun k => if h : k < data.length then -Real.log (E ⟨k, h⟩) else 0) b
      (data.map Prod.fst, data.map Prod.snd) = some (data.get i :: others)}) h01 ?_ ?_ i
  · intro E hE
    obtain ⟨i, l, hl, hne, _⟩ := key E hE
    exact ⟨i, hne, l, hl⟩
  · rintro E hE i ⟨l, hl⟩
    obtain ⟨i', l', hl', h⟩ := key E hE
    rw [hl', Option.some.injEq, List.cons.injEq] at hl
    have : i' = i := (List.nodup_iff_injective_get.mp hnodup) hl.1
    exact this ▸ h

/-- C76: with less data than the size of the mini-batch, the step raises an error. -/
theorem C76_small (gumbel : ℕ → ℝ) (b : ℕ) (data : List (X × ℂ)) (hb : data.length < b) :
    miniBatch gumbel b (data.map Prod.fst, data.map Prod.snd) = none := by
  simp [miniBatch, choice, hb]

/-- C76: the normalisation of the amplitudes has no influence on which configurations are drawn. -/
theorem C76_scale (gumbel : ℕ → ℝ) (b : ℕ) (data : List (X × ℂ)) (c : ℂ) (hc : c ≠ 0) :
    (miniBatch gumbel b (data.map Prod.fst, data.map fun a => c * a.2)) =
      (miniBatch gumbel b (data.map Prod.fst, data.map Prod.snd)).map (List.map fun a => (a.1, c * a.2)) := by
  have hg : ∀ i, (data.map fun a => c * a.2).getD i 0 = c * (data.map Prod.snd).getD i 0 := by
    intro i
    simp only [List.getD_eq_getElem?_getD, List.getElem?_map]
    cases data[i]? <;> simp
  have hkey : ∀ i j, (sortKey gumbel (fun i => ‖(data.map fun a => c * a.2).getD i 0‖ ^ 2) i
      ≤ sortKey gumbel (fun i => ‖(data.map fun a => c * a.2).getD i 0‖ ^ 2) j) =
      (sortKey gumbel (fun i => ‖(data.map Prod.snd).getD i 0‖ ^ 2) i
      ≤ sortKey gumbel (fun i => ‖(data.map Prod.snd).getD i 0‖ ^ 2) j) := by
    intro i j
    have hc2 : ‖c‖ ^ 2 ≠ 0 := by simpa using hc
    simp only [sortKey, hg, norm_mul, mul_pow, mul_eq_zero, hc2, false_or]
    split
    · split
      · rfl
      · simp only [top_le_iff, WithTop.coe_ne_top]
    · split
      · simp only [le_top]
      · rename_i h1 h2
        rw [Real.log_mul hc2 h1, Real.log_mul hc2 h2, WithTop.coe_le_coe, WithTop.coe_le_coe]
        apply propext
        constructor <;> intro h <;> linarith
  simp only [miniBatch, choice]
  split
  · simp
  · simp only [Option.map_some, List.map_map, Option.some.injEq, hkey]
    apply List.map_congr_left
    intro i _
    simp only [Function.comp, hg]
end

/-- C76: whatever happened before, the mini-batches drawn after a reset are those drawn after the construction. -/
theorem C76_reset {Key : Type} (split : Key → Key × Key) (initial : Key) (before : List Event) (n : ℕ) :
    keysUsed split initial initial (before ++ Event.reset :: List.replicate n Event.step) =
      keysUsed split initial initial before ++ keysUsed split initial initial (List.replicate n Event.step) := by
  suffices h : ∀ k, keysUsed split initial k (before ++ Event.reset :: List.replicate n Event.step) =
      keysUsed split initial k before ++ keysUsed split initial initial (List.replicate n Event.step) from h _
  induction before with
  | nil => intro k; simp [keysUsed, advance]
  | cons e es ih => intro k; simp [keysUsed, ih]

/-- Each step draws one mini-batch. -/
theorem C76_steps {Key : Type} (split : Key → Key × Key) (initial k : Key) (n : ℕ) :
    keysUsed split initial k (List.replicate n Event.step) = (List.range n).map fun i => (fun k => (split k).1)^[i + 1] k := by
  induction n generalizing k with
  | zero => rfl
  | succ n ih =>
    rw [List.replicate_succ, keysUsed, ih, List.range_succ_eq_map, List.map_cons, List.map_map]
    rfl

example : keysUsed (fun k : ℕ => (k + 1, k)) 0 0 [.step, .step, .reset, .step, .step] = [1, 2, 1, 2] := by decide

/-! ## C77: the gradient -/

variable {P X : Type} [Fintype P] [DecidableEq P]

/-- `g` is the gradient of the real function `f` of the complex parameters: the rate of change in the direction `v` is `Re ⟨g, v⟩`. -/
def IsGradient (f : (P → ℂ) → ℝ) (θ g : P → ℂ) : Prop :=
  ∀ v : P → ℂ, HasDerivAt (fun t : ℝ => f (θ + (t : ℂ) • v)) (∑ k, (starRingEnd ℂ) (g k) * v k).re 0

theorem isGradient_conj_jaxGrad (f : (P → ℂ) → ℝ) (θ : P → ℂ) (hf : DifferentiableAt ℝ f θ) :
    IsGradient f θ fun k => (starRingEnd ℂ) (jaxGrad f θ k) := by
  intro v
  have hline : HasDerivAt (fun t : ℝ => θ + (t : ℂ) • v) v 0 := by
    have h : HasDerivAt (fun t : ℝ => θ + t • v) v 0 := by
      simpa using ((hasDerivAt_id (0 : ℝ)).smul_const v).const_add θ
    exact h
  have h := HasFDerivAt.comp_hasDerivAt (x := (0 : ℝ)) (f := fun t : ℝ => θ + (t : ℂ) • v) (l := f) (l' := fderiv ℝ f θ)
    (by simpa using hf.hasFDerivAt) hline
  refine h.congr_deriv ?_
  have hv : v = ∑ k, ((v k).re • (Pi.single k 1 : P → ℂ) + (v k).im • (Pi.single k Complex.I : P → ℂ)) := by
    funext j
    rw [Finset.sum_apply, Finset.sum_eq_single j]
    · simp [Complex.re_add_im]
    · intro k _ hk
      simp [Ne.symm hk]
    · simp
  conv_lhs => rw [hv]
  rw [map_sum, Complex.re_sum]
  apply Finset.sum_congr rfl
  intro k _
  rw [map_add, map_smul, map_smul, Complex.conj_conj, jaxGrad]
  simp
  ring

theorem loss_differentiable (logpsi : (P → ℂ) → X → ℂ) (batch : List (X × ℂ)) (θ : P → ℂ)
    (h : ∀ a ∈ batch, DifferentiableAt ℝ (fun θ => logpsi θ a.1) θ) : DifferentiableAt ℝ (loss logpsi batch) θ := by
  unfold loss
  simp only [div_eq_mul_inv]
  refine DifferentiableAt.mul_const ?_ _
  induction batch with
  | nil => simp
  | cons a batch ih =>
    simp only [List.map_cons, List.sum_cons]
    refine DifferentiableAt.add ?_ (ih fun c hc => h c (List.mem_cons_of_mem _ hc))
    have h1 : DifferentiableAt ℝ (fun θ => Complex.exp (logpsi θ a.1) - a.2) θ :=
      ((h a List.mem_cons_self).cexp).sub_const _
    exact h1.norm_sq ℝ

omit [DecidableEq P] in
theorem isGradient_sum (fs : List ((P → ℂ) → ℝ)) (gs : ((P → ℂ) → ℝ) → P → ℂ) (θ : P → ℂ)
    (h : ∀ f ∈ fs, IsGradient f θ (gs f)) :
    IsGradient (fun θ => (fs.map fun f => f θ).sum) θ fun k => (fs.map fun f => gs f k).sum := by
  intro v
  induction fs with
  | nil => simpa using hasDerivAt_const (0 : ℝ) (0 : ℝ)
  | cons f fs ih =>
    simp only [List.map_cons, List.sum_cons]
    refine ((h f List.mem_cons_self v).add (ih fun g hg => h g (List.mem_cons_of_mem _ hg))).congr_deriv ?_
    rw [← Complex.add_re, ← Finset.sum_add_distrib]
    congr 1
    apply Finset.sum_congr rfl
    intro k _
    rw [map_add]
    ring

/-- C77: the loss reported is the mean squared error over the mini-batches of all processes. -/
theorem C77_loss (logpsi : (P → ℂ) → X → ℂ) (batches : List (List (X × ℂ))) (size : ℕ) (hs : ∀ b ∈ batches, b.length = size) (θ : P → ℂ) :
    (lossAndGrad logpsi batches θ).1
      = (batches.flatten.map fun a => ‖Complex.exp (logpsi θ a.1) - a.2‖ ^ 2).sum / batches.flatten.length := by
  have h1 : batches.flatten.length = batches.length * size := by
    rw [List.length_flatten, List.map_congr_left hs]
    simp
  have h2 : (batches.map fun b => loss logpsi b θ).sum
      = (batches.flatten.map fun a => ‖Complex.exp (logpsi θ a.1) - a.2‖ ^ 2).sum / size := by
    clear h1
    induction batches with
    | nil => simp
    | cons b bs ih =>
      rw [List.map_cons, List.sum_cons, ih fun b hb => hs b (List.mem_cons_of_mem _ hb), List.flatten_cons, List.map_append,
        List.sum_append, add_div, loss, hs b List.mem_cons_self]
  simp only [lossAndGrad]
  rw [h1, h2, div_div, Nat.cast_mul, mul_comm (size : ℝ)]

/-- C77, for any number of processes: the vector handed to the optimiser is the gradient of the *sum* of the losses of the processes,
which is the number of processes times the loss reported. -/
theorem C77_sum (logpsi : (P → ℂ) → X → ℂ) (batches : List (List (X × ℂ))) (hn : batches ≠ []) (θ : P → ℂ)
    (h : ∀ b ∈ batches, ∀ a ∈ b, DifferentiableAt ℝ (fun θ => logpsi θ a.1) θ) :
    IsGradient (fun θ => batches.length * (lossAndGrad logpsi batches θ).1) θ (lossAndGrad logpsi batches θ).2 := by
  have h1 := isGradient_sum (batches.map fun b => loss logpsi b) (fun f k => (starRingEnd ℂ) (jaxGrad f θ k)) θ (by
    intro f hf
    obtain ⟨b, hb, rfl⟩ := List.mem_map.mp hf
    exact isGradient_conj_jaxGrad _ _ (loss_differentiable _ _ _ (h b hb)))
  have hne : (batches.length : ℝ) ≠ 0 := by simpa using hn
  have e1 : (fun θ => (batches.length : ℝ) * (lossAndGrad logpsi batches θ).1)
      = fun θ => ((batches.map fun b => loss logpsi b).map fun f => f θ).sum := by
    funext θ
    simp only [lossAndGrad, List.map_map]
    rw [mul_div_cancel₀ _ hne]
    rfl
  have e2 : (lossAndGrad logpsi batches θ).2
      = fun k => ((batches.map fun b => loss logpsi b).map fun f => (starRingEnd ℂ) (jaxGrad f θ k)).sum := by
    funext k
    simp only [lossAndGrad, List.map_map]
    rw [map_list_sum, List.map_map]
    rfl
  rw [e1, e2]
  exact h1

/-- C77, on one process: the vector handed to the optimiser is the gradient of the loss reported. -/
theorem C77_partial (logpsi : (P → ℂ) → X → ℂ) (batch : List (X × ℂ)) (θ : P → ℂ)
    (h : ∀ a ∈ batch, DifferentiableAt ℝ (fun θ => logpsi θ a.1) θ) :
    IsGradient (fun θ => (lossAndGrad logpsi [batch] θ).1) θ (lossAndGrad logpsi [batch] θ).2 := by
  simpa using C77_sum logpsi [batch] (by simp) θ (by simpa using h)

/-- C77 fails on several processes: unless the gradient vanishes, the vector handed to the optimiser is not the gradient of the loss
reported. -/
theorem C77_fails (logpsi : (P → ℂ) → X → ℂ) (batches : List (List (X × ℂ))) (hn : 1 < batches.length) (θ : P → ℂ)
    (h : ∀ b ∈ batches, ∀ a ∈ b, DifferentiableAt ℝ (fun θ => logpsi θ a.1) θ) (h0 : (lossAndGrad logpsi batches θ).2 ≠ 0) :
    ¬ IsGradient (fun θ => (lossAndGrad logpsi batches θ).1) θ (lossAndGrad logpsi batches θ).2 := by
  intro hg
  apply h0
  set g := (lossAndGrad logpsi batches θ).2 with hgdef
  have h1 := C77_sum logpsi batches (by rintro rfl; simp at hn) θ h g
  have h2 := (hg g).const_mul (batches.length : ℝ)
  have h3 := h1.unique h2
  have hne : (1 : ℝ) < batches.length := by exact_mod_cast hn
  have h4 : (∑ k, (starRingEnd ℂ) (g k) * g k).re = 0 := by
    by_contra hx
    have : (batches.length : ℝ) = 1 := by
      have := mul_right_cancel₀ hx (show (batches.length : ℝ) * _ = 1 * _ by rw [one_mul]; exact h3.symm)
      exact this
    linarith
  have h5 : (∑ k, ‖g k‖ ^ 2) = 0 := by
    rw [← h4, Complex.re_sum]
    apply Finset.sum_congr rfl
    intro k _
    rw [← Complex.normSq_eq_conj_mul_self, Complex.ofReal_re, Complex.normSq_eq_norm_sq]
  funext k
  have := (Finset.sum_eq_zero_iff_of_nonneg (fun k _ => sq_nonneg ‖g k‖)).mp h5 k (Finset.mem_univ _)
  simpa using this

/-- Two processes, one parameter `θ`, the model `log ψ = θ` and data with amplitude 0: the gradient does not vanish. -/
example : (∀ b ∈ [[((), (0 : ℂ))], [((), 0)]], ∀ a ∈ b, DifferentiableAt ℝ (fun θ : Fin 1 → ℂ => (fun (θ : Fin 1 → ℂ) (_ : Unit) => θ 0) θ a.1) 0) ∧
    (lossAndGrad (fun (θ : Fin 1 → ℂ) (_ : Unit) => θ 0) [[((), 0)], [((), 0)]] 0).2 ≠ 0 := by
  have hd : ∀ b ∈ [[((), (0 : ℂ))], [((), 0)]], ∀ a ∈ b,
      DifferentiableAt ℝ (fun θ : Fin 1 → ℂ => (fun (θ : Fin 1 → ℂ) (_ : Unit) => θ 0) θ a.1) 0 := by
    intro b _ a _
    exact differentiableAt_apply 0 _
  refine ⟨hd, fun h0 => ?_⟩
  have h1 := C77_sum (fun (θ : Fin 1 → ℂ) (_ : Unit) => θ 0) [[((), 0)], [((), 0)]] (by simp) 0 hd (fun _ => 1)
  rw [h0] at h1
  have h2 : (fun t : ℝ => (([[((), (0 : ℂ))], [((), 0)]].length : ℕ) : ℝ) *
      (lossAndGrad (fun (θ : Fin 1 → ℂ) (_ : Unit) => θ 0) [[((), 0)], [((), 0)]] (0 + (t : ℂ) • fun _ => 1)).1)
      = fun t : ℝ => 2 * Real.exp t ^ 2 := by
    funext t
    simp [lossAndGrad, loss, Complex.norm_exp]
  rw [h2] at h1
  have h3 : HasDerivAt (fun t : ℝ => 2 * Real.exp t ^ 2) 4 0 := by
    refine (((Real.hasDerivAt_exp 0).pow 2).const_mul 2).congr_deriv ?_
    simp
    norm_num
  have := h1.unique h3
  simp at this

end GPSKet.StateFitting
