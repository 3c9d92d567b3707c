import Verif.Lemmas.AutoregGood
import Verif.Props.AutoregFull
import Verif.Spec.Direct
import Verif.Model.QGPS
import Mathlib.Algebra.BigOperators.Ring.Finset
import Mathlib.Data.Fintype.Pi
import Mathlib.Data.Fintype.Sigma
import Mathlib.Data.Fintype.BigOperators
import Mathlib.Logic.Embedding.Set
import Mathlib.Analysis.SpecialFunctions.Complex.Arg

/-! # Which functions the (autoregressive) qGPS models can represent -/

namespace GPSKet.Expressive
open Spec AR

/-! ## Sums over support points that encode configurations -/

/-- A sum over the support points, of which those in the range of an injection `e` are used. -/
theorem sum_partialInv {C : Type} [Fintype C] {M : ℕ} (e : C → Fin M) (he : Function.Injective e) (h : Option C → ℂ) (h0 : h none = 0) :
    ∑ m, h (Function.partialInv e m) = ∑ c, h (some c) := by
  classical
  have h1 : ∑ c, h (some c) = ∑ m ∈ Finset.univ.map ⟨e, he⟩, h (Function.partialInv e m) := by
    rw [Finset.sum_map]
    refine Finset.sum_congr rfl fun c _ => ?_
    rw [Function.Embedding.coeFn_mk, Function.partialInv_left he]
  rw [h1]
  symm
  refine Finset.sum_subset (Finset.subset_univ _) fun m _ hm => ?_
  have : Function.partialInv e m = none := by
    rcases hc : Function.partialInv e m with _ | c
    · rfl
    · exact absurd (Finset.mem_map.mpr ⟨c, Finset.mem_univ c, (Function.partialInv_of_injective he c m).mp hc⟩) hm
  rw [this, h0]

theorem exists_code {C : Type} [Fintype C] {M : ℕ} (h : Fintype.card C ≤ M) : ∃ e : C → Fin M, Function.Injective e := by
  have : Nonempty (C ↪ Fin M) := Function.Embedding.nonempty_of_card_le (by simpa using h)
  exact ⟨this.some, this.some.injective⟩

/-- A product of indicators is the indicator of equality. -/
theorem prod_indicator {n D : ℕ} (x c : Fin n → Fin D) : (∏ j, if x j = c j then (1 : ℂ) else 0) = if c = x then 1 else 0 := by
  by_cases h : c = x
  · subst h
    simp
  · rw [if_neg h]
    obtain ⟨j, hj⟩ := Function.ne_iff.mp h
    exact Finset.prod_eq_zero (Finset.mem_univ j) (if_neg (Ne.symm hj))

/-! ## qGPS -/

section QGPS
open QGPS

variable {n D M : ℕ} {ι : Type} [Fintype ι]

/-- The parameters of a qGPS with the given values. -/
noncomputable def qgpsParams (e : (Fin n → Fin D) → Fin M) (f : (Fin (n + 1) → Fin D) → ℂ) (k : ℂ) (d : Fin D) (m : Fin M) (i : Fin (n + 1)) : ℂ :=
  match Function.partialInv e m with
  | none => 0
  | some c => if h : i.val < n then (if d = c ⟨i.val, h⟩ then 1 else 0) else k * f (Fin.snoc c d)

theorem qgps_represents [Nonempty ι] (hM : D ^ n ≤ M) (syms : Syms (n + 1) D ι) (f : (Fin (n + 1) → Fin D) → ℂ)
    (hf : ∀ x t, f (syms.symmetries x t) = f x) :
    ∃ epsilon : Fin D → Fin M → Fin (n + 1) → ℂ, ∀ x, (model ⟨epsilon, syms, sumOut⟩).full x = f x := by
  obtain ⟨e, he⟩ := exists_code (C := Fin n → Fin D) (M := M) (by simpa using hM)
  refine ⟨qgpsParams e f (1 / Fintype.card ι), fun x => ?_⟩
  have hone : ∀ y : Fin (n + 1) → Fin D, ∑ m, ∏ i, qgpsParams e f (1 / Fintype.card ι) (y i) m i = 1 / Fintype.card ι * f y := by
    intro y
    let h : Option (Fin n → Fin D) → ℂ := fun o => ∏ i : Fin (n + 1), match o with
      | none => 0
      | some c => if h : i.val < n then (if y i = c ⟨i.val, h⟩ then 1 else 0) else 1 / Fintype.card ι * f (Fin.snoc c (y i))
    have h0 : h none = 0 := Finset.prod_eq_zero (Finset.mem_univ 0) rfl
    have key := sum_partialInv e he h h0
    refine (Finset.sum_congr rfl fun m _ => ?_).trans (key.trans ?_)
    · simp only [h]
      refine Finset.prod_congr rfl fun i _ => ?_
      unfold qgpsParams
      rcases Function.partialInv e m with _ | c <;> rfl
    · have hc : ∀ c, h (some c) = if c = (fun j => y (Fin.castSucc j)) then 1 / Fintype.card ι * f y else 0 := by
        intro c
        simp only [h]
        rw [Fin.prod_univ_castSucc]
        have h1 : ∀ i : Fin n, (if h : (Fin.castSucc i).val < n then (if y (Fin.castSucc i) = c ⟨(Fin.castSucc i).val, h⟩ then (1 : ℂ) else 0)
            else 1 / Fintype.card ι * f (Fin.snoc c (y (Fin.castSucc i)))) = if (fun j => y (Fin.castSucc j)) i = c i then 1 else 0 := by
          intro i
          rw [dif_pos (by simp)]
          rfl
        rw [Finset.prod_congr rfl fun i _ => h1 i, prod_indicator, dif_neg (by simp)]
        split_ifs with hcy
        · subst hcy
          rw [one_mul]
          congr 2
          exact Fin.snoc_init_self y
        · rw [zero_mul]
      rw [Finset.sum_congr rfl fun c _ => hc c, Finset.sum_ite_eq' Finset.univ]
      simp
  show ∑ m, ∑ t, ∏ i, qgpsParams e f (1 / Fintype.card ι) (syms.symmetries x t i) m i = f x
  rw [Finset.sum_comm, Finset.sum_congr rfl fun t _ => (hone _).trans (by rw [hf]), Finset.sum_const, Finset.card_univ, nsmul_eq_mul]
  have : (Fintype.card ι : ℂ) ≠ 0 := by exact_mod_cast Fintype.card_ne_zero
  field_simp

end QGPS

/-! ## Autoregressive models: any causal functions -/

section AR

variable {L D M : ℕ}

/-- A configuration with the given first entries. -/
def pad [NeZero D] (k : ℕ) (c : Fin k → Fin D) : Fin L → Fin D := fun j => if h : j.val < k then c ⟨j.val, h⟩ else 0

/-- The number of configurations of `k` sites with the first `i + 1` entries given. -/
def completions (D k i : ℕ) : ℂ := ∏ j : Fin k, if j.val ≤ i then 1 else (D : ℂ)

/-- The parameters of an `ARqGPS` with given conditionals `g`. -/
noncomputable def arParams [NeZero D] (e : (Σ k : Fin L, (Fin k.val → Fin D)) → Fin M) (g : Fin L → (Fin L → Fin D) → Fin D → ℂ)
    (d : Fin D) (m : Fin M) (j : Fin L) : ℂ :=
  match Function.partialInv e m with
  | none => 0
  | some ⟨k, c⟩ => if h : j.val < k.val then (if d = c ⟨j.val, h⟩ then 1 else 0)
    else if j = k then g j (pad k.val c) d - ∑ k' : Fin L, (if j < k' then completions D k'.val j.val else 0) else 0

theorem prod_prefix (k : Fin L) (F : Fin L → ℂ) (hF : ∀ j, k ≤ j → F j = 1) : ∏ j, F j = ∏ j : Fin k.val, F (Fin.castLE k.isLt.le j) := by
  have h := Finset.prod_map Finset.univ (Fin.castLEEmb k.isLt.le) F
  refine Eq.trans ?_ h
  symm
  refine Finset.prod_subset (Finset.subset_univ _) fun j _ hj => hF j ?_
  by_contra hjk
  refine hj (Finset.mem_map.mpr ⟨⟨j.val, not_le.mp hjk⟩, Finset.mem_univ _, ?_⟩)
  ext
  simp

/-- What the support point `⟨k, c⟩` contributes at site `i`. -/
theorem contribution [NeZero D] (g : Fin L → (Fin L → Fin D) → Fin D → ℂ) (hg : Causal g) (i : Fin L) (x : Fin L → Fin D) (d : Fin D) (k : Fin L) :
    (∑ c : Fin k.val → Fin D, (if h : i.val < k.val then (if d = c ⟨i.val, h⟩ then (1 : ℂ) else 0)
      else if i = k then g i (pad k.val c) d - ∑ k' : Fin L, (if i < k' then completions D k'.val i.val else 0) else 0) *
      ∏ j : Fin L, if j.val < i.val then (if h : j.val < k.val then (if x j = c ⟨j.val, h⟩ then 1 else 0)
      else if j = k then g j (pad k.val c) (x j) - ∑ k' : Fin L, (if j < k' then completions D k'.val j.val else 0) else 0) else 1) =
    if i = k then g i x d - ∑ k' : Fin L, (if i < k' then completions D k'.val i.val else 0) else if i < k then completions D k.val i.val else 0 := by
  rcases lt_trichotomy i k with hik | rfl | hki
  · rw [if_neg hik.ne, if_pos hik]
    have hik' : i.val < k.val := hik
    -- a product over the sites before `k`
    have hterm : ∀ c : Fin k.val → Fin D, (if h : i.val < k.val then (if d = c ⟨i.val, h⟩ then (1 : ℂ) else 0)
      else if i = k then g i (pad k.val c) d - ∑ k' : Fin L, (if i < k' then completions D k'.val i.val else 0) else 0) *
      (∏ j : Fin L, if j.val < i.val then (if h : j.val < k.val then (if x j = c ⟨j.val, h⟩ then 1 else 0)
      else if j = k then g j (pad k.val c) (x j) - ∑ k' : Fin L, (if j < k' then completions D k'.val j.val else 0) else 0) else 1) =
      ∏ j : Fin k.val, if j.val < i.val then (if x (Fin.castLE k.isLt.le j) = c j then (1 : ℂ) else 0) else if j.val = i.val then (if d = c j then 1 else 0) else 1 := by
      intro c
      rw [dif_pos hik']
      have hp : (∏ j : Fin L, if j.val < i.val then (if h : j.val < k.val then (if x j = c ⟨j.val, h⟩ then (1 : ℂ) else 0)
        else if j = k then g j (pad k.val c) (x j) - ∑ k' : Fin L, (if j < k' then completions D k'.val j.val else 0) else 0) else 1) =
        ∏ j : Fin k.val, if j.val < i.val then (if x (Fin.castLE k.isLt.le j) = c j then (1 : ℂ) else 0) else 1 := by
        rw [prod_prefix k _ fun j hj => if_neg (by have : k.val ≤ j.val := hj; omega)]
        refine Finset.prod_congr rfl fun j _ => ?_
        simp only [Fin.val_castLE]
        rw [dif_pos j.isLt]
      rw [hp, ← Finset.mul_prod_erase Finset.univ _ (Finset.mem_univ (⟨i.val, hik'⟩ : Fin k.val)),
        ← Finset.mul_prod_erase Finset.univ (fun j : Fin k.val => if j.val < i.val then (if x (Fin.castLE k.isLt.le j) = c j then (1 : ℂ) else 0)
          else if j.val = i.val then (if d = c j then 1 else 0) else 1) (Finset.mem_univ (⟨i.val, hik'⟩ : Fin k.val))]
      simp only [lt_irrefl, if_false, if_true, one_mul]
      congr 1
      refine Finset.prod_congr rfl fun j hj => ?_
      have : j.val ≠ i.val := fun h => Finset.ne_of_mem_erase hj (Fin.ext h)
      rw [if_neg this]
    rw [Finset.sum_congr rfl fun c _ => hterm c]
    have := Finset.prod_univ_sum (fun _ : Fin k.val => (Finset.univ : Finset (Fin D)))
      (fun (j : Fin k.val) (v : Fin D) => if j.val < i.val then (if x (Fin.castLE k.isLt.le j) = v then (1 : ℂ) else 0) else if j.val = i.val then (if d = v then 1 else 0) else 1)
    rw [Fintype.piFinset_univ] at this
    rw [← this]
    unfold completions
    refine Finset.prod_congr rfl fun j _ => ?_
    by_cases h1 : j.val < i.val
    · simp [h1, h1.le]
    · by_cases h2 : j.val = i.val
      · simp [h2]
      · simp [h1, h2, show ¬ j.val ≤ i.val by omega]
  · rw [if_pos rfl]
    have hterm : ∀ c : Fin i.val → Fin D, (if h : i.val < i.val then (if d = c ⟨i.val, h⟩ then (1 : ℂ) else 0)
      else if i = i then g i (pad i.val c) d - ∑ k' : Fin L, (if i < k' then completions D k'.val i.val else 0) else 0) *
      (∏ j : Fin L, if j.val < i.val then (if h : j.val < i.val then (if x j = c ⟨j.val, h⟩ then 1 else 0)
      else if j = i then g j (pad i.val c) (x j) - ∑ k' : Fin L, (if j < k' then completions D k'.val j.val else 0) else 0) else 1) =
      if c = (fun j => x (Fin.castLE i.isLt.le j)) then g i x d - ∑ k' : Fin L, (if i < k' then completions D k'.val i.val else 0) else 0 := by
      intro c
      rw [dif_neg (lt_irrefl _), if_pos rfl]
      by_cases hc : c = fun j => x (Fin.castLE i.isLt.le j)
      · rw [if_pos hc]
        have hx : g i (pad i.val c) = g i x := by
          refine hg i _ _ fun j hj => ?_
          unfold pad
          rw [dif_pos (show j.val < i.val from hj), hc]
          rfl
        rw [hx, Finset.prod_eq_one, mul_one]
        intro j _
        by_cases hj : j.val < i.val
        · rw [if_pos hj, dif_pos hj, if_pos]
          rw [hc]
          rfl
        · rw [if_neg hj]
      · rw [if_neg hc]
        obtain ⟨j, hj⟩ := Function.ne_iff.mp hc
        rw [Finset.prod_eq_zero (Finset.mem_univ (Fin.castLE i.isLt.le j)), mul_zero]
        simp only [Fin.val_castLE]
        rw [if_pos j.isLt, dif_pos j.isLt, if_neg (Ne.symm hj)]
    rw [Finset.sum_congr rfl fun c _ => hterm c, Finset.sum_ite_eq' Finset.univ]
    simp
  · rw [if_neg (ne_of_gt hki), if_neg (not_lt.mpr hki.le)]
    refine Finset.sum_eq_zero fun c _ => ?_
    rw [dif_neg (show ¬ i.val < k.val from not_lt.mpr (le_of_lt hki)), if_neg (ne_of_gt hki), zero_mul]

theorem ar_represents [NeZero D] (hM : ∑ k : Fin L, D ^ k.val ≤ M) (f : Fields D M) (ho : f.out_transformation = AR.sumOut)
    (g : Fin L → (Fin L → Fin D) → Fin D → ℂ) (hg : Causal g) : ∃ epsilon : Fin D → Fin M → Fin L → ℂ, qgpsVal f epsilon = g := by
  obtain ⟨e, he⟩ := exists_code (C := Σ k : Fin L, (Fin k.val → Fin D)) (M := M) (by simpa [Fintype.card_sigma] using hM)
  refine ⟨arParams e g, ?_⟩
  funext i x d
  unfold qgpsVal
  rw [ho]
  show ∑ m, arParams e g d m i * ctx (arParams e g) x i m = _
  let q : Option (Σ k : Fin L, (Fin k.val → Fin D)) → Fin D → Fin L → ℂ := fun o d j => match o with
    | none => 0
    | some ⟨k, c⟩ => if h : j.val < k.val then (if d = c ⟨j.val, h⟩ then 1 else 0)
      else if j = k then g j (pad k.val c) d - ∑ k' : Fin L, (if j < k' then completions D k'.val j.val else 0) else 0
  have hq : ∀ d m j, arParams e g d m j = q (Function.partialInv e m) d j := fun d m j => rfl
  have key := sum_partialInv e he (fun o => q o d i * ∏ j : Fin L, if j.val < i.val then q o (x j) j else 1) (by simp [q])
  refine (Finset.sum_congr rfl fun m _ => ?_).trans (key.trans ?_)
  · unfold ctx
    simp only [hq]
  · rw [Fintype.sum_sigma]
    rw [Finset.sum_congr rfl fun k _ => contribution g hg i x d k]
    rw [← Finset.add_sum_erase Finset.univ _ (Finset.mem_univ i), if_pos rfl,
      ← Finset.add_sum_erase Finset.univ (fun k' => if i < k' then completions D k'.val i.val else 0) (Finset.mem_univ i), if_neg (lt_irrefl i), zero_add]
    rw [Finset.sum_congr rfl fun k hk => if_neg (Finset.ne_of_mem_erase hk).symm]
    ring

/-- The entries `i, j` of the packed array of parameters, for the support point that encodes `c`. -/
noncomputable def fullEntry {n : ℕ} [NeZero D] (g : Fin (n + 1) → (Fin (n + 1) → Fin D) → Fin D → ℂ) (c : Fin n → Fin D) (d : Fin D) (i j : ℕ) : ℂ :=
  if j < i then (if h : j < n then (if d = c ⟨j, h⟩ then 1 else 0) else 0)
  else if h : i < n + 1 then (if ∀ k : Fin n, i ≤ k.val → c k = 0 then g ⟨i, h⟩ (pad n c) d else 0) else 0

open Classical in
/-- The position of an entry. -/
noncomputable def unpack (L k : ℕ) : ℕ × ℕ :=
  if h : ∃ ij : ℕ × ℕ, ij.1 < L ∧ ij.2 ≤ ij.1 ∧ ARFull.lowerIndex ij.1 + ij.2 = k then h.choose else (0, 0)

theorem unpack_eq {L i j : ℕ} (hi : i < L) (hj : j ≤ i) : unpack L (ARFull.lowerIndex i + j) = (i, j) := by
  have hlay := Props.C37_triangular_layout L
  have hlt := hlay.2.1 i hi j hj
  obtain ⟨w, _, hu⟩ := hlay.1 _ hlt
  have hex : ∃ ij : ℕ × ℕ, ij.1 < L ∧ ij.2 ≤ ij.1 ∧ ARFull.lowerIndex ij.1 + ij.2 = ARFull.lowerIndex i + j := ⟨(i, j), hi, hj, rfl⟩
  unfold unpack
  rw [dif_pos hex, hu _ hex.choose_spec, ← hu (i, j) ⟨hi, hj, rfl⟩]

/-- The parameters of an `ARqGPSFull` with given conditionals `g`. -/
noncomputable def fullParams {n : ℕ} [NeZero D] (e : (Fin n → Fin D) → Fin M) (g : Fin (n + 1) → (Fin (n + 1) → Fin D) → Fin D → ℂ)
    (d : Fin D) (m : Fin M) (k : ℕ) : ℂ :=
  match Function.partialInv e m with
  | none => 0
  | some c => fullEntry g c d (unpack (n + 1) k).1 (unpack (n + 1) k).2

theorem read_eq {L i j : ℕ} (hi : i < L) (hj : j ≤ i) (epsilon : Fin D → Fin M → ℕ → ℂ) (d : Fin D) (m : Fin M) :
    ARFull.readPacked epsilon L d m (ARFull.lowerIndex i + j) = epsilon d m (ARFull.lowerIndex i + j) := by
  have := (Props.C37_triangular_layout L).2.1 i hi j hj
  unfold ARFull.readPacked
  rw [min_eq_left (by omega)]

theorem full_represents {n : ℕ} [NeZero D] (hM : D ^ n ≤ M) (f : Fields D M) (ho : f.out_transformation = AR.sumOut)
    (g : Fin (n + 1) → (Fin (n + 1) → Fin D) → Fin D → ℂ) (hg : Causal g) :
    ∃ epsilon : Fin D → Fin M → ℕ → ℂ, ARFull.fullVal f epsilon = g := by
  obtain ⟨e, he⟩ := exists_code (C := Fin n → Fin D) (M := M) (by simpa using hM)
  refine ⟨fullParams e g, ?_⟩
  funext i x d
  unfold ARFull.fullVal
  rw [ho]
  show ∑ m, ARFull.readPacked (fullParams e g) (n + 1) d m (ARFull.lowerIndex i + i.val) * ARFull.contextProd (fullParams e g) x i m = _
  let q : Option (Fin n → Fin D) → Fin D → ℕ → ℕ → ℂ := fun o d i j => match o with
    | none => 0
    | some c => fullEntry g c d i j
  have hq : ∀ d m (j : ℕ), j ≤ i.val → ARFull.readPacked (fullParams e g) (n + 1) d m (ARFull.lowerIndex i + j) = q (Function.partialInv e m) d i.val j := by
    intro d m j hj
    rw [read_eq i.isLt hj]
    unfold fullParams
    rw [unpack_eq i.isLt hj]
  have key := sum_partialInv e he (fun o => q o d i.val i.val * ∏ j : Fin (n + 1), if j.val ≥ i.val then 1 else q o (x j) i.val j.val) (by simp [q])
  refine (Finset.sum_congr rfl fun m _ => ?_).trans (key.trans ?_)
  · rw [hq d m i.val le_rfl]
    congr 1
    unfold ARFull.contextProd
    refine Finset.prod_congr rfl fun j _ => ?_
    by_cases hj : j.val ≥ i.val
    · rw [if_pos hj, if_pos hj]
    · rw [if_neg hj, if_neg hj, Props.sliceStart_eq i.isLt, hq (x j) m j.val (by omega)]
  · rw [Finset.sum_eq_single (fun k : Fin n => if k.val < i.val then x (Fin.castSucc k) else 0)]
    · simp only [q, fullEntry]
      rw [if_neg (lt_irrefl _), dif_pos i.isLt, if_pos (fun k hk => if_neg (by omega)), Finset.prod_eq_one, mul_one]
      · refine congrFun (hg i _ _ fun j hj => ?_) d
        have hj' : j.val < i.val := hj
        have hjn : j.val < n := by have := i.isLt; omega
        unfold pad
        rw [dif_pos hjn]
        exact if_pos hj'
      · intro j _
        by_cases hj : j.val ≥ i.val
        · rw [if_pos hj]
        · have hjn : j.val < n := by have := i.isLt; omega
          rw [if_neg hj, if_pos (by omega), dif_pos hjn]
          exact if_pos (if_pos (show j.val < i.val by omega)).symm
    · intro c _ hc
      obtain ⟨k, hk⟩ := Function.ne_iff.mp hc
      simp only [q, fullEntry]
      rw [if_neg (lt_irrefl _), dif_pos i.isLt]
      by_cases hki : k.val < i.val
      · rw [Finset.prod_eq_zero (Finset.mem_univ (Fin.castSucc k)), mul_zero]
        rw [if_pos hki] at hk
        simp only [Fin.val_castSucc]
        rw [if_neg (by omega), if_pos hki, dif_pos k.isLt, if_neg (Ne.symm hk)]
      · rw [if_neg hki] at hk
        rw [if_neg (fun h => hk (h k (by omega))), zero_mul]
    · intro h
      exact absurd (Finset.mem_univ _) h

end AR

end GPSKet.Expressive
