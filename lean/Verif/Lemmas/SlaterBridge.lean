import Verif.Lemmas.Slater
import Verif.Lemmas.Updates
import Verif.Props.Electrons

/-! # Lemmas for the Slater determinant model: arrays of sites and electrons -/

namespace GPSKet.Slater
open Spec Electrons GPSKet.Props

variable {L nu nd : ℕ}

/-- The electron numbers of a configuration are those of the Hilbert space. -/
def HasElec (nu nd : ℕ) (x : Cfg L) : Prop := numElec false x = nu ∧ numElec true x = nd

theorem pyIdx_nat (n i : ℕ) (h : i < n) : pyIdx n (i : ℤ) = some ⟨i, h⟩ := by
  unfold pyIdx
  rw [dif_pos ⟨by omega, by omega⟩]
  simp

theorem pyIdx_fin {n : ℕ} (i : Fin n) : pyIdx n (i.val : ℤ) = some i := pyIdx_nat n i i.isLt

theorem get_fin {n : ℕ} {α : Type} [Zero α] (a : Fin n → α) (i : Fin n) : get a (i.val : ℤ) = a i := by
  simp [get, pyIdx_fin]

theorem electrons_eq {x : Cfg L} (h : HasElec nu nd x) : occupanciesToElectrons [x] nu nd 0 = siteList false x ++ siteList true x := by
  unfold occupanciesToElectrons
  dsimp only
  have h1 := row_eq false nu [x] (by simpa using h.1) 0 (by simp)
  have h2 := row_eq true nd [x] (by simpa using h.2) 0 (by simp)
  simp only [List.getElem_cons_zero] at h1 h2
  rw [h1, h2]

theorem electrons_up {x : Cfg L} (h : HasElec nu nd x) (i : ℕ) (hi : i < nu) :
    ∃ hl : i < (siteList false x).length, electrons nu nd x i = ((siteList false x)[i] : ℤ) := by
  have hl : i < (siteList false x).length := by rw [siteList_length, h.1]; exact hi
  refine ⟨hl, ?_⟩
  unfold electrons
  rw [electrons_eq h, List.getD_append _ _ _ _ hl, List.getD_eq_getElem _ _ hl]

theorem electrons_down {x : Cfg L} (h : HasElec nu nd x) (i : ℕ) (hi : i < nd) :
    ∃ hl : i < (siteList true x).length, electrons nu nd x (nu + i) = ((siteList true x)[i] : ℤ) := by
  have hl : i < (siteList true x).length := by rw [siteList_length, h.2]; exact hi
  refine ⟨hl, ?_⟩
  unfold electrons
  have h1 : (siteList false x).length = nu := by rw [siteList_length, h.1]
  rw [electrons_eq h, List.getD_append_right _ _ _ _ (by omega), h1, Nat.add_sub_cancel_left, List.getD_eq_getElem _ _ hl]

theorem siteList_lt (s : Bool) (x : Cfg L) (i : ℕ) (h : i < (siteList s x).length) : (siteList s x)[i] < L := by
  obtain ⟨hl, _⟩ := ((siteList_spec s x).2 _).mp (List.getElem_mem h)
  exact hl

theorem siteList_strict (s : Bool) (x : Cfg L) (i j : ℕ) (hij : i < j) (h : j < (siteList s x).length) :
    (siteList s x)[i] < (siteList s x)[j] :=
  List.pairwise_iff_getElem.mp (siteList_spec s x).1 i j (by omega) h hij

/-- The electron positions as a function on the electrons. -/
def posF (nu nd : ℕ) (x : Cfg L) (n : Fin (nu + nd)) : ℤ := elPositions nu nd x n

theorem posF_up {x : Cfg L} (h : HasElec nu nd x) (i : Fin nu) :
    ∃ hl : i.val < (siteList false x).length, posF nu nd x (Fin.castAdd nd i) = ((siteList false x)[i.val] : ℤ) := by
  obtain ⟨hl, he⟩ := electrons_up h i i.isLt
  refine ⟨hl, ?_⟩
  unfold posF elPositions
  rw [Fin.val_castAdd, he, if_neg (not_le.mpr i.isLt), add_zero]

theorem posF_down {x : Cfg L} (h : HasElec nu nd x) (i : Fin nd) :
    ∃ hl : i.val < (siteList true x).length, posF nu nd x (Fin.natAdd nu i) = ((siteList true x)[i.val] : ℤ) + L := by
  obtain ⟨hl, he⟩ := electrons_down h i i.isLt
  refine ⟨hl, ?_⟩
  unfold posF elPositions
  rw [Fin.val_natAdd, he, if_pos (Nat.le_add_right _ _)]

theorem posF_strictMono {x : Cfg L} (h : HasElec nu nd x) : StrictMono (posF nu nd x) := by
  intro a b hab
  induction a using Fin.addCases with
  | left a =>
    obtain ⟨ha, ea⟩ := posF_up h a
    induction b using Fin.addCases with
    | left b =>
      obtain ⟨hb, eb⟩ := posF_up h b
      rw [ea, eb]
      exact_mod_cast siteList_strict false x a b (show a.val < b.val from hab) hb
    | right b =>
      obtain ⟨hb, eb⟩ := posF_down h b
      rw [ea, eb]
      have := siteList_lt false x a ha
      omega
  | right a =>
    obtain ⟨ha, ea⟩ := posF_down h a
    induction b using Fin.addCases with
    | left b =>
      have hab' := Fin.lt_def.mp hab
      rw [Fin.val_natAdd, Fin.val_castAdd] at hab'
      have := b.isLt
      omega
    | right b =>
      obtain ⟨hb, eb⟩ := posF_down h b
      rw [ea, eb]
      have hab' := Fin.lt_def.mp hab
      rw [Fin.val_natAdd, Fin.val_natAdd] at hab'
      have := siteList_strict true x a b (by omega) hb
      omega

theorem bits_castAdd (x : Cfg L) (i : Fin L) : bits x (Fin.castAdd L i) = if hasSpin false (x i) then 1 else 0 := by
  simp [bits, bit_eq]

theorem bits_natAdd (x : Cfg L) (i : Fin L) : bits x (Fin.natAdd L i) = if hasSpin true (x i) then 1 else 0 := by
  unfold bits
  rw [Fin.addCases_right, bit_eq]

theorem bits_zero_or_one (x : Cfg L) (s : Fin (L + L)) : bits x s = 0 ∨ bits x s = 1 := by
  induction s using Fin.addCases with
  | left i => rw [bits_castAdd]; split <;> simp
  | right i => rw [bits_natAdd]; split <;> simp

/-- The electrons sit exactly at the occupied spin-orbitals. -/
theorem posF_range {x : Cfg L} (h : HasElec nu nd x) (z : ℤ) :
    (∃ n, posF nu nd x n = z) ↔ ∃ s : Fin (L + L), (s.val : ℤ) = z ∧ bits x s = 1 := by
  have hu : (siteList false x).length = nu := by rw [siteList_length, h.1]
  have hd : (siteList true x).length = nd := by rw [siteList_length, h.2]
  constructor
  · rintro ⟨n, rfl⟩
    induction n using Fin.addCases with
    | left i =>
      obtain ⟨hl, e⟩ := posF_up h i
      obtain ⟨hL, hs⟩ := ((siteList_spec false x).2 _).mp (List.getElem_mem hl)
      refine ⟨Fin.castAdd L ⟨_, hL⟩, ?_, ?_⟩
      · rw [e]; simp
      · rw [bits_castAdd, if_pos hs]
    | right i =>
      obtain ⟨hl, e⟩ := posF_down h i
      obtain ⟨hL, hs⟩ := ((siteList_spec true x).2 _).mp (List.getElem_mem hl)
      refine ⟨Fin.natAdd L ⟨_, hL⟩, ?_, ?_⟩
      · rw [e]; simp
      · rw [bits_natAdd, if_pos hs]
  · rintro ⟨s, rfl, hs⟩
    induction s using Fin.addCases with
    | left i =>
      rw [bits_castAdd] at hs
      have hsp : hasSpin false (x i) = true := by by_contra hc; simp [hc] at hs
      obtain ⟨j, hj, ej⟩ := List.getElem_of_mem (((siteList_spec false x).2 i.val).mpr ⟨i.isLt, hsp⟩)
      obtain ⟨hl, e⟩ := posF_up (nd := nd) h ⟨j, by omega⟩
      exact ⟨_, e.trans (by simp [ej])⟩
    | right i =>
      rw [bits_natAdd] at hs
      have hsp : hasSpin true (x i) = true := by by_contra hc; simp [hc] at hs
      obtain ⟨j, hj, ej⟩ := List.getElem_of_mem (((siteList_spec true x).2 i.val).mpr ⟨i.isLt, hsp⟩)
      obtain ⟨hl, e⟩ := posF_down (nu := nu) h ⟨j, by omega⟩
      exact ⟨_, e.trans (by simp [ej])⟩

theorem sum_bits (x : Cfg L) : ∑ s, bits x s = (numElec false x : ℤ) + numElec true x := by
  rw [Fin.sum_univ_add]
  simp only [bits_castAdd, bits_natAdd]
  unfold numElec
  rw [Finset.card_filter, Finset.card_filter]
  push_cast
  rfl

/-- The cumulative count at a spin-orbital counts the electrons up to it. -/
theorem cumCount_eq {x : Cfg L} (h : HasElec nu nd x) (s : Fin (L + L)) : cumCount x s = cnt (posF nu nd x) s.val := by
  have h1 : cumCount x s = ((Finset.univ.filter fun k : Fin (L + L) => k ≤ s ∧ bits x k = 1).card : ℤ) := by
    unfold cumCount
    rw [← Finset.filter_filter, Finset.card_filter, Nat.cast_sum]
    apply Finset.sum_congr rfl
    intro k _
    rcases bits_zero_or_one x k with hb | hb <;> simp [hb]
  rw [h1]
  unfold cnt
  norm_cast
  symm
  have hch : ∀ n, ∃ s : Fin (L + L), (s.val : ℤ) = posF nu nd x n ∧ bits x s = 1 := fun n => (posF_range h _).mp ⟨n, rfl⟩
  choose g hg1 hg2 using hch
  apply Finset.card_bij (fun n _ => g n)
  · intro n hn
    simp only [Finset.mem_filter, Finset.mem_univ, true_and] at hn ⊢
    refine ⟨?_, hg2 n⟩
    have := hg1 n
    rw [Fin.le_def]; omega
  · intro n _ n' _ he
    apply (posF_strictMono h).injective
    rw [← hg1, ← hg1, he]
  · intro k hk
    simp only [Finset.mem_filter, Finset.mem_univ, true_and] at hk
    obtain ⟨n, hn⟩ := (posF_range h (k.val : ℤ)).mpr ⟨k, rfl, hk.2⟩
    refine ⟨n, ?_, ?_⟩
    · simp only [Finset.mem_filter, Finset.mem_univ, true_and]
      rw [hn]
      have := Fin.le_def.mp hk.1
      omega
    · apply Fin.ext
      have := hg1 n
      omega

/-- The table from sites to electrons. -/
theorem sitesToElectrons_eq {x : Cfg L} (h : HasElec nu nd x) (n : Fin (nu + nd)) :
    get (sitesToElectrons nu nd x) (posF nu nd x n) = (n.val : ℤ) := by
  obtain ⟨s, hs, -⟩ := (posF_range h _).mp ⟨n, rfl⟩
  rw [← hs, get_fin]
  have key : ∀ j ≤ nu + nd, (List.range j).foldl
      (fun tab i => fun s => if pyIdx (L + L) (elPositions nu nd x i) = some s then (i : ℤ) else tab s) (fun _ => -1) s =
      if n.val < j then (n.val : ℤ) else -1 := by
    intro j hj
    induction j with
    | zero => simp
    | succ j ih =>
      rw [List.range_succ, List.foldl_append, List.foldl_cons, List.foldl_nil, ih (by omega)]
      have hpj : elPositions nu nd x j = posF nu nd x ⟨j, by omega⟩ := rfl
      obtain ⟨s', hs', -⟩ := (posF_range h _).mp ⟨⟨j, by omega⟩, rfl⟩
      rw [hpj, ← hs', pyIdx_fin]
      by_cases hjn : j = n.val
      · have : s' = s := by
          apply Fin.ext
          have h3 : (s'.val : ℤ) = s.val := by
            rw [hs', hs]; congr 1; exact Fin.ext hjn
          omega
        rw [if_pos (by rw [this]), if_pos (by omega), hjn]
      · have : ¬ (some s' = some s) := by
          intro he
          have he' : s' = s := Option.some.inj he
          apply hjn
          have h3 := (posF_strictMono h).injective (a₁ := ⟨j, by omega⟩) (a₂ := n) (by rw [← hs', ← hs, he'])
          exact congrArg Fin.val h3
        rw [if_neg this]
        have : n.val < j ↔ n.val < j + 1 := by omega
        simp only [this]
  unfold sitesToElectrons
  rw [key (nu + nd) le_rfl, if_pos n.isLt]

/-! ## The sites where electrons are added and removed -/

/-- The spin-orbital of a site. -/
def orb (σ : Bool) (i : Fin L) : Fin (L + L) := if σ then Fin.natAdd L i else Fin.castAdd L i

theorem orb_val (σ : Bool) (i : Fin L) : ((orb σ i).val : ℤ) = i.val + if σ then (L : ℤ) else 0 := by
  cases σ
  · simp [orb]
  · simp only [orb, if_true, Fin.val_natAdd]; push_cast; ring

theorem bits_orb (x : Cfg L) (σ : Bool) (i : Fin L) : bits x (orb σ i) = if hasSpin σ (x i) then 1 else 0 := by
  cases σ
  · exact bits_castAdd x i
  · exact bits_natAdd x i

theorem orb_injective {σ σ' : Bool} {i i' : Fin L} (h : orb σ i = orb σ' i') : σ = σ' ∧ i = i' := by
  have hv := congrArg (fun s => ((Fin.val s : ℕ) : ℤ)) h
  simp only [orb_val] at hv
  have := i.isLt
  have := i'.isLt
  cases σ <;> cases σ' <;> simp at hv ⊢ <;> first | omega | (exact Fin.ext (by omega))

theorem orb_surj (s : Fin (L + L)) : ∃ σ i, orb σ i = s := by
  induction s using Fin.addCases with
  | left i => exact ⟨false, i, rfl⟩
  | right i => exact ⟨true, i, rfl⟩

theorem applyUpdate_of_changed {x : Cfg L} {l : List (Fin L × Fin 4)} (hp : Padded x l) {u : Fin L × Fin 4} (hu : u ∈ l)
    (hne : u.2 ≠ x u.1) : applyUpdate x l u.1 = u.2 := by
  induction l with
  | nil => simp at hu
  | cons v l ih =>
    rw [applyUpdate_cons]
    have hp' := List.pairwise_cons.mp hp
    rcases List.mem_cons.mp hu with rfl | hu
    · rw [Function.update_self]
    · by_cases hv : u.1 = v.1
      · exact absurd (hp'.1 u hu hv.symm) hne
      · rw [Function.update_of_ne hv]
        exact ih hp'.2 hu

theorem exists_of_applyUpdate_ne {x : Cfg L} {l : List (Fin L × Fin 4)} {i : Fin L} (h : applyUpdate x l i ≠ x i) :
    ∃ u ∈ l, u.1 = i ∧ u.2 = applyUpdate x l i := by
  induction l with
  | nil => simp [applyUpdate_nil] at h
  | cons v l ih =>
    rw [applyUpdate_cons] at h ⊢
    by_cases hv : i = v.1
    · subst hv; exact ⟨v, List.mem_cons_self, rfl, by rw [Function.update_self]⟩
    · rw [Function.update_of_ne hv] at h ⊢
      obtain ⟨u, hu, h1, h2⟩ := ih h
      exact ⟨u, List.mem_cons_of_mem v hu, h1, h2⟩

variable (x : Cfg L) (upd : List (Fin L × Fin 4))

/-- Position of the entry of spin `σ` for the `a`-th listed site. -/
def entryIdx (σ : Bool) (a : ℕ) : ℕ := if σ then upd.length + a else a

theorem updates_length : (updates x upd).length = 2 * upd.length := by
  simp [updates, spinUpdates]; ring

theorem updates_getD (σ : Bool) (a : ℕ) (ha : a < upd.length) :
    (updates x upd).getD (entryIdx upd σ a) 0 =
      (if hasSpin σ (x upd[a].1) then 1 else 0) - (if hasSpin σ upd[a].2 then 1 else 0) := by
  unfold updates
  cases σ
  · have h1 : a < (spinUpdates false x upd).length := by simpa [spinUpdates] using ha
    simp only [entryIdx, Bool.false_eq_true, if_false]
    rw [List.getD_append _ _ _ _ h1, List.getD_eq_getElem _ _ h1]
    simp [spinUpdates, bit_eq]
  · have h1 : a < (spinUpdates true x upd).length := by simpa [spinUpdates] using ha
    have h2 : (spinUpdates false x upd).length = upd.length := by simp [spinUpdates]
    simp only [entryIdx, if_true]
    rw [List.getD_append_right _ _ _ _ (by omega), h2, Nat.add_sub_cancel_left, List.getD_eq_getElem _ _ h1]
    simp [spinUpdates, bit_eq]

theorem splitSites_getD (σ : Bool) (a : ℕ) (ha : a < upd.length) :
    (splitSites upd).getD (entryIdx upd σ a) 0 = ((orb σ upd[a].1).val : ℤ) := by
  unfold splitSites
  rw [orb_val]
  cases σ
  · simp only [entryIdx, Bool.false_eq_true, if_false]
    rw [List.getD_append _ _ _ _ (by simpa using ha), List.getD_eq_getElem _ _ (by simpa using ha)]
    simp
  · simp only [entryIdx, if_true]
    rw [List.getD_append_right _ _ _ _ (by simp), List.length_map, Nat.add_sub_cancel_left,
      List.getD_eq_getElem _ _ (by simpa using ha)]
    simp

theorem entryIdx_surj (j : ℕ) (hj : j < 2 * upd.length) : ∃ σ a, a < upd.length ∧ entryIdx upd σ a = j := by
  by_cases h : j < upd.length
  · exact ⟨false, j, h, rfl⟩
  · exact ⟨true, j - upd.length, by omega, by simp only [entryIdx, if_true]; omega⟩

/-- The entries with change `v`. -/
def found (v : ℤ) : List ℕ := (List.range (updates x upd).length).filter fun j => (updates x upd).getD j 0 = v

theorem mem_found (v : ℤ) (j : ℕ) : j ∈ found x upd v ↔ j < 2 * upd.length ∧ (updates x upd).getD j 0 = v := by
  unfold found
  rw [List.mem_filter, List.mem_range, updates_length]
  simp

variable {x upd}

theorem spin_diff {σ : Bool} {d d' : Fin 4} {v : ℤ} (hv : v ≠ 0)
    (h : (if hasSpin σ d then (1:ℤ) else 0) - (if hasSpin σ d' then 1 else 0) = v) : d' ≠ d := by
  rintro rfl
  exact hv (by rw [← h, sub_self])

theorem found_inj (hp : Padded x upd) {v : ℤ} (hv : v ≠ 0) {j j' : ℕ} (hj : j ∈ found x upd v) (hj' : j' ∈ found x upd v)
    (h : (splitSites upd).getD j 0 = (splitSites upd).getD j' 0) : j = j' := by
  obtain ⟨h1, h2⟩ := (mem_found x upd v j).mp hj
  obtain ⟨h1', h2'⟩ := (mem_found x upd v j').mp hj'
  obtain ⟨σ, a, ha, rfl⟩ := entryIdx_surj upd j h1
  obtain ⟨σ', a', ha', rfl⟩ := entryIdx_surj upd j' h1'
  rw [splitSites_getD _ _ _ ha, splitSites_getD _ _ _ ha'] at h
  have horb : orb σ upd[a].1 = orb σ' upd[a'].1 := Fin.ext (by omega)
  obtain ⟨hσ, hi⟩ := orb_injective horb
  rw [updates_getD x upd _ _ ha] at h2
  rw [updates_getD x upd _ _ ha'] at h2'
  have hpg := List.pairwise_iff_getElem.mp hp
  rcases lt_trichotomy a a' with hlt | heq | hgt
  · exact absurd (hpg a a' ha ha' hlt hi) (spin_diff hv h2')
  · rw [hσ, heq]
  · exact absurd (hpg a' a ha' ha hgt hi.symm) (spin_diff hv h2)

theorem found_mem (hp : Padded x upd) {v : ℤ} (hv : v ≠ 0) (z : ℤ) :
    (∃ j ∈ found x upd v, (splitSites upd).getD j 0 = z) ↔
      ∃ s : Fin (L + L), (s.val : ℤ) = z ∧ bits x s - bits (applyUpdate x upd) s = v := by
  constructor
  · rintro ⟨j, hj, rfl⟩
    obtain ⟨h1, h2⟩ := (mem_found x upd v j).mp hj
    obtain ⟨σ, a, ha, rfl⟩ := entryIdx_surj upd j h1
    refine ⟨orb σ upd[a].1, (splitSites_getD _ _ _ ha).symm, ?_⟩
    rw [updates_getD x upd _ _ ha] at h2
    rw [bits_orb, bits_orb, applyUpdate_of_changed hp (List.getElem_mem ha) (spin_diff hv h2)]
    exact h2
  · rintro ⟨s, rfl, hs⟩
    obtain ⟨σ, i, rfl⟩ := orb_surj s
    rw [bits_orb, bits_orb] at hs
    obtain ⟨u, hu, hui, huv⟩ := exists_of_applyUpdate_ne (spin_diff hv hs)
    obtain ⟨a, ha, rfl⟩ := List.getElem_of_mem hu
    refine ⟨entryIdx upd σ a, (mem_found x upd v _).mpr ⟨?_, ?_⟩, ?_⟩
    · unfold entryIdx; split <;> omega
    · rw [updates_getD x upd _ _ ha, huv, hui]; exact hs
    · rw [splitSites_getD _ _ _ ha, hui]

theorem found_nodup (v : ℤ) : (found x upd v).Nodup := List.Nodup.filter _ List.nodup_range

theorem found_length (hp : Padded x upd) {v : ℤ} (hv : v ≠ 0) :
    (found x upd v).length = (Finset.univ.filter fun s => bits x s - bits (applyUpdate x upd) s = v).card := by
  rw [← List.toFinset_card_of_nodup (found_nodup v)]
  have hch : ∀ j ∈ found x upd v, ∃ s : Fin (L + L), (s.val : ℤ) = (splitSites upd).getD j 0 ∧
      bits x s - bits (applyUpdate x upd) s = v := fun j hj => (found_mem hp hv _).mp ⟨j, hj, rfl⟩
  choose g hg1 hg2 using hch
  apply Finset.card_bij (fun j hj => g j (List.mem_toFinset.mp hj))
  · intro j hj
    simpa using hg2 j (List.mem_toFinset.mp hj)
  · intro j hj j' hj' he
    apply found_inj hp hv (List.mem_toFinset.mp hj) (List.mem_toFinset.mp hj')
    rw [← hg1 j (List.mem_toFinset.mp hj), ← hg1 j' (List.mem_toFinset.mp hj'), he]
  · intro s hs
    obtain ⟨j, hj, e⟩ := (found_mem hp hv (s.val : ℤ)).mpr ⟨s, rfl, by simpa using hs⟩
    refine ⟨j, List.mem_toFinset.mpr hj, ?_⟩
    apply Fin.ext
    have := hg1 j hj
    omega

/-- As many electrons are added as removed. -/
theorem found_balanced (hp : Padded x upd) (h : HasElec nu nd x) (h' : HasElec nu nd (applyUpdate x upd)) :
    (found x upd (-1)).length = (found x upd 1).length := by
  rw [found_length hp (by norm_num), found_length hp (by norm_num)]
  have hsum : ∑ s, (bits x s - bits (applyUpdate x upd) s) = 0 := by
    rw [Finset.sum_sub_distrib, sum_bits, sum_bits, h.1, h.2, h'.1, h'.2, sub_self]
  have hpt : ∀ s, bits x s - bits (applyUpdate x upd) s =
      (if bits x s - bits (applyUpdate x upd) s = 1 then 1 else 0) - (if bits x s - bits (applyUpdate x upd) s = -1 then 1 else 0) := by
    intro s
    rcases bits_zero_or_one x s with h1 | h1 <;> rcases bits_zero_or_one (applyUpdate x upd) s with h2 | h2 <;> rw [h1, h2] <;>
      norm_num
  rw [Finset.sum_congr rfl fun s _ => hpt s, Finset.sum_sub_distrib] at hsum
  rw [Finset.card_filter, Finset.card_filter]
  zify
  push_cast
  linarith

theorem found_le (hp : Padded x upd) (h : HasElec nu nd x) (h' : HasElec nu nd (applyUpdate x upd)) :
    (found x upd (-1)).length ≤ upd.length := by
  have h1 := found_balanced hp h h'
  have h2 : (found x upd (-1)).length + (found x upd 1).length ≤ 2 * upd.length := by
    rw [← List.toFinset_card_of_nodup (found_nodup _), ← List.toFinset_card_of_nodup (found_nodup _),
      ← Finset.card_union_of_disjoint]
    · have : (found x upd (-1)).toFinset ∪ (found x upd 1).toFinset ⊆ Finset.range (2 * upd.length) := by
        intro j hj
        rw [Finset.mem_range]
        rcases Finset.mem_union.mp hj with hj | hj
        · exact ((mem_found x upd _ j).mp (List.mem_toFinset.mp hj)).1
        · exact ((mem_found x upd _ j).mp (List.mem_toFinset.mp hj)).1
      calc _ ≤ (Finset.range (2 * upd.length)).card := Finset.card_le_card this
        _ = _ := Finset.card_range _
    · rw [Finset.disjoint_left]
      intro j hj hj'
      have e1 := ((mem_found x upd _ j).mp (List.mem_toFinset.mp hj)).2
      have e2 := ((mem_found x upd _ j).mp (List.mem_toFinset.mp hj')).2
      omega
  omega

theorem changeSites_eq (v : ℤ) (hlen : (found x upd v).length ≤ upd.length) (i : ℕ) :
    (∀ h : i < (found x upd v).length, nonzeroEq (updates x upd) v upd.length i ≠ -1 ∧
      changeSites x upd v i = (splitSites upd).getD (found x upd v)[i] 0) ∧
    (¬ i < (found x upd v).length → nonzeroEq (updates x upd) v upd.length i = -1 ∧ changeSites x upd v i = -1) := by
  have hnz : nonzeroEq (updates x upd) v upd.length i = ((found x upd v).map fun j : ℕ => (j : ℤ)).getD i (-1) := by
    unfold nonzeroEq
    change (((found x upd v).take upd.length).map _).getD i (-1) = _
    rw [List.take_of_length_le hlen]
  constructor
  · intro h
    have h1 : nonzeroEq (updates x upd) v upd.length i = ((found x upd v)[i] : ℤ) := by
      rw [hnz, List.getD_eq_getElem _ _ (by simpa using h), List.getElem_map]
    have h2 : nonzeroEq (updates x upd) v upd.length i ≠ -1 := by rw [h1]; omega
    refine ⟨h2, ?_⟩
    unfold changeSites
    dsimp only
    rw [if_pos h2, h1, Int.toNat_natCast]
  · intro h
    have h1 : nonzeroEq (updates x upd) v upd.length i = -1 := by
      rw [hnz, List.getD_eq_default _ _ (by simpa using h)]
    refine ⟨h1, ?_⟩
    unfold changeSites
    dsimp only
    rw [if_neg (by rw [h1]; simp)]

end GPSKet.Slater
