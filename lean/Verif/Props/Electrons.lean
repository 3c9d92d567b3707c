import Verif.Model.Electrons
import Mathlib.Data.List.Sort
import Mathlib.Data.List.GetD
import Mathlib.Tactic.Linarith
import Mathlib.Data.Fin.VecNotation
import Mathlib.Tactic.Ring
import Mathlib.Tactic.FinCases

/-! # Property C40: occupations and electron positions correspond -/

namespace GPSKet.Props
open Spec Electrons

variable {L : ℕ}

/-- Specification: the sites of the spin-`s` electrons of a configuration, in increasing order. -/
def IsElectronList (s : Bool) (x : Cfg L) (l : List ℕ) : Prop :=
  l.Pairwise (· < ·) ∧ ∀ i : ℕ, i ∈ l ↔ ∃ h : i < L, hasSpin s (x ⟨i, h⟩) = true

theorem bit_eq (s : Bool) (v : Fin 4) : bit s v = hasSpin s v := by
  revert s v; decide

/-- The sites of the spin-`s` electrons, from a scan of the configuration. -/
def siteList (s : Bool) (x : Cfg L) : List ℕ := ((List.finRange L).filter fun i => bit s (x i)).map fun i => i.val

theorem siteList_spec (s : Bool) (x : Cfg L) : IsElectronList s x (siteList s x) := by
  refine ⟨?_, ?_⟩
  · unfold siteList
    rw [List.pairwise_map]
    exact (List.pairwise_lt_finRange L).filter _
  · intro i
    unfold siteList
    simp only [List.mem_map, List.mem_filter, List.mem_finRange, true_and, bit_eq]
    constructor
    · rintro ⟨j, hj, rfl⟩; exact ⟨j.isLt, hj⟩
    · rintro ⟨h, hj⟩; exact ⟨⟨i, h⟩, hj, rfl⟩

theorem siteList_length (s : Bool) (x : Cfg L) : (siteList s x).length = numElec s x := by
  unfold siteList numElec
  rw [List.length_map, ← List.toFinset_card_of_nodup ((List.nodup_finRange L).filter _)]
  congr 1
  ext i
  simp [bit_eq]

theorem flatten_getD (n : ℕ) (ls : List (List ℕ)) (h : ∀ l ∈ ls, l.length = n) (b k : ℕ) (hb : b < ls.length) (hk : k < n) :
    ls.flatten.getD (b * n + k) 0 = ls[b].getD k 0 := by
  induction ls generalizing b with
  | nil => simp at hb
  | cons a ls ih =>
    have ha : a.length = n := h a List.mem_cons_self
    rw [List.flatten_cons]
    cases b with
    | zero =>
      simp only [zero_mul, zero_add, List.getElem_cons_zero]
      rw [List.getD_append _ _ _ _ (by omega)]
    | succ b =>
      rw [List.getD_append_right _ _ _ _ (by rw [ha]; nlinarith)]
      have : (b + 1) * n + k - a.length = b * n + k := by rw [ha, Nat.succ_mul]; omega
      rw [this, List.getElem_cons_succ]
      exact ih (fun l hl => h l (List.mem_cons_of_mem a hl)) b (by simpa using hb)

theorem row_eq (s : Bool) (n : ℕ) (x : List (Cfg L)) (hn : ∀ c ∈ x, numElec s c = n) (b : ℕ) (hb : b < x.length) :
    (List.range n).map (reshape n (nonzeroCols (x.map fun c i => bit s (c i)) (x.length * n)) b) = siteList s x[b] := by
  have hfl : (((x.map fun c i => bit s (c i)).map fun row =>
      ((List.finRange L).filter fun i => row i).map fun i => i.val)) = x.map (siteList s) := by
    rw [List.map_map]; rfl
  have hlen : ∀ l ∈ x.map (siteList s), l.length = n := by
    intro l hl
    obtain ⟨c, hc, rfl⟩ := List.mem_map.mp hl
    rw [siteList_length, hn c hc]
  have htot : (x.map (siteList s)).flatten.length = x.length * n := by
    rw [List.length_flatten, List.map_map]
    have : ∀ c ∈ x, (List.length ∘ siteList s) c = n := fun c hc => by
      rw [Function.comp_apply, siteList_length, hn c hc]
    rw [List.map_congr_left this]
    simp
  have hlb : (siteList s x[b]).length = n := by rw [siteList_length, hn _ (List.getElem_mem hb)]
  apply List.ext_getElem
  · rw [List.length_map, List.length_range, hlb]
  · intro k h1 h2
    rw [List.getElem_map, List.getElem_range]
    unfold reshape nonzeroCols
    dsimp only
    rw [hfl, htot, Nat.sub_self, List.replicate_zero, List.append_nil, ← htot, List.take_length]
    have hk : k < n := by rw [hlb] at h2; exact h2
    rw [flatten_getD n _ hlen b k (by simpa using hb) hk, List.getElem_map]
    exact List.getD_eq_getElem _ _ h2

/-- C40: for every batch of configurations with the given electron numbers, every row of the result is the list of the sites of
the spin-up electrons in increasing order followed by that of the spin-down electrons. -/
theorem C40_electron_positions (x : List (Cfg L)) (n_up n_down : ℕ)
    (hx : ∀ c ∈ x, numElec false c = n_up ∧ numElec true c = n_down) (b : ℕ) (hb : b < x.length) :
    ∃ up down, occupanciesToElectrons x n_up n_down b = up ++ down ∧ up.length = n_up ∧ down.length = n_down ∧
      IsElectronList false x[b] up ∧ IsElectronList true x[b] down := by
  refine ⟨siteList false x[b], siteList true x[b], ?_, ?_, ?_, siteList_spec _ _, siteList_spec _ _⟩
  · unfold occupanciesToElectrons
    dsimp only
    rw [row_eq false n_up x (fun c hc => (hx c hc).1) b hb, row_eq true n_down x (fun c hc => (hx c hc).2) b hb]
  · rw [siteList_length, (hx _ (List.getElem_mem hb)).1]
  · rw [siteList_length, (hx _ (List.getElem_mem hb)).2]

/-- The list of electron positions determines the configuration: the conversion loses nothing. -/
theorem C40_injective (x y : Cfg L) (lu ld : List ℕ) (hxu : IsElectronList false x lu) (hxd : IsElectronList true x ld)
    (hyu : IsElectronList false y lu) (hyd : IsElectronList true y ld) : x = y := by
  funext i
  have hu : hasSpin false (x i) = hasSpin false (y i) := by
    rw [Bool.eq_iff_iff]
    have := (hxu.2 i.val).symm.trans (hyu.2 i.val)
    simpa using this
  have hd : hasSpin true (x i) = hasSpin true (y i) := by
    rw [Bool.eq_iff_iff]
    have := (hxd.2 i.val).symm.trans (hyd.2 i.val)
    simpa using this
  revert hu hd
  generalize x i = a
  generalize y i = b
  revert a b
  decide

/-- A batch meeting the hypotheses: two different configurations of one up and two down electrons on three sites. -/
example : (∀ c ∈ [(![3, 0, 2] : Cfg 3), ![2, 2, 1]], numElec false c = 1 ∧ numElec true c = 2) ∧
    occupanciesToElectrons [(![3, 0, 2] : Cfg 3), ![2, 2, 1]] 1 2 1 = [2, 0, 1] := by decide

/-- The restriction to the constrained space matters: a row with too many electrons shifts the later rows. -/
example : occupanciesToElectrons [(![1, 1] : Cfg 2), ![0, 1]] 1 0 1 = [1] ∧
    occupanciesToElectrons [(![1, 1] : Cfg 2), ![1, 0]] 1 0 1 = [1] := by decide

end GPSKet.Props
