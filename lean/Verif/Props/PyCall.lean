import Verif.Model.PyCall
import Mathlib.Data.List.Nodup

/-! # C58: how arguments reach parameters -/

namespace GPSKet.PyCall

variable {V : Type}

private theorem lookup_zipIdx (params : List (Param V)) (f : Param V → ℕ → Option V) (k i : ℕ) (hi : i < params.length)
    (hn : (params.map Prod.fst).Nodup) :
    ((params.zipIdx k).map fun p => (p.1.1, f p.1 p.2)).lookup params[i].1 = some (f params[i] (k + i)) := by
  induction params generalizing k i with
  | nil => simp at hi
  | cons p ps ih =>
    rw [List.map_cons, List.nodup_cons] at hn
    rw [List.zipIdx_cons, List.map_cons]
    cases i with
    | zero => simp
    | succ i =>
      have hi' : i < ps.length := by simpa using hi
      have hne : ps[i].1 ≠ p.1 := fun h => hn.1 (h ▸ List.mem_map.2 ⟨ps[i], List.getElem_mem hi', rfl⟩)
      simp only [List.getElem_cons_succ]
      rw [List.lookup_cons]
      have : (ps[i].1 == p.1) = false := by simpa using hne
      rw [this]
      have := ih (k + 1) i hi' hn.2
      rw [this, Nat.add_right_comm, Nat.add_assoc]

/-- The `i`-th positional argument is what the callee sees under the name of the `i`-th parameter; it binds if the other parameters
have defaults. -/
theorem C58_positional (params : List (Param V)) (hn : (params.map Prod.fst).Nodup) (args : List V) (hl : args.length ≤ params.length)
    (hd : ∀ i (h : i < params.length), args.length ≤ i → params[i].2.isSome) :
    ∃ b, bind params args [] = some b ∧ (∀ i (h : i < args.length), b params[i].1 = some args[i]) ∧
      ∀ i (h : i < params.length), args.length ≤ i → b params[i].1 = params[i].2 := by
  unfold bind
  rw [if_neg (by omega), if_neg (by simp)]
  dsimp only
  rw [if_neg]
  · refine ⟨_, rfl, ?_, ?_⟩
    · intro i h
      rw [lookup_zipIdx params (fun p i => bindOne p args[i]? []) 0 i (by omega) hn]
      simp [bindOne, h]
    · intro i h hi
      rw [lookup_zipIdx params (fun p i => bindOne p args[i]? []) 0 i h hn]
      have : args[0 + i]? = none := by rw [List.getElem?_eq_none]; omega
      simp [bindOne, hi]
  · rw [Bool.not_eq_true, List.any_eq_false]
    intro b hb
    rw [List.mem_map] at hb
    obtain ⟨⟨p, i⟩, hp, rfl⟩ := hb
    rw [List.mk_mem_zipIdx_iff_getElem?] at hp
    obtain ⟨h1, h2⟩ := List.getElem?_eq_some_iff.1 hp
    by_cases hi : i < args.length
    · simp [bindOne, hi]
    · have := hd i h1 (by omega)
      rw [h2] at this
      have e : args[i]? = none := by rw [List.getElem?_eq_none]; omega
      dsimp only
      rw [e]
      simp only [bindOne, List.lookup_nil]
      intro hc
      rw [Option.isNone_iff_eq_none] at hc
      rw [hc] at this
      simp at this

/-- Too many positional arguments, and a keyword that is not a parameter, raise. -/
theorem C58_rejected (params : List (Param V)) (args : List V) (kw : List (String × V))
    (h : params.length < args.length ∨ ∃ k ∈ kw, ∀ p ∈ params, p.1 ≠ k.1) : bind params args kw = none := by
  unfold bind
  rcases h with h | ⟨k, hk, h⟩
  · rw [if_pos h]
  · split
    · rfl
    · rw [if_pos]
      rw [Bool.not_eq_true, List.all_eq_false]
      refine ⟨k, hk, ?_⟩
      rw [Bool.not_eq_true, List.any_eq_false]
      intro p hp
      simpa using h p (List.mem_of_mem_drop hp)

example : ∃ b, bind [("a", none), ("b", none), ("c", some 7)] [1, 2] [] = some b ∧ b "a" = some 1 ∧ b "b" = some 2 ∧ b "c" = some 7 :=
  ⟨_, rfl, rfl, rfl, rfl⟩

end GPSKet.PyCall
