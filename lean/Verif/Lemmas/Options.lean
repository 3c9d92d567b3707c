import Verif.Spec.Options
import Mathlib.Data.List.Basic
import Mathlib.Tactic.Common

/-! # Lemmas about configurations: references and cells -/

namespace GPSKet.Options
open Spec.Options

/-! ### Cells -/

theorem readCell_val (cells : List Cell) (a : ℕ) (v : Val) (h : cells[a]? = some (.val v)) : readCell cells a = some v := by
  rw [readCell, h]

theorem readCell_div (cells : List Cell) (a p : ℕ) (k : ℤ) (h : cells[a]? = some (.div p k)) (hp : p < a) :
    readCell cells a = (readCell cells p).bind (Val.floordiv k) := by
  rw [readCell, h]
  simp [hp]

/-- What is true of the dictionary after the statements `p`. -/
structure Inv (p : List Stmt) (d : Dict) : Prop where
  /-- the fields are the options of the statements -/
  defined : ∀ n, (d.addr n).isSome ↔ ∃ st ∈ p, st.name = n
  /-- no field points outside of the cells -/
  bound : ∀ n a, d.addr n = some a → a < d.cells.length
  /-- only references share cells -/
  own : ∀ m n a, d.addr m = some a → d.addr n = some a → (∀ s, .ref m s ∉ p) → (∀ s, .ref n s ∉ p) → m = n
  /-- the last statement about an option is in its cell -/
  latest : ∀ n st, Latest p n st → match st with
    | .assign n v => ∃ a, d.addr n = some a ∧ d.cells[a]? = some (.val v)
    | .flag n v => ∃ a, d.addr n = some a ∧ d.cells[a]? = some (.val v)
    | .ref n s => ∃ a, d.addr n = some a ∧ d.addr s = some a
    | .div n s k => ∃ a b, d.addr n = some a ∧ d.addr s = some b ∧ d.cells[a]? = some (.div b k) ∧ b < a

theorem latest_append (p : List Stmt) (st : Stmt) (n : String) (s : Stmt) (h : Latest (p ++ [st]) n s) :
    (s = st ∧ st.name = n) ∨ (st.name ≠ n ∧ Latest p n s) := by
  obtain ⟨b, a, h1, h2, h3⟩ := h
  rcases List.eq_nil_or_concat a with rfl | ⟨a', x, rfl⟩
  · have := List.append_inj' h1 rfl
    left
    simp only [List.cons.injEq, and_true] at this
    exact ⟨this.2.symm, this.2 ▸ h2⟩
  · right
    rw [List.concat_eq_append, ← List.cons_append, ← List.append_assoc] at h1
    have := List.append_inj' h1 rfl
    simp only [List.cons.injEq, and_true] at this
    refine ⟨h3 st (by simp [this.2]), b, a', this.1, h2, fun s hs => h3 s (by simp [hs])⟩

theorem inv_nil : Inv [] ⟨[], []⟩ := by
  refine ⟨fun n => by simp [Dict.addr], fun n a h => by simp [Dict.addr] at h, fun m n a h => by simp [Dict.addr] at h, ?_⟩
  rintro n st ⟨b, a, h, -⟩
  simp at h

theorem latest_mem {p : List Stmt} {n : String} {st : Stmt} (h : Latest p n st) : st ∈ p ∧ st.name = n := by
  obtain ⟨b, a, rfl, h2, -⟩ := h
  exact ⟨by simp, h2⟩

theorem addr_cons (n m : String) (a : ℕ) (f : List (String × ℕ)) (c : List Cell) :
    (Dict.mk ((n, a) :: f) c).addr m = if m = n then some a else (f.lookup m) := by
  unfold Dict.addr
  rw [List.lookup_cons]
  by_cases h : m = n
  · simp [h]
  · rw [if_neg h, beq_eq_false_iff_ne.2 h]

/-- No option that is a reference to another option is written directly. -/
def Clean (p : List Stmt) : Prop := ∀ m s, .ref m s ∈ p → ∀ st ∈ p, st.name = m → ∃ s', st = .ref m s'

theorem Clean.left {p q : List Stmt} (h : Clean (p ++ q)) : Clean p :=
  fun m s hs st hst he => h m s (by simp [hs]) st (by simp [hst]) he

/-- Writing to the cell of an option that is no reference. -/
theorem inv_write (p : List Stmt) (d : Dict) (hc : Clean p) (h : Inv p d) (n : String) (v : Val) (a : ℕ) (ha : d.addr n = some a)
    (hr : ∀ s, .ref n s ∉ p) (st : Stmt) (hst : st = .assign n v ∨ st = .flag n v) :
    Inv (p ++ [st]) { d with cells := d.cells.set a (.val v) } := by
  have hname : st.name = n := by rcases hst with rfl | rfl <;> rfl
  have hnr : ∀ m s, Stmt.ref m s ∈ p ++ [st] ↔ Stmt.ref m s ∈ p := by
    intro m s; rcases hst with rfl | rfl <;> simp
  refine ⟨fun m => ?_, fun m b hb => ?_, fun m m' b hm hm' h1 h2 => ?_, fun m s hs => ?_⟩
  · rw [show (Dict.addr { d with cells := d.cells.set a (.val v) } m) = d.addr m from rfl, h.defined]
    constructor
    · rintro ⟨s, hs, rfl⟩; exact ⟨s, by simp [hs], rfl⟩
    · rintro ⟨s, hs, rfl⟩
      rcases List.mem_append.1 hs with hs | hs
      · exact ⟨s, hs, rfl⟩
      · obtain rfl : s = st := by simpa using hs
        rw [hname]
        exact (h.defined n).1 (by simp [ha])
  · simpa using h.bound m b hb
  · exact h.own m m' b hm hm' (fun s hs => h1 s ((hnr _ _).2 hs)) (fun s hs => h2 s ((hnr _ _).2 hs))
  · rcases latest_append p st m s hs with ⟨rfl, -⟩ | ⟨hne, hl⟩
    · rcases hst with rfl | rfl <;>
      · refine ⟨a, ha, ?_⟩
        simp [h.bound n a ha]
    · rw [hname] at hne
      have h0 := h.latest m s hl
      have hm := latest_mem hl
      have key : ∀ b, (∀ s, Stmt.ref m s ∉ p) → d.addr m = some b → (d.cells.set a (.val v))[b]? = d.cells[b]? := by
        intro b hmr hb
        rw [List.getElem?_set_ne]
        rintro rfl
        exact hne (h.own m n a hb ha hmr hr).symm
      have noref : ∀ s', Stmt.ref m s' ∈ p → ∃ s'', s = .ref m s'' := fun s' hs' => hc m s' hs' s hm.1 hm.2
      obtain ⟨hmem, rfl⟩ := hm
      match s, h0, key, noref with
      | .assign m w, ⟨b, h1, h2⟩, key, noref =>
        exact ⟨b, h1, (key b (fun s' hs' => by obtain ⟨_, h⟩ := noref s' hs'; cases h) h1).trans h2⟩
      | .flag m w, ⟨b, h1, h2⟩, key, noref =>
        exact ⟨b, h1, (key b (fun s' hs' => by obtain ⟨_, h⟩ := noref s' hs'; cases h) h1).trans h2⟩
      | .ref m w, h0, _, _ => exact h0
      | .div m w k, ⟨b, c, h1, h2, h3, h4⟩, key, noref =>
        exact ⟨b, c, h1, h2, (key b (fun s' hs' => by obtain ⟨_, h⟩ := noref s' hs'; cases h) h1).trans h3, h4⟩

/-- What a new field must have in its cell `a`. -/
def NewCell (d : Dict) (cells : List Cell) (a : ℕ) : Stmt → Prop
  | .assign _ v => cells[a]? = some (.val v)
  | .flag _ v => cells[a]? = some (.val v)
  | .ref _ s => d.addr s = some a
  | .div _ s k => ∃ b, d.addr s = some b ∧ cells[a]? = some (.div b k) ∧ b < a

/-- Making a new field. -/
theorem inv_new (p : List Stmt) (d : Dict) (h : Inv p d) (st : Stmt) (ha : d.addr st.name = none) (a : ℕ) (extra : List Cell)
    (hlt : a < (d.cells ++ extra).length)
    (hown : (∃ s, st = .ref st.name s) ∨ d.cells.length ≤ a)
    (hnew : NewCell d (d.cells ++ extra) a st) :
    Inv (p ++ [st]) ⟨(st.name, a) :: d.fields, d.cells ++ extra⟩ := by
  have hadd : ∀ m, (Dict.mk ((st.name, a) :: d.fields) (d.cells ++ extra)).addr m = if m = st.name then some a else d.addr m :=
    fun m => addr_cons _ _ _ _ _
  have hold : ∀ m b, d.addr m = some b → (Dict.mk ((st.name, a) :: d.fields) (d.cells ++ extra)).addr m = some b := by
    intro m b hb
    rw [hadd, if_neg, hb]
    rintro rfl
    rw [ha] at hb; cases hb
  have hcell : ∀ m b, d.addr m = some b → (d.cells ++ extra)[b]? = d.cells[b]? := by
    intro m b hb
    rw [List.getElem?_append_left (h.bound m b hb)]
  refine ⟨fun m => ?_, fun m b hb => ?_, fun m m' b hm hm' h1 h2 => ?_, fun m s hs => ?_⟩
  · rw [hadd]
    by_cases hm : m = st.name
    · simp [hm]
    · rw [if_neg hm, h.defined]
      constructor
      · rintro ⟨s, hs, rfl⟩; exact ⟨s, by simp [hs], rfl⟩
      · rintro ⟨s, hs, rfl⟩
        rcases List.mem_append.1 hs with hs | hs
        · exact ⟨s, hs, rfl⟩
        · obtain rfl : s = st := by simpa using hs
          exact absurd rfl hm
  · rw [hadd] at hb
    by_cases hm : m = st.name
    · rw [if_pos hm] at hb; cases hb; exact hlt
    · rw [if_neg hm] at hb
      have := h.bound m b hb
      simp only [List.length_append]; omega
  · rw [hadd] at hm hm'
    have nref : ∀ m, (∀ s, Stmt.ref m s ∉ p ++ [st]) → m = st.name → d.cells.length ≤ a := by
      rintro m h3 rfl
      rcases hown with ⟨s, hs⟩ | hown
      · exact absurd (by rw [← hs]; simp) (h3 s)
      · exact hown
    by_cases e : m = st.name <;> by_cases e' : m' = st.name
    · rw [e, e']
    · rw [if_pos e] at hm; rw [if_neg e'] at hm'; cases hm
      have h3 := nref m h1 e
      have h4 := h.bound m' _ hm'
      omega
    · rw [if_neg e] at hm; rw [if_pos e'] at hm'; cases hm'
      have h3 := nref m' h2 e'
      have h4 := h.bound m _ hm
      omega
    · rw [if_neg e] at hm; rw [if_neg e'] at hm'
      exact h.own m m' b hm hm' (fun s hs => h1 s (by simp [hs])) (fun s hs => h2 s (by simp [hs]))
  · rcases latest_append p st m s hs with ⟨rfl, -⟩ | ⟨hne, hl⟩
    · match s, ha, hadd, hold, hnew with
      | .assign n v, ha, hadd, hold, hnew => exact ⟨a, by rw [hadd]; simp [Stmt.name], hnew⟩
      | .flag n v, ha, hadd, hold, hnew => exact ⟨a, by rw [hadd]; simp [Stmt.name], hnew⟩
      | .ref n s, ha, hadd, hold, hnew => exact ⟨a, by rw [hadd]; simp [Stmt.name], hold _ _ hnew⟩
      | .div n s k, ha, hadd, hold, ⟨b, h1, h2, h3⟩ => exact ⟨a, b, by rw [hadd]; simp [Stmt.name], hold _ _ h1, h2, h3⟩
    · have h0 := h.latest m s hl
      match s, h0 with
      | .assign n v, ⟨b, h1, h2⟩ => exact ⟨b, hold _ _ h1, (hcell _ _ h1).trans h2⟩
      | .flag n v, ⟨b, h1, h2⟩ => exact ⟨b, hold _ _ h1, (hcell _ _ h1).trans h2⟩
      | .ref n s, ⟨b, h1, h2⟩ => exact ⟨b, hold _ _ h1, hold _ _ h2⟩
      | .div n s k, ⟨b, c, h1, h2, h3, h4⟩ => exact ⟨b, c, hold _ _ h1, hold _ _ h2, (hcell _ _ h1).trans h3, h4⟩

theorem inv_step (p : List Stmt) (d d' : Dict) (st : Stmt) (hc : Clean (p ++ [st])) (h : Inv p d) (hs : d.step st = some d') :
    Inv (p ++ [st]) d' := by
  have nr : (∀ s, st ≠ .ref st.name s) → ∀ s, Stmt.ref st.name s ∉ p := by
    intro h1 s hs
    obtain ⟨s', h2⟩ := hc st.name s (by simp [hs]) st (by simp) rfl
    exact h1 s' h2
  match st, hs, nr with
  | .assign n v, hs, nr =>
    unfold Dict.step at hs
    dsimp only at hs
    cases ha : d.addr n with
    | some a =>
      rw [ha] at hs
      cases hs
      exact inv_write p d hc.left h n v a ha (nr (by simp)) _ (.inl rfl)
    | none =>
      rw [ha] at hs
      cases hs
      exact inv_new p d h (.assign n v) ha d.cells.length [.val v] (by simp) (.inr le_rfl) (by simp [NewCell])
  | .flag n v, hs, nr =>
    unfold Dict.step at hs
    dsimp only at hs
    cases ha : d.addr n with
    | some a =>
      rw [ha] at hs
      cases hs
      exact inv_write p d hc.left h n v a ha (nr (by simp)) _ (.inr rfl)
    | none => rw [ha] at hs; cases hs
  | .ref n s, hs, nr =>
    unfold Dict.step at hs
    dsimp only at hs
    cases ha : d.addr n with
    | some a => rw [ha] at hs; cases hs
    | none =>
      cases hb : d.addr s with
      | none => rw [ha, hb] at hs; cases hs
      | some b =>
        rw [ha, hb] at hs
        cases hs
        have := inv_new p d h (.ref n s) ha b [] (by simpa using h.bound s b hb) (.inl ⟨s, rfl⟩) hb
        simpa [Stmt.name] using this
  | .div n s k, hs, nr =>
    unfold Dict.step at hs
    dsimp only at hs
    cases ha : d.addr n with
    | some a => rw [ha] at hs; cases hs
    | none =>
      cases hb : d.addr s with
      | none => rw [ha, hb] at hs; cases hs
      | some b =>
        rw [ha, hb] at hs
        cases hs
        exact inv_new p d h (.div n s k) ha d.cells.length [.div b k] (by simp) (.inr le_rfl) ⟨b, hb, by simp, h.bound s b hb⟩

theorem run_append (p : List Stmt) (st : Stmt) : run (p ++ [st]) = (run p).bind fun d => d.step st := by
  simp [run, List.foldlM_append]

theorem inv_run (p : List Stmt) (d : Dict) (hc : Clean p) (h : run p = some d) : Inv p d := by
  induction p using List.reverseRecOn generalizing d with
  | nil => cases h; exact inv_nil
  | append_singleton p st ih =>
    rw [run_append] at h
    cases hr : run p with
    | none => rw [hr] at h; cases h
    | some d0 =>
      rw [hr] at h
      exact inv_step p d0 d st hc (ih d0 hc.left hr) h

theorem effective_get (p : List Stmt) (d : Dict) (h : Inv p d) (n : String) (v : Val) (he : Effective p n v) : d.get n = some v := by
  induction he with
  | assigned n v hl =>
    obtain ⟨a, h1, h2⟩ := h.latest n _ hl
    simp [Dict.get, h1, readCell_val _ _ _ h2]
  | given n v hl =>
    obtain ⟨a, h1, h2⟩ := h.latest n _ hl
    simp [Dict.get, h1, readCell_val _ _ _ h2]
  | follows n s v hl _ ih =>
    obtain ⟨a, h1, h2⟩ := h.latest n _ hl
    rw [← ih]
    simp [Dict.get, h1, h2]
  | quotient n s k i hl _ ih =>
    obtain ⟨a, b, h1, h2, h3, h4⟩ := h.latest n _ hl
    have hb : readCell d.cells b = some (.int i) := by simpa [Dict.get, h2] using ih
    simp [Dict.get, h1, readCell_div _ _ _ _ h3 h4, hb, Val.floordiv]

/-! ### Every value that is read is the expected one -/

/-- The option `n` was written in terms of `s`. -/
def Uses (p : List Stmt) (n s : String) : Prop := .ref n s ∈ p ∨ ∃ k, .div n s k ∈ p

theorem uses_append {p : List Stmt} {st : Stmt} {n s : String} (h : Uses (p ++ [st]) n s) :
    Uses p n s ∨ (st = .ref n s ∨ ∃ k, st = .div n s k) := by
  rcases h with h | ⟨k, h⟩
  · rcases List.mem_append.1 h with h | h
    · exact .inl (.inl h)
    · exact .inr (.inl (List.mem_singleton.1 h).symm)
  · rcases List.mem_append.1 h with h | h
    · exact .inl (.inr ⟨k, h⟩)
    · exact .inr (.inr ⟨k, (List.mem_singleton.1 h).symm⟩)

theorem uses_name {p : List Stmt} {n s : String} (h : Uses p n s) : ∃ st ∈ p, st.name = n := by
  rcases h with h | ⟨k, h⟩
  · exact ⟨_, h, rfl⟩
  · exact ⟨_, h, rfl⟩

/-- A statement that uses a source makes a new option and needs the source. -/
theorem step_uses {d d' : Dict} {st : Stmt} {n s : String} (hs : st = .ref n s ∨ ∃ k, st = .div n s k) (h : d.step st = some d') :
    d.addr n = none ∧ (d.addr s).isSome := by
  rcases hs with rfl | ⟨k, rfl⟩ <;>
  · unfold Dict.step at h
    dsimp only at h
    cases ha : d.addr n with
    | some a => rw [ha] at h; cases h
    | none =>
      cases hb : d.addr s with
      | none => rw [ha, hb] at h; cases h
      | some b => simp

/-- The sources of references and quotients are older than their options. -/
theorem exists_rank (p : List Stmt) (d : Dict) (hc : Clean p) (h : run p = some d) :
    ∃ rank : String → ℕ, (∀ n, (d.addr n).isSome → rank n < p.length) ∧
      ∀ n s, Uses p n s → (d.addr s).isSome ∧ rank s < rank n := by
  induction p using List.reverseRecOn generalizing d with
  | nil => exact ⟨fun _ => 0, by cases h; simp [Dict.addr], by rintro n s (h | ⟨k, h⟩) <;> simp at h⟩
  | append_singleton p st ih =>
    rw [run_append] at h
    cases hr : run p with
    | none => rw [hr] at h; cases h
    | some d0 =>
      rw [hr] at h
      have hinv := inv_run p d0 hc.left hr
      have hinv' := inv_step p d0 d st hc hinv h
      obtain ⟨rank, h1, h2⟩ := ih d0 hc.left hr
      have keep : ∀ n, (d0.addr n).isSome → (d.addr n).isSome := by
        intro n hn
        obtain ⟨s, hs, e⟩ := (hinv.defined n).1 hn
        exact (hinv'.defined n).2 ⟨s, by simp [hs], e⟩
      have back : ∀ n, (d.addr n).isSome → n ≠ st.name → (d0.addr n).isSome := by
        intro n hn hne
        obtain ⟨s, hs, e⟩ := (hinv'.defined n).1 hn
        rcases List.mem_append.1 hs with hs | hs
        · exact (hinv.defined n).2 ⟨s, hs, e⟩
        · obtain rfl : s = st := by simpa using hs
          exact absurd e.symm hne
      by_cases hd : (d0.addr st.name).isSome
      · refine ⟨rank, fun n hn => ?_, fun n s hs => ?_⟩
        · have : (d0.addr n).isSome := by
            by_cases e : n = st.name
            · rw [e]; exact hd
            · exact back n hn e
          have := h1 n this
          simp only [List.length_append, List.length_singleton]; omega
        · rcases uses_append hs with hs | hs
          · exact ⟨keep s (h2 n s hs).1, (h2 n s hs).2⟩
          · have hn := (step_uses hs h).1
            have e : st.name = n := by rcases hs with rfl | ⟨k, rfl⟩ <;> rfl
            rw [e, hn] at hd
            simp at hd
      · refine ⟨fun n => if n = st.name then p.length else rank n, fun n hn => ?_, fun n s hs => ?_⟩
        · by_cases e : n = st.name
          · simp [e]
          · have := h1 n (back n hn e)
            simp only [if_neg e, List.length_append, List.length_singleton]; omega
        · have ne : ∀ m, (d0.addr m).isSome → m ≠ st.name := by rintro m hm rfl; exact hd hm
          rcases uses_append hs with hs | hs
          · have hs' := h2 n s hs
            have hn : (d0.addr n).isSome := (hinv.defined n).2 (uses_name hs)
            refine ⟨keep s hs'.1, ?_⟩
            simp only [if_neg (ne s hs'.1), if_neg (ne n hn)]
            exact hs'.2
          · have hn := step_uses hs h
            have e : st.name = n := by rcases hs with rfl | ⟨k, rfl⟩ <;> rfl
            refine ⟨keep s hn.2, ?_⟩
            beta_reduce
            rw [if_neg (ne s hn.2), if_pos e.symm]
            exact h1 s hn.2

theorem exists_latest (p : List Stmt) (n : String) (h : ∃ st ∈ p, st.name = n) : ∃ st, Latest p n st := by
  induction p using List.reverseRecOn with
  | nil => obtain ⟨st, h, -⟩ := h; simp at h
  | append_singleton p st ih =>
    by_cases e : st.name = n
    · exact ⟨st, p, [], by simp, e, by simp⟩
    · obtain ⟨s, hs, hn⟩ := h
      rcases List.mem_append.1 hs with hs | hs
      · obtain ⟨s', b, a, h1, h2, h3⟩ := ih ⟨s, hs, hn⟩
        refine ⟨s', b, a ++ [st], by simp [h1], h2, fun x hx => ?_⟩
        rcases List.mem_append.1 hx with hx | hx
        · exact h3 x hx
        · obtain rfl : x = st := by simpa using hx
          exact e
      · obtain rfl : s = st := by simpa using hs
        exact absurd hn e

theorem get_effective (p : List Stmt) (d : Dict) (hc : Clean p) (h : run p = some d) (n : String) (v : Val) (hg : d.get n = some v) :
    Effective p n v := by
  have hinv := inv_run p d hc h
  obtain ⟨rank, -, hrank⟩ := exists_rank p d hc h
  generalize hk : rank n = k
  induction k using Nat.strong_induction_on generalizing n v with
  | _ k ih =>
    subst hk
    have hn : (d.addr n).isSome := by
      unfold Dict.get at hg
      cases ha : d.addr n with
      | none => simp [ha] at hg
      | some a => rfl
    obtain ⟨st, hst⟩ := exists_latest p n ((hinv.defined n).1 hn)
    have hl := hinv.latest n st hst
    obtain ⟨hm, rfl⟩ := latest_mem hst
    match st, hl, hst, hm, hg, ih with
    | .assign n w, ⟨a, h1, h2⟩, hst, hm, hg, ih =>
      have : w = v := by simpa [Dict.get, Stmt.name, h1, readCell_val _ _ _ h2] using hg
      exact this ▸ .assigned n w hst
    | .flag n w, ⟨a, h1, h2⟩, hst, hm, hg, ih =>
      have : w = v := by simpa [Dict.get, Stmt.name, h1, readCell_val _ _ _ h2] using hg
      exact this ▸ .given n w hst
    | .ref n s, ⟨a, h1, h2⟩, hst, hm, hg, ih =>
      refine .follows n s v hst (ih (rank s) (hrank n s (.inl hm)).2 s v ?_ rfl)
      simpa [Dict.get, Stmt.name, h1, h2] using hg
    | .div n s k, ⟨a, b, h1, h2, h3, h4⟩, hst, hm, hg, ih =>
      have hg' : (readCell d.cells b).bind (Val.floordiv k) = some v := by
        simpa [Dict.get, Stmt.name, h1, readCell_div _ _ _ _ h3 h4] using hg
      cases hb : readCell d.cells b with
      | none => simp [hb] at hg'
      | some w =>
        rw [hb] at hg'
        match w, hb, hg' with
        | .int i, hb, hg' =>
          have : v = .int (i / k) := by simpa [Val.floordiv, eq_comm] using hg'
          rw [this]
          refine .quotient n s k i hst (ih (rank s) (hrank n s (.inr ⟨k, hm⟩)).2 s (.int i) ?_ rfl)
          simp [Dict.get, h2, hb]
        | .text t, _, hg' => simp [Val.floordiv] at hg'

end GPSKet.Options
