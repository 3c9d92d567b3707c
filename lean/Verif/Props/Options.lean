import Verif.Lemmas.Options

/-! # Options of the training scripts (C186) -/

namespace GPSKet.Options
open Spec.Options

/-! ### The configurations of the scripts -/

/-- Statements that can be executed and write no reference directly. -/
def checked (p : List Stmt) : Bool :=
  (run p).isSome && p.all fun a => p.all fun b =>
    match a, b with
    | .ref _ _, .ref _ _ => true
    | .ref m _, b => decide (b.name ≠ m)
    | _, _ => true

theorem checked_clean {p : List Stmt} (h : checked p = true) : (∃ d, run p = some d) ∧ Clean p := by
  unfold checked at h
  rw [Bool.and_eq_true] at h
  refine ⟨Option.isSome_iff_exists.1 h.1, fun m s hm st hst he => ?_⟩
  have := List.all_eq_true.1 (List.all_eq_true.1 h.2 _ hm) _ hst
  match st, he, this with
  | .ref n s', he, _ => exact ⟨s', by rw [← he]; rfl⟩
  | .assign n v, he, this => simp [he] at this
  | .flag n v, he, this => simp [he] at this
  | .div n v k, he, this => simp [he] at this

set_option maxRecDepth 100000 in
theorem checked_heisenberg2d (model : ArgpsModel.Name) : checked (heisenberg2d model) = true := by
  cases model <;> decide

set_option maxRecDepth 100000 in
theorem checked_others : checked hubbard1d = true ∧ checked fermiHubbard = true ∧ checked h2o = true ∧ checked hsheet = true := by
  refine ⟨?_, ?_, ?_, ?_⟩ <;> decide

set_option maxRecDepth 100000 in
theorem checked_shipped {p : List Stmt} (h : Shipped p) : checked p = true := by
  cases h with
  | heisenberg2d model => exact checked_heisenberg2d model
  | hubbard1d => exact checked_others.1
  | fermiHubbard => exact checked_others.2.1
  | h2o => exact checked_others.2.2.1
  | hsheet => exact checked_others.2.2.2
  | hydrogen g b t p h =>
    unfold hydrogen at h
    split_ifs at h with h1 h2 h3
    rw [not_and_or, not_not, not_not] at h1 h2 h3
    cases h
    rcases h1 with rfl | rfl <;> rcases h2 with rfl | rfl <;> rcases h3 with rfl | rfl <;> decide

/-- Flags for options that exist are accepted, and a flag for any other option is an error. -/
theorem run_flags (p : List Stmt) (d : Dict) (hr : run p = some d) (fl : List (String × Val)) :
    ((∀ e ∈ fl, (d.addr e.1).isSome) → ∃ d', run (p ++ flags fl) = some d' ∧ d'.fields = d.fields) ∧
    ((∃ e ∈ fl, (d.addr e.1) = none) → run (p ++ flags fl) = none) := by
  induction fl generalizing p d with
  | nil => exact ⟨fun _ => ⟨d, by simpa [flags] using hr, rfl⟩, by simp⟩
  | cons e fl ih =>
    have happ : p ++ flags (e :: fl) = (p ++ [.flag e.1 e.2]) ++ flags fl := by simp [flags]
    rw [happ]
    cases ha : d.addr e.1 with
    | none =>
      have hn : run (p ++ [.flag e.1 e.2]) = none := by rw [run_append, hr]; simp [Dict.step, ha]
      refine ⟨fun h => absurd (h e (by simp)) (by simp [ha]), fun _ => ?_⟩
      unfold run at hn ⊢
      rw [List.foldlM_append, hn]
      rfl
    | some a =>
      have hn : run (p ++ [.flag e.1 e.2]) = some { d with cells := d.cells.set a (.val e.2) } := by
        rw [run_append, hr]; simp [Dict.step, ha]
      obtain ⟨i1, i2⟩ := ih _ _ hn
      refine ⟨fun h => i1 fun e' he' => h e' (by simp [he']), ?_⟩
      rintro ⟨e', he', hx⟩
      rcases List.mem_cons.1 he' with rfl | he'
      · rw [ha] at hx; cases hx
      · exact i2 ⟨e', he', hx⟩

/-- **C186 (partial: no flag for an option that is a reference)**: for every configuration of the scripts and every command line, a
flag for an option that does not exist is an error; and otherwise every option has the value that the last statement about it gives:
the flag, the assignment of the configuration, or for options written in terms of another option the value that follows from that of
the other one.  Missing: flags for `sampler.n_sweeps` in the configuration `heisenberg2d` of models with Markov chains, for which the
property is false (`C186_fails`). -/
theorem C186_options_partial (p : List Stmt) (hp : Shipped p) (fl : List (String × Val)) (hf : ∀ e ∈ fl, ∀ s, .ref e.1 s ∉ p) :
    ((∃ e ∈ fl, ∀ st ∈ p, st.name ≠ e.1) ∧ run (p ++ flags fl) = none) ∨
    ((∀ e ∈ fl, ∃ st ∈ p, st.name = e.1) ∧
      ∃ d, run (p ++ flags fl) = some d ∧ ∀ n v, d.get n = some v ↔ Effective (p ++ flags fl) n v) := by
  obtain ⟨⟨d, hd⟩, hc⟩ := checked_clean (checked_shipped hp)
  have hinv := inv_run p d hc hd
  obtain ⟨h1, h2⟩ := run_flags p d hd fl
  have hclean : Clean (p ++ flags fl) := by
    intro m s hm st hst he
    rcases List.mem_append.1 hm with hm | hm
    · rcases List.mem_append.1 hst with hst | hst
      · exact hc m s hm st hst he
      · obtain ⟨e, h3, rfl⟩ := List.mem_map.1 hst
        exact absurd hm (he ▸ hf e h3 s)
    · obtain ⟨e, -, h4⟩ := List.mem_map.1 hm
      cases h4
  by_cases hk : ∀ e ∈ fl, (d.addr e.1).isSome
  · right
    obtain ⟨d', hd', -⟩ := h1 hk
    refine ⟨fun e he => (hinv.defined _).1 (hk e he), d', hd', fun n v => ⟨get_effective _ _ hclean hd' n v, ?_⟩⟩
    exact effective_get _ _ (inv_run _ _ hclean hd') n v
  · left
    push Not at hk
    obtain ⟨e, he, hx⟩ := hk
    refine ⟨⟨e, he, fun st hst hn => ?_⟩, h2 ⟨e, he, by simpa using hx⟩⟩
    exact hx ((hinv.defined _).2 ⟨st, hst, hn⟩)

/-- The only configurations with references are those of the Heisenberg model with Markov chains. -/
theorem no_ref (p : List Stmt) (hp : Shipped p) (h : ∀ model, p = heisenberg2d model → model.hasAR = true) (n s : String) :
    .ref n s ∉ p := by
  cases hp with
  | heisenberg2d model =>
    have := h model rfl
    simp [heisenberg2d, argpsBase, this]
  | hubbard1d => simp [hubbard1d, argpsBase]
  | fermiHubbard => simp [fermiHubbard, backflowBase]
  | h2o => simp [h2o, backflowBase]
  | hsheet => simp [hsheet, backflowBase]
  | hydrogen g b t p hh =>
    unfold hydrogen at hh
    split_ifs at hh
    cases hh
    simp [argpsBase]

/-- **C186** for all other configurations: every command line. -/
theorem C186_all_flags (p : List Stmt) (hp : Shipped p) (h : ∀ model, p = heisenberg2d model → model.hasAR = true)
    (fl : List (String × Val)) :
    ((∃ e ∈ fl, ∀ st ∈ p, st.name ≠ e.1) ∧ run (p ++ flags fl) = none) ∨
    ((∀ e ∈ fl, ∃ st ∈ p, st.name = e.1) ∧
      ∃ d, run (p ++ flags fl) = some d ∧ ∀ n v, d.get n = some v ↔ Effective (p ++ flags fl) n v) :=
  C186_options_partial p hp fl fun _ _ s => no_ref p hp h _ s

set_option maxRecDepth 100000 in
theorem shared_cell (model : ArgpsModel.Name) (hm : model.hasAR = false) :
    ∃ d a, run (heisenberg2d model) = some d ∧ d.addr "system.Lx" = some a ∧ d.addr "sampler.n_sweeps" = some a ∧ a < d.cells.length := by
  cases model with
  | ARGPS => cases hm
  | ARFilterGPS => cases hm
  | GPS => exact ⟨(run (heisenberg2d .GPS)).get (by decide), 8, by simp, by decide, by decide, by decide⟩
  | FilterGPS => exact ⟨(run (heisenberg2d .FilterGPS)).get (by decide), 8, by simp, by decide, by decide, by decide⟩
  | MaskedGPS => exact ⟨(run (heisenberg2d .MaskedGPS)).get (by decide), 8, by simp, by decide, by decide, by decide⟩
  | MaskedFilterGPS => exact ⟨(run (heisenberg2d .MaskedFilterGPS)).get (by decide), 8, by simp, by decide, by decide, by decide⟩

/-- **C186 is false**: in the configuration of the Heisenberg model with Markov chains the number of sweeps and the length of the
lattice are one and the same, whatever flags are given. -/
theorem C186_shared_fails (model : ArgpsModel.Name) (hm : model.hasAR = false) (fl : List (String × Val)) (d : Dict)
    (h : run (heisenberg2d model ++ flags fl) = some d) : d.get "system.Lx" = d.get "sampler.n_sweeps" := by
  obtain ⟨d0, a, h0, h1, h2, -⟩ := shared_cell model hm
  obtain ⟨i1, i2⟩ := run_flags _ _ h0 fl
  by_cases hk : ∀ e ∈ fl, (d0.addr e.1).isSome
  · obtain ⟨d', hd', hfld⟩ := i1 hk
    rw [h] at hd'
    cases hd'
    have : d.addr = d0.addr := by unfold Dict.addr; rw [hfld]
    simp [Dict.get, this, h1, h2]
  · push Not at hk
    obtain ⟨e, he, hx⟩ := hk
    rw [i2 ⟨e, he, by simpa using hx⟩] at h
    cases h

/-- **C186 is false**: a flag for the number of sweeps of the Heisenberg model also changes the length of the lattice, which should
be the configured one. -/
theorem C186_fails (model : ArgpsModel.Name) (hm : model.hasAR = false) (sweeps : ℤ) :
    ∃ d, run (heisenberg2d model ++ flags [("sampler.n_sweeps", .int sweeps)]) = some d ∧ d.get "system.Lx" = some (.int sweeps) ∧
      Effective (heisenberg2d model ++ flags [("sampler.n_sweeps", .int sweeps)]) "system.Lx" (.int 6) := by
  obtain ⟨d0, a, h0, h1, h2, h3⟩ := shared_cell model hm
  refine ⟨{ d0 with cells := d0.cells.set a (.val (.int sweeps)) }, ?_, ?_, ?_⟩
  · show run (heisenberg2d model ++ [_]) = _
    rw [run_append, h0]
    simp [Dict.step, h2]
  · have : Dict.addr { d0 with cells := d0.cells.set a (.val (.int sweeps)) } "system.Lx" = some a := h1
    simp only [Dict.get, this, Option.bind_some]
    exact readCell_val _ _ _ (by simp [h3])
  · refine .assigned _ _ ⟨(heisenberg2d model).take 9, (heisenberg2d model ++ flags [("sampler.n_sweeps", .int sweeps)]).drop 10, ?_, rfl, ?_⟩
    · cases model <;> rfl
    · simp [heisenberg2d, argpsBase, hm, flags, Stmt.name]

theorem get_val (d : Dict) (n : String) (a : ℕ) (v : Val) (h : d.addr n = some a) (h2 : d.cells[a]? = some (.val v)) :
    d.get n = some v := by simp [Dict.get, h, readCell_val _ _ _ h2]

theorem get_div (d : Dict) (n : String) (a b : ℕ) (i k : ℤ) (h : d.addr n = some a) (h2 : d.cells[a]? = some (.div b k)) (h3 : b < a)
    (h4 : d.cells[b]? = some (.val (.int i))) : d.get n = some (.int (i / k)) := by
  simp [Dict.get, h, readCell_div _ _ _ _ h2 h3, readCell_val _ _ _ h4, Val.floordiv]

set_option maxRecDepth 100000 in
/-- a command line for a lattice of length 8 with 1000 samples, which has no flag for a reference: the numbers derived from them
follow -/
example : (∀ e ∈ [("system.Lx", Val.int 8), ("variational_state.n_samples", Val.int 1000)], ∀ s, .ref e.1 s ∉ heisenberg2d .GPS) ∧
    ∃ d, run (heisenberg2d .GPS ++ flags [("system.Lx", .int 8), ("variational_state.n_samples", .int 1000)]) = some d ∧
    d.get "system.Lx" = some (.int 8) ∧ d.get "sampler.n_sweeps" = some (.int 8) ∧ d.get "sampler.d_max" = some (.int 4) ∧
    d.get "variational_state.n_discard_per_chain" = some (.int 100) ∧ d.get "system.Ly" = some (.int 6) := by
  refine ⟨?_, (run (heisenberg2d .GPS ++ flags [("system.Lx", .int 8), ("variational_state.n_samples", .int 1000)])).get (by decide),
    by simp, get_val _ _ 8 _ (by decide) (by decide), get_val _ _ 8 _ (by decide) (by decide), ?_, ?_,
    get_val _ _ 9 _ (by decide) (by decide)⟩
  · simp [heisenberg2d, argpsBase, ArgpsModel.Name.hasAR]
  · exact get_div _ _ 23 8 8 2 (by decide) (by decide) (by decide) (by decide)
  · exact get_div _ _ 19 18 1000 10 (by decide) (by decide) (by decide) (by decide)

set_option maxRecDepth 100000 in
/-- the wrong lattice of `C186_fails` is not the configured one, and a flag for an option that does not exist is an error -/
example : Val.int 20 ≠ Val.int 6 ∧ run (hubbard1d ++ flags [("system.Ly", .int 2)]) = none := by decide

end GPSKet.Options
