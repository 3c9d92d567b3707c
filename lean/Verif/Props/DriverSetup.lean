import Verif.Model.DriverSetup
import Verif.Props.RMSProp
import Verif.Spec.Occupation

/-! # C174: drivers that can be constructed can make steps -/

namespace GPSKet.DriverSetup
open RMSProp

/-! ## Hilbert spaces -/

theorem hilbertEq_iff (a b : FermionicHilbert) : hilbertEq a b = true ↔ a.size = b.size ∧ a.n_elec = b.n_elec := by
  obtain ⟨n, e⟩ := a
  obtain ⟨m, f⟩ := b
  cases e <;> cases f <;> simp [hilbertEq, constraintOf, constraintEq]

/-- **C174**: two constraints that are equal have the same hash, whatever hash function Python uses. -/
theorem C174_hash (hash : String × (ℕ × ℕ) → ℤ) (a b : ℕ × (ℕ × ℕ)) (h : constraintEq a b = true) : constraintHash hash a = constraintHash hash b := by
  simp only [constraintEq, Bool.and_eq_true, beq_iff_eq] at h
  rw [constraintHash, constraintHash, h.2]

/-! ## `VMC_SRRMSProp` -/

/-- The parameters are all real or all complex. -/
def Homogeneous (s : VState) : Prop := s.nReal = 0 ∨ s.nComplex = 0

/-- **C174**: the constructor accepts exactly the combinations with the same numbers of sites and electrons in state and Hamiltonian, a
supported mode (or none) and parameters of one type. -/
theorem C174_accepts (s : VState) (ham : FermionicHilbert) (mode : Option String) :
    (∃ d, vmcInit s ham mode = .ok d) ↔
      (s.hilbert.size = ham.size ∧ s.hilbert.n_elec = ham.n_elec) ∧ (mode = none ∨ mode = some "complex" ∨ mode = some "real") ∧ Homogeneous s := by
  rw [← hilbertEq_iff]
  unfold vmcInit setMode defaultMode Homogeneous
  by_cases hh : hilbertEq s.hilbert ham = true
  · by_cases hs : s.nReal = 0 ∨ s.nComplex = 0
    · cases mode with
      | none => cases hc : s.complexOutput <;> simp [hh, hs]
      | some m =>
        by_cases hm : m = "complex" ∨ m = "real"
        · simp [hh, hs, hm]
        · simp [hh, hm]
    · constructor
      · rintro ⟨d, hd⟩
        cases mode with
        | none => cases hc : s.complexOutput <;> simp [hh, hs, hc] at hd
        | some m => by_cases hm : m = "complex" ∨ m = "real" <;> simp [hh, hs, hm] at hd
      · rintro ⟨-, -, h⟩
        exact absurd h hs
  · simp [hh]

/-- The mode a driver uses: the given one, or the one that suits the output of the model. -/
def modeOf (s : VState) (mode : Option String) : String := mode.getD (if s.complexOutput then "complex" else "real")

theorem init_driver {s : VState} {ham : FermionicHilbert} {mode : Option String} {d : Driver} (h : vmcInit s ham mode = .ok d) :
    d.mode = modeOf s mode ∧ (d.mode = "complex" ∨ d.mode = "real") ∧ d.emaLength = s.columns := by
  have hacc := (C174_accepts s ham mode).mp ⟨d, h⟩
  obtain ⟨h1, h2, h3⟩ := hacc
  rw [← hilbertEq_iff] at h1
  have hlen : (if 0 < s.nComplex then 2 * s.nParams else s.nParams) = s.columns := by
    unfold VState.nParams VState.columns
    rcases h3 with h3 | h3 <;> split_ifs <;> omega
  unfold vmcInit at h
  rw [h1] at h
  have hs : ¬¬(s.nReal = 0 ∨ s.nComplex = 0) := not_not.mpr h3
  have key : ∀ m, setMode s mode = .ok m → d = ⟨m, s.columns⟩ := by
    intro m hm
    simp only [Bool.not_true, Bool.false_eq_true, if_false, hm, if_neg hs, hlen, Except.ok.injEq] at h
    exact h.symm
  have hmode : setMode s mode = .ok (modeOf s mode) ∧ (modeOf s mode = "complex" ∨ modeOf s mode = "real") := by
    unfold setMode defaultMode modeOf
    rcases h2 with rfl | rfl | rfl
    · cases s.complexOutput <;> simp
    · simp
    · simp
  rw [key _ hmode.1]
  exact ⟨rfl, hmode.2, rfl⟩

/-- **C174**: every step of an accepted driver gives one update per parameter: minus the solution for real parameters, and minus the solutions
for real and imaginary part for complex parameters.  The exception are complex parameters in mode `real`. -/
theorem C174_step_partial (s : VState) (ham : FermionicHilbert) (mode : Option String) (d : Driver) (h : vmcInit s ham mode = .ok d)
    (hex : ¬(0 < s.nComplex ∧ d.mode = "real")) (x : Fin s.columns → ℝ) :
    ∃ u, vmcStep s d x = some u ∧ u.length = s.nParams ∧
      (s.nComplex = 0 → ∀ (k : ℕ) (hk : k < s.columns), u[k]? = some ((-x ⟨k, hk⟩ : ℝ) : ℂ)) ∧
      (0 < s.nComplex → ∀ (k : ℕ) (_ : k < s.nParams) (h1 : k < s.columns) (h2 : s.nParams + k < s.columns),
        u[k]? = some (-((x ⟨k, h1⟩ : ℂ) + Complex.I * (x ⟨s.nParams + k, h2⟩ : ℂ)))) := by
  obtain ⟨hm, hm2, hl⟩ := init_driver h
  have hhom := ((C174_accepts s ham mode).mp ⟨d, h⟩).2.2
  by_cases hc : 0 < s.nComplex
  · have hr : s.nReal = 0 := hhom.resolve_right hc.ne'
    have hmc : d.mode = "complex" := hm2.resolve_right fun h => hex ⟨hc, h⟩
    have hM : s.columns / 2 = s.nParams := by unfold VState.columns VState.nParams; omega
    have hlen : (repack x).length = s.nParams := by simp [repack, hM]
    refine ⟨repack x, ?_, hlen, fun h => absurd h hc.ne', fun _ k hk h1 h2 => ?_⟩
    · unfold vmcStep
      rw [if_neg (not_not.mpr hl), if_pos ⟨hmc, hc⟩, unravel, if_pos hlen]
    · have h2' : s.columns / 2 + k < s.columns := by rw [hM]; exact h2
      rw [repack, List.getElem?_map, List.getElem?_range (by rw [hM]; exact hk), Option.map_some, dif_pos h1, dif_pos h2']
      simp only [hM]
  · have hc0 : s.nComplex = 0 := by omega
    have hcol : s.columns = s.nParams := by unfold VState.columns VState.nParams; omega
    have hlen : (List.ofFn fun k => ((-x k : ℝ) : ℂ)).length = s.nParams := by rw [List.length_ofFn, hcol]
    refine ⟨List.ofFn fun k => ((-x k : ℝ) : ℂ), ?_, hlen, fun _ k hk => ?_, fun h => absurd h hc⟩
    · unfold vmcStep
      rw [if_neg (not_not.mpr hl), if_neg fun h => hc h.2, unravel, if_pos hlen]
    · rw [List.getElem?_ofFn, dif_pos hk]

/-- What is missing from **C174**: with complex parameters the mode `real` is accepted (explicitly, or because the output of the model is
real), but no step can be made, since the updates of the real and imaginary parts are not put together. -/
theorem C174_real_mode_fails (s : VState) (hc : 0 < s.nComplex) (hr : s.nReal = 0) (mode : Option String)
    (hmode : mode = some "real" ∨ mode = none ∧ s.complexOutput = false) :
    ∃ d, vmcInit s s.hilbert mode = .ok d ∧ ∀ x, vmcStep s d x = none := by
  obtain ⟨d, hd⟩ := (C174_accepts s s.hilbert mode).mpr ⟨⟨rfl, rfl⟩, by rcases hmode with h | ⟨h, -⟩ <;> simp [h], Or.inl hr⟩
  refine ⟨d, hd, fun x => ?_⟩
  obtain ⟨hm, -, hl⟩ := init_driver hd
  have hmr : d.mode = "real" := by
    rw [hm, modeOf]
    rcases hmode with rfl | ⟨rfl, h⟩
    · rfl
    · simp [h]
  unfold vmcStep
  rw [if_neg (not_not.mpr hl), if_neg (fun h => by rw [hmr] at h; exact absurd h.1 (by decide)), unravel, if_neg]
  rw [List.length_ofFn]
  unfold VState.columns VState.nParams
  omega

/-- cases of the hypotheses: real parameters in mode `real`, complex parameters with the default mode, and complex parameters in mode `real` -/
example : (∃ d, vmcInit ⟨⟨4, some (2, 2)⟩, 10, 0, true, 100, none⟩ ⟨4, some (2, 2)⟩ (some "real") = .ok d) ∧
    (∃ d, vmcInit ⟨⟨4, some (2, 2)⟩, 0, 10, true, 100, none⟩ ⟨4, some (2, 2)⟩ none = .ok d ∧ d.mode ≠ "real") ∧
    ∃ d, vmcInit ⟨⟨4, none⟩, 0, 10, true, 100, none⟩ ⟨4, none⟩ (some "real") = .ok d := by
  refine ⟨?_, ⟨⟨"complex", 20⟩, by rfl, by decide⟩, ?_⟩
  · exact ⟨⟨"real", 10⟩, by rfl⟩
  · exact ⟨⟨"real", 20⟩, by rfl⟩

/-! ## `minSRVMC` -/

/-- **C174**: constructing the minSR driver for a state without chunk size sets the chunk size to the number of samples of the rank; the next
step then has one chunk with all samples in their order. -/
theorem C174_minsr_first (check : ℕ → ℕ → Bool) (s s' : VState) (ham : FermionicHilbert) (mode : Option String) (hol : Option Bool) (m : String)
    (hs : s.chunkSize = none) (hn : 0 < s.samplesPerRank) (h : minsrInit check s ham mode hol = .ok (m, s')) :
    s'.chunkSize = some s.samplesPerRank ∧ minsrChunks s' = some [List.range s.samplesPerRank] := by
  have hs' : s' = { s with chunkSize := some s.samplesPerRank } := by
    unfold minsrInit at h
    simp only [hs, Option.getD_none] at h
    split_ifs at h
    · split at h
      · cases h
      · simp only [Except.ok.injEq, Prod.mk.injEq] at h
        exact h.2.symm
    · split at h <;> cases h
  subst hs'
  refine ⟨rfl, ?_⟩
  unfold minsrChunks
  simp only [Nat.div_self hn, one_mul, if_true]
  simp

/-- **C174**: with a positive chunk size a step can be made exactly if it divides the number of samples of the rank, and then the chunks
contain every sample exactly once and in order. -/
theorem C174_minsr_chunks (s : VState) (c : ℕ) (hs : s.chunkSize = some c) (hc : 0 < c) :
    ((minsrChunks s).isSome ↔ c ∣ s.samplesPerRank) ∧ ∀ l, minsrChunks s = some l → l.flatten = List.range s.samplesPerRank ∧ ∀ a ∈ l, a.length = c := by
  have hiff : s.samplesPerRank / c * c = s.samplesPerRank ↔ c ∣ s.samplesPerRank :=
    ⟨fun h => ⟨_, by rw [mul_comm]; exact h.symm⟩, fun h => Nat.div_mul_cancel h⟩
  have hflat : ∀ n : ℕ, ((List.range n).map fun i => (List.range c).map fun j => i * c + j).flatten = List.range (n * c) := by
    intro n
    induction n with
    | zero => simp
    | succ n ih =>
      rw [List.range_succ, List.map_append, List.flatten_append, ih, Nat.succ_mul, List.range_add]
      simp
  unfold minsrChunks
  rw [hs]
  simp only
  by_cases h : s.samplesPerRank / c * c = s.samplesPerRank
  · rw [if_pos h]
    refine ⟨by simp [hiff.mp h], fun l hl => ?_⟩
    rw [Option.some.injEq] at hl
    subst hl
    refine ⟨by rw [hflat, h], fun a ha => ?_⟩
    rw [List.mem_map] at ha
    obtain ⟨i, -, rfl⟩ := ha
    simp
  · rw [if_neg h]
    exact ⟨⟨fun hn => by simp at hn, fun hd => absurd (hiff.mpr hd) h⟩, fun l hl => by cases hl⟩

/-- What is missing from **C174**: the constructor fixes the chunk size of a state that had none, so that after a change of the number of
samples no step can be made unless the new number is a multiple of the old one (for example after going from 100 to 150 samples). -/
theorem C174_minsr_resize_fails (check : ℕ → ℕ → Bool) (s s' : VState) (ham : FermionicHilbert) (mode : Option String) (hol : Option Bool)
    (m : String) (hs : s.chunkSize = none) (hn : 0 < s.samplesPerRank) (h : minsrInit check s ham mode hol = .ok (m, s')) (n : ℕ) :
    minsrChunks { s' with samplesPerRank := n } = none ↔ ¬ s.samplesPerRank ∣ n := by
  have hc := (C174_minsr_first check s s' ham mode hol m hs hn h).1
  have := (C174_minsr_chunks { s' with samplesPerRank := n } s.samplesPerRank hc hn).1
  rw [← Option.not_isSome_iff_eq_none, this]

example : ∃ m s', minsrInit (fun n c => decide (n % c = 0)) ⟨⟨4, some (2, 2)⟩, 10, 0, true, 100, none⟩ ⟨4, some (2, 2)⟩ none none = .ok (m, s') ∧
    minsrChunks { s' with samplesPerRank := 150 } = none :=
  ⟨"complex", ⟨⟨4, some (2, 2)⟩, 10, 0, true, 100, some 100⟩, by rfl, by
    rw [C174_minsr_resize_fails (fun n c => decide (n % c = 0)) ⟨⟨4, some (2, 2)⟩, 10, 0, true, 100, none⟩ _ ⟨4, some (2, 2)⟩ none none "complex"
      rfl (by norm_num) (by rfl)]
    norm_num⟩

end GPSKet.DriverSetup
