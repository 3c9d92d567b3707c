import Verif.Model.SupervisedAlpha
import Mathlib.Tactic.Ring
import Mathlib.Tactic.NormNum
import Mathlib.Tactic.Linarith

/-! # C57: the prior precisions of the supervised fits -/

namespace GPSKet.SupervisedAlpha

variable {L : ℕ}

/-- C57: an assignment of precisions through the setter takes effect: the getter returns them, for any reference sites. -/
theorem C57_alpha_set (D M : ℕ) (refs : ℕ → Fin L) (s : State L) (alpha : List ℝ)
    (hlen : alpha.length = (if s.expand then 2 * (D * M) else D * M) +
      if s.includeBias then (if s.expand then 2 else 1) else 0) :
    (s.set D M refs alpha).get D M refs = alpha := by
  replace hlen : alpha.length = nFeatures D M s.expand + if s.includeBias then nBias s.expand else 0 := by
    rw [hlen]
    simp only [nFeatures, nBias, Nat.mul_assoc]
  obtain ⟨pre, ex, bias, mat, ab⟩ := s
  simp only at hlen
  cases bias with
  | false =>
    simp only [State.get, State.set, Bool.false_eq_true, if_false, List.append_nil, add_zero] at hlen ⊢
    apply List.ext_getElem
    · simp [hlen]
    · intro i h1 h2
      simp only [List.getElem_map, List.getElem_range]
      rw [if_pos ⟨by omega, trivial⟩, List.getD_eq_getElem _ _ h2]
  | true =>
    simp only [State.get, State.set, if_true] at hlen ⊢
    rw [show alpha.length - nBias ex = nFeatures D M ex by omega]
    conv_rhs => rw [← List.take_append_drop (nFeatures D M ex) alpha]
    congr 1
    apply List.ext_getElem
    · simp; omega
    · intro i h1 h2
      simp only [List.getElem_map, List.getElem_range]
      have hi : i < nFeatures D M ex := by simpa using h1
      rw [if_pos ⟨hi, trivial⟩, List.getD_eq_getElem _ _ h2]

/-- The setter leaves the precisions of all other sites alone. -/
theorem C57_alpha_set_other (D M : ℕ) (refs : ℕ → Fin L) (s : State L) (alpha : List ℝ) (j : Fin L) (f : ℕ)
    (h : siteOf D M refs f ≠ j) : (s.set D M refs alpha).alphaMat j f = s.alphaMat j f := by
  simp [State.set, h]

/-- The site whose precisions feature `w * D + d` uses is the reference site of support index `w`, also for imaginary parts. -/
theorem C57_alpha_site (D M : ℕ) (refs : ℕ → Fin L) (w d : ℕ) (hw : w < M) (hd : d < D) :
    siteOf D M refs (w * D + d) = refs w ∧ siteOf D M refs (D * M + (w * D + d)) = refs w := by
  have h : w * D + d < D * M := by
    calc w * D + d < w * D + D := by omega
      _ = (w + 1) * D := by ring
      _ ≤ M * D := Nat.mul_le_mul_right _ (by omega)
      _ = D * M := Nat.mul_comm _ _
  have hdiv : (w * D + d) / D = w := by
    rw [Nat.add_comm, Nat.add_mul_div_right _ _ (by omega), Nat.div_eq_of_lt hd, Nat.zero_add]
  constructor
  · rw [siteOf, Nat.mod_eq_of_lt h, hdiv]
  · rw [siteOf, Nat.add_mod_left, Nat.mod_eq_of_lt h, hdiv]

/-- C57 fails: the fit steps that optimise the noise restore the precisions before each evaluation of the likelihood by `np.copyto` into
the getter, which changes nothing (unless features are precomputed and there is no bias). -/
theorem C57_alpha_reset_fails (D M : ℕ) (refs : ℕ → Fin L) (s : State L) (alphaInit : List ℝ)
    (h : s.precomputed = false ∨ s.includeBias = true) : (s.copyto D M refs alphaInit).get D M refs = s.get D M refs := by
  have : (s.precomputed && !s.includeBias) = false := by
    rcases h with h | h <;> simp [h]
  simp [State.copyto, this]

/-- So a restored value that differs from the current one is not there after the restoration; this happens, e.g., for one parameter
with precision 1 to be reset to 2. -/
example : ∃ (s : State 1) (alphaInit : List ℝ), s.precomputed = false ∧ alphaInit.length = (s.get 1 1 fun _ => 0).length ∧
    (s.copyto 1 1 (fun _ => 0) alphaInit).get 1 1 (fun _ => 0) ≠ alphaInit := by
  refine ⟨⟨false, false, false, fun _ _ => 1, [1]⟩, [2], rfl, rfl, ?_⟩
  simp [State.copyto, State.get, nFeatures]

/-- What holds: for precomputed features without a bias the restoration works. -/
theorem C57_alpha_reset_partial (D M : ℕ) (refs : ℕ → Fin L) (s : State L) (alphaInit : List ℝ)
    (hp : s.precomputed = true) (hb : s.includeBias = false) (hlen : alphaInit.length = if s.expand then 2 * (D * M) else D * M) :
    (s.copyto D M refs alphaInit).get D M refs = alphaInit := by
  simp only [State.copyto, hp, hb, Bool.not_false, Bool.and_self, if_true]
  exact C57_alpha_set D M refs s alphaInit (by simp [hlen, hb])

/-- C57: unless real and imaginary parts are separate and there is a bias, each precision regularises the component it is kept for. -/
theorem C57_pairing_partial (D M : ℕ) (expand includeBias : Bool) (h : ¬ (expand = true ∧ includeBias = true)) :
    weightLayout D M expand includeBias = alphaLayout D M expand includeBias := by
  have e1 : ((List.range (D * M)).map fun f => if f < D * M then Component.re f else Component.im (f - D * M))
      = (List.range (D * M)).map Component.re := by
    apply List.map_congr_left
    intro f hf
    rw [if_pos (List.mem_range.mp hf)]
  cases expand with
  | false => simp only [weightLayout, alphaLayout, nFeatures, Bool.false_eq_true, if_false, List.append_nil, e1]
  | true =>
    cases includeBias with
    | true => exact absurd ⟨rfl, rfl⟩ h
    | false =>
      simp only [weightLayout, alphaLayout, nFeatures, Bool.false_eq_true, if_false, if_true, List.append_nil]
      rw [show 2 * D * M = D * M + D * M by ring, List.range_add, List.map_append, e1, List.map_map]
      congr 1
      apply List.map_congr_left
      intro f _
      simp

/-- C57 fails with separate real and imaginary parts and a bias: the precision kept for the imaginary part of the first parameter
regularises the real part of the bias, and none of the entries behind it pairs with its component, except the last. -/
theorem C57_pairing_fails (D M : ℕ) (hDM : 0 < D * M) :
    (weightLayout D M true true)[D * M]? = some Component.biasRe ∧
    (alphaLayout D M true true)[D * M]? = some (Component.im 0) ∧
    (weightLayout D M true true).length = (alphaLayout D M true true).length ∧
    (∀ k, k < D * M → (weightLayout D M true true)[D * M + 1 + k]? ≠ (alphaLayout D M true true)[D * M + 1 + k]?) ∧
    (weightLayout D M true true).getLast? = some Component.biasIm ∧
    (alphaLayout D M true true).getLast? = some Component.biasIm := by
  have hw : ∀ k, k < D * M → (weightLayout D M true true)[D * M + 1 + k]? = some (Component.im k) := by
    intro k hk
    simp only [weightLayout, if_true, List.append_assoc]
    rw [List.getElem?_append_right (by simp; omega), List.getElem?_append_right (by simp; omega),
      List.getElem?_append_left (by simp; omega)]
    simp only [List.length_map, List.length_range, List.length_cons, List.length_nil]
    rw [show D * M + 1 + k - D * M - (0 + 1) = k by omega]
    simp [hk]
  refine ⟨?_, ?_, ?_, ?_, by simp [weightLayout, ← List.append_assoc, ← List.cons_append], by simp [alphaLayout]⟩
  · simp only [weightLayout, if_true, List.append_assoc]
    rw [List.getElem?_append_right (by simp)]
    simp
  · simp only [alphaLayout, nFeatures, if_true]
    have : D * M < 2 * D * M := by rw [Nat.mul_assoc]; omega
    rw [List.getElem?_append_left (by simpa using this)]
    simp [this]
  · simp [weightLayout, alphaLayout, nFeatures]
    ring
  · intro k hk
    rw [hw k hk]
    simp only [alphaLayout, nFeatures, if_true]
    by_cases h : k + 1 < D * M
    · have : D * M + 1 + k < 2 * D * M := by rw [Nat.mul_assoc]; omega
      rw [List.getElem?_append_left (by simpa using this)]
      rw [List.getElem?_map, List.getElem?_range this, Option.map_some, if_neg (by omega), ne_eq, Option.some.injEq, Component.im.injEq]
      omega
    · have : 2 * D * M = D * M + 1 + k := by rw [Nat.mul_assoc]; omega
      rw [List.getElem?_append_right (by simp [this])]
      simp [this]

end GPSKet.SupervisedAlpha
