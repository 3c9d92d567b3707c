import Verif.Model.DriverHistory
import Verif.Props.RMSProp

/-!
# C172: the regularisation of VMC_SRRMSProp over the life of a driver
-/

namespace GPSKet.DriverHistory
open RMSProp Props

/-- The events after the last restart. -/
noncomputable def sinceRestart (h : List Event) : List Event :=
  (h.reverse.takeWhile fun e => match e with
    | .restart => false
    | _ => true).reverse

/-- The events after the last reset. -/
noncomputable def sinceReset (h : List Event) : List Event :=
  (h.reverse.takeWhile fun e => match e with
    | .reset => false
    | _ => true).reverse

/-- The gradients in a list of events, in order. -/
noncomputable def gradients (h : List Event) : List ℝ := h.filterMap fun e => match e with
  | .step g => some g
  | _ => none

theorem after_eq (decay : ℝ) (h : List Event) :
    after decay h = ⟨emaAfter decay 0 (gradients (sinceRestart h)), (gradients (sinceReset h)).length⟩ := by
  induction h using List.reverseRecOn with
  | nil => rfl
  | append_singleton h e ih =>
    unfold after at ih ⊢
    rw [List.foldl_append, ih]
    cases e with
    | step g => simp [handle, sinceRestart, sinceReset, gradients, emaAfter, List.foldl_append]
    | reset => simp [handle, sinceRestart, sinceReset, gradients, emaAfter]
    | restart => simp [handle, sinceRestart, sinceReset, gradients, emaAfter, fresh]

/-- C172, general: the regulariser of a step is a sum of the squared gradients since the last restart, with non-negative weights.  The sum
of the weights is `(1 - decay^m) / (1 - decay^s)`, where `m` is the number of gradients since the last restart and `s` the one since the
last reset, including the one of the step. -/
theorem C172_weights (decay : ℝ) (h0 : 0 ≤ decay) (h1 : decay < 1) (h : List Event) (g : ℝ) :
    let gs := gradients (sinceRestart h) ++ [g]
    let s := (gradients (sinceReset h)).length + 1
    ∃ w : Fin gs.length → ℝ, (∀ i, 0 ≤ w i) ∧ ∑ i, w i = (1 - decay ^ gs.length) / (1 - decay ^ s) ∧
      regulariser decay (after decay h) g = ∑ i, w i * (gs.get i) ^ 2 := by
  intro gs s
  have hs : 0 < 1 - decay ^ s := by
    have : decay ^ s < 1 := pow_lt_one₀ h0 h1 (Nat.succ_ne_zero _)
    linarith
  have hlen : gs.length ≠ 0 := by simp [gs]
  have hm : 0 < 1 - decay ^ gs.length := by
    have := pow_lt_one₀ h0 h1 hlen
    linarith
  obtain ⟨w, w0, w1, w2⟩ := C46_weighted_mean decay h0 h1 gs (by simp [gs])
  refine ⟨fun i => (1 - decay ^ gs.length) / (1 - decay ^ s) * w i, fun i => mul_nonneg (div_nonneg hm.le hs.le) (w0 i), ?_, ?_⟩
  · rw [← Finset.mul_sum, w1, mul_one]
  · have e : emaAfter decay 0 gs = updateEma decay (emaAfter decay 0 (gradients (sinceRestart h))) g := by
      simp [gs, emaAfter, List.foldl_append]
    have hl : gs.length - 1 + 1 = gs.length := Nat.sub_add_cancel (Nat.one_le_iff_ne_zero.mpr hlen)
    unfold regulariser
    rw [after_eq]
    simp only [mul_assoc]
    rw [← Finset.mul_sum, ← w2, e]
    unfold biasCorrected
    rw [hl]
    change _ / (1 - decay ^ s) = _
    have := hs.ne'
    have := hm.ne'
    field_simp

/-- C172: as long as the driver is neither reset nor restarted after its first step, the regulariser is a weighted mean of all squared
gradients so far. -/
theorem C172_weighted_mean_partial (decay : ℝ) (h0 : 0 ≤ decay) (h1 : decay < 1) (h : List Event)
    (hreset : gradients (sinceReset h) = gradients h) (hrestart : gradients (sinceRestart h) = gradients h) (g : ℝ) :
    let gs := gradients h ++ [g]
    ∃ w : Fin gs.length → ℝ, (∀ i, 0 ≤ w i) ∧ ∑ i, w i = 1 ∧ regulariser decay (after decay h) g = ∑ i, w i * (gs.get i) ^ 2 := by
  have hw := C172_weights decay h0 h1 h g
  rw [hreset, hrestart] at hw
  obtain ⟨w, w0, w1, w2⟩ := hw
  refine ⟨w, w0, ?_, w2⟩
  rw [w1]
  have : (gradients h ++ [g]).length = (gradients h).length + 1 := by simp
  rw [this]
  refine div_self ?_
  have := pow_lt_one₀ h0 h1 (Nat.succ_ne_zero (gradients h).length)
  intro hc
  rw [sub_eq_zero] at hc
  exact absurd hc (by rw [Nat.succ_eq_add_one] at this; exact ne_of_gt this)

/-- A history meeting the hypotheses: a reset before the first step, and three steps. -/
example : gradients (sinceReset [.reset, .step 1, .step 2, .step 3]) = gradients [.reset, .step 1, .step 2, .step 3] ∧
    gradients (sinceRestart [.reset, .step 1, .step 2, .step 3]) = gradients [.reset, .step 1, .step 2, .step 3] ∧
    (gradients [.reset, .step 1, .step 2, .step 3]).length = 3 := by
  simp [gradients, sinceReset, sinceRestart]

/-- The factor for gradients of constant size. -/
theorem C172_constant (decay : ℝ) (h0 : 0 ≤ decay) (h1 : decay < 1) (h : List Event) (g : ℝ)
    (hg : ∀ g' ∈ gradients h, g' ^ 2 = g ^ 2) :
    regulariser decay (after decay h) g =
      (1 - decay ^ ((gradients (sinceRestart h)).length + 1)) / (1 - decay ^ ((gradients (sinceReset h)).length + 1)) * g ^ 2 := by
  obtain ⟨w, -, w1, w2⟩ := C172_weights decay h0 h1 h g
  rw [w2]
  have hall : ∀ i : Fin (gradients (sinceRestart h) ++ [g]).length, ((gradients (sinceRestart h) ++ [g]).get i) ^ 2 = g ^ 2 := by
    intro i
    have hmem := List.get_mem (gradients (sinceRestart h) ++ [g]) i
    rcases List.mem_append.mp hmem with hm | hm
    · refine hg _ ?_
      unfold gradients at hm ⊢
      rw [List.mem_filterMap] at hm ⊢
      obtain ⟨e, he, he2⟩ := hm
      refine ⟨e, ?_, he2⟩
      unfold sinceRestart at he
      rw [List.mem_reverse] at he
      exact List.mem_reverse.mp ((List.takeWhile_sublist _).subset he)
    · rw [List.mem_singleton.mp hm]
  simp only [hall]
  rw [← Finset.sum_mul, w1]
  simp

/-- C172 fails after `reset()`: the average keeps its history but the bias correction starts again.  After `n` steps with gradient `g` and
a reset, the regulariser of the next step is `g²` times `(1 - decay^(n+1)) / (1 - decay)`, so that it exceeds every squared gradient; for
the default `decay = 0.9` it approaches ten times the squared gradient. -/
theorem C172_reset_fails (decay : ℝ) (h0 : 0 < decay) (h1 : decay < 1) (n : ℕ) (hn : 0 < n) (g : ℝ) (hg : g ≠ 0) :
    let h := List.replicate n (.step g) ++ [.reset]
    regulariser decay (after decay h) g = (1 - decay ^ (n + 1)) / (1 - decay) * g ^ 2 ∧ g ^ 2 < regulariser decay (after decay h) g := by
  intro h
  have e : regulariser decay (after decay h) g = (1 - decay ^ (n + 1)) / (1 - decay) * g ^ 2 := by
    rw [C172_constant decay h0.le h1 h g]
    · have a : (gradients (sinceRestart h)).length = n := by
        have : sinceRestart h = h := by
          have hall : ∀ l : List Event, (∀ e ∈ l, e = .step g ∨ e = .reset) → sinceRestart l = l := by
            intro l hl
            induction l using List.reverseRecOn with
            | nil => rfl
            | append_singleton l e ih =>
              have ihl := ih fun e' he' => hl e' (List.mem_append_left _ he')
              rcases hl e (by simp) with rfl | rfl <;> simpa [sinceRestart] using ihl
          refine hall h fun e he => ?_
          simp only [h, List.mem_append, List.mem_replicate, List.mem_singleton] at he
          rcases he with ⟨-, he⟩ | he
          · exact Or.inl he
          · exact Or.inr he
        rw [this]
        simp [gradients, h]
      have b : gradients (sinceReset h) = [] := by simp [sinceReset, h, gradients]
      rw [a, b]
      simp
    · intro g' hg'
      simp [gradients, h] at hg'
      rw [hg'.2]
  refine ⟨e, ?_⟩
  rw [e]
  have hg2 : 0 < g ^ 2 := by positivity
  have hd : 0 < 1 - decay := by linarith
  have hp : decay ^ (n + 1) < decay := by
    have := pow_lt_one₀ h0.le h1 hn.ne'
    rw [pow_succ]
    nlinarith
  have : 1 < (1 - decay ^ (n + 1)) / (1 - decay) := by
    rw [lt_div_iff₀ hd]
    linarith
  nlinarith

/-- C172 fails after a restart: the average starts again but the bias correction does not.  After `n` steps with gradient `g` the
regulariser of the first step of the new process is `g²` times `(1 - decay) / (1 - decay^(n+1))`, below every squared gradient. -/
theorem C172_restart_fails (decay : ℝ) (h0 : 0 < decay) (h1 : decay < 1) (n : ℕ) (hn : 0 < n) (g : ℝ) (hg : g ≠ 0) :
    let h := List.replicate n (.step g) ++ [.restart]
    regulariser decay (after decay h) g = (1 - decay) / (1 - decay ^ (n + 1)) * g ^ 2 ∧ regulariser decay (after decay h) g < g ^ 2 := by
  intro h
  have e : regulariser decay (after decay h) g = (1 - decay) / (1 - decay ^ (n + 1)) * g ^ 2 := by
    rw [C172_constant decay h0.le h1 h g]
    · have a : (gradients (sinceReset h)).length = n := by
        have : sinceReset h = h := by
          have hall : ∀ l : List Event, (∀ e ∈ l, e = .step g ∨ e = .restart) → sinceReset l = l := by
            intro l hl
            induction l using List.reverseRecOn with
            | nil => rfl
            | append_singleton l e ih =>
              have ihl := ih fun e' he' => hl e' (List.mem_append_left _ he')
              rcases hl e (by simp) with rfl | rfl <;> simpa [sinceReset] using ihl
          refine hall h fun e he => ?_
          simp only [h, List.mem_append, List.mem_replicate, List.mem_singleton] at he
          rcases he with ⟨-, he⟩ | he
          · exact Or.inl he
          · exact Or.inr he
        rw [this]
        simp [gradients, h]
      have b : gradients (sinceRestart h) = [] := by simp [sinceRestart, h, gradients]
      rw [a, b]
      simp
    · intro g' hg'
      simp [gradients, h] at hg'
      rw [hg'.2]
  refine ⟨e, ?_⟩
  rw [e]
  have hg2 : 0 < g ^ 2 := by positivity
  have hp : decay ^ (n + 1) < decay := by
    have := pow_lt_one₀ h0.le h1 hn.ne'
    rw [pow_succ]
    nlinarith
  have hd : 0 < 1 - decay ^ (n + 1) := by linarith
  have : (1 - decay) / (1 - decay ^ (n + 1)) < 1 := by
    rw [div_lt_one hd]
    linarith
  nlinarith

end GPSKet.DriverHistory
