import Verif.Model.UniqueSamples
import Verif.Spec.Rayleigh
import Mathlib.Analysis.Calculus.Deriv.Star
import Mathlib.Analysis.Calculus.Deriv.Mul
import Mathlib.Analysis.Calculus.Deriv.Inv
import Mathlib.Analysis.Calculus.Deriv.Add
import Mathlib.Analysis.Calculus.Deriv.Comp
import Mathlib.Analysis.Complex.RealDeriv
import Mathlib.Algebra.BigOperators.Field
import Mathlib.Tactic.FieldSimp
import Mathlib.Tactic.Ring
import Mathlib.Tactic.NormNum

/-!
# The gradient of the energy (C133)

When the weights of the samples are the Born probabilities of the state, the reported mean is the energy and the reported gradient is
the gradient of the energy.
-/

namespace GPSKet.EnergyGradient

open GPSKet.UniqueSamples GPSKet.Spec

variable {C : Type} [Fintype C] [DecidableEq C]

/-- The total weight of a configuration in the arrays of all ranks. -/
noncomputable def weight {ranks : ℕ} (sw : Fin ranks → List (C × ℝ)) (c : C) : ℝ :=
  ∑ r, (((sw r).filter fun e => decide (e.1 = c)).map Prod.snd).sum

/-- The weights are the Born probabilities of `psi`. -/
def Born {ranks : ℕ} (sw : Fin ranks → List (C × ℝ)) (psi : C → ℂ) : Prop :=
  ∀ c, weight sw c = ‖psi c‖ ^ 2 / bornNorm psi

theorem list_sum_by (l : List (C × ℝ)) (f : C → ℂ) :
    (l.map fun e => (e.2 : ℂ) * f e.1).sum
      = ∑ c, ((((l.filter fun e => decide (e.1 = c)).map Prod.snd).sum : ℝ) : ℂ) * f c := by
  induction l with
  | nil => simp
  | cons e l ih =>
    rw [List.map_cons, List.sum_cons, ih]
    have h : ∀ c, (((((e :: l).filter fun e => decide (e.1 = c)).map Prod.snd).sum : ℝ) : ℂ) * f c
        = (if e.1 = c then (e.2 : ℂ) * f c else 0) + ((((l.filter fun e => decide (e.1 = c)).map Prod.snd).sum : ℝ) : ℂ) * f c := by
      intro c
      by_cases hc : e.1 = c
      · rw [List.filter_cons_of_pos (by simpa using hc), List.map_cons, List.sum_cons, if_pos hc]
        push_cast; ring
      · rw [List.filter_cons_of_neg (by simpa using hc), if_neg hc, zero_add]
    simp only [h, Finset.sum_add_distrib, Finset.sum_ite_eq, Finset.mem_univ, if_true]

theorem sum_by {ranks : ℕ} (sw : Fin ranks → List (C × ℝ)) (f : C → ℂ) :
    ∑ r, ((sw r).map fun e => (e.2 : ℂ) * f e.1).sum = ∑ c, (weight sw c : ℂ) * f c := by
  simp only [list_sum_by]
  rw [Finset.sum_comm]
  refine Finset.sum_congr rfl fun c _ => ?_
  unfold weight
  push_cast
  rw [Finset.sum_mul]

/-- C133: with Born probabilities as weights the reported mean of the local energies is the energy of the state.  (A
configuration with vanishing amplitude has weight zero.) -/
theorem C133_mean {ranks : ℕ} (sw : Fin ranks → List (C × ℝ)) (H : C → C → ℂ) (psi : C → ℂ) (hb : Born sw psi) :
    mean sw (localValue H psi) = rayleigh H psi := by
  unfold mean rayleigh
  rw [sum_by, Finset.sum_div]
  refine Finset.sum_congr rfl fun c _ => ?_
  rw [hb c]
  by_cases h0 : psi c = 0
  · simp [h0]
  have hn : ((‖psi c‖ ^ 2 : ℝ) : ℂ) = psi c * (starRingEnd ℂ) (psi c) := by rw [Complex.mul_conj, Complex.normSq_eq_norm_sq]
  rw [Complex.ofReal_div, hn]
  unfold localValue
  have : ∑ y, (starRingEnd ℂ) (psi c) * H c y * psi y = (starRingEnd ℂ) (psi c) * ∑ y, H c y * psi y := by
    rw [Finset.mul_sum]; exact Finset.sum_congr rfl fun y _ => by ring
  rw [this]
  field_simp

omit [DecidableEq C] in
theorem bornNorm_eq (psi : C → ℂ) : (bornNorm psi : ℂ) = ∑ x, (starRingEnd ℂ) (psi x) * psi x := by
  unfold bornNorm
  push_cast
  refine Finset.sum_congr rfl fun x _ => ?_
  rw [mul_comm, Complex.mul_conj, Complex.normSq_eq_norm_sq]
  push_cast; rfl

omit [DecidableEq C] in
theorem rayleigh_real (H : C → C → ℂ) (hH : Hermitian H) (psi : C → ℂ) :
    (starRingEnd ℂ) (rayleigh H psi) = rayleigh H psi := by
  unfold rayleigh
  rw [map_div₀, Complex.conj_ofReal]
  congr 1
  simp only [map_sum]
  rw [Finset.sum_comm]
  refine Finset.sum_congr rfl fun x _ => Finset.sum_congr rfl fun y _ => ?_
  rw [map_mul, map_mul, Complex.conj_conj, ← hH]
  ring

omit [DecidableEq C] in
/-- The derivative of the energy along a differentiable path of states. -/
theorem energy_deriv (H : C → C → ℂ) (hH : Hermitian H) (psi : ℝ → C → ℂ) (dpsi : C → ℂ) (t : ℝ)
    (hd : ∀ c, HasDerivAt (fun s => psi s c) (dpsi c) t) (hn : bornNorm (psi t) ≠ 0) :
    HasDerivAt (fun s => rayleigh H (psi s))
      ((2 * ((∑ x, (starRingEnd ℂ) (dpsi x) * ((∑ y, H x y * psi t y) - rayleigh H (psi t) * psi t x)) / (bornNorm (psi t) : ℂ)).re : ℝ) : ℂ) t := by
  have hc : ∀ c, HasDerivAt (fun s => (starRingEnd ℂ) (psi s c)) ((starRingEnd ℂ) (dpsi c)) t := fun c => (hd c).star
  have hA : HasDerivAt (fun s => ∑ x, ∑ y, (starRingEnd ℂ) (psi s x) * H x y * psi s y)
      (∑ x, ∑ y, ((starRingEnd ℂ) (dpsi x) * H x y * psi t y + (starRingEnd ℂ) (psi t x) * H x y * dpsi y)) t := by
    refine HasDerivAt.fun_sum fun x _ => HasDerivAt.fun_sum fun y _ => ?_
    exact ((hc x).mul_const (H x y)).mul (hd y)
  have hN : HasDerivAt (fun s => (bornNorm (psi s) : ℂ))
      (∑ x, ((starRingEnd ℂ) (dpsi x) * psi t x + (starRingEnd ℂ) (psi t x) * dpsi x)) t := by
    simp only [bornNorm_eq]
    exact HasDerivAt.fun_sum fun x _ => (hc x).mul (hd x)
  have hn' : (bornNorm (psi t) : ℂ) ≠ 0 := by exact_mod_cast hn
  refine (hA.div hN hn').congr_deriv ?_
  set E := rayleigh H (psi t) with hE
  have hEr : (starRingEnd ℂ) E = E := rayleigh_real H hH (psi t)
  have hAE : ∑ x, ∑ y, (starRingEnd ℂ) (psi t x) * H x y * psi t y = E * (bornNorm (psi t) : ℂ) := by
    rw [hE]; unfold rayleigh; field_simp
  set n : ℝ := bornNorm (psi t)
  set S := ∑ x, (starRingEnd ℂ) (dpsi x) * ((∑ y, H x y * psi t y) - E * psi t x) with hS
  have hre : ((2 * (S / (n : ℂ)).re : ℝ) : ℂ) = (S + (starRingEnd ℂ) S) / (n : ℂ) := by
    have : (starRingEnd ℂ) (S / (n : ℂ)) = (starRingEnd ℂ) S / (n : ℂ) := by rw [map_div₀, Complex.conj_ofReal]
    rw [add_div, ← this, Complex.add_conj]
  rw [hre]
  have h1 : S = (∑ x, ∑ y, (starRingEnd ℂ) (dpsi x) * H x y * psi t y) - E * ∑ x, (starRingEnd ℂ) (dpsi x) * psi t x := by
    rw [hS, Finset.mul_sum, ← Finset.sum_sub_distrib]
    refine Finset.sum_congr rfl fun x _ => ?_
    rw [mul_sub, Finset.mul_sum]
    congr 1
    · exact Finset.sum_congr rfl fun y _ => by ring
    · ring
  have h2 : (starRingEnd ℂ) S = (∑ x, ∑ y, (starRingEnd ℂ) (psi t x) * H x y * dpsi y) - E * ∑ x, (starRingEnd ℂ) (psi t x) * dpsi x := by
    rw [h1, map_sub, map_mul, hEr, map_sum]
    congr 1
    · rw [Finset.sum_congr rfl fun x _ => map_sum (starRingEnd ℂ) _ _, Finset.sum_comm]
      refine Finset.sum_congr rfl fun x _ => Finset.sum_congr rfl fun y _ => ?_
      rw [map_mul, map_mul, Complex.conj_conj, ← hH]
      ring
    · rw [map_sum]
      congr 1
      refine Finset.sum_congr rfl fun x _ => ?_
      rw [map_mul, Complex.conj_conj]; ring
  rw [h2, h1, hAE]
  simp only [Finset.sum_add_distrib]
  field_simp
  ring

/-- The gradient of the model with Born probabilities as weights. -/
theorem gradient_born {ranks : ℕ} (sw : Fin ranks → List (C × ℝ)) (H : C → C → ℂ) (psi dpsi : C → ℂ) (hb : Born sw psi)
    (h0 : ∀ c, psi c = 0 → dpsi c = 0) :
    gradient sw (localValue H psi) (fun c => dpsi c / psi c)
      = (∑ x, (starRingEnd ℂ) (dpsi x) * ((∑ y, H x y * psi y) - rayleigh H psi * psi x)) / (bornNorm psi : ℂ) := by
  unfold gradient
  rw [C133_mean sw H psi hb]
  have : ∀ r, ((sw r).map fun e => (starRingEnd ℂ) (dpsi e.1 / psi e.1) * ((e.2 : ℂ) * (localValue H psi e.1 - rayleigh H psi))).sum
      = ((sw r).map fun e => (e.2 : ℂ) * ((starRingEnd ℂ) (dpsi e.1 / psi e.1) * (localValue H psi e.1 - rayleigh H psi))).sum := by
    intro r
    refine congrArg List.sum (List.map_congr_left fun e _ => by ring)
  simp only [this]
  rw [sum_by sw fun c => (starRingEnd ℂ) (dpsi c / psi c) * (localValue H psi c - rayleigh H psi), Finset.sum_div]
  refine Finset.sum_congr rfl fun c _ => ?_
  rw [hb c]
  by_cases hc : psi c = 0
  · simp [hc, h0 c hc]
  have hn : ((‖psi c‖ ^ 2 : ℝ) : ℂ) = psi c * (starRingEnd ℂ) (psi c) := by rw [Complex.mul_conj, Complex.normSq_eq_norm_sq]
  have hc' : (starRingEnd ℂ) (psi c) ≠ 0 := by simpa using hc
  rw [Complex.ofReal_div, hn, map_div₀]
  unfold localValue
  field_simp

/-- C133, real parameters: with Born probabilities as weights the reported gradient is the derivative of the energy with respect
to the parameter, for every Hermitian operator and every state that depends differentiably on the parameter, as long as the
amplitudes that vanish do so to first order. -/
theorem C133_real_partial {ranks : ℕ} (sw : Fin ranks → List (C × ℝ)) (H : C → C → ℂ) (hH : Hermitian H) (psi : ℝ → C → ℂ)
    (dpsi : C → ℂ) (t : ℝ) (hd : ∀ c, HasDerivAt (fun s => psi s c) (dpsi c) t) (hn : bornNorm (psi t) ≠ 0)
    (hb : Born sw (psi t)) (h0 : ∀ c, psi t c = 0 → dpsi c = 0) :
    HasDerivAt (fun s => rayleigh H (psi s))
      ((realGradient sw (localValue H (psi t)) (fun c => dpsi c / psi t c) : ℝ) : ℂ) t := by
  unfold realGradient
  rw [gradient_born sw H (psi t) dpsi hb h0]
  exact energy_deriv H hH psi dpsi t hd hn

/-- C133, complex parameters: the derivative of the energy in the direction `d` is twice the real inner product of `d` with the
reported gradient, for states that depend holomorphically on the parameter.  So a small step against the reported gradient lowers the
energy. -/
theorem C133_complex_partial {ranks : ℕ} (sw : Fin ranks → List (C × ℝ)) (H : C → C → ℂ) (hH : Hermitian H) (psi : ℂ → C → ℂ)
    (dpsi : C → ℂ) (z d : ℂ) (hd : ∀ c, HasDerivAt (fun w => psi w c) (dpsi c) z) (hn : bornNorm (psi z) ≠ 0)
    (hb : Born sw (psi z)) (h0 : ∀ c, psi z c = 0 → dpsi c = 0) :
    HasDerivAt (fun s : ℝ => rayleigh H (psi (z + s * d)))
      ((2 * ((starRingEnd ℂ) d * gradient sw (localValue H (psi z)) (fun c => dpsi c / psi z c)).re : ℝ) : ℂ) 0 := by
  have hz : z + ((0 : ℝ) : ℂ) * d = z := by simp
  have hline : HasDerivAt (fun s : ℝ => z + (s : ℂ) * d) d 0 := by
    have h1 : HasDerivAt (fun w : ℂ => z + w * d) d ((0 : ℝ) : ℂ) := by
      simpa using ((hasDerivAt_id ((0 : ℝ) : ℂ)).mul_const d).const_add z
    exact h1.comp_ofReal
  have hpath : ∀ c, HasDerivAt (fun s : ℝ => psi (z + (s : ℂ) * d) c) (dpsi c * d) 0 := by
    intro c
    have h2 : HasDerivAt (fun w => psi w c) (dpsi c) (z + ((0 : ℝ) : ℂ) * d) := by rw [hz]; exact hd c
    exact h2.comp (0 : ℝ) hline
  have key := energy_deriv H hH (fun s => psi (z + (s : ℂ) * d)) (fun c => dpsi c * d) 0 hpath (by rw [hz]; exact hn)
  rw [gradient_born sw H (psi z) dpsi hb h0]
  refine key.congr_deriv ?_
  rw [hz]
  have hs : ∑ x, (starRingEnd ℂ) (dpsi x * d) * ((∑ y, H x y * psi z y) - rayleigh H (psi z) * psi z x)
      = (starRingEnd ℂ) d * ∑ x, (starRingEnd ℂ) (dpsi x) * ((∑ y, H x y * psi z y) - rayleigh H (psi z) * psi z x) := by
    rw [Finset.mul_sum]
    refine Finset.sum_congr rfl fun x _ => ?_
    rw [map_mul]; ring
  rw [hs, mul_div_assoc]

/-- Two configurations with the real amplitudes 1 and `s`, and the operator that exchanges them. -/
noncomputable def exPsi (s : ℝ) (c : Bool) : ℂ := if c then (s : ℂ) else 1
def exH (x y : Bool) : ℂ := if x = y then 0 else 1

theorem exPsi_deriv (t : ℝ) (c : Bool) : HasDerivAt (fun s => exPsi s c) (if c then 1 else 0) t := by
  cases c
  · exact hasDerivAt_const t (1 : ℂ)
  · exact (hasDerivAt_id (t : ℂ)).comp_ofReal

theorem exH_hermitian : Hermitian exH := by
  intro x y; cases x <;> cases y <;> simp [exH]

/-- The hypotheses of `C133_real_partial` are met: at `s = 1` both configurations have probability one half. -/
example : Hermitian exH ∧ (∀ c, HasDerivAt (fun s => exPsi s c) (if c then 1 else 0) 1) ∧ bornNorm (exPsi 1) ≠ 0 ∧
    Born (ranks := 1) ![[(true, 1 / 2), (false, 1 / 2)]] (exPsi 1) ∧ ∀ c, exPsi 1 c = 0 → (if c then (1 : ℂ) else 0) = 0 := by
  have hn : bornNorm (exPsi 1) = 2 := by simp [bornNorm, exPsi]
  refine ⟨exH_hermitian, exPsi_deriv 1, by rw [hn]; norm_num, ?_, ?_⟩
  · intro c
    rw [hn]
    cases c <;> simp [weight, exPsi]
  · intro c; cases c <;> simp [exPsi]

/-- C133 fails where an amplitude vanishes but its derivative does not: at `s = 0` the energy `2 s / (1 + s²)` has slope 2, the
configuration with the vanishing amplitude is never drawn, and the reported gradient is 0. -/
theorem C133_zero_fails :
    Born (ranks := 1) ![[(false, 1)]] (exPsi 0) ∧
    realGradient (ranks := 1) ![[(false, 1)]] (localValue exH (exPsi 0)) (fun c => (if c then 1 else 0) / exPsi 0 c) = 0 ∧
    HasDerivAt (fun s => rayleigh exH (exPsi s)) 2 0 := by
  have hn : bornNorm (exPsi 0) = 1 := by simp [bornNorm, exPsi]
  refine ⟨?_, ?_, ?_⟩
  · intro c
    rw [hn]
    cases c <;> simp [weight, exPsi]
  · simp [realGradient, gradient, exPsi]
  · have key := energy_deriv exH exH_hermitian exPsi (fun c => if c then 1 else 0) 0 (exPsi_deriv 0) (by rw [hn]; norm_num)
    refine key.congr_deriv ?_
    rw [hn]
    simp [exPsi, exH, rayleigh]

end GPSKet.EnergyGradient
