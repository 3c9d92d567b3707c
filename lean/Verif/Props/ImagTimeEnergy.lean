import Verif.Props.ImagTime
import Verif.Spec.Rayleigh
import Mathlib.Tactic.LinearCombination
import Mathlib.Tactic.FinCases
import Mathlib.Algebra.BigOperators.Field

/-! # Imaginary-time steps lower the energy (C159) -/

namespace GPSKet.ImagTime

open GPSKet.Spec

variable {X P : Type} [Fintype X]

/-- `⟨a|b⟩`. -/
noncomputable def dot (a b : X → ℂ) : ℂ := ∑ x, (starRingEnd ℂ) (a x) * b x

/-- `H a`. -/
noncomputable def act (H : X → X → ℂ) (a : X → ℂ) (x : X) : ℂ := ∑ y, H x y * a y

theorem dot_conj (a b : X → ℂ) : (starRingEnd ℂ) (dot a b) = dot b a := by
  unfold dot
  rw [map_sum]
  exact Finset.sum_congr rfl fun x _ => by rw [map_mul, Complex.conj_conj, mul_comm]

theorem dot_act {H : X → X → ℂ} (hH : Hermitian H) (a b : X → ℂ) : dot a (act H b) = dot (act H a) b := by
  unfold dot act
  simp only [Finset.mul_sum, map_sum, Finset.sum_mul]
  rw [Finset.sum_comm]
  refine Finset.sum_congr rfl fun y _ => Finset.sum_congr rfl fun x _ => ?_
  rw [map_mul, ← hH y x]
  ring

theorem dot_add_right (a b c : X → ℂ) : dot a (fun x => b x + c x) = dot a b + dot a c := by
  unfold dot
  simp only [mul_add, Finset.sum_add_distrib]

theorem dot_smul_right (a b : X → ℂ) (k : ℂ) : dot a (fun x => k * b x) = k * dot a b := by
  unfold dot
  rw [Finset.mul_sum]
  exact Finset.sum_congr rfl fun x _ => by ring

theorem dot_add_left (a b c : X → ℂ) : dot (fun x => a x + b x) c = dot a c + dot b c := by
  unfold dot
  simp only [map_add, add_mul, Finset.sum_add_distrib]

theorem dot_smul_left (a b : X → ℂ) (k : ℝ) : dot (fun x => (k : ℂ) * a x) b = k * dot a b := by
  unfold dot
  rw [Finset.mul_sum]
  exact Finset.sum_congr rfl fun x _ => by rw [map_mul, Complex.conj_ofReal]; ring

theorem act_add (H : X → X → ℂ) (a b : X → ℂ) : act H (fun x => a x + b x) = fun x => act H a x + act H b x := by
  funext x
  unfold act
  simp only [mul_add, Finset.sum_add_distrib]

theorem act_smul (H : X → X → ℂ) (a : X → ℂ) (k : ℂ) : act H (fun x => k * a x) = fun x => k * act H a x := by
  funext x
  unfold act
  rw [Finset.mul_sum]
  exact Finset.sum_congr rfl fun y _ => by ring

theorem dot_self (a : X → ℂ) : dot a a = (bornNorm a : ℂ) := by
  unfold dot bornNorm
  rw [Complex.ofReal_sum]
  exact Finset.sum_congr rfl fun x _ => by rw [mul_comm, Complex.mul_conj, Complex.normSq_eq_norm_sq]

theorem dot_im {H : X → X → ℂ} (hH : Hermitian H) (a : X → ℂ) : dot a (act H a) = ((dot a (act H a)).re : ℂ) := by
  have h := dot_conj a (act H a)
  rw [← dot_act hH] at h
  exact (Complex.conj_eq_iff_re.mp h).symm

theorem rayleigh_eq (H : X → X → ℂ) (a : X → ℂ) : rayleigh H a = dot a (act H a) / (bornNorm a : ℂ) := by
  unfold rayleigh dot act
  congr 1
  refine Finset.sum_congr rfl fun x _ => ?_
  rw [Finset.mul_sum]
  exact Finset.sum_congr rfl fun y _ => by ring

/-- Energies are real. -/
theorem rayleigh_re {H : X → X → ℂ} (hH : Hermitian H) (a : X → ℂ) : (rayleigh H a).re = (dot a (act H a)).re / bornNorm a := by
  rw [rayleigh_eq, dot_im hH, ← Complex.ofReal_div, Complex.ofReal_re, Complex.ofReal_re]

theorem bornNorm_pos {a : X → ℂ} (h : ∃ x, a x ≠ 0) : 0 < bornNorm a := by
  obtain ⟨x, hx⟩ := h
  exact Finset.sum_pos' (fun _ _ => by positivity) ⟨x, Finset.mem_univ x, by positivity⟩

/-- The numbers that describe one step: `N = ⟨ψ|ψ⟩`, `e = ⟨H⟩`, `m₂ = ⟨H²⟩`, `m₃ = ⟨H³⟩` (unnormalised). -/
theorem step_numbers {H : X → X → ℂ} (hH : Hermitian H) (psi : X → ℂ) (k l : ℝ) :
    let φ : X → ℂ := fun x => (k : ℂ) * psi x + (l : ℂ) * act H psi x
    bornNorm φ = k ^ 2 * bornNorm psi + 2 * k * l * (dot psi (act H psi)).re + l ^ 2 * bornNorm (act H psi) ∧
    (dot φ (act H φ)).re = k ^ 2 * (dot psi (act H psi)).re + 2 * k * l * bornNorm (act H psi) + l ^ 2 * (dot (act H psi) (act H (act H psi))).re := by
  intro φ
  have e1 := dot_im hH psi
  have e2 := dot_im hH (act H psi)
  constructor
  · have : (bornNorm φ : ℂ) = (k ^ 2 * bornNorm psi + 2 * k * l * (dot psi (act H psi)).re + l ^ 2 * bornNorm (act H psi) : ℝ) := by
      rw [← dot_self]
      simp only [φ, dot_add_right, dot_add_left, dot_smul_left, dot_smul_right]
      rw [← dot_act hH psi psi, e1, dot_self, dot_self]
      simp only [Complex.ofReal_re]
      push_cast
      ring
    exact_mod_cast this
  · have : dot φ (act H φ) = (k ^ 2 * (dot psi (act H psi)).re + 2 * k * l * bornNorm (act H psi) +
        l ^ 2 * (dot (act H psi) (act H (act H psi))).re : ℝ) := by
      simp only [φ, act_add, act_smul, dot_add_right, dot_add_left, dot_smul_left, dot_smul_right]
      rw [e2, e1, dot_act hH psi (act H psi), dot_self]
      simp only [Complex.ofReal_re]
      push_cast
      ring
    rw [this, Complex.ofReal_re]

/-- What the step does to the energy, with the spread `v = ⟨H²⟩⟨1⟩ - ⟨H⟩²`. -/
theorem step_energy (N e m2 m3 N' e' tau D : ℝ) (hN : 0 < N) (hN' : 0 < N') (ht : 0 < tau)
    (h1 : N' = N - 2 * tau * e + tau ^ 2 * m2) (h2 : e' = e - 2 * tau * m2 + tau ^ 2 * m3)
    (hφ : D ≤ (m2 - 2 * (e / N) * e + (e / N) ^ 2 * N) - tau * (m3 - 2 * (e / N) * m2 + (e / N) ^ 2 * e)) :
    e' / N' ≤ e / N - tau * ((m2 - e ^ 2 / N) * (1 - tau * (e / N)) + D) / N' := by
  have hE : e = e / N * N := by field_simp
  generalize e / N = E at hE hφ ⊢
  subst hE
  have hv : m2 - (E * N) ^ 2 / N = m2 - E ^ 2 * N := by field_simp
  rw [hv, div_le_iff₀ hN', sub_mul, div_mul_cancel₀ _ hN'.ne', h1, h2]
  nlinarith

/-- The part of `H ψ` orthogonal to `ψ`. -/
noncomputable def rest (H : X → X → ℂ) (psi : X → ℂ) (x : X) : ℂ :=
  ((-((dot psi (act H psi)).re / bornNorm psi) : ℝ) : ℂ) * psi x + ((1 : ℝ) : ℂ) * act H psi x

/-- The drop of the energy in one step. -/
theorem energy_drop {H : X → X → ℂ} (hH : Hermitian H) (tau : ℝ) (htau : 0 < tau) (psi psi' : X → ℂ) (h0 : ∃ x, psi x ≠ 0) (h0' : ∃ x, psi' x ≠ 0)
    (hs : ∀ x, psi' x = stepped tau H psi x) :
    (rayleigh H psi').re ≤ (rayleigh H psi).re - tau * (bornNorm (rest H psi) * (1 - tau * (rayleigh H psi).re) +
      (bornNorm (rest H psi) - tau * (dot (rest H psi) (act H (rest H psi))).re)) / bornNorm psi' := by
  have e : psi' = fun x => ((1 : ℝ) : ℂ) * psi x + ((-tau : ℝ) : ℂ) * act H psi x := by
    funext x
    rw [hs]
    unfold stepped act
    push_cast
    ring
  have hN := bornNorm_pos h0
  have hN' := bornNorm_pos h0'
  obtain ⟨n1, n2⟩ := step_numbers hH psi 1 (-tau)
  rw [← e] at n1 n2
  obtain ⟨k1, k2⟩ := step_numbers hH psi (-((dot psi (act H psi)).re / bornNorm psi)) 1
  change bornNorm (rest H psi) = _ at k1
  change (dot (rest H psi) (act H (rest H psi))).re = _ at k2
  have key := step_energy (bornNorm psi) (dot psi (act H psi)).re (bornNorm (act H psi)) (dot (act H psi) (act H (act H psi))).re
    (bornNorm psi') (dot psi' (act H psi')).re tau (bornNorm (rest H psi) - tau * (dot (rest H psi) (act H (rest H psi))).re)
    hN hN' htau (by rw [n1]; ring) (by rw [n2]; ring) (by rw [k1, k2]; apply le_of_eq; ring)
  rw [rayleigh_re hH, rayleigh_re hH]
  have hr : bornNorm (act H psi) - (dot psi (act H psi)).re ^ 2 / bornNorm psi = bornNorm (rest H psi) := by
    rw [k1]
    field_simp
    ring
  rw [hr] at key
  exact key

theorem bounded {H : X → X → ℂ} (hH : Hermitian H) {tau : ℝ} (hb : ∀ φ : X → ℂ, (∃ x, φ x ≠ 0) → tau * (rayleigh H φ).re ≤ 1) (φ : X → ℂ) :
    0 ≤ bornNorm φ - tau * (dot φ (act H φ)).re := by
  by_cases hφ : ∃ x, φ x ≠ 0
  · have := hb φ hφ
    rw [rayleigh_re hH, ← mul_div_assoc, div_le_one (bornNorm_pos hφ)] at this
    linarith
  · have h0 : φ = fun _ => 0 := by
      funext x
      by_contra h
      exact hφ ⟨x, h⟩
    subst h0
    simp [dot, bornNorm]

/-- **C159**: one imaginary-time step with `τ ⟨H⟩ ≤ 1` for all states (`τ` at most the inverse of the largest energy) does not raise the
energy of the state, for every Hermitian Hamiltonian and every state without zeros: the energy of the state returned by
`get_imag_time_step_vstate`, where it can be evaluated. -/
theorem C159_lowers (real : Bool) {H : X → X → ℂ} (hH : Hermitian H) (tau : ℝ) (htau : 0 < tau) (s : State X P) (hs : s.vars.tau = none)
    (psi psi' : X → ℂ) (hpsi : ∀ x, s.amp x = some (psi x)) (h0 : ∀ x, psi x ≠ 0) (hpsi' : ∀ x, (imagTimeVState real tau H s).amp x = some (psi' x))
    (h0' : ∃ x, psi' x ≠ 0) (hb : ∀ φ : X → ℂ, (∃ x, φ x ≠ 0) → tau * (rayleigh H φ).re ≤ 1) : (rayleigh H psi').re ≤ (rayleigh H psi).re := by
  have hX : ∃ x, psi x ≠ 0 := h0'.imp fun x _ => h0 x
  refine (energy_drop hH tau htau psi psi' hX h0' fun x => C52_vstate_value real H tau s hs psi hpsi x (h0 x) _ (hpsi' x)).trans (sub_le_self _ ?_)
  have hv : 0 ≤ bornNorm (rest H psi) := Finset.sum_nonneg fun _ _ => by positivity
  have h1 := bounded hH hb (rest H psi)
  have h2 := mul_nonneg hv (sub_nonneg.mpr (hb psi hX))
  exact div_nonneg (mul_nonneg htau.le (by linarith)) (bornNorm_pos h0').le

/-- **C159**: if the step is shorter than the inverse of the largest energy, then the energy goes strictly down unless the state is an
eigenstate already. -/
theorem C159_strict (real : Bool) {H : X → X → ℂ} (hH : Hermitian H) (tau : ℝ) (htau : 0 < tau) (s : State X P) (hs : s.vars.tau = none)
    (psi psi' : X → ℂ) (hpsi : ∀ x, s.amp x = some (psi x)) (h0 : ∀ x, psi x ≠ 0) (hpsi' : ∀ x, (imagTimeVState real tau H s).amp x = some (psi' x))
    (h0' : ∃ x, psi' x ≠ 0) (hb : ∀ φ : X → ℂ, (∃ x, φ x ≠ 0) → tau * (rayleigh H φ).re < 1)
    (he : ¬∃ E : ℂ, ∀ x, ∑ y, H x y * psi y = E * psi x) : (rayleigh H psi').re < (rayleigh H psi).re := by
  have hX : ∃ x, psi x ≠ 0 := h0'.imp fun x _ => h0 x
  refine (energy_drop hH tau htau psi psi' hX h0' fun x => C52_vstate_value real H tau s hs psi hpsi x (h0 x) _ (hpsi' x)).trans_lt (sub_lt_self _ ?_)
  have hr : ∃ x, rest H psi x ≠ 0 := by
    by_contra h
    simp only [not_exists, not_not] at h
    refine he ⟨((dot psi (act H psi)).re / bornNorm psi : ℝ), fun x => ?_⟩
    have := h x
    unfold rest at this
    change act H psi x = _
    push_cast at this ⊢
    linear_combination this
  have hv := bornNorm_pos hr
  have h1 := bounded hH (fun φ h => (hb φ h).le) (rest H psi)
  have h2 := mul_pos hv (sub_pos.mpr (hb psi hX))
  exact div_pos (mul_pos htau (by linarith)) (bornNorm_pos h0')

/-- The same for the values that `ImagTimeStep` returns for a list of all configurations. -/
theorem C159_values (real : Bool) {H : X → X → ℂ} (hH : Hermitian H) (tau : ℝ) (htau : 0 < tau) (psi psi' : X → ℂ) (v : VState X) (all : List X)
    (hall : ∀ x, x ∈ all) (h0 : ∀ x, psi x ≠ 0) (hpsi' : (imagTimeStep real H psi false tau v all).2 = some (all.map fun x => some (psi' x)))
    (h0' : ∃ x, psi' x ≠ 0) (hb : ∀ φ : X → ℂ, (∃ x, φ x ≠ 0) → tau * (rayleigh H φ).re ≤ 1) : (rayleigh H psi').re ≤ (rayleigh H psi).re := by
  have hX : ∃ x, psi x ≠ 0 := h0'.imp fun x _ => h0 x
  have hval : ∀ x, psi' x = stepped tau H psi x := by
    intro x
    unfold imagTimeStep getLocalEnergies localEstimators at hpsi'
    simp only [Bool.false_eq_true, if_false, Option.map_some, List.zipWith_map, Option.some.injEq, List.zipWith_self] at hpsi'
    have := List.map_inj_left.mp hpsi' x (hall x)
    rw [Option.map_eq_some_iff] at this
    obtain ⟨f, hf, h⟩ := this
    unfold logArg at hf
    split_ifs at hf
    rw [Option.some.injEq] at hf
    have hne := h0 x
    rw [← h, ← hf, factor_eq _ H psi x hne]
    field_simp
  refine (energy_drop hH tau htau psi psi' hX h0' hval).trans (sub_le_self _ ?_)
  have hv : 0 ≤ bornNorm (rest H psi) := Finset.sum_nonneg fun _ _ => by positivity
  have h1 := bounded hH hb (rest H psi)
  have h2 := mul_nonneg hv (sub_nonneg.mpr (hb psi hX))
  exact div_nonneg (mul_nonneg htau.le (by linarith)) (bornNorm_pos h0').le

/-- two configurations with energies 0 and 1 -/
noncomputable def twoLevels (x y : Bool) : ℂ := if x = y then (if x then 1 else 0) else 0

/-- the state `|0⟩ + |1⟩` -/
noncomputable def plusState : State Bool Unit := ⟨fun _ _ => some 1, ⟨(), none⟩⟩

theorem twoLevels_hermitian : Hermitian twoLevels := by
  intro x y
  cases x <;> cases y <;> simp [twoLevels]

/-- the bound on the step is needed: with `τ = 3` the energy of `|0⟩ + |1⟩` rises from `1/2` to `4/5` -/
theorem C159_long_step_fails : ∃ psi' : Bool → ℂ, (∀ x, (imagTimeVState false 3 twoLevels plusState).amp x = some (psi' x)) ∧
    (rayleigh twoLevels (fun _ => 1)).re < (rayleigh twoLevels psi').re := by
  refine ⟨stepped ((3 : ℝ) : ℂ) twoLevels fun _ => 1, fun x => C52_vstate_partial false twoLevels 3 (by norm_num) plusState rfl (fun _ => 1)
    (fun _ => rfl) x one_ne_zero (by intro h; cases h), ?_⟩
  rw [rayleigh_re twoLevels_hermitian, rayleigh_re twoLevels_hermitian]
  simp [dot, act, stepped, twoLevels, bornNorm]
  norm_num

/-- a case of the hypotheses: `τ = 1/2` for the same state, also when everything is real -/
example : ∃ psi' : Bool → ℂ, (∀ x, (imagTimeVState true (1 / 2) twoLevels plusState).amp x = some (psi' x)) ∧
    (rayleigh twoLevels psi').re < (rayleigh twoLevels (fun _ => 1)).re := by
  have h : ∀ x, (imagTimeVState true (1 / 2) twoLevels plusState).amp x = some (stepped ((1 / 2 : ℝ) : ℂ) twoLevels (fun _ => 1) x) :=
    fun x => C52_vstate_partial true twoLevels (1 / 2) (by norm_num) plusState rfl (fun _ => 1)
      (fun _ => rfl) x one_ne_zero (by intro h; cases x <;> simp [stepped, twoLevels]; norm_num)
  refine ⟨_, h, C159_strict true twoLevels_hermitian (1 / 2) (by norm_num) plusState rfl (fun _ => 1) _ (fun _ => rfl) (fun _ => one_ne_zero) h
    ⟨false, by simp [stepped, twoLevels]⟩ ?_ ?_⟩
  · intro φ hφ
    have hp := bornNorm_pos hφ
    rw [rayleigh_re twoLevels_hermitian, ← mul_div_assoc, div_lt_one hp]
    simp only [bornNorm, dot, act, twoLevels, Fintype.sum_bool] at hp ⊢
    simp only [← Complex.normSq_eq_norm_sq, Complex.normSq_apply] at hp ⊢
    simp at hp ⊢
    nlinarith [mul_self_nonneg (φ true).re, mul_self_nonneg (φ true).im, mul_self_nonneg (φ false).re, mul_self_nonneg (φ false).im]
  · rintro ⟨E, hE⟩
    have h1 := hE true
    have h2 := hE false
    simp [twoLevels] at h1 h2
    rw [← h1] at h2
    exact one_ne_zero h2.symm

end GPSKet.ImagTime
