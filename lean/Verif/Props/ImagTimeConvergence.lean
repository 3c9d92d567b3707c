import Verif.Props.ImagTimeEnergy
import Verif.Props.ZeroVariance
import Verif.Lemmas.Stoquastic
import Mathlib.Analysis.SpecificLimits.Basic
import Mathlib.Topology.Algebra.Monoid

/-!
# Repeated imaginary-time steps converge to the ground state (C173)

The intended use of `ImagTimeStep`: the values of `(1 - τ H) ψ` are the data for a supervised fit of the next state.  Here the fits are exact, up to a
common factor.
-/

namespace GPSKet.ImagTime

open GPSKet.Spec GPSKet.ZeroVariance Filter Topology

variable {X : Type} [Fintype X]

/-- Specification of the procedure: `psi k` are the amplitudes of the state after `k` fits, without zeros; the values that
`log_imag_time_step` returns for all configurations are numbers, and the next state reproduces them up to a common factor. -/
structure ExactFits (real : Bool) (H : X → X → ℂ) (tau : ℝ) (all : List X) (psi : ℕ → X → ℂ) : Prop where
  nonzero : ∀ k x, psi k x ≠ 0
  fit : ∀ k, ∃ (v : VState X) (phi : X → ℂ) (c : ℂ), c ≠ 0 ∧
    (imagTimeStep real H (psi k) false tau v all).2 = some (all.map fun x => some (phi x)) ∧ ∀ x, psi (k + 1) x = c * phi x

theorem values_stepped {real : Bool} {H : X → X → ℂ} {tau : ℂ} {psi phi : X → ℂ} {v : VState X} {all : List X} (hall : ∀ x, x ∈ all)
    (h0 : ∀ x, psi x ≠ 0) (h : (imagTimeStep real H psi false tau v all).2 = some (all.map fun x => some (phi x))) (x : X) :
    phi x = stepped tau H psi x := by
  unfold imagTimeStep getLocalEnergies localEstimators at h
  simp only [Bool.false_eq_true, if_false, Option.map_some, List.zipWith_map, Option.some.injEq, List.zipWith_self] at h
  have := List.map_inj_left.mp h x (hall x)
  rw [Option.map_eq_some_iff] at this
  obtain ⟨f, hf, h⟩ := this
  unfold logArg at hf
  split_ifs at hf
  rw [Option.some.injEq] at hf
  have hne := h0 x
  rw [← h, ← hf, factor_eq _ H psi x hne]
  field_simp

/-- The states after `k` steps in the basis of the eigenstates. -/
theorem components [DecidableEq X] {real : Bool} {H : X → X → ℂ} (hH : Hermitian H) {tau : ℝ} {all : List X} (hall : ∀ x, x ∈ all) {psi : ℕ → X → ℂ}
    (h : ExactFits real H tau all psi) (k : ℕ) :
    ∃ C : ℂ, C ≠ 0 ∧ ∀ i, inner ℂ ((hermitian_isHermitian H hH).eigenvectorBasis i) (WithLp.toLp 2 (psi k)) =
      C * ((1 - tau * (hermitian_isHermitian H hH).eigenvalues i : ℝ) : ℂ) ^ k *
        inner ℂ ((hermitian_isHermitian H hH).eigenvectorBasis i) (WithLp.toLp 2 (psi 0)) := by
  induction k with
  | zero => exact ⟨1, one_ne_zero, fun i => by simp⟩
  | succ k ih =>
    obtain ⟨C, hC, ih⟩ := ih
    obtain ⟨v, phi, c, hc, hphi, hfit⟩ := h.fit k
    refine ⟨c * C, mul_ne_zero hc hC, fun i => ?_⟩
    have e : WithLp.toLp 2 (psi (k + 1)) =
        c • (WithLp.toLp 2 (psi k) - (tau : ℂ) • WithLp.toLp 2 (fun x => ∑ y, H x y * psi k y) : EuclideanSpace ℂ X) := by
      ext x
      simp only [PiLp.smul_apply, PiLp.sub_apply, smul_eq_mul]
      rw [hfit, values_stepped hall (h.nonzero k) hphi x]
      rfl
    rw [e, inner_smul_right, inner_sub_right, inner_smul_right, component H hH, ih]
    push_cast
    ring

/-- **C173**: if the initial state overlaps with the ground space (energy `E0`) and the step is short enough (`τ (E + E0) < 2` for all
energies), then repeated imaginary-time steps with exact fits converge to a ground state. -/
theorem C173_state (real : Bool) {H : X → X → ℂ} (hH : Hermitian H) {tau : ℝ} (htau : 0 < tau) (all : List X) (hall : ∀ x, x ∈ all) (psi : ℕ → X → ℂ)
    (h : ExactFits real H tau all psi) (E0 : ℝ) (hE0 : ∀ φ : X → ℂ, (∃ x, φ x ≠ 0) → E0 ≤ (rayleigh H φ).re)
    (hov : ∃ g0 : X → ℂ, (∀ x, ∑ y, H x y * g0 y = E0 * g0 x) ∧ ∑ x, (starRingEnd ℂ) (g0 x) * psi 0 x ≠ 0)
    (hb : ∀ φ : X → ℂ, (∃ x, φ x ≠ 0) → tau * ((rayleigh H φ).re + E0) < 2) :
    ∃ (g : X → ℂ) (a : ℕ → ℂ), (∃ x, g x ≠ 0) ∧ (∀ x, ∑ y, H x y * g y = E0 * g x) ∧ (∀ k, a k ≠ 0) ∧
      ∀ x, Tendsto (fun k => a k * psi k x) atTop (𝓝 (g x)) := by
  classical
  set hA := hermitian_isHermitian H hH with hA'
  set b := hA.eigenvectorBasis with hb'
  set lam := hA.eigenvalues with hlam
  have hev : ∀ i x, ∑ y, H x y * b i y = lam i * b i x := by
    intro i x
    have hx := congrFun (hA.mulVec_eigenvectorBasis i) x
    simpa [Matrix.mulVec, dotProduct] using hx
  have hbne : ∀ i, ∃ x, b i x ≠ 0 := by
    intro i
    by_contra hn
    push Not at hn
    have h1 := b.orthonormal.1 i
    have h2 : b i = 0 := by ext x; exact hn x
    rw [h2] at h1; simp at h1
  have hray : ∀ i, (rayleigh H (b i)).re = lam i := by
    intro i
    have hp := bornNorm_pos (hbne i)
    have : rayleigh H (b i) = lam i := by
      rw [rayleigh_eq]
      have : dot (⇑(b i)) (act H (b i)) = lam i * dot (b i) (b i) := by
        rw [← dot_smul_right]
        congr 1
        funext x
        exact hev i x
      rw [this, dot_self, mul_div_cancel_right₀]
      exact_mod_cast hp.ne'
    rw [this, Complex.ofReal_re]
  have hlow : ∀ i, E0 ≤ lam i := fun i => by have := hE0 (b i) (hbne i); rwa [hray i] at this
  have hupp : ∀ i, tau * (lam i + E0) < 2 := fun i => by have := hb (b i) (hbne i); rwa [hray i] at this
  obtain ⟨g0, hg0, hg0ov⟩ := hov
  -- components of the ground state
  have hcomp0 : ∀ i, lam i ≠ E0 → inner ℂ (b i) (WithLp.toLp 2 g0) = 0 := by
    intro i hi
    have h1 := component H hH g0 i
    have h2 : (fun x => ∑ y, H x y * g0 y) = (E0 : ℂ) • g0 := by funext x; exact hg0 x
    rw [h2, WithLp.toLp_smul, inner_smul_right] at h1
    have h3 : ((E0 : ℂ) - (lam i : ℂ)) * inner ℂ (b i) (WithLp.toLp 2 g0) = 0 := by
      rw [sub_mul, h1, sub_self]
    refine (mul_eq_zero.mp h3).resolve_left (sub_ne_zero.mpr ?_)
    exact_mod_cast hi.symm
  obtain ⟨i0, hi0, hc0⟩ : ∃ i, lam i = E0 ∧ inner ℂ (b i) (WithLp.toLp 2 (psi 0)) ≠ 0 := by
    by_contra hn
    push Not at hn
    apply hg0ov
    have h1 : ∑ x, (starRingEnd ℂ) (g0 x) * psi 0 x = inner ℂ (WithLp.toLp 2 g0) (WithLp.toLp 2 (psi 0)) := by
      rw [PiLp.inner_apply]
      refine Finset.sum_congr rfl fun x _ => ?_
      simp only [RCLike.inner_apply]
      ring
    rw [h1, ← b.sum_inner_mul_inner]
    refine Finset.sum_eq_zero fun i _ => ?_
    by_cases hi : lam i = E0
    · rw [hn i hi, mul_zero]
    · rw [← inner_conj_symm, hcomp0 i hi, map_zero, zero_mul]
  have hmu0 : 0 < 1 - tau * E0 := by
    have := hupp i0
    rw [hi0] at this
    linarith
  set c : X → ℂ := fun i => inner ℂ (b i) (WithLp.toLp 2 (psi 0)) with hc
  set g : X → ℂ := fun x => ∑ i, if lam i = E0 then c i * b i x else 0 with hg
  choose C hC hpsi using fun k => components hH hall h k
  refine ⟨g, fun k => (C k)⁻¹ * (((1 - tau * E0 : ℝ) : ℂ) ^ k)⁻¹, ?_, fun x => ?_, fun k => ?_, fun x => ?_⟩
  · by_contra hn
    push Not at hn
    apply hc0
    have hg0' : (WithLp.toLp 2 g : EuclideanSpace ℂ X) = 0 := by ext x; exact hn x
    have hgs : (WithLp.toLp 2 g : EuclideanSpace ℂ X) = ∑ i, (if lam i = E0 then c i else 0) • b i := by
      ext x
      simp only [hg]
      rw [WithLp.ofLp_sum, Finset.sum_apply]
      refine Finset.sum_congr rfl fun i _ => ?_
      split_ifs <;> simp
    have h2 : inner ℂ (b i0) (WithLp.toLp 2 g : EuclideanSpace ℂ X) = c i0 := by
      rw [hgs, inner_sum]
      rw [Finset.sum_eq_single i0]
      · rw [inner_smul_right, if_pos hi0, inner_self_eq_norm_sq_to_K, b.orthonormal.1 i0]; simp
      · intro j _ hj
        rw [inner_smul_right, b.orthonormal.2 hj.symm, mul_zero]
      · intro hn; exact absurd (Finset.mem_univ _) hn
    rw [hg0', inner_zero_right] at h2
    exact h2.symm
  · simp only [hg, Finset.mul_sum]
    rw [Finset.sum_comm]
    refine Finset.sum_congr rfl fun i _ => ?_
    split_ifs with hi
    · have := hev i x
      rw [hi] at this
      calc ∑ y, H x y * (c i * b i y) = c i * ∑ y, H x y * b i y := by
            rw [Finset.mul_sum]; exact Finset.sum_congr rfl fun y _ => by ring
        _ = _ := by rw [this]; ring
    · simp
  · have : ((1 - tau * E0 : ℝ) : ℂ) ≠ 0 := by exact_mod_cast hmu0.ne'
    exact mul_ne_zero (inv_ne_zero (hC k)) (inv_ne_zero (pow_ne_zero _ this))
  · have hexp : ∀ k, (C k)⁻¹ * (((1 - tau * E0 : ℝ) : ℂ) ^ k)⁻¹ * psi k x =
        ∑ i, (((1 - tau * lam i) / (1 - tau * E0) : ℝ) : ℂ) ^ k * (c i * b i x) := by
      intro k
      have h1 : psi k x = ∑ i, inner ℂ (b i) (WithLp.toLp 2 (psi k)) * b i x := by
        have := b.sum_repr' (WithLp.toLp 2 (psi k))
        have h2 := congrArg (fun f : EuclideanSpace ℂ X => f x) this
        simp only [WithLp.ofLp_sum, Finset.sum_apply, PiLp.smul_apply, smul_eq_mul] at h2
        exact h2.symm
      rw [h1, Finset.mul_sum]
      refine Finset.sum_congr rfl fun i _ => ?_
      have hk : inner ℂ (b i) (WithLp.toLp 2 (psi k)) = C k * ((1 - tau * lam i : ℝ) : ℂ) ^ k * c i := hpsi k i
      rw [hk]
      have hm : ((1 - tau * E0 : ℝ) : ℂ) ≠ 0 := by exact_mod_cast hmu0.ne'
      have hCk := hC k
      rw [Complex.ofReal_div, div_pow]
      field_simp
    simp only [hexp, hg]
    refine tendsto_finsetSum _ fun i _ => ?_
    by_cases hi : lam i = E0
    · rw [if_pos hi, hi, div_self hmu0.ne']
      simp
    · rw [if_neg hi]
      have hlt : ‖(((1 - tau * lam i) / (1 - tau * E0) : ℝ) : ℂ)‖ < 1 := by
        rw [Complex.norm_real, Real.norm_eq_abs, abs_div, abs_of_pos hmu0, div_lt_one hmu0, abs_lt]
        have h1 := lt_of_le_of_ne (hlow i) (Ne.symm hi)
        have h2 := hupp i
        constructor
        · linarith
        · nlinarith
      have := (tendsto_pow_atTop_nhds_zero_of_norm_lt_one hlt).mul_const (c i * b i x)
      simpa using this

/-- Energies do not depend on the normalisation. -/
theorem rayleigh_scale (H : X → X → ℂ) (a : ℂ) (ha : a ≠ 0) (psi : X → ℂ) : rayleigh H (fun x => a * psi x) = rayleigh H psi := by
  unfold rayleigh bornNorm
  have h1 : ∑ x, ∑ y, (starRingEnd ℂ) (a * psi x) * H x y * (a * psi y) = ((‖a‖ ^ 2 : ℝ) : ℂ) * ∑ x, ∑ y, (starRingEnd ℂ) (psi x) * H x y * psi y := by
    simp only [Finset.mul_sum]
    refine Finset.sum_congr rfl fun x _ => Finset.sum_congr rfl fun y _ => ?_
    rw [← Complex.normSq_eq_norm_sq, ← Complex.mul_conj, map_mul]
    ring
  have h2 : ∑ x, ‖a * psi x‖ ^ 2 = ‖a‖ ^ 2 * ∑ x, ‖psi x‖ ^ 2 := by
    rw [Finset.mul_sum]
    exact Finset.sum_congr rfl fun x _ => by rw [norm_mul, mul_pow]
  rw [h1, h2, Complex.ofReal_mul, mul_div_mul_left]
  have := norm_pos_iff.mpr ha
  exact_mod_cast (by positivity : ‖a‖ ^ 2 ≠ 0)

theorem rayleigh_eigen {H : X → X → ℂ} {g : X → ℂ} {E : ℂ} (hg : ∀ x, ∑ y, H x y * g y = E * g x) (h0 : ∃ x, g x ≠ 0) : rayleigh H g = E := by
  have hp := bornNorm_pos h0
  rw [rayleigh_eq]
  have : dot g (act H g) = E * dot g g := by
    rw [← dot_smul_right]
    congr 1
    funext x
    exact hg x
  rw [this, dot_self, mul_div_cancel_right₀]
  exact_mod_cast hp.ne'

theorem rayleigh_tendsto (H : X → X → ℂ) (psi : ℕ → X → ℂ) (g : X → ℂ) (h0 : ∃ x, g x ≠ 0) (h : ∀ x, Tendsto (fun k => psi k x) atTop (𝓝 (g x))) :
    Tendsto (fun k => rayleigh H (psi k)) atTop (𝓝 (rayleigh H g)) := by
  unfold rayleigh
  refine Tendsto.div ?_ ?_ (by exact_mod_cast (bornNorm_pos h0).ne')
  · refine tendsto_finsetSum _ fun x _ => tendsto_finsetSum _ fun y _ => ?_
    exact (((Complex.continuous_conj.tendsto _).comp (h x)).mul_const _).mul (h y)
  · refine (Complex.continuous_ofReal.tendsto _).comp ?_
    unfold bornNorm
    exact tendsto_finsetSum _ fun x _ => ((h x).norm).pow 2

/-- **C173**: under the same conditions the energies converge to the ground-state energy. -/
theorem C173_energy (real : Bool) {H : X → X → ℂ} (hH : Hermitian H) {tau : ℝ} (htau : 0 < tau) (all : List X) (hall : ∀ x, x ∈ all) (psi : ℕ → X → ℂ)
    (h : ExactFits real H tau all psi) (E0 : ℝ) (hE0 : ∀ φ : X → ℂ, (∃ x, φ x ≠ 0) → E0 ≤ (rayleigh H φ).re)
    (hov : ∃ g0 : X → ℂ, (∀ x, ∑ y, H x y * g0 y = E0 * g0 x) ∧ ∑ x, (starRingEnd ℂ) (g0 x) * psi 0 x ≠ 0)
    (hb : ∀ φ : X → ℂ, (∃ x, φ x ≠ 0) → tau * ((rayleigh H φ).re + E0) < 2) :
    Tendsto (fun k => rayleigh H (psi k)) atTop (𝓝 (E0 : ℂ)) := by
  obtain ⟨g, a, hg, hgE, ha, hlim⟩ := C173_state real hH htau all hall psi h E0 hE0 hov hb
  have h1 := rayleigh_tendsto H _ g hg hlim
  rw [rayleigh_eigen hgE hg] at h1
  refine h1.congr fun k => rayleigh_scale H (a k) (ha k) (psi k)

/-! ## Hamiltonians without positive off-diagonal elements -/

section Positive

variable {A : X → X → ℝ} {tau : ℝ}

/-- One step keeps positive amplitudes positive. -/
theorem step_pos (hoff : ∀ x y, x ≠ y → A x y ≤ 0) (htau : 0 < tau) (hdiag : ∀ x, tau * A x x < 1) (psi : X → ℝ) (hpsi : ∀ x, 0 < psi x) (x : X) :
    0 < psi x - tau * ∑ y, A x y * psi y := by
  classical
  rw [Finset.mul_sum, ← Finset.add_sum_erase _ _ (Finset.mem_univ x)]
  have h1 : ∑ y ∈ Finset.univ.erase x, tau * (A x y * psi y) ≤ 0 := by
    refine Finset.sum_nonpos fun y hy => ?_
    have := hoff x y (Finset.ne_of_mem_erase hy).symm
    have h2 := mul_nonpos_of_nonpos_of_nonneg this (hpsi y).le
    exact mul_nonpos_of_nonneg_of_nonpos htau.le h2
  have h2 := mul_lt_mul_of_pos_right (hdiag x) (hpsi x)
  linarith

/-- The values for positive amplitudes are positive numbers, whether the logarithms are real or complex. -/
theorem values_pos (real : Bool) (hoff : ∀ x y, x ≠ y → A x y ≤ 0) (htau : 0 < tau) (hdiag : ∀ x, tau * A x x < 1) (psi : X → ℝ) (hpsi : ∀ x, 0 < psi x)
    (v : VState X) (all : List X) :
    (imagTimeStep real (fun x y => (A x y : ℂ)) (fun x => (psi x : ℂ)) false tau v all).2 =
      some (all.map fun x => some ((psi x - tau * ∑ y, A x y * psi y : ℝ) : ℂ)) := by
  have hs : ∀ x, stepped (tau : ℂ) (fun x y => (A x y : ℂ)) (fun x => (psi x : ℂ)) x = ((psi x - tau * ∑ y, A x y * psi y : ℝ) : ℂ) := by
    intro x
    unfold stepped
    push_cast
    rfl
  have hne : ∀ x, (psi x : ℂ) ≠ 0 := fun x => by exact_mod_cast (hpsi x).ne'
  rw [C52_imag_time_step real _ _ _ v all (fun x _ => hne x) fun x _ _ => ?_]
  · simp only [hs]
  · rw [hs, ← Complex.ofReal_div, Complex.ofReal_re]
    exact (div_pos (step_pos hoff htau hdiag psi hpsi x) (hpsi x)).le

theorem upper [Nonempty X] (hoff : ∀ x y, x ≠ y → A x y ≤ 0) (htau : 0 < tau) (hdiag : ∀ x, tau * A x x < 1) (E : ℝ)
    (hE : ∀ phi : X → ℂ, E * bornNorm phi ≤ Stoquastic.energy (fun x y => (A x y : ℂ)) phi) (phi : X → ℂ) (h0 : ∃ x, phi x ≠ 0) :
    tau * ((rayleigh (fun x y => (A x y : ℂ)) phi).re + E) < 2 := by
  classical
  obtain ⟨x0, -, hx0⟩ := Finset.exists_max_image Finset.univ (fun x : X => A x x) Finset.univ_nonempty
  have hp := bornNorm_pos h0
  have hE' := hE fun x => ((‖phi x‖ : ℝ) : ℂ)
  have hn : bornNorm (fun x => ((‖phi x‖ : ℝ) : ℂ)) = bornNorm phi := by
    unfold bornNorm
    exact Finset.sum_congr rfl fun x _ => by rw [Complex.norm_real, norm_norm]
  rw [hn] at hE'
  have key : tau * Stoquastic.energy (fun x y => (A x y : ℂ)) phi ≤
      - (tau * Stoquastic.energy (fun x y => (A x y : ℂ)) (fun x => ((‖phi x‖ : ℝ) : ℂ))) + 2 * (tau * A x0 x0) * bornNorm phi := by
    unfold Stoquastic.energy bornNorm
    simp only [Complex.re_sum, Finset.mul_sum]
    rw [← Finset.sum_neg_distrib, ← Finset.sum_add_distrib]
    refine Finset.sum_le_sum fun x _ => ?_
    rw [← Finset.sum_neg_distrib]
    have hd : 2 * (tau * A x0 x0) * ‖phi x‖ ^ 2 = ∑ y, if y = x then 2 * (tau * A x0 x0) * ‖phi x‖ ^ 2 else 0 := by simp
    rw [hd, ← Finset.sum_add_distrib]
    refine Finset.sum_le_sum fun y _ => ?_
    have e2 : ((starRingEnd ℂ) ((‖phi x‖ : ℝ) : ℂ) * (A x y : ℂ) * ((‖phi y‖ : ℝ) : ℂ)).re = A x y * (‖phi x‖ * ‖phi y‖) := by
      rw [Complex.conj_ofReal, ← Complex.ofReal_mul, ← Complex.ofReal_mul, Complex.ofReal_re]
      ring
    have e1 : ((starRingEnd ℂ) (phi x) * (A x y : ℂ) * phi y).re = A x y * ((starRingEnd ℂ) (phi x) * phi y).re := by
      rw [show (starRingEnd ℂ) (phi x) * (A x y : ℂ) * phi y = (A x y : ℂ) * ((starRingEnd ℂ) (phi x) * phi y) by ring, Complex.re_ofReal_mul]
    rw [e1, e2]
    by_cases hxy : y = x
    · subst hxy
      rw [if_pos rfl]
      have : ((starRingEnd ℂ) (phi y) * phi y).re = ‖phi y‖ ^ 2 := by
        rw [mul_comm, Complex.mul_conj, Complex.normSq_eq_norm_sq, Complex.ofReal_re]
      rw [this]
      have h1 := hx0 y (Finset.mem_univ y)
      have h2 : tau * A y y ≤ tau * A x0 x0 := mul_le_mul_of_nonneg_left h1 htau.le
      have h3 : 0 ≤ ‖phi y‖ ^ 2 := by positivity
      nlinarith
    · rw [if_neg hxy]
      have h1 := hoff x y (Ne.symm hxy)
      have h2 : -(‖phi x‖ * ‖phi y‖) ≤ ((starRingEnd ℂ) (phi x) * phi y).re := by
        have := Complex.abs_re_le_norm ((starRingEnd ℂ) (phi x) * phi y)
        rw [norm_mul, RCLike.norm_conj] at this
        exact (abs_le.mp this).1
      have h3 : 0 ≤ tau * (-A x y) := mul_nonneg htau.le (by linarith)
      nlinarith [mul_le_mul_of_nonneg_left h2 h3]
  rw [Stoquastic.rayleigh_re, div_add' _ _ _ hp.ne', ← mul_div_assoc, div_lt_iff₀ hp]
  have h1 := hdiag x0
  have h2 : tau * (E * bornNorm phi) ≤ _ := mul_le_mul_of_nonneg_left hE' htau.le
  nlinarith

/-- The states of the procedure with normalisation factors one. -/
noncomputable def iterate (A : X → X → ℝ) (tau : ℝ) (psi0 : X → ℝ) : ℕ → X → ℝ
  | 0 => psi0
  | k + 1 => fun x => iterate A tau psi0 k x - tau * ∑ y, A x y * iterate A tau psi0 k y

/-- **C173** for Hamiltonians with real symmetric matrix, no positive off-diagonal elements and connected configurations (as in C170), and
steps with `τ H(x, x) < 1`: from any positive amplitudes the procedure can go on forever, and every run of it converges to the ground state,
which is unique and positive, and to its energy. -/
theorem C173_positive [Nonempty X] (real : Bool) (hsymm : ∀ x y, A x y = A y x) (hoff : ∀ x y, x ≠ y → A x y ≤ 0)
    (hconn : ∀ x y, Relation.ReflTransGen (fun a b => A a b ≠ 0) x y) (htau : 0 < tau) (hdiag : ∀ x, tau * A x x < 1) (all : List X)
    (hall : ∀ x, x ∈ all) (psi0 : X → ℝ) (hpos : ∀ x, 0 < psi0 x) :
    (∃ psi, ExactFits real (fun x y => (A x y : ℂ)) tau all psi ∧ ∀ x, psi 0 x = psi0 x) ∧
    ∃ (E : ℝ) (v : X → ℝ), (∀ x, 0 < v x) ∧ (∀ x, ∑ y, A x y * v y = E * v x) ∧
      (∀ φ : X → ℂ, (∃ x, φ x ≠ 0) → E ≤ (rayleigh (fun x y => (A x y : ℂ)) φ).re) ∧
      ∀ psi, ExactFits real (fun x y => (A x y : ℂ)) tau all psi → (∀ x, psi 0 x = psi0 x) →
        Tendsto (fun k => rayleigh (fun x y => (A x y : ℂ)) (psi k)) atTop (𝓝 (E : ℂ)) ∧
        ∃ a : ℕ → ℂ, ∀ x, Tendsto (fun k => a k * psi k x) atTop (𝓝 (v x : ℂ)) := by
  have hiter : ∀ k x, 0 < iterate A tau psi0 k x := by
    intro k
    induction k with
    | zero => exact hpos
    | succ k ih => exact fun x => step_pos hoff htau hdiag _ ih x
  refine ⟨⟨fun k x => (iterate A tau psi0 k x : ℂ), ⟨fun k x => by exact_mod_cast (hiter k x).ne', fun k => ?_⟩, fun x => rfl⟩, ?_⟩
  · exact ⟨⟨none⟩, _, 1, one_ne_zero, values_pos real hoff htau hdiag _ (hiter k) _ all, fun x => by rw [one_mul]; rfl⟩
  have hg : Stoquastic.Good (fun _ : X => True) (fun x y => (A x y : ℂ)) A := ⟨fun _ _ => rfl, hsymm, hoff, fun _ _ _ h => absurd trivial h⟩
  obtain ⟨E, v, hv, -, hvE, hE⟩ := Stoquastic.ground hg ⟨Classical.arbitrary X, trivial⟩ fun x y _ _ => hconn x y
  have hvE' : ∀ x, ∑ y, (A x y : ℂ) * (v y : ℂ) = (E : ℂ) * (v x : ℂ) := fun x => by exact_mod_cast congrArg (fun r : ℝ => (r : ℂ)) (hvE x)
  have hH : Hermitian (fun x y => (A x y : ℂ)) := fun x y => by rw [Complex.conj_ofReal, hsymm]
  have hmin : ∀ φ : X → ℂ, (∃ x, φ x ≠ 0) → E ≤ (rayleigh (fun x y => (A x y : ℂ)) φ).re := by
    intro φ h0
    rw [Stoquastic.rayleigh_re, le_div_iff₀ (bornNorm_pos h0)]
    exact (hE φ fun x h => absurd trivial h).1
  refine ⟨E, v, fun x => hv x trivial, hvE, hmin, fun psi hpsi h0 => ?_⟩
  have hov : ∃ g0 : X → ℂ, (∀ x, ∑ y, (A x y : ℂ) * g0 y = (E : ℂ) * g0 x) ∧ ∑ x, (starRingEnd ℂ) (g0 x) * psi 0 x ≠ 0 := by
    refine ⟨fun x => (v x : ℂ), hvE', ?_⟩
    have : ∑ x, (starRingEnd ℂ) (v x : ℂ) * psi 0 x = ((∑ x, v x * psi0 x : ℝ) : ℂ) := by
      push_cast
      exact Finset.sum_congr rfl fun x _ => by rw [h0 x, Complex.conj_ofReal]
    rw [this]
    have hp : 0 < ∑ x, v x * psi0 x := Finset.sum_pos (fun x _ => mul_pos (hv x trivial) (hpos x)) Finset.univ_nonempty
    exact_mod_cast hp.ne'
  have hb : ∀ φ : X → ℂ, (∃ x, φ x ≠ 0) → tau * ((rayleigh (fun x y => (A x y : ℂ)) φ).re + E) < 2 := fun φ hφ =>
    upper hoff htau hdiag E (fun phi => (hE phi fun x h => absurd trivial h).1) φ hφ
  refine ⟨C173_energy real hH htau all hall psi hpsi E hmin hov hb, ?_⟩
  obtain ⟨g, a, hgne, hgE, ha, hlim⟩ := C173_state real hH htau all hall psi hpsi E hmin hov hb
  obtain ⟨c, hc⟩ := (hE g fun x h => absurd trivial h).2 (by
    have := congrArg Complex.re (rayleigh_eigen hgE hgne)
    rw [Stoquastic.rayleigh_re, Complex.ofReal_re, div_eq_iff (bornNorm_pos hgne).ne'] at this
    exact this)
  have hc0 : c ≠ 0 := by
    rintro rfl
    obtain ⟨x, hx⟩ := hgne
    exact hx (by rw [hc x, zero_mul])
  refine ⟨fun k => c⁻¹ * a k, fun x => ?_⟩
  have := (hlim x).const_mul c⁻¹
  rw [hc x, inv_mul_cancel_left₀ hc0] at this
  simpa [mul_assoc] using this

/-- the conditions are met by a two-site hopping problem with `τ = 1/2` -/
noncomputable def hopping (x y : Bool) : ℝ := if x = y then 1 else -1

theorem C173_example : (∃ psi, ExactFits true (fun x y => (hopping x y : ℂ)) (1 / 2) [true, false] psi ∧ ∀ x, psi 0 x = ((if x then 1 else 3 : ℝ) : ℂ)) ∧
    ∃ (E : ℝ) (v : Bool → ℝ), (∀ x, 0 < v x) ∧ (∀ x, ∑ y, hopping x y * v y = E * v x) := by
  have h := C173_positive (X := Bool) (A := hopping) (tau := 1 / 2) true (by intro x y; cases x <;> cases y <;> rfl) (by intro x y h; rw [hopping, if_neg h]; norm_num)
    (fun x y => .single (by unfold hopping; split_ifs <;> norm_num)) (by norm_num) (by intro x; rw [hopping, if_pos rfl]; norm_num) [true, false]
    (by decide) (fun x => if x then 1 else 3) (by intro x; split_ifs <;> norm_num)
  obtain ⟨h1, E, v, h2, h3, -⟩ := h
  exact ⟨h1, E, v, h2, h3⟩

end Positive

/-- the bound on the step is needed: for `|0⟩ + |1⟩` with the energies 0 and 1 and `τ = 3` the procedure runs, and the energies converge to 1 -/
theorem C173_long_step_fails : ∃ psi, ExactFits false twoLevels 3 [true, false] psi ∧ (∀ x, psi 0 x = 1) ∧
    Tendsto (fun k => rayleigh twoLevels (psi k)) atTop (𝓝 1) := by
  have hne : ∀ (k : ℕ) (x : Bool), (if x then (-2 : ℂ) ^ k else 1) ≠ 0 := by
    intro k x
    cases x
    · simp
    · simp
  refine ⟨fun k x => if x then (-2) ^ k else 1, ⟨hne, fun k => ?_⟩, fun x => by simp, ?_⟩
  · refine ⟨⟨none⟩, _, 1, one_ne_zero, congrArg Prod.snd (C52_imag_time_step false twoLevels _ _ _ _ (fun x _ => hne k x) fun x _ h => by cases h),
      fun x => ?_⟩
    cases x
    · simp [stepped, twoLevels]
    · simp [stepped, twoLevels, pow_succ]
      ring
  · have e : ∀ k : ℕ, rayleigh twoLevels (fun x => if x then (-2 : ℂ) ^ k else 1) = ((1 / (1 + (1 / 4) ^ k) : ℝ) : ℂ) := by
      intro k
      have h1 : (starRingEnd ℂ) (2 : ℂ) = 2 := Complex.conj_ofNat 2
      have h2 : (-2 : ℂ) ^ k * (-2) ^ k = 4 ^ k := by rw [← mul_pow]; norm_num
      have h3 : ((2 : ℝ) ^ k) ^ 2 = 4 ^ k := by rw [← pow_mul, mul_comm, pow_mul]; norm_num
      have h4 : (1 + (4 : ℂ) ^ k) ≠ 0 := by exact_mod_cast (by positivity : (1 + (4 : ℝ) ^ k) ≠ 0)
      simp only [rayleigh, bornNorm, Fintype.sum_bool, twoLevels]
      simp [h1, h2, h3]
      rw [add_comm ((4 : ℂ) ^ k)]
      have h6 : (4 : ℂ) ^ k ≠ 0 := pow_ne_zero _ (by norm_num)
      rw [eq_comm, inv_eq_iff_eq_inv, inv_div, eq_div_iff h6]
      field_simp
      ring
    simp only [e]
    have h1 : Tendsto (fun k : ℕ => 1 / (1 + (1 / 4 : ℝ) ^ k)) atTop (𝓝 (1 / (1 + 0))) :=
      tendsto_const_nhds.div (tendsto_const_nhds.add (tendsto_pow_atTop_nhds_zero_of_lt_one (by norm_num) (by norm_num))) (by norm_num)
    have h2 := (Complex.continuous_ofReal.tendsto _).comp h1
    simp only [add_zero, div_one, Complex.ofReal_one] at h2
    exact h2

end GPSKet.ImagTime
