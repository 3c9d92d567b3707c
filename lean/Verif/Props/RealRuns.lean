import Verif.Model.Runs
import Verif.Props.Holomorphic
import Verif.Props.RMSProp
import Mathlib.Analysis.Calculus.Deriv.Star

/-!
# Property C193: an optimisation that starts with real parameters stays real

Complex parameters all of whose imaginary parts are zero: for a Hamiltonian with real matrix elements every update is real, so the imaginary
parts remain zero for ever, whatever is sampled.
-/

namespace GPSKet.RealRuns
open GPSKet GPSKet.Spec GPSKet.Runs GPSKet.Props Matrix

variable {P L M : ℕ} {S C ι κ : Type}

/-- A rule is real if real data give real updates. -/
def KeepsReal (rule : Rule S P) : Prop := ∀ O E, (∀ s k, (O s k).im = 0) → (∀ s, (E s).im = 0) → ∀ k, (rule O E k).im = 0

/-! ## The rules -/

/-- The solution of smallest norm of a real equation is real. -/
theorem shortest_real (A : Fin P → Fin P → ℂ) (b x : Fin P → ℂ) (hA : ∀ k l, (A k l).im = 0) (hb : ∀ k, (b k).im = 0)
    (hx : ∀ k, ∑ l, A k l * x l = b k) (hmin : ∀ y : Fin P → ℂ, (∀ k, ∑ l, A k l * y l = b k) → ∑ k, ‖x k‖ ^ 2 ≤ ∑ k, ‖y k‖ ^ 2) (k : Fin P) :
    (x k).im = 0 := by
  have hre : ∀ k, ∑ l, A k l * ((x l).re : ℂ) = b k := by
    intro k
    refine Complex.ext ?_ ?_
    · rw [← hx k, Complex.re_sum, Complex.re_sum]
      refine Finset.sum_congr rfl fun l _ => ?_
      simp [hA]
    · rw [hb, Complex.im_sum]
      refine Finset.sum_eq_zero fun l _ => ?_
      simp [hA]
  have h1 := hmin _ hre
  have h2 : ∀ k, ‖x k‖ ^ 2 = ‖((x k).re : ℂ)‖ ^ 2 + (x k).im ^ 2 := by
    intro k
    rw [← Complex.normSq_eq_norm_sq, ← Complex.normSq_eq_norm_sq]
    simp [Complex.normSq_apply]
    ring
  rw [Finset.sum_congr rfl fun k _ => h2 k, Finset.sum_add_distrib] at h1
  have h3 : ∑ k, (x k).im ^ 2 = 0 := le_antisymm (by linarith) (Finset.sum_nonneg fun k _ => sq_nonneg _)
  have := (Finset.sum_eq_zero_iff_of_nonneg fun k _ => sq_nonneg _).mp h3 k (Finset.mem_univ k)
  exact pow_eq_zero_iff (two_ne_zero) |>.mp this

theorem sampleMean_im [Fintype S] (f : S → ℂ) (h : ∀ s, (f s).im = 0) : (sampleMean f).im = 0 := by
  unfold sampleMean
  rw [show ((Fintype.card S : ℕ) : ℂ) = ((Fintype.card S : ℝ) : ℂ) by push_cast; rfl, Complex.div_ofReal_im, Complex.im_sum]
  simp [h]

theorem sampleMean_mul [Fintype S] (c : ℂ) (f : S → ℂ) : (sampleMean fun s => c * f s) = c * sampleMean f := by
  unfold sampleMean
  rw [← Finset.mul_sum, mul_div_assoc]

theorem srMatrix_im [Fintype S] (O : S → Fin P → ℂ) (h : ∀ s k, (O s k).im = 0) (k l : Fin P) : (srMatrix O k l).im = 0 := by
  refine sampleMean_im _ fun s => ?_
  simp [sampleMean_im (fun s => O s k) (fun s => h s k), sampleMean_im (fun s => O s l) (fun s => h s l), h]

theorem srForce_im [Fintype S] (O : S → Fin P → ℂ) (E : S → ℂ) (h : ∀ s k, (O s k).im = 0) (hE : ∀ s, (E s).im = 0) (k : Fin P) :
    (srForce O E k).im = 0 := by
  refine sampleMean_im _ fun s => ?_
  simp [sampleMean_im (fun s => O s k) (fun s => h s k), sampleMean_im E hE, h, hE]

/-- **C193**, `minSRVMC` in both modes for complex parameters. -/
theorem C193_minSR {R K B : ℕ} (solver : Matrix (Fin (K * R * B)) (Fin (K * R * B)) ℂ → (Fin (K * R * B) → ℂ) → (Fin (K * R * B) → ℂ))
    (hs : ∀ A b, LeastSquares A b (solver A b)) :
    KeepsReal (P := P) (minSRHolomorphic (R := R) (K := K) (B := B) solver) ∧
    KeepsReal (P := P) (minSRComplex (R := R) (K := K) (B := B) solver) := by
  constructor
  · intro O E hO hE k
    obtain ⟨h1, h2⟩ := C47_minSR_is_SR solver O E hs
    exact shortest_real _ _ _ (srMatrix_im O hO) (srForce_im O E hO hE) h1 h2 k
  · intro O E hO hE k
    obtain ⟨h1, h2⟩ := C47_complex_parameters solver O E hs
    exact shortest_real _ _ _ (srMatrix_im O hO) (srForce_im O E hO hE) h1 h2 k

theorem complexRows_left {N : ℕ} (O : Fin N → Fin P → ℂ) (s : Fin N) (k : Fin P) : complexRows (realRows O) s (Fin.castAdd P k) = O s k := by
  unfold complexRows realRows
  simp only [Fin.addCases_left]
  rw [if_true, if_neg (by decide), mul_comm Complex.I]
  exact Complex.re_add_im _

theorem complexRows_right {N : ℕ} (O : Fin N → Fin P → ℂ) (s : Fin N) (k : Fin P) :
    complexRows (realRows O) s (Fin.natAdd P k) = Complex.I * O s k := by
  unfold complexRows realRows
  simp only [Fin.addCases_right]
  rw [if_true, if_neg (by decide), mul_comm Complex.I (((Complex.I * O s k).im : ℝ) : ℂ)]
  exact Complex.re_add_im _

/-- **C193**, `VMC_SRRMSProp` with complex parameters of holomorphic amplitudes: with any moving average and step number. -/
theorem C193_sr_rmsprop {N : ℕ} (ema : Fin (P + P) → ℝ) (step : ℕ) (shift decay eps : ℝ) (hs : 0 < shift) (he : 0 < eps)
    (solver : Matrix (Fin (P + P)) (Fin (P + P)) ℝ → (Fin (P + P) → ℝ) → (Fin (P + P) → ℝ)) (hsolver : SolvesPosDef solver) :
    KeepsReal (srRMSProp (N := N) ema step shift decay eps solver) := by
  intro O E hO hE k
  have hre : ∀ z : ℂ, z.im = 0 → (Complex.I * z).re = 0 := fun z hz => by simp [hz]
  have hm : (∑ s, E s) / (N : ℂ) = sampleMean E := by simp [sampleMean]
  have hmO : ∀ k, (sampleMean fun s => Complex.I * O s k) = Complex.I * sampleMean fun s => O s k := by
    intro k
    exact sampleMean_mul _ _
  have hF : ∀ k, (srForce (complexRows (realRows O)) E (Fin.natAdd P k)).re = 0 := by
    intro k
    have : srForce (complexRows (realRows O)) E (Fin.natAdd P k) = -(Complex.I * srForce O E k) := by
      simp only [srForce, complexRows_right]
      rw [← neg_mul, ← sampleMean_mul]
      refine congrArg sampleMean (funext fun s => ?_)
      rw [hmO]
      simp only [map_sub, map_mul, Complex.conj_I]
      ring
    rw [this, Complex.neg_re, hre _ (srForce_im O E hO hE k), neg_zero]
  have hS : ∀ k l, (srMatrix (complexRows (realRows O)) (Fin.natAdd P k) (Fin.castAdd P l)).re = 0 := by
    intro k l
    have : srMatrix (complexRows (realRows O)) (Fin.natAdd P k) (Fin.castAdd P l) = -(Complex.I * srMatrix O k l) := by
      simp only [srMatrix, complexRows_right, complexRows_left]
      rw [← neg_mul, ← sampleMean_mul]
      refine congrArg sampleMean (funext fun s => ?_)
      rw [hmO]
      simp only [map_sub, map_mul, Complex.conj_I]
      ring
    rw [this, Complex.neg_re, hre _ (srMatrix_im O hO k l), neg_zero]
  have heq := (C49_sr_equation (realRows O) E ema step shift decay eps hs he solver hsolver).2
  generalize hout : RMSProp.srComplex (realRows O) E (sampleMean E) ema step shift decay eps solver = out at heq
  have hv : ∀ k, out.1 (Fin.natAdd P k) = 0 := by
    let v : Fin P → ℝ := fun k => out.1 (Fin.natAdd P k)
    let w : Fin P → ℝ := fun k => shift * (Real.sqrt (out.2 (Fin.natAdd P k) / (1 - decay ^ (step + 1))) + eps)
    have hw : ∀ k, 0 < w k := fun k => mul_pos hs (add_pos_of_nonneg_of_pos (Real.sqrt_nonneg _) he)
    have h1 : ∀ k, ∑ l, (∑ p, RMSProp.denseRows (realRows O) p (Fin.natAdd P k) * RMSProp.denseRows (realRows O) p (Fin.natAdd P l)) * v l +
        w k * v k = 0 := by
      intro k
      have h := heq (Fin.natAdd P k)
      beta_reduce at h
      rw [hF, mul_zero, Fin.sum_univ_add] at h
      simp only [hS, mul_zero, zero_mul, Finset.sum_const_zero, zero_add] at h
      rw [← h]
      congr 1
      refine Finset.sum_congr rfl fun l _ => ?_
      congr 1
      rw [← dense_gram, mul_apply]
      rfl
    have h2 : ∑ p, (∑ k, RMSProp.denseRows (realRows O) p (Fin.natAdd P k) * v k) ^ 2 + ∑ k, w k * v k ^ 2 = 0 := by
      have h3 : ∑ k, v k * (∑ l, (∑ p, RMSProp.denseRows (realRows O) p (Fin.natAdd P k) * RMSProp.denseRows (realRows O) p (Fin.natAdd P l)) * v l +
          w k * v k) = 0 := Finset.sum_eq_zero fun k _ => by rw [h1 k, mul_zero]
      rw [← h3]
      simp only [mul_add, Finset.sum_add_distrib]
      congr 1
      · simp only [sq, Finset.sum_mul, Finset.mul_sum]
        rw [Finset.sum_comm]
        refine Finset.sum_congr rfl fun k _ => ?_
        rw [Finset.sum_comm]
        exact Finset.sum_congr rfl fun l _ => Finset.sum_congr rfl fun p _ => by ring
      · exact Finset.sum_congr rfl fun k _ => by ring
    have h4 : ∑ k, w k * v k ^ 2 = 0 := by
      have ha : 0 ≤ ∑ p, (∑ k, RMSProp.denseRows (realRows O) p (Fin.natAdd P k) * v k) ^ 2 := Finset.sum_nonneg fun p _ => sq_nonneg _
      have hb : 0 ≤ ∑ k, w k * v k ^ 2 := Finset.sum_nonneg fun k _ => mul_nonneg (hw k).le (sq_nonneg _)
      linarith
    intro k
    have h5 := (Finset.sum_eq_zero_iff_of_nonneg fun k _ => mul_nonneg (hw k).le (sq_nonneg (v k))).mp h4 k (Finset.mem_univ k)
    rcases mul_eq_zero.mp h5 with h6 | h6
    · exact absurd h6 (hw k).ne'
    · exact pow_eq_zero_iff two_ne_zero |>.mp h6
  have hx : ∀ k, (RMSProp.rootSolve (RMSProp.denseRows (realRows O)) (RMSProp.denseEnergies E (sampleMean E)) ema step shift decay eps solver).1
      (Fin.natAdd P k) = 0 := by
    intro k
    have h := hv k
    rw [← hout] at h
    exact neg_eq_zero.mp h
  unfold srRMSProp
  dsimp only
  rw [hm, (C49_repack P _).2 k, Option.getD_some, hx k]
  simp

/-! ## The models -/

/-- Conjugating all parameters conjugates all amplitudes. -/
def ConjEquivariant (psi : (Fin P → ℂ) → C → ℂ) : Prop :=
  ∀ θ x, psi (fun k => (starRingEnd ℂ) (θ k)) x = (starRingEnd ℂ) (psi θ x)

/-- The log-derivatives of a model: derivatives of the amplitude with respect to one parameter after the other, divided by the amplitude. -/
noncomputable def dlog (psi : (Fin P → ℂ) → C → ℂ) (θ : Fin P → ℂ) (x : C) (k : Fin P) : ℂ :=
  deriv (fun z => psi (Function.update θ k z) x) (θ k) / psi θ x

theorem real_of_conj {psi : (Fin P → ℂ) → C → ℂ} (hc : ConjEquivariant psi) (θ : Fin P → ℂ) (hθ : ∀ k, (θ k).im = 0) (x : C) :
    (psi θ x).im = 0 := by
  have h := hc θ x
  have h2 : (fun k => (starRingEnd ℂ) (θ k)) = θ := by
    funext k
    exact Complex.conj_eq_iff_im.mpr (hθ k)
  rw [h2] at h
  exact Complex.conj_eq_iff_im.mp h.symm

theorem dlog_im {psi : (Fin P → ℂ) → C → ℂ} (hc : ConjEquivariant psi) (θ : Fin P → ℂ) (hθ : ∀ k, (θ k).im = 0) (x : C) (k : Fin P) :
    (dlog psi θ x k).im = 0 := by
  have h1 : (fun z => psi (Function.update θ k z) x) = (starRingEnd ℂ) ∘ (fun z => psi (Function.update θ k z) x) ∘ (starRingEnd ℂ) := by
    funext z
    have := hc (Function.update θ k ((starRingEnd ℂ) z)) x
    simp only [Function.comp]
    rw [← this]
    congr 1
    funext j
    by_cases hj : j = k
    · subst hj; simp
    · rw [Function.update_of_ne hj, Function.update_of_ne hj]
      exact (Complex.conj_eq_iff_im.mpr (hθ j)).symm
  have h2 : (deriv (fun z => psi (Function.update θ k z) x) (θ k)).im = 0 := by
    refine Complex.conj_eq_iff_im.mp ?_
    conv_rhs => rw [h1]
    rw [deriv_conj_conj]
    simp only [Function.comp]
    rw [Complex.conj_eq_iff_im.mpr (hθ k)]
  unfold dlog
  rw [Complex.div_im, h2, real_of_conj hc θ hθ x]
  simp

theorem local_im [Fintype C] (H : C → C → ℂ) (hH : ∀ x y, (H x y).im = 0) (psi : C → ℂ) (hpsi : ∀ x, (psi x).im = 0) (x : C) :
    (localValue H psi x).im = 0 := by
  unfold localValue
  rw [Complex.div_im, hpsi x, Complex.im_sum]
  simp [hH, hpsi]

/-- **C193**: a run that starts with real parameters has real parameters, amplitudes and local energies after every number of steps. -/
theorem C193_run [Fintype C] (rule : ℕ → Rule S P) (hr : ∀ n, KeepsReal (rule n)) (psi : (Fin P → ℂ) → C → ℂ) (hc : ConjEquivariant psi)
    (H : C → C → ℂ) (hH : ∀ x y, (H x y).im = 0) (samples : ℕ → (Fin P → ℂ) → S → C) (lr : ℕ → ℝ) (θ : Fin P → ℂ) (hθ : ∀ k, (θ k).im = 0)
    (n : ℕ) :
    let θ' := run rule (dlog psi) (fun θ => localValue H (psi θ)) samples lr θ n
    (∀ k, (θ' k).im = 0) ∧ ∀ x, (psi θ' x).im = 0 ∧ (localValue H (psi θ') x).im = 0 := by
  have h : ∀ n k, (run rule (dlog psi) (fun θ => localValue H (psi θ)) samples lr θ n k).im = 0 := by
    intro n
    induction n with
    | zero => exact hθ
    | succ n ih =>
      intro k
      simp only [run]
      have h1 := hr n (fun s => dlog psi (run rule (dlog psi) (fun θ => localValue H (psi θ)) samples lr θ n)
        (samples n (run rule (dlog psi) (fun θ => localValue H (psi θ)) samples lr θ n) s))
        (fun s => localValue H (psi (run rule (dlog psi) (fun θ => localValue H (psi θ)) samples lr θ n))
          (samples n (run rule (dlog psi) (fun θ => localValue H (psi θ)) samples lr θ n) s))
        (fun s k => dlog_im hc _ ih _ k) (fun s => local_im H hH _ (real_of_conj hc _ ih) _) k
      rw [Complex.sub_im, ih k, Complex.im_ofReal_mul, h1]
      simp
  exact ⟨h n, fun x => ⟨real_of_conj hc _ (h n) x, local_im H hH _ (real_of_conj hc _ (h n)) x⟩⟩

/-- **C193**, qGPS, with any layout of the parameters and symmetry operations. -/
theorem C193_qgps {D : ℕ} [Fintype ι] (syms : QGPS.Syms L D ι) (e : Fin D × Fin M × Fin L → Fin P) :
    ConjEquivariant fun θ x => Complex.exp ((QGPS.model ⟨fun d m i => θ (e (d, m, i)), syms, QGPS.sumOut⟩).full x) := by
  intro θ x
  simp only [QGPS.model, QGPS.sumOut, QGPS.siteProd, ← Complex.exp_conj, map_sum, map_prod]

/-- **C193**: and if its parameters are real, its amplitudes are positive, so a run that starts with real parameters never has a state with
a sign structure. -/
theorem C193_qgps_positive {D : ℕ} [Fintype ι] (syms : QGPS.Syms L D ι) (e : Fin D × Fin M × Fin L → Fin P) (rule : ℕ → Rule S P)
    (hr : ∀ n, KeepsReal (rule n)) (H : (Fin L → Fin D) → (Fin L → Fin D) → ℂ) (hH : ∀ x y, (H x y).im = 0)
    (samples : ℕ → (Fin P → ℂ) → S → Fin L → Fin D) (lr : ℕ → ℝ) (θ : Fin P → ℂ) (hθ : ∀ k, (θ k).im = 0) (n : ℕ) (x : Fin L → Fin D) :
    let psi : (Fin P → ℂ) → (Fin L → Fin D) → ℂ :=
      fun θ x => Complex.exp ((QGPS.model ⟨fun d m i => θ (e (d, m, i)), syms, QGPS.sumOut⟩).full x)
    let θ' := run rule (dlog psi) (fun θ => localValue H (psi θ)) samples lr θ n
    ∃ a : ℝ, 0 < a ∧ psi θ' x = (a : ℂ) := by
  intro psi θ'
  have h := (C193_run rule hr psi (C193_qgps syms e) H hH samples lr θ hθ n).1
  have h2 : ((QGPS.model ⟨fun d m i => θ' (e (d, m, i)), syms, QGPS.sumOut⟩).full x).im = 0 := by
    refine Complex.conj_eq_iff_im.mp ?_
    simp only [QGPS.model, QGPS.sumOut, QGPS.siteProd, map_sum, map_prod]
    refine Finset.sum_congr rfl fun m _ => Finset.sum_congr rfl fun t _ => Finset.prod_congr rfl fun i _ => ?_
    exact Complex.conj_eq_iff_im.mpr (h _)
  refine ⟨Real.exp ((QGPS.model ⟨fun d m i => θ' (e (d, m, i)), syms, QGPS.sumOut⟩).full x).re, Real.exp_pos _, ?_⟩
  rw [Complex.ofReal_exp]
  change Complex.exp _ = _
  congr 1
  exact Complex.ext (by simp) (by simp [h2])

/-- two ranks with two samples each, any start, the Hamiltonian of two sites all of whose elements are 1: `minSRVMC` with a solver that exists -/
example (solver : Matrix (Fin (1 * 2 * 2)) (Fin (1 * 2 * 2)) ℂ → (Fin (1 * 2 * 2) → ℂ) → (Fin (1 * 2 * 2) → ℂ))
    (hs : ∀ A b, LeastSquares A b (solver A b)) (samples : ℕ → (Fin 4 → ℂ) → MinSR.Sample 2 1 2 → Fin 2 → Fin 2) (n : ℕ) (x : Fin 2 → Fin 2) :
    let psi : (Fin 4 → ℂ) → (Fin 2 → Fin 2) → ℂ := fun θ x => Complex.exp
      ((QGPS.model ⟨fun d (_ : Fin 1) i => θ (finProdFinEquiv (d, i)), QGPS.noSyms, QGPS.sumOut⟩).full x)
    ∃ a : ℝ, 0 < a ∧ psi (run (fun _ => minSRComplex solver) (dlog psi) (fun θ => localValue (fun _ _ => 1) (psi θ)) samples
      (fun _ => 1 / 10) (fun _ => 1) n) x = (a : ℂ) :=
  C193_qgps_positive (M := 1) QGPS.noSyms (fun p : Fin 2 × Fin 1 × Fin 2 => finProdFinEquiv (p.1, p.2.2)) (fun _ => minSRComplex solver)
    (fun _ => (C193_minSR solver hs).2) (fun _ _ => 1) (fun _ _ => by simp) samples (fun _ => 1 / 10) (fun _ => 1) (fun _ => by simp) n x

/-- The orbitals with all coefficients conjugated. -/
noncomputable def conjOrbs {nu nd : ℕ} {κ : Type} : Slater.Orbs L nu nd M κ → Slater.Orbs L nu nd M κ
  | .fixedMag up dn => .fixedMag (fun m i j => (starRingEnd ℂ) (up m i j)) (fun m i j => (starRingEnd ℂ) (dn m i j))
  | .projected up dn angle => .projected (fun m i j => (starRingEnd ℂ) (up m i j)) (fun m i j => (starRingEnd ℂ) (dn m i j)) angle
  | .generalised U => .generalised fun m i j => (starRingEnd ℂ) (U m i j)

theorem conj_get {n : ℕ} (a : Fin n → ℂ) (i : ℤ) : Slater.get (fun k => (starRingEnd ℂ) (a k)) i = (starRingEnd ℂ) (Slater.get a i) := by
  unfold Slater.get
  cases Slater.pyIdx n i <;> simp

theorem conj_getFullU {nu nd : ℕ} (up : Fin L → Fin nu → ℂ) (dn : Fin L → Fin nd → ℂ) (i : Fin (L + L)) (j : Fin (nu + nd)) :
    Slater.getFullU (fun i j => (starRingEnd ℂ) (up i j)) (fun i j => (starRingEnd ℂ) (dn i j)) i j = (starRingEnd ℂ) (Slater.getFullU up dn i j) := by
  unfold Slater.getFullU
  refine Fin.addCases (fun i => ?_) (fun i => ?_) i <;> refine Fin.addCases (fun j => ?_) (fun j => ?_) j <;>
    simp only [Fin.addCases_left, Fin.addCases_right, map_zero]

theorem conj_applyRotation {nu nd : ℕ} (F : Fin (L + L) → Fin (nu + nd) → ℂ) (angle : ℝ) (i : Fin (L + L)) (j : Fin (nu + nd)) :
    Slater.applyRotation (fun i j => (starRingEnd ℂ) (F i j)) angle i j = (starRingEnd ℂ) (Slater.applyRotation F angle i j) := by
  unfold Slater.applyRotation
  refine Fin.addCases (fun i => ?_) (fun i => ?_) i <;> refine Fin.addCases (fun j => ?_) (fun j => ?_) j <;>
    simp only [Fin.addCases_left, Fin.addCases_right, map_add, map_sub, map_mul, map_neg, Complex.conj_ofReal]

theorem conj_det {n : Type} [Fintype n] [DecidableEq n] (A B : Matrix n n ℂ) (h : ∀ i j, B i j = (starRingEnd ℂ) (A i j)) :
    B.det = (starRingEnd ℂ) A.det := by
  rw [RingHom.map_det]
  congr 1
  ext i j
  exact h i j

/-- Conjugated orbitals give conjugated amplitudes. -/
theorem slater_conj {nu nd : ℕ} [Fintype κ] [Fintype ι] (orbs : Slater.Orbs L nu nd M κ) (symmetries : ι → Fin L → Fin L) (chars : κ → ℂ)
    (hc : ∀ s, (chars s).im = 0) (ct : Bool) (out : (Fin M → κ → ι → ℂ) → ℂ) (x : Cfg L) :
    SymmetricDet.slaterAmp ⟨conjOrbs orbs, symmetries, chars, ct, out⟩ x =
      (starRingEnd ℂ) (SymmetricDet.slaterAmp ⟨orbs, symmetries, chars, ct, out⟩ x) := by
  unfold SymmetricDet.slaterAmp Slater.detValues
  simp only [map_sum, map_mul]
  refine Finset.sum_congr rfl fun m _ => Finset.sum_congr rfl fun s _ => Finset.sum_congr rfl fun t _ => ?_
  rw [Complex.conj_eq_iff_im.mpr (hc s)]
  congr 1
  cases orbs with
  | fixedMag up dn =>
    refine (congrArg₂ (· * ·) (conj_det _ _ fun i j => ?_) (conj_det _ _ fun i j => ?_)).trans (map_mul _ _ _).symm
    · exact (congrArg (fun a => Slater.get a _) (funext fun k => conj_getFullU (up m) (dn m) k (Fin.castAdd nd j))).trans
        (conj_get _ (Holomorphic.pos symmetries nu nd x t (Fin.castAdd nd i)))
    · exact (congrArg (fun a => Slater.get a _) (funext fun k => conj_getFullU (up m) (dn m) k (Fin.natAdd nu j))).trans
        (conj_get _ (Holomorphic.pos symmetries nu nd x t (Fin.natAdd nu i)))
  | projected up dn angle =>
    refine conj_det _ _ fun i j => ?_
    refine (congrArg (fun a => Slater.get a _) (funext fun k => ?_)).trans
      (conj_get (fun k => Slater.applyRotation (Slater.getFullU (up m) (dn m)) (angle s) k j) (Holomorphic.pos symmetries nu nd x t i))
    rw [← conj_applyRotation]
    exact congrArg (fun F => Slater.applyRotation F (angle s) k j) (funext fun i => funext fun j => conj_getFullU (up m) (dn m) i j)
  | generalised U =>
    refine conj_det _ _ fun i j => ?_
    exact conj_get (fun k => U m k j) (Holomorphic.pos symmetries nu nd x t i)

/-- **C193**, Slater states with real characters: any symmetry operations, spin projection and number of determinants, and parameters whose
conjugation conjugates the orbitals. -/
theorem C193_slater {nu nd : ℕ} [Fintype κ] [Fintype ι] (orbs : (Fin P → ℂ) → Slater.Orbs L nu nd M κ)
    (ho : ∀ θ, orbs (fun k => (starRingEnd ℂ) (θ k)) = conjOrbs (orbs θ)) (symmetries : ι → Fin L → Fin L) (chars : κ → ℂ)
    (hc : ∀ s, (chars s).im = 0) (ct : Bool) (out : (Fin M → κ → ι → ℂ) → ℂ) :
    ConjEquivariant fun θ x => SymmetricDet.slaterAmp ⟨orbs θ, symmetries, chars, ct, out⟩ x := by
  intro θ x
  beta_reduce
  rw [ho, slater_conj _ _ _ hc]

/-- the orbitals are parameters: up orbitals first -/
example {nu nd : ℕ} (eu : Fin M × Fin L × Fin nu → Fin P) (ed : Fin M × Fin L × Fin nd → Fin P) (θ : Fin P → ℂ) :
    (fun θ : Fin P → ℂ => (Slater.Orbs.fixedMag (fun m i j => θ (eu (m, i, j))) (fun m i j => θ (ed (m, i, j))) : Slater.Orbs L nu nd M Unit))
      (fun k => (starRingEnd ℂ) (θ k)) =
    conjOrbs (Slater.Orbs.fixedMag (fun m i j => θ (eu (m, i, j))) (fun m i j => θ (ed (m, i, j)))) := rfl

/-- **C193**: products of such models. -/
theorem C193_product (psi phi : (Fin P → ℂ) → C → ℂ) (h1 : ConjEquivariant psi) (h2 : ConjEquivariant phi) :
    ConjEquivariant fun θ x => psi θ x * phi θ x := by
  intro θ x
  beta_reduce
  rw [h1, h2, map_mul]

/-- **C193** needs real Hamiltonians: with a real parameter, the state `(1, θ)` of one spin and the Hamiltonian `Y`, the local energy at the
first configuration is not real. -/
theorem C193_real_needed : ∃ (H : Bool → Bool → ℂ) (psi : (Fin 1 → ℂ) → Bool → ℂ) (θ : Fin 1 → ℂ), Spec.Hermitian H ∧ ConjEquivariant psi ∧
    (∀ k, (θ k).im = 0) ∧ (localValue H (psi θ) false).im ≠ 0 := by
  refine ⟨fun x y => if x = y then 0 else if x then Complex.I else -Complex.I, fun θ x => if x then θ 0 else 1, fun _ => 1, ?_, ?_, ?_, ?_⟩
  · intro x y
    cases x <;> cases y <;> simp
  · intro θ x
    cases x <;> simp
  · simp
  · simp [localValue]

end GPSKet.RealRuns
