import Verif.Props.Hubbard
import Verif.Props.J1J2
import Verif.Props.AbInitioSparse
import Verif.Props.UniqueSamples
import Verif.Props.MinSR
import Verif.Props.RMSProp
import Verif.Props.EnergyGradient
import Mathlib.Analysis.Matrix.Spectrum
import Mathlib.Analysis.InnerProductSpace.PiL2
import Mathlib.Data.Complex.BigOperators

/-!
# Eigenstates and the variational principle (C142, C143)

For an eigenstate every local energy computed on the fly is the eigenvalue, whatever was sampled; then the reported mean is the
eigenvalue, the reported variance vanishes and the optimisers leave the parameters unchanged.  Conversely, with Born weights, the
reported variance is the variance of the energy.
-/

namespace GPSKet.ZeroVariance

open GPSKet GPSKet.Spec GPSKet.Props

/-! ## Local energies -/

/-- The eigenvalue equation `(H ψ)(x) = E ψ(x)` at a configuration. -/
def EigenAt {C : Type} [Fintype C] (H : C → C → ℂ) (psi : C → ℂ) (E : ℂ) (x : C) : Prop := ∑ y, H x y * psi y = E * psi x

theorem localEnergy_eigen {C : Type} [Fintype C] (H : C → C → ℂ) (logpsi : C → ℂ) (E : ℂ) (x : C) :
    localEnergy (H x) logpsi x = E ↔ EigenAt H (fun y => Complex.exp (logpsi y)) E x := by
  have hx : Complex.exp (logpsi x) ≠ 0 := Complex.exp_ne_zero _
  unfold localEnergy EigenAt
  simp only [mul_div_assoc']
  rw [← Finset.sum_div, div_eq_iff hx]

variable {L N : ℕ} {Cache : Type}

/-- C142, Hubbard models: the local energy of a configuration is `E` exactly when the eigenvalue equation holds there. -/
theorem C142_hubbard (src : AmpSource L (Fin 4) Cache) (U : ℂ) (edges : List ((Fin L × Fin L) × ℂ))
    (hne : ∀ e ∈ edges, e.1.1 ≠ e.1.2) (E : ℂ) (x : Cfg L) (hs : src.OkAt x) :
    hubbardLocalEn src U edges x = E ↔
      EigenAt (fun x y => hubbard U edges (occOf x) (occOf y)) (fun y => Complex.exp (src.logAmp y)) E x := by
  rw [(C07_local_energy_partial src U edges hne x hs).2]
  exact localEnergy_eigen (fun x y => hubbard U edges (occOf x) (occOf y)) src.logAmp E x

/-- C142, Heisenberg models: the same. -/
theorem C142_heisenberg (src : AmpSource N ℤ Cache) (bonds : List ((Fin N × Fin N) × (ℂ × Bool)))
    (hd : ∀ b ∈ bonds, b.1.1 ≠ b.1.2) (E : ℂ) (x : Spins N) (hs : src.OkAt (fun k => spinVal (x k))) :
    let H := bonds.map fun b => (b.1, heisenbergBond b.2.1 b.2.2)
    J1J2.localEn src H (fun k => spinVal (x k)) = E ↔
      EigenAt (fun x y => bondOperator H x y) (fun y : Spins N => Complex.exp (src.logAmp fun k => spinVal (y k))) E x := by
  intro H
  have h := C11_heisenberg src bonds hd x hs
  dsimp only at h
  rw [show J1J2.localEn src H (fun k => spinVal (x k)) = _ from h]
  exact localEnergy_eigen (fun x y => bondOperator H x y) (fun y : Spins N => src.logAmp fun k => spinVal (y k)) E x

/-- C142, molecules: the same for the dense and for the sparse evaluation. -/
theorem C142_ab_initio (src : AmpSource L (Fin 4) Cache) (h : Fin L → Fin L → ℂ) (e : Fin L → Fin L → Fin L → Fin L → ℂ)
    (hsym : ∀ p q r s, e p q r s = e r s p q) (E : ℂ) (x : Cfg L) (hs : src.OkPaddedAt x) :
    (abLocalEn src (numElec false x, numElec true x) (abT h e) e x = E ↔
      EigenAt (fun x y => (1 / 2) * abInitioTwice h e (occOf x) (occOf y)) (fun y => Complex.exp (src.logAmp y)) E x) ∧
    (sparseLocalEn src (numElec false x, numElec true x) (sparse1 h) (sparse2 e) x = E ↔
      EigenAt (fun x y => (1 / 2) * abInitioTwice h e (occOf x) (occOf y)) (fun y => Complex.exp (src.logAmp y)) E x) := by
  have g := localEnergy_eigen (fun x y => (1 / 2) * abInitioTwice h e (occOf x) (occOf y)) src.logAmp E x
  constructor
  · rw [C14_local_energy_operator src h e hsym x hs]; exact g
  · rw [C16_local_energy_operator src h e hsym x hs]; exact g

/-- hypotheses met: constant amplitudes are an eigenstate of the Heisenberg model on two sites, with the eigenvalue `J` -/
example (x : Spins 2) : EigenAt (fun x y => bondOperator [((0, 1), heisenbergBond 3 false)] x y) (fun _ : Spins 2 => Complex.exp 0) 3 x := by
  unfold EigenAt
  have hx : x = ![x 0, x 1] := by funext i; fin_cases i <;> rfl
  rw [hx]
  have huniv : (Finset.univ : Finset (Spins 2)) = {![true, true], ![true, false], ![false, true], ![false, false]} := by decide
  rw [huniv]
  repeat rw [Finset.sum_insert (by decide)]
  rw [Finset.sum_singleton]
  generalize x 0 = a, x 1 = b
  cases a <;> cases b <;> simp [bondOperator, heisenbergBond, pairIndex, Fin.forall_fin_two] <;> norm_num

/-! ## What is reported -/

open UniqueSamples in
/-- C142: when the local energies of all sampled configurations are `E`, a state with unique samples reports the mean `E` with
variance zero, and the gradient with respect to every complex and every real parameter is zero. -/
theorem C142_reports {C : Type} [DecidableEq C] (ranks perRank : ℕ) (hn : 0 < ranks * perRank) (maxSteps : Option ℕ)
    (batches : List (List C)) (sw : Fin ranks → List (C × ℝ)) (hsw : samplesWithCounts ranks perRank maxSteps batches = some sw)
    (loc : C → ℂ) (E : ℂ) (hE : ∀ c ∈ batches.flatten, loc c = E) :
    mean sw loc = E ∧ variance sw loc = 0 ∧ ∀ O : C → ℂ, gradient sw loc O = 0 ∧ realGradient sw loc O = 0 := by
  obtain ⟨P, used, hne, hpre, -, -, -, -, -, -, -, -, hval⟩ := C50_unique_samples ranks perRank hn maxSteps batches sw hsw
  have hmem : ∀ c ∈ P, loc c = E := by
    intro c hc
    apply hE
    have h1 := hpre.subset hc
    obtain ⟨b, hb, hcb⟩ := List.mem_flatten.mp h1
    exact List.mem_flatten.mpr ⟨b, List.mem_of_mem_take hb, hcb⟩
  have hlen : (P.length : ℂ) ≠ 0 := by
    have : P.length ≠ 0 := fun h => hne (List.length_eq_zero_iff.mp h)
    exact_mod_cast this
  have hm : (P.map loc).sum / P.length = E := by
    rw [List.map_congr_left hmem, List.map_const', List.sum_replicate, nsmul_eq_mul, mul_div_cancel_left₀ _ hlen]
  have hg : ∀ O : C → ℂ, gradient sw loc O = 0 := by
    intro O
    rw [(hval loc O).2.2, hm, List.map_congr_left (g := fun _ => (0 : ℂ)) (fun c hc => by rw [hmem c hc]; simp)]
    simp
  refine ⟨by rw [(hval loc loc).1, hm], ?_, fun O => ⟨hg O, by simp [realGradient, hg O]⟩⟩
  rw [(hval loc loc).2.1, hm, List.map_congr_left (g := fun _ => (0 : ℂ)) (fun c hc => by rw [hmem c hc]; simp)]
  simp

/-- C142: then the update of the minSR driver vanishes, for every least-squares solver, every array of log-derivatives and every
weights with sum one. -/
theorem C142_minSR {R K B P : ℕ} (rescale : Bool) (solver) (O : MinSR.Sample R K B → Fin P → ℂ) (counts : MinSR.Sample R K B → ℝ)
    (hc : ∑ s, counts s = 1) (E : ℂ) (hs : ∀ A b, LeastSquares A b (solver A b)) :
    MinSR.update rescale solver O (fun _ => E) counts = 0 := by
  have hmean : MinSR.energyMean (fun _ => E) counts = E := by
    unfold MinSR.energyMean
    simp only [← Finset.mul_sum]
    have h1 : ∑ r, ∑ s : Fin K × Fin B, (counts (r, s) : ℂ) = 1 := by
      rw [← Fintype.sum_prod_type (f := fun s : Fin R × (Fin K × Fin B) => (counts s : ℂ))]
      exact_mod_cast hc
    rw [h1, mul_one]
  have hcen : MinSR.centred (fun _ => E) counts = 0 := by
    funext s
    simp [MinSR.centred, hmean]
  have h := (C47_normal_equation rescale solver O (fun _ => E) counts hs).2 0 (by rw [hcen]; simp)
  have h0 : ∑ k, ‖MinSR.update rescale solver O (fun _ => E) counts k‖ ^ 2 ≤ 0 := by simpa using h
  have h1 := le_antisymm h0 (Finset.sum_nonneg fun k _ => sq_nonneg _)
  rw [Finset.sum_eq_zero_iff_of_nonneg fun k _ => sq_nonneg _] at h1
  funext k
  have := h1 k (Finset.mem_univ _)
  simpa using this

/-- C142: and so does the update of the driver `VMC_SRRMSProp` (mode `complex`), while its moving average decays by the factor
`decay`. -/
theorem C142_sr_rmsprop {P M : ℕ} (hM : 0 < M) (O : Fin M → Fin 2 → Fin P → ℝ) (E : ℂ) (ema : Fin P → ℝ) (step : ℕ)
    (shift decay eps : ℝ) (hs : 0 < shift) (he : 0 < eps)
    (solver : Matrix (Fin P) (Fin P) ℝ → (Fin P → ℝ) → (Fin P → ℝ)) (hsolver : SolvesPosDef solver) :
    let out := RMSProp.srComplex O (fun _ => E) (sampleMean fun _ : Fin M => E) ema step shift decay eps solver
    out.1 = 0 ∧ ∀ k, out.2 k = decay * ema k := by
  intro out
  have hmean : (sampleMean fun _ : Fin M => E) = E := by
    unfold sampleMean
    have : (M : ℂ) ≠ 0 := by exact_mod_cast hM.ne'
    simp only [Finset.sum_const, Finset.card_univ, Fintype.card_fin, nsmul_eq_mul]
    rw [mul_div_cancel_left₀ _ this]
  have hen : RMSProp.denseEnergies (fun _ : Fin M => E) (sampleMean fun _ : Fin M => E) = 0 := by
    funext p
    unfold RMSProp.denseEnergies
    refine Fin.addCases (fun s => ?_) (fun s => ?_) p
    · rw [Fin.addCases_left]; simp [RMSProp.energies, hmean]
    · rw [Fin.addCases_right]; simp [RMSProp.energies, hmean]
  have hg : Matrix.mulVec (RMSProp.denseRows O).transpose
      (RMSProp.denseEnergies (fun _ : Fin M => E) (sampleMean fun _ : Fin M => E)) = 0 := by rw [hen, Matrix.mulVec_zero]
  constructor
  · funext k
    have hout : out.1 k = -(RMSProp.rootSolve (RMSProp.denseRows O)
        (RMSProp.denseEnergies (fun _ : Fin M => E) (sampleMean fun _ : Fin M => E)) ema step shift decay eps solver).1 k := rfl
    rw [hout]
    unfold RMSProp.rootSolve
    dsimp only
    rw [hg]
    generalize hA : ((RMSProp.denseRows O).transpose * RMSProp.denseRows O + shift • Matrix.diagonal fun k =>
      Real.sqrt (RMSProp.biasCorrected decay (RMSProp.updateEma decay (ema k) ((0 : Fin P → ℝ) k)) step) + eps) = A
    have hpd : A.PosDef := by rw [← hA]; exact regularised_posDef _ _ shift eps hs he
    have hsol := hsolver A 0 hpd
    have hinj := Matrix.mulVec_injective_of_isUnit hpd.isUnit
    have : solver A 0 = 0 := hinj (by rw [hsol, Matrix.mulVec_zero])
    rw [this]; simp
  · intro k
    show RMSProp.updateEma decay (ema k) _ = _
    rw [hg]
    simp [RMSProp.updateEma]

/-! ## Born weights -/

open EnergyGradient

variable {C : Type} [Fintype C] [DecidableEq C]

theorem variance_by {ranks : ℕ} (sw : Fin ranks → List (C × ℝ)) (loc : C → ℂ) :
    UniqueSamples.variance sw loc =
      ∑ c, (weight sw c : ℂ) * ((‖loc c - UniqueSamples.mean sw loc‖ ^ 2 : ℝ) : ℂ) := by
  unfold UniqueSamples.variance
  exact sum_by sw fun c => ((‖loc c - UniqueSamples.mean sw loc‖ ^ 2 : ℝ) : ℂ)

/-- C143: with Born weights and without vanishing amplitudes the reported variance is `‖(H - ⟨H⟩) ψ‖² / ‖ψ‖²`. -/
theorem C143_variance {ranks : ℕ} (sw : Fin ranks → List (C × ℝ)) (H : C → C → ℂ) (psi : C → ℂ) (h0 : ∀ x, psi x ≠ 0)
    (hb : Born sw psi) :
    UniqueSamples.variance sw (localValue H psi) =
      (((∑ x, ‖∑ y, H x y * psi y - rayleigh H psi * psi x‖ ^ 2) / bornNorm psi : ℝ) : ℂ) := by
  rw [variance_by, C133_mean sw H psi hb]
  rw [Finset.sum_div, Complex.ofReal_sum]
  refine Finset.sum_congr rfl fun c _ => ?_
  rw [hb c, ← Complex.ofReal_mul]
  congr 1
  have hc : ‖psi c‖ ≠ 0 := norm_ne_zero_iff.mpr (h0 c)
  have h1 : ∑ y, H c y * psi y - rayleigh H psi * psi c = (localValue H psi c - rayleigh H psi) * psi c := by
    unfold localValue
    rw [sub_mul, div_mul_cancel₀ _ (h0 c)]
  rw [h1, norm_mul, mul_pow]
  ring

/-- C143: it vanishes only for eigenstates. -/
theorem C143_zero_iff [Nonempty C] {ranks : ℕ} (sw : Fin ranks → List (C × ℝ)) (H : C → C → ℂ) (psi : C → ℂ) (h0 : ∀ x, psi x ≠ 0)
    (hb : Born sw psi) :
    UniqueSamples.variance sw (localValue H psi) = 0 ↔ ∃ E, ∀ x, EigenAt H psi E x := by
  have hpos : 0 < bornNorm psi :=
    Finset.sum_pos (fun x _ => by have := norm_pos_iff.mpr (h0 x); positivity) Finset.univ_nonempty
  rw [C143_variance sw H psi h0 hb]
  constructor
  · intro h
    have h1 : (∑ x, ‖∑ y, H x y * psi y - rayleigh H psi * psi x‖ ^ 2) / bornNorm psi = 0 := by exact_mod_cast h
    rw [div_eq_zero_iff, or_iff_left hpos.ne', Finset.sum_eq_zero_iff_of_nonneg fun x _ => sq_nonneg _] at h1
    refine ⟨rayleigh H psi, fun x => ?_⟩
    have h2 := h1 x (Finset.mem_univ _)
    rw [sq_eq_zero_iff, norm_eq_zero] at h2
    exact sub_eq_zero.mp h2
  · rintro ⟨E, hE⟩
    have hr : rayleigh H psi = E := by
      have h1 : ∑ x, ∑ y, (starRingEnd ℂ) (psi x) * H x y * psi y = E * (bornNorm psi : ℂ) := by
        unfold bornNorm
        rw [Complex.ofReal_sum, Finset.mul_sum]
        refine Finset.sum_congr rfl fun x _ => ?_
        have : ∑ y, (starRingEnd ℂ) (psi x) * H x y * psi y = (starRingEnd ℂ) (psi x) * ∑ y, H x y * psi y := by
          rw [Finset.mul_sum]; exact Finset.sum_congr rfl fun y _ => by ring
        rw [this, hE x, ← Complex.normSq_eq_norm_sq, ← Complex.mul_conj]
        ring
      unfold rayleigh
      rw [h1, mul_div_cancel_right₀]
      exact_mod_cast hpos.ne'
    rw [hr]
    have : ∀ x, ‖∑ y, H x y * psi y - E * psi x‖ ^ 2 = 0 := by
      intro x; rw [show ∑ y, H x y * psi y = E * psi x from hE x]; simp
    simp [this]

/-! ## The variational principle -/

omit [Fintype C] [DecidableEq C] in
theorem hermitian_isHermitian (H : C → C → ℂ) (hH : Hermitian H) : (Matrix.of H).IsHermitian := by
  ext i j
  simp only [Matrix.conjTranspose_apply, Matrix.of_apply]
  rw [hH i j]
  simp

omit [DecidableEq C] in
/-- `∑ x, ‖f x‖²` is the sum of the squares of the components in an orthonormal basis of eigenvectors. -/
theorem parseval (b : OrthonormalBasis C ℂ (EuclideanSpace ℂ C)) (v : C → ℂ) :
    ∑ x, ‖v x‖ ^ 2 = ∑ i, ‖inner ℂ (b i) (WithLp.toLp 2 v)‖ ^ 2 := by
  rw [b.sum_sq_norm_inner_right, EuclideanSpace.norm_sq_eq]

/-- `E` is an eigenvalue. -/
def IsEigenvalue (H : C → C → ℂ) (E : ℂ) : Prop := ∃ phi : C → ℂ, phi ≠ 0 ∧ ∀ x, EigenAt H phi E x

theorem component (H : C → C → ℂ) (hH : Hermitian H) (psi : C → ℂ) (i : C) :
    inner ℂ ((hermitian_isHermitian H hH).eigenvectorBasis i) (WithLp.toLp 2 fun x => ∑ y, H x y * psi y) =
      ((hermitian_isHermitian H hH).eigenvalues i : ℂ) * inner ℂ ((hermitian_isHermitian H hH).eigenvectorBasis i) (WithLp.toLp 2 psi) := by
  set hA := hermitian_isHermitian H hH
  have hsym := Matrix.isSymmetric_toEuclideanLin_iff.mpr hA
  have h1 : (WithLp.toLp 2 fun x => ∑ y, H x y * psi y) = Matrix.toEuclideanLin (Matrix.of H) (WithLp.toLp 2 psi) := rfl
  have h2 : Matrix.toEuclideanLin (Matrix.of H) (hA.eigenvectorBasis i) = (hA.eigenvalues i : ℂ) • hA.eigenvectorBasis i := by
    have := hA.mulVec_eigenvectorBasis i
    ext x
    have hx := congrFun this x
    simpa using hx
  rw [h1, ← hsym, h2, inner_smul_left]
  simp

theorem eigen_eigenvalue (H : C → C → ℂ) (hH : Hermitian H) (i : C) :
    IsEigenvalue H ((hermitian_isHermitian H hH).eigenvalues i : ℂ) := by
  set hA := hermitian_isHermitian H hH
  refine ⟨fun x => hA.eigenvectorBasis i x, fun h => ?_, fun x => ?_⟩
  · have h1 := hA.eigenvectorBasis.orthonormal.1 i
    have h2 : hA.eigenvectorBasis i = 0 := by ext x; exact congrFun h x
    rw [h2] at h1; simp at h1
  · have hx := congrFun (hA.mulVec_eigenvectorBasis i) x
    simpa [EigenAt, Matrix.mulVec, dotProduct] using hx

theorem exists_eigenvalue (H : C → C → ℂ) (hH : Hermitian H) (E : ℂ) (hE : IsEigenvalue H E) :
    ∃ i, E = ((hermitian_isHermitian H hH).eigenvalues i : ℂ) := by
  set hA := hermitian_isHermitian H hH
  obtain ⟨phi, h0, h⟩ := hE
  by_contra hne
  push Not at hne
  have hz : ∀ i, inner ℂ (hA.eigenvectorBasis i) (WithLp.toLp 2 phi) = 0 := by
    intro i
    have h1 := component H hH phi i
    have h2 : (fun x => ∑ y, H x y * phi y) = E • phi := by
      funext x; exact h x
    rw [h2, WithLp.toLp_smul, inner_smul_right] at h1
    have h3 : (E - (hA.eigenvalues i : ℂ)) * inner ℂ (hA.eigenvectorBasis i) (WithLp.toLp 2 phi) = 0 := by
      rw [sub_mul, h1, sub_self]
    exact (mul_eq_zero.mp h3).resolve_left (sub_ne_zero.mpr (hne i))
  have h4 := parseval hA.eigenvectorBasis phi
  simp only [hz, norm_zero] at h4
  have h5 : ∑ x, ‖phi x‖ ^ 2 = 0 := by rw [h4]; simp
  rw [Finset.sum_eq_zero_iff_of_nonneg fun x _ => sq_nonneg _] at h5
  apply h0
  funext x
  simpa using h5 x (Finset.mem_univ _)

theorem rayleigh_components (H : C → C → ℂ) (hH : Hermitian H) (psi : C → ℂ) :
    ∑ x, ∑ y, (starRingEnd ℂ) (psi x) * H x y * psi y =
      ((∑ i, (hermitian_isHermitian H hH).eigenvalues i *
        ‖inner ℂ ((hermitian_isHermitian H hH).eigenvectorBasis i) (WithLp.toLp 2 psi)‖ ^ 2 : ℝ) : ℂ) := by
  set hA := hermitian_isHermitian H hH
  have h1 : ∑ x, ∑ y, (starRingEnd ℂ) (psi x) * H x y * psi y =
      inner ℂ (WithLp.toLp 2 psi) (WithLp.toLp 2 fun x => ∑ y, H x y * psi y) := by
    rw [PiLp.inner_apply]
    refine Finset.sum_congr rfl fun x _ => ?_
    simp only [RCLike.inner_apply, Finset.sum_mul]
    exact Finset.sum_congr rfl fun y _ => by ring
  rw [h1, ← hA.eigenvectorBasis.sum_inner_mul_inner]
  rw [Complex.ofReal_sum]
  refine Finset.sum_congr rfl fun i _ => ?_
  rw [component H hH psi i, Complex.ofReal_mul, ← Complex.normSq_eq_norm_sq, ← Complex.mul_conj, inner_conj_symm]
  ring

/-- C143, the variational principle: with Born weights the reported mean of a Hermitian Hamiltonian is real and not below its
lowest eigenvalue. -/
theorem C143_variational {ranks : ℕ} (sw : Fin ranks → List (C × ℝ)) (H : C → C → ℂ) (hH : Hermitian H) (psi : C → ℂ)
    (h0 : psi ≠ 0) (hb : Born sw psi) :
    (UniqueSamples.mean sw (localValue H psi)).im = 0 ∧
      ∃ E0 : ℝ, IsEigenvalue H E0 ∧ (∀ E, IsEigenvalue H E → E.im = 0 ∧ E0 ≤ E.re) ∧
        E0 ≤ (UniqueSamples.mean sw (localValue H psi)).re := by
  set hA := hermitian_isHermitian H hH with hA'
  obtain ⟨x0, hx0⟩ := Function.ne_iff.mp h0
  have hpos : 0 < bornNorm psi :=
    Finset.sum_pos' (fun x _ => sq_nonneg _) ⟨x0, Finset.mem_univ _, by have := norm_pos_iff.mpr hx0; positivity⟩
  have hr : UniqueSamples.mean sw (localValue H psi) =
      (((∑ i, hA.eigenvalues i * ‖inner ℂ (hA.eigenvectorBasis i) (WithLp.toLp 2 psi)‖ ^ 2) / bornNorm psi : ℝ) : ℂ) := by
    rw [C133_mean sw H psi hb]
    unfold rayleigh
    rw [rayleigh_components H hH psi, Complex.ofReal_div]
  obtain ⟨i0, -, hmin⟩ := Finset.exists_min_image Finset.univ hA.eigenvalues ⟨x0, Finset.mem_univ _⟩
  refine ⟨by rw [hr]; exact Complex.ofReal_im _, hA.eigenvalues i0, eigen_eigenvalue H hH i0, fun E hE => ?_, ?_⟩
  · obtain ⟨i, rfl⟩ := exists_eigenvalue H hH E hE
    exact ⟨Complex.ofReal_im _, by rw [Complex.ofReal_re]; exact hmin i (Finset.mem_univ _)⟩
  · rw [hr, Complex.ofReal_re, le_div_iff₀ hpos]
    unfold bornNorm
    rw [parseval hA.eigenvectorBasis psi, Finset.mul_sum]
    exact Finset.sum_le_sum fun i _ => mul_le_mul_of_nonneg_right (hmin i (Finset.mem_univ _)) (sq_nonneg _)

/-- C143: with Born weights and without vanishing amplitudes there is an eigenvalue within the square root of the reported
variance of the reported mean. -/
theorem C143_error_bar [Nonempty C] {ranks : ℕ} (sw : Fin ranks → List (C × ℝ)) (H : C → C → ℂ) (hH : Hermitian H) (psi : C → ℂ)
    (h0 : ∀ x, psi x ≠ 0) (hb : Born sw psi) :
    ∃ E, IsEigenvalue H E ∧
      ‖E - UniqueSamples.mean sw (localValue H psi)‖ ≤ Real.sqrt (UniqueSamples.variance sw (localValue H psi)).re := by
  set hA := hermitian_isHermitian H hH with hA'
  have hpos : 0 < bornNorm psi :=
    Finset.sum_pos (fun x _ => by have := norm_pos_iff.mpr (h0 x); positivity) Finset.univ_nonempty
  set E := rayleigh H psi with hE
  obtain ⟨i0, -, hmin⟩ := Finset.exists_min_image Finset.univ (fun i => ‖(hA.eigenvalues i : ℂ) - E‖) Finset.univ_nonempty
  refine ⟨hA.eigenvalues i0, eigen_eigenvalue H hH i0, ?_⟩
  rw [C133_mean sw H psi hb, C143_variance sw H psi h0 hb, Complex.ofReal_re]
  apply Real.le_sqrt_of_sq_le
  rw [le_div_iff₀ hpos]
  have h1 : ∑ x, ‖∑ y, H x y * psi y - E * psi x‖ ^ 2 =
      ∑ i, (‖(hA.eigenvalues i : ℂ) - E‖ * ‖inner ℂ (hA.eigenvectorBasis i) (WithLp.toLp 2 psi)‖) ^ 2 := by
    rw [parseval hA.eigenvectorBasis]
    refine Finset.sum_congr rfl fun i _ => ?_
    have h2 : (WithLp.toLp 2 fun x => ∑ y, H x y * psi y - E * psi x) =
        (WithLp.toLp 2 fun x => ∑ y, H x y * psi y) - E • (WithLp.toLp 2 psi : EuclideanSpace ℂ C) := rfl
    rw [h2, inner_sub_right, inner_smul_right, component H hH psi i, ← sub_mul, norm_mul]
  rw [h1]
  unfold bornNorm
  rw [parseval hA.eigenvectorBasis psi, Finset.mul_sum]
  refine Finset.sum_le_sum fun i _ => ?_
  rw [mul_pow]
  exact mul_le_mul_of_nonneg_right (pow_le_pow_left₀ (norm_nonneg _) (hmin i (Finset.mem_univ _)) 2) (sq_nonneg _)

/-- hypotheses met: two configurations with probability one half each -/
example : Hermitian exH ∧ (∀ c, exPsi 1 c ≠ 0) ∧ Born (ranks := 1) ![[(true, 1 / 2), (false, 1 / 2)]] (exPsi 1) := by
  have hn : bornNorm (exPsi 1) = 2 := by simp [bornNorm, exPsi]
  refine ⟨exH_hermitian, fun c => by cases c <;> simp [exPsi], fun c => ?_⟩
  rw [hn]
  cases c <;> simp [weight, exPsi]

/-- C143: with vanishing amplitudes a reported variance of zero does not mean that the state is an eigenstate. -/
theorem C143_zeros_fails :
    Born (ranks := 1) ![[(false, 1)]] (exPsi 0) ∧
    UniqueSamples.variance (ranks := 1) ![[(false, 1)]] (localValue exH (exPsi 0)) = 0 ∧ ¬ ∃ E, ∀ x, EigenAt exH (exPsi 0) E x := by
  have hn : bornNorm (exPsi 0) = 1 := by simp [bornNorm, exPsi]
  refine ⟨fun c => ?_, by simp [UniqueSamples.variance, UniqueSamples.mean], ?_⟩
  · rw [hn]
    cases c <;> simp [weight, exPsi]
  · rintro ⟨E, hE⟩
    have := hE true
    simp [EigenAt, exH, exPsi] at this

end GPSKet.ZeroVariance
