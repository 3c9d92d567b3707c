import Verif.Props.Hubbard
import Verif.Props.J1J2
import Verif.Props.AbInitioSparse
import Verif.Props.Metropolis
import Verif.Props.UniqueSamples
import Verif.Props.RMSProp
import Mathlib.Analysis.Calculus.FDeriv.Add
import Mathlib.Analysis.Calculus.FDeriv.Pi

/-!
# Normalisation and global phase have no effect (C147)

Two models whose log-amplitudes differ by a constant describe the same physical state.  A run of the package must not depend on
which of them is used.
-/

namespace GPSKet.Gauge

open GPSKet GPSKet.Spec GPSKet.Props RMSProp UniqueSamples

variable {L N : ℕ} {Cache Cache' : Type}

theorem localEnergy_shift {C : Type} [Fintype C] (row logpsi logpsi' : C → ℂ) (c : ℂ) (h : ∀ x, logpsi' x = logpsi x + c) (x : C) :
    localEnergy row logpsi' x = localEnergy row logpsi x := by
  unfold localEnergy
  refine Finset.sum_congr rfl fun y _ => ?_
  rw [h, h, ← Complex.exp_sub, ← Complex.exp_sub, add_sub_add_right_eq_sub]

/-- C147, Hubbard models: the local energies are those of any other model of the same state up to normalisation and phase (with or without fast
updates, with any caches). -/
theorem C147_hubbard (src : AmpSource L (Fin 4) Cache) (src' : AmpSource L (Fin 4) Cache') (c : ℂ)
    (h : ∀ x, src'.logAmp x = src.logAmp x + c) (U : ℂ) (edges : List ((Fin L × Fin L) × ℂ)) (hne : ∀ e ∈ edges, e.1.1 ≠ e.1.2)
    (x : Cfg L) (hs : src.OkAt x) (hs' : src'.OkAt x) :
    hubbardLocalEn src' U edges x = hubbardLocalEn src U edges x := by
  rw [(C07_local_energy_partial src' U edges hne x hs').2, (C07_local_energy_partial src U edges hne x hs).2]
  exact localEnergy_shift _ _ _ c h x

/-- C147, molecules and general two-body Hamiltonians: the same, for the dense and the sparse evaluation. -/
theorem C147_ab_initio (src : AmpSource L (Fin 4) Cache) (src' : AmpSource L (Fin 4) Cache') (c : ℂ)
    (hc : ∀ x, src'.logAmp x = src.logAmp x + c) (h : Fin L → Fin L → ℂ) (e : Fin L → Fin L → Fin L → Fin L → ℂ)
    (hsym : ∀ p q r s, e p q r s = e r s p q) (x : Cfg L) (hs : src.OkPaddedAt x) (hs' : src'.OkPaddedAt x) :
    abLocalEn src' (numElec false x, numElec true x) (abT h e) e x = abLocalEn src (numElec false x, numElec true x) (abT h e) e x ∧
    sparseLocalEn src' (numElec false x, numElec true x) (sparse1 h) (sparse2 e) x =
      sparseLocalEn src (numElec false x, numElec true x) (sparse1 h) (sparse2 e) x := by
  rw [C16_local_energy_operator src' h e hsym x hs', C16_local_energy_operator src h e hsym x hs,
    C14_local_energy_operator src' h e hsym x hs', C14_local_energy_operator src h e hsym x hs]
  exact ⟨localEnergy_shift _ _ _ c hc x, localEnergy_shift _ _ _ c hc x⟩

/-- C147, Heisenberg models: the same. -/
theorem C147_heisenberg (src : AmpSource N ℤ Cache) (src' : AmpSource N ℤ Cache') (c : ℂ)
    (h : ∀ x, src'.logAmp x = src.logAmp x + c) (bonds : List ((Fin N × Fin N) × (ℂ × Bool))) (hd : ∀ b ∈ bonds, b.1.1 ≠ b.1.2)
    (x : Spins N) (hs : src.OkAt (fun k => spinVal (x k))) (hs' : src'.OkAt (fun k => spinVal (x k))) :
    let H := bonds.map fun b => (b.1, heisenbergBond b.2.1 b.2.2)
    J1J2.localEn src' H (fun k => spinVal (x k)) = J1J2.localEn src H (fun k => spinVal (x k)) := by
  intro H
  have h1 := C11_heisenberg src bonds hd x hs
  have h2 := C11_heisenberg src' bonds hd x hs'
  dsimp only at h1 h2
  rw [show J1J2.localEn src H (fun k => spinVal (x k)) = _ from h1, show J1J2.localEn src' H (fun k => spinVal (x k)) = _ from h2]
  exact localEnergy_shift _ _ _ c (fun y => h _) x

/-! ## The sampler -/

variable {S A Chain : Type} [DecidableEq S] [Fintype Chain]

omit [DecidableEq S] [Fintype Chain] in
theorem accepts_shift (f g : (S → A) → ℂ) (c : ℂ) (h : ∀ x, g x = f x + c) (pow : ℝ) (σ : Chain → S → A)
    (inp : StepInput Chain S A) (k : Chain) : Accepts g pow σ inp k ↔ Accepts f pow σ inp k := by
  unfold Accepts
  dsimp only
  rw [h, h, Complex.add_re, Complex.add_re,
    show pow * ((f ((inp.transition σ).σp k)).re + c.re) - pow * ((f (σ k)).re + c.re) =
      pow * (f ((inp.transition σ).σp k)).re - pow * (f (σ k)).re by ring]

omit [DecidableEq S] in
theorem mhRun_shift (f g : (S → A) → ℂ) (c : ℂ) (h : ∀ x, g x = f x + c) (pow : ℝ) (inputs : List (StepInput Chain S A)) :
    ∀ σ : Chain → S → A, mhRun g pow σ inputs = mhRun f pow σ inputs ∧ mhAccepted g pow σ inputs = mhAccepted f pow σ inputs := by
  induction inputs with
  | nil => intro σ; exact ⟨rfl, rfl⟩
  | cons inp l ih =>
    intro σ
    have hacc : Accepts g pow σ inp = Accepts f pow σ inp := by
      funext k; exact propext (accepts_shift f g c h pow σ inp k)
    have hstep : mhStep g pow σ inp = mhStep f pow σ inp := by
      unfold mhStep
      rw [hacc]
    simp only [mhRun, mhAccepted, hstep, hacc]
    refine ⟨(ih _).1, ?_⟩
    rw [(ih _).2]
    congr 2
    ext k
    simp only [Finset.mem_filter, hacc]

/-- C147, the fast Metropolis sampler: with the same random numbers the two models produce the same samples and the same acceptance counts,
after any number of steps, whatever their caches are. -/
theorem C147_sampler (Inv : (S → A) → Prop) (m : CachedModel S A Cache) (m' : CachedModel S A Cache') (c : ℂ)
    (h : ∀ x, m'.full x = m.full x + c) (pow : ℝ) (inputs : List (StepInput Chain S A))
    (hok : ∀ inp ∈ inputs, RuleModelOk Inv m inp) (hok' : ∀ inp ∈ inputs, RuleModelOk Inv m' inp)
    (state : SamplerState Chain S A) (hinv : ∀ k, Inv (state.σ k)) :
    sampleNext m' pow state inputs = sampleNext m pow state inputs := by
  obtain ⟨h1, -, -, h2⟩ := C24_fast_is_plain Inv m pow state inputs hinv hok
  obtain ⟨h1', -, -, h2'⟩ := C24_fast_is_plain Inv m' pow state inputs hinv hok'
  obtain ⟨g1, g2⟩ := mhRun_shift m.full m'.full c h pow inputs state.σ
  unfold sampleNext
  dsimp only
  rw [h1, h1', h2, h2', g1, g2]

/-! ## Gradients and updates

The log-derivatives of the two models differ by numbers `a k` that do not depend on the configuration (see `dlog_shift`). -/

variable {P : ℕ}

/-- C147, states of unique samples: the gradient is the same. -/
theorem C147_unique_gradient {C : Type} [DecidableEq C] (ranks perRank : ℕ) (hn : 0 < ranks * perRank) (maxSteps : Option ℕ)
    (batches : List (List C)) (sw : Fin ranks → List (C × ℝ)) (hsw : samplesWithCounts ranks perRank maxSteps batches = some sw)
    (loc O : C → ℂ) (a : ℂ) :
    gradient sw loc (fun c => O c + a) = gradient sw loc O ∧ realGradient sw loc (fun c => O c + a) = realGradient sw loc O := by
  obtain ⟨P, used, hP, -, -, -, -, -, -, -, -, -, hval⟩ := C50_unique_samples ranks perRank hn maxSteps batches sw hsw
  have hl : (P.length : ℂ) ≠ 0 := by simpa using hP
  have h0 : (P.map fun c => loc c - (P.map loc).sum / P.length).sum = 0 := by
    have : ∀ l : List C, ∀ m : ℂ, (l.map fun c => loc c - m).sum = (l.map loc).sum - l.length * m := by
      intro l m
      induction l with
      | nil => simp
      | cons x l ih => simp only [List.map_cons, List.sum_cons, ih, List.length_cons]; push_cast; ring
    rw [this]; field_simp; ring
  have hg : gradient sw loc (fun c => O c + a) = gradient sw loc O := by
    rw [(hval loc (fun c => O c + a)).2.2, (hval loc O).2.2]
    congr 1
    have : ∀ l : List C, ∀ m : ℂ, (l.map fun c => (starRingEnd ℂ) (O c + a) * (loc c - m)).sum =
        (l.map fun c => (starRingEnd ℂ) (O c) * (loc c - m)).sum + (starRingEnd ℂ) a * (l.map fun c => loc c - m).sum := by
      intro l m
      induction l with
      | nil => simp
      | cons x l ih => rw [List.map_cons, List.sum_cons, ih, List.map_cons, List.sum_cons, List.map_cons, List.sum_cons, map_add]; ring
    rw [this, h0, mul_zero, add_zero]
  exact ⟨hg, by unfold realGradient; rw [hg]⟩

theorem centredRows_shift {n : ℕ} {α : Type} (O O' : Fin n → α → Fin P → ℝ) (b : α → Fin P → ℝ)
    (h : ∀ s i k, O' s i k = O s i k + b i k) (s : Fin n) (i : α) (k : Fin P) : centredRows O' s i k = centredRows O s i k := by
  have hn : (n : ℝ) ≠ 0 := by
    have : 0 < n := Nat.lt_of_le_of_lt (Nat.zero_le _) s.isLt
    exact_mod_cast this.ne'
  unfold centredRows
  simp only [h, Finset.sum_add_distrib, Finset.sum_const, Finset.card_univ, Fintype.card_fin, nsmul_eq_mul]
  field_simp
  ring

/-- C147, `VMC_SRRMSProp`: the updates and the moving averages are the same, in both modes. -/
theorem C147_sr_rmsprop {n : ℕ} (E : Fin n → ℂ) (eMean : ℂ) (ema : Fin P → ℝ) (step : ℕ)
    (shift decay eps : ℝ) (solver : Matrix (Fin P) (Fin P) ℝ → (Fin P → ℝ) → (Fin P → ℝ)) :
    (∀ (O O' : Fin n → Fin 2 → Fin P → ℝ) (a : Fin 2 → Fin P → ℝ), (∀ s i k, O' s i k = O s i k + a i k) →
      srComplex O' E eMean ema step shift decay eps solver = srComplex O E eMean ema step shift decay eps solver) ∧
    (∀ (O O' : Fin n → Fin P → ℝ) (a : Fin P → ℝ), (∀ s k, O' s k = O s k + a k) →
      srReal O' E eMean ema step shift decay eps solver = srReal O E eMean ema step shift decay eps solver) := by
  refine ⟨fun O O' a h => ?_, fun O O' a h => ?_⟩
  · have : denseRows O' = denseRows O := by
      funext p k
      unfold denseRows
      exact centredRows_shift O O' a h _ _ _
    unfold srComplex
    rw [this]
  · have : (fun (s : Fin n) (k : Fin P) => centredRows (fun s (_ : Unit) k => O' s k) s () k) =
        fun s k => centredRows (fun s (_ : Unit) k => O s k) s () k := by
      funext s k
      exact centredRows_shift (fun s (_ : Unit) k => O s k) (fun s (_ : Unit) k => O' s k) (fun _ => a) (fun s _ k => h s k) _ _ _
    unfold srReal
    rw [this]

theorem sampleMean_shift {T : Type} [Fintype T] (f : T → ℂ) (a : ℂ) (t : T) :
    (sampleMean fun s => f s + a) = sampleMean f + a := by
  unfold sampleMean
  have : (Fintype.card T : ℂ) ≠ 0 := by
    have : 0 < Fintype.card T := Fintype.card_pos_iff.mpr ⟨t⟩
    exact_mod_cast this.ne'
  rw [Finset.sum_add_distrib, Finset.sum_const, Finset.card_univ, nsmul_eq_mul]
  field_simp

/-- C147, `minSRVMC` on a plain Monte-Carlo state: the update is the same (whether or not NetKet rescales the rows). -/
theorem C147_minSR {R K B : ℕ} (rescale : Bool) (solver) (O O' : MinSR.Sample R K B → Fin P → ℂ) (a : Fin P → ℂ)
    (h : ∀ s k, O' s k = O s k + a k) (E : MinSR.Sample R K B → ℂ) :
    MinSR.update rescale solver O' E MinSR.uniformCounts = MinSR.update rescale solver O E MinSR.uniformCounts := by
  have hr : rows rescale O' MinSR.uniformCounts = rows rescale O MinSR.uniformCounts := by
    funext s k
    have hO : O' = fun s k => O s k + a k := by funext s k; exact h s k
    subst hO
    have hc : (O s k + a k) - (sampleMean fun s => O s k + a k) = O s k - sampleMean fun s => O s k := by
      rw [sampleMean_shift (fun s => O s k) (a k) s]; ring
    cases rescale
    · rw [rows_plain, rows_plain, hc]
    · rw [rows_rescaled, rows_rescaled, hc]
  have hu : ∀ O : MinSR.Sample R K B → Fin P → ℂ, MinSR.update rescale solver O E MinSR.uniformCounts =
      fun k => MinSR.chunkSum fun s => (starRingEnd ℂ) (rows rescale O MinSR.uniformCounts s k) *
        MinSR.scattered (solver (MinSR.kernel (rows rescale O MinSR.uniformCounts)) fun p =>
          MinSR.centred E MinSR.uniformCounts (MinSR.restack p)) s := fun O => rfl
  rw [hu O', hu O, hr]

/-- The remark in brackets: on a state of unique samples with unequal weights `minSRVMC` takes different steps for the two
models (here one with constant amplitude, and the same multiplied with a factor that depends on the parameter). -/
theorem C147_minSR_weighted_fails : ∃ (O O' : MinSR.Sample 1 1 2 → Fin 1 → ℂ) (a : Fin 1 → ℂ) (E : MinSR.Sample 1 1 2 → ℂ)
    (counts : MinSR.Sample 1 1 2 → ℝ), (∀ s k, O' s k = O s k + a k) ∧ (∀ s, 0 < counts s) ∧ ∑ s, counts s = 1 ∧
    ∀ solver, (∀ A b, LeastSquares A b (solver A b)) → MinSR.update true solver O' E counts ≠ MinSR.update true solver O E counts := by
  refine ⟨fun _ _ => 0, fun _ _ => 1, fun _ => 1, fun s => if s.2.2 = 0 then 1 else 0, fun s => if s.2.2 = 0 then 9 / 25 else 16 / 25,
    fun s k => by simp, fun s => by dsimp only; split_ifs <;> norm_num, ?_, fun solver hs heq => ?_⟩
  · simp only [Fintype.sum_prod_type, Finset.univ_unique, Finset.sum_singleton, Fin.sum_univ_two]
    norm_num
  · have h1 := (C47_normal_equation (P := 1) true solver (fun _ _ => (1 : ℂ)) (fun s => if s.2.2 = 0 then 1 else 0)
      (fun s => if s.2.2 = 0 then 9 / 25 else 16 / 25) hs).1
    have hz : MinSR.update true solver (fun (_ : MinSR.Sample 1 1 2) (_ : Fin 1) => (0 : ℂ)) (fun s => if s.2.2 = 0 then 1 else 0)
        (fun s => if s.2.2 = 0 then 9 / 25 else 16 / 25) = 0 := by
      funext k
      unfold MinSR.update
      simp [MinSR.jacobian, MinSR.oAvg, MinSR.chunkSum]
    rw [heq, hz, Matrix.mulVec_zero] at h1
    have h2 := congrFun h1 0
    have s1 : Real.sqrt (9 / 25) = 3 / 5 := by rw [show (9 / 25 : ℝ) = (3 / 5) ^ 2 by norm_num, Real.sqrt_sq (by norm_num)]
    have s2 : Real.sqrt (16 / 25) = 4 / 5 := by rw [show (16 / 25 : ℝ) = (4 / 5) ^ 2 by norm_num, Real.sqrt_sq (by norm_num)]
    simp only [Matrix.mulVec, dotProduct, Matrix.conjTranspose_apply, Fintype.sum_prod_type, Finset.univ_unique, Finset.sum_singleton,
      Fin.sum_univ_two, rows, MinSR.jacobian, MinSR.oAvg, MinSR.chunkSum, MinSR.centred, MinSR.energyMean, if_true] at h2
    simp [s1, s2] at h2
    norm_num [Complex.ext_iff] at h2

/-! ## Whole training runs -/

/-- Two families of log-amplitudes that differ, at given parameters, by a number independent of the configuration have log-derivatives that
differ by numbers independent of the configuration. -/
theorem dlog_shift {𝕜 C : Type} [NontriviallyNormedField 𝕜] [NormedAlgebra 𝕜 ℂ] (logpsi logpsi' : (Fin P → 𝕜) → C → ℂ) (g : (Fin P → 𝕜) → ℂ)
    (h : ∀ θ x, logpsi' θ x = logpsi θ x + g θ) (D D' : (Fin P → 𝕜) → C → (Fin P → 𝕜) →L[𝕜] ℂ)
    (hD : ∀ θ x, HasFDerivAt (fun θ => logpsi θ x) (D θ x) θ) (hD' : ∀ θ x, HasFDerivAt (fun θ => logpsi' θ x) (D' θ x) θ)
    (θ : Fin P → 𝕜) : ∃ a : Fin P → ℂ, ∀ x k, D' θ x (Pi.single k 1) = D θ x (Pi.single k 1) + a k := by
  by_cases hC : Nonempty C
  · obtain ⟨x₀⟩ := hC
    refine ⟨fun k => (D' θ x₀ - D θ x₀) (Pi.single k 1), fun x k => ?_⟩
    have hg : ∀ x, HasFDerivAt g (D' θ x - D θ x) θ := by
      intro x
      have h1 := (hD' θ x).sub (hD θ x)
      refine h1.congr_of_eventuallyEq (Filter.Eventually.of_forall fun θ => ?_)
      simp [h]
    have h2 := (hg x).unique (hg x₀)
    rw [← h2]
    simp
  · exact ⟨0, fun x => absurd ⟨x⟩ hC⟩

/-- What a training run has after an iteration: parameters, the memory of the driver (e.g. a moving average) and of the optimiser, and the sampler. -/
structure Training (𝕜 Mem Chain S A : Type) (P : ℕ) where
  θ : Fin P → 𝕜
  memory : Mem
  sampler : SamplerState Chain S A

/-- The states of the sampler after each of the calls of `_sample_next` that make up a batch of samples
(metropolis_fast.py:18-101; NetKet's `sample` calls it once per sample of a chain). -/
noncomputable def batch (m : CachedModel S A Cache) (pow : ℝ) : SamplerState Chain S A → List (List (StepInput Chain S A)) →
    List (SamplerState Chain S A)
  | _, [] => []
  | s, c :: cs => sampleNext m pow s c :: batch m pow (sampleNext m pow s c) cs

/-- The configurations of all chains in the order in which they are drawn. -/
noncomputable def drawn {n : ℕ} (states : List (SamplerState (Fin n) S A)) : List (S → A) :=
  states.flatMap fun s => (List.finRange n).map s.σ

/-- One iteration of a variational optimisation: sample, evaluate local energies and log-derivatives on the samples, and let the driver and the
optimiser (a function of these numbers, of the parameters and of their memory) choose the new parameters (VMC_SRRMSProp.py:186-233, minSR.py:48-233;
NetKet's driver then passes the update to the optimiser).  Resetting the sampler keeps its configurations. -/
noncomputable def iteration {𝕜 Mem : Type} {n : ℕ} (model : (Fin P → 𝕜) → CachedModel S A Cache)
    (energy : CachedModel S A Cache → (S → A) → ℂ) (dlog : (Fin P → 𝕜) → (S → A) → Fin P → ℂ) (pow : ℝ)
    (driver : Mem → (Fin P → 𝕜) → (M : ℕ) → (Fin M → ℂ) → (Fin M → Fin P → ℂ) → (Fin P → 𝕜) × Mem)
    (t : Training 𝕜 Mem (Fin n) S A P) (inputs : List (List (StepInput (Fin n) S A))) : Training 𝕜 Mem (Fin n) S A P :=
  let states := batch (model t.θ) pow t.sampler inputs
  let x := drawn states
  let out := driver t.memory t.θ x.length (fun s => energy (model t.θ) (x.get s)) (fun s => dlog t.θ (x.get s))
  ⟨out.1, out.2, (states.getLast?).getD t.sampler⟩

/-- A driver that does not notice configuration-independent shifts of the log-derivatives. -/
def Insensitive {𝕜 Mem : Type} (driver : Mem → (Fin P → 𝕜) → (M : ℕ) → (Fin M → ℂ) → (Fin M → Fin P → ℂ) → (Fin P → 𝕜) × Mem) : Prop :=
  ∀ mem θ M E O O' (a : Fin P → ℂ), (∀ s k, O' s k = O s k + a k) → driver mem θ M E O' = driver mem θ M E O

theorem batch_shift {n : ℕ} (Inv : (S → A) → Prop) (m : CachedModel S A Cache) (m' : CachedModel S A Cache') (c : ℂ)
    (h : ∀ x, m'.full x = m.full x + c) (pow : ℝ) (calls : List (List (StepInput (Fin n) S A)))
    (hok : ∀ inputs ∈ calls, ∀ inp ∈ inputs, RuleModelOk Inv m inp ∧ RuleModelOk Inv m' inp) :
    ∀ state : SamplerState (Fin n) S A, (∀ k, Inv (state.σ k)) →
      batch m' pow state calls = batch m pow state calls ∧ ∀ s ∈ batch m pow state calls, ∀ k, Inv (s.σ k) := by
  induction calls with
  | nil => intro state _; exact ⟨rfl, by simp [batch]⟩
  | cons inputs calls ih =>
    intro state hinv
    have h1 := C147_sampler Inv m m' c h pow inputs (fun i hi => (hok inputs List.mem_cons_self i hi).1)
      (fun i hi => (hok inputs List.mem_cons_self i hi).2) state hinv
    have h2 := sampleNext_inv Inv m pow inputs (fun i hi => (hok inputs List.mem_cons_self i hi).1) state hinv
    have h3 := ih (fun i hi => hok i (List.mem_cons_of_mem _ hi)) _ h2
    simp only [batch, h1]
    refine ⟨by rw [h3.1], fun s hs => ?_⟩
    rcases List.mem_cons.mp hs with rfl | hs
    · exact h2
    · exact h3.2 s hs

theorem iteration_shift {𝕜 Mem : Type} {n : ℕ} (Inv : (S → A) → Prop) (model : (Fin P → 𝕜) → CachedModel S A Cache)
    (model' : (Fin P → 𝕜) → CachedModel S A Cache') (g : (Fin P → 𝕜) → ℂ) (h : ∀ θ x, (model' θ).full x = (model θ).full x + g θ)
    (energy : CachedModel S A Cache → (S → A) → ℂ) (energy' : CachedModel S A Cache' → (S → A) → ℂ)
    (he : ∀ θ x, Inv x → energy' (model' θ) x = energy (model θ) x) (dlog dlog' : (Fin P → 𝕜) → (S → A) → Fin P → ℂ)
    (hd : ∀ θ, ∃ a : Fin P → ℂ, ∀ x k, dlog' θ x k = dlog θ x k + a k) (pow : ℝ)
    (driver : Mem → (Fin P → 𝕜) → (M : ℕ) → (Fin M → ℂ) → (Fin M → Fin P → ℂ) → (Fin P → 𝕜) × Mem) (hdr : Insensitive driver)
    (history : List (List (List (StepInput (Fin n) S A))))
    (hok : ∀ calls ∈ history, ∀ inputs ∈ calls, ∀ inp ∈ inputs, ∀ θ, RuleModelOk Inv (model θ) inp ∧ RuleModelOk Inv (model' θ) inp) :
    ∀ t : Training 𝕜 Mem (Fin n) S A P, (∀ k, Inv (t.sampler.σ k)) →
      history.foldl (iteration model' energy' dlog' pow driver) t = history.foldl (iteration model energy dlog pow driver) t := by
  induction history with
  | nil => intro t _; rfl
  | cons calls rest ih =>
    intro t hinv
    obtain ⟨hb, hbi⟩ := batch_shift Inv (model t.θ) (model' t.θ) (g t.θ) (h t.θ) pow calls
      (fun inputs hi inp hp => hok calls List.mem_cons_self inputs hi inp hp t.θ) t.sampler hinv
    obtain ⟨a, ha⟩ := hd t.θ
    have hstep : iteration model' energy' dlog' pow driver t calls = iteration model energy dlog pow driver t calls := by
      unfold iteration
      dsimp only
      rw [hb]
      have hE : (fun s : Fin (drawn (batch (model t.θ) pow t.sampler calls)).length =>
            energy' (model' t.θ) ((drawn (batch (model t.θ) pow t.sampler calls)).get s)) =
          fun s => energy (model t.θ) ((drawn (batch (model t.θ) pow t.sampler calls)).get s) := by
        funext s
        refine he _ _ ?_
        have hm : (drawn (batch (model t.θ) pow t.sampler calls)).get s ∈ drawn (batch (model t.θ) pow t.sampler calls) := List.get_mem _ _
        generalize (drawn (batch (model t.θ) pow t.sampler calls)).get s = y at hm
        simp only [drawn, List.mem_flatMap, List.mem_map] at hm
        obtain ⟨st, hst, k, -, rfl⟩ := hm
        exact hbi st hst k
      rw [hE, hdr t.memory t.θ _ _ (fun s => dlog t.θ ((drawn (batch (model t.θ) pow t.sampler calls)).get s))
        (fun s => dlog' t.θ ((drawn (batch (model t.θ) pow t.sampler calls)).get s)) a fun s k => ha _ k]
    rw [List.foldl_cons, List.foldl_cons, hstep]
    refine ih (fun i hi => hok i (List.mem_cons_of_mem _ hi)) _ ?_
    intro k
    unfold iteration
    dsimp only
    rcases hl : (batch (model t.θ) pow t.sampler calls).getLast? with _ | st
    · exact hinv k
    · exact hbi st (List.mem_of_getLast? hl) k

/-- `VMC_SRRMSProp` with real coordinates and an optimiser `opt` with its own memory (VMC_SRRMSProp.py:186-233): the moving average
and the step count are kept between iterations. -/
noncomputable def srDriver {Opt : Type} (shift decay eps : ℝ) (solver : Matrix (Fin P) (Fin P) ℝ → (Fin P → ℝ) → (Fin P → ℝ))
    (opt : Opt → (Fin P → ℝ) → (Fin P → ℝ) → (Fin P → ℝ) × Opt) (mem : ((Fin P → ℝ) × ℕ) × Opt) (θ : Fin P → ℝ) (M : ℕ) (E : Fin M → ℂ)
    (O : Fin M → Fin P → ℂ) : (Fin P → ℝ) × (((Fin P → ℝ) × ℕ) × Opt) :=
  let u := srComplex (fun s => ![fun k => (O s k).re, fun k => (O s k).im]) E (sampleMean E) mem.1.1 mem.1.2 shift decay eps solver
  let out := opt mem.2 θ u.1
  (out.1, ((u.2, mem.1.2 + 1), out.2))

/-- `minSRVMC` with complex parameters; the samples are spread over ranks and chunks in any way (minSR.py:48-233). -/
noncomputable def minSRDriver {Opt : Type} (rescale : Bool) {R K B : ℕ → ℕ} (spread : (M : ℕ) → MinSR.Sample (R M) (K M) (B M) → Fin M)
    (solver : (M : ℕ) → Matrix (Fin (K M * R M * B M)) (Fin (K M * R M * B M)) ℂ → (Fin (K M * R M * B M) → ℂ) → Fin (K M * R M * B M) → ℂ)
    (opt : Opt → (Fin P → ℂ) → (Fin P → ℂ) → (Fin P → ℂ) × Opt) (mem : Opt) (θ : Fin P → ℂ) (M : ℕ) (E : Fin M → ℂ) (O : Fin M → Fin P → ℂ) :
    (Fin P → ℂ) × Opt :=
  opt mem θ (MinSR.update rescale (solver M) (fun s => O (spread M s)) (fun s => E (spread M s)) MinSR.uniformCounts)

/-- C147, whole training runs of `VMC_SRRMSProp` for a Hubbard model: two families of states that differ, at all parameters, only in
normalisation and phase give the same history: with the same random numbers the parameters, moving averages, samples and acceptance counts agree
after every iteration. -/
theorem C147_training_sr_rmsprop {n : ℕ} {Opt : Type} (Inv : Cfg L → Prop) (model : (Fin P → ℝ) → CachedModel (Fin L) (Fin 4) Cache)
    (model' : (Fin P → ℝ) → CachedModel (Fin L) (Fin 4) Cache') (g : (Fin P → ℝ) → ℂ)
    (h : ∀ θ x, (model' θ).full x = (model θ).full x + g θ)
    (D D' : (Fin P → ℝ) → Cfg L → (Fin P → ℝ) →L[ℝ] ℂ) (hD : ∀ θ x, HasFDerivAt (fun θ => (model θ).full x) (D θ x) θ)
    (hD' : ∀ θ x, HasFDerivAt (fun θ => (model' θ).full x) (D' θ x) θ)
    (U : ℂ) (edges : List ((Fin L × Fin L) × ℂ)) (hne : ∀ e ∈ edges, e.1.1 ≠ e.1.2)
    (hs : ∀ θ x, Inv x → (AmpSource.fast (model θ).toFastModel).OkAt x) (hs' : ∀ θ x, Inv x → (AmpSource.fast (model' θ).toFastModel).OkAt x)
    (pow shift decay eps : ℝ) (solver : Matrix (Fin P) (Fin P) ℝ → (Fin P → ℝ) → (Fin P → ℝ))
    (opt : Opt → (Fin P → ℝ) → (Fin P → ℝ) → (Fin P → ℝ) × Opt) (history : List (List (List (StepInput (Fin n) (Fin L) (Fin 4)))))
    (hok : ∀ calls ∈ history, ∀ inputs ∈ calls, ∀ inp ∈ inputs, ∀ θ, RuleModelOk Inv (model θ) inp ∧ RuleModelOk Inv (model' θ) inp)
    (t : Training ℝ (((Fin P → ℝ) × ℕ) × Opt) (Fin n) (Fin L) (Fin 4) P) (ht : ∀ k, Inv (t.sampler.σ k)) :
    history.foldl (iteration model' (fun m x => hubbardLocalEn (.fast m.toFastModel) U edges x) (fun θ x k => D' θ x (Pi.single k 1)) pow
      (srDriver shift decay eps solver opt)) t =
    history.foldl (iteration model (fun m x => hubbardLocalEn (.fast m.toFastModel) U edges x) (fun θ x k => D θ x (Pi.single k 1)) pow
      (srDriver shift decay eps solver opt)) t := by
  refine iteration_shift Inv model model' g h _ _ (fun θ x hx => ?_) _ _
    (dlog_shift (fun θ x => (model θ).full x) (fun θ x => (model' θ).full x) g h D D' hD hD') pow _ ?_ history hok t ht
  · exact C147_hubbard _ _ (g θ) (h θ) U edges hne x (hs θ x hx) (hs' θ x hx)
  · intro mem θ M E O O' a ha
    unfold srDriver
    rw [(C147_sr_rmsprop E (sampleMean E) mem.1.1 mem.1.2 shift decay eps solver).1
      (fun s => ![fun k => (O s k).re, fun k => (O s k).im]) (fun s => ![fun k => (O' s k).re, fun k => (O' s k).im])
      ![fun k => (a k).re, fun k => (a k).im] (fun s i k => by fin_cases i <;> simp [ha])]

/-- C147, whole training runs of `minSRVMC` with complex parameters, for a general two-body Hamiltonian with the sparse evaluation: the same. -/
theorem C147_training_minSR {n : ℕ} {Opt : Type} (Inv : Cfg L → Prop) (model : (Fin P → ℂ) → CachedModel (Fin L) (Fin 4) Cache)
    (model' : (Fin P → ℂ) → CachedModel (Fin L) (Fin 4) Cache') (g : (Fin P → ℂ) → ℂ)
    (hg : ∀ θ x, (model' θ).full x = (model θ).full x + g θ)
    (D D' : (Fin P → ℂ) → Cfg L → (Fin P → ℂ) →L[ℂ] ℂ) (hD : ∀ θ x, HasFDerivAt (fun θ => (model θ).full x) (D θ x) θ)
    (hD' : ∀ θ x, HasFDerivAt (fun θ => (model' θ).full x) (D' θ x) θ)
    (h : Fin L → Fin L → ℂ) (e : Fin L → Fin L → Fin L → Fin L → ℂ) (hsym : ∀ p q r s, e p q r s = e r s p q)
    (hs : ∀ θ x, Inv x → (AmpSource.fast (model θ).toFastModel).OkPaddedAt x)
    (hs' : ∀ θ x, Inv x → (AmpSource.fast (model' θ).toFastModel).OkPaddedAt x)
    (pow : ℝ) (rescale : Bool) {R K B : ℕ → ℕ} (spread : (M : ℕ) → MinSR.Sample (R M) (K M) (B M) → Fin M) (solver)
    (opt : Opt → (Fin P → ℂ) → (Fin P → ℂ) → (Fin P → ℂ) × Opt) (history : List (List (List (StepInput (Fin n) (Fin L) (Fin 4)))))
    (hok : ∀ calls ∈ history, ∀ inputs ∈ calls, ∀ inp ∈ inputs, ∀ θ, RuleModelOk Inv (model θ) inp ∧ RuleModelOk Inv (model' θ) inp)
    (t : Training ℂ Opt (Fin n) (Fin L) (Fin 4) P) (ht : ∀ k, Inv (t.sampler.σ k)) :
    history.foldl (iteration model' (fun m x => sparseLocalEn (.fast m.toFastModel) (numElec false x, numElec true x) (sparse1 h) (sparse2 e) x)
      (fun θ x k => D' θ x (Pi.single k 1)) pow (minSRDriver rescale spread solver opt)) t =
    history.foldl (iteration model (fun m x => sparseLocalEn (.fast m.toFastModel) (numElec false x, numElec true x) (sparse1 h) (sparse2 e) x)
      (fun θ x k => D θ x (Pi.single k 1)) pow (minSRDriver rescale spread solver opt)) t := by
  refine iteration_shift Inv model model' g hg _ _ (fun θ x hx => ?_) _ _
    (dlog_shift (fun θ x => (model θ).full x) (fun θ x => (model' θ).full x) g hg D D' hD hD') pow _ ?_ history hok t ht
  · exact (C147_ab_initio _ _ (g θ) (hg θ) h e hsym x (hs θ x hx) (hs' θ x hx)).2
  · intro mem θ M E O O' a ha
    unfold minSRDriver
    rw [C147_minSR rescale (solver M) (fun s => O (spread M s)) (fun s => O' (spread M s)) a fun s k => ha _ k]

/-- The hypotheses are met by models that cache the configuration, differ by a factor that depends on the parameters, and an exchange of two sites. -/
example : let model : (c : ℂ) → (Fin 1 → ℝ) → CachedModel (Fin 2) (Fin 4) (Cfg 2) := fun c θ =>
      { full := fun x => (θ 0 : ℂ) * (x 0).val + c * (θ 0 : ℂ), cacheOf := id
        fast := fun x upd => (θ 0 : ℂ) * (applyUpdate x upd 0).val + c * (θ 0 : ℂ), fastCache := applyUpdate }
    let swap : StepInput (Fin 1) (Fin 2) (Fin 4) :=
      { transition := fun σ => { σp := fun c => (exchangeUpdate (σ c) (0, 1)).1, log_prob_correction := none, update_sites := fun _ => [0, 1] }
        uniform := fun _ => 1 / 2 }
    (∀ θ x, (model 3 θ).full x = (model 0 θ).full x + 3 * (θ 0 : ℂ)) ∧
    (∀ c θ x, (AmpSource.fast (model c θ).toFastModel).OkAt x ∧ (AmpSource.fast (model c θ).toFastModel).OkPaddedAt x) ∧
    (∀ c θ, RuleModelOk (fun _ => True) (model c θ) swap) ∧ ∃ x : Cfg 2, (model 0 (fun _ => 1)).full x ≠ (model 0 fun _ => 1).full fun _ => 0 := by
  refine ⟨fun θ x => by simp, fun c θ x => ⟨fun y upd hu => rfl, fun y upd hu => rfl⟩, fun c θ σ _ k => ⟨trivial, ?_, rfl, rfl⟩,
    fun _ => 1, by simp⟩
  funext i
  fin_cases i <;> simp [applyUpdate, exchangeUpdate]

end GPSKet.Gauge
