import Verif.Model.ModPhase
import Verif.Props.DirectEnergy

/-!
# Property C162: autoregressive models with a separate phase
-/

namespace GPSKet.ModPhase

open GPSKet.Spec GPSKet.AR GPSKet.Props

variable {L D M nc len : ℕ} {ι : Type} [Fintype ι]

/-- The phase: a sum of as many products over the sites as there are sites. -/
def phaseOf (qgps : Fin D → Fin L → Fin L → ℝ) (x : Fin L → Fin D) : ℝ := ∑ m, ∏ i, qgps (x i) m i

/-- The output layer maps real numbers to real numbers, like the default sum. -/
def RealOut (f : Fields D M) : Prop := ∀ v : Fin M → ℝ, (f.out_transformation fun m => (v m : ℂ)).im = 0

/-- The two classes, with parameters `qgps` of the phase. -/
inductive Provided (qgps : Fin D → Fin L → Fin L → ℝ) : Model L D M → Prop
  | weightSharing (f : Fields D M) (hf : RealOut f) (epsilon : Fin D → Fin M → Fin L → ℝ) :
      Provided qgps (modPhase f epsilon qgps)
  | full (f : Fields D M) (hf : RealOut f) (epsilon : Fin D → Fin M → ℕ → ℝ) :
      Provided qgps (modPhaseFull f epsilon qgps)

theorem realOut_sum (f : Fields D M) (h : f.out_transformation = sumOut) : RealOut f := by
  intro v
  rw [h]
  unfold sumOut
  rw [← Complex.ofReal_sum]
  exact Complex.ofReal_im _

/-! ## Amplitudes -/

theorem phase_eq (qgps : Fin D → Fin L → Fin L → ℝ) (x : Fin L → Fin D) :
    (QGPS.model (phaseModule qgps)).full x = (phaseOf qgps x : ℂ) := by
  show QGPS.sumOut (QGPS.siteProd (phaseModule qgps) x) = _
  unfold QGPS.sumOut QGPS.siteProd phaseModule phaseOf QGPS.noSyms
  simp

theorem Provided.phase {qgps : Fin D → Fin L → Fin L → ℝ} {mp : Model L D M} (h : Provided qgps mp) :
    mp.phase = phaseModule qgps := by
  cases h <;> rfl

theorem Provided.ar [NeZero L] {qgps : Fin D → Fin L → Fin L → ℝ} {mp : Model L D M} (h : Provided qgps mp) :
    ProvidedAR mp.modulus := by
  cases h
  · exact .qgps _ _
  · exact .full _ _

theorem symmetrise_im (pow : ℝ) (lp : ι → LogAmp) (h : ∀ t, ((lp t).getD 0).im = 0) (z : ℂ)
    (hz : symmetrise pow lp = some z) : z.im = 0 := by
  unfold symmetrise at hz
  dsimp only at hz
  split_ifs at hz
  rw [Option.some.injEq] at hz
  rw [← hz]
  show (Complex.log _).im = 0
  simp only [h, Complex.ofReal_zero, mul_zero, Complex.exp_zero, Finset.sum_const, nsmul_eq_mul, mul_one]
  rw [Complex.log_im, Complex.natCast_arg]

theorem normalize_im (f : Fields D M) (lp : Fin D → LogAmp) (h : ∀ d, ((lp d).getD 0).im = 0) (d : Fin D) :
    ((maybeNormalize f lp d).getD 0).im = 0 := by
  unfold maybeNormalize normalizeLog
  have := h d
  split_ifs
  all_goals try dsimp only
  · cases hl : lp d with
    | none => simp
    | some z =>
      rw [hl] at this
      simpa using this
  · exact this

theorem mask_im (f : Fields D M) (n : Fin D → ℤ) (i : ℕ) (v : Fin D → ℂ) (h : ∀ d, (v d).im = 0) (d : Fin D) :
    ((mask f n i v d).getD 0).im = 0 := by
  unfold mask
  split_ifs
  · exact h d
  · rfl

theorem pickSum_im (lp : Fin L → Fin D → LogAmp) (x : Fin L → Fin D) (h : ∀ i d, ((lp i d).getD 0).im = 0) :
    ((pickSum lp x).getD 0).im = 0 := by
  unfold pickSum
  split_ifs
  · simp [Complex.im_sum, h]
  · rfl

theorem modulus_im {m : Machine L D M} {val} (g : AR.Good m val) (hv : ∀ i x d, (val i x d).im = 0)
    (syms : ι → (Fin L → Fin D) → Fin L → Fin D) (x : Fin L → Fin D) (z : ℂ) (hz : m.logPsi syms x = some z) : z.im = 0 := by
  refine symmetrise_im _ _ (fun t => ?_) z hz
  unfold Machine.logPsiOne
  refine pickSum_im _ _ fun i d => normalize_im _ _ (fun e => ?_) d
  rw [g.log]
  exact mask_im _ _ _ _ (hv _ _) e

theorem Provided.im [NeZero L] {qgps : Fin D → Fin L → Fin L → ℝ} {mp : Model L D M} (h : Provided qgps mp)
    (syms : ι → (Fin L → Fin D) → Fin L → Fin D) (x : Fin L → Fin D) (z : ℂ) (hz : mp.modulus.logPsi syms x = some z) : z.im = 0 := by
  cases h with
  | weightSharing f hf epsilon =>
    refine modulus_im (arqGPS_good f _) (fun i x d => ?_) syms x z hz
    unfold qgpsVal ctx
    have e : (fun m => ((epsilon d m i : ℝ) : ℂ) * ∏ j : Fin L, if j.val < i.val then ((epsilon (x j) m j : ℝ) : ℂ) else 1) =
        fun m => ((epsilon d m i * ∏ j : Fin L, if j.val < i.val then epsilon (x j) m j else 1 : ℝ) : ℂ) := by
      funext m
      push_cast
      congr 1
      refine Finset.prod_congr rfl fun j _ => ?_
      split_ifs <;> simp
    rw [e]
    exact hf _
  | full f hf epsilon =>
    refine modulus_im (ARFull.arqGPSFull_good f _) (fun i x d => ?_) syms x z hz
    unfold ARFull.fullVal ARFull.contextProd ARFull.readPacked
    have e : (fun m => ((epsilon d m (min (ARFull.lowerIndex i + i.val) (ARFull.packedSize L - 1)) : ℝ) : ℂ) *
          ∏ j : Fin L, if j.val ≥ i.val then (1 : ℂ) else
            ((epsilon (x j) m (min (ARFull.sliceStart L (ARFull.lowerIndex i) + j.val) (ARFull.packedSize L - 1)) : ℝ) : ℂ)) =
        fun m => ((epsilon d m (min (ARFull.lowerIndex i + i.val) (ARFull.packedSize L - 1)) *
          ∏ j : Fin L, if j.val ≥ i.val then (1 : ℝ) else
            epsilon (x j) m (min (ARFull.sliceStart L (ARFull.lowerIndex i) + j.val) (ARFull.packedSize L - 1)) : ℝ) : ℂ) := by
      funext m
      push_cast
      congr 1
      refine Finset.prod_congr rfl fun j _ => ?_
      split_ifs <;> simp
    rw [e]
    exact hf _

/-- C162, amplitudes: the autoregressive part is the modulus of the amplitude, and the second qGPS is its phase, with any
symmetry operations. -/
theorem C162_modulus_and_phase [NeZero L] (qgps : Fin D → Fin L → Fin L → ℝ) (mp : Model L D M) (h : Provided qgps mp)
    (syms : ι → (Fin L → Fin D) → Fin L → Fin D) (x : Fin L → Fin D) :
    amplitude (mp.logPsi syms x) =
      (‖amplitude (mp.modulus.logPsi syms x)‖ : ℂ) * Complex.exp (phaseOf qgps x * Complex.I) := by
  unfold Model.logPsi
  rw [h.phase, phase_eq]
  cases hz : mp.modulus.logPsi syms x with
  | none => simp [amplitude]
  | some z =>
    have hi := h.im syms x z hz
    have hzr : z = (z.re : ℂ) := Complex.ext (by simp) (by simp [hi])
    simp only [Option.map_some, amplitude]
    rw [Complex.exp_add, Complex.norm_exp]
    congr 1
    rw [Complex.ofReal_exp, ← hzr]

/-- C162: the modulus of an amplitude is the amplitude of the autoregressive model on its own, so the phase does not change
any probability. -/
theorem C162_probability [NeZero L] (qgps : Fin D → Fin L → Fin L → ℝ) (mp : Model L D M) (h : Provided qgps mp)
    (syms : ι → (Fin L → Fin D) → Fin L → Fin D) (pow : ℝ) (x : Fin L → Fin D) :
    bornWeight pow (mp.logPsi syms x) = bornWeight pow (mp.modulus.logPsi syms x) := by
  unfold Model.logPsi
  rw [h.phase, phase_eq]
  cases hz : mp.modulus.logPsi syms x with
  | none => rfl
  | some z =>
    simp only [Option.map_some, bornWeight]
    rw [Complex.exp_add, norm_mul, Complex.norm_exp_ofReal_mul_I, mul_one]

/-! ## Normalisation and constraints -/

/-- C162, normalisation on a spin-1/2 space with `total_sz = 0`, and which configurations have an amplitude. -/
theorem C162_spin [NeZero L] [Nonempty ι] (qgps : Fin 2 → Fin L → Fin L → ℝ) (mp : Model L 2 M) (h : Provided qgps mp)
    (hn : mp.modulus.fields.normalize = true) (hp : mp.modulus.fields.machine_pow = 2)
    (hf : SpinHalf L true mp.modulus.fields) (hL : Even L) (syms : ι → (Fin L → Fin 2) → Fin L → Fin 2)
    (hs : ∀ t, Function.Bijective (syms t)) (hb : ∀ t x, Props.Balanced (syms t x) ↔ Props.Balanced x) :
    ∑ x, ‖amplitude (mp.logPsi syms x)‖ ^ 2 = 1 ∧ ∀ x, amplitude (mp.logPsi syms x) ≠ 0 ↔ Props.Balanced x := by
  have hp0 : mp.modulus.fields.machine_pow ≠ 0 := by rw [hp]; norm_num
  constructor
  · simp only [← DirectEnergy.bornWeight_two, C162_probability qgps mp h]
    rw [← hp]
    exact C28_normalised_spin _ h.ar hn hp0 hf hL syms hs
  · intro x
    rw [DirectEnergy.amplitude_ne _ _ hp0, C162_probability qgps mp h]
    exact (C31_zero_magnetisation _ h.ar hp0 hf hL syms hb).1 x

/-- C162, normalisation on an unconstrained spin-1/2 space of at least two sites. -/
theorem C162_free [NeZero L] [Nonempty ι] (qgps : Fin 2 → Fin L → Fin L → ℝ) (mp : Model L 2 M) (h : Provided qgps mp)
    (hn : mp.modulus.fields.normalize = true) (hp : mp.modulus.fields.machine_pow = 2)
    (hf : SpinHalf L false mp.modulus.fields) (hL : 2 ≤ L) (syms : ι → (Fin L → Fin 2) → Fin L → Fin 2)
    (hs : ∀ t, Function.Bijective (syms t)) : ∑ x, ‖amplitude (mp.logPsi syms x)‖ ^ 2 = 1 := by
  have hp0 : mp.modulus.fields.machine_pow ≠ 0 := by rw [hp]; norm_num
  simp only [← DirectEnergy.bornWeight_two, C162_probability qgps mp h]
  rw [← hp]
  exact C28_normalised_free _ h.ar hn hp0 hf hL syms hs

/-- C162, normalisation and constraint with the fermionic constraint functions. -/
theorem C162_fermionic [NeZero L] [Nonempty ι] (n : ℕ × ℕ) (qgps : Fin 4 → Fin L → Fin L → ℝ) (mp : Model L 4 M)
    (h : Provided qgps mp) (hn : mp.modulus.fields.normalize = true) (hp : mp.modulus.fields.machine_pow = 2)
    (hf : Fermionic L n mp.modulus.fields) (h1 : n.1 ≤ L) (h2 : n.2 ≤ L) (syms : ι → Cfg L → Cfg L)
    (hs : ∀ t, Function.Bijective (syms t)) (hb : ∀ t x s, numElec s (syms t x) = numElec s x) :
    ∑ x, ‖amplitude (mp.logPsi syms x)‖ ^ 2 = 1 ∧
    ∀ x, amplitude (mp.logPsi syms x) ≠ 0 ↔ numElec false x = n.1 ∧ numElec true x = n.2 := by
  have hp0 : mp.modulus.fields.machine_pow ≠ 0 := by rw [hp]; norm_num
  constructor
  · simp only [← DirectEnergy.bornWeight_two, C162_probability qgps mp h]
    rw [← hp]
    exact C28_normalised_fermionic n _ h.ar hn hp0 hf h1 h2 syms hs
  · intro x
    rw [DirectEnergy.amplitude_ne _ _ hp0, C162_probability qgps mp h]
    exact C33_fermionic_constraint n _ h.ar hp0 hf h1 h2 syms hb x

/-! ## Sampling -/

/-- C162, sampling: the direct sampler, which only sees the conditionals of the autoregressive part, draws every entry of a
batch independently with probability `|ψ(x)|²`. -/
theorem C162_sampling [NeZero L] [NeZero D] (qgps : Fin D → Fin L → Fin L → ℝ) (mp : Model L D M) (h : Provided qgps mp)
    (hn : mp.modulus.fields.normalize = true) (hp : mp.modulus.fields.machine_pow = 2) (hc : Continuable mp.modulus)
    (syms : ι → (Fin L → Fin D) → Fin L → Fin D) (inv : ι → ι) (hs : ClosedUnderInverse syms inv)
    (buffer : Fin L → Fin D) (xs : Fin nc → Fin len → Fin L → Fin D) :
    drawProb (sampleBatch mp.modulus syms buffer) xs = ∏ c, ∏ t, ‖amplitude (mp.logPsi syms (xs c t))‖ ^ 2 := by
  have hp0 : mp.modulus.fields.machine_pow ≠ 0 := by rw [hp]; norm_num
  rw [DirectEnergy.C148_batch_law _ h.ar hn hp0 hc syms inv hs buffer]
  simp only [← DirectEnergy.bornWeight_two, C162_probability qgps mp h, hp]

/-- C162, energies: the estimate from a batch is unbiased and its mean squared error is the variance of the local energies
over the number of samples, where both the energy and the local energies are those of the state with its phases. -/
theorem C162_energy [NeZero L] [NeZero D] [Nonempty ι] (qgps : Fin D → Fin L → Fin L → ℝ) (mp : Model L D M)
    (h : Provided qgps mp)
    (hn : mp.modulus.fields.normalize = true) (hp : mp.modulus.fields.machine_pow = 2) (hc : Continuable mp.modulus)
    (syms : ι → (Fin L → Fin D) → Fin L → Fin D) (inv : ι → ι) (hs : ClosedUnderInverse syms inv)
    (buffer : Fin L → Fin D) (hnc : 0 < nc) (hlen : 0 < len) (H : (Fin L → Fin D) → (Fin L → Fin D) → ℂ)
    (f : (Fin L → Fin D) → ℂ)
    (hf : ∀ x, amplitude (mp.logPsi syms x) ≠ 0 → f x = localValue H (fun y => amplitude (mp.logPsi syms y)) x) :
    let psi := fun x => amplitude (mp.logPsi syms x)
    drawExpect (sampleBatch mp.modulus syms buffer) (fun xs : Fin nc → Fin len → Fin L → Fin D => batchMean f xs) =
      rayleigh H psi ∧
    drawExpect (sampleBatch mp.modulus syms buffer)
        (fun xs : Fin nc → Fin len → Fin L → Fin D => ‖batchMean f xs - rayleigh H psi‖ ^ 2) =
      (∑ x, ‖psi x‖ ^ 2 * ‖f x - rayleigh H psi‖ ^ 2) / (nc * len : ℕ) := by
  intro psi
  have hp0 : mp.modulus.fields.machine_pow ≠ 0 := by rw [hp]; norm_num
  have hbij : ∀ t, Function.Bijective (syms t) := fun t => by
    have h2 : ∀ x, syms t (syms (inv t) x) = x := fun x => by
      have := hs.left (inv t) x
      rwa [hs.invol] at this
    exact ⟨Function.LeftInverse.injective (hs.left t), fun x => ⟨_, h2 x⟩⟩
  have hp1 := C28_normalised_of_continuable _ h.ar hn hp0 hc syms hbij
  have hm := DirectEnergy.C148_mean_and_error (nc := nc) (len := len) _ h.ar hn hp0 hc syms inv hs buffer hnc hlen f
  simp only [hp, ← C162_probability qgps mp h, DirectEnergy.bornWeight_two] at hm hp1
  have hmean := DirectEnergy.mean_localValue H psi hp1 f hf
  rw [hmean] at hm
  exact hm

/-! ## Symmetries -/

theorem modulus_symmetric (m : Machine L D M) (syms : ι → (Fin L → Fin D) → Fin L → Fin D) (g : (Fin L → Fin D) → Fin L → Fin D)
    (e : Equiv.Perm ι) (he : ∀ t x, syms t (g x) = syms (e t) x) (x : Fin L → Fin D) :
    m.logPsi syms (g x) = m.logPsi syms x := by
  unfold Machine.logPsi symmetrise
  simp only [he]
  rw [Equiv.sum_comp e fun t => weight m.fields.machine_pow (m.logPsiOne (syms t x)) * (1 / (Fintype.card ι : ℝ)),
    Equiv.sum_comp e fun t => Complex.exp (Complex.I * (((m.logPsiOne (syms t x)).getD 0).im : ℂ))]

/-- C162, symmetries: for a symmetry operation `g` of the group handed to the model, the probabilities are symmetric, and
the amplitudes of `x` and `g x` agree exactly if the phases agree up to a multiple of `2π`: symmetrisation does not reach
the phase. -/
theorem C162_symmetry [NeZero L] (qgps : Fin D → Fin L → Fin L → ℝ) (mp : Model L D M) (h : Provided qgps mp)
    (syms : ι → (Fin L → Fin D) → Fin L → Fin D) (g : (Fin L → Fin D) → Fin L → Fin D)
    (e : Equiv.Perm ι) (he : ∀ t x, syms t (g x) = syms (e t) x) (x : Fin L → Fin D) :
    ‖amplitude (mp.logPsi syms (g x))‖ = ‖amplitude (mp.logPsi syms x)‖ ∧
    (amplitude (mp.logPsi syms (g x)) = amplitude (mp.logPsi syms x) ↔
      amplitude (mp.logPsi syms x) = 0 ∨ ∃ k : ℤ, phaseOf qgps (g x) = phaseOf qgps x + k * (2 * Real.pi)) := by
  have hA : ∀ y, ‖amplitude (mp.logPsi syms y)‖ = ‖amplitude (mp.modulus.logPsi syms y)‖ := fun y => by
    rw [C162_modulus_and_phase qgps mp h, norm_mul, Complex.norm_exp_ofReal_mul_I]
    simp
  have hg := modulus_symmetric mp.modulus syms g e he x
  refine ⟨by rw [hA, hA, hg], ?_⟩
  rw [C162_modulus_and_phase qgps mp h syms (g x), C162_modulus_and_phase qgps mp h syms x, hg]
  have hx := hA x
  by_cases h0 : ‖amplitude (mp.modulus.logPsi syms x)‖ = 0
  · rw [h0]
    simp
  · have hc : ((‖amplitude (mp.modulus.logPsi syms x)‖ : ℝ) : ℂ) ≠ 0 := by exact_mod_cast h0
    rw [mul_right_inj' hc, Complex.exp_eq_exp_iff_exists_int]
    have hne : ¬ (((‖amplitude (mp.modulus.logPsi syms x)‖ : ℝ) : ℂ) * Complex.exp (phaseOf qgps x * Complex.I) = 0) :=
      mul_ne_zero hc (Complex.exp_ne_zero _)
    simp only [hne, false_or]
    refine exists_congr fun k => ?_
    have e2 : (phaseOf qgps x : ℂ) * Complex.I + k * (2 * Real.pi * Complex.I) =
        ((phaseOf qgps x + k * (2 * Real.pi) : ℝ) : ℂ) * Complex.I := by push_cast; ring
    rw [e2, mul_left_inj' Complex.I_ne_zero, Complex.ofReal_inj]

/-- C162, the symmetries given to the model are not symmetries of the state: with the translations of two sites, the two
configurations with one up spin have amplitudes of opposite sign, both for the weight-sharing and for the full model. -/
theorem C162_symmetric_state_fails :
    ∃ (f : Fields 2 1) (qgps : Fin 2 → Fin 2 → Fin 2 → ℝ) (syms : Fin 2 → (Fin 2 → Fin 2) → Fin 2 → Fin 2),
      RealOut f ∧ SpinHalf 2 true f ∧ (syms = fun t x i => x (i + t)) ∧
      ∀ mp : Model 2 2 1, Provided qgps mp → mp.modulus.fields = f →
        amplitude (mp.logPsi syms ![0, 1]) ≠ 0 ∧
        amplitude (mp.logPsi syms (syms 1 ![0, 1])) = - amplitude (mp.logPsi syms ![0, 1]) := by
  let f : Fields 2 1 := ⟨2, true, true, defaultCountSpins, defaultRenormalize 2, sumOut⟩
  let qgps : Fin 2 → Fin 2 → Fin 2 → ℝ := fun d m i => if m = 0 then (if i = 0 then (if d = 1 then Real.pi else 0) else 1) else 0
  let syms : Fin 2 → (Fin 2 → Fin 2) → Fin 2 → Fin 2 := fun t x i => x (i + t)
  refine ⟨f, qgps, syms, realOut_sum f rfl, ⟨rfl, rfl, rfl⟩, rfl, fun mp h hmf => ?_⟩
  have hp : mp.modulus.fields.machine_pow = 2 := by rw [hmf]
  have hp0 : mp.modulus.fields.machine_pow ≠ 0 := by rw [hp]; norm_num
  have hb : Props.Balanced (![0, 1] : Fin 2 → Fin 2) := by unfold Props.Balanced; decide
  have hne : amplitude (mp.logPsi syms ![0, 1]) ≠ 0 := by
    rw [DirectEnergy.amplitude_ne _ _ hp0, C162_probability qgps mp h]
    exact ((C31_zero_magnetisation _ h.ar hp0 (by rw [hmf]; exact ⟨rfl, rfl, rfl⟩) (by decide) syms
      (fun t x => balanced_perm (Equiv.addRight t) x)).1 _).mpr hb
  refine ⟨hne, ?_⟩
  have hg := modulus_symmetric mp.modulus syms (syms 1) (Equiv.addRight 1)
    (fun t x => by funext i; show x (i + t + 1) = x (i + (t + 1)); rw [add_assoc]) ![0, 1]
  have e0 : syms 1 ![0, 1] = ![1, 0] := by
    funext i; fin_cases i <;> rfl
  have p0 : phaseOf qgps ![0, 1] = 0 := by simp [phaseOf, qgps]
  have p1 : phaseOf qgps ![1, 0] = Real.pi := by simp [phaseOf, qgps]
  rw [C162_modulus_and_phase qgps mp h, C162_modulus_and_phase qgps mp h syms ![0, 1], hg, e0, p0, p1]
  simp

/-! ## Fast updates -/

/-- C162, fast updates: evaluating local energies works for every autoregressive qGPS class and every setting, except for
`ARqGPSModPhaseFull` with fast updates switched on, where it raises `TypeError`. -/
theorem C162_local_energy_calls {V : Type} (cls : Class) (field : Bool) (value : V) :
    localEnergyLogAmp cls field value =
      if cls = .arqGPSModPhaseFull ∧ field = true then .error "TypeError" else .ok value := by
  cases cls <;> cases field <;> rfl

/-- C162: with its default settings `ARqGPSModPhaseFull` cannot be used with any of the on-the-fly Hamiltonians, nor (with
any setting) with the fast Metropolis sampler. -/
theorem C162_default_full_fails {V : Type} (value : V) :
    localEnergyLogAmp .arqGPSModPhaseFull applyFastUpdateDefault value = .error "TypeError" ∧
    ∀ field, fastSamplerLogAmp .arqGPSModPhaseFull field value ≠ .ok value := by
  refine ⟨rfl, fun field => ?_⟩
  cases field <;> exact fun h => by cases h

/-- An instance: four sites with `total_sz = 0`, translations as symmetries, arbitrary real parameters; the alternating
configuration has an amplitude with the phase of the second qGPS, and the batch law and the energies hold. -/
example (epsilon : Fin 2 → Fin 3 → ℕ → ℝ) (qgps : Fin 2 → Fin 4 → Fin 4 → ℝ) :
    let f : Fields 2 3 := ⟨2, true, true, defaultCountSpins, defaultRenormalize 4, sumOut⟩
    let mp : Model 4 2 3 := modPhaseFull f epsilon qgps
    let syms : Fin 4 → (Fin 4 → Fin 2) → Fin 4 → Fin 2 := fun t x i => x (i + t)
    Provided qgps mp ∧ Continuable mp.modulus ∧ ∑ x, ‖amplitude (mp.logPsi syms x)‖ ^ 2 = 1 ∧
      amplitude (mp.logPsi syms ![0, 1, 0, 1]) ≠ 0 := by
  intro f mp syms
  have h : Provided qgps mp := .full f (realOut_sum f rfl) epsilon
  have hsb : ∀ t x, Props.Balanced (syms t x) ↔ Props.Balanced x := fun t x => balanced_perm (Equiv.addRight t) x
  have hbij : ∀ t, Function.Bijective (syms t) := fun t =>
    (Function.Involutive.bijective (f := fun x => x) fun _ => rfl).comp ((Equiv.arrowCongr (Equiv.addRight t).symm (Equiv.refl _)).bijective)
  have hs := C162_spin (ι := Fin 4) qgps mp h rfl rfl ⟨rfl, rfl, rfl⟩ (by decide) syms hbij hsb
  refine ⟨h, ?_, hs.1, (hs.2 _).mpr (by unfold Props.Balanced; decide)⟩
  exact (C31_zero_magnetisation (ι := Fin 4) mp.modulus h.ar (by show (2 : ℝ) ≠ 0; norm_num) ⟨rfl, rfl, rfl⟩ (by decide) syms hsb).2

end GPSKet.ModPhase
