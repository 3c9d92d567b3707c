import Verif.Props.ModPhase
import Verif.Props.SampledDescent
import Mathlib.Analysis.Calculus.LocalExtr.Basic

/-!
# The updates of `minSRVMC` for autoregressive models (C188)

The amplitudes of a normalised autoregressive model are not holomorphic functions of its parameters.  For real parameters, updates
computed from samples with the Born frequencies still lower the energy.  For complex parameters, the default, they may raise it.
-/

namespace GPSKet.AutoregDescent

open GPSKet.Spec GPSKet.Props GPSKet.Descent GPSKet.AR GPSKet.MinSR

variable {L d M P : ℕ} {ι : Type} [Fintype ι]

/-! ## Real parameters -/

/-- The autoregressive classes with real parameters and an output layer that keeps numbers real. -/
inductive RealAR [NeZero L] : Machine L d M → Prop
  | qgps (f : Fields d M) (hf : ModPhase.RealOut f) (epsilon : Fin d → Fin M → Fin L → ℝ) :
      RealAR (arqGPS f fun e m i => (epsilon e m i : ℂ))
  | full (f : Fields d M) (hf : ModPhase.RealOut f) (epsilon : Fin d → Fin M → ℕ → ℝ) :
      RealAR (ARFull.arqGPSFull f fun e m i => (epsilon e m i : ℂ))
  | plaquette (f : Fields d M) (hf : ModPhase.RealOut f) (epsilon : Fin d → Fin M → Fin L → ℝ) (pl : ARPlaquette.Plaquettes L)
      (hidden : ∀ i k, i ≤ pl.plaquettes i k → pl.masks i k = false) :
      RealAR (ARPlaquette.arPlaquette f (fun e m i => (epsilon e m i : ℂ)) pl)

theorem RealAR.im [NeZero L] {m : Machine L d M} (h : RealAR m) (syms : ι → (Fin L → Fin d) → Fin L → Fin d) (x : Fin L → Fin d) (z : ℂ)
    (hz : m.logPsi syms x = some z) : z.im = 0 := by
  cases h with
  | qgps f hf epsilon =>
    refine ModPhase.modulus_im (arqGPS_good f _) (fun i x e => ?_) syms x z hz
    unfold qgpsVal ctx
    have e : (fun m => ((epsilon e m i : ℝ) : ℂ) * ∏ j : Fin L, if j.val < i.val then ((epsilon (x j) m j : ℝ) : ℂ) else 1) =
        fun m => ((epsilon e m i * ∏ j : Fin L, if j.val < i.val then epsilon (x j) m j else 1 : ℝ) : ℂ) := by
      funext m
      push_cast
      congr 1
      refine Finset.prod_congr rfl fun j _ => ?_
      split_ifs <;> simp
    rw [e]
    exact hf _
  | full f hf epsilon =>
    refine ModPhase.modulus_im (ARFull.arqGPSFull_good f _) (fun i x e => ?_) syms x z hz
    unfold ARFull.fullVal ARFull.contextProd ARFull.readPacked
    have e : (fun m => ((epsilon e m (min (ARFull.lowerIndex i + i.val) (ARFull.packedSize L - 1)) : ℝ) : ℂ) *
          ∏ j : Fin L, if j.val ≥ i.val then (1 : ℂ) else
            ((epsilon (x j) m (min (ARFull.sliceStart L (ARFull.lowerIndex i) + j.val) (ARFull.packedSize L - 1)) : ℝ) : ℂ)) =
        fun m => ((epsilon e m (min (ARFull.lowerIndex i + i.val) (ARFull.packedSize L - 1)) *
          ∏ j : Fin L, if j.val ≥ i.val then (1 : ℝ) else
            epsilon (x j) m (min (ARFull.sliceStart L (ARFull.lowerIndex i) + j.val) (ARFull.packedSize L - 1)) : ℝ) : ℂ) := by
      funext m
      push_cast
      congr 1
      refine Finset.prod_congr rfl fun j _ => ?_
      split_ifs <;> simp
    rw [e]
    exact hf _
  | plaquette f hf epsilon pl hidden =>
    have hp : pl.LookBack := by
      intro i k hk
      by_contra hc
      rw [hidden i k (not_lt.mp hc)] at hk
      exact absurd hk (by simp)
    refine ModPhase.modulus_im (ARPlaquette.arPlaquette_good f _ pl hp) (fun i x e => ?_) syms x z hz
    unfold ARPlaquette.plaqVal
    have e : (fun m => ((epsilon e m 0 : ℝ) : ℂ) *
          ∏ k : Fin L, if pl.masks i k = true then ((epsilon (x (pl.plaquettes i k)) m k : ℝ) : ℂ) else 1) =
        fun m => ((epsilon e m 0 * ∏ k : Fin L, if pl.masks i k = true then epsilon (x (pl.plaquettes i k)) m k else 1 : ℝ) : ℂ) := by
      funext m
      push_cast
      congr 1
      refine Finset.prod_congr rfl fun j _ => ?_
      split_ifs <;> simp
    rw [e]
    exact hf _

/-- The amplitudes are real and not negative. -/
theorem RealAR.amplitude [NeZero L] {m : Machine L d M} (h : RealAR m) (syms : ι → (Fin L → Fin d) → Fin L → Fin d) (x : Fin L → Fin d) :
    (Spec.amplitude (m.logPsi syms x)).im = 0 ∧ 0 ≤ (Spec.amplitude (m.logPsi syms x)).re := by
  cases hz : m.logPsi syms x with
  | none => simp [Spec.amplitude]
  | some z =>
    have := h.im syms x z hz
    refine ⟨?_, ?_⟩
    · show (Complex.exp z).im = 0
      rw [Complex.exp_im, this]; simp
    · show 0 ≤ (Complex.exp z).re
      rw [Complex.exp_re, this]; simpa using (Real.exp_pos _).le

/-- **C188** for real parameters: if the samples have the Born frequencies of an autoregressive state, then the update of `minSRVMC` is zero
exactly where the gradient of the energy vanishes, and otherwise small steps against it lower the energy. -/
theorem C188_real_partial [NeZero L] {R K B : ℕ} (hS : 0 < Fintype.card (Sample R K B)) (m : (Fin P → ℝ) → Machine L d M)
    (hm : ∀ θ, RealAR (m θ)) (syms : ι → (Fin L → Fin d) → Fin L → Fin d) (H : (Fin L → Fin d) → (Fin L → Fin d) → ℂ) (hH : Hermitian H)
    (psi : (Fin P → ℝ) → (Fin L → Fin d) → ℂ) (hpsi : ∀ θ x, psi θ x = Spec.amplitude ((m θ).logPsi syms x)) (θ : Fin P → ℝ)
    (D : (Fin L → Fin d) → (Fin P → ℝ) →L[ℝ] ℂ) (hd : ∀ c, HasFDerivAt (fun θ => psi θ c) (D c) θ)
    (x : Sample R K B → Fin L → Fin d) (hx : Represents x (psi θ)) (solver) (hs : ∀ A b, LeastSquares A b (solver A b)) :
    let E : Sample R K B → ℂ := fun s => localValue H (psi θ) (x s)
    let u := castReal (update true solver (fun s k => D (x s) (Pi.single k 1) / psi θ (x s)) E uniformCounts)
    (u = 0 ↔ ∀ k, HasDerivAt (fun t : ℝ => rayleigh H (psi (θ + t • Pi.single k 1))) 0 0) ∧
    (u ≠ 0 → Lowers fun η => rayleigh H (psi (θ - η • u))) := by
  have him : ∀ θ' c, (psi θ' c).im = 0 := fun θ' c => by rw [hpsi]; exact ((hm θ').amplitude syms c).1
  have hre : ∀ θ' c, 0 ≤ (psi θ' c).re := fun θ' c => by rw [hpsi]; exact ((hm θ').amplitude syms c).2
  have hDim : ∀ c v, (D c v).im = 0 := by
    intro c v
    have h1 := Complex.imCLM.hasFDerivAt.comp θ (hd c)
    have h2 : (⇑Complex.imCLM ∘ fun θ => psi θ c) = fun _ => 0 := by
      funext θ'; exact him θ' c
    rw [h2] at h1
    have := h1.unique (hasFDerivAt_const 0 θ)
    exact congrArg (fun T : (Fin P → ℝ) →L[ℝ] ℝ => T v) this
  have hn : bornNorm (psi θ) ≠ 0 := by
    intro h
    obtain ⟨s⟩ := Fintype.card_pos_iff.mp hS
    have := hx (x s)
    rw [h, div_zero, div_eq_zero_iff] at this
    rcases this with h1 | h1
    · rw [Nat.cast_eq_zero, Finset.card_eq_zero] at h1
      have hmem : s ∈ Finset.univ.filter fun s' => x s' = x s := Finset.mem_filter.mpr ⟨Finset.mem_univ s, rfl⟩
      rw [h1] at hmem
      exact absurd hmem (Finset.notMem_empty s)
    · exact absurd (Nat.cast_eq_zero.mp h1) hS.ne'
  have h0 : ∀ c, psi θ c = 0 → D c = 0 := by
    intro c hc
    have h1 := Complex.reCLM.hasFDerivAt.comp θ (hd c)
    have hmin : IsLocalMin (⇑Complex.reCLM ∘ fun θ => psi θ c) θ := by
      refine Filter.Eventually.of_forall fun θ' => ?_
      show (psi θ c).re ≤ (psi θ' c).re
      rw [hc]
      exact hre θ' c
    have h2 := hmin.hasFDerivAt_eq_zero h1
    ext v
    apply Complex.ext
    · exact congrArg (fun T : (Fin P → ℝ) →L[ℝ] ℝ => T v) h2
    · exact hDim c v
  have hO : ∀ s k, D (x s) (Pi.single k 1) / psi θ (x s) = (((D (x s) (Pi.single k 1)).re / (psi θ (x s)).re : ℝ) : ℂ) := by
    intro s k
    rw [Complex.ofReal_div]
    congr 1
    · exact Complex.ext rfl (by simpa using hDim _ _)
    · exact Complex.ext rfl (by simpa using him _ _)
  have := C146_minSR_real hS H hH psi θ D hd hn h0 x hx (fun s k => (D (x s) (Pi.single k 1)).re / (psi θ (x s)).re) hO solver hs
  simp only [hO]
  exact this

/-! ## Complex parameters -/

open GPSKet.SampledUpdate (exFields)

/-- Four complex parameters of an `ARqGPS` with support dimension one for two spins. -/
noncomputable def cEps (θ : Fin 4 → ℂ) (e : Fin 2) (_ : Fin 1) (i : Fin 2) : ℂ :=
  if i = 0 then (if e = 0 then θ 0 else θ 1) else (if e = 0 then θ 2 else θ 3)

/-- The normalised model with `total_sz = 0`. -/
noncomputable def cMachine (θ : Fin 4 → ℂ) : Machine 2 2 1 := arqGPS exFields (cEps θ)

/-- The parameter of the first spin. -/
def fst {A : Type} (θ : Fin 4 → A) (e : Fin 2) : A := if e = 0 then θ 0 else θ 1

/-- The parameter of the second spin. -/
def snd {A : Type} (θ : Fin 4 → A) (e : Fin 2) : A := if e = 0 then θ 2 else θ 3

/-- Twice the logarithm of the normalisation of the first conditional. -/
noncomputable def logZ (θ : Fin 4 → ℂ) : ℝ := Real.log (Real.exp (2 * (θ 0).re) + Real.exp (2 * (θ 1).re))

/-- The exponent of the amplitude. -/
noncomputable def expo (θ : Fin 4 → ℂ) (a b : Fin 2) : ℂ :=
  fst θ a - ((1 / 2 * logZ θ : ℝ) : ℂ) + (((snd θ b * fst θ a).im : ℝ) : ℂ) * Complex.I

/-- The amplitudes. -/
noncomputable def cAmp (θ : Fin 4 → ℂ) (x : Fin 2 → Fin 2) : ℂ := if x 0 = x 1 then 0 else Complex.exp (expo θ (x 0) (x 1))

theorem c_first (θ : Fin 4 → ℂ) (x : Fin 2 → Fin 2) (e : Fin 2) :
    maybeNormalize exFields (mask exFields (spinsAt exFields x 0) 0 (qgpsVal exFields (cEps θ) 0 x)) e =
      some (fst θ e - ((1 / 2 * logZ θ : ℝ) : ℂ)) := by
  have hv : qgpsVal exFields (cEps θ) 0 x = fun e => fst θ e := by
    funext e
    simp [qgpsVal, exFields, sumOut, cEps, ctx, fst]
  have hm : mask exFields (spinsAt exFields x 0) 0 (qgpsVal exFields (cEps θ) 0 x) = fun e => some (fst θ e) := by
    funext e
    rw [hv]
    unfold mask
    rw [if_pos]
    simp [exFields, defaultRenormalize, spinsAt]
  rw [hm]
  simp [maybeNormalize, exFields, normalizeLog, weight, logZ, fst]

theorem c_second (θ : Fin 4 → ℂ) (x : Fin 2 → Fin 2) (e : Fin 2) :
    maybeNormalize exFields (mask exFields (spinsAt exFields x 1) 1 (qgpsVal exFields (cEps θ) 1 x)) e =
      if x 0 = e then none else some ((((snd θ e * fst θ (x 0)).im : ℝ) : ℂ) * Complex.I) := by
  have hv : qgpsVal exFields (cEps θ) 1 x = fun e => snd θ e * fst θ (x 0) := by
    funext e
    simp [qgpsVal, exFields, sumOut, cEps, ctx, fst, snd]
  have hm : mask exFields (spinsAt exFields x 1) 1 (qgpsVal exFields (cEps θ) 1 x) =
      fun e => if x 0 = e then none else some (snd θ e * fst θ (x 0)) := by
    rw [hv]
    have hs : spinsAt exFields x 1 = defaultCountSpins (x 0) := by
      funext e
      simp [spinsAt, exFields]
    rw [hs]
    funext e
    unfold mask
    have : exFields.renormalize (defaultCountSpins (x 0)) 1 e = decide (x 0 ≠ e) := by
      show defaultRenormalize 2 (defaultCountSpins (x 0)) 1 e = decide (x 0 ≠ e)
      generalize x 0 = a
      revert a e
      decide
    rw [this]
    by_cases h : x 0 = e <;> simp [h]
  rw [hm]
  by_cases h : x 0 = e
  · rw [if_pos h]
    simp [maybeNormalize, exFields, normalizeLog, h]
  have hw : ∑ e' : Fin 2, weight 2 (if x 0 = e' then none else some (snd θ e' * fst θ (x 0))) =
      Real.exp (2 * (snd θ e * fst θ (x 0)).re) := by
    rw [Fin.sum_univ_two]
    generalize x 0 = a at *
    fin_cases a <;> fin_cases e <;> simp [weight] at h ⊢
  show normalizeLog 2 (fun e => if x 0 = e then none else some (snd θ e * fst θ (x 0))) e = _
  unfold normalizeLog
  rw [hw]
  simp only [if_neg h, Real.log_exp, Option.map_some, Option.some.injEq]
  apply Complex.ext <;> simp

theorem cAmp_spec (θ : Fin 4 → ℂ) (x : Fin 2 → Fin 2) : cAmp θ x = Spec.amplitude ((cMachine θ).logPsi (fun (_ : Unit) y => y) x) := by
  refine (Expressive.amplitude_symmetrise _ (by change (2 : ℝ) ≠ 0; norm_num) _ _ fun _ => ?_).symm
  have hl : ∀ i, (cMachine θ).conditionalsLog x i = _ := fun i => (arqGPS_good (L := 2) exFields (cEps θ)).log x i
  have h0 : maybeNormalize (cMachine θ).fields ((cMachine θ).conditionalsLog x 0) (x 0) = some (fst θ (x 0) - ((1 / 2 * logZ θ : ℝ) : ℂ)) := by
    rw [hl]
    exact c_first θ x (x 0)
  have h1 : maybeNormalize (cMachine θ).fields ((cMachine θ).conditionalsLog x 1) (x 1) =
      if x 0 = x 1 then none else some ((((snd θ (x 1) * fst θ (x 0)).im : ℝ) : ℂ) * Complex.I) := by
    rw [hl]
    exact c_second θ x (x 1)
  change Spec.amplitude ((cMachine θ).logPsiOne x) = cAmp θ x
  unfold Machine.logPsiOne pickSum cAmp
  by_cases h : x 0 = x 1
  · rw [if_pos h] at h1 ⊢
    rw [if_neg]
    · rfl
    · intro hall
      have := hall 1
      beta_reduce at this
      rw [h1] at this
      simp at this
  · rw [if_neg h] at h1 ⊢
    rw [if_pos]
    · rw [Fin.sum_univ_two]
      beta_reduce
      rw [h0, h1]
      rfl
    · intro i
      fin_cases i
      · exact (congrArg Option.isSome h0).trans rfl
      · exact (congrArg Option.isSome h1).trans rfl

/-- The parameters. -/
noncomputable def cθ : Fin 4 → ℂ := ![1, 1, -3, -3]

/-- The logarithmic derivative of an amplitude in a direction. -/
noncomputable def dlog (x : Fin 2 → Fin 2) (v : Fin 4 → ℂ) : ℂ :=
  fst v (x 0) - (((v 0).re + (v 1).re) / 2 : ℝ) + (((snd v (x 1)).im - 3 * (fst v (x 0)).im : ℝ) : ℂ) * Complex.I

theorem hasDerivAt_cAmp (x : Fin 2 → Fin 2) (v : Fin 4 → ℂ) :
    HasDerivAt (fun t : ℝ => cAmp (cθ + (t : ℂ) • v) x) (dlog x v * cAmp cθ x) 0 := by
  by_cases h : x 0 = x 1
  · have h1 : (fun t : ℝ => cAmp (cθ + (t : ℂ) • v) x) = fun _ => 0 := funext fun t => if_pos h
    rw [h1, show cAmp cθ x = 0 from if_pos h, mul_zero]
    exact hasDerivAt_const 0 0
  have e0 : ∀ w : ℂ, HasDerivAt (fun t : ℝ => (1 + (t : ℂ) * w)) w 0 := by
    intro w
    have := ((hasDerivAt_id (0 : ℝ)).ofReal_comp.mul_const w).const_add 1
    simpa using this
  have e0' : ∀ w : ℂ, HasDerivAt (fun t : ℝ => (-3 + (t : ℂ) * w)) w 0 := by
    intro w
    have := ((hasDerivAt_id (0 : ℝ)).ofReal_comp.mul_const w).const_add (-3)
    simpa using this
  have eZ : HasDerivAt (fun t : ℝ => (1 / 2 * logZ (cθ + (t : ℂ) • v) : ℝ)) (((v 0).re + (v 1).re) / 2) 0 := by
    have hz : (fun t : ℝ => (1 / 2 * logZ (cθ + (t : ℂ) • v) : ℝ)) =
        fun t : ℝ => 1 / 2 * Real.log (Real.exp (2 * (1 + t * (v 0).re)) + Real.exp (2 * (1 + t * (v 1).re))) := by
      funext t
      simp [logZ, cθ]
    rw [hz]
    have a1 : ∀ r : ℝ, HasDerivAt (fun t : ℝ => Real.exp (2 * (1 + t * r))) (Real.exp (2 * (1 + 0 * r)) * (2 * (1 * r))) 0 := fun r =>
      ((((hasDerivAt_id (0 : ℝ)).mul_const r).const_add 1).const_mul 2).exp
    have a2 := (((a1 (v 0).re).add (a1 (v 1).re)).log (ne_of_gt (add_pos (Real.exp_pos _) (Real.exp_pos _)))).const_mul (1 / 2 : ℝ)
    refine a2.congr_deriv ?_
    simp
    have := Real.exp_pos 2
    field_simp
    ring
  have eF : HasDerivAt (fun t : ℝ => fst (cθ + (t : ℂ) • v) (x 0)) (fst v (x 0)) 0 := by
    have hz : (fun t : ℝ => fst (cθ + (t : ℂ) • v) (x 0)) = fun t : ℝ => 1 + (t : ℂ) * fst v (x 0) := by
      funext t
      unfold fst
      split_ifs <;> simp [cθ]
    rw [hz]
    exact e0 _
  have eS : HasDerivAt (fun t : ℝ => snd (cθ + (t : ℂ) • v) (x 1)) (snd v (x 1)) 0 := by
    have hz : (fun t : ℝ => snd (cθ + (t : ℂ) • v) (x 1)) = fun t : ℝ => -3 + (t : ℂ) * snd v (x 1) := by
      funext t
      unfold snd
      split_ifs <;> simp [cθ]
    rw [hz]
    exact e0' _
  have f0 : fst (cθ + ((0 : ℝ) : ℂ) • v) (x 0) = 1 := by unfold fst; split_ifs <;> simp [cθ]
  have s0 : snd (cθ + ((0 : ℝ) : ℂ) • v) (x 1) = -3 := by unfold snd; split_ifs <;> simp [cθ]
  have eI : HasDerivAt (fun t : ℝ => (snd (cθ + (t : ℂ) • v) (x 1) * fst (cθ + (t : ℂ) • v) (x 0)).im)
      ((snd v (x 1)).im - 3 * (fst v (x 0)).im) 0 := by
    have := Complex.imCLM.hasFDerivAt.comp_hasDerivAt (0 : ℝ) (eS.mul eF)
    refine this.congr_deriv ?_
    rw [f0, s0]
    simp
    ring
  have hE : HasDerivAt (fun t : ℝ => expo (cθ + (t : ℂ) • v) (x 0) (x 1)) (dlog x v) 0 :=
    (eF.sub eZ.ofReal_comp).add (eI.ofReal_comp.mul_const Complex.I)
  have hA := hE.cexp
  have hz : (fun t : ℝ => cAmp (cθ + (t : ℂ) • v) x) = fun t : ℝ => Complex.exp (expo (cθ + (t : ℂ) • v) (x 0) (x 1)) :=
    funext fun t => if_neg h
  rw [hz]
  refine hA.congr_deriv ?_
  rw [show cAmp cθ x = Complex.exp (expo cθ (x 0) (x 1)) from if_neg h]
  simp [mul_comm]

/-- The energy of the first spin. -/
def cH (x y : Fin 2 → Fin 2) : ℂ := if x = y then (if x 0 = 0 then 1 else -1) else 0

theorem cH_hermitian : Hermitian cH := by
  intro x y
  unfold cH
  by_cases h : x = y
  · subst h; split_ifs <;> simp
  · rw [if_neg (fun hh => h hh.symm), if_neg h]; simp

theorem sum_two {E : Type} [AddCommMonoid E] (F : (Fin 2 → Fin 2) → E) :
    ∑ x, F x = F ![0, 0] + F ![0, 1] + (F ![1, 0] + F ![1, 1]) := by
  rw [← (finTwoArrowEquiv (Fin 2)).symm.sum_comp, Fintype.sum_prod_type]
  simp [Fin.sum_univ_two, finTwoArrowEquiv]

theorem cAmp_sq (θ : Fin 4 → ℂ) (x : Fin 2 → Fin 2) (h : x 0 ≠ x 1) :
    ‖cAmp θ x‖ ^ 2 = Real.exp (2 * (fst θ (x 0)).re) / (Real.exp (2 * (θ 0).re) + Real.exp (2 * (θ 1).re)) := by
  have hp : (0 : ℝ) < Real.exp (2 * (θ 0).re) + Real.exp (2 * (θ 1).re) := by positivity
  rw [show cAmp θ x = Complex.exp (expo θ (x 0) (x 1)) from if_neg h, Complex.norm_exp, ← Real.exp_nat_mul]
  have : (expo θ (x 0) (x 1)).re = (fst θ (x 0)).re - 1 / 2 * logZ θ := by
    simp [expo]
  rw [this]
  push_cast
  rw [mul_sub, Real.exp_sub]
  congr 1
  rw [← mul_assoc]
  norm_num
  exact Real.exp_log hp

theorem cAmp_norm (θ : Fin 4 → ℂ) : bornNorm (cAmp θ) = 1 := by
  have hp : (0 : ℝ) < Real.exp (2 * (θ 0).re) + Real.exp (2 * (θ 1).re) := by positivity
  unfold bornNorm
  rw [sum_two, cAmp_sq θ ![0, 1] (by simp), cAmp_sq θ ![1, 0] (by simp), show cAmp θ ![0, 0] = 0 from if_pos rfl,
    show cAmp θ ![1, 1] = 0 from if_pos rfl]
  simp [fst]
  field_simp

theorem c_energy (θ : Fin 4 → ℂ) : rayleigh cH (cAmp θ) =
    (((Real.exp (2 * (θ 0).re) - Real.exp (2 * (θ 1).re)) / (Real.exp (2 * (θ 0).re) + Real.exp (2 * (θ 1).re)) : ℝ) : ℂ) := by
  unfold rayleigh
  rw [cAmp_norm]
  have hin : ∀ x, ∑ y, (starRingEnd ℂ) (cAmp θ x) * cH x y * cAmp θ y = (if x 0 = 0 then 1 else -1) * ((‖cAmp θ x‖ ^ 2 : ℝ) : ℂ) := by
    intro x
    unfold cH
    rw [Finset.sum_eq_single x]
    · rw [if_pos rfl, Complex.ofReal_pow, ← Complex.conj_mul']
      ring
    · intro y _ hy
      rw [if_neg fun hh => hy hh.symm]; simp
    · intro h; exact absurd (Finset.mem_univ x) h
  simp only [hin]
  rw [sum_two, cAmp_sq θ ![0, 1] (by simp), cAmp_sq θ ![1, 0] (by simp), show cAmp θ ![0, 0] = 0 from if_pos rfl,
    show cAmp θ ![1, 1] = 0 from if_pos rfl]
  simp [fst]
  ring

/-- Both balanced configurations, once each. -/
def cx (s : Sample 1 1 2) : Fin 2 → Fin 2 := if s.2.2 = 0 then ![0, 1] else ![1, 0]

theorem cx_ne (s : Sample 1 1 2) : cx s 0 ≠ cx s 1 := by
  unfold cx
  split_ifs <;> simp

theorem c_sum {E : Type} [AddCommMonoid E] (f : Sample 1 1 2 → E) : ∑ s, f s = f (0, 0, 0) + f (0, 0, 1) := by
  rw [Fintype.sum_prod_type, Fin.sum_univ_one, Fintype.sum_prod_type, Fin.sum_univ_one, Fin.sum_univ_two]

theorem cx_represents : Represents cx (cAmp cθ) := by
  intro c
  rw [cAmp_norm, div_one, Finset.card_filter, Nat.cast_sum, c_sum]
  have hcard : (Fintype.card (Sample 1 1 2) : ℝ) = 2 := by simp
  rw [hcard]
  have h0 : cx (0, 0, 0) = ![0, 1] := rfl
  have h1 : cx (0, 0, 1) = ![1, 0] := rfl
  rw [h0, h1]
  by_cases h : c 0 = c 1
  · rw [show cAmp cθ c = 0 from if_pos h, if_neg (fun e => by rw [← e] at h; simp at h), if_neg (fun e => by rw [← e] at h; simp at h)]
    simp
  · rw [cAmp_sq cθ c h]
    have hr : Real.exp (2 * (fst cθ (c 0)).re) / (Real.exp (2 * (cθ 0).re) + Real.exp (2 * (cθ 1).re)) = 1 / 2 := by
      have e1 : fst cθ (c 0) = 1 := by unfold fst; split_ifs <;> simp [cθ]
      have := Real.exp_pos 2
      rw [e1]
      simp [cθ]
      field_simp
      norm_num
    rw [hr]
    have hc : c = ![0, 1] ∨ c = ![1, 0] := by
      clear hr
      revert h c
      decide
    rcases hc with rfl | rfl <;> simp

/-- `+1` for the first sample and `-1` for the second. -/
noncomputable def σ (s : Sample 1 1 2) : ℂ := if s.2.2 = 0 then 1 else -1

/-- The dense rows. -/
noncomputable def cRows : Sample 1 1 2 → Fin (4 + 4) → ℂ :=
  splitRows (fun s k => dlog (cx s) (Pi.single k 1)) fun s k => dlog (cx s) (Pi.single k Complex.I)

/-- Half the difference of the rows. -/
noncomputable def cA : Fin 8 → ℂ := ![1 / 2, -1 / 2, 0, 0, -Complex.I, Complex.I, -Complex.I / 2, Complex.I / 2]

/-- The solution of smallest norm. -/
noncomputable def cy : Fin 8 → ℂ := ![1 / 6, -1 / 6, 0, 0, Complex.I / 3, -Complex.I / 3, Complex.I / 6, -Complex.I / 6]

theorem cRows_left (s : Sample 1 1 2) (k : Fin 4) : cRows s (Fin.castAdd 4 k) = dlog (cx s) (Pi.single k 1) := by
  unfold cRows splitRows
  exact Fin.addCases_left k

theorem cRows_right (s : Sample 1 1 2) (k : Fin 4) : cRows s (Fin.natAdd 4 k) = dlog (cx s) (Pi.single k Complex.I) := by
  unfold cRows splitRows
  exact Fin.addCases_right k

theorem cRows_half (k : Fin 8) : (cRows (0, 0, 0) k - cRows (0, 0, 1) k) / 2 = cA k := by
  have h0 : cx (0, 0, 0) = ![0, 1] := rfl
  have h1 : cx (0, 0, 1) = ![1, 0] := rfl
  have hl : ∀ k : Fin 4, (cRows (0, 0, 0) (Fin.castAdd 4 k) - cRows (0, 0, 1) (Fin.castAdd 4 k)) / 2 = cA (Fin.castAdd 4 k) := by
    intro k
    rw [cRows_left, cRows_left, h0, h1]
    fin_cases k <;> simp [dlog, fst, snd, cA, Fin.castAdd, Fin.castLE] <;> norm_num
  have hr : ∀ k : Fin 4, (cRows (0, 0, 0) (Fin.natAdd 4 k) - cRows (0, 0, 1) (Fin.natAdd 4 k)) / 2 = cA (Fin.natAdd 4 k) := by
    intro k
    rw [cRows_right, cRows_right, h0, h1]
    fin_cases k <;> simp [dlog, fst, snd, cA, Fin.natAdd] <;> ring
  exact Fin.addCases (motive := fun k : Fin (4 + 4) => (cRows (0, 0, 0) k - cRows (0, 0, 1) k) / 2 = cA k) hl hr k

theorem centred_half (f : Sample 1 1 2 → ℂ) (a : ℂ) (ha : (f (0, 0, 0) - f (0, 0, 1)) / 2 = a) (s : Sample 1 1 2) :
    f s - sampleMean f = a * σ s := by
  have hm : sampleMean f = (f (0, 0, 0) + f (0, 0, 1)) / 2 := by
    unfold sampleMean
    rw [c_sum]
    simp
  rw [hm, ← ha]
  obtain ⟨r, i, b⟩ := s
  obtain rfl : r = 0 := Subsingleton.elim _ _
  obtain rfl : i = 0 := Subsingleton.elim _ _
  fin_cases b
  · simp [σ]; ring
  · simp [σ]; ring

theorem c_matrix (k l : Fin 8) : srMatrix cRows k l = (starRingEnd ℂ) (cA k) * cA l := by
  unfold srMatrix
  simp only [centred_half (fun s => cRows s k) _ (cRows_half k), centred_half (fun s => cRows s l) _ (cRows_half l)]
  unfold sampleMean
  rw [c_sum]
  simp [σ]

theorem c_local (s : Sample 1 1 2) : localValue cH (cAmp cθ) (cx s) = σ s := by
  unfold localValue
  have hne : cAmp cθ (cx s) ≠ 0 := by
    rw [show cAmp cθ (cx s) = _ from if_neg (cx_ne s)]
    exact Complex.exp_ne_zero _
  rw [Finset.sum_eq_single (cx s)]
  · rw [mul_div_assoc, div_self hne, mul_one]
    unfold cH cx σ
    rw [if_pos rfl]
    split_ifs <;> simp_all
  · intro y _ hy
    rw [show cH (cx s) y = 0 from if_neg (fun hh => hy hh.symm), zero_mul]
  · intro h; exact absurd (Finset.mem_univ _) h

theorem c_force (k : Fin 8) : srForce cRows (fun s => localValue cH (cAmp cθ) (cx s)) k = (starRingEnd ℂ) (cA k) := by
  have hE : (fun s => localValue cH (cAmp cθ) (cx s)) = σ := funext c_local
  unfold srForce
  rw [hE]
  simp only [centred_half (fun s => cRows s k) _ (cRows_half k), centred_half σ 1 (by simp [σ])]
  unfold sampleMean
  rw [c_sum]
  simp [σ]

theorem c_update (solver) (hs : ∀ A b, LeastSquares A b (solver A b)) :
    update true solver cRows (fun s => localValue cH (cAmp cθ) (cx s)) uniformCounts = cy := by
  obtain ⟨h1, h2⟩ := C47_minSR_is_SR solver cRows (fun s => localValue cH (cAmp cθ) (cx s)) hs
  set u := update true solver cRows (fun s => localValue cH (cAmp cθ) (cx s)) uniformCounts
  have hAy : ∑ l, cA l * cy l = 1 := by
    simp [Fin.sum_univ_eight, cA, cy]
    ring_nf
    simp
    norm_num
  have h3 := h2 cy fun k => by
    rw [c_force]
    calc ∑ l, srMatrix cRows k l * cy l = (starRingEnd ℂ) (cA k) * ∑ l, cA l * cy l := by
          rw [Finset.mul_sum]
          refine Finset.sum_congr rfl fun l _ => ?_
          rw [c_matrix]; ring
      _ = _ := by rw [hAy, mul_one]
  have hAu : ∑ l, cA l * u l = 1 := by
    have h4 := h1 (0 : Fin 8)
    rw [c_force] at h4
    have h5 : ∑ l, srMatrix cRows (0 : Fin 8) l * u l = (starRingEnd ℂ) (cA 0) * ∑ l, cA l * u l := by
      rw [Finset.mul_sum]
      refine Finset.sum_congr rfl fun l _ => ?_
      rw [c_matrix]; ring
    rw [h5] at h4
    have h6 : (starRingEnd ℂ) (cA 0) ≠ 0 := by simp [cA]
    exact mul_left_cancel₀ h6 (by rw [h4, mul_one])
  have hyA : ∀ l, cy l = (starRingEnd ℂ) (cA l) / 3 := by
    intro l
    have h2 : (starRingEnd ℂ) 2 = 2 := Complex.conj_ofNat 2
    fin_cases l <;> simp [cA, cy, h2] <;> ring
  have hyn : ∑ l, ‖cy l‖ ^ 2 = 1 / 3 := by
    simp [Fin.sum_univ_eight, cy]
    norm_num
  have key : ∑ l, ‖u l - cy l‖ ^ 2 = ∑ l, ‖u l‖ ^ 2 - 1 / 3 := by
    have e : ∀ l, ‖u l - cy l‖ ^ 2 = ‖u l‖ ^ 2 - 2 * ((cA l * u l).re / 3) + ‖cy l‖ ^ 2 := by
      intro l
      rw [hyA]
      simp only [← Complex.normSq_eq_norm_sq, Complex.normSq_apply, Complex.sub_re, Complex.sub_im, Complex.mul_re, Complex.conj_re, Complex.conj_im,
        Complex.div_ofNat_re, Complex.div_ofNat_im]
      ring
    simp only [e]
    rw [Finset.sum_add_distrib, Finset.sum_sub_distrib, hyn, ← Finset.mul_sum, ← Finset.sum_div, ← Complex.re_sum, hAu]
    norm_num
    ring
  have hz : ∑ l, ‖u l - cy l‖ ^ 2 = 0 := by
    refine le_antisymm ?_ (Finset.sum_nonneg fun l _ => sq_nonneg _)
    rw [key]
    linarith
  funext l
  have := (Finset.sum_eq_zero_iff_of_nonneg fun l _ => sq_nonneg _).mp hz l (Finset.mem_univ l)
  exact sub_eq_zero.mp (norm_eq_zero.mp (pow_eq_zero_iff (two_ne_zero)|>.mp this))

/-- **C188 fails** for complex parameters, the default of the models.  An `ARqGPS` of two spins with `total_sz = 0`, normalised: the samples
have its Born frequencies, the rows are its derivatives with respect to real and imaginary parts, the gradient of the energy is not zero,
and every step against the update, small or large, raises the energy. -/
theorem C188_complex_fails :
    ∃ (θ : Fin 4 → ℂ) (m : (Fin 4 → ℂ) → Machine 2 2 1) (H : (Fin 2 → Fin 2) → (Fin 2 → Fin 2) → ℂ) (x : Sample 1 1 2 → Fin 2 → Fin 2)
      (Ore Oim : Sample 1 1 2 → Fin 4 → ℂ),
      (∀ θ, m θ = arqGPS ⟨2, true, true, defaultCountSpins, defaultRenormalize 2, sumOut⟩
        fun e _ i => if i = 0 then (if e = 0 then θ 0 else θ 1) else (if e = 0 then θ 2 else θ 3)) ∧
      Hermitian H ∧
      let psi : (Fin 4 → ℂ) → (Fin 2 → Fin 2) → ℂ := fun θ c => Spec.amplitude ((m θ).logPsi (fun (_ : Unit) y => y) c)
      Represents x (psi θ) ∧
      (∀ s k, HasDerivAt (fun t : ℝ => psi (θ + (t : ℂ) • Pi.single k 1) (x s)) (Ore s k * psi θ (x s)) 0) ∧
      (∀ s k, HasDerivAt (fun t : ℝ => psi (θ + (t : ℂ) • Pi.single k Complex.I) (x s)) (Oim s k * psi θ (x s)) 0) ∧
      (¬ ∀ k, HasDerivAt (fun t : ℝ => rayleigh H (psi (θ + (t : ℂ) • Pi.single k 1))) 0 0) ∧
      ∀ solver, (∀ A b, LeastSquares A b (solver A b)) →
        let u := reassemble (update true solver (splitRows Ore Oim) (fun s => localValue H (psi θ) (x s)) uniformCounts)
        ∀ η : ℝ, 0 < η → (rayleigh H (psi θ)).re < (rayleigh H (psi (θ - (η : ℂ) • u))).re := by
  refine ⟨cθ, cMachine, cH, cx, fun s k => dlog (cx s) (Pi.single k 1), fun s k => dlog (cx s) (Pi.single k Complex.I), fun _ => rfl,
    cH_hermitian, ?_⟩
  dsimp only
  simp only [← cAmp_spec]
  refine ⟨cx_represents, fun s k => hasDerivAt_cAmp _ _, fun s k => hasDerivAt_cAmp _ _, fun hall => ?_, fun solver hs η hη => ?_⟩
  · have h := hall 0
    simp only [c_energy] at h
    have e1 : HasDerivAt (fun t : ℝ => Real.exp (2 * (1 + t))) (Real.exp (2 * (1 + 0)) * (2 * 1)) 0 :=
      (((hasDerivAt_id (0 : ℝ)).const_add 1).const_mul 2).exp
    have e2 := ((e1.sub_const (Real.exp 2)).div (e1.add_const (Real.exp 2)) (by positivity)).ofReal_comp
    have h2 : HasDerivAt (fun t : ℝ => (((Real.exp (2 * (1 + t)) - Real.exp 2) / (Real.exp (2 * (1 + t)) + Real.exp 2) : ℝ) : ℂ)) 0 0 := by
      simpa [cθ] using h
    have h3 := e2.unique h2
    rw [Complex.ofReal_eq_zero] at h3
    have hp := Real.exp_pos 2
    simp at h3
  · have hu := c_update solver hs
    rw [show splitRows (fun s k => dlog (cx s) (Pi.single k 1)) (fun s k => dlog (cx s) (Pi.single k Complex.I)) = cRows from rfl, hu, c_energy, c_energy,
      Complex.ofReal_re, Complex.ofReal_re]
    have z0 : ((cθ - (η : ℂ) • reassemble (P := 4) cy) 0).re = 1 + η / 6 := by
      simp [cθ, reassemble, cy, Fin.natAdd, Fin.castAdd, Fin.castLE]
      ring
    have z1 : ((cθ - (η : ℂ) • reassemble (P := 4) cy) 1).re = 1 - η / 6 := by
      simp [cθ, reassemble, cy, Fin.natAdd, Fin.castAdd, Fin.castLE]
      ring
    rw [z0, z1]
    simp only [cθ]
    simp
    exact div_pos (sub_pos.mpr (Real.exp_lt_exp.mpr (by linarith))) (by positivity)

/-! ## The hypotheses of the positive part are met -/

open GPSKet.SampledUpdate (exMachine exEps exAR exAR_spec exDR exDR_spec exHR exHR_hermitian exR_gradient)

theorem exMachine_real (θ : Fin 1 → ℝ) : RealAR (exMachine θ) := by
  have : exMachine θ = arqGPS exFields fun e m i => (((if i = 0 ∧ e = 0 then θ 0 else 0 : ℝ)) : ℂ) := by
    unfold exMachine exEps
    congr 1
    funext e _ i
    split_ifs <;> simp
  rw [this]
  exact .qgps _ (ModPhase.realOut_sum _ rfl) _

theorem ex_represents : Represents cx (exAR 0) := by
  have hv : ∀ c, ‖exAR 0 c‖ ^ 2 = if c 0 = c 1 then 0 else 1 / 2 := by
    intro c
    unfold exAR
    split_ifs with h h'
    · simp
    all_goals
      rw [Complex.norm_real, Real.norm_eq_abs, sq_abs, ← Real.exp_nat_mul]
      norm_num
      rw [Real.exp_neg, show 2 * (1 / 2 * Real.log 2) = Real.log 2 by ring, Real.exp_log (by norm_num)]
      norm_num
  intro c
  have hn : bornNorm (exAR 0) = 1 := by
    unfold bornNorm
    rw [sum_two]
    simp only [hv]
    norm_num
  rw [hn, div_one, Finset.card_filter, Nat.cast_sum, c_sum, hv]
  have hcard : (Fintype.card (Sample 1 1 2) : ℝ) = 2 := by simp
  rw [hcard]
  have h0 : cx (0, 0, 0) = ![0, 1] := rfl
  have h1 : cx (0, 0, 1) = ![1, 0] := rfl
  rw [h0, h1]
  by_cases h : c 0 = c 1
  · rw [if_pos h, if_neg (fun e => by rw [← e] at h; simp at h), if_neg (fun e => by rw [← e] at h; simp at h)]
    simp
  · rw [if_neg h]
    have hc : c = ![0, 1] ∨ c = ![1, 0] := by
      clear hn hv
      revert h c
      decide
    rcases hc with rfl | rfl <;> simp

/-- Two spins with `total_sz = 0`, one real parameter, both configurations sampled once: the gradient is not zero, so small steps against the
update lower the energy. -/
example (solver) (hs : ∀ A b, LeastSquares A b (solver A b)) :
    let u := castReal (update true solver (fun (s : Sample 1 1 2) k => exDR (cx s) (Pi.single k 1) / exAR 0 (cx s))
      (fun s => localValue exHR (exAR 0) (cx s)) uniformCounts)
    Lowers fun η => rayleigh exHR (exAR (0 - η • u)) := by
  obtain ⟨h1, h2⟩ := C188_real_partial (R := 1) (K := 1) (B := 2) (by simp) exMachine exMachine_real (fun (_ : Unit) y => y) exHR exHR_hermitian exAR
    exAR_spec 0 exDR exDR_spec cx ex_represents solver hs
  exact h2 fun hu => exR_gradient (h1.mp hu)

/-- A least-squares solver exists, so the statement about all solvers in the negative part is not empty. -/
example : ∃ solver : Matrix (Fin (1 * 1 * 2)) (Fin (1 * 1 * 2)) ℂ → (Fin (1 * 1 * 2) → ℂ) → Fin (1 * 1 * 2) → ℂ,
    ∀ A b, LeastSquares A b (solver A b) := exists_leastSquares

end GPSKet.AutoregDescent
