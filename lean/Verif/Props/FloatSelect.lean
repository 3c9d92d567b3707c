import Verif.Lemmas.FloatSelect
import Verif.Props.Autoreg

/-!
# C171: selecting by multiplication

The autoregressive models select between arrays with `pred * x + (1 - pred) * y`, and mask forbidden states with `-inf`.  The evaluation
with infinities and NaN (`Verif.Model.FloatSelect`) is compared with the evaluation in which `-inf` is a value of its own and selection is
exact (`Verif.Model.Autoreg`), about which the other properties are stated.
-/

namespace GPSKet.FloatSelect
open Floats AR Spec Props F

variable {L D M : ℕ} {ι : Type} [Fintype ι]

/-- The models of the package together with their evaluation in floating-point numbers.  Parameters of real dtype are real. -/
inductive FloatModel [NeZero L] (dt : DType) : Machine L D M → ((Fin L → Fin D) → Fin L → Fin D → FC) → Prop
  | qgps (f : Fields D M) (epsilon : Fin D → Fin M → Fin L → ℂ) (hout : f.out_transformation = sumOut)
      (hr : dt = .real → ∀ d m i, (epsilon d m i).im = 0) : FloatModel dt (arqGPS f epsilon) (conditionalsF dt f epsilon)
  | full (f : Fields D M) (epsilon : Fin D → Fin M → ℕ → ℂ) (hout : f.out_transformation = sumOut)
      (hr : dt = .real → ∀ d m i, (epsilon d m i).im = 0) : FloatModel dt (ARFull.arqGPSFull f epsilon) (conditionalsFullF dt f epsilon)
  | plaquette (f : Fields D M) (epsilon : Fin D → Fin M → Fin L → ℂ) (pl : ARPlaquette.Plaquettes L)
      (hidden : ∀ i k, i ≤ pl.plaquettes i k → pl.masks i k = false) (hout : f.out_transformation = sumOut)
      (hr : dt = .real → ∀ d m i, (epsilon d m i).im = 0) :
      FloatModel dt (ARPlaquette.arPlaquette f epsilon pl) (conditionalsPlaquetteF dt f epsilon pl)

theorem prod_im {κ : Type} (s : Finset κ) (a : κ → ℂ) (h : ∀ i ∈ s, (a i).im = 0) : (∏ i ∈ s, a i).im = 0 := by
  classical
  induction s using Finset.induction_on with
  | empty => simp
  | insert i s hi ih =>
    rw [Finset.prod_insert hi, Complex.mul_im, h i (Finset.mem_insert_self i s), ih fun j hj => h j (Finset.mem_insert_of_mem hj)]
    simp

theorem sum_prod_im (a b : Fin M → ℂ) (ha : ∀ m, (a m).im = 0) (hb : ∀ m, (b m).im = 0) : (sumOut fun m => a m * b m).im = 0 := by
  unfold sumOut
  rw [Complex.im_sum]
  refine Finset.sum_eq_zero fun m _ => ?_
  rw [Complex.mul_im, ha, hb]
  simp

theorem FloatModel.provided [NeZero L] {dt : DType} {m : Machine L D M} {conds} (h : FloatModel dt m conds) : ProvidedAR m := by
  cases h with
  | qgps f epsilon _ _ => exact .qgps f epsilon
  | full f epsilon _ _ => exact .full f epsilon
  | plaquette f epsilon pl hidden _ _ => exact .plaquette f epsilon pl hidden

theorem FloatModel.enc [NeZero L] {dt : DType} {m : Machine L D M} {conds} (h : FloatModel dt m conds) (x : Fin L → Fin D) (i : Fin L)
    (d : Fin D) : Enc dt (m.conditionalsLog x i d) (conds x i d) := by
  cases h with
  | qgps f epsilon hout hr => exact conditionalsF_enc dt f epsilon hout hr x i d
  | full f epsilon hout hr =>
    refine spins_enc dt f x (fun i d => f.out_transformation fun m =>
      ARFull.readPacked epsilon L d m (ARFull.lowerIndex i + i.val) * ARFull.contextProd epsilon x i m) (fun hd i d => ?_) i d
    rw [hout]
    refine sum_prod_im _ _ (fun m => hr hd _ _ _) fun m => ?_
    refine prod_im _ _ fun j _ => ?_
    split_ifs
    · exact Complex.one_im
    · exact hr hd _ _ _
  | plaquette f epsilon pl hidden hout hr =>
    refine spins_enc dt f x (fun i d => f.out_transformation fun m =>
      epsilon d m 0 * ∏ k : Fin L, if pl.masks i k then epsilon (x (pl.plaquettes i k)) m k else 1) (fun hd i d => ?_) i d
    rw [hout]
    refine sum_prod_im _ _ (fun m => hr hd _ _ _) fun m => ?_
    refine prod_im _ _ fun j _ => ?_
    split_ifs
    · exact hr hd _ _ _
    · exact Complex.one_im

/-- For finite arrays (and for integers) the multiplication is a selection. -/
theorem C171_select (p : Bool) (x y : ℂ) (a b : ℤ) :
    gpuCond .complex p (FC.ofC x) (FC.ofC y) = FC.ofC (if p then x else y) ∧
    gpuCond .real p (FC.ofC x.re) (FC.ofC y.re) = FC.ofC ((if p then x.re else y.re : ℝ) : ℂ) ∧
    gpuCondInt p a b = if p then a else b := by
  refine ⟨gpuCond_finite .complex p x y (fun h => by cases h), ?_, gpuCondInt_eq p a b⟩
  rw [gpuCond_finite .real p x.re y.re fun _ => ⟨Complex.ofReal_im _, Complex.ofReal_im _⟩]
  cases p <;> rfl

/-- The conditional probabilities in floating-point numbers are those of the exact selection, for every configuration and every site with
at least one allowed state. -/
theorem C171_probabilities [NeZero L] (dt : DType) (m : Machine L D M) (conds) (h : FloatModel dt m conds) (hp : 0 < m.fields.machine_pow)
    (x : Fin L → Fin D) (i : Fin L) (hi : ∃ d, 0 < m.conditionals x i d) (d : Fin D) :
    probabilitiesF m.fields (conds x) i d = fin (m.conditionals x i d) := by
  have ha : ∃ d, (m.conditionalsLog x i d).isSome := by
    obtain ⟨d, hd⟩ := hi
    refine ⟨d, ?_⟩
    unfold Machine.conditionals at hd
    rw [weight_pos_iff] at hd
    unfold maybeNormalize normalizeLog at hd
    split_ifs at hd
    · simpa using hd
    · exact hd
  exact (maybeNormalizeF_enc (fun d => h.enc x i d) hp ha d).exp hp

/-- If every image of the configuration satisfies the constraint, the log-amplitude in floating-point numbers is the finite one of the
exact selection. -/
theorem C171_value [NeZero L] [Nonempty ι] (dt : DType) (m : Machine L D M) (conds) (h : FloatModel dt m conds)
    (hp : 0 < m.fields.machine_pow) (syms : ι → (Fin L → Fin D) → Fin L → Fin D) (x : Fin L → Fin D)
    (hx : ∀ t, 0 < bornWeight m.fields.machine_pow (m.logPsiOne (syms t x))) :
    ∃ z, m.logPsi syms x = some z ∧ callF m.fields conds syms x = FC.ofC z := by
  have hx : ∀ t, (m.logPsiOne (syms t x)).isSome := fun t => (weight_pos_iff m.fields.machine_pow _).mp (by
    rw [← bornWeight_eq]
    exact hx t)
  refine symmetriseF_finite (dt := dt) hp (fun t => ?_) hx
  refine pickF_enc (fun i d => h.enc (syms t x) i d) hp (fun i => ⟨syms t x i, ?_⟩) (syms t x)
  have := hx t
  unfold Machine.logPsiOne pickSum at this
  split_ifs at this with hall
  · have := hall i
    unfold maybeNormalize normalizeLog at this
    split_ifs at this
    · simpa using this
    · exact this
  · simp at this

/-- On a spin-1/2 space with `total_sz = 0`, with symmetry operations that keep the magnetisation: every configuration of the space gets
the finite log-amplitude of the exact selection, and every other configuration gets `-inf` for real dtype, but NaN for complex dtype. -/
theorem C171_zero_magnetisation [NeZero L] [Nonempty ι] (dt : DType) (m : Machine L 2 M) (conds) (h : FloatModel dt m conds)
    (hp : 0 < m.fields.machine_pow) (hf : SpinHalf L true m.fields) (hL : Even L)
    (syms : ι → (Fin L → Fin 2) → Fin L → Fin 2) (hs : ∀ t x, Balanced (syms t x) ↔ Balanced x) (x : Fin L → Fin 2) :
    (Balanced x → ∃ z, m.logPsi syms x = some z ∧ callF m.fields conds syms x = FC.ofC z) ∧
    (¬ Balanced x → m.logPsi syms x = none ∧ (dt = .real → callF m.fields conds syms x = ⟨ninf, fin 0⟩) ∧
      (dt = .complex → callF m.fields conds syms x = ⟨nan, nan⟩)) := by
  obtain ⟨val, g⟩ := h.provided.good
  have hp' : PowOk m := ne_of_gt hp
  have hb : ∀ t, (m.logPsiOne (syms t x)).isSome ↔ Balanced x := fun t => by
    rw [← weight_pos_iff m.fields.machine_pow, one_balanced g hp' hf hL, hs]
  constructor
  · intro hx
    refine C171_value dt m conds h hp syms x fun t => ?_
    rw [bornWeight_eq]
    exact (weight_pos_iff _ _).mpr ((hb t).mpr hx)
  · intro hx
    have hn : ∀ t, m.logPsiOne (syms t x) = none := by
      intro t
      have := mt (hb t).mp hx
      cases ho : m.logPsiOne (syms t x) with
      | none => rfl
      | some z => rw [ho] at this; simp at this
    constructor
    · unfold Machine.logPsi symmetrise
      simp [hn, weight]
    · have key : callF m.fields conds syms x = outside dt := ?_
      · exact ⟨fun hd => by rw [key, hd]; rfl, fun hd => by rw [key, hd]; rfl⟩
      refine symmetriseF_none (dt := dt) hp (fun t => ?_) hn
      refine pickF_enc (fun i d => h.enc (syms t x) i d) hp (fun i => ?_) (syms t x)
      have h2 := pc_two (syms t x) i i.isLt.le
      have hi := i.isLt
      have hd : ∃ d, m.fields.renormalize (spinsAt m.fields (syms t x) i) i d = true := by
        obtain ⟨k, rfl⟩ := hL
        by_cases h0 : pc (fun j => decide (syms t x j = 0)) i < (((k + k) / 2 : ℕ) : ℤ)
        · exact ⟨0, (spin_allowed hf _ i 0).mpr h0⟩
        · exact ⟨1, (spin_allowed hf _ i 1).mpr (by omega)⟩
      obtain ⟨d, hd⟩ := hd
      refine ⟨d, ?_⟩
      rw [g.log]
      unfold mask
      rw [if_pos hd]
      rfl

/-- For complex dtype the configurations outside the space do not have amplitude zero: a model on two sites, evaluated at the configuration
with two equal spins, gives NaN. -/
theorem C171_outside_fails : ∃ (f : Fields 2 1) (epsilon : Fin 2 → Fin 1 → Fin 2 → ℂ), SpinHalf 2 true f ∧ f.machine_pow = 2 ∧
    (arqGPS f epsilon).logPsi (fun (_ : Unit) y => y) (fun _ => 0) = none ∧
    callF f (conditionalsF .complex f epsilon) (fun (_ : Unit) y => y) (fun _ => 0) = ⟨nan, nan⟩ := by
  let f : Fields 2 1 := ⟨2, true, true, defaultCountSpins, defaultRenormalize 2, sumOut⟩
  have hf : SpinHalf 2 true f := ⟨rfl, rfl, rfl⟩
  refine ⟨f, fun _ _ _ => 1, hf, rfl, ?_⟩
  have hb : ¬ Balanced (fun _ : Fin 2 => (0 : Fin 2)) := by
    unfold Balanced
    decide
  exact (C171_zero_magnetisation .complex (arqGPS f fun _ _ _ => 1) _ (.qgps f _ rfl fun h => by cases h) (by norm_num [arqGPS, f]) hf
    ⟨1, rfl⟩ (fun (_ : Unit) y => y) (fun _ _ => Iff.rfl) _).2 hb |>.imp_right fun h => h.2 rfl

/-- The hypotheses of `C171_zero_magnetisation` are met for both dtypes by models on four sites, with configurations of either kind. -/
example (dt : DType) : ∃ (m : Machine 4 2 1) (conds : _), FloatModel dt m conds ∧ 0 < m.fields.machine_pow ∧ SpinHalf 4 true m.fields ∧
    Balanced (![0, 1, 1, 0] : Fin 4 → Fin 2) ∧ ¬ Balanced (![0, 1, 0, 0] : Fin 4 → Fin 2) := by
  let f : Fields 2 1 := ⟨2, true, true, defaultCountSpins, defaultRenormalize 4, sumOut⟩
  refine ⟨arqGPS f fun d _ i => ((d.val + i.val : ℝ) : ℂ), _, .qgps f _ rfl fun _ d _ i => Complex.ofReal_im _, ?_, ⟨rfl, rfl, rfl⟩, ?_, ?_⟩
  · norm_num [arqGPS, f]
  · unfold Balanced; decide
  · unfold Balanced; decide

/-- The call with index -1 by which the direct sampler creates the cache leaves the fresh values in it, whatever the parameters and the
contents of the buffer: the cache is the initial cache of the models. -/
theorem C171_init_cache [NeZero L] (dt : DType) (f : Fields D M) (epsilon : Fin D → Fin M → Fin L → ℂ)
    (hr : dt = .real → ∀ d m i, (epsilon d m i).im = 0) (epsilonFull : Fin D → Fin M → ℕ → ℂ) (pl : ARPlaquette.Plaquettes L)
    (buffer : Fin L → Fin D) :
    initCacheF dt f epsilon buffer =
      ((fun d m => FC.ofC ((arqGPS f epsilon).initCache.1 d m)), (arqGPS f epsilon).initCache.2) ∧
    initSpinsF f buffer = (ARFull.arqGPSFull (L := L) f epsilonFull).initCache ∧
    initSpinsF f buffer = (ARPlaquette.arPlaquette f epsilon pl).initCache := by
  have hs : bumpSpinsF f (fun _ => 0) buffer (-1) = fun _ => 0 := by
    funext d
    unfold bumpSpinsF
    rw [gpuCondInt_eq]
    rfl
  refine ⟨?_, ?_, ?_⟩
  · unfold initCacheF computeConditionalF
    dsimp only
    rw [hs]
    refine Prod.ext ?_ rfl
    funext d m
    dsimp only
    have e : decide ((0 : ℤ) ≤ -1) = false := rfl
    rw [e, FC.ofC_mul, gpuCond_finite dt false _ _ fun hd => ⟨?_, Complex.one_im⟩]
    · rfl
    · rw [mul_one]
      exact hr hd _ _ _
  · unfold initSpinsF
    rw [hs]
    rfl
  · unfold initSpinsF
    rw [hs]
    rfl

end GPSKet.FloatSelect
