import Verif.Props.SpinProjection
import Verif.Props.EnergyGradient
import Verif.Props.Autoreg
import Verif.Props.Expressive
import Verif.Spec.Direct
import Mathlib.Analysis.Complex.AbsMax
import Mathlib.Analysis.InnerProductSpace.PiL2
import Mathlib.Analysis.Calculus.FDeriv.Pow
import Mathlib.Analysis.InnerProductSpace.Calculus

/-!
# Property C191: which models are holomorphic functions of their parameters

The scripts and tutorials ask for `QGTJacobianDense(holomorphic=True)` (H2O.py:296, H4x4x4.py:227, H50_1D.py:113, abinitio_example.py:130,
j1j2_example.py:63): derivatives with respect to complex parameters are then taken as those of a holomorphic function.

A model is holomorphic if the amplitude of every configuration is complex differentiable everywhere in the space of its parameters
(`Differentiable ℂ`).
-/

namespace GPSKet.Holomorphic
open GPSKet GPSKet.Spec

variable {P : Type} [NormedAddCommGroup P] [NormedSpace ℂ P] {L M : ℕ} {ι κ τ : Type}

/-! ## qGPS -/

/-- **C191**, qGPS with any symmetry operations: not only the amplitude, the log-amplitude itself is holomorphic. -/
theorem C191_qgps {D : ℕ} [Fintype ι] (syms : QGPS.Syms L D ι) (x : Fin L → Fin D) :
    (Differentiable ℂ fun epsilon : Fin D → Fin M → Fin L → ℂ => (QGPS.model ⟨epsilon, syms, QGPS.sumOut⟩).full x) ∧
    Differentiable ℂ fun epsilon : Fin D → Fin M → Fin L → ℂ => Complex.exp ((QGPS.model ⟨epsilon, syms, QGPS.sumOut⟩).full x) := by
  have h : Differentiable ℂ fun epsilon : Fin D → Fin M → Fin L → ℂ => (QGPS.model ⟨epsilon, syms, QGPS.sumOut⟩).full x := by
    unfold QGPS.model QGPS.sumOut QGPS.siteProd
    simp only
    fun_prop
  exact ⟨h, h.cexp⟩

/-! ## Determinants -/

theorem differentiable_det {n : Type} [Fintype n] [DecidableEq n] {A : P → Matrix n n ℂ} (h : ∀ i j, Differentiable ℂ fun p => A p i j) :
    Differentiable ℂ fun p => (A p).det := by
  simp only [Matrix.det_apply']
  fun_prop

theorem differentiable_get {n : ℕ} {a : P → Fin n → ℂ} (h : ∀ k, Differentiable ℂ fun p => a p k) (i : ℤ) :
    Differentiable ℂ fun p => Slater.get (a p) i := by
  unfold Slater.get
  cases Slater.pyIdx n i with
  | none => simp
  | some k => simpa using h k

theorem differentiable_getFullU {nu nd : ℕ} {up : P → Fin L → Fin nu → ℂ} {dn : P → Fin L → Fin nd → ℂ}
    (hu : ∀ i j, Differentiable ℂ fun p => up p i j) (hd : ∀ i j, Differentiable ℂ fun p => dn p i j) (i : Fin (L + L)) (j : Fin (nu + nd)) :
    Differentiable ℂ fun p => Slater.getFullU (up p) (dn p) i j := by
  unfold Slater.getFullU
  refine Fin.addCases (fun i => ?_) (fun i => ?_) i <;> refine Fin.addCases (fun j => ?_) (fun j => ?_) j <;>
    simp only [Fin.addCases_left, Fin.addCases_right] <;> first | exact hu _ _ | exact hd _ _ | exact differentiable_const _

theorem differentiable_applyRotation {nu nd : ℕ} {F : P → Fin (L + L) → Fin (nu + nd) → ℂ} (hF : ∀ i j, Differentiable ℂ fun p => F p i j)
    (angle : ℝ) (i : Fin (L + L)) (j : Fin (nu + nd)) : Differentiable ℂ fun p => Slater.applyRotation (F p) angle i j := by
  unfold Slater.applyRotation
  refine Fin.addCases (fun i => ?_) (fun i => ?_) i <;> refine Fin.addCases (fun j => ?_) (fun j => ?_) j <;>
    simp only [Fin.addCases_left, Fin.addCases_right] <;> fun_prop

/-- The orbitals of a Slater state as functions of parameters: the three ways of setting them up, with orbitals that are parameters
themselves or, as for `spin_symmetry_by_structure`, depend on them holomorphically. -/
inductive OrbitalsOf {nu nd : ℕ} : (κ : Type) → (P → Slater.Orbs L nu nd M κ) → Prop
  | fixedMag (up : P → Fin M → Fin L → Fin nu → ℂ) (dn : P → Fin M → Fin L → Fin nd → ℂ)
      (hu : ∀ m i j, Differentiable ℂ fun p => up p m i j) (hd : ∀ m i j, Differentiable ℂ fun p => dn p m i j) :
      OrbitalsOf Unit fun p => .fixedMag (up p) (dn p)
  | projected {κ : Type} (up : P → Fin M → Fin L → Fin nu → ℂ) (dn : P → Fin M → Fin L → Fin nd → ℂ) (angle : κ → ℝ)
      (hu : ∀ m i j, Differentiable ℂ fun p => up p m i j) (hd : ∀ m i j, Differentiable ℂ fun p => dn p m i j) :
      OrbitalsOf κ fun p => .projected (up p) (dn p) angle
  | generalised (U : P → Fin M → Fin (L + L) → Fin (nu + nd) → ℂ) (hU : ∀ m i j, Differentiable ℂ fun p => U p m i j) :
      OrbitalsOf Unit fun p => .generalised (U p)

/-- The row of the matrix of orbitals which the `i`-th electron takes. -/
def pos (symmetries : ι → Fin L → Fin L) (nu nd : ℕ) (x : Cfg L) (t : ι) (i : ℕ) : ℤ :=
  Slater.get (fun k => ((symmetries t k).val : ℤ)) (Slater.electrons nu nd x i) + if nu ≤ i then (L : ℤ) else 0

/-- **C191**, Slater determinants: with any symmetry operations, spin projection and number of determinants. -/
theorem C191_slater {nu nd : ℕ} [Fintype κ] [Fintype ι] (orbs : P → Slater.Orbs L nu nd M κ) (ho : OrbitalsOf κ orbs)
    (symmetries : ι → Fin L → Fin L) (chars : κ → ℂ) (ct : Bool) (out : (Fin M → κ → ι → ℂ) → ℂ) (x : Cfg L) :
    Differentiable ℂ fun p => SymmetricDet.slaterAmp ⟨orbs p, symmetries, chars, ct, out⟩ x := by
  unfold SymmetricDet.slaterAmp Slater.detValues
  refine Differentiable.fun_sum fun m _ => Differentiable.fun_sum fun s _ => Differentiable.fun_sum fun t _ => Differentiable.mul_const ?_ _
  cases ho with
  | fixedMag up dn hu hd =>
    refine Differentiable.mul (differentiable_det fun i j => ?_) (differentiable_det fun i j => ?_)
    · exact differentiable_get (a := fun p k => Slater.getFullU (up p m) (dn p m) k (Fin.castAdd nd j))
        (fun k => differentiable_getFullU (hu m) (hd m) _ _) (pos symmetries nu nd x t (Fin.castAdd nd i))
    · exact differentiable_get (a := fun p k => Slater.getFullU (up p m) (dn p m) k (Fin.natAdd nu j))
        (fun k => differentiable_getFullU (hu m) (hd m) _ _) (pos symmetries nu nd x t (Fin.natAdd nu i))
  | projected up dn angle hu hd =>
    refine differentiable_det fun i j => ?_
    exact differentiable_get (a := fun p k => Slater.applyRotation (Slater.getFullU (up p m) (dn p m)) (angle s) k j)
      (fun k => differentiable_applyRotation (fun i j => differentiable_getFullU (hu m) (hd m) i j) _ _ _) (pos symmetries nu nd x t i)
  | generalised U hU =>
    refine differentiable_det fun i j => ?_
    exact differentiable_get (a := fun p k => U p m k j) (fun k => hU m _ _) (pos symmetries nu nd x t i)

/-- the orbitals as the parameters, with and without `spin_symmetry_by_structure` -/
example {nu nd : ℕ} : OrbitalsOf Unit fun p : (Fin M → Fin L → Fin nu → ℂ) × (Fin M → Fin L → Fin nd → ℂ) =>
    Slater.Orbs.fixedMag p.1 p.2 :=
  .fixedMag (P := (Fin M → Fin L → Fin nu → ℂ) × (Fin M → Fin L → Fin nd → ℂ)) (fun p => p.1) (fun p => p.2) (fun m i j => by fun_prop)
    (fun m i j => by fun_prop)

example {n : ℕ} : OrbitalsOf Unit fun p : Fin M → Fin L → Fin n → ℂ => Slater.Orbs.fixedMag p p :=
  .fixedMag (fun p => p) (fun p => p) (fun m i j => by fun_prop) (fun m i j => by fun_prop)

/-! ## Pfaffians -/

theorem differentiable_pfaffian {n : ℕ} {A : P → Matrix (Fin (2 * n)) (Fin (2 * n)) ℂ} (h : ∀ i j, Differentiable ℂ fun p => A p i j) :
    Differentiable ℂ fun p => pfaffian (A p) := by
  unfold pfaffian
  fun_prop

theorem differentiable_rotated (angle : ℝ) (a b : Fin L ⊕ Fin L) :
    Differentiable ℂ fun f : Fin L → Fin L → ℂ => Pfaffian.rotated (Matrix.of f) angle a b := by
  have h : ∀ (i j : Fin L) (c d : ℂ), Differentiable ℂ fun f : Fin L → Fin L → ℂ => f i j * c * d := fun i j c d => by fun_prop
  have h' : ∀ (i j : Fin L) (c d : ℂ), Differentiable ℂ fun f : Fin L → Fin L → ℂ => -f i j * c * d := fun i j c d => by fun_prop
  rcases a with a | a <;> rcases b with b | b
  · exact h' a b _ _
  · exact h a b _ _
  · exact h' a b _ _
  · exact h a b _ _

open Reference in
/-- **C191**, the zero-magnetisation Pfaffian of H2O.py with or without spin projection: for every configuration with `n` up and `n` down
electrons there is an entire function of the pairing matrix which the amplitude is wherever the model gives a number, and which it does give
where none of the rotated pair states vanishes. -/
theorem C191_pfaffian [NeZero L] {n : ℕ} (S2 : List (ℝ × ℝ)) (hc : ∀ ac ∈ S2, 0 ≤ ac.2) (x : Cfg L)
    (hx : numElec false x = n ∧ numElec true x = n) :
    ∃ A : (Fin L → Fin L → ℂ) → ℂ, Differentiable ℂ A ∧ (∀ f a, pfaffianPart n (Matrix.of f) S2 x = some a → a = A f) ∧
      ∀ f, (∀ ac ∈ S2, pairState (rotatedPairs (Matrix.of f) ac.1) n (occOf x) ≠ 0) → pfaffianPart n (Matrix.of f) S2 x = some (A f) := by
  obtain ⟨up, dn, h⟩ := SlaterAmplitudes.exists_enumerates hx
  obtain ⟨h1, h2⟩ := positions_toMode h
  have hp : ∀ f θ, pfaffian (Pfaffian.skewOcc (Pfaffian.rotated (Matrix.of f) θ) (positions n x)) =
      pairState (rotatedPairs (Matrix.of f) θ) n (occOf x) := fun f θ => by
    rw [rotated_pairing, pf_pairState _ _ _ h1 h2]
  refine ⟨fun f => (S2.map fun ac => (ac.2 : ℂ) * pairState (rotatedPairs (Matrix.of f) ac.1) n (occOf x)).sum, ?_, ?_, ?_⟩
  · simp only [← hp]
    clear hc
    induction S2 with
    | nil => simp
    | cons ac S2 ih =>
      simp only [List.map_cons, List.sum_cons]
      refine Differentiable.add (Differentiable.const_mul (differentiable_pfaffian fun i j => ?_) _) ih
      unfold Pfaffian.skewOcc
      exact (differentiable_rotated ac.1 _ _).sub (differentiable_rotated ac.1 _ _)
  · intro f a ha
    exact SpinProjection.C120_partial_numbers (Matrix.of f) S2 x hx ha
  · intro f h0
    exact C120_partial_zero_magnetization (Matrix.of f) S2 hc x hx h0

/-! ## The models of the scripts -/

/-- **C191**, a determinant times a qGPS (H2O.py:165-188 with `M > 0`, H4x4x4.py:121-131): the parameters of both factors together. -/
theorem C191_slater_qgps {nu nd Mq : ℕ} [Fintype κ] [Fintype ι] [Fintype τ] (orbs : P → Slater.Orbs L nu nd M κ) (ho : OrbitalsOf κ orbs)
    (symmetries : ι → Fin L → Fin L) (chars : κ → ℂ) (ct : Bool) (out : (Fin M → κ → ι → ℂ) → ℂ) (syms : QGPS.Syms L 4 τ) (x : Cfg L) :
    Differentiable ℂ fun p : P × (Fin 4 → Fin Mq → Fin L → ℂ) =>
      SymmetricDet.slaterAmp ⟨orbs p.1, symmetries, chars, ct, out⟩ x *
        Complex.exp ((QGPS.model ⟨p.2, syms, QGPS.sumOut⟩).full x) :=
  ((C191_slater orbs ho symmetries chars ct out x).comp differentiable_fst).mul ((C191_qgps syms x).2.comp differentiable_snd)

open Reference in
/-- **C191**, `PfaffianqGPS` of H2O.py (lines 122-162) with a qGPS. -/
theorem C191_pfaffian_qgps [NeZero L] [Fintype τ] {n Mq : ℕ} (S2 : List (ℝ × ℝ)) (hc : ∀ ac ∈ S2, 0 ≤ ac.2) (syms : QGPS.Syms L 4 τ)
    (x : Cfg L) (hx : numElec false x = n ∧ numElec true x = n) :
    ∃ A : (Fin L → Fin L → ℂ) × (Fin 4 → Fin Mq → Fin L → ℂ) → ℂ, Differentiable ℂ A ∧
      (∀ p a, full n ⟨Matrix.of p.1, S2, some ⟨p.2, syms, QGPS.sumOut⟩⟩ x = some a → a = A p) ∧
      ∀ p, (∀ ac ∈ S2, pairState (rotatedPairs (Matrix.of p.1) ac.1) n (occOf x) ≠ 0) →
        full n ⟨Matrix.of p.1, S2, some ⟨p.2, syms, QGPS.sumOut⟩⟩ x = some (A p) := by
  obtain ⟨A, h1, h2, h3⟩ := C191_pfaffian S2 hc x hx
  refine ⟨fun p => A p.1 * Complex.exp ((QGPS.model ⟨p.2, syms, QGPS.sumOut⟩).full x),
    (h1.comp differentiable_fst).mul ((C191_qgps syms x).2.comp differentiable_snd), ?_, ?_⟩
  · intro p a ha
    simp only [full, times, Option.map_some] at ha
    obtain ⟨b, hb, rfl⟩ := Option.map_eq_some_iff.mp ha
    rw [h2 p.1 b hb]
  · intro p h0
    simp only [full, times, Option.map_some, h3 p.1 h0]

/-! ## What this means for the updates -/

/-- The parameters with `z` added to one of them. -/
def shifted {D : ℕ} (epsilon : Fin D → Fin M → Fin L → ℂ) (e : Fin D) (m : Fin M) (i : Fin L) (z : ℂ) : Fin D → Fin M → Fin L → ℂ :=
  fun e' m' i' => if e' = e ∧ m' = m ∧ i' = i then epsilon e' m' i' + z else epsilon e' m' i'

theorem differentiable_shifted {D : ℕ} (epsilon : Fin D → Fin M → Fin L → ℂ) (e : Fin D) (m : Fin M) (i : Fin L) :
    Differentiable ℂ (shifted epsilon e m i) := by
  refine differentiable_pi.mpr fun e' => differentiable_pi.mpr fun m' => differentiable_pi.mpr fun i' => ?_
  unfold shifted
  split_ifs <;> fun_prop

open EnergyGradient UniqueSamples in
/-- **C191**: for a qGPS of complex parameters, with any symmetry operations, and samples of Born frequencies, changing one parameter in any
direction `w` of the complex plane changes the energy at the rate of twice the real inner product of `w` with the reported gradient, in which
the log-derivatives are those of the log-amplitude as a holomorphic function. -/
theorem C191_qgps_gradient {D ranks : ℕ} [NeZero D] [Fintype ι] (syms : QGPS.Syms L D ι) (epsilon : Fin D → Fin M → Fin L → ℂ)
    (sw : Fin ranks → List ((Fin L → Fin D) × ℝ)) (H : (Fin L → Fin D) → (Fin L → Fin D) → ℂ) (hH : Spec.Hermitian H)
    (logPsi : (Fin D → Fin M → Fin L → ℂ) → (Fin L → Fin D) → ℂ)
    (hpsi : logPsi = fun e x => (QGPS.model ⟨e, syms, QGPS.sumOut⟩).full x) (hb : Born sw fun x => Complex.exp (logPsi epsilon x))
    (e : Fin D) (m : Fin M) (i : Fin L) (w : ℂ) :
    HasDerivAt (fun s : ℝ => rayleigh H fun x => Complex.exp (logPsi (shifted epsilon e m i (s * w)) x))
      ((2 * ((starRingEnd ℂ) w * gradient sw (localValue H fun x => Complex.exp (logPsi epsilon x))
        (fun x => deriv (fun z => logPsi (shifted epsilon e m i z) x) 0)).re : ℝ) : ℂ) 0 := by
  have hl : ∀ x, Differentiable ℂ fun z => logPsi (shifted epsilon e m i z) x := by
    intro x
    rw [hpsi]
    exact (C191_qgps syms x).1.comp (differentiable_shifted epsilon e m i)
  have h0 : shifted epsilon e m i 0 = epsilon := by
    funext e' m' i'
    simp [shifted]
  have hd : ∀ x, HasDerivAt (fun z => Complex.exp (logPsi (shifted epsilon e m i z) x))
      (Complex.exp (logPsi (shifted epsilon e m i 0) x) * deriv (fun z => logPsi (shifted epsilon e m i z) x) 0) 0 :=
    fun x => (hl x 0).hasDerivAt.cexp
  have hn : bornNorm (fun x => Complex.exp (logPsi (shifted epsilon e m i 0) x)) ≠ 0 := by
    unfold bornNorm
    refine (Finset.sum_pos (fun x _ => pow_pos (norm_pos_iff.mpr (Complex.exp_ne_zero _)) 2) ⟨fun _ => 0, Finset.mem_univ _⟩).ne'
  have h := C133_complex_partial sw H hH (fun z x => Complex.exp (logPsi (shifted epsilon e m i z) x))
    (fun x => Complex.exp (logPsi (shifted epsilon e m i 0) x) * deriv (fun z => logPsi (shifted epsilon e m i z) x) 0) 0 w hd hn
    (by rw [h0]; exact hb) (fun x hx => absurd hx (Complex.exp_ne_zero _))
  simp only [h0, zero_add] at h
  simpa only [mul_div_cancel_left₀ _ (Complex.exp_ne_zero _)] using h

/-- Such samples exist for every state without zeros, e.g. each configuration once with its probability. -/
example {D : ℕ} [NeZero D] (psi : (Fin L → Fin D) → ℂ) :
    EnergyGradient.Born (ranks := 1) (fun _ => (Finset.univ : Finset (Fin L → Fin D)).toList.map fun x => (x, ‖psi x‖ ^ 2 / bornNorm psi)) psi := by
  intro c
  unfold EnergyGradient.weight
  have h : (Finset.univ : Finset (Fin L → Fin D)).toList.filter (fun x => decide (x = c)) = [c] := by
    have h1 := List.filter_beq (l := (Finset.univ : Finset (Fin L → Fin D)).toList) (a := c)
    rw [List.count_eq_one_of_mem (Finset.nodup_toList _) (by simp)] at h1
    rw [← List.replicate_one, ← h1]
    rfl
  simp [List.filter_map, Function.comp_def, h]

/-! ## Autoregressive models -/

/-- A family of normalised states that depends holomorphically on its parameters is constant. -/
theorem normalised_constant {C : Type} [Fintype C] (psi : P → C → ℂ) (hd : ∀ c, Differentiable ℂ fun p => psi p c)
    (hn : ∀ p, ∑ c, ‖psi p c‖ ^ 2 = 1) (p q : P) : psi p = psi q := by
  let f : P → EuclideanSpace ℂ C := fun p => WithLp.toLp 2 (psi p)
  have hf : Differentiable ℂ f := by
    rw [differentiable_euclidean]
    exact hd
  have hnorm : ∀ p, ‖f p‖ = 1 := by
    intro p
    rw [EuclideanSpace.norm_eq]
    change Real.sqrt (∑ c, ‖psi p c‖ ^ 2) = 1
    rw [hn, Real.sqrt_one]
  have h := Complex.eqOn_of_isPreconnected_of_isMaxOn_norm (f := f) (U := Set.univ) (c := q) isPreconnected_univ isOpen_univ
    hf.differentiableOn (Set.mem_univ q) (fun z _ => by simp [hnorm])
  have h2 : f p = f q := h (Set.mem_univ p)
  exact (WithLp.toLp_injective 2) h2

theorem bornWeight_two (l : Option ℂ) : bornWeight 2 l = ‖Spec.amplitude l‖ ^ 2 := by
  cases l with
  | none => simp [bornWeight, Spec.amplitude]
  | some z => simp only [bornWeight, Spec.amplitude]; exact Real.rpow_two _

open Props AR in
/-- **C191**, autoregressive models (all provided classes, with any symmetry operations): a family of models whose amplitudes depend
holomorphically on parameters does not depend on them at all. -/
theorem C191_autoreg {D : ℕ} [NeZero L] [NeZero D] [Fintype ι] [Nonempty ι] (m : P → Machine L D M) (hm : ∀ p, ProvidedAR (m p))
    (hn : ∀ p, (m p).fields.normalize = true) (hp : ∀ p, (m p).fields.machine_pow = 2) (hc : ∀ p, Continuable (m p))
    (syms : ι → (Fin L → Fin D) → Fin L → Fin D) (hs : ∀ t, Function.Bijective (syms t))
    (hd : ∀ x, Differentiable ℂ fun p => Spec.amplitude ((m p).logPsi syms x)) (p q : P) (x : Fin L → Fin D) :
    Spec.amplitude ((m p).logPsi syms x) = Spec.amplitude ((m q).logPsi syms x) := by
  refine congrFun (normalised_constant (fun p x => Spec.amplitude ((m p).logPsi syms x)) hd (fun p => ?_) p q) x
  have := C28_normalised_of_continuable (m p) (hm p) (hn p) (by rw [hp]; norm_num) (hc p) syms hs
  rw [hp] at this
  simpa only [bornWeight_two] using this

/-- Parameters that are zero, but for those of the first support point on the first site. -/
noncomputable def onFirst {D : ℕ} (L M : ℕ) (z : ℂ) : Fin D → Fin M → Fin L → ℂ :=
  fun _ m i => if m.val = 0 ∧ i.val = 0 then z else 0

open Props AR Expressive in
theorem onFirst_val {D : ℕ} [NeZero M] (f : Fields D M) (ho : f.out_transformation = AR.sumOut) (z : ℂ) (i : Fin L) (x : Fin L → Fin D)
    (d : Fin D) : qgpsVal f (onFirst L M z) i x d = if i.val = 0 then z else 0 := by
  unfold qgpsVal
  rw [ho]
  by_cases hi : i.val = 0
  · have hc : ∀ m, ctx (onFirst L M z) x 0 m = 1 := fun m => by simp [ctx]
    simp only [AR.sumOut, hi, hc, mul_one, if_true]
    simp only [onFirst, hi, and_true]
    rw [Finset.sum_eq_single (0 : Fin M)]
    · simp
    · intro m _ hm
      rw [if_neg]
      exact fun h => hm (Fin.ext h)
    · simp
  · simp [AR.sumOut, onFirst, hi]

open Props AR Expressive in
/-- A purely imaginary `z` turns the phases of all amplitudes. -/
theorem onFirst_logPsiOne {D : ℕ} [NeZero L] [NeZero M] (f : Fields D M) (ho : f.out_transformation = AR.sumOut) (hn : f.normalize = true)
    (z : ℂ) (hz : z.re = 0) (x : Fin L → Fin D) :
    Spec.amplitude ((arqGPS f (onFirst L M z)).logPsiOne x) = Complex.exp z * Spec.amplitude ((arqGPS f (onFirst L M 0)).logPsiOne x) := by
  have hcond : ∀ z : ℂ, z.re = 0 → ∀ i : Fin L, maybeNormalize f ((arqGPS f (onFirst L M z)).conditionalsLog x i) = fun d =>
      (maybeNormalize f ((arqGPS f (onFirst L M 0)).conditionalsLog x i) d).map fun a => a + if i.val = 0 then z else 0 := by
    intro z hz i
    rw [(arqGPS_good f (onFirst L M z)).log, (arqGPS_good f (onFirst L M 0)).log]
    simp only [maybeNormalize, hn, if_true]
    change normalizeLog f.machine_pow (mask f (spinsAt f x i) i (qgpsVal f (onFirst L M z) i x)) = fun d =>
      (normalizeLog f.machine_pow (mask f (spinsAt f x i) i (qgpsVal f (onFirst L M 0) i x)) d).map _
    have hw : ∀ e, weight f.machine_pow (mask f (spinsAt f x i) i (qgpsVal f (onFirst L M z) i x) e) =
        weight f.machine_pow (mask f (spinsAt f x i) i (qgpsVal f (onFirst L M 0) i x) e) := by
      intro e
      unfold mask
      rw [onFirst_val f ho, onFirst_val f ho]
      split_ifs <;> simp [weight, hz]
    funext d
    simp only [normalizeLog, hw]
    unfold mask
    rw [onFirst_val f ho, onFirst_val f ho]
    by_cases h : f.renormalize (spinsAt f x i) i d = true
    · simp only [h, if_true, Option.map_some]
      congr 1
      by_cases hi : i.val = 0
      · simp [hi]; ring
      · simp [hi]
    · simp [h]
  unfold Machine.logPsiOne
  change Spec.amplitude (pickSum (fun i => maybeNormalize f ((arqGPS f (onFirst L M z)).conditionalsLog x i)) x) =
    Complex.exp z * Spec.amplitude (pickSum (fun i => maybeNormalize f ((arqGPS f (onFirst L M 0)).conditionalsLog x i)) x)
  simp only [hcond z hz]
  unfold pickSum
  simp only [Option.isSome_map]
  split_ifs with h
  · have : ∀ i, ((maybeNormalize f ((arqGPS f (onFirst L M 0)).conditionalsLog x i) (x i)).map fun a => a + if i.val = 0 then z else 0).getD 0 =
        (maybeNormalize f ((arqGPS f (onFirst L M 0)).conditionalsLog x i) (x i)).getD 0 + if i.val = 0 then z else 0 := by
      intro i
      obtain ⟨a, ha⟩ := Option.isSome_iff_exists.mp (h i)
      rw [ha]
      rfl
    simp only [this, Finset.sum_add_distrib, Spec.amplitude]
    have h0 : ∑ i : Fin L, (if i.val = 0 then z else 0) = z := by
      rw [Finset.sum_eq_single (0 : Fin L)]
      · simp
      · intro m _ hm
        rw [if_neg]
        exact fun h => hm (Fin.ext h)
      · simp
    rw [h0, Complex.exp_add, mul_comm]
  · simp [Spec.amplitude]

open Props AR Expressive in
/-- **C191**, `ARqGPS`: with normalised conditionals, `machine_pow = 2`, a constraint without dead ends and no symmetry operations, some
amplitude is not a holomorphic function of the parameters. -/
theorem C191_arqgps_not_holomorphic {D : ℕ} [NeZero L] [NeZero D] [NeZero M] (f : Fields D M) (ho : f.out_transformation = AR.sumOut)
    (hn : f.normalize = true) (hp : f.machine_pow = 2) (hd : NoDeadEnds L f) :
    ∃ x, ¬ Differentiable ℂ fun epsilon : Fin D → Fin M → Fin L → ℂ =>
      Spec.amplitude ((arqGPS f epsilon).logPsi (fun (_ : Unit) y => y) x) := by
  have hok : ∀ e : Fin D → Fin M → Fin L → ℂ, PowOk (arqGPS f e) := by
    intro e
    change f.machine_pow ≠ 0
    rw [hp]; norm_num
  have hcont : ∀ e : Fin D → Fin M → Fin L → ℂ, Continuable (arqGPS f e) := by
    intro e x i h
    obtain ⟨d, h2⟩ := hd x i fun j hj => (Good.conditionals_pos (arqGPS_good f e) (hok e) x j (x j)).mp (h j hj)
    exact ⟨d, (Good.conditionals_pos (arqGPS_good f e) (hok e) x i d).mpr h2⟩
  by_contra hall
  push Not at hall
  have hconst := C191_autoreg (fun e : Fin D → Fin M → Fin L → ℂ => arqGPS f e) (fun e => .qgps f e) (fun _ => hn) (fun _ => hp) hcont
    (fun (_ : Unit) y => y) (fun _ => Function.bijective_id) hall
  have hone : ∀ e x, Spec.amplitude ((arqGPS f e).logPsi (fun (_ : Unit) y => y) x) = Spec.amplitude ((arqGPS (L := L) f e).logPsiOne x) :=
    fun e x => amplitude_symmetrise _ (hok e) _ _ fun _ => rfl
  have hzero : ∀ x, Spec.amplitude ((arqGPS f (onFirst L M 0)).logPsiOne x) = 0 := by
    intro x
    have h1 := hconst (onFirst L M (Real.pi * Complex.I)) (onFirst L M 0) x
    rw [hone, hone, onFirst_logPsiOne f ho hn _ (by simp), Complex.exp_pi_mul_I] at h1
    linear_combination (-1 / 2 : ℂ) * h1
  have h1 := C28_normalised_of_continuable (arqGPS f (onFirst L M 0)) (.qgps f _) hn (hok _) (hcont _) (fun (_ : Unit) y => y)
    (fun _ => Function.bijective_id)
  change ∑ x, bornWeight f.machine_pow _ = 1 at h1
  rw [hp] at h1
  simp only [bornWeight_two, hone, hzero] at h1
  simp at h1

open Props AR Expressive in
/-- The constraints that come with the models have no dead ends: spins with `total_sz = 0`, at least four free spins, electrons. -/
theorem C191_arqgps_provided [NeZero L] [NeZero M] :
    (∀ f : Fields 2 M, f.out_transformation = AR.sumOut → f.normalize = true → f.machine_pow = 2 → SpinHalf L true f → Even L →
      ∃ x, ¬ Differentiable ℂ fun e : Fin 2 → Fin M → Fin L → ℂ => Spec.amplitude ((arqGPS f e).logPsi (fun (_ : Unit) y => y) x)) ∧
    (∀ f : Fields 2 M, f.out_transformation = AR.sumOut → f.normalize = true → f.machine_pow = 2 → SpinHalf L false f → 4 ≤ L →
      ∃ x, ¬ Differentiable ℂ fun e : Fin 2 → Fin M → Fin L → ℂ => Spec.amplitude ((arqGPS f e).logPsi (fun (_ : Unit) y => y) x)) ∧
    (∀ (n_elec : ℕ × ℕ) (f : Fields 4 M), f.out_transformation = AR.sumOut → f.normalize = true → f.machine_pow = 2 →
      Fermionic L n_elec f → n_elec.1 ≤ L → n_elec.2 ≤ L →
      ∃ x, ¬ Differentiable ℂ fun e : Fin 4 → Fin M → Fin L → ℂ => Spec.amplitude ((arqGPS f e).logPsi (fun (_ : Unit) y => y) x)) := by
  refine ⟨fun f ho hn hp hf hL => ?_, fun f ho hn hp hf hL => ?_, fun n_elec f ho hn hp hf hu hd => ?_⟩
  · have hok : PowOk (arqGPS (L := L) f fun _ _ _ => 0) := by change f.machine_pow ≠ 0; rw [hp]; norm_num
    exact C191_arqgps_not_holomorphic f ho hn hp (noDeadEnds (arqGPS_good f fun _ _ _ => 0) hok (spin_continuable (.qgps _ _) hok hf hL))
  · refine C191_arqgps_not_holomorphic f ho hn hp fun x i _ => ⟨0, ?_⟩
    rw [free_allowed hf]
    split_ifs <;> omega
  · have hok : PowOk (arqGPS (L := L) f fun _ _ _ => 0) := by change f.machine_pow ≠ 0; rw [hp]; norm_num
    exact C191_arqgps_not_holomorphic f ho hn hp (noDeadEnds (arqGPS_good f fun _ _ _ => 0) hok (fermi_continuable (.qgps _ _) hok hf hu hd))

open Props AR in
/-- The model of two spins with `total_sz = 0` and two support points is covered. -/
example : ∃ x, ¬ Differentiable ℂ fun e : Fin 2 → Fin 2 → Fin 2 → ℂ =>
    Spec.amplitude ((arqGPS ⟨2, true, true, defaultCountSpins, defaultRenormalize 2, AR.sumOut⟩ e).logPsi (fun (_ : Unit) y => y) x) :=
  C191_arqgps_provided.1 _ rfl rfl rfl ⟨rfl, rfl, rfl⟩ (by decide)

end GPSKet.Holomorphic
