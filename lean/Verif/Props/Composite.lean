import Verif.Model.Composite
import Verif.Props.Slater
import Verif.Props.QGPS
import Verif.Props.Jastrow
import Verif.Props.Backflow
import Mathlib.Analysis.SpecialFunctions.Trigonometric.DerivHyp

/-!
# C58, C60, C67, C70: composite models
-/

namespace GPSKet.Composite
open Spec

variable {L nu nd M T : ℕ} {κ ι τ : Type}

/-! ## C70: the product of a Slater determinant and a qGPS -/

/-- Coherence of two sub-models carries over to their sum. -/
theorem addModels_coherent {S A C D : Type} [DecidableEq S] (a : CachedModel S A C) (b : CachedModel S A D) (P Q : (S → A) → List (S × A) → Prop)
    (ha : a.CoherentOn P) (hb : b.CoherentOn Q) : (addModels a b).CoherentOn fun x upd => P x upd ∧ Q x upd := by
  intro x upd ⟨hP, hQ⟩
  obtain ⟨a1, a2⟩ := ha x upd hP
  obtain ⟨b1, b2⟩ := hb x upd hQ
  constructor
  · change a.fast (a.cacheOf x) upd + b.fast (b.cacheOf x) upd = a.full _ + b.full _
    rw [a1, b1]
  · change (a.fastCache (a.cacheOf x) upd, b.fastCache (b.cacheOf x) upd) = (a.cacheOf _, b.cacheOf _)
    rw [a2, b2]

/-- The updates for which the parts of a `SlaterqGPS` can be updated: admissible for the determinants (which must not vanish before or
after) and for the qGPS (whose factors must not vanish). -/
def Admissible (slater : Slater.Module L nu nd M κ ι) {Mq : ℕ} (qgps : QGPS.Module L 4 Mq τ) (x : Cfg L) (upd : List (Fin L × Fin 4)) : Prop :=
  Padded x upd ∧ (numElec false x = nu ∧ numElec true x = nd) ∧
    (numElec false (applyUpdate x upd) = nu ∧ numElec true (applyUpdate x upd) = nd) ∧
    (∀ m s t, IsUnit (Slater.uSubmat slater x m s t)) ∧ (∀ m s t, IsUnit (Slater.uSubmat slater (applyUpdate x upd) m s t)) ∧
    ∀ m t, QGPS.siteProd qgps x m t ≠ 0

/-- **C70**: fast evaluation of a `SlaterqGPS` equals evaluation from scratch, and leaves the cache an evaluation from scratch
would leave. -/
theorem C70_fast_update (slater : Slater.Module L nu nd M κ ι) {Mq : ℕ} (qgps : QGPS.Module L 4 Mq τ) (hs : SymsConsistent qgps.syms) :
    (slaterqGPS slater qgps).CoherentOn (Admissible slater qgps) := by
  intro x upd h
  obtain ⟨h1, h2, h3, h4, h5, h6⟩ := h
  exact addModels_coherent _ _ _ _ (Props.C41_fast_update slater) (C34_fast_update qgps hs) x upd ⟨⟨h1, h2, h3, h4, h5⟩, ⟨h1, h6⟩⟩

/-- **C70** over histories: after any chain of updates the cache is the one of an evaluation from scratch on the current
configuration. -/
theorem C70_history (slater : Slater.Module L nu nd M κ ι) {Mq : ℕ} (qgps : QGPS.Module L 4 Mq τ) (hs : SymsConsistent qgps.syms)
    (x : Cfg L) (upds : List (List (Fin L × Fin 4))) (h : Backflow.HistoryOk (Admissible slater qgps) x upds) :
    upds.foldl (slaterqGPS slater qgps).fastCache ((slaterqGPS slater qgps).cacheOf x) =
      (slaterqGPS slater qgps).cacheOf (upds.foldl applyUpdate x) := by
  induction upds generalizing x with
  | nil => rfl
  | cons upd rest ih =>
    rw [List.foldl_cons, List.foldl_cons, (C70_fast_update slater qgps hs x upd h.1).2]
    exact ih _ h.2

/-- **C58**: the amplitude of a `SlaterqGPS` is the product of the amplitudes of its parts. -/
theorem C58_slater_qgps (slater : Slater.Module L nu nd M κ ι) {Mq : ℕ} (qgps : QGPS.Module L 4 Mq τ) (x : Cfg L) :
    Complex.exp ((slaterqGPS slater qgps).full x) =
      Complex.exp ((Slater.model slater).full x) * Complex.exp ((QGPS.model qgps).full x) := Complex.exp_add _ _

/-- **C58**: the amplitude of a `SlaterJastrow` is the product of the determinant part and the Jastrow factor. -/
theorem C58_slater_jastrow [Fintype τ] (slater : Slater.Module L nu nd M κ ι) (jastrow : Jastrow.Module L τ) (x : Cfg L) :
    Complex.exp (slaterJastrow slater jastrow x) =
      Complex.exp ((Slater.model slater).full x) * Complex.exp (∑ t, ∑ i, ∑ j, jastrow.kernel i j *
        (Jastrow.hole false (jastrow.apply_symmetries x t) i * Jastrow.hole true (jastrow.apply_symmetries x t) j +
          Jastrow.hole true (jastrow.apply_symmetries x t) i * Jastrow.hole false (jastrow.apply_symmetries x t) j)) := by
  unfold slaterJastrow
  rw [Complex.exp_add, Jastrow.C59_closed_form]

/-! ## C58: models advertising fast updates accept the calls -/

/-- The models that advertise fast updates and accept the arguments. -/
def acceptsUpdates : FastModelName → Bool
  | .qGPS | .slater | .slaterqGPS | .backflow | .cpdBackflow => true
  | .slaterJastrow | .asymmqGPS | .asymmqGPSProd | .backflowJastrow => false

/-- **C58**, the models for which the calls of the samplers and operators go through, with every argument where it belongs. -/
theorem C58_calls_partial {V : Type} (f n : V) (m : FastModelName) (hm : acceptsUpdates m = true) (σ t occ flag sites : V) :
    (∃ b, firstCall f n m σ t = some b ∧ b "cache_intermediates" = some t ∧ b "update_sites" = some n) ∧
    (∃ b, updateCall f n m occ flag sites = some b ∧ b "cache_intermediates" = some flag ∧ b "update_sites" = some sites) := by
  cases m <;> first | exact absurd hm (by decide) | exact ⟨⟨_, rfl, rfl, rfl⟩, ⟨_, rfl, rfl, rfl⟩⟩

/-- **C58** is false for `SlaterJastrow`, `ASymmqGPS`, `ASymmqGPSProd` and `BackflowJastrow`: they advertise fast updates, but every
call with the arguments of a fast update is a `TypeError`. -/
theorem C58_calls_fails {V : Type} (f n : V) (m : FastModelName) (hm : acceptsUpdates m = false) (σ t occ flag sites : V) :
    firstCall f n m σ t = none ∧ updateCall f n m occ flag sites = none := by
  cases m <;> first | exact absurd hm (by decide) | exact ⟨rfl, rfl⟩

/-! ## C60: antisymmetry -/

/-- Specification: the Slater determinants in first quantisation, the product of an up and a down determinant of the orbitals at the
images of the given positions. -/
def firstQuantisedDet (U_up : Fin M → Fin L → Fin nu → ℂ) (U_dn : Fin M → Fin L → Fin nd → ℂ) (sym : Fin T → Fin L → Fin L)
    (up : Fin nu → Fin L) (dn : Fin nd → Fin L) (m : Fin M) (t : Fin T) : ℂ :=
  (Matrix.of fun n c => U_up m (sym t (up n)) c).det * (Matrix.of fun n c => U_dn m (sym t (dn n)) c).det

/-- The amplitude of `ASymmqGPS` as a function of electron positions in any order. -/
noncomputable def asymmFirst (sm : Symmetrization) (coeffs : Fin M → ℂ) (U_up : Fin M → Fin L → Fin nu → ℂ) (U_dn : Fin M → Fin L → Fin nd → ℂ)
    (sym : Fin T → Fin L → Fin L) (up : Fin nu → Fin L) (dn : Fin nd → Fin L) : Option ℂ :=
  asymmAmp sm coeffs (firstQuantisedDet U_up U_dn sym up dn)

/-- The amplitude of `ASymmqGPSProd` as a function of electron positions in any order. -/
noncomputable def asymmProdFirst (U_up : Fin M → Fin L → Fin nu → ℂ) (U_dn : Fin M → Fin L → Fin nd → ℂ)
    (sym : Fin T → Fin L → Fin L) (up : Fin nu → Fin L) (dn : Fin nd → Fin L) : ℂ :=
  asymmProdAmp (firstQuantisedDet U_up U_dn sym up dn)

/-- The determinants of the code are those at the ordered positions. -/
theorem detValues_first (U_up : Fin M → Fin L → Fin nu → ℂ) (U_dn : Fin M → Fin L → Fin nd → ℂ) (sym : Fin T → Fin L → Fin L)
    (out : (Fin M → Fin T → ℂ) → ℂ) (x : Cfg L) (up : Fin nu → Fin L) (dn : Fin nd → Fin L) (h : Backflow.Enumerates x up dn) (m : Fin M) (t : Fin T) :
    Slater.detValues (asymmSlater U_up U_dn sym out) x m () t = firstQuantisedDet U_up U_dn sym up dn m t := by
  rw [Props.C41_full _ x ⟨Backflow.card_of_enum false x up h.up_mono h.up_iff, Backflow.card_of_enum true x dn h.dn_mono h.dn_iff⟩ m () t up dn
    h.up_mono h.dn_mono h.up_iff h.dn_iff]
  unfold firstQuantisedDet
  rw [← Matrix.det_fromBlocks_zero₂₁ (Matrix.of fun n c => U_up m (sym t (up n)) c) 0 (Matrix.of fun n c => U_dn m (sym t (dn n)) c),
    ← Matrix.det_submatrix_equiv_self finSumFinEquiv]
  congr 1
  ext i j
  rcases i with i | i <;> rcases j with j | j <;>
    simp only [Matrix.submatrix_apply, Matrix.of_apply, finSumFinEquiv_apply_left, finSumFinEquiv_apply_right, Fin.addCases_left,
      Fin.addCases_right, asymmSlater, Slater.fullU, Slater.getFullU, Matrix.fromBlocks_apply₁₁, Matrix.fromBlocks_apply₁₂,
      Matrix.fromBlocks_apply₂₁, Matrix.fromBlocks_apply₂₂, Matrix.zero_apply]

theorem firstQuantisedDet_perm (U_up : Fin M → Fin L → Fin nu → ℂ) (U_dn : Fin M → Fin L → Fin nd → ℂ) (sym : Fin T → Fin L → Fin L)
    (up : Fin nu → Fin L) (dn : Fin nd → Fin L) (σ : Equiv.Perm (Fin nu)) (ρ : Equiv.Perm (Fin nd)) (m : Fin M) (t : Fin T) :
    firstQuantisedDet U_up U_dn sym (up ∘ σ) (dn ∘ ρ) m t =
      ((Equiv.Perm.sign σ * Equiv.Perm.sign ρ : ℤˣ) : ℤ) * firstQuantisedDet U_up U_dn sym up dn m t := by
  unfold firstQuantisedDet
  have e1 := Matrix.det_permute σ (Matrix.of fun n c => U_up m (sym t (up n)) c)
  have e2 := Matrix.det_permute ρ (Matrix.of fun n c => U_dn m (sym t (dn n)) c)
  have a1 : (Matrix.of fun n c => U_up m (sym t ((up ∘ σ) n)) c) = (Matrix.of fun n c => U_up m (sym t (up n)) c).submatrix σ id := rfl
  have a2 : (Matrix.of fun n c => U_dn m (sym t ((dn ∘ ρ) n)) c) = (Matrix.of fun n c => U_dn m (sym t (dn n)) c).submatrix ρ id := rfl
  rw [a1, a2, e1, e2]
  push_cast
  ring

theorem mulCoeffs_smul (c : Fin M → ℂ) (y : Fin M → Fin T → ℂ) (s : ℂ) :
    mulCoeffs c (fun m t => s * y m t) = (mulCoeffs c y).map fun p => ⟨p.1, fun m t => s * p.2 m t⟩ := by
  unfold mulCoeffs
  split
  · simp only [Option.map_some, Option.some.injEq, Sigma.mk.injEq, true_and, heq_eq_eq]
    funext m t; ring
  · split
    · simp only [Option.map_some, Option.some.injEq, Sigma.mk.injEq, true_and, heq_eq_eq]
      funext m t; ring
    · split
      · simp only [Option.map_some, Option.some.injEq, Sigma.mk.injEq, true_and, heq_eq_eq]
        funext m t; ring
      · rfl

private theorem sinh_unit (s : ℤˣ) (z : ℂ) : Complex.sinh (((s : ℤ) : ℂ) * z) = ((s : ℤ) : ℂ) * Complex.sinh z := by
  rcases Int.units_eq_one_or s with rfl | rfl <;> simp [Complex.sinh_neg]

/-- The amplitudes are odd functions of the determinants. -/
theorem asymmAmp_odd (sm : Symmetrization) (c : Fin M → ℂ) (y : Fin M → Fin T → ℂ) (s : ℤˣ) :
    asymmAmp sm c (fun m t => ((s : ℤ) : ℂ) * y m t) = (asymmAmp sm c y).map fun z => ((s : ℤ) : ℂ) * z := by
  unfold asymmAmp
  cases sm
  · simp only [mulCoeffs_smul, Option.map_map]
    congr 1
    funext p
    simp only [Function.comp_apply, ← Finset.mul_sum, sinh_unit]
  · simp only [mulCoeffs_smul, Option.map_map]
    congr 1
    funext p
    simp only [Function.comp_apply, ← Finset.mul_sum, sinh_unit]

theorem asymmProdAmp_odd (hM : M % 2 ≠ 0) (y : Fin M → Fin T → ℂ) (s : ℤˣ) :
    asymmProdAmp (fun m t => ((s : ℤ) : ℂ) * y m t) = ((s : ℤ) : ℂ) * asymmProdAmp y := by
  unfold asymmProdAmp
  have hs : ((s : ℤ) : ℂ) ^ M = ((s : ℤ) : ℂ) := by
    rcases Int.units_eq_one_or s with rfl | rfl
    · simp
    · have : Odd M := Nat.odd_iff.2 (by omega)
      simp [this.neg_one_pow]
  rw [Finset.mul_sum]
  refine Finset.sum_congr rfl fun t _ => ?_
  simp only [sinh_unit, Finset.prod_mul_distrib, Finset.prod_const, Finset.card_univ, Fintype.card_fin, hs]

/-- **C60**, `ASymmqGPS`: the amplitude of a configuration is the first-quantised amplitude at its ordered electron positions, and
that function changes by the sign of the permutations when electrons of the same spin are relabelled. -/
theorem C60_asymm (sm : Symmetrization) (coeffs : Fin M → ℂ) (U_up : Fin M → Fin L → Fin nu → ℂ) (U_dn : Fin M → Fin L → Fin nd → ℂ)
    (sym : Fin T → Fin L → Fin L) :
    (∀ (x : Cfg L) (up : Fin nu → Fin L) (dn : Fin nd → Fin L), Backflow.Enumerates x up dn →
      asymm sm coeffs U_up U_dn sym x = asymmFirst sm coeffs U_up U_dn sym up dn) ∧
    ∀ (up : Fin nu → Fin L) (dn : Fin nd → Fin L) (σ : Equiv.Perm (Fin nu)) (ρ : Equiv.Perm (Fin nd)),
      asymmFirst sm coeffs U_up U_dn sym (up ∘ σ) (dn ∘ ρ) =
        (asymmFirst sm coeffs U_up U_dn sym up dn).map fun z : ℂ => (((Equiv.Perm.sign σ * Equiv.Perm.sign ρ : ℤˣ) : ℤ) : ℂ) * z := by
  constructor
  · intro x up dn h
    unfold asymm asymmFirst
    congr 1
    funext m t
    exact detValues_first U_up U_dn sym _ x up dn h m t
  · intro up dn σ ρ
    unfold asymmFirst
    rw [← asymmAmp_odd]
    congr 1
    funext m t
    exact firstQuantisedDet_perm U_up U_dn sym up dn σ ρ m t

/-- **C60**, `ASymmqGPSProd`, for the odd numbers of determinants its assertion admits. -/
theorem C60_asymm_prod (hM : M % 2 ≠ 0) (U_up : Fin M → Fin L → Fin nu → ℂ) (U_dn : Fin M → Fin L → Fin nd → ℂ) (sym : Fin T → Fin L → Fin L) :
    (∀ (x : Cfg L) (up : Fin nu → Fin L) (dn : Fin nd → Fin L), Backflow.Enumerates x up dn →
      asymmProd U_up U_dn sym x = some (asymmProdFirst U_up U_dn sym up dn)) ∧
    ∀ (up : Fin nu → Fin L) (dn : Fin nd → Fin L) (σ : Equiv.Perm (Fin nu)) (ρ : Equiv.Perm (Fin nd)),
      asymmProdFirst U_up U_dn sym (up ∘ σ) (dn ∘ ρ) =
        ((Equiv.Perm.sign σ * Equiv.Perm.sign ρ : ℤˣ) : ℤ) * asymmProdFirst U_up U_dn sym up dn := by
  constructor
  · intro x up dn h
    unfold asymmProd asymmProdFirst
    rw [if_pos hM]
    congr 2
    funext m t
    exact detValues_first U_up U_dn sym _ x up dn h m t
  · intro up dn σ ρ
    unfold asymmProdFirst
    rw [← asymmProdAmp_odd hM]
    congr 1
    funext m t
    exact firstQuantisedDet_perm U_up U_dn sym up dn σ ρ m t

/-- Even numbers of determinants are refused; there the product would be symmetric. -/
theorem C60_asymm_prod_even (hM : M % 2 = 0) (U_up : Fin M → Fin L → Fin nu → ℂ) (U_dn : Fin M → Fin L → Fin nd → ℂ)
    (sym : Fin T → Fin L → Fin L) (x : Cfg L) : asymmProd U_up U_dn sym x = none := by
  unfold asymmProd
  rw [if_neg (by omega)]

/-- **C60**: two electrons of the same spin at the same position have amplitude zero. -/
theorem C60_pauli (sm : Symmetrization) (coeffs : Fin M → ℂ) (U_up : Fin M → Fin L → Fin nu → ℂ) (U_dn : Fin M → Fin L → Fin nd → ℂ)
    (sym : Fin T → Fin L → Fin L) (up : Fin nu → Fin L) (dn : Fin nd → Fin L) (h : ¬ (Function.Injective up ∧ Function.Injective dn)) (z : ℂ)
    (hz : asymmFirst sm coeffs U_up U_dn sym up dn = some z) : z = 0 := by
  have h0 : firstQuantisedDet U_up U_dn sym up dn = fun m t => (((-1 : ℤˣ) : ℤ) : ℂ) * firstQuantisedDet U_up U_dn sym up dn m t := by
    funext m t
    have : firstQuantisedDet U_up U_dn sym up dn m t = 0 := by
      unfold firstQuantisedDet
      rw [not_and_or] at h
      rcases h with h | h
      · obtain ⟨a, b, hab, hne⟩ := Function.not_injective_iff.1 h
        rw [Matrix.det_zero_of_row_eq hne (by funext c; simp [hab]), zero_mul]
      · obtain ⟨a, b, hab, hne⟩ := Function.not_injective_iff.1 h
        rw [Matrix.det_zero_of_row_eq (i := a) (j := b) (M := Matrix.of fun n c => U_dn m (sym t (dn n)) c) hne (by funext c; simp [hab]), mul_zero]
    rw [this, mul_zero]
  have := hz
  unfold asymmFirst at this
  rw [h0, asymmAmp_odd] at this
  unfold asymmFirst at hz
  rw [hz] at this
  simp only [Option.map_some, Option.some.injEq] at this
  have h2 : -z = z := by simpa using this
  have : (2 : ℂ) * z = 0 := by linear_combination -h2
  simpa using this

/-! ## C67: the coefficients of the determinants -/

/-- Specification: the documented linear combination of Slater determinants, each with its coefficient. -/
noncomputable def linearCombination (sm : Symmetrization) (coeffs : Fin M → ℂ) (dets : Fin M → Fin T → ℂ) : ℂ :=
  match sm with
  | .kernel => Complex.sinh (∑ m, coeffs m * ∑ t, dets m t)
  | .projective => ∑ t, Complex.sinh (∑ m, coeffs m * dets m t)

/-- **C67** for a single determinant (the default): the coefficient multiplies the determinant. -/
theorem C67_single_partial (sm : Symmetrization) (coeffs : Fin 1 → ℂ) (dets : Fin 1 → Fin T → ℂ) :
    asymmAmp sm coeffs dets = some (linearCombination sm coeffs dets) := by
  have e : mulCoeffs coeffs dets = some ⟨T, fun m t => coeffs 0 * dets m t⟩ := by
    unfold mulCoeffs
    split
    · rename_i h
      congr 2
      funext m t
      rw [Subsingleton.elim (Fin.cast h.symm t) 0]
    · rw [dif_pos rfl]
      rfl
  unfold asymmAmp linearCombination
  rw [e]
  cases sm
  · simp [Finset.mul_sum]
  · simp

/-- What is computed instead for several determinants without symmetries: with the kernel symmetrization, the *sum* of the coefficients
times the *sum* of the determinants. -/
theorem C67_actual (hM : M ≠ 1) (coeffs : Fin M → ℂ) (dets : Fin M → Fin 1 → ℂ) :
    asymmAmp .kernel coeffs dets = some (Complex.sinh ((∑ k, coeffs k) * ∑ m, dets m 0)) := by
  unfold asymmAmp mulCoeffs
  rw [dif_neg hM, dif_neg hM, dif_pos rfl]
  simp only [Option.map_some, Option.some.injEq]
  congr 1
  rw [Finset.sum_mul]
  refine Finset.sum_congr rfl fun k _ => ?_
  rw [Finset.mul_sum]
  rfl

/-- What is computed instead with the projective symmetrization: each coefficient multiplies the sum of all determinants. -/
theorem C67_actual_projective (hM : M ≠ 1) (coeffs : Fin M → ℂ) (dets : Fin M → Fin 1 → ℂ) :
    asymmAmp .projective coeffs dets = some (∑ k, Complex.sinh (coeffs k * ∑ m, dets m 0)) := by
  unfold asymmAmp mulCoeffs
  rw [dif_neg hM, dif_neg hM, dif_pos rfl]
  simp only [Option.map_some, Option.some.injEq]
  refine Finset.sum_congr rfl fun k _ => ?_
  rw [Finset.mul_sum]
  rfl

/-- With as many symmetry operations as determinants, the coefficients weight the symmetry operations. -/
theorem C67_actual_matched (sm : Symmetrization) (coeffs : Fin M → ℂ) (dets : Fin M → Fin M → ℂ) :
    asymmAmp sm coeffs dets = some (match sm with
      | .kernel => Complex.sinh (∑ t, coeffs t * ∑ m, dets m t)
      | .projective => ∑ t, Complex.sinh (coeffs t * ∑ m, dets m t)) := by
  unfold asymmAmp mulCoeffs
  rw [dif_pos rfl]
  cases sm <;> simp [Finset.mul_sum]

/-- **C67** holds when all coefficients are one and there are as many symmetry operations as determinants. -/
theorem C67_ones_partial (sm : Symmetrization) (dets : Fin M → Fin M → ℂ) :
    asymmAmp sm (fun _ => 1) dets = some (linearCombination sm (fun _ => 1) dets) := by
  rw [C67_actual_matched]
  unfold linearCombination
  cases sm
  · simp only [one_mul]
    rw [Finset.sum_comm]
  · simp only [one_mul]

/-- **C67** is false for two determinants: the amplitude does not depend on which determinant a coefficient belongs to. -/
theorem C67_fails : ∃ (coeffs : Fin 2 → ℂ) (dets : Fin 2 → Fin 1 → ℂ),
    asymmAmp .kernel coeffs dets = some 0 ∧ linearCombination .kernel coeffs dets ≠ 0 := by
  refine ⟨![1, -1], fun m _ => if m = 0 then 1 else 0, ?_, ?_⟩
  · rw [C67_actual (by omega)]
    simp
  · unfold linearCombination
    simp only [Fin.sum_univ_two, Matrix.cons_val_zero, Matrix.cons_val_one, Finset.univ_unique, Fin.default_eq_zero, Finset.sum_const,
      Finset.card_singleton]
    simp only [one_smul, if_true, one_mul, mul_zero, add_zero, Fin.one_eq_zero_iff, OfNat.ofNat_ne_one, if_false]
    intro h
    have := Complex.ofReal_sinh 1
    rw [Complex.ofReal_one] at this
    rw [← this] at h
    have : Real.sinh 1 = 0 := by exact_mod_cast h
    exact absurd this (Real.sinh_pos_iff.2 one_pos).ne'

/-- With several determinants and a number of symmetry operations that is neither one nor the number of determinants, every
evaluation raises. -/
theorem C67_raises (sm : Symmetrization) (h1 : M ≠ 1) (h2 : T ≠ 1) (h3 : M ≠ T) (coeffs : Fin M → ℂ) (dets : Fin M → Fin T → ℂ) :
    asymmAmp sm coeffs dets = none := by
  unfold asymmAmp mulCoeffs
  rw [dif_neg h3, dif_neg h1, dif_neg h2]
  cases sm <;> rfl

/-! ## Non-vacuity -/

/-- The identity orbitals: the positions `0, 1` of two up electrons have a non-zero amplitude, with the opposite sign when exchanged. -/
example : asymmFirst (T := 1) .kernel (fun _ : Fin 1 => 1) (fun _ i c => if i = c then 1 else 0 : Fin 1 → Fin 2 → Fin 2 → ℂ)
      (fun _ _ c => c.elim0 : Fin 1 → Fin 2 → Fin 0 → ℂ) (fun _ i => i) id Fin.elim0 = some (Complex.sinh 1) ∧
    asymmFirst (T := 1) .kernel (fun _ : Fin 1 => 1) (fun _ i c => if i = c then 1 else 0 : Fin 1 → Fin 2 → Fin 2 → ℂ)
      (fun _ _ c => c.elim0 : Fin 1 → Fin 2 → Fin 0 → ℂ) (fun _ i => i) (id ∘ Equiv.swap 0 1) (Fin.elim0 ∘ Equiv.refl _) = some (-Complex.sinh 1) := by
  have e : asymmFirst (T := 1) .kernel (fun _ : Fin 1 => 1) (fun _ i c => if i = c then 1 else 0 : Fin 1 → Fin 2 → Fin 2 → ℂ)
      (fun _ _ c => c.elim0 : Fin 1 → Fin 2 → Fin 0 → ℂ) (fun _ i => i) id Fin.elim0 = some (Complex.sinh 1) := by
    unfold asymmFirst
    rw [C67_single_partial]
    unfold linearCombination firstQuantisedDet
    simp [Matrix.det_fin_two]
  refine ⟨e, ?_⟩
  rw [(C60_asymm .kernel _ _ _ _).2 id Fin.elim0 (Equiv.swap 0 1) (Equiv.refl _), e]
  simp

/-- The hypotheses of `C70_fast_update` hold for a move of a pair of electrons. -/
example : Admissible Props.exModule (⟨fun d _ i => (d.val + i.val + 1 : ℕ), QGPS.noSyms, QGPS.sumOut⟩ : QGPS.Module 2 4 1 Unit)
    ![3, 0] [(0, 0), (1, 3)] := by
  have e : applyUpdate (![3, 0] : Cfg 2) [(0, 0), (1, 3)] = ![0, 3] := by decide
  refine ⟨by simp [Padded], by decide, by rw [e]; decide, ?_, ?_, ?_⟩
  · intro m s t
    rw [Subsingleton.elim m 0]
    exact Props.exModule_unit _ 0 (by decide) (by decide) (by decide)
  · intro m s t
    rw [Subsingleton.elim m 0, e]
    exact Props.exModule_unit _ 1 (by decide) (by decide) (by decide)
  · intro m t
    unfold QGPS.siteProd
    rw [Finset.prod_ne_zero_iff]
    intro i _
    exact Nat.cast_ne_zero.mpr (by omega)

end GPSKet.Composite
