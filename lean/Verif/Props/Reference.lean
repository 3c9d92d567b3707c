import Verif.Props.PairState
import Verif.Props.QGPS

/-!
# C121, C122: the reference states of the ab-initio scripts
-/

namespace GPSKet.Reference
open Spec Pfaffian Backflow SlaterAmplitudes

variable {L n Mq : ℕ} {τ : Type}

/-! ## C121: fast updates of the product of a Pfaffian and a qGPS -/

/-- The updates for which the qGPS part can be updated (C34); there is no condition without a qGPS. -/
def Admissible (mod : PfaffianqGPS L Mq τ) (x : Cfg L) (upd : List (Fin L × Fin 4)) : Prop :=
  ∀ q ∈ mod.qgps, Padded x upd ∧ ∀ m t, QGPS.siteProd q x m t ≠ 0

theorem updateFun_eq (x : Cfg L) (upd : List (Fin L × Fin 4)) : updateFun x upd = applyUpdate x upd := (applyUpdate_foldr x upd).symm

/-- **C121**: the fast evaluation of a `PfaffianqGPS` equals an evaluation from scratch of the updated configuration (also where that is NaN),
and leaves the cache such an evaluation leaves. -/
theorem C121_fast_update [NeZero L] (mod : PfaffianqGPS L Mq τ) (hs : ∀ q ∈ mod.qgps, SymsConsistent q.syms) (x : Cfg L)
    (upd : List (Fin L × Fin 4)) (h : Admissible mod x upd) :
    fast n mod (cacheOf mod x) upd = full n mod (applyUpdate x upd) ∧ fastCache mod (cacheOf mod x) upd = cacheOf mod (applyUpdate x upd) := by
  rcases mod with ⟨f, S2, _ | q⟩
  · constructor
    · simp only [fast, full, cacheOf, qgpsFast, updateFun_eq, Option.map_none]
    · simp only [fastCache, cacheOf, updateFun_eq, Option.map_none]
  · obtain ⟨h1, h2⟩ := C34_fast_update q (hs q rfl) x upd (h q rfl)
    constructor
    · simp only [fast, full, cacheOf, qgpsFast, updateFun_eq, Option.map_some, h1]
    · simp only [fastCache, cacheOf, updateFun_eq, Option.map_some, h2]

/-- **C121** over histories: after any chain of updates the cache is the one of an evaluation from scratch on the current configuration. -/
theorem C121_history [NeZero L] (mod : PfaffianqGPS L Mq τ) (hs : ∀ q ∈ mod.qgps, SymsConsistent q.syms)
    (x : Cfg L) (upds : List (List (Fin L × Fin 4))) (h : Backflow.HistoryOk (Admissible mod) x upds) :
    upds.foldl (fastCache mod) (cacheOf mod x) = cacheOf mod (upds.foldl applyUpdate x) := by
  induction upds generalizing x with
  | nil => rfl
  | cons upd rest ih =>
    rw [List.foldl_cons, List.foldl_cons, (C121_fast_update (n := 0) mod hs x upd h.1).2]
    exact ih _ h.2

/-- **C121**: the amplitude is the product of the amplitude of the (spin-projected) pair state of C120 and that of the qGPS, if there is
one, otherwise that of the pair state. -/
theorem C121_value [NeZero L] (f : Matrix (Fin L) (Fin L) ℂ) (S2 : List (ℝ × ℝ)) (hc : ∀ ac ∈ S2, 0 ≤ ac.2) (x : Cfg L)
    (hx : numElec false x = n ∧ numElec true x = n) (h0 : ∀ ac ∈ S2, pairState (rotatedPairs f ac.1) n (occOf x) ≠ 0) :
    (∀ q : QGPS.Module L 4 Mq τ, full n ⟨f, S2, some q⟩ x =
      some ((S2.map fun ac => (ac.2 : ℂ) * pairState (rotatedPairs f ac.1) n (occOf x)).sum * Complex.exp ((QGPS.model q).full x))) ∧
    full n (⟨f, S2, none⟩ : PfaffianqGPS L Mq τ) x =
      some (S2.map fun ac => (ac.2 : ℂ) * pairState (rotatedPairs f ac.1) n (occOf x)).sum := by
  constructor
  · intro q
    simp only [full, C120_partial_zero_magnetization f S2 hc x hx h0, Option.map_some, times]
  · simp only [full, C120_partial_zero_magnetization f S2 hc x hx h0, Option.map_none, times]

/-! ## C122: all reference states start in the same state -/

theorem pfaffianInit_apply (phi : Fin L → Fin n → ℂ) (i j : Fin L) : pfaffianInit phi i j = ∑ k, phi i k * phi j k := rfl

/-- The pair state of the pairing `φ φᵀ` is the Slater determinant with both spins in the orbitals `φ`, up to a sign. -/
theorem pairState_slater [NeZero L] (phi : Fin L → Fin n → ℂ) (x : Cfg L) (hx : numElec false x = n ∧ numElec true x = n) :
    pairState (opposite fun i j => ∑ k, phi i k * phi j k) n (occOf x) = (-1) ^ (n * (n - 1) / 2) * upDownState phi phi (occOf x) := by
  obtain ⟨up, dn, h⟩ := exists_enumerates hx
  obtain ⟨h1, h2⟩ := positions_toMode h
  set f : Fin L → Fin L → ℂ := fun i j => ∑ k, phi i k * phi j k
  have e : pairingMatrix (opposite f) = Matrix.fromBlocks 0 (pfaffianInit phi) 0 0 := by
    apply Matrix.ext
    intro a b
    rcases a with a | a <;> rcases b with b | b
    · change opposite f (mode false a) (mode false b) = 0
      simp [opposite, mode]
    · rw [Matrix.fromBlocks_apply₁₂, pfaffianInit_apply]
      change opposite f (mode false a) (mode true b) = f a b
      simp [opposite, mode]
    · change opposite f (mode true a) (mode false b) = 0
      simp [opposite, mode]
    · change opposite f (mode true a) (mode true b) = 0
      simp [opposite, mode]
  rw [← pf_pairState _ _ _ h1 h2, e, pf_opposite phi h, pf_symplectic, ← upDown_state h]
  ring

/-- A pairing that is symmetric in the sites is not changed by spin rotations (a singlet). -/
theorem skewOcc_rotated {m : ℕ} (f : Matrix (Fin L) (Fin L) ℂ) (hf : ∀ i j, f i j = f j i) (θ : ℝ) (y : Fin m → Fin L ⊕ Fin L) :
    skewOcc (rotated f θ) y = skewOcc (rotated f 0) y := by
  have h' : (Real.sin (θ / 2) : ℂ) ^ 2 + (Real.cos (θ / 2) : ℂ) ^ 2 = 1 := by exact_mod_cast Real.sin_sq_add_cos_sq (θ / 2)
  rw [C64_default]
  apply Matrix.ext
  intro a b
  rw [skewOcc_apply, skewOcc_apply]
  generalize y a = p
  generalize y b = q
  rcases p with p | p <;> rcases q with q | q
  · change -f p q * Real.cos (θ / 2) * Real.sin (θ / 2) - -f q p * Real.cos (θ / 2) * Real.sin (θ / 2) = 0 - 0
    rw [hf q p]; ring
  · change f p q * Real.cos (θ / 2) * Real.cos (θ / 2) - -f q p * Real.sin (θ / 2) * Real.sin (θ / 2) = f p q - 0
    rw [hf q p]; linear_combination f p q * h'
  · change -f p q * Real.sin (θ / 2) * Real.sin (θ / 2) - f q p * Real.cos (θ / 2) * Real.cos (θ / 2) = 0 - f q p
    rw [hf q p]; linear_combination -f p q * h'
  · change f p q * Real.cos (θ / 2) * Real.sin (θ / 2) - f q p * Real.cos (θ / 2) * Real.sin (θ / 2) = 0 - 0
    rw [hf q p]; ring

/-- The sum of the characters of a spin projection. -/
def totalWeight (angles : List (ℝ × ℝ)) : ℂ := (angles.map fun a => (a.2 : ℂ)).sum

/-- By which number the amplitudes of a reference state differ from those of the Slater determinant: one number for all configurations. -/
def factor (n : ℕ) : Ref → ℂ
  | .slater => 1
  | .projectedSlater a => totalWeight a
  | .pfaffian => (-1) ^ (n * (n - 1) / 2)
  | .projectedPfaffian a => (-1) ^ (n * (n - 1) / 2) * totalWeight a
  | .fullSlater => 1

theorem rotation_det (n : ℕ) (c s : ℂ) (h : s ^ 2 + c ^ 2 = 1) :
    (Matrix.fromBlocks (c • 1) (-s • 1) (s • 1) (c • 1) : Matrix (Fin n ⊕ Fin n) (Fin n ⊕ Fin n) ℂ).det = 1 := by
  set R := (Matrix.fromBlocks (c • 1) (-s • 1) (s • 1) (c • 1) : Matrix (Fin n ⊕ Fin n) (Fin n ⊕ Fin n) ℂ) with hR
  have hJ : R * Matrix.fromBlocks 0 1 (-1) 0 * R.transpose = Matrix.fromBlocks 0 1 (-1) 0 := by
    rw [hR, Matrix.fromBlocks_transpose, Matrix.fromBlocks_multiply, Matrix.fromBlocks_multiply]
    congr 1 <;>
    · ext i j
      by_cases hij : i = j
      · subst hij
        simp
        try first | linear_combination h | linear_combination -h | linear_combination (0 : ℂ) * h
      · simp [hij]
  have hp := pf_congr (R.submatrix (halves n).symm (halves n).symm) (symplectic n)
  have hm : R.submatrix (halves n).symm (halves n).symm * symplectic n * (R.submatrix (halves n).symm (halves n).symm).transpose = symplectic n := by
    unfold symplectic
    rw [Matrix.transpose_submatrix, Matrix.submatrix_mul_equiv, Matrix.submatrix_mul_equiv, hJ]
  rw [hm, Matrix.det_submatrix_equiv_self] at hp
  have h0 : pfaffian (symplectic n) ≠ 0 := by rw [pf_symplectic]; exact pow_ne_zero _ (by norm_num)
  exact (mul_right_cancel₀ h0 (by rw [one_mul]; exact hp)).symm

/-- `rotation_det` for columns numbered from 0 to `2 n - 1`. -/
def spinColumns (n : ℕ) (c s : ℂ) : Matrix (Fin (n + n)) (Fin (n + n)) ℂ :=
  (Matrix.fromBlocks (c • 1) (-s • 1) (s • 1) (c • 1) : Matrix (Fin n ⊕ Fin n) (Fin n ⊕ Fin n) ℂ).submatrix finSumFinEquiv.symm finSumFinEquiv.symm

/-- Turning the spins of a determinant with the same orbitals for both spins mixes the columns with a matrix of determinant one. -/
theorem applyRotation_mul (phi : Fin L → Fin n → ℂ) (θ : ℝ) (r : Fin (L + L)) (k : Fin (n + n)) :
    Slater.applyRotation (Slater.getFullU phi phi) θ r k =
      ∑ j, Slater.getFullU phi phi r j * spinColumns n (Real.cos (θ / 2)) (Real.sin (θ / 2)) j k := by
  rw [Fin.sum_univ_add]
  induction r using Fin.addCases with
  | left r =>
    induction k using Fin.addCases with
    | left k => simp [-Fin.natAdd_eq_addNat, Slater.applyRotation, Slater.getFullU, spinColumns, Matrix.one_apply]
    | right k => simp [-Fin.natAdd_eq_addNat, Slater.applyRotation, Slater.getFullU, spinColumns, Matrix.one_apply]
  | right r =>
    induction k using Fin.addCases with
    | left k => simp [-Fin.natAdd_eq_addNat, Slater.applyRotation, Slater.getFullU, spinColumns, Matrix.one_apply]
    | right k => simp [-Fin.natAdd_eq_addNat, Slater.applyRotation, Slater.getFullU, spinColumns, Matrix.one_apply]

theorem projected_det {κ : Type} (phi : Fin L → Fin n → ℂ) (angle : κ → ℝ) (chars chars' : _ → ℂ) (out out') (x : Cfg L)
    (hx : numElec false x = n ∧ numElec true x = n) (s : κ) :
    Slater.detValues (⟨.projected (slaterInit phi) (slaterInit phi) angle, fun _ i => i, chars, true, out⟩ : Slater.Module L n n 1 κ Unit) x 0 s () =
      Slater.detValues (⟨.fixedMag (slaterInit phi) (slaterInit phi), fun _ i => i, chars', true, out'⟩ : Slater.Module L n n 1 Unit Unit) x 0 () () := by
  obtain ⟨up, dn, h⟩ := exists_enumerates hx
  rw [Props.C41_full _ x hx 0 s () up dn h.up_mono h.dn_mono h.up_iff h.dn_iff,
    Props.C41_full _ x hx 0 () () up dn h.up_mono h.dn_mono h.up_iff h.dn_iff]
  have hd : (spinColumns n (Real.cos (angle s / 2)) (Real.sin (angle s / 2))).det = 1 := by
    unfold spinColumns
    rw [Matrix.det_submatrix_equiv_self]
    exact rotation_det n _ _ (by exact_mod_cast Real.sin_sq_add_cos_sq (angle s / 2))
  rw [← mul_one (Matrix.det (Matrix.of fun (i c : Fin (n + n)) => Slater.fullU (.fixedMag (slaterInit phi) (slaterInit phi)) 0 _ c ())), ← hd,
    ← Matrix.det_mul]
  congr 1
  ext i k
  rw [Matrix.mul_apply]
  exact applyRotation_mul phi (angle s) _ k

theorem slater_value (phi : Fin L → Fin n → ℂ) (chars : Unit → ℂ) (out) (x : Cfg L) (hx : numElec false x = n ∧ numElec true x = n) :
    Slater.detValues (⟨.fixedMag (slaterInit phi) (slaterInit phi), fun _ i => i, chars, true, out⟩ : Slater.Module L n n 1 Unit Unit) x 0 () () =
      upDownState phi phi (occOf x) := C105_slater_fixed _ _ _ _ _ _ x hx 0 ()

/-- **C122**, the determinants: with the initial parameters the fixed, the generalised and the spin-projected Slater determinant have, for
every configuration with `n` up and `n` down electrons, the amplitudes of the Slater determinant with both spins in the given orbitals, the
last one times the sum of the characters. -/
theorem C122_determinants [NeZero L] (phi : Fin L → Fin n → ℂ) (x : Cfg L) (hx : numElec false x = n ∧ numElec true x = n)
    (angles : List (ℝ × ℝ)) :
    initial phi x .slater = some (upDownState phi phi (occOf x)) ∧ initial phi x .fullSlater = some (upDownState phi phi (occOf x)) ∧
    initial phi x (.projectedSlater angles) = some (totalWeight angles * upDownState phi phi (occOf x)) := by
  refine ⟨?_, ?_, ?_⟩
  · simp only [initial, slaterAmp, Slater.model]
    simp [slater_value phi _ _ x hx]
  · simp only [initial, slaterAmp, Slater.model]
    have e : ∀ out, Slater.detValues (⟨.generalised (fullSlaterInit phi), fun _ i => i, fun _ => 1, true, out⟩ : Slater.Module L n n 1 Unit Unit) x 0 () () =
        upDownState phi phi (occOf x) := by
      intro out
      rw [← slater_value phi (fun _ => 1) out x hx]
      obtain ⟨up, dn, h⟩ := exists_enumerates hx
      rw [Props.C41_full _ x hx 0 () () up dn h.up_mono h.dn_mono h.up_iff h.dn_iff,
        Props.C41_full _ x hx 0 () () up dn h.up_mono h.dn_mono h.up_iff h.dn_iff]
      rfl
    simp [e]
  · simp only [initial, slaterAmp, Slater.model]
    have e : ∀ out s, Slater.detValues (⟨.projected (slaterInit phi) (slaterInit phi) fun s => (angles.get s).1, fun _ i => i,
        fun s => ((angles.get s).2 : ℂ), true, out⟩ : Slater.Module L n n 1 (Fin angles.length) Unit) x 0 s () =
        upDownState phi phi (occOf x) := by
      intro out s
      rw [projected_det phi _ _ (fun _ => 1) out (fun _ => 0) x hx s, slater_value phi _ _ x hx]
    simp only [Finset.univ_unique, Finset.sum_singleton, Fin.default_eq_zero, PUnit.default_eq_unit, e]
    rw [← Finset.mul_sum, mul_comm]
    congr 2
    unfold totalWeight
    rw [← List.sum_ofFn]
    congr 1
    apply List.ext_getElem <;> simp

/-- **C122**: all five reference states start in the same state: wherever the amplitude of the Slater determinant with both spins in the
given orbitals is not zero, the amplitude of the reference state is that amplitude times a number which does not depend on the
configuration (`factor`).  What is missing: see `C122_fails` (zero amplitudes of the Pfaffians). -/
theorem C122_partial [NeZero L] (phi : Fin L → Fin n → ℂ) (x : Cfg L) (hx : numElec false x = n ∧ numElec true x = n)
    (h0 : upDownState phi phi (occOf x) ≠ 0) (r : Ref) (hr : ∀ a, r = .projectedPfaffian a → ∀ ac ∈ a, 0 ≤ ac.2) :
    initial phi x r = some (factor n r * upDownState phi phi (occOf x)) := by
  have hs : ∀ i j, pfaffianInit phi i j = pfaffianInit phi j i := fun i j => by
    rw [pfaffianInit_apply, pfaffianInit_apply]
    exact Finset.sum_congr rfl fun k _ => mul_comm _ _
  have hp : pairState (opposite (pfaffianInit phi)) n (occOf x) = (-1) ^ (n * (n - 1) / 2) * upDownState phi phi (occOf x) :=
    pairState_slater phi x hx
  have hp0 : pairState (opposite (pfaffianInit phi)) n (occOf x) ≠ 0 := by
    rw [hp]; exact mul_ne_zero (pow_ne_zero _ (by norm_num)) h0
  obtain ⟨d1, d2, d3⟩ := C122_determinants phi x hx (match r with | .projectedSlater a => a | _ => [])
  rcases r with _ | a | _ | a | _
  · rw [d1, factor, one_mul]
  · exact d3
  · rw [initial, C120_partial_unprojected _ x hx hp0, hp]; rfl
  · have hrot : ∀ θ, pairState (rotatedPairs (pfaffianInit phi) θ) n (occOf x) = (-1) ^ (n * (n - 1) / 2) * upDownState phi phi (occOf x) := by
      intro θ
      obtain ⟨up, dn, h⟩ := exists_enumerates hx
      obtain ⟨h1, h2⟩ := positions_toMode h
      rw [← pf_pairState _ _ _ h1 h2, ← rotated_pairing, skewOcc_rotated _ hs θ, C64_default, pf_opposite phi h, pf_symplectic, ← upDown_state h]
      ring
    rw [initial, C120_partial_zero_magnetization _ a (hr a rfl) x hx (fun ac _ => by rw [hrot, ← hp]; exact hp0)]
    simp only [hrot]
    rw [List.sum_map_mul_right, factor, totalWeight]
    congr 1
    ring
  · rw [d2, factor, one_mul]

/-- What is missing from **C122**: on a configuration none of whose electrons is in a site where the orbitals have weight, for instance
all electrons in virtual orbitals of the canonical basis, the determinants give amplitude zero, the Pfaffian gives NaN. -/
theorem C122_fails [NeZero L] (hn : 2 ≤ n) (phi : Fin L → Fin n → ℂ) (x : Cfg L) (hx : numElec false x = n ∧ numElec true x = n)
    (hv : ∀ i k s, hasSpin s (x i) = true → phi i k = 0) :
    upDownState phi phi (occOf x) = 0 ∧ initial phi x .slater = some 0 ∧ initial phi x .pfaffian = none := by
  obtain ⟨up, dn, h⟩ := exists_enumerates hx
  have hu : ∀ i k, phi (up i) k = 0 := fun i k => hv _ k false ((h.up_iff _).mpr ⟨i, rfl⟩)
  have hd : ∀ i k, phi (dn i) k = 0 := fun i k => hv _ k true ((h.dn_iff _).mpr ⟨i, rfl⟩)
  have z : upDownState phi phi (occOf x) = 0 := by
    rw [← upDown_state h]
    have e1 : (Matrix.of fun i k => phi (up i) k) = 0 := by ext i k; simp [hu]
    have : Nonempty (Fin n) := ⟨⟨0, by omega⟩⟩
    rw [e1, Matrix.det_zero, zero_mul]
  refine ⟨z, ?_, ?_⟩
  · rw [(C122_determinants phi x hx []).1, z]
  · have e : skewOcc (rotated (pfaffianInit phi) 0) (positions n x) = 0 := by
      rw [C64_default, skewOcc_opposite phi h]
      have e1 : (Matrix.of fun i k => phi (up i) k) = 0 := by ext i k; simp [hu]
      have e2 : (Matrix.of fun i k => phi (dn i) k) = 0 := by ext i k; simp [hd]
      rw [e1, e2, Matrix.fromBlocks_zero]
      simp
    simp only [initial, pfaffianPart, zeroMagCall, List.map_cons, List.map_nil, List.flatMap_cons, List.flatMap_nil, List.append_nil,
      stateVal, e, (C42_singular_fails hn).2.2]
    simp [LogNum.plus, sumAmp, LogNum.amp]

/-! ## The hypotheses are met -/

/-- Two electrons in each spin on four sites, in the canonical basis: the Hartree-Fock configuration. -/
def canonical : Fin 4 → Fin 2 → ℂ := fun i k => if i.val = k.val then 1 else 0

example : upDownState canonical canonical (occOf (![3, 3, 0, 0] : Cfg 4)) = 1 := by
  have h : Enumerates (![3, 3, 0, 0] : Cfg 4) (![0, 1] : Fin 2 → Fin 4) (![0, 1] : Fin 2 → Fin 4) :=
    ⟨by decide, by decide, by decide, by decide⟩
  rw [← upDown_state h, Matrix.det_fin_two]
  simp [canonical]

/-- All electrons in virtual orbitals. -/
example : initial canonical (![0, 0, 3, 3] : Cfg 4) .slater = some 0 ∧ initial canonical (![0, 0, 3, 3] : Cfg 4) .pfaffian = none := by
  refine (C122_fails (le_refl 2) canonical _ (by decide) ?_).2
  intro i k s h
  fin_cases i <;> fin_cases k <;> simp_all [canonical, hasSpin]

/-- The pair state of C120 and C121 is not zero. -/
example : pairState (opposite fun i j => ∑ k, canonical i k * canonical j k) 2 (occOf (![3, 3, 0, 0] : Cfg 4)) ≠ 0 := by
  rw [pairState_slater canonical _ (by decide)]
  have h : Enumerates (![3, 3, 0, 0] : Cfg 4) (![0, 1] : Fin 2 → Fin 4) (![0, 1] : Fin 2 → Fin 4) :=
    ⟨by decide, by decide, by decide, by decide⟩
  rw [← upDown_state h, Matrix.det_fin_two]
  simp [canonical]

end GPSKet.Reference
