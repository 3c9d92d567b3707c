import Verif.Lemmas.PfaffianLoop
import Mathlib.LinearAlgebra.Matrix.Charpoly.Coeff
import Mathlib.Analysis.Calculus.Deriv.Polynomial
import Mathlib.Analysis.Calculus.Deriv.Pow
import Mathlib.Data.Fin.VecNotation

/-!
# Properties C42, C63, C64: Pfaffian states

Specification used: `Verif/Spec/Pfaffian.lean` (the definition of the Pfaffian as a sum over permutations).
-/

namespace GPSKet.Pfaffian
open Spec

variable {n : ℕ}

theorem blk_array (A : Matrix (Fin (2 * n)) (Fin (2 * n)) ℂ) :
    blk (fun i j => if h : i < 2 * n ∧ j < 2 * n then A ⟨i, h.1⟩ ⟨j, h.2⟩ else 0) (0 * 2) n = A := by
  ext i j
  unfold blk
  have h : 0 * 2 + i.val < 2 * n ∧ 0 * 2 + j.val < 2 * n := ⟨by have := i.isLt; omega, by have := j.isLt; omega⟩
  show (if h : 0 * 2 + i.val < 2 * n ∧ 0 * 2 + j.val < 2 * n then A ⟨_, h.1⟩ ⟨_, h.2⟩ else 0) = A i j
  rw [dif_pos h]
  congr 1 <;> (apply Fin.ext; simp)

theorem logPfaffian_spec (A : Matrix (Fin (2 * n)) (Fin (2 * n)) ℂ) (hA : Skew A) :
    (pfaffian A ≠ 0 → ∃ w, logPfaffian A = .fin w ∧ Complex.exp w = pfaffian A) ∧
    (pfaffian A = 0 → logPfaffian A = .negInf ∨ (logPfaffian A = .nan ∧ 2 ≤ n)) := by
  have h := loop_spec n 0 (fun i j => if h : i < 2 * n ∧ j < 2 * n then A ⟨i, h.1⟩ ⟨j, h.2⟩ else 0) 0 (by rw [blk_array]; exact hA)
  dsimp only at h
  rw [blk_array, Nat.zero_add, ← List.range_eq_range'] at h
  simp only [Complex.exp_zero, one_mul] at h
  unfold logPfaffian logPfaffianN
  rw [show 2 * n / 2 = n by omega]
  exact h

/-- **C42**.  For every even size and every antisymmetric matrix with non-zero Pfaffian, the routine returns a (finite) logarithm of
the Pfaffian, whatever rows and columns are exchanged on the way. -/
theorem C42_log (A : Matrix (Fin (2 * n)) (Fin (2 * n)) ℂ) (hA : Skew A) (h0 : pfaffian A ≠ 0) :
    ∃ w, logPfaffian A = .fin w ∧ Complex.exp w = pfaffian A := (logPfaffian_spec A hA).1 h0

/-- **C42**: any finite value the routine returns is a logarithm of the Pfaffian, and its square is the determinant. -/
theorem C42_square (A : Matrix (Fin (2 * n)) (Fin (2 * n)) ℂ) (hA : Skew A) (w : ℂ) (h : logPfaffian A = .fin w) :
    Complex.exp w = pfaffian A ∧ Complex.exp w ^ 2 = A.det := by
  have h0 : pfaffian A ≠ 0 := by
    intro h0
    rcases (logPfaffian_spec A hA).2 h0 with h1 | ⟨h1, _⟩ <;> simp [h1] at h
  obtain ⟨w', h1, h2⟩ := C42_log A hA h0
  rw [h] at h1
  obtain rfl := LogNum.fin.inj h1
  exact ⟨h2, by rw [h2, pf_sq hA]⟩

/-- **C42**, singular matrices, as far as it holds: the routine does not return a number, but `-inf` or NaN; NaN can only appear for
matrices with at least four rows. -/
theorem C42_singular_partial (A : Matrix (Fin (2 * n)) (Fin (2 * n)) ℂ) (hA : Skew A) (h0 : A.det = 0) :
    logPfaffian A = .negInf ∨ (logPfaffian A = .nan ∧ 2 ≤ n) := by
  apply (logPfaffian_spec A hA).2
  rw [← pf_sq hA] at h0
  exact pow_eq_zero_iff (two_ne_zero) |>.mp h0

/-- What is missing from **C42**: for a singular matrix the logarithm of the Pfaffian is `-inf`, but the routine returns NaN, for
instance for the zero matrix of any size `≥ 4`, because it divides by the zero pivot. -/
theorem C42_singular_fails (hn : 2 ≤ n) : Skew (0 : Matrix (Fin (2 * n)) (Fin (2 * n)) ℂ) ∧ pfaffian (0 : Matrix (Fin (2 * n)) (Fin (2 * n)) ℂ) = 0 ∧
    logPfaffian (0 : Matrix (Fin (2 * n)) (Fin (2 * n)) ℂ) = .nan := by
  have hs : Skew (0 : Matrix (Fin (2 * n)) (Fin (2 * n)) ℂ) := fun i j => by simp
  obtain ⟨r, rfl⟩ : ∃ r, n = r + 2 := ⟨n - 2, by omega⟩
  refine ⟨hs, pf_row_zero hs (fun j => rfl), ?_⟩
  unfold logPfaffian logPfaffianN
  rw [show 2 * (r + 2) / 2 = r + 1 + 1 by omega, List.range_eq_range', List.range'_succ, List.foldl_cons]
  apply loop_nan _ _ (by simp [List.range'_succ])
  rw [step_eq]
  have hz : (fun i j => if h : i < 2 * (r + 2) ∧ j < 2 * (r + 2) then
      (0 : Matrix (Fin (2 * (r + 2))) (Fin (2 * (r + 2))) ℂ) ⟨i, h.1⟩ ⟨j, h.2⟩ else 0) = fun _ _ => (0 : ℂ) := by
    funext i j
    split_ifs <;> rfl
  rw [hz]
  simp only [decide_eq_true_eq]
  unfold swapped
  simp

/-- **C42**: the custom derivative rule.  At every invertible antisymmetric matrix, along every antisymmetric direction `D`, the tangent
`jvp A D` is the derivative of the logarithm of the Pfaffian: `d/dt Pf(A + t D) = Pf(A) · jvp A D`. -/
theorem C42_jvp (A D : Matrix (Fin (2 * n)) (Fin (2 * n)) ℂ) (hA : Skew A) (hD : Skew D) (h0 : A.det ≠ 0) :
    HasDerivAt (fun t : ℂ => pfaffian (A + t • D)) (pfaffian A * jvp A D) 0 := by
  have hpf : pfaffian A ≠ 0 := by
    intro h; apply h0; rw [← pf_sq hA, h]; ring
  -- the Pfaffian is a polynomial in `t`
  have hdiff : DifferentiableAt ℂ (fun t : ℂ => pfaffian (A + t • D)) 0 := by
    unfold pfaffian
    simp only [Matrix.add_apply, Matrix.smul_apply, smul_eq_mul]
    fun_prop
  have hskew : ∀ t : ℂ, Skew (A + t • D) := by
    intro t i j
    rw [Matrix.add_apply, Matrix.add_apply, Matrix.smul_apply, Matrix.smul_apply, hA i j, hD i j]
    simp only [smul_eq_mul]; ring
  -- its square
  have hsq : ∀ t : ℂ, pfaffian (A + t • D) ^ 2 = A.det * (Matrix.det (1 + (Polynomial.X : Polynomial ℂ) • (A⁻¹ * D).map Polynomial.C)).eval t := by
    intro t
    rw [pf_sq (hskew t)]
    have hu : IsUnit A.det := isUnit_iff_ne_zero.mpr h0
    have e1 : A + t • D = A * (1 + t • (A⁻¹ * D)) := by
      rw [Matrix.mul_add, Matrix.mul_one, Matrix.mul_smul, ← Matrix.mul_assoc, Matrix.mul_nonsing_inv _ hu, Matrix.one_mul]
    rw [e1, Matrix.det_mul, ← Polynomial.coe_evalRingHom, RingHom.map_det]
    congr 2
    ext i j
    simp [Matrix.one_apply, apply_ite, -Matrix.map_mul, -RingHom.map_matrix_mul]
    ring
  have hd1 : HasDerivAt (fun t : ℂ => pfaffian (A + t • D) ^ 2) (A.det * (A⁻¹ * D).trace) 0 := by
    have h2 := ((Matrix.det (1 + (Polynomial.X : Polynomial ℂ) • (A⁻¹ * D).map Polynomial.C)).hasDerivAt 0).const_mul A.det
    rw [Matrix.derivative_det_one_add_X_smul] at h2
    exact h2.congr_of_eventuallyEq (Filter.Eventually.of_forall fun t => hsq t)
  have hd2 := hdiff.hasDerivAt.pow 2
  have heq := hd2.unique hd1
  simp only [zero_smul, add_zero, Nat.cast_ofNat, Nat.add_one_sub_one, pow_one] at heq
  have hj : jvp A D = 1 / 2 * (A⁻¹ * D).trace := by
    unfold jvp Matrix.trace
    simp only [Matrix.transpose_apply, Matrix.smul_apply, smul_eq_mul, Matrix.diag_apply, Matrix.mul_apply, Finset.mul_sum]
    rw [Finset.sum_comm]
    simp only [mul_assoc]
  have : deriv (fun t : ℂ => pfaffian (A + t • D)) 0 = pfaffian A * jvp A D := by
    rw [hj]
    rw [← pf_sq hA] at heq
    have h3 : pfaffian A * (2 * deriv (fun t : ℂ => pfaffian (A + t • D)) 0 - pfaffian A * (A⁻¹ * D).trace) = 0 := by
      linear_combination heq
    have h4 := (mul_eq_zero.mp h3).resolve_left hpf
    linear_combination h4 / 2
  rw [← this]
  exact hdiff.hasDerivAt

/-- an antisymmetric 2x2 matrix with non-zero Pfaffian -/
example : let A : Matrix (Fin (2 * 1)) (Fin (2 * 1)) ℂ := !![0, 3; -3, 0]
    Skew A ∧ pfaffian A = 3 := by
  have hs : Skew (!![0, 3; -3, 0] : Matrix (Fin (2 * 1)) (Fin (2 * 1)) ℂ) := by
    intro i j
    fin_cases i <;> fin_cases j <;> simp
  refine ⟨hs, ?_⟩
  rw [pf_block (r := 0) hs (fun j => j.elim0), pf_empty]
  simp

/-! ## C63 -/

theorem skewOcc_skew {I : Type} {m : ℕ} (F : Matrix I I ℂ) (y : Fin m → I) : Skew (skewOcc F y) := by
  intro i j
  show F (y i) (y j) - F (y j) (y i) = -(F (y j) (y i) - F (y i) (y j))
  ring

/-- **C63**: a permutation of the electrons multiplies the amplitude of the Pfaffian state by its sign, for every pairing matrix,
number of electrons and positions. -/
theorem C63_antisymmetric {I : Type} (F : Matrix I I ℂ) (y : Fin (2 * n) → I) (σ : Equiv.Perm (Fin (2 * n))) (w : ℂ)
    (h : stateVal F y = .fin w) :
    ∃ w', stateVal F (y ∘ σ) = .fin w' ∧ Complex.exp w' = ((Equiv.Perm.sign σ : ℤ) : ℂ) * Complex.exp w := by
  have hs := skewOcc_skew F y
  have hperm : skewOcc F (y ∘ σ) = (skewOcc F y).submatrix σ σ := rfl
  obtain ⟨h1, h2⟩ := C42_square _ hs w h
  have h0 : pfaffian (skewOcc F (y ∘ σ)) ≠ 0 := by
    rw [hperm, pf_perm, ← h1]
    refine mul_ne_zero ?_ (Complex.exp_ne_zero _)
    rcases Int.units_eq_one_or (Equiv.Perm.sign σ) with h | h <;> simp [h]
  obtain ⟨w', h3, h4⟩ := C42_log _ (skewOcc_skew F (y ∘ σ)) h0
  exact ⟨w', h3, by rw [h4, hperm, pf_perm, h1]⟩

/-- **C63**: two electrons at the same position have no (finite) amplitude. -/
theorem C63_exclusion {I : Type} (F : Matrix I I ℂ) (y : Fin (2 * n) → I) (a b : Fin (2 * n)) (hab : a ≠ b) (hy : y a = y b) (w : ℂ) :
    stateVal F y ≠ .fin w := by
  intro h
  obtain ⟨w', h1, h2⟩ := C63_antisymmetric F y (Equiv.swap a b) w h
  have : y ∘ (Equiv.swap a b) = y := by
    funext k
    simp only [Function.comp_apply, Equiv.swap_apply_def]
    split_ifs with h3 h4
    · rw [h3, hy]
    · rw [h4, hy]
    · rfl
  rw [this, h] at h1
  obtain rfl := LogNum.fin.inj h1
  rw [Equiv.Perm.sign_swap hab] at h2
  have h3 := Complex.exp_ne_zero w
  push_cast at h2
  have h4 : 2 * Complex.exp w = 0 := by linear_combination h2
  exact h3 ((mul_eq_zero.mp h4).resolve_left two_ne_zero)

/-- two electrons on two positions -/
example : ∃ w, stateVal (!![0, 1; 0, 0] : Matrix (Fin 2) (Fin 2) ℂ) (id : Fin (2 * 1) → Fin 2) = .fin w := by
  have hs := skewOcc_skew (!![0, 1; 0, 0] : Matrix (Fin 2) (Fin 2) ℂ) (id : Fin (2 * 1) → Fin 2)
  have h0 : pfaffian (skewOcc (!![0, 1; 0, 0] : Matrix (Fin 2) (Fin 2) ℂ) (id : Fin (2 * 1) → Fin 2)) ≠ 0 := by
    rw [pf_block (r := 0) hs (fun j => j.elim0), pf_empty]
    have : skewOcc (!![0, 1; 0, 0] : Matrix (Fin 2) (Fin 2) ℂ) (id : Fin (2 * 1) → Fin 2) 0 1 = 1 := by
      show (!![0, 1; 0, 0] : Matrix (Fin 2) (Fin 2) ℂ) 0 1 - (!![0, 1; 0, 0] : Matrix (Fin 2) (Fin 2) ℂ) 1 0 = 1
      simp
    rw [this]; simp
  obtain ⟨w, h, _⟩ := C42_log _ hs h0
  exact ⟨w, h⟩

/-! ## C64 -/

/-- The spin rotation about the `y` axis on orbitals (up block first). -/
noncomputable def spinRotation (L : ℕ) (angle : ℝ) : Matrix (Fin L ⊕ Fin L) (Fin L ⊕ Fin L) ℂ :=
  Matrix.fromBlocks ((Real.cos (angle / 2) : ℂ) • 1) (-(Real.sin (angle / 2) : ℂ) • 1) ((Real.sin (angle / 2) : ℂ) • 1)
    ((Real.cos (angle / 2) : ℂ) • 1)

/-- **C64**: the pairing matrix used for the rotation angle is the pairing matrix `f` of an up and a down electron with both electrons
rotated about the `y` axis by that angle. -/
theorem C64_rotation {L : ℕ} (f : Matrix (Fin L) (Fin L) ℂ) (angle : ℝ) :
    rotated f angle = spinRotation L angle * Matrix.fromBlocks 0 f 0 0 * (spinRotation L angle).transpose := by
  unfold rotated spinRotation
  rw [Matrix.fromBlocks_transpose, Matrix.fromBlocks_multiply, Matrix.fromBlocks_multiply]
  congr 1 <;>
  · ext i j
    simp [Matrix.transpose_smul, Matrix.smul_apply]
    try ring

/-- **C64**: the default (angle zero, character one) is the unrotated state. -/
theorem C64_default {L : ℕ} (f : Matrix (Fin L) (Fin L) ℂ) : rotated f 0 = Matrix.fromBlocks 0 f 0 0 := by
  unfold rotated
  congr 1 <;> (ext i j; simp)

/-- the rotation is a rotation -/
theorem spinRotation_orthogonal (L : ℕ) (angle : ℝ) : spinRotation L angle * (spinRotation L angle).transpose = 1 := by
  unfold spinRotation
  rw [Matrix.fromBlocks_transpose, Matrix.fromBlocks_multiply, ← Matrix.fromBlocks_one]
  have h' : Complex.sin (angle / 2) ^ 2 + Complex.cos (angle / 2) ^ 2 = 1 := Complex.sin_sq_add_cos_sq _
  congr 1 <;>
  · ext i j
    simp [Matrix.transpose_smul, Matrix.smul_apply, Matrix.one_apply]
    try (split_ifs <;> first | linear_combination h' | ring)

/-! ## C65 -/

theorem sumAmp_of (l : List LogNum) (g : LogNum → ℂ) (h : ∀ v ∈ l, v.amp = some (g v)) : sumAmp l = some (l.map g).sum := by
  have : l.mapM LogNum.amp = some (l.map g) := by
    induction l with
    | nil => rfl
    | cons v l ih =>
      rw [List.mapM_cons, h v (by simp), ih fun w hw => h w (by simp [hw])]
      rfl
  rw [sumAmp, this]
  rfl

theorem sumAmp_map {α : Type} (l : List α) (val : α → LogNum) (g : α → ℂ) (h : ∀ a ∈ l, (val a).amp = some (g a)) :
    sumAmp (l.map val) = some (l.map g).sum := by
  have : (l.map val).mapM LogNum.amp = some (l.map g) := by
    induction l with
    | nil => rfl
    | cons v l ih =>
      rw [List.map_cons, List.mapM_cons, h v (by simp), ih fun w hw => h w (by simp [hw])]
      rfl
  rw [sumAmp, this]
  rfl

theorem stateVal_amp {I : Type} (F : Matrix I I ℂ) (y : Fin (2 * n) → I) (h : pfaffian (skewOcc F y) ≠ 0) :
    (stateVal F y).amp = some (pfaffian (skewOcc F y)) := by
  obtain ⟨w, h1, h2⟩ := C42_log _ (skewOcc_skew F y) h
  rw [stateVal, h1, LogNum.amp, h2]

/-- **C65**: the zero-magnetization Pfaffian gives, for EVERY configuration of EVERY batch, the character-weighted sum over rotation
angles and symmetry images of the Pfaffians (non-negative characters, as those of the Gauss-Legendre quadrature; non-zero
Pfaffians, see C42). -/
theorem C65_zero_magnetization {L : ℕ} (f : Matrix (Fin L) (Fin L) ℂ) (S2 : List (ℝ × ℝ)) (hc : ∀ ac ∈ S2, 0 ≤ ac.2)
    (ys : List (List (Fin (2 * n) → Fin L ⊕ Fin L)))
    (h0 : ∀ imgs ∈ ys, ∀ y ∈ imgs, ∀ ac ∈ S2, pfaffian (skewOcc (rotated f ac.1) y) ≠ 0) :
    zeroMagCall f S2 ys = ys.map fun imgs =>
      some (S2.map fun ac => (ac.2 : ℂ) * (imgs.map fun y => pfaffian (skewOcc (rotated f ac.1) y)).sum).sum := by
  unfold zeroMagCall
  apply List.map_congr_left
  intro imgs himgs
  have e1 : (S2.flatMap fun ac => imgs.map fun y => (stateVal (rotated f ac.1) y).plus (realLog ac.2)) =
      (S2.flatMap fun ac => imgs.map fun y => (ac, y)).map fun p => (stateVal (rotated f p.1.1) p.2).plus (realLog p.1.2) := by
    rw [List.map_flatMap]
    simp [List.map_map, Function.comp_def]
  rw [e1, sumAmp_map _ _ (fun p => (p.1.2 : ℂ) * pfaffian (skewOcc (rotated f p.1.1) p.2))]
  · congr 1
    rw [List.map_flatMap]
    clear h0 e1 hc
    induction S2 with
    | nil => rfl
    | cons ac S2 ih =>
      rw [List.flatMap_cons, List.sum_append, ih, List.map_cons, List.sum_cons, List.map_map]
      congr 1
      rw [← List.sum_map_mul_left]
      rfl
  · rintro ⟨ac, y⟩ hp
    simp only [List.mem_flatMap, List.mem_map, Prod.mk.injEq] at hp
    obtain ⟨ac', hac, y', hy, rfl, rfl⟩ := hp
    obtain ⟨w, h1, h2⟩ := C42_log _ (skewOcc_skew (rotated f ac'.1) y') (h0 imgs himgs y' hy ac' hac)
    have h3 := hc ac' hac
    simp only [stateVal, h1, realLog]
    rw [if_neg (by linarith), ← h2]
    split_ifs with h4
    · simp [LogNum.plus, LogNum.amp, h4]
    · simp only [LogNum.plus, LogNum.amp]
      rw [Complex.exp_add, ← Complex.ofReal_exp, Real.exp_log (lt_of_le_of_ne h3 (Ne.symm h4)), mul_comm]

/-- A negative character makes the amplitude NaN: its logarithm is taken as a real number. -/
theorem C65_negative_character {L m : ℕ} (f : Matrix (Fin L) (Fin L) ℂ) (a c : ℝ) (hc : c < 0) (y : Fin m → Fin L ⊕ Fin L) :
    zeroMagCall f [(a, c)] [[y]] = [none] := by
  unfold zeroMagCall
  simp only [List.map_cons, List.map_nil, List.flatMap_cons, List.flatMap_nil, List.append_nil]
  rw [realLog, if_pos hc]
  rcases h : stateVal (rotated f a) y <;> simp [LogNum.plus, sumAmp, LogNum.amp]

/-- **C65** for the general Pfaffian state, as far as it holds: a batch with a single configuration. -/
theorem C65_general_partial {I : Type} (F : Matrix I I ℂ) (imgs : List (Fin (2 * n) → I))
    (h0 : ∀ y ∈ imgs, pfaffian (skewOcc F y) ≠ 0) :
    generalCall F [imgs] = [some (imgs.map fun y => pfaffian (skewOcc F y)).sum] := by
  unfold generalCall
  simp only [List.flatMap_cons, List.flatMap_nil, List.append_nil]
  rw [sumAmp_map _ _ (fun y => pfaffian (skewOcc F y)) fun y hy => stateVal_amp F y (h0 y hy)]

/-- What is missing: with the default output transformation the general Pfaffian state sums the amplitudes of ALL configurations of a
batch, and returns a single number for a batch of any size. -/
theorem C65_general_fails {I : Type} (F : Matrix I I ℂ) (ys : List (List (Fin (2 * n) → I)))
    (h0 : ∀ imgs ∈ ys, ∀ y ∈ imgs, pfaffian (skewOcc F y) ≠ 0) :
    (generalCall F ys).length = 1 ∧
    generalCall F ys = [some (ys.map fun imgs => (imgs.map fun y => pfaffian (skewOcc F y)).sum).sum] := by
  refine ⟨rfl, ?_⟩
  unfold generalCall
  rw [← List.map_flatMap, sumAmp_map _ _ (fun y => pfaffian (skewOcc F y))]
  · congr 2
    clear h0
    induction ys with
    | nil => rfl
    | cons y ys ih =>
      simp only [List.flatMap_cons, List.map_append, List.sum_append, List.map_cons, List.sum_cons]
      congr 1
  · intro y hy
    simp only [List.mem_flatMap] at hy
    obtain ⟨imgs, h1, h2⟩ := hy
    exact stateVal_amp F y (h0 imgs h1 y h2)

/-- one site, an up and a down electron, no rotation: the hypotheses of C65 hold -/
example : let f : Matrix (Fin 1) (Fin 1) ℂ := fun _ _ => 2
    let y : Fin (2 * 1) → Fin 1 ⊕ Fin 1 := fun k => if k.val = 0 then .inl 0 else .inr 0
    pfaffian (skewOcc (rotated f 0) y) = 2 := by
  intro f y
  rw [pf_block (r := 0) (skewOcc_skew _ _) (fun j => j.elim0), pf_empty, C64_default]
  have : skewOcc (Matrix.fromBlocks 0 f 0 0) y 0 1 = 2 := by
    show Matrix.fromBlocks 0 f 0 0 (y 0) (y 1) - Matrix.fromBlocks 0 f 0 0 (y 1) (y 0) = 2
    have h0 : y 0 = .inl 0 := rfl
    have h1 : y 1 = .inr 0 := rfl
    rw [h0, h1, Matrix.fromBlocks_apply₁₂, Matrix.fromBlocks_apply₂₁]
    simp [f]
  rw [this, mul_one]

end GPSKet.Pfaffian
