import Verif.Model.MinSR
import Mathlib.LinearAlgebra.Matrix.DotProduct
import Mathlib.LinearAlgebra.Matrix.Rank
import Mathlib.Analysis.Complex.Basic
import Mathlib.Data.Complex.BigOperators
import Mathlib.Logic.Equiv.Fin.Basic
import Mathlib.Data.Fin.VecNotation
import Mathlib.Algebra.BigOperators.Field
import Mathlib.Tactic.Ring
import Mathlib.Tactic.FieldSimp
import Mathlib.Tactic.FinCases
import Mathlib.Tactic.NormNum
import Mathlib.Tactic.Linarith
import Mathlib.Tactic.LinearCombination

/-! # Properties C47 and C48: the minSR driver -/

namespace GPSKet.Props
open MinSR Matrix ComplexOrder

variable {R K B P : ℕ}

/-! ## C48: the index map -/

theorem index_eq (s : Sample R K B) : index s = (s.2.1.val * R + s.1) * B + s.2.2 := by
  obtain ⟨r, i, b⟩ := s
  have hR : 0 < R := Nat.lt_of_le_of_lt (Nat.zero_le _) r.isLt
  obtain ⟨q, rfl⟩ : ∃ q, R = q + 1 := ⟨R - 1, by omega⟩
  simp only [index, Nat.add_sub_cancel]
  ring

theorem index_lt (s : Sample R K B) : index s < K * R * B := by
  rw [index_eq]
  obtain ⟨r, i, b⟩ := s
  have h1 : i.val * R + r.val + 1 ≤ K * R := by
    have : (i.val + 1) * R ≤ K * R := Nat.mul_le_mul_right _ i.isLt
    rw [Nat.succ_mul] at this
    have := r.isLt
    omega
  have h2 : (i.val * R + r.val + 1) * B ≤ K * R * B := Nat.mul_le_mul_right _ h1
  rw [Nat.succ_mul] at h2
  have := b.isLt
  simp only
  omega

/-- The position of a sample in the kernel matrix. -/
def pos (s : Sample R K B) : Fin (K * R * B) := ⟨index s, index_lt s⟩

theorem restack_pos (s : Sample R K B) : restack (pos s) = s := by
  obtain ⟨r, i, b⟩ := s
  have hi : index (r, i, b) = (i.val * R + r) * B + b := index_eq _
  have h1 : ((i.val * R + r) * B + b) / B = i.val * R + r := by
    rw [Nat.mul_comm, Nat.mul_add_div (Nat.lt_of_le_of_lt (Nat.zero_le _) b.isLt), Nat.div_eq_of_lt b.isLt, Nat.add_zero]
  have h2 : ((i.val * R + r) * B + b) % B = b := by
    rw [Nat.mul_comm, Nat.mul_add_mod, Nat.mod_eq_of_lt b.isLt]
  have h3 : (i.val * R + r) / R = i := by
    rw [Nat.mul_comm, Nat.mul_add_div (Nat.lt_of_le_of_lt (Nat.zero_le _) r.isLt), Nat.div_eq_of_lt r.isLt, Nat.add_zero]
  have h4 : (i.val * R + r) % R = r := by
    rw [Nat.mul_comm, Nat.mul_add_mod, Nat.mod_eq_of_lt r.isLt]
  simp only [restack, pos, hi, h1, h2, h3, h4]

theorem pos_restack (p : Fin (K * R * B)) : pos (restack p) = p := by
  apply Fin.ext
  have hi : index (restack p) = _ := index_eq _
  rw [show (pos (restack p)).val = index (restack p) from rfl, hi]
  simp only [restack]
  rw [Nat.div_add_mod', Nat.div_add_mod']

/-- Samples and positions are in bijection. -/
def posEquiv : Sample R K B ≃ Fin (K * R * B) := ⟨pos, restack, restack_pos, pos_restack⟩

theorem foldl_update {α : Type} [DecidableEq α] (l : List (α × ℂ)) (f : α → ℂ) (a : α) (v : ℂ)
    (h : ∀ w ∈ l, w.1 = a → w.2 = v) (hf : f a = v ∨ ∃ w ∈ l, w.1 = a) :
    l.foldl (fun (f : α → ℂ) w => Function.update f w.1 w.2) f a = v := by
  induction l generalizing f with
  | nil => simpa using hf
  | cons w l ih =>
    rw [List.foldl_cons]
    apply ih _ (fun w' hw' => h w' (List.mem_cons_of_mem _ hw'))
    by_cases hw : w.1 = a
    · left; rw [← hw, Function.update_self]; exact h w List.mem_cons_self hw
    · rcases hf with hf | ⟨w', hw', ha⟩
      · left; rw [Function.update_of_ne (Ne.symm hw)]; exact hf
      · rcases List.mem_cons.mp hw' with rfl | hw'
        · exact absurd ha hw
        · exact Or.inr ⟨w', hw', ha⟩

theorem mem_gathered (i : Fin K) (s : Sample R K B) : s ∈ gathered i ↔ s.2.1 = i := by
  obtain ⟨r, i', b⟩ := s
  simp only [gathered, List.mem_flatMap, List.mem_map, List.mem_finRange, true_and, Prod.mk.injEq]
  constructor
  · rintro ⟨_, _, _, h, _⟩; exact h.symm
  · intro h; exact ⟨r, b, rfl, h.symm, rfl⟩

theorem kernel_pos (C : Sample R K B → Fin P → ℂ) (s t : Sample R K B) :
    kernel C (pos s) (pos t) = ∑ k, C s k * (starRingEnd ℂ) (C t k) := by
  unfold kernel
  have inj : ∀ s s' : Sample R K B, index s = index s' → s = s' := by
    intro s s' h
    have : pos s = pos s' := Fin.ext h
    rw [← restack_pos s, this, restack_pos]
  apply foldl_update
  · intro w hw hwa
    simp only [writes, List.mem_flatMap, List.mem_map] at hw
    obtain ⟨i, _, j, _, s', _, t', _, rfl⟩ := hw
    simp only [pos, Prod.mk.injEq] at hwa
    rw [inj _ _ hwa.1, inj _ _ hwa.2]
  · right
    refine ⟨((index s, index t), ∑ k, C s k * (starRingEnd ℂ) (C t k)), ?_, rfl⟩
    simp only [writes, List.mem_flatMap, List.mem_map]
    exact ⟨s.2.1, List.mem_finRange _, t.2.1, List.mem_finRange _, s, (mem_gathered _ _).mpr rfl, t, (mem_gathered _ _).mpr rfl, rfl⟩

/-- C48: for every number of ranks, chunks and chunk size, the index map is a bijection between the samples and the rows of the
kernel matrix; the entry at the positions of two samples is the product of their rows; the right-hand side has the local energy of
a sample at the position of the sample; and the solution component at that position is the one which reaches the rank, chunk and
row of the sample. -/
theorem C48_index_map (C : Sample R K B → Fin P → ℂ) (e : Sample R K B → ℂ) (x : Fin (K * R * B) → ℂ) :
    ∃ φ : Sample R K B ≃ Fin (K * R * B), (∀ s, (φ s).val = index s) ∧
      (∀ s t, kernel C (φ s) (φ t) = ∑ k, C s k * (starRingEnd ℂ) (C t k)) ∧
      (∀ s, e (restack (φ s)) = e s) ∧ (∀ s, scattered x s = x (φ s)) := by
  refine ⟨posEquiv, fun _ => rfl, kernel_pos C, fun s => by rw [show restack (posEquiv s) = s from restack_pos s], ?_⟩
  intro s
  have hi := index_eq s
  have hlt := index_lt s
  unfold scattered
  rw [dif_pos (by rw [← hi]; exact hlt)]
  congr 1
  exact Fin.ext hi.symm

/-! ## C47: the update solves the SR equation -/

theorem chunkSum_eq {α : Type} [AddCommMonoid α] (f : Sample R K B → α) : chunkSum f = ∑ s, f s := by
  unfold chunkSum
  rw [Fintype.sum_prod_type, Finset.sum_comm]
  apply Finset.sum_congr rfl
  intro r _
  rw [Fintype.sum_prod_type]

/-- Specification: `x` is a least-squares solution of `A x = b` (an exact one, when there is one): what `jnp.linalg.lstsq` returns
up to its cut-off. -/
def LeastSquares {n : Type} [Fintype n] (A : Matrix n n ℂ) (b x : n → ℂ) : Prop := Aᴴ *ᵥ (A *ᵥ x - b) = 0

/-- The centred rows used by the driver. -/
noncomputable def rows (rescale : Bool) (O : Sample R K B → Fin P → ℂ) (counts : Sample R K B → ℝ) : Matrix (Sample R K B) (Fin P) ℂ :=
  fun s k => jacobian rescale O counts s k - oAvg (jacobian rescale O counts) counts k

theorem update_eq (rescale : Bool) (solver) (O : Sample R K B → Fin P → ℂ) (E : Sample R K B → ℂ) (counts : Sample R K B → ℝ)
    (hs : ∀ A b, LeastSquares A b (solver A b)) :
    ∃ ε : Sample R K B → ℂ, update rescale solver O E counts = (rows rescale O counts)ᴴ *ᵥ ε ∧
      (rows rescale O counts)ᴴ *ᵥ ((rows rescale O counts * (rows rescale O counts)ᴴ) *ᵥ ε - centred E counts) = 0 := by
  set C := rows rescale O counts with hC
  set b : Fin (K * R * B) → ℂ := fun p => centred E counts (restack p) with hb
  set x := solver (kernel C) b with hx
  obtain ⟨φ, _, hk, _, hsc⟩ := C48_index_map (P := P) C (centred E counts) x
  have hkern : (kernel C).submatrix posEquiv posEquiv = C * Cᴴ := by
    ext s t
    rw [submatrix_apply, mul_apply]
    exact kernel_pos C s t
  refine ⟨fun s => x (posEquiv s), ?_, ?_⟩
  · funext k
    unfold update
    simp only
    rw [chunkSum_eq]
    simp only [mulVec, dotProduct, conjTranspose_apply]
    apply Finset.sum_congr rfl
    intro s _
    obtain ⟨φ', h1, _, _, h2⟩ := C48_index_map (P := P) C (centred E counts) x
    have : φ' s = posEquiv s := Fin.ext (h1 s)
    have h2' := h2 s
    rw [this] at h2'
    change _ * scattered x s = _
    rw [h2']
    rfl
  · have h := hs (kernel C) b
    unfold LeastSquares at h
    have hr : kernel C = (C * Cᴴ).submatrix posEquiv.symm posEquiv.symm := by
      rw [← hkern]; ext p q; simp
    have hv : (C * Cᴴ) *ᵥ (fun s => x (posEquiv s)) - centred E counts = fun s => (kernel C *ᵥ x - b) (posEquiv s) := by
      funext s
      simp only [Pi.sub_apply]
      congr 1
      · rw [hr]
        simp only [mulVec, dotProduct, submatrix_apply, Equiv.symm_apply_apply]
        rw [← Equiv.sum_comp posEquiv (fun q => (C * Cᴴ) s (posEquiv.symm q) * x q)]
        simp
      · simp only [hb]
        rw [show restack (posEquiv s) = s from restack_pos s]
    rw [hv]
    have hz : (C * Cᴴ) *ᵥ (fun s => (kernel C *ᵥ x - b) (posEquiv s)) = 0 := by
      funext s
      have h1 := congrFun h (posEquiv s)
      rw [← hx] at h1
      rw [Pi.zero_apply] at h1 ⊢
      rw [← h1]
      have hherm : (kernel C)ᴴ = kernel C := by
        rw [hr, conjTranspose_submatrix, conjTranspose_mul, conjTranspose_conjTranspose]
      rw [hherm]
      generalize kernel C *ᵥ x - b = w
      rw [hr]
      simp only [mulVec, dotProduct, submatrix_apply, Equiv.symm_apply_apply]
      rw [← Equiv.sum_comp posEquiv]
      apply Finset.sum_congr rfl
      intro t _
      rw [Equiv.symm_apply_apply]
    exact (self_mul_conjTranspose_mulVec_eq_zero C _).mp hz

/-- C47, in terms of the rows and residuals the driver uses: `Cᴴ C dp = Cᴴ e`, and `dp` is the solution of smallest norm. -/
theorem C47_normal_equation (rescale : Bool) (solver) (O : Sample R K B → Fin P → ℂ) (E : Sample R K B → ℂ)
    (counts : Sample R K B → ℝ) (hs : ∀ A b, LeastSquares A b (solver A b)) :
    ((rows rescale O counts)ᴴ * rows rescale O counts) *ᵥ update rescale solver O E counts =
      (rows rescale O counts)ᴴ *ᵥ centred E counts ∧
    ∀ y : Fin P → ℂ, ((rows rescale O counts)ᴴ * rows rescale O counts) *ᵥ y = (rows rescale O counts)ᴴ *ᵥ centred E counts →
      ∑ k, ‖update rescale solver O E counts k‖ ^ 2 ≤ ∑ k, ‖y k‖ ^ 2 := by
  obtain ⟨ε, h1, h2⟩ := update_eq rescale solver O E counts hs
  set C := rows rescale O counts
  have heq : (Cᴴ * C) *ᵥ (Cᴴ *ᵥ ε) = Cᴴ *ᵥ centred E counts := by
    rw [mulVec_sub, sub_eq_zero] at h2
    rw [← h2, mulVec_mulVec, mulVec_mulVec, Matrix.mul_assoc]
  rw [h1]
  refine ⟨heq, fun y hy => ?_⟩
  set x := Cᴴ *ᵥ ε
  have hz : C *ᵥ (y - x) = 0 := by
    apply (conjTranspose_mul_self_mulVec_eq_zero C _).mp
    rw [mulVec_sub, hy, heq, sub_self]
  have horth : ∑ k, (starRingEnd ℂ) (x k) * (y k - x k) = 0 := by
    have h3 : star x ⬝ᵥ (y - x) = star ε ⬝ᵥ (C *ᵥ (y - x)) := by
      rw [dotProduct_mulVec, star_mulVec, conjTranspose_conjTranspose]
    rw [hz, dotProduct_zero] at h3
    exact h3
  have hsq : ∀ k, ‖y k‖ ^ 2 = ‖x k‖ ^ 2 + ‖y k - x k‖ ^ 2 + 2 * ((starRingEnd ℂ) (x k) * (y k - x k)).re := by
    intro k
    simp only [← Complex.normSq_eq_norm_sq, Complex.normSq_apply, Complex.mul_re, Complex.conj_re, Complex.conj_im, Complex.sub_re, Complex.sub_im]
    ring
  simp only [hsq, Finset.sum_add_distrib, ← Finset.mul_sum]
  rw [show ∑ i, ((starRingEnd ℂ) (x i) * (y i - x i)).re = (∑ i, (starRingEnd ℂ) (x i) * (y i - x i)).re from (Complex.re_sum _ _).symm, horth, Complex.zero_re, mul_zero, add_zero]
  linarith [Finset.sum_nonneg fun (k : Fin P) (_ : k ∈ Finset.univ) => sq_nonneg ‖y k - x k‖]

/-! ### In terms of the derivatives and energies of a Monte-Carlo state -/

/-- Specification: the mean over `N` samples. -/
noncomputable def sampleMean {S : Type} [Fintype S] (f : S → ℂ) : ℂ := (∑ s, f s) / (Fintype.card S : ℂ)

/-- Specification: the quantum geometric tensor `S = ⟨ΔO* ΔO⟩`. -/
noncomputable def srMatrix {S : Type} [Fintype S] (O : S → Fin P → ℂ) (k l : Fin P) : ℂ :=
  sampleMean fun s => (starRingEnd ℂ) (O s k - sampleMean fun s => O s k) * (O s l - sampleMean fun s => O s l)

/-- Specification: the force `F = ⟨ΔO* ΔE⟩`. -/
noncomputable def srForce {S : Type} [Fintype S] (O : S → Fin P → ℂ) (E : S → ℂ) (k : Fin P) : ℂ :=
  sampleMean fun s => (starRingEnd ℂ) (O s k - sampleMean fun s => O s k) * (E s - sampleMean E)

theorem card_sample : (Fintype.card (Sample R K B) : ℝ) = ((R * (K * B) : ℕ) : ℝ) := by
  simp [Sample]

theorem uniform_cast (s : Sample R K B) : ((uniformCounts s : ℝ) : ℂ) = 1 / (Fintype.card (Sample R K B) : ℂ) := by
  unfold uniformCounts
  rw [← card_sample]; push_cast; rfl

theorem energyMean_uniform (E : Sample R K B → ℂ) : energyMean E uniformCounts = sampleMean E := by
  unfold energyMean sampleMean
  rw [Fintype.sum_prod_type, Finset.sum_div]
  apply Finset.sum_congr rfl
  intro r _
  rw [Finset.sum_div]
  apply Finset.sum_congr rfl
  intro s _
  rw [uniform_cast]; ring

/-- The common square root of the uniform weights. -/
noncomputable def rootCount (R K B : ℕ) : ℂ := (Real.sqrt (1 / ((R * (K * B) : ℕ) : ℝ)) : ℂ)

theorem rootCount_mul : rootCount R K B * rootCount R K B = 1 / (Fintype.card (Sample R K B) : ℂ) := by
  unfold rootCount
  rw [← Complex.ofReal_mul, Real.mul_self_sqrt (by positivity), ← card_sample]; push_cast; rfl

theorem rootCount_conj : (starRingEnd ℂ) (rootCount R K B) = rootCount R K B := Complex.conj_ofReal _

theorem rows_rescaled (O : Sample R K B → Fin P → ℂ) (s : Sample R K B) (k : Fin P) :
    rows true O uniformCounts s k = rootCount R K B * (O s k - sampleMean fun s => O s k) := by
  unfold rows oAvg
  rw [chunkSum_eq]
  simp only [jacobian, if_true, uniform_cast]
  unfold sampleMean
  rw [mul_sub]
  congr 1
  rw [Finset.sum_div, Finset.mul_sum]
  apply Finset.sum_congr rfl
  intro t _
  change rootCount R K B * _ * _ = _
  ring

theorem rows_plain (O : Sample R K B → Fin P → ℂ) (s : Sample R K B) (k : Fin P) :
    rows false O uniformCounts s k = O s k - sampleMean fun s => O s k := by
  unfold rows oAvg
  rw [chunkSum_eq]
  simp only [jacobian, Bool.false_eq_true, if_false, uniform_cast]
  unfold sampleMean
  congr 1
  rw [Finset.sum_div]
  apply Finset.sum_congr rfl
  intro t _
  ring

theorem centred_uniform (E : Sample R K B → ℂ) (s : Sample R K B) :
    centred E uniformCounts s = rootCount R K B * (E s - sampleMean E) := by
  unfold centred
  rw [energyMean_uniform, mul_comm]; rfl

/-- C47: with the plain Monte-Carlo state and NetKet's weighted Jacobian rows, the update computed in sample space solves the
stochastic-reconfiguration equation `S dp = F` and is its solution of smallest norm, for every number of ranks, chunks, samples
and parameters. -/
theorem C47_minSR_is_SR (solver) (O : Sample R K B → Fin P → ℂ) (E : Sample R K B → ℂ)
    (hs : ∀ A b, LeastSquares A b (solver A b)) :
    (∀ k, ∑ l, srMatrix O k l * update true solver O E uniformCounts l = srForce O E k) ∧
    ∀ y : Fin P → ℂ, (∀ k, ∑ l, srMatrix O k l * y l = srForce O E k) →
      ∑ k, ‖update true solver O E uniformCounts k‖ ^ 2 ≤ ∑ k, ‖y k‖ ^ 2 := by
  have hA : ∀ k l, ((rows true O uniformCounts)ᴴ * rows true O uniformCounts) k l = srMatrix O k l := by
    intro k l
    rw [mul_apply]
    unfold srMatrix
    rw [sampleMean, Finset.sum_div]
    apply Finset.sum_congr rfl
    intro s _
    rw [conjTranspose_apply, rows_rescaled, rows_rescaled]
    change (starRingEnd ℂ) _ * _ = _
    rw [map_mul, rootCount_conj, mul_mul_mul_comm, rootCount_mul]
    ring
  have hb : ∀ k, ((rows true O uniformCounts)ᴴ *ᵥ centred E uniformCounts) k = srForce O E k := by
    intro k
    simp only [mulVec, dotProduct]
    unfold srForce
    rw [sampleMean, Finset.sum_div]
    apply Finset.sum_congr rfl
    intro s _
    rw [conjTranspose_apply, rows_rescaled, centred_uniform]
    change (starRingEnd ℂ) _ * _ = _
    rw [map_mul, rootCount_conj, mul_mul_mul_comm, rootCount_mul]
    ring
  have hAm : ∀ y k, (((rows true O uniformCounts)ᴴ * rows true O uniformCounts) *ᵥ y) k = ∑ l, srMatrix O k l * y l := by
    intro y k
    simp only [mulVec, dotProduct, hA]
  obtain ⟨h1, h2⟩ := C47_normal_equation true solver O E uniformCounts hs
  refine ⟨fun k => ?_, fun y hy => h2 y ?_⟩
  · rw [← hAm, h1, hb]
  · funext k; rw [hAm, hy, hb]

/-- C47 for complex parameters in mode `complex`, which is the default: for a wave function that is holomorphic in its parameters (the
derivative with respect to the imaginary part is `i` times the one with respect to the real part), the reassembled update is again the
solution of smallest norm of the equation of the holomorphic mode. -/
theorem C47_complex_parameters (solver) (O : Sample R K B → Fin P → ℂ) (E : Sample R K B → ℂ)
    (hs : ∀ A b, LeastSquares A b (solver A b)) :
    let dp := reassemble (update true solver (splitRows O fun s k => Complex.I * O s k) E uniformCounts)
    (∀ k, ∑ l, srMatrix O k l * dp l = srForce O E k) ∧
    ∀ y : Fin P → ℂ, (∀ k, ∑ l, srMatrix O k l * y l = srForce O E k) → ∑ k, ‖dp k‖ ^ 2 ≤ ∑ k, ‖y k‖ ^ 2 := by
  intro dp
  set Q := splitRows O fun s k => Complex.I * O s k with hQ
  set d := update true solver Q E uniformCounts with hd
  obtain ⟨h1, h2⟩ := C47_minSR_is_SR solver Q E hs
  have eL : ∀ s k, Q s (Fin.castAdd P k) = O s k := fun s k => Fin.addCases_left k
  have eR : ∀ s k, Q s (Fin.natAdd P k) = Complex.I * O s k := fun s k => Fin.addCases_right k
  have mc : ∀ (c : ℂ) (f : Sample R K B → ℂ), (sampleMean fun s => c * f s) = c * sampleMean f := by
    intro c f
    unfold sampleMean
    rw [← Finset.mul_sum, mul_div_assoc]
  have mI := mc Complex.I
  have sLL : ∀ k l, srMatrix Q (Fin.castAdd P k) (Fin.castAdd P l) = srMatrix O k l := by
    intro k l
    unfold srMatrix
    simp only [eL]
  have sLR : ∀ k l, srMatrix Q (Fin.castAdd P k) (Fin.natAdd P l) = Complex.I * srMatrix O k l := by
    intro k l
    unfold srMatrix
    simp only [eL, eR, mI, ← mul_sub]
    rw [← mc]
    congr 1
    funext s
    ring
  have sRL : ∀ k l, srMatrix Q (Fin.natAdd P k) (Fin.castAdd P l) = -Complex.I * srMatrix O k l := by
    intro k l
    unfold srMatrix
    simp only [eL, eR, mI, ← mul_sub, map_mul, Complex.conj_I]
    rw [← mc]
    congr 1
    funext s
    ring
  have sRR : ∀ k l, srMatrix Q (Fin.natAdd P k) (Fin.natAdd P l) = srMatrix O k l := by
    intro k l
    unfold srMatrix
    simp only [eR, mI, ← mul_sub, map_mul, Complex.conj_I]
    congr 1
    funext s
    linear_combination (-(starRingEnd ℂ) (O s k - sampleMean fun s => O s k) * (O s l - sampleMean fun s => O s l)) * Complex.I_mul_I
  have fL : ∀ k, srForce Q E (Fin.castAdd P k) = srForce O E k := by
    intro k
    unfold srForce
    simp only [eL]
  have fR : ∀ k, srForce Q E (Fin.natAdd P k) = -Complex.I * srForce O E k := by
    intro k
    unfold srForce
    simp only [eR, mI, ← mul_sub, map_mul, Complex.conj_I]
    rw [← mc]
    congr 1
    funext s
    ring
  have hdp : ∀ l, dp l = d (Fin.castAdd P l) + Complex.I * d (Fin.natAdd P l) := fun _ => rfl
  constructor
  · intro k
    have := h1 (Fin.castAdd P k)
    rw [Fin.sum_univ_add, fL] at this
    rw [← this, ← Finset.sum_add_distrib]
    refine Finset.sum_congr rfl fun l _ => ?_
    rw [sLL, sLR, hdp]
    ring
  · intro y hy
    have hy2 := h2 (Fin.addCases (fun k => y k / 2) fun k => -Complex.I * y k / 2) (by
      intro k
      rw [Fin.sum_univ_add]
      simp only [Fin.addCases_left, Fin.addCases_right]
      rw [← Finset.sum_add_distrib]
      refine Fin.addCases (fun k => ?_) (fun k => ?_) k
      · rw [fL, ← hy k]
        refine Finset.sum_congr rfl fun l _ => ?_
        rw [sLL, sLR]
        linear_combination (-(srMatrix O k l * y l) / 2) * Complex.I_mul_I
      · rw [fR, ← hy k, Finset.mul_sum]
        refine Finset.sum_congr rfl fun l _ => ?_
        rw [sRL, sRR]
        ring)
    rw [Fin.sum_univ_add, Fin.sum_univ_add] at hy2
    simp only [Fin.addCases_left, Fin.addCases_right] at hy2
    have hR : (∑ k, ‖y k / 2‖ ^ 2) + ∑ k, ‖-Complex.I * y k / 2‖ ^ 2 = (∑ k, ‖y k‖ ^ 2) / 2 := by
      rw [← Finset.sum_add_distrib, Finset.sum_div]
      refine Finset.sum_congr rfl fun k _ => ?_
      simp only [norm_div, norm_mul, norm_neg, Complex.norm_I, one_mul, Complex.norm_ofNat]
      ring
    rw [hR] at hy2
    have hL : ∑ k, ‖dp k‖ ^ 2 ≤ 2 * ((∑ k, ‖d (Fin.castAdd P k)‖ ^ 2) + ∑ k, ‖d (Fin.natAdd P k)‖ ^ 2) := by
      rw [← Finset.sum_add_distrib, Finset.mul_sum]
      refine Finset.sum_le_sum fun k _ => ?_
      have h3 : ‖dp k‖ ≤ ‖d (Fin.castAdd P k)‖ + ‖d (Fin.natAdd P k)‖ := by
        rw [hdp]
        refine (norm_add_le _ _).trans (le_of_eq ?_)
        rw [norm_mul, Complex.norm_I, one_mul]
      have h4 := norm_nonneg (dp k)
      nlinarith [sq_nonneg (‖d (Fin.castAdd P k)‖ - ‖d (Fin.natAdd P k)‖), norm_nonneg (d (Fin.castAdd P k)), norm_nonneg (d (Fin.natAdd P k))]
    linarith

/-- With a NetKet version returning the plain rows the update is too small by the factor `1/√N`: `√N S dp = F`. -/
theorem C47_plain_rows (solver) (O : Sample R K B → Fin P → ℂ) (E : Sample R K B → ℂ)
    (hs : ∀ A b, LeastSquares A b (solver A b)) (k : Fin P) :
    ∑ l, srMatrix O k l * update false solver O E uniformCounts l = rootCount R K B * srForce O E k := by
  have hA : ∀ k l, ((rows false O uniformCounts)ᴴ * rows false O uniformCounts) k l = Fintype.card (Sample R K B) * srMatrix O k l := by
    intro k l
    rw [mul_apply]
    unfold srMatrix
    rw [sampleMean]
    by_cases hN : (Fintype.card (Sample R K B) : ℂ) = 0
    · have : IsEmpty (Sample R K B) := Fintype.card_eq_zero_iff.mp (by exact_mod_cast hN)
      simp
    rw [mul_div_cancel₀ _ hN]
    apply Finset.sum_congr rfl
    intro s _
    rw [conjTranspose_apply, rows_plain, rows_plain]
    rfl
  have hb : ∀ k, ((rows false O uniformCounts)ᴴ *ᵥ centred E uniformCounts) k =
      Fintype.card (Sample R K B) * (rootCount R K B * srForce O E k) := by
    intro k
    simp only [mulVec, dotProduct]
    unfold srForce
    rw [sampleMean]
    by_cases hN : (Fintype.card (Sample R K B) : ℂ) = 0
    · have : IsEmpty (Sample R K B) := Fintype.card_eq_zero_iff.mp (by exact_mod_cast hN)
      simp
    rw [mul_left_comm, mul_div_cancel₀ _ hN, Finset.mul_sum]
    apply Finset.sum_congr rfl
    intro s _
    rw [conjTranspose_apply, rows_plain, centred_uniform]
    change (starRingEnd ℂ) _ * _ = _
    ring
  by_cases hN : (Fintype.card (Sample R K B) : ℂ) = 0
  · have : IsEmpty (Sample R K B) := Fintype.card_eq_zero_iff.mp (by exact_mod_cast hN)
    simp [srMatrix, srForce, sampleMean]
  have h1 := congrFun (C47_normal_equation false solver O E uniformCounts hs).1 k
  rw [hb] at h1
  simp only [mulVec, dotProduct, hA, mul_assoc] at h1
  rw [← Finset.mul_sum] at h1
  exact mul_left_cancel₀ hN h1

/-- Real parameters with a real-valued Jacobian (mode `real`): the real part that is applied solves the real SR equation. -/
theorem C47_real_mode (solver) (O : Sample R K B → Fin P → ℝ) (E : Sample R K B → ℂ)
    (hs : ∀ A b, LeastSquares A b (solver A b)) (k : Fin P) :
    ∑ l, (srMatrix (fun s k => (O s k : ℂ)) k l).re * castReal (update true solver (fun s k => (O s k : ℂ)) E uniformCounts) l =
      (srForce (fun s k => (O s k : ℂ)) E k).re := by
  have h := congrArg Complex.re ((C47_minSR_is_SR solver (fun s k => (O s k : ℂ)) E hs).1 k)
  rw [← h, show (∑ l, srMatrix (fun s k => (O s k : ℂ)) k l * _).re = _ from Complex.re_sum _ _]
  apply Finset.sum_congr rfl
  intro l _
  have him : (srMatrix (fun s k => (O s k : ℂ)) k l).im = 0 := by
    have hr : srMatrix (fun s k => (O s k : ℂ)) k l = (((∑ s, (O s k - (∑ s, O s k) / Fintype.card (Sample R K B)) *
        (O s l - (∑ s, O s l) / Fintype.card (Sample R K B))) / Fintype.card (Sample R K B) : ℝ) : ℂ) := by
      unfold srMatrix sampleMean
      rw [Complex.ofReal_div, Complex.ofReal_sum, Complex.ofReal_natCast]
      congr 1
      apply Finset.sum_congr rfl
      intro s _
      dsimp only
      rw [map_sub, map_div₀, map_sum, Complex.ofReal_mul, Complex.ofReal_sub, Complex.ofReal_sub, Complex.ofReal_div,
        Complex.ofReal_div, Complex.ofReal_sum, Complex.ofReal_sum]
      simp
    rw [hr, Complex.ofReal_im]
  change _ = (srMatrix (fun s k => (O s k : ℂ)) k l * _).re
  rw [Complex.mul_re, him, zero_mul, sub_zero]
  rfl

/-- C47 fails for states with weighted samples (`samples_with_counts`): the mean of the already weighted rows is taken with the
weights once more, so the rows are not centred.  Two samples with weights 9/25 and 16/25, one parameter, `E = O`: the solution of
the weighted SR equation is 1, the update is something else, whatever least-squares solver is used. -/
theorem C47_weighted_samples_fails :
    ∃ (O : Sample 1 1 2 → Fin 1 → ℂ) (E : Sample 1 1 2 → ℂ) (counts : Sample 1 1 2 → ℝ),
      (∀ s, 0 < counts s) ∧ ∑ s, counts s = 1 ∧
      ∀ solver, (∀ A b, LeastSquares A b (solver A b)) →
        (∑ s, (counts s : ℂ) * ((starRingEnd ℂ) (O s 0 - ∑ t, (counts t : ℂ) * O t 0) * (O s 0 - ∑ t, (counts t : ℂ) * O t 0))) *
            update true solver O E counts 0 ≠
          ∑ s, (counts s : ℂ) * ((starRingEnd ℂ) (O s 0 - ∑ t, (counts t : ℂ) * O t 0) * (E s - ∑ t, (counts t : ℂ) * E t)) := by
  refine ⟨fun s _ => s.2.2.val, fun s => s.2.2.val, fun s => if s.2.2 = 0 then 9 / 25 else 16 / 25, ?_, ?_, ?_⟩
  · intro s; dsimp only; split <;> norm_num
  · simp [Fintype.sum_prod_type, Fin.sum_univ_two]; norm_num
  · intro solver hs h
    have h1 := congrFun (C47_normal_equation true solver (fun s (_ : Fin 1) => (s.2.2.val : ℂ)) (fun s : Sample 1 1 2 => (s.2.2.val : ℂ))
      (fun s => if s.2.2 = 0 then 9 / 25 else 16 / 25) hs).1 0
    have e1 : Real.sqrt (9 / 25) = 3 / 5 := by
      rw [show (9 / 25 : ℝ) = (3 / 5) ^ 2 by norm_num]; exact Real.sqrt_sq (by norm_num)
    have e2 : Real.sqrt (16 / 25) = 4 / 5 := by
      rw [show (16 / 25 : ℝ) = (4 / 5) ^ 2 by norm_num]; exact Real.sqrt_sq (by norm_num)
    generalize hx : update true solver (fun s (_ : Fin 1) => (s.2.2.val : ℂ)) (fun s : Sample 1 1 2 => (s.2.2.val : ℂ))
      (fun s => if s.2.2 = 0 then 9 / 25 else 16 / 25) = x at h h1
    have hq : ((27 / 5 / 5 : ℝ) : ℂ) = 27 / 25 := by push_cast; norm_num
    simp only [Fintype.sum_prod_type, Fin.sum_univ_two, Finset.univ_unique, Finset.sum_singleton, Fin.val_zero, Fin.val_one,
      Fin.isValue, if_true, one_ne_zero, if_false, Nat.cast_zero, Nat.cast_one] at h
    simp only [mulVec, dotProduct, mul_apply, conjTranspose_apply, rows, oAvg, jacobian, centred, energyMean, chunkSum,
      Fintype.sum_prod_type, Fin.sum_univ_two, Finset.univ_unique, Finset.sum_singleton, Fin.val_zero, Fin.val_one,
      Fin.isValue, if_true, one_ne_zero, if_false, Nat.cast_zero, Nat.cast_one, e1, e2, Fin.default_eq_zero] at h1
    norm_num [Complex.conj_ofNat] at h h1
    rw [h] at h1
    norm_num at h1

/-- C47 fails for real parameters of a complex wave function (mode `complex`): the real part of the solution of the complex equation
is not a solution of the real SR equation `Re S dp = Re F`, whatever least-squares solver is used.  Two samples, two parameters. -/
theorem C47_complex_mode_fails :
    ∃ (O : Sample 1 1 2 → Fin 2 → ℂ) (E : Sample 1 1 2 → ℂ), ∀ solver, (∀ A b, LeastSquares A b (solver A b)) →
      ∑ l, (srMatrix O 0 l).re * castReal (update true solver O E uniformCounts) l ≠ (srForce O E 0).re := by
  set O : Sample 1 1 2 → Fin 2 → ℂ := fun s k => (if s.2.2 = 0 then 1 else -1) * (if k = 0 then 1 else Complex.I) with hO
  set E : Sample 1 1 2 → ℂ := fun s => if s.2.2 = 0 then 1 else -1 with hE
  have hmO : ∀ k, (sampleMean fun s => O s k) = 0 := by
    intro k; simp [sampleMean, hO, Fintype.sum_prod_type, Fin.sum_univ_two]
  have hmE : sampleMean E = 0 := by
    simp [sampleMean, hE, Fintype.sum_prod_type, Fin.sum_univ_two]
  have hS : ∀ k l, srMatrix O k l = (starRingEnd ℂ) (if k = 0 then 1 else Complex.I) * (if l = 0 then 1 else Complex.I) := by
    intro k l
    unfold srMatrix
    simp only [hmO, sub_zero]
    simp only [sampleMean, hO, Fintype.sum_prod_type, Fin.sum_univ_two, Finset.univ_unique, Finset.sum_singleton, Fintype.card_prod,
      Fintype.card_fin]
    fin_cases k <;> fin_cases l <;> simp
  have hF : ∀ k, srForce O E k = (starRingEnd ℂ) (if k = 0 then 1 else Complex.I) := by
    intro k
    unfold srForce
    simp only [hmO, hmE, sub_zero]
    simp only [sampleMean, hO, hE, Fintype.sum_prod_type, Fin.sum_univ_two, Finset.univ_unique, Finset.sum_singleton,
      Fintype.card_prod, Fintype.card_fin]
    fin_cases k <;> simp
  refine ⟨O, E, fun solver hs h => ?_⟩
  obtain ⟨-, h2⟩ := C47_minSR_is_SR solver O E hs
  have h3 := h2 ![1 / 2, -Complex.I / 2] (by
    intro k
    simp only [hS, hF, Fin.sum_univ_two]
    fin_cases k
    · simp; ring_nf; simp; norm_num
    · simp; ring_nf)
  rw [hF] at h
  simp only [hS, Fin.sum_univ_two, castReal] at h h3
  simp at h h3
  have h4 : ‖update true solver O E uniformCounts 0‖ ^ 2 ≥ 1 := by
    rw [← Complex.normSq_eq_norm_sq, Complex.normSq_apply, h]
    nlinarith [mul_self_nonneg (update true solver O E uniformCounts 0).im]
  have h5 := sq_nonneg ‖update true solver O E uniformCounts 1‖
  norm_num at h3
  linarith

/-- The recorded gradient of the loss is the force for real rows ... -/
theorem C47_loss_grad_real (O : Sample R K B → Fin P → ℝ) (E : Sample R K B → ℂ) (k : Fin P) :
    lossGrad (jacobian true (fun s k => (O s k : ℂ)) uniformCounts) (centred E uniformCounts) k = srForce (fun s k => (O s k : ℂ)) E k := by
  unfold lossGrad srForce
  rw [chunkSum_eq, sampleMean, Finset.sum_div]
  have hsum : ∑ s, (E s - sampleMean E) = 0 := by
    rw [Finset.sum_sub_distrib, Finset.sum_const, Finset.card_univ, nsmul_eq_mul]
    by_cases hN : (Fintype.card (Sample R K B) : ℂ) = 0
    · have : IsEmpty (Sample R K B) := Fintype.card_eq_zero_iff.mp (by exact_mod_cast hN)
      simp
    unfold sampleMean
    rw [mul_div_cancel₀ _ hN, sub_self]
  have hc : (starRingEnd ℂ) (sampleMean fun s => (O s k : ℂ)) = sampleMean fun s => (O s k : ℂ) := by
    unfold sampleMean
    rw [map_div₀, map_sum]
    simp
  have h1 : ∀ s, (starRingEnd ℂ) ((O s k : ℂ) - sampleMean fun s => (O s k : ℂ)) * (E s - sampleMean E) / Fintype.card (Sample R K B) =
      (O s k : ℂ) * (E s - sampleMean E) / Fintype.card (Sample R K B) -
        (sampleMean fun s => (O s k : ℂ)) / Fintype.card (Sample R K B) * (E s - sampleMean E) := by
    intro s
    rw [map_sub, hc, Complex.conj_ofReal]; ring
  simp only [h1, Finset.sum_sub_distrib]
  rw [← Finset.mul_sum, hsum, mul_zero, sub_zero]
  apply Finset.sum_congr rfl
  intro s _
  rw [centred_uniform]
  simp only [jacobian, if_true]
  change rootCount R K B * _ * _ = _
  rw [mul_mul_mul_comm, rootCount_mul]
  ring

/-- ... but not for complex ones: the rows are not conjugated. -/
theorem C47_loss_grad_fails : ∃ (O : Sample 1 1 2 → Fin 1 → ℂ) (E : Sample 1 1 2 → ℂ),
    lossGrad (jacobian true O uniformCounts) (centred E uniformCounts) 0 ≠ srForce O E 0 := by
  refine ⟨fun s _ => if s.2.2 = 0 then Complex.I else -Complex.I, fun s => if s.2.2 = 0 then 1 else -1, ?_⟩
  unfold lossGrad srForce
  rw [chunkSum_eq]
  simp only [centred_uniform]
  simp only [jacobian, sampleMean, Fintype.sum_prod_type, Fin.sum_univ_two, Finset.univ_unique, Finset.sum_singleton, Fintype.card_prod,
    Fintype.card_fin, if_true, one_ne_zero, if_false]
  change rootCount 1 1 2 * _ * (rootCount 1 1 2 * _) + rootCount 1 1 2 * _ * (rootCount 1 1 2 * _) ≠ _
  rw [mul_mul_mul_comm, rootCount_mul, mul_mul_mul_comm (rootCount 1 1 2), rootCount_mul]
  intro h
  have := congrArg Complex.im h
  simp at this
  norm_num at this

/-- The hypothesis on the solver is satisfiable: every equation has a least-squares solution. -/
theorem exists_leastSquares {n : Type} [Fintype n] [DecidableEq n] : ∃ solver : Matrix n n ℂ → (n → ℂ) → (n → ℂ), ∀ A b, LeastSquares A b (solver A b) := by
  have h : ∀ (A : Matrix n n ℂ) (b : n → ℂ), ∃ x, LeastSquares A b x := by
    intro A b
    have hle : LinearMap.range (Aᴴ * A).mulVecLin ≤ LinearMap.range Aᴴ.mulVecLin := by
      rintro _ ⟨x, rfl⟩
      exact ⟨A *ᵥ x, by simp [mulVecLin_apply, mulVec_mulVec]⟩
    have heq : LinearMap.range (Aᴴ * A).mulVecLin = LinearMap.range Aᴴ.mulVecLin := by
      apply Submodule.eq_of_le_of_finrank_eq hle
      have h1 : (Aᴴ * A).rank = Aᴴ.rank := by rw [rank_conjTranspose_mul_self, rank_conjTranspose]
      exact h1
    obtain ⟨x, hx⟩ : Aᴴ *ᵥ b ∈ LinearMap.range (Aᴴ * A).mulVecLin := by
      rw [heq]; exact ⟨b, rfl⟩
    refine ⟨x, ?_⟩
    unfold LeastSquares
    rw [mulVec_sub, mulVec_mulVec, sub_eq_zero]
    exact hx
  exact ⟨fun A b => (h A b).choose, fun A b => (h A b).choose_spec⟩

end GPSKet.Props
