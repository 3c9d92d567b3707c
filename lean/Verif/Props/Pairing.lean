import Verif.Model.Pairing
import Mathlib.Tactic.Ring
import Mathlib.Tactic.NormNum
import Mathlib.Tactic.FieldSimp
import Mathlib.Algebra.BigOperators.Field

/-!
# Properties of the alignment of samples and local energies (C131) and of the reported statistics (C132)
-/

namespace GPSKet.Pairing

open List

variable {α C : Type}

/-! ## Lemmas on arrays -/

theorem T_T (a : Arr α) : a.T.T = a := rfl

/-- The local energies with the axes of the samples, flattened. -/
theorem flat_loc (loc : C → ℂ) (samples : Arr C) :
    (⟨samples.rows, samples.cols, fun i j => loc (samples.at' i j)⟩ : Arr ℂ).flat = samples.flat.map loc := by
  unfold Arr.flat
  simp only [List.map_flatMap, List.map_map]
  rfl

theorem zip_map_self {β : Type} (l : List α) (f : α → β) : l.zip (l.map f) = l.map fun s => (s, f s) := by
  induction l with
  | nil => rfl
  | cons a l ih => rw [List.map_cons, List.zip_cons_cons, ih, List.map_cons]

theorem flat_two (a : Arr α) (hr : 2 ≤ a.rows) (hc : 2 ≤ a.cols) : ∃ l, a.flat = a.at' 0 0 :: a.at' 0 1 :: l := by
  obtain ⟨rows, cols, f⟩ := a
  obtain ⟨r, rfl⟩ : ∃ r, rows = r + 1 := ⟨rows - 1, by simp only at hr; omega⟩
  obtain ⟨c, rfl⟩ : ∃ c, cols = c + 2 := ⟨cols - 2, by simp only at hc; omega⟩
  unfold Arr.flat
  simp only [List.range_succ_eq_map, List.flatMap_cons, List.map_cons, List.cons_append]
  exact ⟨_, rfl⟩

theorem flatMap_one (l : List ℕ) (f : ℕ → α) : (l.flatMap fun i => [f i]) = l.map f := by
  induction l with
  | nil => rfl
  | cons a l ih => rw [List.flatMap_cons, ih]; rfl

theorem flat_T_of_one (a : Arr α) (h : a.rows = 1 ∨ a.cols = 1) : a.T.flat = a.flat := by
  obtain ⟨rows, cols, f⟩ := a
  rcases h with h | h <;> simp only at h <;> subst h <;>
    simp [Arr.flat, Arr.T, flatMap_one]

theorem pairs_of_eq (loc : C → ℂ) (samples : Arr C) : samples.flat.zip (samples.flat.map loc) = samples.flat.map fun s => (s, loc s) :=
  zip_map_self _ _

/-! ## C131 -/

/-- C131: where `local_estimators` exchanges the axes, the minSR driver pairs every sample with its own local energy, whatever the
numbers of chains and of samples per chain. -/
theorem C131_minsr (loc : C → ℂ) (samples : Arr C) :
    minSRPairs true loc samples = samples.flat.map fun s => (s, loc s) := by
  rw [← zip_map_self, ← flat_loc]
  rfl

/-- C131: where it does not, the SR-RMSProp driver does. -/
theorem C131_sr_rmsprop (loc : C → ℂ) (samples : Arr C) :
    srRMSPropPairs false loc samples = samples.flat.map fun s => (s, loc s) := by
  rw [← zip_map_self, ← flat_loc]
  rfl

/-- C131: with a single chain, or a single sample per chain, both drivers are right with either version. -/
theorem C131_single (swapped : Bool) (loc : C → ℂ) (samples : Arr C) (h : samples.rows = 1 ∨ samples.cols = 1) :
    minSRPairs swapped loc samples = (samples.flat.map fun s => (s, loc s)) ∧
    srRMSPropPairs swapped loc samples = (samples.flat.map fun s => (s, loc s)) := by
  have ht : (⟨samples.rows, samples.cols, fun i j => loc (samples.at' i j)⟩ : Arr ℂ).T.flat = samples.flat.map loc := by
    rw [← flat_loc]
    exact flat_T_of_one (⟨samples.rows, samples.cols, fun i j => loc (samples.at' i j)⟩ : Arr ℂ) h
  rw [← zip_map_self]
  cases swapped
  · exact ⟨congrArg _ ht, congrArg _ (flat_loc loc samples)⟩
  · exact ⟨congrArg _ (flat_loc loc samples), congrArg _ ht⟩

theorem wrong_pair (loc : C → ℂ) (samples : Arr C) (hr : 2 ≤ samples.rows) (hc : 2 ≤ samples.cols) :
    (samples.at' 0 1, loc (samples.at' 1 0)) ∈
      samples.flat.zip (⟨samples.rows, samples.cols, fun i j => loc (samples.at' i j)⟩ : Arr ℂ).T.flat := by
  obtain ⟨l, hl⟩ := flat_two samples hr hc
  obtain ⟨l', hl'⟩ := flat_two (⟨samples.rows, samples.cols, fun i j => loc (samples.at' i j)⟩ : Arr ℂ).T hc hr
  rw [hl, hl']
  exact List.mem_cons_of_mem _ (List.mem_cons_self ..)

/-- C131 fails in general: with several chains of several samples, no version of NetKet suits both drivers.  If the second sample
of the first chain and the first sample of the second chain differ in their local energies, the one driver or the other pairs
the former with the local energy of the latter. -/
theorem C131_fails (swapped : Bool) (loc : C → ℂ) (samples : Arr C) (hr : 2 ≤ samples.rows) (hc : 2 ≤ samples.cols)
    (hloc : loc (samples.at' 0 1) ≠ loc (samples.at' 1 0)) :
    (minSRPairs swapped loc samples ≠ samples.flat.map fun s => (s, loc s)) ∨
    (srRMSPropPairs swapped loc samples ≠ samples.flat.map fun s => (s, loc s)) := by
  have key : ∀ pairs : List (C × ℂ), (samples.at' 0 1, loc (samples.at' 1 0)) ∈ pairs →
      pairs ≠ samples.flat.map fun s => (s, loc s) := by
    intro pairs hm h
    rw [h, List.mem_map] at hm
    obtain ⟨s, _, hs⟩ := hm
    rw [Prod.mk.injEq] at hs
    rw [hs.1] at hs
    exact hloc hs.2
  cases swapped
  · exact .inl (key _ (wrong_pair loc samples hr hc))
  · exact .inr (key _ (wrong_pair loc samples hr hc))

/-- Two chains of two samples; a configuration is its (chain, position). -/
def twoByTwo : Arr (ℕ × ℕ) := ⟨2, 2, fun i j => (i, j)⟩

/-- A local energy and a log-derivative that depend on the position in the chain only. -/
def exLoc (c : ℕ × ℕ) : ℂ := (c.2 : ℂ)
def exO (c : ℕ × ℕ) : ℝ := (c.2 : ℝ)

/-- C131 fails for the gradient, too: the gradient of the driver that mixes up the samples vanishes although energy and
log-derivative are perfectly correlated, and the other driver finds this correlation. -/
theorem C131_gradient_fails :
    gradient (minSRPairs true exLoc twoByTwo) exO = 1 ∧ gradient (srRMSPropPairs false exLoc twoByTwo) exO = 1 ∧
    gradient (minSRPairs false exLoc twoByTwo) exO = 0 ∧ gradient (srRMSPropPairs true exLoc twoByTwo) exO = 0 := by
  have hf : twoByTwo.flat = [(0, 0), (0, 1), (1, 0), (1, 1)] := rfl
  have ha : (⟨twoByTwo.rows, twoByTwo.cols, fun i j => exLoc (twoByTwo.at' i j)⟩ : Arr ℂ).flat = [0, 1, 0, 1] := by
    rw [flat_loc, hf]; simp [exLoc]
  have hb : (⟨twoByTwo.rows, twoByTwo.cols, fun i j => exLoc (twoByTwo.at' i j)⟩ : Arr ℂ).T.flat = [0, 0, 1, 1] := by
    simp [Arr.flat, Arr.T, twoByTwo, exLoc, List.range_succ]
  have h1 : minSRPairs true exLoc twoByTwo = [((0, 0), 0), ((0, 1), 1), ((1, 0), 0), ((1, 1), 1)] := by
    show twoByTwo.flat.zip (Arr.flat _) = _
    rw [hf]; exact congrArg _ ha
  have h2 : srRMSPropPairs false exLoc twoByTwo = [((0, 0), 0), ((0, 1), 1), ((1, 0), 0), ((1, 1), 1)] := by
    show twoByTwo.flat.zip (Arr.flat _) = _
    rw [hf]; exact congrArg _ ha
  have h3 : minSRPairs false exLoc twoByTwo = [((0, 0), 0), ((0, 1), 0), ((1, 0), 1), ((1, 1), 1)] := by
    show twoByTwo.flat.zip (Arr.flat _) = _
    rw [hf]; exact congrArg _ hb
  have h4 : srRMSPropPairs true exLoc twoByTwo = [((0, 0), 0), ((0, 1), 0), ((1, 0), 1), ((1, 1), 1)] := by
    show twoByTwo.flat.zip (Arr.flat _) = _
    rw [hf]; exact congrArg _ hb
  rw [h1, h2, h3, h4]
  refine ⟨?_, ?_, ?_, ?_⟩ <;> simp [gradient, exO] <;> norm_num

/-- The hypotheses of `C131_fails` are met. -/
example : 2 ≤ twoByTwo.rows ∧ 2 ≤ twoByTwo.cols ∧ exLoc (twoByTwo.at' 0 1) ≠ exLoc (twoByTwo.at' 1 0) :=
  ⟨le_refl _, le_refl _, by simp [twoByTwo, exLoc]⟩

/-! ## C132 -/

theorem div_mul_sum {K : Type} [Field K] (l : List α) (f : α → K) (c : K) :
    (l.map f).sum / c = (l.map fun e => f e * (1 / c)).sum := by
  induction l with
  | nil => simp
  | cons a l ih => rw [List.map_cons, List.sum_cons, add_div, ih, List.map_cons, List.sum_cons]; ring

/-- The number of samples of all ranks. -/
def total {ranks : ℕ} (energies : Fin ranks → List ℂ) : ℕ := ∑ r, (energies r).length

/-- C132: the reported mean of a plain Monte-Carlo state is the mean over the samples of all ranks. -/
theorem C132_mean {ranks : ℕ} (energies : Fin ranks → List ℂ) :
    mean (plainData energies) = (∑ r, (energies r).sum) / (total energies : ℂ) := by
  unfold mean plainData total
  rw [Finset.sum_div]
  refine Finset.sum_congr rfl fun r _ => ?_
  rw [← List.map_id (energies r), div_mul_sum (energies r) id]
  simp only [List.map_map, Function.comp_def, List.map_id, id]
  refine congrArg List.sum (List.map_congr_left fun e _ => ?_)
  rw [Complex.ofReal_div, Complex.ofReal_one, Complex.ofReal_natCast]

/-- C132: the reported variance is the mean squared distance from the mean. -/
theorem C132_variance {ranks : ℕ} (energies : Fin ranks → List ℂ) :
    var (plainData energies)
      = (∑ r, ((energies r).map fun e => ‖e - (∑ r, (energies r).sum) / (total energies : ℂ)‖ ^ 2).sum) / (total energies : ℝ) := by
  unfold var
  rw [C132_mean]
  generalize (∑ r, (energies r).sum) / (total energies : ℂ) = m
  rw [Finset.sum_div]
  refine Finset.sum_congr rfl fun r _ => ?_
  unfold plainData
  rw [div_mul_sum]
  simp only [List.map_map, Function.comp_def]
  rfl

/-- C132 fails for the error of the mean: the reported error is the standard error of `total / ranks` times fewer
samples.  Its square is the variance divided by the number of ranks, not by the number of samples, so that it does not fall when more
samples are drawn. -/
theorem C132_error_fails {ranks : ℕ} (energies : Fin ranks → List ℂ) (hr : 0 < ranks) (hN : ranks < total energies)
    (hvar : 0 < var (plainData energies)) :
    errorOfMean (plainData energies)
        = Real.sqrt ((total energies : ℝ) / ranks) * Real.sqrt (var (plainData energies) / (total energies : ℝ)) ∧
    Real.sqrt (var (plainData energies) / (total energies : ℝ)) < errorOfMean (plainData energies) := by
  have hb : batchSize ranks = ranks := by simp [batchSize]
  have hr' : (0 : ℝ) < ranks := by exact_mod_cast hr
  have ht : (0 : ℝ) < total energies := by exact_mod_cast hr.trans hN
  unfold errorOfMean
  rw [hb]
  constructor
  · rw [← Real.sqrt_mul (by positivity)]
    congr 1
    field_simp
  · apply Real.sqrt_lt_sqrt (by positivity)
    exact div_lt_div_of_pos_left hvar hr' (by exact_mod_cast hN)

/-- C132: on one sample per rank the reported error is the standard error. -/
theorem C132_error_partial {ranks : ℕ} (energies : Fin ranks → List ℂ) (hN : total energies = ranks) :
    errorOfMean (plainData energies) = Real.sqrt (var (plainData energies) / (total energies : ℝ)) := by
  have hb : batchSize ranks = ranks := by simp [batchSize]
  unfold errorOfMean
  rw [hb, hN]

/-- Two ranks with the local energies 0, 2 and 4, 6: the variance is 5, and there are more samples than ranks. -/
example : 2 < total (ranks := 2) ![[0, 2], [4, 6]] ∧ 0 < var (plainData (ranks := 2) ![[0, 2], [4, 6]]) := by
  refine ⟨by simp [total], ?_⟩
  rw [C132_variance]
  simp [total]
  norm_num
  positivity

/-- One sample per rank. -/
example : total (ranks := 2) ![[0], [4]] = 2 := by simp [total]

end GPSKet.Pairing
