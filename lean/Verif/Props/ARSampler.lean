import Verif.Props.Autoreg
import Verif.Model.ARSampler
import Mathlib.MeasureTheory.Measure.Lebesgue.Basic
import Mathlib.MeasureTheory.Constructions.Pi

/-!
# Properties of the direct sampler (C26, C27)

The uniform variates are reals in `[0, 1)`; probabilities are Lebesgue measures of sets of variates.
-/

namespace GPSKet.Props
open Spec AR MeasureTheory

variable {L D M : ℕ} {ι : Type} [Fintype ι]

/-- The variates that select index `k`. -/
def choiceSet [NeZero D] (p : Fin D → ℝ) (k : Fin D) : Set ℝ := {u | u ∈ Set.Ico (0 : ℝ) 1 ∧ batchChoice p u = k}

/-- Sum of the entries before `k`. -/
def before (p : Fin D → ℝ) (k : ℕ) : ℝ := ∑ j : Fin D, if j.val < k then p j else 0

theorem before_succ (p : Fin D → ℝ) (k : Fin D) : before p (k.val + 1) = before p k + p k := by
  unfold before
  rw [← Finset.add_sum_erase Finset.univ _ (Finset.mem_univ k),
    ← Finset.add_sum_erase Finset.univ (fun j : Fin D => if j.val < k.val then p j else 0) (Finset.mem_univ k)]
  rw [if_pos (Nat.lt_succ_self _), if_neg (Nat.lt_irrefl _), zero_add, add_comm]
  congr 1
  apply Finset.sum_congr rfl
  intro i hi
  have hne' : i.val ≠ k.val := fun h => Finset.ne_of_mem_erase hi (Fin.ext h)
  by_cases hik : i.val < k.val
  · rw [if_pos (by omega), if_pos hik]
  · rw [if_neg (by omega), if_neg hik]

theorem before_mono {p : Fin D → ℝ} (hp : ∀ k, 0 ≤ p k) {k l : ℕ} (h : k ≤ l) : before p k ≤ before p l := by
  unfold before
  apply Finset.sum_le_sum
  intro j _
  by_cases hj : j.val < k
  · rw [if_pos hj, if_pos (by omega)]
  · rw [if_neg hj]
    split
    · exact hp j
    · exact le_refl _

theorem before_zero (p : Fin D → ℝ) : before p 0 = 0 := by simp [before]

theorem before_full (p : Fin D → ℝ) : before p D = ∑ j, p j := by
  unfold before
  apply Finset.sum_congr rfl
  intro j _
  rw [if_pos j.isLt]

theorem cumsum_eq (p : Fin D → ℝ) (k : Fin D) : (∑ j, if j ≤ k then p j else 0) = before p (k.val + 1) := by
  unfold before
  apply Finset.sum_congr rfl
  intro j _
  congr 1
  rw [Fin.le_def]
  exact propext (by omega)

/-- Number of cumulative sums below `r`, if `r` lies between the `k`-th and the next. -/
theorem card_below {p : Fin D → ℝ} (hp : ∀ k, 0 ≤ p k) (k : Fin D) {r : ℝ}
    (h1 : k.val = 0 ∨ before p k < r) (h2 : r ≤ before p (k.val + 1)) :
    (Finset.univ.filter fun j : Fin D => (∑ i, if i ≤ j then p i else 0) < r).card = k.val := by
  have : (Finset.univ.filter fun j : Fin D => (∑ i, if i ≤ j then p i else 0) < r) =
      Finset.univ.filter fun j : Fin D => j < k := by
    apply Finset.filter_congr
    intro j _
    rw [cumsum_eq]
    constructor
    · intro h
      by_contra hc
      have := before_mono hp (show k.val + 1 ≤ j.val + 1 by rw [Fin.lt_def] at hc; omega)
      linarith
    · intro h
      rw [Fin.lt_def] at h
      rcases h1 with h1 | h1
      · omega
      · exact lt_of_le_of_lt (before_mono hp (show j.val + 1 ≤ k.val by omega)) h1
  rw [this, Finset.filter_gt_eq_Iio, Fin.card_Iio]

/-- C26.  For non-negative weights with positive total, the variates in `[0,1)` that make `batch_choice` select index `k`
form a set of length `p k / total`. -/
theorem C26_batch_choice [NeZero D] (p : Fin D → ℝ) (hp : ∀ k, 0 ≤ p k) (ht : 0 < ∑ k, p k) (k : Fin D) :
    volume {u : ℝ | u ∈ Set.Ico (0 : ℝ) 1 ∧ batchChoice p u = k} = ENNReal.ofReal (p k / ∑ j, p j) := by
  set T := ∑ j, p j with hT
  have hsel : ∀ u : ℝ, ∀ l : Fin D, (l.val = 0 ∨ before p l < T * u) → T * u ≤ before p (l.val + 1) →
      batchChoice p u = l := by
    intro u l h1 h2
    apply Fin.ext
    unfold batchChoice
    dsimp only
    rw [← hT]
    have := card_below hp l h1 h2
    have hl := l.isLt
    omega
  have hlo : 0 ≤ before p k.val := by
    rw [← before_zero p]; exact before_mono hp (Nat.zero_le _)
  have hhi : before p (k.val + 1) ≤ T := by
    rw [hT, ← before_full p]; exact before_mono hp k.isLt
  have hlen : before p (k.val + 1) / T - before p k.val / T = p k / T := by
    rw [before_succ]; ring
  apply le_antisymm
  · calc volume {u : ℝ | u ∈ Set.Ico (0 : ℝ) 1 ∧ batchChoice p u = k}
        ≤ volume (Set.Icc (before p k.val / T) (before p (k.val + 1) / T)) := by
          apply measure_mono
          rintro u ⟨⟨hu0, hu1⟩, huk⟩
          have hTu0 : 0 ≤ T * u := mul_nonneg ht.le hu0
          have hTu1 : T * u ≤ T := by nlinarith
          rw [Set.mem_Icc, div_le_iff₀ ht, le_div_iff₀ ht, mul_comm u T]
          constructor
          · by_contra hc
            push Not at hc
            -- some smaller index is selected
            have hk0 : 0 < k.val := by
              by_contra h0
              have : k.val = 0 := by omega
              rw [this, before_zero] at hc
              linarith
            have hex : ∃ l : ℕ, T * u ≤ before p (l + 1) ∧ l < k.val := ⟨k.val - 1, by
              rw [show k.val - 1 + 1 = k.val by omega]; exact hc.le, by omega⟩
            classical
            let l := Nat.find hex
            have hl := Nat.find_spec hex
            have hlk : l < k.val := hl.2
            have hlD : l < D := by have := k.isLt; omega
            have h1 : l = 0 ∨ before p l < T * u := by
              by_cases hl0 : l = 0
              · exact Or.inl hl0
              · right
                have := Nat.find_min hex (m := l - 1) (by change l - 1 < l; omega)
                rw [show l - 1 + 1 = l by omega] at this
                by_contra hcc
                exact this ⟨not_lt.mp hcc, by omega⟩
            have := hsel u ⟨l, hlD⟩ h1 hl.1
            rw [huk] at this
            rw [this] at hlk
            exact lt_irrefl _ hlk
          · by_contra hc
            push Not at hc
            -- some larger index is selected
            have hex : ∃ l : ℕ, T * u ≤ before p (l + 1) := ⟨D - 1, by
              rw [show D - 1 + 1 = D by have := NeZero.pos D; omega, before_full]; exact hTu1⟩
            classical
            let l := Nat.find hex
            have hl := Nat.find_spec hex
            have hlD : l < D := by
              by_contra hlD
              have := Nat.find_min hex (m := D - 1) (by change D - 1 < l; have := NeZero.pos D; omega)
              rw [show D - 1 + 1 = D by have := NeZero.pos D; omega, before_full] at this
              exact this hTu1
            have h1 : l = 0 ∨ before p l < T * u := by
              by_cases hl0 : l = 0
              · exact Or.inl hl0
              · right
                have := Nat.find_min hex (m := l - 1) (by change l - 1 < l; omega)
                rw [show l - 1 + 1 = l by omega] at this
                exact not_le.mp this
            have := hsel u ⟨l, hlD⟩ h1 hl
            rw [huk] at this
            have hl' : T * u ≤ before p (l + 1) := hl
            rw [this] at hc
            exact absurd hl' (not_le.mpr hc)
      _ = ENNReal.ofReal (p k / T) := by rw [Real.volume_Icc, hlen]
  · calc ENNReal.ofReal (p k / T) = volume (Set.Ioo (before p k.val / T) (before p (k.val + 1) / T)) := by
          rw [Real.volume_Ioo, hlen]
      _ ≤ _ := by
          apply measure_mono
          rintro u ⟨h1, h2⟩
          rw [div_lt_iff₀ ht, mul_comm] at h1
          rw [lt_div_iff₀ ht, mul_comm] at h2
          refine ⟨⟨?_, ?_⟩, hsel u k (Or.inr h1) h2.le⟩
          · by_contra hc
            push Not at hc
            nlinarith
          · by_contra hc
            push Not at hc
            nlinarith

/-- The last clause of C26: an index of zero weight is selected at most by a null set of variates. -/
theorem C26_zero_weight [NeZero D] (p : Fin D → ℝ) (hp : ∀ k, 0 ≤ p k) (ht : 0 < ∑ k, p k) (k : Fin D) (hk : p k = 0) :
    volume {u : ℝ | u ∈ Set.Ico (0 : ℝ) 1 ∧ batchChoice p u = k} = 0 := by
  rw [C26_batch_choice p hp ht, hk]; simp

/-- The null set can be non-empty: the variate 0 always selects index 0, also when its weight is zero. -/
theorem C26_zero_variate [NeZero D] (p : Fin D → ℝ) (hp : ∀ k, 0 ≤ p k) : batchChoice p 0 = 0 := by
  have : (Finset.univ.filter fun k : Fin D => (∑ j, if j ≤ k then p j else 0) < (∑ j, p j) * 0).card = 0 := by
    rw [Finset.card_eq_zero, Finset.filter_eq_empty_iff]
    intro k _
    rw [mul_zero, not_lt]
    exact Finset.sum_nonneg fun j _ => by split; exacts [hp j, le_refl _]
  apply Fin.ext
  unfold batchChoice
  dsimp only
  rw [this]
  simp

/-- The hypotheses of C26 hold for a distribution with a zero entry. -/
example : (∀ k, (0 : ℝ) ≤ (![1 / 4, 0, 3 / 4] : Fin 3 → ℝ) k) ∧ 0 < ∑ k, (![1 / 4, 0, 3 / 4] : Fin 3 → ℝ) k := by
  refine ⟨fun k => ?_, ?_⟩
  · fin_cases k <;> norm_num
  · rw [Fin.sum_univ_three]
    change (0 : ℝ) < 1 / 4 + 0 + 3 / 4
    norm_num

/-! ## C27 -/

/-- The sampler generates `x` exactly if every draw selects the state of `x`. -/
theorem sampleSites_eq_iff [NeZero L] [NeZero D] (m : Machine L D M) (hm : ProvidedAR m) (buffer : Fin L → Fin D)
    (u : Fin L → ℝ) (x : Fin L → Fin D) :
    sampleSites m buffer u = x ↔ ∀ i, batchChoice (m.conditionals x i) (u i) = x i := by
  set st := fun k => scanState (sampleStep m u) (buffer, m.initCache) k with hst
  have hsucc : ∀ i : Fin L, st (i.val + 1) = (sampleStep m u (st i.val) i).1 := fun i =>
    scanState_succ (sampleStep m u) (buffer, m.initCache) i
  -- the buffer at step k holds the draws before k
  have hkeep : ∀ (k : ℕ) (j : Fin L), k ≤ L → j.val < k → ∀ l, k ≤ l → l ≤ L → (st l).1 j = (st k).1 j := by
    intro k j hk hj l hkl hl
    induction l with
    | zero => have : k = 0 := by omega
              rw [this]
    | succ l ih =>
      by_cases hl' : k = l + 1
      · rw [hl']
      · rw [hsucc ⟨l, hl⟩]
        unfold sampleStep
        dsimp only
        rw [Function.update_of_ne, ih (by omega) (by omega)]
        intro h
        have := congrArg Fin.val h
        dsimp only at this
        omega
  -- the cache follows the recorded buffers
  have hcache : ∀ k, (st k).2 = scanState (fun c (i : Fin L) => m.conditionalP c ((st i).1) i) m.initCache k := by
    intro k
    induction k with
    | zero => rfl
    | succ k ih =>
      by_cases hk : k < L
      · rw [hsucc ⟨k, hk⟩, scanState_succ (fun c (i : Fin L) => m.conditionalP c ((st i).1) i) m.initCache ⟨k, hk⟩, ← ih]
        rfl
      · have h1 : st (k + 1) = st k := by
          simp only [hst, scanState, hk, dif_neg, not_false_iff]
        rw [h1, ih]
        simp only [scanState, hk, dif_neg, not_false_iff]
  have hdraw : ∀ (i : Fin L) (y : Fin L → Fin D), (∀ j, j < i → (st i).1 j = y j) →
      (st (i.val + 1)).1 i = batchChoice (m.conditionals y i) (u i) := by
    intro i y hy
    rw [hsucc i]
    unfold sampleStep
    dsimp only
    rw [Function.update_self, hcache]
    have hb : ∀ (a j : Fin L), j < a → (fun (k : ℕ) => if k ≤ i.val then (st k).1 else y) a j = y j := by
      intro a j hj
      dsimp only
      split_ifs with ha
      · have hja : j.val < a.val := hj
        have := hkeep (j.val + 1) j j.isLt (Nat.lt_succ_self _) a.val (by omega) a.isLt.le
        have h2 := hkeep (j.val + 1) j j.isLt (Nat.lt_succ_self _) i.val (by omega) i.isLt.le
        rw [this, ← h2]
        exact hy j (by rw [Fin.lt_def]; omega)
      · rfl
    have h30 := C30_cached_eq_batched m hm y (fun (k : ℕ) => if k ≤ i.val then (st k).1 else y) hb i
    unfold scanOut at h30
    rw [← h30]
    dsimp only
    rw [if_pos (le_refl _)]
    have hsame : ∀ k, k ≤ i.val → scanState (fun c (a : Fin L) => m.conditionalP c ((st a).1) a) m.initCache k =
        scanState (fun c (a : Fin L) => m.conditionalP c (if a.val ≤ i.val then (st a).1 else y) a) m.initCache k := by
      intro k
      induction k with
      | zero => intro _; rfl
      | succ k ih =>
        intro hk
        have hkL : k < L := by have := i.isLt; omega
        rw [scanState_succ (fun c (a : Fin L) => m.conditionalP c ((st a).1) a) m.initCache ⟨k, hkL⟩,
          scanState_succ (fun c (a : Fin L) => m.conditionalP c (if a.val ≤ i.val then (st a).1 else y) a) m.initCache ⟨k, hkL⟩,
          ih (by omega)]
        dsimp only
        rw [if_pos (by omega)]
    rw [hsame i.val (le_refl _)]
  have hfinal : ∀ i : Fin L, sampleSites m buffer u i = (st (i.val + 1)).1 i := fun i =>
    hkeep (i.val + 1) i i.isLt (Nat.lt_succ_self _) L i.isLt (le_refl L)
  constructor
  · intro h i
    rw [← hdraw i x fun j hj => ?_, ← hfinal, h]
    rw [hkeep (j.val + 1) j j.isLt (Nat.lt_succ_self _) i.val hj i.isLt.le, ← hfinal, h]
  · intro h
    have : ∀ k, k ≤ L → ∀ j : Fin L, j.val < k → (st (j.val + 1)).1 j = x j := by
      intro k
      induction k with
      | zero => intro _ j hj; omega
      | succ k ih =>
        intro hk j hj
        by_cases hjk : j.val < k
        · exact ih (by omega) j hjk
        · rw [hdraw j x, h j]
          intro l hl
          rw [hkeep (l.val + 1) l l.isLt (Nat.lt_succ_self _) j.val hl j.isLt.le]
          exact ih (by omega) l (by rw [Fin.lt_def] at hl; omega)
    funext i
    rw [hfinal]
    exact this L (le_refl L) i i.isLt

/-- Probability of generating `x` before a symmetry operation is drawn. -/
theorem sample_volume [NeZero L] [NeZero D] (m : Machine L D M) (hm : ProvidedAR m) (hn : m.fields.normalize = true)
    (hp : m.fields.machine_pow ≠ 0) (hc : Continuable m) (buffer x : Fin L → Fin D) :
    volume {u : Fin L → ℝ | (∀ i, u i ∈ Set.Ico (0 : ℝ) 1) ∧ sampleSites m buffer u = x} =
      ENNReal.ofReal (weight m.fields.machine_pow (m.logPsiOne x)) := by
  have hset : {u : Fin L → ℝ | (∀ i, u i ∈ Set.Ico (0 : ℝ) 1) ∧ sampleSites m buffer u = x} =
      Set.pi Set.univ fun i => {v : ℝ | v ∈ Set.Ico (0 : ℝ) 1 ∧ batchChoice (m.conditionals x i) v = x i} := by
    ext u
    simp only [Set.mem_ofPred_eq, Set.mem_pi, Set.mem_univ, forall_true_left, sampleSites_eq_iff m hm buffer u x]
    exact ⟨fun h i => ⟨h.1 i, h.2 i⟩, fun h => ⟨fun i => (h i).1, fun i => (h i).2⟩⟩
  have hone : ∀ i d, 0 < m.conditionals x i d → ∑ e, m.conditionals x i e = 1 := by
    intro i d hd
    unfold Machine.conditionals maybeNormalize at hd ⊢
    rw [if_pos hn] at hd ⊢
    simp only [weight_normalize hp] at hd ⊢
    rw [← Finset.sum_div]
    apply div_self
    intro h0
    rw [h0, div_zero] at hd
    exact lt_irrefl _ hd
  rw [hset, volume_pi_pi, weight_logPsiOne]
  unfold chainLaw
  by_cases hz : ∃ i, m.conditionals x i (x i) = 0
  · -- a zero factor: at the first one the remaining weights are normalised
    obtain ⟨i, hi, hmin⟩ : ∃ i, m.conditionals x i (x i) = 0 ∧ ∀ j, j < i → m.conditionals x j (x j) ≠ 0 := by
      classical
      obtain ⟨i0, h0⟩ := hz
      let S := Finset.univ.filter fun i => m.conditionals x i (x i) = 0
      have hS : S.Nonempty := ⟨i0, by simp [S, h0]⟩
      refine ⟨S.min' hS, ?_, ?_⟩
      · exact (Finset.mem_filter.mp (S.min'_mem hS)).2
      · intro j hj hj0
        exact absurd (S.min'_le j (by simp [S, hj0])) (not_le.mpr hj)
    obtain ⟨d, hd⟩ := hc x i fun j hj => lt_of_le_of_ne (conditionals_nonneg m x j (x j)) (Ne.symm (hmin j hj))
    have hz0 : ∏ i, m.conditionals x i (x i) = 0 := Finset.prod_eq_zero (Finset.mem_univ i) hi
    rw [hz0, ENNReal.ofReal_zero]
    apply Finset.prod_eq_zero (Finset.mem_univ i)
    apply C26_zero_weight _ (conditionals_nonneg m x i) _ _ hi
    rw [hone i d hd]
    exact one_pos
  · push Not at hz
    rw [ENNReal.ofReal_prod_of_nonneg fun i _ => conditionals_nonneg m x i (x i)]
    apply Finset.prod_congr rfl
    intro i _
    have hpos : 0 < m.conditionals x i (x i) := lt_of_le_of_ne (conditionals_nonneg m x i (x i)) (Ne.symm (hz i))
    have h1 := hone i (x i) hpos
    rw [C26_batch_choice _ (conditionals_nonneg m x i) (by rw [h1]; exact one_pos), h1, div_one]

/-- C27.  The sampler returns `x` with probability `|ψ(x)|^machine_pow`: the average over the uniformly drawn symmetry
operation of the measure of the variates in `[0,1)^L` that generate `x`.  The buffer may hold anything.  The symmetry
operations are any family closed under inverses, e.g. a group of site permutations, or just the identity; `Continuable` is
proved for the provided constraints (C31, C28, C33). -/
theorem C27_direct_sampling [NeZero L] [NeZero D] (m : Machine L D M) (hm : ProvidedAR m)
    (hn : m.fields.normalize = true) (hp : m.fields.machine_pow ≠ 0) (hc : Continuable m)
    (syms : ι → (Fin L → Fin D) → Fin L → Fin D) (inv : ι → ι) (hs : ClosedUnderInverse syms inv)
    (buffer x : Fin L → Fin D) :
    (1 / Fintype.card ι : ENNReal) *
        ∑ r, volume {u : Fin L → ℝ | (∀ i, u i ∈ Set.Ico (0 : ℝ) 1) ∧ sampleChain m syms buffer u r = x} =
      ENNReal.ofReal (bornWeight m.fields.machine_pow (m.logPsi syms x)) := by
  have hset : ∀ r, {u : Fin L → ℝ | (∀ i, u i ∈ Set.Ico (0 : ℝ) 1) ∧ sampleChain m syms buffer u r = x} =
      {u : Fin L → ℝ | (∀ i, u i ∈ Set.Ico (0 : ℝ) 1) ∧ sampleSites m buffer u = syms (inv r) x} := by
    intro r
    ext u
    simp only [Set.mem_ofPred_eq, sampleChain]
    constructor
    · rintro ⟨h1, h2⟩
      exact ⟨h1, by rw [← h2, hs.left]⟩
    · rintro ⟨h1, h2⟩
      refine ⟨h1, ?_⟩
      rw [h2]
      have := hs.left (inv r) x
      rwa [hs.invol] at this
  have hv : ∀ r, volume {u : Fin L → ℝ | (∀ i, u i ∈ Set.Ico (0 : ℝ) 1) ∧ sampleChain m syms buffer u r = x} =
      ENNReal.ofReal (weight m.fields.machine_pow (m.logPsiOne (syms (inv r) x))) := by
    intro r
    rw [hset r, sample_volume m hm hn hp hc]
  rw [Finset.sum_congr rfl fun r _ => hv r, ← ENNReal.ofReal_sum_of_nonneg fun r _ => weight_nonneg _ _,
    bornWeight_eq]
  unfold Machine.logPsi
  rw [weight_symmetrise hp]
  have hinv : ∑ r, weight m.fields.machine_pow (m.logPsiOne (syms (inv r) x)) =
      ∑ r, weight m.fields.machine_pow (m.logPsiOne (syms r x)) :=
    Equiv.sum_comp (Function.Involutive.toPerm inv hs.invol) fun r => weight m.fields.machine_pow (m.logPsiOne (syms r x))
  rw [hinv, ENNReal.ofReal_mul (by positivity)]
  by_cases h0 : Fintype.card ι = 0
  · have : IsEmpty ι := Fintype.card_eq_zero_iff.mp h0
    simp
  · congr 1
    rw [ENNReal.ofReal_div_of_pos (by exact_mod_cast Nat.pos_of_ne_zero h0)]
    simp

omit [Fintype ι] in
/-- A family of site permutations closed under inverses is an instance. -/
theorem perms_closed (σ : ι → Equiv.Perm (Fin L)) (inv : ι → ι) (h1 : ∀ t, inv (inv t) = t)
    (h2 : ∀ t, σ (inv t) = (σ t)⁻¹) : ClosedUnderInverse (fun t (x : Fin L → Fin D) i => x (σ t i)) inv where
  invol := h1
  left t x := by
    funext i
    change x (σ t (σ (inv t) i)) = x i
    rw [h2]
    simp

/-- An instance of C27: four spins with `total_sz = 0`, ARqGPS with arbitrary parameters, the four translations. -/
example (epsilon : Fin 2 → Fin 3 → Fin 4 → ℂ) (x : Fin 4 → Fin 2) :
    let f : Fields 2 3 := ⟨2, true, true, defaultCountSpins, defaultRenormalize 4, sumOut⟩
    let m : Machine 4 2 3 := arqGPS f epsilon
    let syms : Fin 4 → (Fin 4 → Fin 2) → Fin 4 → Fin 2 := fun t x i => x (i + t)
    (1 / (4 : ℕ) : ENNReal) *
        ∑ r, volume {u : Fin 4 → ℝ | (∀ i, u i ∈ Set.Ico (0 : ℝ) 1) ∧ sampleChain m syms (fun _ => 0) u r = x} =
      ENNReal.ofReal (bornWeight 2 (m.logPsi syms x)) := by
  intro f m syms
  have hp : m.fields.machine_pow ≠ 0 := by change (2 : ℝ) ≠ 0; norm_num
  have hm : ProvidedAR m := .qgps f epsilon
  have := C27_direct_sampling m hm rfl hp (spin_continuable hm hp ⟨rfl, rfl, rfl⟩ (by decide)) syms (fun t => -t)
    (perms_closed (fun t => Equiv.addRight t) _ (fun t => neg_neg t) (fun t => by ext i; simp)) (fun _ => 0) x
  change (1 / (4 : ℕ) : ENNReal) * _ = ENNReal.ofReal (bornWeight m.fields.machine_pow (m.logPsi syms x))
  simpa using this

end GPSKet.Props
