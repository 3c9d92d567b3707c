import Verif.Props.RdmsScript
import Mathlib.Analysis.SpecialFunctions.Trigonometric.Basic

/-!
# C93, C94: where the arrays are not the density matrices
-/

namespace GPSKet.Rdms

open Spec

/-- the wave function with amplitude 1 everywhere -/
def flat (L : ℕ) : AmpSource L (Fin 4) Unit := .full fun _ => 0

/-- An entry of the local two-body array is in general not the local estimator of `½ E_pq E_rs`: with one up electron on site 0 and one
down electron on site 1, the entry `[1,1,0,0]` is zero instead of `½` (and `[0,0,1,1]` is `1`). -/
theorem C93_entries_fail :
    let x : Cfg 2 := ![1, 2]
    (flat 2).OkPaddedAt x ∧
    (abLocalRDMs (flat 2) (numElec false x, numElec true x) x).2 (1, 1, 0, 0) = 0 ∧
    (abLocalRDMs (flat 2) (numElec false x, numElec true x) x).2 (0, 0, 1, 1) = 1 ∧
    localEnergy (fun x' => 1 / 2 * ((exc 1 1 * exc 0 0 : Op 2) (occOf x) (occOf x') : ℂ)) (flat 2).logAmp x = 1 / 2 := by
  intro x
  have n1 : numElec false x = 1 := by decide
  have n2 : numElec true x = 1 := by decide
  have h1 : nonzeroSize (occInds x 1) 1 = [0] := by decide
  have h2 : nonzeroSize (occInds x 2) 1 = [1] := by decide
  have h3 : nonzeroSize (unoccInds x 1) 1 = [1] := by decide
  have h4 : nonzeroSize (unoccInds x 2) 1 = [0] := by decide
  refine ⟨trivial, ?_, ?_, ?_⟩
  · rw [n1, n2]
    unfold abLocalRDMs
    simp only [h1, h2, h3, h4]
    simp [rdmAdds, eriAdds, oneAdds, sameAdds]
  · rw [n1, n2]
    unfold abLocalRDMs
    simp only [h1, h2, h3, h4]
    simp [rdmAdds, eriAdds, oneAdds, sameAdds]
  · have hd : ∀ p, ∀ x' : Cfg 2, (exc p p : Op 2) (occOf x) (occOf x') = if x = x' then 1 else 0 := by
      set_option maxRecDepth 20000 in decide
    have hc : ∀ n : Occ (Mode 2), (exc 1 1 : Op 2) (occOf x) n = if occOf x = n then 1 else 0 := by
      set_option maxRecDepth 20000 in decide
    have hp : ∀ x' : Cfg 2, (exc 1 1 * exc 0 0 : Op 2) (occOf x) (occOf x') = if x = x' then 1 else 0 := by
      intro x'
      rw [Matrix.mul_apply]
      simp only [hc, ite_mul, zero_mul, one_mul, Finset.sum_ite_eq, Finset.mem_univ, if_true, hd]
    unfold localEnergy
    rw [Finset.sum_eq_single x]
    · simp only [hp, if_true]
      rw [div_self (Complex.exp_ne_zero _)]; norm_num
    · intro b _ hb
      simp only [hp, if_neg (Ne.symm hb), Int.cast_zero, zero_mul, mul_zero]
    · simp

/-- On two ranks the saved one-body array is too small by a factor of two: one electron in one orbital, four samples in chunks of
two. -/
theorem C94_ranks_fail :
    let c : Setup := { nodes := 2, chains := 1, nSamples := 4, chunkSize := 2 }
    ∃ d1 d2, savedRDMs (flat 1) (1, 0) c (fun _ _ => ![1]) = some (d1, d2) ∧ ∑ p, d1 p p = 1 / 2 := by
  intro c
  obtain ⟨d1, d2, h1, h2, _⟩ := C94_traces (flat 1) (1, 0) c 1 (by decide) (fun _ _ => ![1]) (fun _ _ => by decide) (fun _ _ => trivial)
  refine ⟨d1, d2, h1, ?_⟩
  rw [h2]
  have : total c 1 = 2 := by decide
  rw [this]
  norm_num [c]

/-- The complex wave function of one up electron on two sites with the amplitudes 1 and i. -/
noncomputable def rotating : AmpSource 2 (Fin 4) Unit :=
  .full fun x => if x = ![0, 1] then Complex.I * (Real.pi / 2) else 0

/-- For complex amplitudes the density matrix of one body is not symmetric, so that the error term of `C94_mean_two` does not vanish:
the entry `[0,1,1,1]` of the two-body array, which is zero for one electron, is not. -/
theorem C94_complex_fails {Ω : Type} [Fintype Ω] (w : Ω → ℝ) (samples : Ω → ℕ → ℕ → Cfg 2) (c : Setup) (m : ℕ) (hm : nChunks c = some m)
    (hd : Drawn w samples c m (sectorState rotating.logAmp (1, 0)))
    (h1 : c.nodes = 1) (hc : 0 < c.chains) (hdv : c.chains ∣ c.chunkSize) (hn : c.nSamples ≠ 0) :
    (∑ ω, (w ω : ℂ) * ((saved2 rotating (1, 0) c samples ω 0 1 1 1 + saved2 rotating (1, 0) c samples ω 1 1 0 1) / 2))
      - expect (pairOp 0 1 1 1) (sectorState rotating.logAmp (1, 0)) = Complex.I / 2 := by
  rw [C94_mean_two w samples rotating (1, 0) (fun _ _ => trivial) c m hm _ rfl hd, factor_one hm h1 hc hdv hn]
  set psi := sectorState rotating.logAmp (1, 0) with hpsi
  have hs : ∀ x : Cfg 2, x ≠ ![1, 0] → x ≠ ![0, 1] → psi x = 0 := by
    intro x ha hb
    rw [hpsi]
    have : (numElec false x, numElec true x) ≠ (1, 0) := by
      revert ha hb
      revert x
      decide
    exact if_neg this
  have ha : psi ![1, 0] = 1 := by
    rw [hpsi, sectorState, if_pos (by decide)]
    simp only [rotating, AmpSource.logAmp]
    rw [if_neg (by decide), Complex.exp_zero]
  have hb : psi ![0, 1] = Complex.I := by
    rw [hpsi, sectorState, if_pos (by decide)]
    simp only [rotating, AmpSource.logAmp, if_true]
    rw [mul_comm, Complex.exp_mul_I, Complex.cos_pi_div_two, Complex.sin_pi_div_two, zero_add, one_mul]
  have hsum : ∀ f : Cfg 2 → ℂ, (∀ x, x ≠ ![1, 0] → x ≠ ![0, 1] → f x = 0) → ∑ x, f x = f ![1, 0] + f ![0, 1] := by
    intro f hf
    have hne : (![1, 0] : Cfg 2) ≠ ![0, 1] := by decide
    rw [← Finset.sum_pair hne]
    symm
    refine Finset.sum_subset (Finset.subset_univ _) fun x _ hx => ?_
    rw [Finset.mem_insert, Finset.mem_singleton, not_or] at hx
    exact hf x hx.1 hx.2
  have hbr : ∀ A : Op 2, braket A psi = (A (occOf ![1, 0]) (occOf ![1, 0]) : ℂ) + (A (occOf ![1, 0]) (occOf ![0, 1]) : ℂ) * Complex.I
      + (-(Complex.I * (A (occOf ![0, 1]) (occOf ![1, 0]) : ℂ)) + (A (occOf ![0, 1]) (occOf ![0, 1]) : ℂ)) := by
    intro A
    unfold braket
    rw [hsum _ (fun x h1 h2 => by simp [hs x h1 h2]), hsum _ (fun x h1 h2 => by simp [hs x h1 h2]),
      hsum _ (fun x h1 h2 => by simp [hs x h1 h2]), ha, hb]
    simp only [star_one, one_mul, mul_one, Complex.star_def, Complex.conj_I]
    ring_nf
    simp only [Complex.I_sq]
    ring
  have hnorm : normSq psi = 2 := by
    unfold normSq
    rw [hsum _ (fun x h1 h2 => by simp [hs x h1 h2]), ha, hb]
    simp only [star_one, one_mul, Complex.star_def, Complex.conj_I, neg_mul, Complex.I_mul_I]
    norm_num
  have e1 : (exc 0 1 : Op 2) (occOf ![1, 0]) (occOf ![1, 0]) = 0 := by set_option maxRecDepth 20000 in decide
  have e2 : (exc 0 1 : Op 2) (occOf ![1, 0]) (occOf ![0, 1]) = 1 := by set_option maxRecDepth 20000 in decide
  have e3 : (exc 0 1 : Op 2) (occOf ![0, 1]) (occOf ![1, 0]) = 0 := by set_option maxRecDepth 20000 in decide
  have e4 : (exc 0 1 : Op 2) (occOf ![0, 1]) (occOf ![0, 1]) = 0 := by set_option maxRecDepth 20000 in decide
  have f1 : (exc 1 0 : Op 2) (occOf ![1, 0]) (occOf ![1, 0]) = 0 := by set_option maxRecDepth 20000 in decide
  have f2 : (exc 1 0 : Op 2) (occOf ![1, 0]) (occOf ![0, 1]) = 0 := by set_option maxRecDepth 20000 in decide
  have f3 : (exc 1 0 : Op 2) (occOf ![0, 1]) (occOf ![1, 0]) = 1 := by set_option maxRecDepth 20000 in decide
  have f4 : (exc 1 0 : Op 2) (occOf ![0, 1]) (occOf ![0, 1]) = 0 := by set_option maxRecDepth 20000 in decide
  have g1 : expect (exc 0 1) psi = Complex.I / 2 := by
    rw [expect, hbr, hnorm, e1, e2, e3, e4]; push_cast; ring
  have g2 : expect (exc 1 0) psi = -Complex.I / 2 := by
    rw [expect, hbr, hnorm, f1, f2, f3, f4]; push_cast; ring
  rw [g1, g2, if_pos rfl, if_neg (by decide)]
  ring

/-- There are such samples: two histories, one for each configuration, each of probability one half. -/
example : Drawn (Ω := Bool) (fun _ => 1 / 2) (fun b _ _ => if b then ![1, 0] else ![0, 1])
    { nodes := 1, chains := 1, nSamples := 1, chunkSize := 1 } 1 (fun x : Cfg 2 => if x = ![1, 0] then 1 else if x = ![0, 1] then Complex.I else 0) := by
  intro i _ k _ x
  have hn : normSq (fun x : Cfg 2 => if x = ![1, 0] then (1 : ℂ) else if x = ![0, 1] then Complex.I else 0) = 2 := by
    unfold normSq
    have hne : (![1, 0] : Cfg 2) ≠ ![0, 1] := by decide
    rw [← Finset.sum_subset (Finset.subset_univ {(![1, 0] : Cfg 2), ![0, 1]}), Finset.sum_pair hne]
    · simp only [if_true, if_neg hne.symm, star_one, Complex.star_def, Complex.conj_I]
      rw [neg_mul, Complex.I_mul_I]; norm_num
    · intro x _ hx
      rw [Finset.mem_insert, Finset.mem_singleton, not_or] at hx
      simp [hx.1, hx.2]
  rw [hn]
  have hne : (![1, 0] : Cfg 2) ≠ ![0, 1] := by decide
  rw [Finset.sum_filter, Fintype.sum_bool]
  by_cases h1 : x = ![1, 0]
  · subst h1; simp [hne.symm]
  · by_cases h2 : x = ![0, 1]
    · subst h2; simp [hne, hne.symm]
    · simp [h1, h2, Ne.symm h1, Ne.symm h2]

end GPSKet.Rdms
