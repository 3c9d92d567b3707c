import Verif.Props.RdmsScript
import Verif.Props.Response

/-! # The energy from the saved density matrices (C203) -/

namespace GPSKet.Response

open GPSKet GPSKet.Spec Rdms

variable {L : ℕ} {Cache : Type}

/-- The energy from arrays for the one- and the two-body density matrix. -/
noncomputable def fileEnergy (h : Fin L → Fin L → ℂ) (e : Fin L → Fin L → Fin L → Fin L → ℂ) (d : Arr1 L × Arr2 L) : ℂ :=
  ∑ p, ∑ q, h p q * d.1 p q + 1 / 2 * ∑ p, ∑ q, ∑ r, ∑ s, e p q r s * d.2 p q r s

/-- **C203**, saved files: for two-electron integrals with the symmetries of real orbitals, the energy from the two arrays that the script
saves is the sum of the local energies of all its samples divided by the configured number of samples, whatever the samples are. -/
theorem C203_files (src : AmpSource L (Fin 4) Cache) (n : ℕ × ℕ) (c : Setup) (samples : ℕ → ℕ → Cfg L) {m : ℕ} (hm : nChunks c = some m)
    (h : Fin L → Fin L → ℂ) (e : Fin L → Fin L → Fin L → Fin L → ℂ) (h1 : ∀ p q r s, e p q r s = e q p r s)
    (h2 : ∀ p q r s, e p q r s = e p q s r) (h3 : ∀ p q r s, e p q r s = e r s p q) :
    ∃ d, savedRDMs src n c samples = some d ∧
      fileEnergy h e d = (∑ i ∈ Finset.range m, ∑ k ∈ Finset.range (drawn c), abLocalEn src n (abT h e) e (samples i k)) / c.nSamples := by
  refine ⟨_, saved_eq src n c samples hm, ?_⟩
  have hswap : ∀ p q r, e p r r q = e q r r p := fun p q r => by rw [h3 p r r q, h1 r q p r, h2 q r p r]
  set A : Arr1 L := fun p q => ∑ i ∈ Finset.range m, ∑ k ∈ Finset.range (drawn c), (abLocalRDMs src n (samples i k)).1 (p, q) with hA
  set B : Arr2 L := fun p q r s => ∑ i ∈ Finset.range m, ∑ k ∈ Finset.range (drawn c), (abLocalRDMs src n (samples i k)).2 (p, q, r, s) with hB
  have hR : ∑ i ∈ Finset.range m, ∑ k ∈ Finset.range (drawn c), abLocalEn src n (abT h e) e (samples i k) =
      ∑ p, ∑ q, abT h e p q * A p q + ∑ p, ∑ q, ∑ r, ∑ s, e p q r s * B p q r s := by
    simp only [← C15_contract, Fintype.sum_prod_type, Finset.sum_add_distrib]
    congr 1
    · rw [Finset.sum_congr rfl fun i _ => Finset.sum_comm, Finset.sum_comm]
      refine Finset.sum_congr rfl fun p _ => ?_
      rw [Finset.sum_congr rfl fun i _ => Finset.sum_comm, Finset.sum_comm]
      refine Finset.sum_congr rfl fun q _ => ?_
      simp only [hA, Finset.mul_sum]
    · rw [Finset.sum_congr rfl fun i _ => Finset.sum_comm, Finset.sum_comm]
      refine Finset.sum_congr rfl fun p _ => ?_
      rw [Finset.sum_congr rfl fun i _ => Finset.sum_comm, Finset.sum_comm]
      refine Finset.sum_congr rfl fun q _ => ?_
      rw [Finset.sum_congr rfl fun i _ => Finset.sum_comm, Finset.sum_comm]
      refine Finset.sum_congr rfl fun r _ => ?_
      rw [Finset.sum_congr rfl fun i _ => Finset.sum_comm, Finset.sum_comm]
      refine Finset.sum_congr rfl fun s _ => ?_
      simp only [hB, Finset.mul_sum]
  rw [hR]
  have hx : ∑ p, ∑ q, ∑ r, ∑ s, e p q r s * (if q = r then A s p / c.nSamples else 0) =
      (∑ p, ∑ q, (∑ r, e p r r q) * A p q) / c.nSamples := by
    have e1 : ∀ p q : Fin L, ∑ r, ∑ s, e p q r s * (if q = r then A s p / c.nSamples else 0) = ∑ s, e p q q s * (A s p / c.nSamples) := by
      intro p q
      refine (Finset.sum_eq_single q ?_ ?_).trans ?_
      · intro r _ hr
        simp [hr.symm]
      · simp
      · simp
    simp only [e1]
    have e2 : ∑ p, ∑ q, (∑ r, e p r r q) * A p q = ∑ p, ∑ q, (∑ r, e p r r q) * A q p := by
      rw [Finset.sum_comm]
      refine Finset.sum_congr rfl fun q _ => Finset.sum_congr rfl fun p _ => ?_
      congr 1
      exact Finset.sum_congr rfl fun r _ => hswap p q r
    rw [e2, Finset.sum_div]
    refine Finset.sum_congr rfl fun p _ => ?_
    rw [Finset.sum_comm, Finset.sum_div]
    refine Finset.sum_congr rfl fun s _ => ?_
    rw [← Finset.sum_mul]
    ring
  unfold fileEnergy
  simp only [mul_sub, Finset.sum_sub_distrib]
  rw [hx]
  have ha : ∑ p, ∑ q, h p q * (A p q / c.nSamples) = (∑ p, ∑ q, h p q * A p q) / c.nSamples := by
    simp only [Finset.sum_div]
    exact Finset.sum_congr rfl fun p _ => Finset.sum_congr rfl fun q _ => by ring
  have hb : ∑ p, ∑ q, ∑ r, ∑ s, e p q r s * (2 * (B p q r s / c.nSamples)) = 2 * ((∑ p, ∑ q, ∑ r, ∑ s, e p q r s * B p q r s) / c.nSamples) := by
    simp only [Finset.sum_div, Finset.mul_sum]
    exact Finset.sum_congr rfl fun p _ => Finset.sum_congr rfl fun q _ => Finset.sum_congr rfl fun r _ => Finset.sum_congr rfl fun s _ => by ring
  have hc : ∑ p, ∑ q, abT h e p q * A p q = ∑ p, ∑ q, h p q * A p q - 1 / 2 * ∑ p, ∑ q, (∑ r, e p r r q) * A p q := by
    rw [Finset.mul_sum, ← Finset.sum_sub_distrib]
    refine Finset.sum_congr rfl fun p _ => ?_
    rw [Finset.mul_sum, ← Finset.sum_sub_distrib]
    refine Finset.sum_congr rfl fun q _ => ?_
    unfold abT
    ring
  rw [hc]
  refine Eq.trans (b := (∑ p, ∑ q, h p q * (A p q / c.nSamples)) + 1 / 2 * (∑ p, ∑ q, ∑ r, ∑ s, e p q r s * (2 * (B p q r s / c.nSamples)) -
    (∑ p, ∑ q, (∑ r, e p r r q) * A p q) / c.nSamples)) ?_ ?_
  · rw [mul_sub]
  · rw [ha, hb]
    ring

/-- **C203**, saved files in use: the response of the energy of the samples to a change of the integrals can be read off the files. -/
theorem C203_file_response (h h' : Fin L → Fin L → ℂ) (e e' : Fin L → Fin L → Fin L → Fin L → ℂ) (d : Arr1 L × Arr2 L) :
    fileEnergy h' e' d - fileEnergy h e d = fileEnergy (fun p q => h' p q - h p q) (fun p q r s => e' p q r s - e p q r s) d := by
  unfold fileEnergy
  simp only [sub_mul, Finset.sum_sub_distrib]
  ring

/-- two orbitals, one process with one chain, four samples in chunks of two: the assumptions hold -/
example (src : AmpSource 2 (Fin 4) Cache) (samples : ℕ → ℕ → Cfg 2) :
    ∃ d, savedRDMs src (1, 1) { nodes := 1, chains := 1, nSamples := 4, chunkSize := 2 } samples = some d ∧
      fileEnergy (fun p q => if p = q then 0 else -1) (fun p q r s => if p = q ∧ q = r ∧ r = s then 4 else 0) d =
        (∑ i ∈ Finset.range 2, ∑ k ∈ Finset.range 2,
          abLocalEn src (1, 1) (abT (fun p q => if p = q then 0 else -1) fun p q r s => if p = q ∧ q = r ∧ r = s then 4 else 0)
            (fun p q r s => if p = q ∧ q = r ∧ r = s then 4 else 0) (samples i k)) / 4 := by
  have h := C203_files src (1, 1) { nodes := 1, chains := 1, nSamples := 4, chunkSize := 2 } samples (m := 2) (by decide)
    (fun p q => if p = q then 0 else -1) (fun p q r s => if p = q ∧ q = r ∧ r = s then 4 else 0)
    (fun p q r s => by revert p q r s; norm_num [Fin.forall_fin_two]) (fun p q r s => by revert p q r s; norm_num [Fin.forall_fin_two])
    (fun p q r s => by revert p q r s; norm_num [Fin.forall_fin_two])
  simpa [drawn] using h

end GPSKet.Response
