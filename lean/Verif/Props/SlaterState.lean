import Verif.Lemmas.SlaterState
import Verif.Props.Slater
import Verif.Props.CPDAmplitude
import Mathlib.Data.Finset.Sort

/-!
# C105: determinants follow the sign convention of the Hamiltonians

The amplitudes of the determinant models are those of the states `c†(φ₁) ⋯ c†(φ_N) |0⟩`, with the creation operators in terms of which
the Hamiltonians are stated (C04, C13).
-/

namespace GPSKet.SlaterAmplitudes
open Spec Electrons Backflow

variable {L R nu nd n M : ℕ} {κ ι Cache : Type}

/-- The electrons of a configuration can be enumerated. -/
theorem exists_enum (s : Bool) (x : Cfg L) {n : ℕ} (h : numElec s x = n) :
    ∃ e : Fin n → Fin L, StrictMono e ∧ ∀ i, hasSpin s (x i) = true ↔ ∃ k, e k = i := by
  refine ⟨(Finset.univ.filter fun i => hasSpin s (x i) = true).orderEmbOfFin h, OrderEmbedding.strictMono _, fun i => ?_⟩
  have := Finset.range_orderEmbOfFin (Finset.univ.filter fun i => hasSpin s (x i) = true) h
  have h2 := Set.ext_iff.mp this i
  simp only [Set.mem_range, Finset.coe_filter, Finset.mem_univ, true_and, Set.mem_ofPred_eq] at h2
  exact h2.symm

theorem exists_enumerates {x : Cfg L} (hx : numElec false x = nu ∧ numElec true x = nd) :
    ∃ (up : Fin nu → Fin L) (dn : Fin nd → Fin L), Enumerates x up dn := by
  obtain ⟨up, h1, h2⟩ := exists_enum false x hx.1
  obtain ⟨dn, h3, h4⟩ := exists_enum true x hx.2
  exact ⟨up, dn, h1, h3, h2, h4⟩

/-- A configuration is represented by a Fock state with as many particles. -/
theorem upDown_state {a : Fin L → Fin nu → ℂ} {b : Fin L → Fin nd → ℂ} {x : Cfg L} {up : Fin nu → Fin L} {dn : Fin nd → Fin L}
    (h : Enumerates x up dn) :
    (Matrix.of fun i k => a (up i) k).det * (Matrix.of fun i k => b (dn i) k).det = upDownState a b (occOf x) :=
  (upDownState_det a b x up dn h.up_mono h.dn_mono h.up_iff h.dn_iff).symm

theorem stacked_state {u : Fin (L + L) → Fin (nu + nd) → ℂ} {x : Cfg L} {up : Fin nu → Fin L} {dn : Fin nd → Fin L}
    (h : Enumerates x up dn) :
    (Matrix.of fun (i k : Fin (nu + nd)) => u (Fin.addCases (motive := fun _ => Fin (L + L)) (fun i => Fin.castAdd L (up i))
      (fun i => Fin.natAdd L (dn i)) i) k).det = slaterState (List.ofFn fun k => stacked fun r => u r k) (occOf x) := by
  rw [slaterState_upDown _ x up dn h.up_mono h.dn_mono h.up_iff h.dn_iff]
  congr 1
  ext i k
  simp only [Matrix.of_apply]
  induction i using Fin.addCases with
  | left i => simp [upDown, stacked, mode]
  | right i => simp [upDown, stacked, mode]

/-- A column of spin-orbital values moved by a permutation of the sites. -/
def movedBy (sym : Fin L → Fin L) (u : Fin (L + L) → ℂ) : Fin (L + L) → ℂ :=
  Fin.addCases (motive := fun _ => ℂ) (fun i => u (Fin.castAdd L (sym i))) (fun i => u (Fin.natAdd L (sym i)))

/-- **C105**, Slater model, any kind of orbitals: every determinant (number `m`, spin rotation `s`, symmetry operation `t`) is the
amplitude of the Slater determinant of the columns of the orbitals, moved by the symmetry operation. -/
theorem C105_slater (mod : Slater.Module L nu nd M κ ι) (x : Cfg L) (hx : numElec false x = nu ∧ numElec true x = nd) (m : Fin M)
    (s : κ) (t : ι) : Slater.detValues mod x m s t =
      slaterState (List.ofFn fun k => stacked (movedBy (mod.symmetries t) fun r => Slater.fullU mod.orbs m r k s)) (occOf x) := by
  obtain ⟨up, dn, h⟩ := exists_enumerates hx
  rw [Props.C41_full mod x hx m s t up dn h.up_mono h.dn_mono h.up_iff h.dn_iff,
    ← stacked_state (u := fun r k => movedBy (mod.symmetries t) (fun r => Slater.fullU mod.orbs m r k s) r) h]
  congr 1
  ext i k
  simp only [Matrix.of_apply]
  induction i using Fin.addCases with
  | left i => simp [movedBy]
  | right i => simp only [movedBy, Fin.addCases_right]

/-- **C105**, Slater model with fixed magnetisation: up electrons in the up orbitals, down electrons in the down orbitals. -/
theorem C105_slater_fixed (Uu : Fin M → Fin L → Fin nu → ℂ) (Ud : Fin M → Fin L → Fin nd → ℂ) (sym : ι → Fin L → Fin L) (chars : Unit → ℂ)
    (ct : Bool) (out : (Fin M → Unit → ι → ℂ) → ℂ) (x : Cfg L) (hx : numElec false x = nu ∧ numElec true x = nd) (m : Fin M) (t : ι) :
    Slater.detValues ⟨.fixedMag Uu Ud, sym, chars, ct, out⟩ x m () t =
      upDownState (fun i k => Uu m (sym t i) k) (fun i k => Ud m (sym t i) k) (occOf x) := by
  obtain ⟨up, dn, h⟩ := exists_enumerates hx
  rw [C105_slater _ x hx]
  unfold upDownState
  have hl : List.ofFn (fun k => spinOrbital false fun i => Uu m (sym t i) k) ++ List.ofFn (fun k => spinOrbital true fun i => Ud m (sym t i) k) =
      List.ofFn (Fin.addCases (motive := fun _ => Mode L → ℂ) (fun k => spinOrbital false fun i => Uu m (sym t i) k)
        (fun k => spinOrbital true fun i => Ud m (sym t i) k)) := by
    rw [List.ofFn_add]
    congr 1 <;> congr 1 <;> funext k
    · exact (Fin.addCases_left (motive := fun _ => Mode L → ℂ) (left := fun k => spinOrbital false fun i => Uu m (sym t i) k)
        (right := fun k => spinOrbital true fun i => Ud m (sym t i) k) k).symm
    · exact (Fin.addCases_right (motive := fun _ => Mode L → ℂ) (left := fun k => spinOrbital false fun i => Uu m (sym t i) k)
        (right := fun k => spinOrbital true fun i => Ud m (sym t i) k) k).symm
  rw [hl]
  congr 2
  funext k p
  obtain ⟨⟨σ, i⟩, rfl⟩ := toLex.surjective p
  induction k using Fin.addCases with
  | left k => cases σ <;> simp [-Fin.natAdd_eq_addNat, stacked, movedBy, Slater.fullU, Slater.getFullU, spinOrbital]
  | right k => cases σ <;> simp [-Fin.natAdd_eq_addNat, stacked, movedBy, Slater.fullU, Slater.getFullU, spinOrbital]

/-- **C105**, CPD backflow, restricted orbitals: the amplitude is that of the Slater determinant of the orbitals of this configuration. -/
theorem C105_cpd_restricted (eps : CPDBackflow.Eps L L n M) (x : Cfg L) (hx : numElec false x = n ∧ numElec true x = n) :
    (CPDBackflow.model (.restricted n) eps).full x =
      Complex.log (upDownState (CPDBackflow.cpdOrbital eps x) (CPDBackflow.cpdOrbital eps x) (occOf x)) := by
  obtain ⟨up, dn, h⟩ := exists_enumerates hx
  rw [CPDBackflow.C71_restricted eps x up dn h, ← upDown_state h]

/-- **C105**, CPD backflow, unrestricted orbitals. -/
theorem C105_cpd_unrestricted (eps : CPDBackflow.Eps L L (nu + nd) M) (x : Cfg L) (hx : numElec false x = nu ∧ numElec true x = nd) :
    (CPDBackflow.model (.unrestricted nu nd) eps).full x =
      Complex.log (upDownState (fun i k => CPDBackflow.cpdOrbital eps x i (Fin.castAdd nd k))
        (fun i k => CPDBackflow.cpdOrbital eps x i (Fin.natAdd nu k)) (occOf x)) := by
  obtain ⟨up, dn, h⟩ := exists_enumerates hx
  rw [CPDBackflow.C71_unrestricted eps x up dn h, ← upDown_state h]

/-- **C105**, CPD backflow, generalised orbitals. -/
theorem C105_cpd_generalised (eps : CPDBackflow.Eps L (L + L) (nu + nd) M) (x : Cfg L) (hx : numElec false x = nu ∧ numElec true x = nd) :
    (CPDBackflow.model (.generalised nu nd) eps).full x =
      Complex.log (slaterState (List.ofFn fun k => stacked fun r => CPDBackflow.cpdOrbital eps x r k) (occOf x)) := by
  obtain ⟨up, dn, h⟩ := exists_enumerates hx
  rw [CPDBackflow.C71_generalised eps x up dn h, ← stacked_state (u := fun r k => CPDBackflow.cpdOrbital eps x r k) h]

variable [Fintype ι]

/-- **C105**, backflow, restricted orbitals: a sum over symmetry operations of amplitudes of Slater determinants of the orbitals of
this configuration. -/
theorem C105_backflow_restricted (c : Correction L L n ι Cache) (Φ : Option (Fin L → Fin n → ℂ)) (f : ι → ℕ → ℕ) (sym : ι → Fin L → Fin L)
    (hf : ∀ t (k : Fin L), f t k.val = (sym t k).val) (x : Cfg L) (hx : numElec false x = n ∧ numElec true x = n) :
    let mod : Module L L n n n ι Cache := ⟨.restricted n, c, Φ, f⟩
    (model mod).full x = Complex.log (∑ t, upDownState (fun i k => correctedOrbital mod x t (sym t i) k)
      (fun i k => correctedOrbital mod x t (sym t i) k) (occOf x)) := by
  intro mod
  obtain ⟨up, dn, h⟩ := exists_enumerates hx
  rw [C68_restricted c Φ f sym hf x up dn h]
  congr 1
  exact Finset.sum_congr rfl fun t _ => upDown_state (a := fun i k => correctedOrbital mod x t (sym t i) k)
    (b := fun i k => correctedOrbital mod x t (sym t i) k) h

/-- **C105**, backflow, unrestricted orbitals. -/
theorem C105_backflow_unrestricted (c : Correction L L (nu + nd) ι Cache) (Φ : Option (Fin L → Fin (nu + nd) → ℂ)) (f : ι → ℕ → ℕ)
    (sym : ι → Fin L → Fin L) (hf : ∀ t (k : Fin L), f t k.val = (sym t k).val) (x : Cfg L)
    (hx : numElec false x = nu ∧ numElec true x = nd) :
    let mod : Module L L (nu + nd) nu nd ι Cache := ⟨.unrestricted nu nd, c, Φ, f⟩
    (model mod).full x = Complex.log (∑ t, upDownState (fun i k => correctedOrbital mod x t (sym t i) (Fin.castAdd nd k))
      (fun i k => correctedOrbital mod x t (sym t i) (Fin.natAdd nu k)) (occOf x)) := by
  intro mod
  obtain ⟨up, dn, h⟩ := exists_enumerates hx
  rw [C68_unrestricted c Φ f sym hf x up dn h]
  congr 1
  exact Finset.sum_congr rfl fun t _ => upDown_state (a := fun i k => correctedOrbital mod x t (sym t i) (Fin.castAdd nd k))
    (b := fun i k => correctedOrbital mod x t (sym t i) (Fin.natAdd nu k)) h

/-- **C105**, backflow, generalised orbitals. -/
theorem C105_backflow_generalised (c : Correction L (L + L) (nu + nd) ι Cache) (Φ : Option (Fin (L + L) → Fin (nu + nd) → ℂ)) (f : ι → ℕ → ℕ)
    (sym : ι → Fin L → Fin L) (hf : ∀ t (k : Fin L), f t k.val = (sym t k).val) (x : Cfg L)
    (hx : numElec false x = nu ∧ numElec true x = nd) :
    let mod : Module L (L + L) (nu + nd) nu nd ι Cache := ⟨.generalised nu nd, c, Φ, f⟩
    (model mod).full x = Complex.log (∑ t, slaterState (List.ofFn fun k => stacked (movedBy (sym t) fun r => correctedOrbital mod x t r k))
      (occOf x)) := by
  intro mod
  obtain ⟨up, dn, h⟩ := exists_enumerates hx
  rw [C68_generalised c Φ f sym hf x up dn h]
  congr 1
  refine Finset.sum_congr rfl fun t _ => ?_
  rw [← stacked_state (u := fun r k => movedBy (sym t) (fun r => correctedOrbital mod x t r k) r) h]
  congr 1
  ext i k
  simp only [Matrix.of_apply]
  induction i using Fin.addCases with
  | left i => simp only [movedBy, Fin.addCases_left]; rfl
  | right i => simp only [movedBy, Fin.addCases_right]; rfl

/-- Two up electrons on two sites: the amplitude of `c†(φ₁) c†(φ₂) |0⟩` is the determinant `1 · 4 - 2 · 3`, and exchanging the
orbitals changes its sign. -/
example : upDownState (K := ℂ) (n_down := 0) (fun (i : Fin 2) (k : Fin 2) => (!![1, 2; 3, 4] : Matrix _ _ ℂ) i k) (fun _ k => k.elim0)
    (occOf ![1, 1]) = -2 ∧
    upDownState (K := ℂ) (n_down := 0) (fun (i : Fin 2) (k : Fin 2) => (!![2, 1; 4, 3] : Matrix _ _ ℂ) i k) (fun _ k => k.elim0)
    (occOf ![1, 1]) = 2 := by
  have h : Enumerates (![1, 1] : Cfg 2) (id : Fin 2 → Fin 2) (fun k : Fin 0 => k.elim0) :=
    ⟨strictMono_id, fun a => a.elim0, by decide, by decide⟩
  constructor
  · rw [← upDown_state h]; simp [Matrix.det_fin_two]; norm_num
  · rw [← upDown_state h]; simp [Matrix.det_fin_two]; norm_num

end GPSKet.SlaterAmplitudes
