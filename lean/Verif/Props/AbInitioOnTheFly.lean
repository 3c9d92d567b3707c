import Verif.Lemmas.AbInitioOnTheFly
import Verif.Props.AbInitio

/-!
# Properties C14, C15, C18: on-the-fly local energies of the ab-initio Hamiltonian

Specification used: `Verif/Spec/Fock.lean` (`abInitioTwice`), `Verif/Spec/Occupation.lean`, `Verif/Spec/Updates.lean`
(`localEnergy`, `applyUpdate`, `Padded`).
-/

namespace GPSKet
open Spec

variable {L : ℕ} {Cache : Type}

/-! ## C18 -/

/-- **C18**: the scan over the update list in reverse order produces the configuration in which the first listed occupation of a site
wins, for every list of updates. -/
theorem C18_first_wins (x : Cfg L) (upd : List (Fin L × Fin 4)) (k : Fin L) :
    (upd.reverse.foldl (fun y u => Function.update y u.1 u.2) x) k =
      match upd.find? (fun u => decide (u.1 = k)) with
      | some u => u.2
      | none => x k := by
  rw [← applyUpdate_foldr]
  unfold applyUpdate
  cases upd.find? (fun u => decide (u.1 = k)) <;> rfl

/-- **C18**: composing a second change with `get_updated_occ_previous_move` gives the list denoting the change applied to the already
changed configuration, whether or not the site was listed before; a list keeping the padding convention keeps it. -/
theorem C18_compose (x : Cfg L) (upd : List (Fin L × Fin 4)) (site : Fin L) (d : ℤ) :
    applyUpdate x (prevMove x upd site d) = Function.update (applyUpdate x upd) site (occAdd (applyUpdate x upd site) d) ∧
    (prevMove x upd site d).length = upd.length + 1 ∧
    (Padded x upd → Padded x (prevMove x upd site d)) :=
  ⟨prevMove_apply x upd site d, by simp [prevMove], fun h => prevMove_padded h site d⟩

/-- **C18**: the list the kernel builds for an up hop `i → a` followed by a down hop `j → b` denotes the configuration obtained by
applying the two hops one after the other, for all sites, including shared ones, and keeps the padding convention. -/
theorem C18_two_moves (x : Cfg L) (i a j b : Fin L) (hi : hasSpin false (x i) = true) (ha : hasSpin false (x a) = false)
    (hj : hasSpin true (x j) = true) (hb : hasSpin true (x b) = false) (c c' : Option (ℕ → ℤ)) :
    let upd := prevMove x (prevMove x (hopUpdate x 1 i a) j (-2)) b 2
    applyUpdate x upd = (applyHopping j b (applyHopping i a x 1 c).2 2 c').2 ∧ Padded x upd ∧ upd.length = 4 := by
  intro upd
  have hai : a ≠ i := by rintro rfl; simp [hi] at ha
  have hbj : b ≠ j := by rintro rfl; simp [hj] at hb
  obtain ⟨hp, hu⟩ := mixed_apply (s := false) x hi ha hj hb
  simp only [Bool.not_false, spinZ] at hp hu
  have hv : ∀ (y : Cfg L) (s : Bool) (p q : Fin L), q ≠ p → hasSpin s (y p) = true → hasSpin s (y q) = false → ∀ c,
      (applyHopping p q y (spinInt s) c).2 = hopCfg y s p q := by
    intro y s p q hne hp hq c
    have hp' := (hasSpin_iff s _).mp hp
    have hq' : y q &&& spinInt s = 0 := by
      have : ¬ (hasSpin s (y q) = true) := by simp [hq]
      rw [hasSpin_iff, not_not] at this; exact this
    unfold applyHopping hopCfg
    simp only [hp', hq', hne, if_false, if_true, Function.update_of_ne hne]
    split_ifs <;> simp_all
  refine ⟨?_, hp, by simp [upd, prevMove, hopUpdate]⟩
  simp only [upd]
  rw [hu, show (1 : Fin 4) = spinInt false from rfl, show (2 : Fin 4) = spinInt true from rfl, hv x false i a hai hi ha,
    hv _ true j b hbj]
  · rw [hopCfg_spin x true hai hi ha]; simp [hj]
  · rw [hopCfg_spin x true hai hi ha]; simp [hb]

/-- both electrons of a doubly occupied site hop to the same empty site: every site is listed twice -/
example : prevMove (![3, 0] : Cfg 2) (prevMove ![3, 0] (hopUpdate ![3, 0] 1 0 1) 0 (-2)) 1 2 = [(0, 0), (1, 3), (0, 3), (1, 0)] ∧
    applyUpdate (![3, 0] : Cfg 2) [(0, 0), (1, 3), (0, 3), (1, 0)] = ![0, 3] := by decide +kernel

/-! ## C14 -/

theorem abKernel_single {K : Type} [Field K] (t : Fin L → Fin L → K) (e : Fin L → Fin L → Fin L → Fin L → K) (x : Cfg L) :
    (abKernel t e [x]).buf.out = abRows t e x := by
  obtain ⟨g1, _⟩ := abKernel_aux t e [x] 0 { buf := { out := [], sections := fun _ => none }, alloc := 0 }
  change (abKernel t e [x]).buf.out = _ at g1
  rw [g1]; simp

/-- **C14**.  For every sample with the electron numbers of the Hilbert space, the on-the-fly local energy is
`Σ_{x'} ⟨x|H|x'⟩ ψ(x')/ψ(x)` for the operator that the kernel enumerates, for all integrals and wave functions, both when the model is
re-evaluated and when its fast update is used, provided that fast update is coherent for padded updates (`AmpSource.OkPaddedAt`). -/
theorem C14_local_energy (src : AmpSource L (Fin 4) Cache) (t : Fin L → Fin L → ℂ) (e : Fin L → Fin L → Fin L → Fin L → ℂ) (x : Cfg L)
    (hs : src.OkPaddedAt x) :
    abLocalEn src (numElec false x, numElec true x) t e x =
      localEnergy (fun x' => rowElem (abKernel t e [x]).buf.out x') src.logAmp x := by
  have h1 := unoccInds_length x false
  have h2 := unoccInds_length x true
  rw [abLocalEn_eq src t e x _ rfl rfl (occInds_length x false) (occInds_length x true) (by simp only; omega) (by simp only; omega) hs]
  unfold localEnergy
  rw [rowApply_eq, abKernel_single]
  simp only [ratioF_apply]

/-- **C14**: with the integrals of the constructor it is the local energy of the molecular Hamiltonian. -/
theorem C14_local_energy_operator (src : AmpSource L (Fin 4) Cache) (h : Fin L → Fin L → ℂ) (e : Fin L → Fin L → Fin L → Fin L → ℂ)
    (hsym : ∀ p q r s, e p q r s = e r s p q) (x : Cfg L) (hs : src.OkPaddedAt x) :
    abLocalEn src (numElec false x, numElec true x) (abT h e) e x =
      localEnergy (fun x' => (1 / 2) * abInitioTwice h e (occOf x) (occOf x')) src.logAmp x := by
  rw [C14_local_energy src _ e x hs]
  simp only [C13_rows two_ne_zero h e hsym]

/-- the requirement on fast updates is met by a model that caches the configuration -/
example (logpsi : Cfg L → ℂ) (x : Cfg L) :
    (AmpSource.fast (Cache := Cfg L) { full := logpsi, cacheOf := id, fast := fun c upd => logpsi (applyUpdate c upd) }).OkPaddedAt x := by
  intro y upd _; rfl

/-! ## C15 -/

theorem contract_rdmAdds {I : Type} [Fintype I] [DecidableEq I] (c : I → ℂ) (l : List (I × ℂ)) :
    ∑ i, c i * rdmAdds l i = (l.map fun u => c u.1 * u.2).sum := by
  induction l with
  | nil => simp [rdmAdds]
  | cons u l ih =>
    have : ∀ i, rdmAdds (u :: l) i = (if u.1 = i then u.2 else 0) + rdmAdds l i := fun i => rfl
    simp only [this, mul_add, Finset.sum_add_distrib, ih, List.map_cons, List.sum_cons]
    simp

theorem sum_map_flatMap' {α β : Type} (l : List α) (f : α → List β) (g : β → ℂ) :
    ((l.flatMap f).map g).sum = (l.map fun u => ((f u).map g).sum).sum := by
  induction l with
  | nil => rfl
  | cons u l ih => rw [List.flatMap_cons, List.map_append, List.sum_append, ih, List.map_cons, List.sum_cons]

theorem sum_map_map' {α β : Type} (l : List α) (f : α → β) (g : β → ℂ) : ((l.map f).map g).sum = (l.map fun u => g (f u)).sum := by
  rw [List.map_map]; rfl

/-- **C15**: contracting the local reduced density matrices with the one- and two-electron integrals the operator holds (`t_mat`,
`eri_mat`) gives the local energy, for every wave function, sample and integrals. -/
theorem C15_contract (src : AmpSource L (Fin 4) Cache) (n_elecs : ℕ × ℕ) (t : Fin L → Fin L → ℂ)
    (e : Fin L → Fin L → Fin L → Fin L → ℂ) (x : Cfg L) :
    (∑ pq : Fin L × Fin L, t pq.1 pq.2 * (abLocalRDMs src n_elecs x).1 pq)
      + (∑ pqrs : Fin L × Fin L × Fin L × Fin L, e pqrs.1 pqrs.2.1 pqrs.2.2.1 pqrs.2.2.2 * (abLocalRDMs src n_elecs x).2 pqrs)
      = abLocalEn src n_elecs t e x := by
  unfold abLocalRDMs abLocalEn
  simp only [contract_rdmAdds (fun pq : Fin L × Fin L => t pq.1 pq.2),
    contract_rdmAdds (fun pqrs : Fin L × Fin L × Fin L × Fin L => e pqrs.1 pqrs.2.1 pqrs.2.2.1 pqrs.2.2.2)]
  generalize nonzeroSize (occInds x 1) n_elecs.1 = up
  generalize nonzeroSize (occInds x 2) n_elecs.2 = dn
  generalize nonzeroSize (unoccInds x 1) (L - n_elecs.1) = up'
  generalize nonzeroSize (unoccInds x 2) (L - n_elecs.2) = dn'
  unfold tAdds eriAdds sameAdds sameTerms
  simp only [List.map_append, List.sum_append, sum_map_flatMap', sum_map_map', mul_one]
  -- one-body terms
  have one : ∀ (r : Fin L → Fin L → ℂ) (O O' V : List (Fin L)),
      (O.map fun i => (V.map fun a => abOneValue t e O O' V i a * r i a).sum).sum =
      (O.map fun i => (V.map fun a => t i a * r i a).sum).sum
      + (O.map fun i => (V.map fun a => ((oneAdds (r i a) O O' V i a).map fun u => e u.1.1 u.1.2.1 u.1.2.2.1 u.1.2.2.2 * u.2).sum).sum).sum := by
    intro r O O' V
    rw [← List.sum_map_add]
    congr 1
    apply List.map_congr_left; intro i _
    rw [← List.sum_map_add]
    congr 1
    apply List.map_congr_left; intro a _
    unfold oneAdds abOneValue
    simp only [List.map_append, List.sum_append, sum_map_map', List.sum_map_mul_right, List.sum_map_mul_left]
    ring
  rw [one, one]
  have half : ∀ (O V : List (Fin L)) (f : Fin L → Fin L → ℂ),
      (O.map fun i => (V.map fun a => f i a * (1 / 2)).sum).sum = 1 / 2 * (O.map fun i => (V.map fun a => f i a).sum).sum := by
    intro O V f
    simp only [List.sum_map_mul_right]
    ring
  simp only [half]
  have same : ∀ (O V : List (Fin L)) (f : Fin L → Fin L → Fin L → Fin L → ℂ),
      (O.map fun i => (V.map fun a => ((O.filter fun j => decide (j ≠ i)).map fun j => ((V.filter fun b => decide (b ≠ a)).map fun b =>
        e i a j b * (1 / 2 * f i a j b)).sum).sum).sum).sum =
      (O.map fun i => (V.map fun a => 1 / 2 * ((O.filter fun j => decide (j ≠ i)).map fun j => ((V.filter fun b => decide (b ≠ a)).map fun b =>
        e i a j b * f i a j b).sum).sum).sum).sum := by
    intro O V f
    congr 1
    apply List.map_congr_left; intro i _
    congr 1
    apply List.map_congr_left; intro a _
    rw [← List.sum_map_mul_left]
    congr 1
    apply List.map_congr_left; intro j _
    rw [← List.sum_map_mul_left]
    congr 1
    apply List.map_congr_left; intro b _
    ring
  rw [same, same]
  ring

/-- **C15** with the properties of C14: the contraction is the local energy of the molecular Hamiltonian. -/
theorem C15_contract_operator (src : AmpSource L (Fin 4) Cache) (h : Fin L → Fin L → ℂ)
    (e : Fin L → Fin L → Fin L → Fin L → ℂ) (hsym : ∀ p q r s, e p q r s = e r s p q) (x : Cfg L) (hs : src.OkPaddedAt x) :
    (∑ pq : Fin L × Fin L, abT h e pq.1 pq.2 * (abLocalRDMs src (numElec false x, numElec true x) x).1 pq)
      + (∑ pqrs : Fin L × Fin L × Fin L × Fin L, e pqrs.1 pqrs.2.1 pqrs.2.2.1 pqrs.2.2.2 *
          (abLocalRDMs src (numElec false x, numElec true x) x).2 pqrs)
      = localEnergy (fun x' => (1 / 2) * abInitioTwice h e (occOf x) (occOf x')) src.logAmp x := by
  rw [C15_contract, C14_local_energy_operator src h e hsym x hs]

end GPSKet
