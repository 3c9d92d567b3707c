import Verif.Props.Expressive
import Verif.Props.DetExpressive
import Verif.Model.PlaquetteQGPS

/-! # How the ansätze are contained in each other (C195) -/

namespace GPSKet.Containment
open GPSKet Spec AR Props

variable {L D M : ℕ} {ι : Type}

/-! ## Autoregressive models -/

/-- The packed parameters with the entries of a table: `T d m i j` weights local state `d` of site `j` in the conditional of site `i`. -/
noncomputable def packed (T : Fin D → Fin M → Fin L → Fin L → ℂ) (d : Fin D) (m : Fin M) (k : ℕ) : ℂ :=
  if h : (Expressive.unpack L k).1 < L ∧ (Expressive.unpack L k).2 < L then T d m ⟨_, h.1⟩ ⟨_, h.2⟩ else 0

theorem packed_read (T : Fin D → Fin M → Fin L → Fin L → ℂ) (d : Fin D) (m : Fin M) (i j : Fin L) (h : j.val ≤ i.val) :
    ARFull.readPacked (packed T) L d m (ARFull.lowerIndex i + j.val) = T d m i j := by
  rw [Expressive.read_eq i.isLt h]
  unfold packed
  rw [dif_pos (by rw [Expressive.unpack_eq i.isLt h]; exact ⟨i.isLt, j.isLt⟩)]
  congr 1 <;> exact Fin.ext (by simp only [Expressive.unpack_eq i.isLt h])

theorem packed_val (f : Fields D M) (T : Fin D → Fin M → Fin L → Fin L → ℂ) (i : Fin L) (x : Fin L → Fin D) (d : Fin D) :
    ARFull.fullVal f (packed T) i x d =
      f.out_transformation fun m => T d m i i * ∏ j : Fin L, if j.val < i.val then T (x j) m i j else 1 := by
  unfold ARFull.fullVal
  congr 1
  funext m
  rw [packed_read T d m i i le_rfl]
  congr 1
  unfold ARFull.contextProd
  refine Finset.prod_congr rfl fun j _ => ?_
  by_cases hj : j.val < i.val
  · rw [if_neg (by omega), if_pos hj, Props.sliceStart_eq i.isLt, packed_read T (x j) m i j hj.le]
  · rw [if_pos (by omega), if_neg hj]

theorem logPsi_congr (m m' : Machine L D M) (hf : m.fields = m'.fields) (val : Fin L → (Fin L → Fin D) → Fin D → ℂ) (g : AR.Good m val)
    (g' : AR.Good m' val) [Fintype ι] (syms : ι → (Fin L → Fin D) → Fin L → Fin D) (x : Fin L → Fin D) : m.logPsi syms x = m'.logPsi syms x := by
  have h1 : ∀ y, m.logPsiOne y = m'.logPsiOne y := by
    intro y
    unfold Machine.logPsiOne
    congr 1
    funext i
    rw [g.log, g'.log, hf]
  unfold Machine.logPsi
  simp only [h1]
  rw [hf]

/-- **C195**, `ARqGPS` inside `ARqGPSFull`: for all fields of the module (normalisation, constraints, output transformation, power) and all
parameters there are parameters of an `ARqGPSFull` with the same fields and support dimension that give the same log-amplitude of
every configuration, whatever symmetry operations both are averaged over. -/
theorem C195_ar_in_full (f : Fields D M) (epsilon : Fin D → Fin M → Fin L → ℂ) :
    ∃ epsilon' : Fin D → Fin M → ℕ → ℂ, ∀ {ι : Type} [Fintype ι] (syms : ι → (Fin L → Fin D) → Fin L → Fin D) x,
      (ARFull.arqGPSFull f epsilon').logPsi syms x = (arqGPS f epsilon).logPsi syms x := by
  refine ⟨packed fun d m _ j => epsilon d m j, fun syms x => ?_⟩
  refine logPsi_congr (ARFull.arqGPSFull f _) (arqGPS f epsilon) rfl (qgpsVal f epsilon) ?_ (arqGPS_good f epsilon) syms x
  have hv : ARFull.fullVal f (packed fun d m (_ : Fin L) j => epsilon d m j) = qgpsVal f epsilon := by
    funext i x d
    rw [packed_val]
    rfl
  exact hv ▸ ARFull.arqGPSFull_good (L := L) f _

/-- **C195**, the filter model inside `ARqGPSFull`: the same for `ARPlaquetteqGPS` with filters that only look at sites before the
current one, as those made by `get_plaquettes_and_masks` do.  Two positions of a filter may show the same site. -/
theorem C195_plaquette_in_full [NeZero L] (f : Fields D M) (epsilon : Fin D → Fin M → Fin L → ℂ) (pl : ARPlaquette.Plaquettes L)
    (hpl : ∀ i k, pl.masks i k = true → pl.plaquettes i k < i) :
    ∃ epsilon' : Fin D → Fin M → ℕ → ℂ, ∀ {ι : Type} [Fintype ι] (syms : ι → (Fin L → Fin D) → Fin L → Fin D) x,
      (ARFull.arqGPSFull f epsilon').logPsi syms x = (ARPlaquette.arPlaquette f epsilon pl).logPsi syms x := by
  let T : Fin D → Fin M → Fin L → Fin L → ℂ := fun d m i j =>
    if j = i then epsilon d m 0 else ∏ k ∈ Finset.univ.filter (fun k => pl.plaquettes i k = j), if pl.masks i k then epsilon d m k else 1
  refine ⟨packed T, fun syms x => ?_⟩
  refine logPsi_congr (ARFull.arqGPSFull f _) (ARPlaquette.arPlaquette f epsilon pl) rfl (ARPlaquette.plaqVal f epsilon pl) ?_ (ARPlaquette.arPlaquette_good f epsilon pl hpl) syms x
  have hv : ARFull.fullVal f (packed T) = ARPlaquette.plaqVal f epsilon pl := by
    funext i x d
    rw [packed_val]
    unfold ARPlaquette.plaqVal
    congr 1
    funext m
    simp only [T, if_true]
    congr 1
    rw [← Finset.prod_fiberwise Finset.univ (fun k => pl.plaquettes i k)
      (fun k => if pl.masks i k then epsilon (x (pl.plaquettes i k)) m k else 1)]
    refine Finset.prod_congr rfl fun j _ => ?_
    by_cases hj : j.val < i.val
    · rw [if_pos hj, if_neg (by intro h; rw [h] at hj; omega)]
      refine Finset.prod_congr rfl fun k hk => ?_
      rw [(Finset.mem_filter.mp hk).2]
    · rw [if_neg hj]
      refine (Finset.prod_eq_one fun k hk => ?_).symm
      have hk' := (Finset.mem_filter.mp hk).2
      rw [if_neg]
      intro hm
      have := hpl i k hm
      rw [hk', Fin.lt_def] at this
      omega
  exact hv ▸ ARFull.arqGPSFull_good (L := L) f _

/-- The filters made by `get_plaquettes_and_masks`, from any table of sites. -/
theorem C195_filter_in_full [NeZero L] (f : Fields D M) (epsilon : Fin D → Fin M → Fin L → ℂ) (plaquettes : Fin L → Fin L → Fin L) :
    ∃ epsilon' : Fin D → Fin M → ℕ → ℂ, ∀ {ι : Type} [Fintype ι] (syms : ι → (Fin L → Fin D) → Fin L → Fin D) x,
      (ARFull.arqGPSFull f epsilon').logPsi syms x =
        (ARPlaquette.arPlaquette f epsilon (ARPlaquette.withMasks plaquettes)).logPsi syms x :=
  C195_plaquette_in_full f epsilon _ (ARPlaquette.withMasks_lookBack plaquettes)

/-! ## qGPS models -/

/-- The default `out_transformation` of `PlaquetteqGPS` (plaquetteqGPS.py:40): the sum over plaquettes, support points and symmetry operations. -/
def plaqSum {P : ℕ} [Fintype ι] (a : Fin P → Fin M → ι → ℂ) : ℂ := ∑ p, ∑ m, ∑ t, a p m t

/-- **C195**, `PlaquetteqGPS` inside `qGPS`: `P` plaquettes with `M` support points each give a state that is also the state of a qGPS with
`P * M` support points and the same symmetry operations. -/
theorem C195_plaquette_in_qgps {P K : ℕ} [Fintype ι] (order : List (Fin L × Fin D) → List (Fin L × Fin D)) (epsilon : Fin D → Fin P → Fin M → Fin K → ℂ)
    (plaquettes : Fin P → Fin K → Fin L) (syms : QGPS.Syms L D ι) :
    ∃ epsilon' : Fin D → Fin (P * M) → Fin L → ℂ, ∀ x, (QGPS.model ⟨epsilon', syms, QGPS.sumOut⟩).full x =
      (PlaquetteQGPS.model order ⟨epsilon, plaquettes, syms, plaqSum⟩).full x := by
  refine ⟨fun d q i => ∏ k ∈ Finset.univ.filter (fun k => plaquettes (finProdFinEquiv.symm q).1 k = i),
    epsilon d (finProdFinEquiv.symm q).1 (finProdFinEquiv.symm q).2 k, fun x => ?_⟩
  show ∑ q : Fin (P * M), ∑ t, ∏ i, ∏ k ∈ Finset.univ.filter (fun k => plaquettes (finProdFinEquiv.symm q).1 k = i),
      epsilon (syms.symmetries x t i) (finProdFinEquiv.symm q).1 (finProdFinEquiv.symm q).2 k =
    ∑ p, ∑ m, ∑ t, ∏ k, epsilon (syms.symmetries x t (plaquettes p k)) p m k
  rw [← Fintype.sum_prod_type' (f := fun p m => ∑ t, ∏ k, epsilon (syms.symmetries x t (plaquettes p k)) p m k),
    ← finProdFinEquiv.symm.sum_comp]
  refine Finset.sum_congr rfl fun q _ => Finset.sum_congr rfl fun t _ => ?_
  rw [← Finset.prod_fiberwise Finset.univ (fun k => plaquettes (finProdFinEquiv.symm q).1 k)]
  refine Finset.prod_congr rfl fun i _ => Finset.prod_congr rfl fun k hk => ?_
  rw [(Finset.mem_filter.mp hk).2]

/-- **C195**, `qGPS` inside `PlaquetteqGPS`: one plaquette that lists every site is a qGPS. -/
theorem C195_qgps_in_plaquette [Fintype ι] (order : List (Fin L × Fin D) → List (Fin L × Fin D)) (epsilon : Fin D → Fin M → Fin L → ℂ)
    (syms : QGPS.Syms L D ι) (σ : Equiv.Perm (Fin L)) :
    ∃ epsilon' : Fin D → Fin 1 → Fin M → Fin L → ℂ, ∀ x, (PlaquetteQGPS.model order ⟨epsilon', fun _ => σ, syms, plaqSum⟩).full x =
      (QGPS.model ⟨epsilon, syms, QGPS.sumOut⟩).full x := by
  refine ⟨fun d _ m k => epsilon d m (σ k), fun x => ?_⟩
  show ∑ p : Fin 1, ∑ m, ∑ t, ∏ k, epsilon (syms.symmetries x t (σ k)) m (σ k) = ∑ m, ∑ t, ∏ i, epsilon (syms.symmetries x t i) m i
  rw [Fin.sum_univ_one]
  exact Finset.sum_congr rfl fun m _ => Finset.sum_congr rfl fun t _ => Equiv.prod_comp σ fun i => epsilon (syms.symmetries x t i) m i

/-- **C195**, products: the product of two qGPS states with the same symmetry operations is a qGPS state, with the sum of the support
dimensions. -/
theorem C195_product {M₁ M₂ : ℕ} [Fintype ι] (syms : QGPS.Syms L D ι) (e₁ : Fin D → Fin M₁ → Fin L → ℂ) (e₂ : Fin D → Fin M₂ → Fin L → ℂ) :
    ∃ epsilon : Fin D → Fin (M₁ + M₂) → Fin L → ℂ, ∀ x, Complex.exp ((QGPS.model ⟨epsilon, syms, QGPS.sumOut⟩).full x) =
      Complex.exp ((QGPS.model ⟨e₁, syms, QGPS.sumOut⟩).full x) * Complex.exp ((QGPS.model ⟨e₂, syms, QGPS.sumOut⟩).full x) := by
  refine ⟨fun d m i => Fin.addCases (motive := fun _ => ℂ) (fun m => e₁ d m i) (fun m => e₂ d m i) m, fun x => ?_⟩
  rw [← Complex.exp_add]
  congr 1
  show ∑ m : Fin (M₁ + M₂), ∑ t, ∏ i, Fin.addCases (motive := fun _ => ℂ) (fun m => e₁ (syms.symmetries x t i) m i)
    (fun m => e₂ (syms.symmetries x t i) m i) m = (∑ m, ∑ t, ∏ i, e₁ (syms.symmetries x t i) m i) + ∑ m, ∑ t, ∏ i, e₂ (syms.symmetries x t i) m i
  rw [Fin.sum_univ_add]
  simp only [Fin.addCases_left, Fin.addCases_right]

/-! ## Determinants -/

open Backflow CPDBackflow SlaterAmplitudes DetExpressive

/-- Backflow parameters with the given orbitals for every configuration. -/
theorem constant_orbitals {l R N : ℕ} [NeZero M] (U : Fin R → Fin N → ℂ) :
    ∃ eps : Eps (l + 1) R N M, ∀ x, cpdOrbital eps x = U := by
  refine ⟨fun α k _ m β => if m = 0 then (if β = 0 then U α k else 1) else 0, fun x => ?_⟩
  funext α k
  unfold cpdOrbital
  rw [Finset.sum_eq_single 0 (fun m _ hm => Finset.prod_eq_zero (Finset.mem_univ (0 : Fin (l + 1))) (if_neg hm)) (by simp)]
  simp

/-- **C195**, unrestricted determinants inside the CPD backflow model: for every single Slater determinant (fixed numbers of up and down
electrons, no symmetry operations) and every support dimension of at least 1 there are parameters of the backflow model that return the
logarithm of the same amplitude for every configuration of the sector. -/
theorem C195_slater_in_backflow {l nu nd : ℕ} [NeZero M] (ct : Bool) (Uu : Fin 1 → Fin (l + 1) → Fin nu → ℂ) (Ud : Fin 1 → Fin (l + 1) → Fin nd → ℂ) :
    ∃ eps : Eps (l + 1) (l + 1) (nu + nd) M, ∀ x, (numElec false x = nu ∧ numElec true x = nd) →
      (CPDBackflow.model (.unrestricted nu nd) eps).full x = Complex.log
        ((Slater.model ⟨.fixedMag Uu Ud, fun (_ : Unit) i => i, fun _ => 1, ct, fun a => ∑ m, ∑ s, ∑ t, a m s t⟩).full x) := by
  obtain ⟨eps, h⟩ := constant_orbitals (l := l) (M := M) fun α (k : Fin (nu + nd)) =>
    Fin.addCases (motive := fun _ => ℂ) (fun k : Fin nu => Uu 0 α k) (fun k : Fin nd => Ud 0 α k) k
  refine ⟨eps, fun x hx => ?_⟩
  rw [C105_cpd_unrestricted eps x hx, h x]
  congr 1
  have h1 := C105_slater_fixed Uu Ud (fun (_ : Unit) i => i) (fun _ => 1) ct (fun a => ∑ m, ∑ s, ∑ t, a m s t) x hx 0 ()
  show _ = ∑ m, ∑ s, ∑ t, Slater.detValues (⟨.fixedMag Uu Ud, fun (_ : Unit) i => i, fun _ => 1, ct, fun a => ∑ m, ∑ s, ∑ t, a m s t⟩ :
    Slater.Module (l + 1) nu nd 1 Unit Unit) x m s t * 1
  simp only [Finset.univ_unique, Finset.sum_singleton, mul_one]
  refine Eq.trans ?_ h1.symm
  simp only [Fin.addCases_left, Fin.addCases_right]

/-- **C195**, the restricted case: a determinant whose up and down orbitals are the same. -/
theorem C195_restricted_in_backflow {l n : ℕ} [NeZero M] (ct : Bool) (U : Fin 1 → Fin (l + 1) → Fin n → ℂ) :
    ∃ eps : Eps (l + 1) (l + 1) n M, ∀ x, (numElec false x = n ∧ numElec true x = n) →
      (CPDBackflow.model (.restricted n) eps).full x = Complex.log
        ((Slater.model ⟨.fixedMag U U, fun (_ : Unit) i => i, fun _ => 1, ct, fun a => ∑ m, ∑ s, ∑ t, a m s t⟩).full x) := by
  obtain ⟨eps, h⟩ := constant_orbitals (l := l) (M := M) (U 0)
  refine ⟨eps, fun x hx => ?_⟩
  rw [C105_cpd_restricted eps x hx, h x]
  congr 1
  have h1 := C105_slater_fixed U U (fun (_ : Unit) i => i) (fun _ => 1) ct (fun a => ∑ m, ∑ s, ∑ t, a m s t) x hx 0 ()
  show _ = ∑ m, ∑ s, ∑ t, Slater.detValues (⟨.fixedMag U U, fun (_ : Unit) i => i, fun _ => 1, ct, fun a => ∑ m, ∑ s, ∑ t, a m s t⟩ :
    Slater.Module (l + 1) n n 1 Unit Unit) x m s t * 1
  simp only [Finset.univ_unique, Finset.sum_singleton, mul_one]
  exact h1.symm

/-- **C195**, generalised orbitals. -/
theorem C195_generalised_in_backflow {l nu nd : ℕ} [NeZero M] (ct : Bool) (U : Fin 1 → Fin ((l + 1) + (l + 1)) → Fin (nu + nd) → ℂ) :
    ∃ eps : Eps (l + 1) ((l + 1) + (l + 1)) (nu + nd) M, ∀ x, (numElec false x = nu ∧ numElec true x = nd) →
      (CPDBackflow.model (.generalised nu nd) eps).full x = Complex.log
        ((Slater.model ⟨.generalised U, fun (_ : Unit) i => i, fun _ => 1, ct, fun a => ∑ m, ∑ s, ∑ t, a m s t⟩).full x) := by
  obtain ⟨eps, h⟩ := constant_orbitals (l := l) (M := M) (U 0)
  refine ⟨eps, fun x hx => ?_⟩
  rw [C105_cpd_generalised eps x hx, h x]
  congr 1
  have h1 := C105_slater (⟨.generalised U, fun (_ : Unit) i => i, fun _ => 1, ct, fun a => ∑ m, ∑ s, ∑ t, a m s t⟩ :
    Slater.Module (l + 1) nu nd 1 Unit Unit) x hx 0 () ()
  show _ = ∑ m, ∑ s, ∑ t, Slater.detValues (⟨.generalised U, fun (_ : Unit) i => i, fun _ => 1, ct, fun a => ∑ m, ∑ s, ∑ t, a m s t⟩ :
    Slater.Module (l + 1) nu nd 1 Unit Unit) x m s t * 1
  simp only [Finset.univ_unique, Finset.sum_singleton, mul_one]
  refine Eq.trans ?_ h1.symm
  congr 2
  funext k
  congr 1
  funext r
  unfold movedBy
  induction r using Fin.addCases with
  | left i => simp only [Fin.addCases_left]; rfl
  | right i => simp only [Fin.addCases_right]; rfl

/-- A case: four sites, two up and two down electrons, support dimension 3, the two lowest plane waves of each spin. -/
example (U : Fin 1 → Fin 4 → Fin 2 → ℂ) : ∃ eps : Eps 4 4 2 3, ∀ x, (numElec false x = 2 ∧ numElec true x = 2) →
    (CPDBackflow.model (.restricted 2) eps).full x = Complex.log
      ((Slater.model ⟨.fixedMag U U, fun (_ : Unit) i => i, fun _ => 1, false, fun a => ∑ m, ∑ s, ∑ t, a m s t⟩).full x) :=
  C195_restricted_in_backflow false U

/-- The sector of this case is not empty. -/
example : numElec false (![1, 2, 3, 0] : Cfg 4) = 2 ∧ numElec true (![1, 2, 3, 0] : Cfg 4) = 2 := by decide

/-- A case of the filters: those of a periodic chain of 4 sites, of which site 2 sees sites 1 and 0. -/
example : (ARPlaquette.withMasks (ARPlaquette.circulantPlaquettes (L := 4))).masks 2 = ![false, true, true, false] ∧
    (ARPlaquette.circulantPlaquettes (L := 4)) 2 = ![2, 1, 0, 3] := by decide

end GPSKet.Containment
