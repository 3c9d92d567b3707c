import Verif.Props.LatticeSymmetry
import Verif.Props.Composite
import Mathlib.GroupTheory.Perm.Fin
import Mathlib.Data.Finset.Sort

/-! # Symmetrised determinants carry the signs of a lattice symmetry (C157) -/

namespace GPSKet.SymmetricDet

open GPSKet GPSKet.Spec Slater LatticeSymmetry

variable {L nu nd M : ℕ} {κ ι : Type} {Cache : Type}

/-! ## The sign of moving the electrons of one spin -/

/-- minus one for each pair of electrons of spin `s` that pass each other -/
def spinSign (g : Equiv.Perm (Fin L)) (s : Bool) (x : Cfg L) : ℤ :=
  (-1) ^ (Finset.univ.filter fun p : Fin L × Fin L => p.1 < p.2 ∧ hasSpin s (x p.1) = true ∧ hasSpin s (x p.2) = true ∧ g p.2 < g p.1).card

theorem fermiSign_eq (g : Equiv.Perm (Fin L)) (x : Cfg L) : fermiSign g x = spinSign g true x * spinSign g false x := by
  unfold fermiSign spinSign
  rw [Fintype.prod_bool]

theorem exists_sites (s : Bool) (x : Cfg L) {n : ℕ} (h : numElec s x = n) :
    ∃ up : Fin n → Fin L, StrictMono up ∧ ∀ i, hasSpin s (x i) = true ↔ ∃ k, up k = i := by
  refine ⟨(Finset.univ.filter fun i => hasSpin s (x i) = true).orderEmbOfFin h, OrderEmbedding.strictMono _, fun i => ?_⟩
  have := congrArg (fun S : Set (Fin L) => i ∈ S) (Finset.range_orderEmbOfFin (Finset.univ.filter fun i => hasSpin s (x i) = true) h)
  simpa using this.symm

theorem relabel (g : Equiv.Perm (Fin L)) (s : Bool) (x : Cfg L) {n : ℕ} (up up' : Fin n → Fin L) (hup : StrictMono up) (hup' : StrictMono up')
    (hu : ∀ i, hasSpin s (x i) = true ↔ ∃ k, up k = i) (hu' : ∀ i, hasSpin s (moveSites g x i) = true ↔ ∃ k, up' k = i) :
    ∃ σ : Equiv.Perm (Fin n), (∀ k, up' (σ k) = g (up k)) ∧ ((Equiv.Perm.sign σ : ℤˣ) : ℤ) = spinSign g s x := by
  have hex : ∀ k, ∃ k', up' k' = g (up k) := fun k => (hu' _).mp (by
    unfold moveSites
    rw [Equiv.symm_apply_apply]
    exact (hu _).mpr ⟨k, rfl⟩)
  choose f hf using hex
  have hinj : Function.Injective f := fun a b h => hup.injective (g.injective (by rw [← hf, ← hf, h]))
  refine ⟨Equiv.ofBijective f (Finite.injective_iff_bijective.mp hinj), hf, ?_⟩
  set σ := Equiv.ofBijective f (Finite.injective_iff_bijective.mp hinj) with hσ
  have hlt : ∀ i j, σ i < σ j ↔ g (up i) < g (up j) := by
    intro i j
    rw [← hf, ← hf]
    exact (hup'.lt_iff_lt).symm
  rw [Equiv.Perm.sign_eq_prod_prod_Ioi]
  have e1 : (((∏ i, ∏ j ∈ Finset.Ioi i, (if σ i < σ j then 1 else -1) : ℤˣ)) : ℤ) =
      ∏ i, ∏ j, if i < j ∧ g (up j) < g (up i) then (-1 : ℤ) else 1 := by
    rw [Units.coe_prod]
    refine Finset.prod_congr rfl fun i _ => ?_
    rw [Units.coe_prod, ← Finset.prod_subset (Finset.subset_univ (Finset.Ioi i))]
    · refine Finset.prod_congr rfl fun j hj => ?_
      have hij : i < j := Finset.mem_Ioi.mp hj
      have hne : g (up i) ≠ g (up j) := fun h => hij.ne (hup.injective (g.injective h))
      by_cases h : σ i < σ j
      · rw [if_pos h, if_neg (fun h' => absurd h'.2 ((hlt i j).mp h).not_gt)]
        rfl
      · have h' : g (up j) < g (up i) := lt_of_le_of_ne (not_lt.mp fun h' => h ((hlt i j).mpr h')) hne.symm
        rw [if_neg h, if_pos ⟨hij, h'⟩]
        rfl
    · intro j _ hj
      rw [if_neg (fun h => hj (Finset.mem_Ioi.mpr h.1))]
  rw [e1, ← Finset.prod_product' Finset.univ Finset.univ (fun i j => if i < j ∧ g (up j) < g (up i) then (-1 : ℤ) else 1),
    Finset.univ_product_univ, Finset.prod_ite, Finset.prod_const, Finset.prod_const_one, mul_one]
  unfold spinSign
  congr 1
  refine Finset.card_bij (fun p _ => (up p.1, up p.2)) ?_ ?_ ?_
  · intro p hp
    simp only [Finset.mem_filter, Finset.mem_univ, true_and] at hp ⊢
    exact ⟨hup hp.1, (hu _).mpr ⟨_, rfl⟩, (hu _).mpr ⟨_, rfl⟩, hp.2⟩
  · intro p _ q _ h
    rw [Prod.mk.injEq] at h
    exact Prod.ext (hup.injective h.1) (hup.injective h.2)
  · intro p hp
    simp only [Finset.mem_filter, Finset.mem_univ, true_and] at hp
    obtain ⟨h1, h2, h3, h4⟩ := hp
    obtain ⟨a, ha⟩ := (hu _).mp h2
    obtain ⟨b, hb⟩ := (hu _).mp h3
    refine ⟨(a, b), ?_, by rw [ha, hb]⟩
    simp only [Finset.mem_filter, Finset.mem_univ, true_and]
    rw [ha, hb]
    exact ⟨hup.lt_iff_lt.mp (by rw [ha, hb]; exact h1), h4⟩

/-! ## Determinants -/

/-- C157, one determinant: at the moved configuration the determinant of a symmetry operation is, up to the sign of moving the
electrons, the determinant of the composed operation at the configuration. -/
theorem C157_determinants (mod : Slater.Module L nu nd M κ ι) (g : Equiv.Perm (Fin L)) (t t' : ι)
    (ht : ∀ i, mod.symmetries t' i = mod.symmetries t (g i)) (x : Cfg L) (hx : numElec false x = nu ∧ numElec true x = nd) (m : Fin M) (s : κ) :
    detValues mod (moveSites g x) m s t = fermiSign g x * detValues mod x m s t' := by
  obtain ⟨up, hup, hu⟩ := exists_sites false x hx.1
  obtain ⟨dn, hdn, hd⟩ := exists_sites true x hx.2
  have hx' : numElec false (moveSites g x) = nu ∧ numElec true (moveSites g x) = nd := by
    rw [LatticeSymmetry.numElec_move, LatticeSymmetry.numElec_move]; exact hx
  obtain ⟨up', hup', hu'⟩ := exists_sites false (moveSites g x) hx'.1
  obtain ⟨dn', hdn', hd'⟩ := exists_sites true (moveSites g x) hx'.2
  obtain ⟨σ, hσ, hσs⟩ := relabel g false x up up' hup hup' hu hu'
  obtain ⟨τ, hτ, hτs⟩ := relabel g true x dn dn' hdn hdn' hd hd'
  rw [Props.C41_full mod x hx m s t' up dn hup hdn hu hd, Props.C41_full mod _ hx' m s t up' dn' hup' hdn' hu' hd']
  let ρ : Equiv.Perm (Fin (nu + nd)) := (finSumFinEquiv.symm.trans (Equiv.sumCongr σ τ)).trans finSumFinEquiv
  have hρ : Equiv.Perm.sign ρ = Equiv.Perm.sign σ * Equiv.Perm.sign τ := by
    rw [← Equiv.Perm.sign_sumCongr]
    exact Equiv.Perm.sign_symm_trans_trans (Equiv.Perm.sumCongr σ τ) finSumFinEquiv
  have hperm := Matrix.det_permute ρ (Matrix.of fun (n c : Fin (nu + nd)) =>
      fullU mod.orbs m (Fin.addCases (motive := fun _ => Fin (L + L)) (fun n => Fin.castAdd L (mod.symmetries t (up' n)))
        (fun n => Fin.natAdd L (mod.symmetries t (dn' n))) n) c s)
  have hsub : (Matrix.of fun (n c : Fin (nu + nd)) =>
      fullU mod.orbs m (Fin.addCases (motive := fun _ => Fin (L + L)) (fun n => Fin.castAdd L (mod.symmetries t (up' n)))
        (fun n => Fin.natAdd L (mod.symmetries t (dn' n))) n) c s).submatrix ρ id =
      Matrix.of fun (n c : Fin (nu + nd)) =>
      fullU mod.orbs m (Fin.addCases (motive := fun _ => Fin (L + L)) (fun n => Fin.castAdd L (mod.symmetries t' (up n)))
        (fun n => Fin.natAdd L (mod.symmetries t' (dn n))) n) c s := by
    ext n c
    simp only [Matrix.submatrix_apply, Matrix.of_apply, id]
    congr 1
    induction n using Fin.addCases with
    | left n =>
      have : ρ (Fin.castAdd nd n) = Fin.castAdd nd (σ n) := by simp [ρ]
      rw [this, Fin.addCases_left, Fin.addCases_left, hσ, ht]
    | right n =>
      have : ρ (Fin.natAdd nu n) = Fin.natAdd nu (τ n) := by simp [ρ]
      rw [this, Fin.addCases_right, Fin.addCases_right, hτ, ht]
  rw [hsub, hρ] at hperm
  rw [hperm, fermiSign_eq, ← hσs, ← hτs, ← mul_assoc]
  have h1 : ∀ u : ℤˣ, (((u : ℤˣ) : ℤ) : ℂ) * ((u : ℤ) : ℂ) = 1 := by
    intro u
    rcases Int.units_eq_one_or u with rfl | rfl <;> simp
  push_cast
  set D := (Matrix.of fun (n c : Fin (nu + nd)) =>
      fullU mod.orbs m (Fin.addCases (motive := fun _ => Fin (L + L)) (fun n => Fin.castAdd L (mod.symmetries t (up' n)))
        (fun n => Fin.natAdd L (mod.symmetries t (dn' n))) n) c s).det
  have a := h1 (Equiv.Perm.sign σ)
  have b := h1 (Equiv.Perm.sign τ)
  linear_combination (-(D) * ((Equiv.Perm.sign τ : ℤˣ) : ℤ) * ((Equiv.Perm.sign τ : ℤˣ) : ℤ)) * a + (-D) * b

/-! ## Symmetrised amplitudes -/

/-- A set of symmetry operations (each acting on the sites) is closed under composition with `g`: composing the operations with `g`
lists them in another order. -/
def ClosedUnder (symmetries : ι → Fin L → Fin L) (g : Equiv.Perm (Fin L)) : Prop :=
  ∃ e : Equiv.Perm ι, ∀ t i, symmetries (e t) i = symmetries t (g i)

/-- A group of permutations, each listed once, is closed under composition with its elements. -/
theorem closed_of_group [Finite ι] (auts : ι → Equiv.Perm (Fin L)) (G : Subgroup (Equiv.Perm (Fin L))) (hinj : Function.Injective auts)
    (hG : Set.range auts = (G : Set (Equiv.Perm (Fin L)))) (g : Equiv.Perm (Fin L)) (hg : g ∈ G) :
    ClosedUnder (fun t i => auts t i) g := by
  have hex : ∀ t, ∃ t', auts t' = auts t * g := by
    intro t
    have h1 : auts t ∈ (G : Set (Equiv.Perm (Fin L))) := hG ▸ Set.mem_range_self t
    have h2 : auts t * g ∈ Set.range auts := by rw [hG]; exact G.mul_mem h1 hg
    exact h2
  choose f hf using hex
  have fi : Function.Injective f := fun a b h => hinj (mul_right_cancel (by rw [← hf, ← hf, h]))
  refine ⟨Equiv.ofBijective f (Finite.injective_iff_bijective.mp fi), fun t i => ?_⟩
  show auts (f t) i = auts t (g i)
  rw [hf]
  rfl

/-- The amplitude of a Slater state with the default output transformation, whose logarithm the code returns. -/
noncomputable def slaterAmp [Fintype κ] [Fintype ι] (mod : Slater.Module L nu nd M κ ι) (x : Cfg L) : ℂ :=
  ∑ m, ∑ s, ∑ t, detValues mod x m s t * mod.chars s

/-- C157, Slater states: moving the electrons by one of the symmetries multiplies the symmetrised amplitude by the fermionic sign. -/
theorem C157_slater [Fintype κ] [Fintype ι] (mod : Slater.Module L nu nd M κ ι) (g : Equiv.Perm (Fin L)) (hc : ClosedUnder mod.symmetries g)
    (x : Cfg L) (hx : numElec false x = nu ∧ numElec true x = nd) :
    slaterAmp mod (moveSites g x) = fermiSign g x * slaterAmp mod x := by
  obtain ⟨e, he⟩ := hc
  unfold slaterAmp
  simp only [Finset.mul_sum]
  refine Finset.sum_congr rfl fun m _ => Finset.sum_congr rfl fun s _ => ?_
  rw [← Equiv.sum_comp e (fun t => (fermiSign g x : ℂ) * (detValues mod x m s t * mod.chars s))]
  refine Finset.sum_congr rfl fun t _ => ?_
  rw [C157_determinants mod g t (e t) (he t) x hx]
  ring

/-- C157, local energies: for a symmetrised Slater state, alone or multiplied by a correlator that is symmetric itself (a symmetrised
Gaussian process state, a Jastrow factor), the Hubbard local energies are the same at configurations related by a symmetry of the
edges, provided no amplitude of the sector vanishes. -/
theorem C157_local_energy [Fintype κ] [Fintype ι] (mod : Slater.Module L nu nd M κ ι) (g : Equiv.Perm (Fin L)) (hc : ClosedUnder mod.symmetries g)
    (f : Cfg L → ℂ) (hf : ∀ y, f (moveSites g y) = f y) (src : AmpSource L (Fin 4) Cache)
    (hsrc : ∀ y, numElec false y = nu ∧ numElec true y = nd → Complex.exp (src.logAmp y) = slaterAmp mod y * f y)
    (U : ℂ) (edges : List ((Fin L × Fin L) × ℂ)) (hne : ∀ e ∈ edges, e.1.1 ≠ e.1.2) (hg : EdgeSymmetry g edges) (x : Cfg L)
    (hx : numElec false x = nu ∧ numElec true x = nd) (hs : src.OkAt x) (hs' : src.OkAt (moveSites g x)) :
    hubbardLocalEn src U edges (moveSites g x) = hubbardLocalEn src U edges x := by
  refine C156_hubbard g src U edges hne hg 1 x (fun y hy => ?_) hs hs'
  have hy' : numElec false y = nu ∧ numElec true y = nd := ⟨(hy false).trans hx.1, (hy true).trans hx.2⟩
  rw [hsrc y hy', hsrc (moveSites g y) ⟨by rw [LatticeSymmetry.numElec_move]; exact hy'.1, by rw [LatticeSymmetry.numElec_move]; exact hy'.2⟩,
    C157_slater mod g hc y hy', hf]
  ring

/-! ## Antisymmetric Gaussian process states -/

open Composite

variable {T : ℕ}

theorem fermiSign_unit (g : Equiv.Perm (Fin L)) (x : Cfg L) : ∃ u : ℤˣ, (u : ℤ) = fermiSign g x := by
  refine ⟨∏ s : Bool, (-1) ^ (Finset.univ.filter fun p : Fin L × Fin L =>
    p.1 < p.2 ∧ hasSpin s (x p.1) = true ∧ hasSpin s (x p.2) = true ∧ g p.2 < g p.1).card, ?_⟩
  unfold fermiSign
  rw [Units.coe_prod]
  refine Finset.prod_congr rfl fun s _ => ?_
  rw [Units.val_pow_eq_pow_val]
  rfl

/-- C157, the product form of the antisymmetric Gaussian process state. -/
theorem C157_asymm_prod (U_up : Fin M → Fin L → Fin nu → ℂ) (U_dn : Fin M → Fin L → Fin nd → ℂ) (symmetries : Fin T → Fin L → Fin L)
    (g : Equiv.Perm (Fin L)) (hc : ClosedUnder symmetries g) (x : Cfg L) (hx : numElec false x = nu ∧ numElec true x = nd) :
    asymmProd U_up U_dn symmetries (moveSites g x) = (asymmProd U_up U_dn symmetries x).map fun z : ℂ => (fermiSign g x : ℂ) * z := by
  unfold asymmProd
  split_ifs with hM
  swap
  · rfl
  obtain ⟨e, he⟩ := hc
  obtain ⟨u, hu⟩ := fermiSign_unit g x
  rw [Option.map_some, ← hu, ← asymmProdAmp_odd hM]
  congr 1
  unfold asymmProdAmp
  rw [← Equiv.sum_comp e (fun t => ∏ m, Complex.sinh (((u : ℤ) : ℂ) * _))]
  refine Finset.sum_congr rfl fun t _ => Finset.prod_congr rfl fun m _ => ?_
  dsimp only
  rw [C157_determinants (asymmSlater U_up U_dn symmetries fun _ => 0) g t (e t) (he t) x hx m (), ← hu]

/-- with equal coefficients the order of the operations does not matter -/
theorem asymmAmp_perm (sm : Symmetrization) (coeffs : Fin M → ℂ) (hco : ∀ m m', coeffs m = coeffs m') (y : Fin M → Fin T → ℂ)
    (e : Equiv.Perm (Fin T)) : asymmAmp sm coeffs (fun m t => y m (e t)) = asymmAmp sm coeffs y := by
  unfold asymmAmp mulCoeffs
  by_cases h2 : M = T
  · subst h2
    cases sm
    · simp only [dif_pos, Option.map_some, Fin.cast_eq_self]
      rw [← Equiv.sum_comp e (fun t => ∑ m, coeffs t * y m t)]
      congr 2
      refine Finset.sum_congr rfl fun t _ => Finset.sum_congr rfl fun m _ => ?_
      rw [hco t (e t)]
    · simp only [dif_pos, Option.map_some, Fin.cast_eq_self]
      rw [← Equiv.sum_comp e (fun t => Complex.sinh (∑ m, coeffs t * y m t))]
      congr 1
      refine Finset.sum_congr rfl fun t _ => ?_
      congr 1
      refine Finset.sum_congr rfl fun m _ => ?_
      rw [hco t (e t)]
  · by_cases h3 : M = 1
    · cases sm
      · simp only [dif_neg h2, dif_pos h3, Option.map_some]
        rw [Equiv.sum_comp e (fun t => ∑ m, coeffs ⟨0, by omega⟩ * y m t)]
      · simp only [dif_neg h2, dif_pos h3, Option.map_some]
        rw [Equiv.sum_comp e (fun t => Complex.sinh (∑ m, coeffs ⟨0, by omega⟩ * y m t))]
    · by_cases h4 : T = 1
      · subst h4
        have : ∀ t, e t = t := fun t => Subsingleton.elim _ _
        simp only [this]
      · simp only [dif_neg h2, dif_neg h3, dif_neg h4]

/-- C157, the antisymmetric Gaussian process state with equal coefficients. -/
theorem C157_asymm_partial (sm : Symmetrization) (coeffs : Fin M → ℂ) (hco : ∀ m m', coeffs m = coeffs m') (U_up : Fin M → Fin L → Fin nu → ℂ)
    (U_dn : Fin M → Fin L → Fin nd → ℂ) (symmetries : Fin T → Fin L → Fin L)
    (g : Equiv.Perm (Fin L)) (hc : ClosedUnder symmetries g) (x : Cfg L) (hx : numElec false x = nu ∧ numElec true x = nd) :
    asymm sm coeffs U_up U_dn symmetries (moveSites g x) = (asymm sm coeffs U_up U_dn symmetries x).map fun z : ℂ => (fermiSign g x : ℂ) * z := by
  obtain ⟨e, he⟩ := hc
  obtain ⟨u, hu⟩ := fermiSign_unit g x
  unfold Composite.asymm
  rw [← hu, ← asymmAmp_odd]
  set y : Fin M → Fin T → ℂ := fun m t => ((u : ℤ) : ℂ) * detValues (asymmSlater U_up U_dn symmetries fun _ => 0) x m () t with hy
  have h1 : (fun m t => detValues (asymmSlater U_up U_dn symmetries fun _ => 0) (moveSites g x) m () t) = fun m t => y m (e t) := by
    funext m t
    rw [C157_determinants (asymmSlater U_up U_dn symmetries fun _ => 0) g t (e t) (he t) x hx m (), ← hu]
  rw [h1, asymmAmp_perm sm coeffs hco]

/-- C157 fails for the antisymmetric Gaussian process state with different coefficients and as many symmetry operations as
determinants: the coefficients weigh the operations instead of the determinants. -/
theorem C157_asymm_fails : ∃ (coeffs : Fin 2 → ℂ) (U_up : Fin 2 → Fin 2 → Fin 1 → ℂ) (U_dn : Fin 2 → Fin 2 → Fin 0 → ℂ)
    (symmetries : Fin 2 → Fin 2 → Fin 2), ClosedUnder symmetries (Equiv.swap 0 1) ∧
    asymm .kernel coeffs U_up U_dn symmetries (moveSites (Equiv.swap 0 1) ![1, 0]) ≠
      (asymm .kernel coeffs U_up U_dn symmetries ![1, 0]).map fun z : ℂ => (fermiSign (Equiv.swap 0 1) ![1, 0] : ℂ) * z := by
  refine ⟨![1, 0], fun _ i _ => if i = 0 then 1 else 0, fun _ _ _ => 0, fun t i => if t = 0 then i else Equiv.swap 0 1 i,
    ⟨Equiv.swap 0 1, by decide⟩, ?_⟩
  have hm : moveSites (Equiv.swap 0 1) (![1, 0] : Cfg 2) = ![0, 1] := by decide
  have hs : fermiSign (Equiv.swap 0 1) (![1, 0] : Cfg 2) = 1 := by decide
  rw [hm, hs]
  have h0 : Backflow.Enumerates (![1, 0] : Cfg 2) (fun _ : Fin 1 => 0) (fun _ : Fin 0 => 0) :=
    ⟨Subsingleton.strictMono _, Subsingleton.strictMono _, by decide, by decide⟩
  have h1 : Backflow.Enumerates (![0, 1] : Cfg 2) (fun _ : Fin 1 => 1) (fun _ : Fin 0 => 0) :=
    ⟨Subsingleton.strictMono _, Subsingleton.strictMono _, by decide, by decide⟩
  rw [(C60_asymm _ _ _ _ _).1 _ _ _ h0, (C60_asymm _ _ _ _ _).1 _ _ _ h1]
  unfold asymmFirst asymmAmp mulCoeffs firstQuantisedDet
  simp [Fin.sum_univ_two]
  intro h
  have h2 : (Real.sinh 2 : ℂ) = 0 := by
    rw [Complex.ofReal_sinh, h]
    norm_num
  rw [Complex.ofReal_eq_zero, Real.sinh_eq_zero] at h2
  norm_num at h2

/-- hypotheses met: the three rotations of a ring -/
example : ClosedUnder (fun (t : Fin 3) (i : Fin 3) => i + t) (finRotate 3) := ⟨finRotate 3, by decide⟩

end GPSKet.SymmetricDet
