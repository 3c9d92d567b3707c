import Verif.Props.SymmetricDet
import Verif.Props.SlaterState
import Verif.Lemmas.Expressive
import Mathlib.LinearAlgebra.Vandermonde
import Mathlib.Analysis.Complex.Polynomial.Basic
import Mathlib.Order.WellFounded

/-! # Which electronic states the determinant models can represent (C165) -/

namespace GPSKet.DetExpressive

open GPSKet GPSKet.Spec Slater LatticeSymmetry SymmetricDet Backflow SlaterAmplitudes

variable {L nu nd M : ℕ} {κ ι : Type}

/-- The configurations with the given numbers of electrons. -/
abbrev Sector (L nu nd : ℕ) := {x : Cfg L // numElec false x = nu ∧ numElec true x = nd}

/-! ## Determinants of site orbitals -/

theorem site_det {n R : ℕ} (a c : Fin n → Fin R) (ha : StrictMono a) (hc : StrictMono c) (r : ℂ) :
    (Matrix.of fun i k => if a i = c k then r else 0).det = if a = c then r ^ n else 0 := by
  by_cases h : a = c
  · subst h
    rw [if_pos rfl]
    have : (Matrix.of fun i k => if a i = a k then r else 0) = Matrix.diagonal fun _ : Fin n => r := by
      ext i k
      simp [Matrix.diagonal_apply, ha.injective.eq_iff]
    rw [this, Matrix.det_diagonal]
    simp
  · rw [if_neg h]
    by_cases hk : ∀ k, ∃ i, a i = c k
    · exfalso
      apply h
      have hsub : Finset.univ.image c ⊆ Finset.univ.image a := by
        intro s hs
        obtain ⟨k, _, rfl⟩ := Finset.mem_image.mp hs
        obtain ⟨i, hi⟩ := hk k
        exact Finset.mem_image.mpr ⟨i, Finset.mem_univ _, hi⟩
      have heq := Finset.eq_of_subset_of_card_le hsub (by
        rw [Finset.card_image_of_injective _ ha.injective, Finset.card_image_of_injective _ hc.injective])
      have hr : Set.range a = Set.range c := by
        ext s
        have := Finset.ext_iff.mp heq s
        simp only [Finset.mem_image, Finset.mem_univ, true_and] at this
        exact this.symm
      exact (StrictMono.range_inj ha hc).mp hr
    · push Not at hk
      obtain ⟨k, hk⟩ := hk
      exact Matrix.det_eq_zero_of_column_eq_zero k fun i => if_neg (hk i)

/-- The sites of the electrons, in order. -/
noncomputable def upSites (c : Sector L nu nd) : Fin nu → Fin L := (exists_enumerates c.2).choose
noncomputable def dnSites (c : Sector L nu nd) : Fin nd → Fin L := (exists_enumerates c.2).choose_spec.choose

theorem sites_spec (c : Sector L nu nd) : Enumerates c.1 (upSites c) (dnSites c) := (exists_enumerates c.2).choose_spec.choose_spec

theorem value_eq (u v : Fin 4) (h0 : hasSpin false u = hasSpin false v) (h1 : hasSpin true u = hasSpin true v) : u = v := by
  revert u v; decide

theorem sites_inj (x c : Sector L nu nd) (hu : upSites x = upSites c) (hd : dnSites x = dnSites c) : x = c := by
  apply Subtype.ext
  funext i
  have hx := sites_spec x
  have hc := sites_spec c
  refine value_eq _ _ ?_ ?_
  · rw [Bool.eq_iff_iff, hx.up_iff, hc.up_iff, hu]
  · rw [Bool.eq_iff_iff, hx.dn_iff, hc.dn_iff, hd]

/-- Determinants that are non-zero at one configuration each. -/
noncomputable def upOrbs (e : Sector L nu nd → Fin M) (r : Sector L nu nd → ℂ) (m : Fin M) (i : Fin L) (k : Fin nu) : ℂ :=
  match Function.partialInv e m with
  | none => 0
  | some c => if i = upSites c k then r c else 0

noncomputable def dnOrbs (e : Sector L nu nd → Fin M) (r : Sector L nu nd → ℂ) (m : Fin M) (i : Fin L) (k : Fin nd) : ℂ :=
  match Function.partialInv e m with
  | none => 0
  | some c => if i = dnSites c k then r c else 0

theorem sum_dets (hn : 0 < nu + nd) (e : Sector L nu nd → Fin M) (he : Function.Injective e) (f : Sector L nu nd → ℂ) (r : Sector L nu nd → ℂ)
    (hr : ∀ c, r c ^ (nu + nd) = f c) (x : Sector L nu nd) :
    ∑ m, (Matrix.of fun i k => upOrbs e r m (upSites x i) k).det * (Matrix.of fun i k => dnOrbs e r m (dnSites x i) k).det = f x := by
  let h : Option (Sector L nu nd) → ℂ := fun o => match o with
    | none => 0
    | some c => (Matrix.of fun i k => if upSites x i = upSites c k then r c else 0).det *
        (Matrix.of fun i k => if dnSites x i = dnSites c k then r c else 0).det
  have key := Expressive.sum_partialInv e he h rfl
  refine (Finset.sum_congr rfl fun m _ => ?_).trans (key.trans ?_)
  · unfold upOrbs dnOrbs
    rcases Function.partialInv e m with _ | c
    · dsimp only [h]
      rcases Nat.eq_zero_or_pos nu with h0 | h0
      · have : Nonempty (Fin nd) := ⟨⟨0, by omega⟩⟩
        rw [show (Matrix.of fun (_ _ : Fin nd) => (0 : ℂ)) = 0 from rfl, Matrix.det_zero, mul_zero]
      · have : Nonempty (Fin nu) := ⟨⟨0, h0⟩⟩
        rw [show (Matrix.of fun (_ _ : Fin nu) => (0 : ℂ)) = 0 from rfl, Matrix.det_zero, zero_mul]
    · rfl
  · rw [Finset.sum_eq_single x]
    · dsimp only [h]
      rw [site_det _ _ (sites_spec x).up_mono (sites_spec x).up_mono, site_det _ _ (sites_spec x).dn_mono (sites_spec x).dn_mono, if_pos rfl,
        if_pos rfl, ← pow_add, hr]
    · intro c _ hc
      dsimp only [h]
      rw [site_det _ _ (sites_spec x).up_mono (sites_spec c).up_mono, site_det _ _ (sites_spec x).dn_mono (sites_spec c).dn_mono]
      by_cases hu : upSites x = upSites c
      · rw [if_neg (fun hd => hc (sites_inj x c hu hd).symm), mul_zero]
      · rw [if_neg hu, zero_mul]
    · exact fun h => absurd (Finset.mem_univ _) h

theorem det_fixed (Uu : Fin M → Fin L → Fin nu → ℂ) (Ud : Fin M → Fin L → Fin nd → ℂ) (sym : ι → Fin L → Fin L) (chars : Unit → ℂ)
    (ct : Bool) (out : (Fin M → Unit → ι → ℂ) → ℂ) (x : Sector L nu nd) (m : Fin M) (t : ι) :
    detValues ⟨.fixedMag Uu Ud, sym, chars, ct, out⟩ x.1 m () t =
      (Matrix.of fun i k => Uu m (sym t (upSites x i)) k).det * (Matrix.of fun i k => Ud m (sym t (dnSites x i)) k).det := by
  rw [C105_slater_fixed Uu Ud sym chars ct out x.1 x.2 m t,
    ← upDown_state (a := fun i k => Uu m (sym t i) k) (b := fun i k => Ud m (sym t i) k) (sites_spec x)]

/-- A determinant of a symmetry operation is, up to the sign of moving the electrons, the determinant at the moved configuration. -/
theorem det_moved (Uu : Fin M → Fin L → Fin nu → ℂ) (Ud : Fin M → Fin L → Fin nd → ℂ) (g : Equiv.Perm (Fin L)) (x y : Sector L nu nd)
    (hy : y.1 = moveSites g x.1) (m : Fin M) :
    (Matrix.of fun i k => Uu m (g (upSites x i)) k).det * (Matrix.of fun i k => Ud m (g (dnSites x i)) k).det =
      fermiSign g x.1 * ((Matrix.of fun i k => Uu m (upSites y i) k).det * (Matrix.of fun i k => Ud m (dnSites y i) k).det) := by
  let sym : Bool → Fin L → Fin L := fun b i => if b then g i else i
  have h := C157_determinants (⟨.fixedMag Uu Ud, sym, fun _ => 1, true, fun _ => 0⟩ : Slater.Module L nu nd M Unit Bool) g false true
    (fun i => by simp [sym]) x.1 x.2 m ()
  rw [← hy, det_fixed, det_fixed] at h
  simp only [sym, if_true, Bool.false_eq_true, if_false] at h
  rw [h]
  obtain ⟨u, hu⟩ := fermiSign_unit g x.1
  rw [← mul_assoc, ← hu]
  rcases Int.units_eq_one_or u with rfl | rfl <;> simp

theorem move_sector (g : Equiv.Perm (Fin L)) (x : Sector L nu nd) :
    numElec false (moveSites g x.1) = nu ∧ numElec true (moveSites g x.1) = nd := by
  rw [LatticeSymmetry.numElec_move, LatticeSymmetry.numElec_move]; exact x.2

/-! ## Slater determinants -/

theorem slater_represents [Fintype ι] [Nonempty ι] (hn : 0 < nu + nd) (hM : Fintype.card (Sector L nu nd) ≤ M) (g : ι → Equiv.Perm (Fin L)) (ct : Bool)
    (out : (Fin M → Unit → ι → ℂ) → ℂ) (psi : Cfg L → ℂ)
    (hpsi : ∀ t x, (numElec false x = nu ∧ numElec true x = nd) → psi (moveSites (g t) x) = fermiSign (g t) x * psi x) :
    ∃ (Uu : Fin M → Fin L → Fin nu → ℂ) (Ud : Fin M → Fin L → Fin nd → ℂ), ∀ x, (numElec false x = nu ∧ numElec true x = nd) →
      slaterAmp ⟨.fixedMag Uu Ud, fun t => g t, fun _ => 1, ct, out⟩ x = psi x := by
  obtain ⟨e, he⟩ := Expressive.exists_code hM
  have hroot : ∀ c : Sector L nu nd, ∃ r : ℂ, r ^ (nu + nd) = psi c.1 / Fintype.card ι := fun c => IsAlgClosed.exists_pow_nat_eq _ hn
  choose r hr using hroot
  refine ⟨upOrbs e r, dnOrbs e r, fun x hx => ?_⟩
  have hι : (Fintype.card ι : ℂ) ≠ 0 := Nat.cast_ne_zero.mpr Fintype.card_ne_zero
  unfold slaterAmp
  simp only [Finset.univ_unique, Finset.sum_singleton, mul_one]
  rw [Finset.sum_comm]
  have hone : ∀ t, ∑ m, detValues (⟨.fixedMag (upOrbs e r) (dnOrbs e r), fun t => g t, fun _ => 1, ct, out⟩ : Slater.Module L nu nd M Unit ι) x m
      () t = psi x / Fintype.card ι := by
    intro t
    have h1 : ∀ m, detValues (⟨.fixedMag (upOrbs e r) (dnOrbs e r), fun t => g t, fun _ => 1, ct, out⟩ : Slater.Module L nu nd M Unit ι) x m
        () t = _ := fun m => (det_fixed (upOrbs e r) (dnOrbs e r) (fun t => g t) (fun _ => 1) ct out ⟨x, hx⟩ m t).trans
          (det_moved (upOrbs e r) (dnOrbs e r) (g t) ⟨x, hx⟩ ⟨moveSites (g t) x, move_sector (g t) ⟨x, hx⟩⟩ rfl m)
    rw [Finset.sum_congr rfl fun m _ => h1 m, ← Finset.mul_sum, sum_dets hn e he _ r hr]
    dsimp only
    rw [hpsi t x hx]
    obtain ⟨u, hu⟩ := fermiSign_unit (g t) x
    rw [← hu]
    rcases Int.units_eq_one_or u with rfl | rfl <;> simp
    ring
  rw [show (default : Unit) = () from rfl, Finset.sum_congr rfl fun t _ => hone t, Finset.sum_const, Finset.card_univ, nsmul_eq_mul]
  field_simp

/-- C165, Slater states with fixed magnetisation: with as many determinants as there are configurations, every state with at least one
electron that is invariant under the symmetry operations (as a state of electrons, signs included) is represented. -/
theorem C165_slater [Fintype ι] [Nonempty ι] (hn : 0 < nu + nd) (hM : Fintype.card (Sector L nu nd) ≤ M) (g : ι → Equiv.Perm (Fin L)) (ct : Bool)
    (psi : Cfg L → ℂ)
    (hpsi : ∀ t x, (numElec false x = nu ∧ numElec true x = nd) → psi (moveSites (g t) x) = fermiSign (g t) x * psi x) :
    ∃ (Uu : Fin M → Fin L → Fin nu → ℂ) (Ud : Fin M → Fin L → Fin nd → ℂ), ∀ x, (numElec false x = nu ∧ numElec true x = nd) →
      (Slater.model ⟨.fixedMag Uu Ud, fun t => g t, fun _ => 1, ct, fun a => ∑ m, ∑ s, ∑ t, a m s t⟩).full x = psi x :=
  slater_represents hn hM g ct _ psi hpsi

/-- C165, more determinants never lose states: orbitals of `M` determinants can be completed to those of more without changing an
amplitude of the sector. -/
theorem C165_slater_monotone {M' : ℕ} [Fintype ι] (hn : 0 < nu + nd) (hM : M ≤ M') (sym : ι → Fin L → Fin L) (ct : Bool)
    (Uu : Fin M → Fin L → Fin nu → ℂ) (Ud : Fin M → Fin L → Fin nd → ℂ) :
    ∃ (Uu' : Fin M' → Fin L → Fin nu → ℂ) (Ud' : Fin M' → Fin L → Fin nd → ℂ), ∀ x, (numElec false x = nu ∧ numElec true x = nd) →
      (Slater.model ⟨.fixedMag Uu' Ud', sym, fun _ => 1, ct, fun a => ∑ m, ∑ s, ∑ t, a m s t⟩).full x =
        (Slater.model ⟨.fixedMag Uu Ud, sym, fun _ => 1, ct, fun a => ∑ m, ∑ s, ∑ t, a m s t⟩).full x := by
  refine ⟨fun m i k => if h : m.val < M then Uu ⟨m.val, h⟩ i k else 0, fun m i k => if h : m.val < M then Ud ⟨m.val, h⟩ i k else 0,
    fun x hx => ?_⟩
  change slaterAmp _ x = slaterAmp _ x
  unfold slaterAmp
  obtain ⟨k, rfl⟩ := Nat.exists_eq_add_of_le hM
  rw [Fin.sum_univ_add]
  refine (congrArg₂ (· + ·) (Finset.sum_congr rfl fun m _ => Finset.sum_congr rfl fun s _ => Finset.sum_congr rfl fun t _ => ?_)
    (Finset.sum_eq_zero fun m _ => Finset.sum_eq_zero fun s _ => Finset.sum_eq_zero fun t _ => ?_)).trans (add_zero _)
  · rw [det_fixed (x := ⟨x, hx⟩), det_fixed (x := ⟨x, hx⟩)]
    simp
  · rw [det_fixed (x := ⟨x, hx⟩)]
    have hm : ¬ (Fin.natAdd M m).val < M := by simp
    simp only [dif_neg hm]
    rcases Nat.eq_zero_or_pos nu with h0 | h0
    · have : Nonempty (Fin nd) := ⟨⟨0, by omega⟩⟩
      rw [show (Matrix.of fun (_ _ : Fin nd) => (0 : ℂ)) = 0 from rfl, Matrix.det_zero, mul_zero, zero_mul]
    · have : Nonempty (Fin nu) := ⟨⟨0, h0⟩⟩
      rw [show (Matrix.of fun (_ _ : Fin nu) => (0 : ℂ)) = 0 from rfl, Matrix.det_zero, zero_mul, zero_mul]

/-- C165, Slater states with generalised orbitals. -/
theorem C165_slater_generalised [Fintype ι] [Nonempty ι] (hn : 0 < nu + nd) (hM : Fintype.card (Sector L nu nd) ≤ M) (g : ι → Equiv.Perm (Fin L))
    (ct : Bool) (psi : Cfg L → ℂ)
    (hpsi : ∀ t x, (numElec false x = nu ∧ numElec true x = nd) → psi (moveSites (g t) x) = fermiSign (g t) x * psi x) :
    ∃ U : Fin M → Fin (L + L) → Fin (nu + nd) → ℂ, ∀ x, (numElec false x = nu ∧ numElec true x = nd) →
      (Slater.model ⟨.generalised U, fun t => g t, fun _ => 1, ct, fun a => ∑ m, ∑ s, ∑ t, a m s t⟩).full x = psi x := by
  obtain ⟨Uu, Ud, h⟩ := C165_slater hn hM g ct psi hpsi
  refine ⟨fun m => getFullU (Uu m) (Ud m), fun x hx => (h x hx).symm ▸ ?_⟩
  change slaterAmp _ x = slaterAmp _ x
  unfold slaterAmp
  refine Finset.sum_congr rfl fun m _ => Finset.sum_congr rfl fun s _ => Finset.sum_congr rfl fun t _ => ?_
  obtain ⟨up, dn, he⟩ := exists_enumerates hx
  rw [Props.C41_full _ x hx m s t up dn he.up_mono he.dn_mono he.up_iff he.dn_iff,
    Props.C41_full _ x hx m s t up dn he.up_mono he.dn_mono he.up_iff he.dn_iff]
  rfl

/-- C165 fails with `spin_symmetry_by_structure`, where up and down electrons share the orbitals: however many determinants there are,
exchanging the spins of all electrons does not change the amplitude, so that no choice of orbitals gives the state with an up electron on
the first and a down electron on the second of two sites. -/
theorem C165_restricted_fails : ∃ psi : Cfg 2 → ℂ, ∀ (M : ℕ) (U : Fin M → Fin 2 → Fin 1 → ℂ),
    ¬ ∀ x, (numElec false x = 1 ∧ numElec true x = 1) →
      (Slater.model ⟨.fixedMag U U, fun (_ : Unit) i => i, fun _ => 1, true, fun a => ∑ m, ∑ s, ∑ t, a m s t⟩).full x = psi x := by
  refine ⟨fun x => if x = ![1, 2] then 1 else 0, fun M U h => ?_⟩
  have h1 := h ![1, 2] (by decide)
  have h2 := h ![2, 1] (by decide)
  dsimp only at h1 h2
  rw [if_pos rfl] at h1
  rw [if_neg (by decide)] at h2
  have hv : ∀ (x : Cfg 2) (hx : numElec false x = 1 ∧ numElec true x = 1) (up dn : Fin 1 → Fin 2) (he : Enumerates x up dn),
      (Slater.model ⟨.fixedMag U U, fun (_ : Unit) i => i, fun _ => 1, true, fun a => ∑ m, ∑ s, ∑ t, a m s t⟩).full x =
        ∑ m, U m (up 0) 0 * U m (dn 0) 0 := by
    intro x hx up dn he
    change ∑ m, ∑ s, ∑ t, detValues (⟨.fixedMag U U, fun (_ : Unit) i => i, fun _ => 1, true, _⟩ : Slater.Module 2 1 1 M Unit Unit) x m s t * 1 = _
    simp only [Finset.univ_unique, Finset.sum_singleton, mul_one]
    refine Finset.sum_congr rfl fun m _ => ?_
    rw [show (default : Unit) = () from rfl, C105_slater_fixed U U _ _ true _ x hx m (), ← upDown_state he]
    simp
  have hm : ∀ f : Fin 1 → Fin 2, StrictMono f := fun f a b hab => absurd hab (by simp [Subsingleton.elim a b])
  rw [hv _ (by decide) (fun _ => 0) (fun _ => 1) ⟨hm _, hm _, by decide, by decide⟩] at h1
  rw [hv _ (by decide) (fun _ => 1) (fun _ => 0) ⟨hm _, hm _, by decide, by decide⟩] at h2
  have : ∑ m, U m 0 0 * U m 1 0 = ∑ m, U m 1 0 * U m 0 0 := Finset.sum_congr rfl fun m _ => mul_comm _ _
  rw [h1, h2] at this
  exact one_ne_zero this

/-! ## CPD backflow -/

section CPD
open CPDBackflow

/-- Every function of the configuration is a sum of products over the sites. -/
theorem cpd_function {n : ℕ} (hM : 4 ^ n ≤ M) (f : Cfg (n + 1) → ℂ) :
    ∃ eps : Fin 4 → Fin M → Fin (n + 1) → ℂ, ∀ x, ∑ m, ∏ i, eps (x i) m i = f x := by
  obtain ⟨eps, h⟩ := Expressive.qgps_represents (ι := Unit) hM QGPS.noSyms f (fun x t => rfl)
  refine ⟨eps, fun x => ?_⟩
  rw [← h x]
  change _ = ∑ m : Fin M, ∑ t : Unit, ∏ i, eps (x i) m i
  simp

theorem cpd_orbitals {n R N : ℕ} (hM : 4 ^ n ≤ M) (f : Cfg (n + 1) → Fin R → Fin N → ℂ) :
    ∃ eps : Eps (n + 1) R N M, ∀ x α k, cpdOrbital eps x α k = f x α k := by
  choose eps h using fun α k => cpd_function hM fun x => f x α k
  exact ⟨eps, fun x α k => h α k x⟩

/-- The orbitals `α ↦ c α^k`. -/
noncomputable def powers {R N : ℕ} (c : ℂ) (α : Fin R) (k : Fin N) : ℂ := c * (α.val : ℂ) ^ k.val

theorem det_powers {R N : ℕ} (c : ℂ) (p : Fin N → Fin R) :
    (Matrix.of fun i k => powers c (p i) k).det = c ^ N * (Matrix.vandermonde fun i => ((p i).val : ℂ)).det := by
  rw [show (Matrix.of fun i k => powers c (p i) k) = c • Matrix.vandermonde fun i => ((p i).val : ℂ) from rfl, Matrix.det_smul, Fintype.card_fin]

theorem vandermonde_ne {R N : ℕ} (p : Fin N → Fin R) (hp : Function.Injective p) : (Matrix.vandermonde fun i => ((p i).val : ℂ)).det ≠ 0 :=
  Matrix.det_vandermonde_ne_zero_iff.mpr fun a b h => hp (Fin.ext (by exact_mod_cast h))

/-- A factor with the wanted power. -/
theorem exists_factor {N : ℕ} (hN : 0 < N) (psi : Cfg L → ℂ) (V : Cfg L → ℂ) (P : Cfg L → Prop) (hV : ∀ x, P x → V x ≠ 0) :
    ∃ c : Cfg L → ℂ, ∀ x, P x → c x ^ N * V x = psi x := by
  choose c hc using fun x => IsAlgClosed.exists_pow_nat_eq (psi x / V x) hN
  exact ⟨c, fun x hx => by rw [hc, div_mul_cancel₀ _ (hV x hx)]⟩

/-- C165, CPD backflow with restricted orbitals: with support dimension `4^(L-1)` every state with at least one pair of electrons is
represented (the returned number is the logarithm of the amplitude), although up and down electrons share the orbitals. -/
theorem C165_cpd_restricted {l n : ℕ} (hn : 0 < n) (hM : 4 ^ l ≤ M) (psi : Cfg (l + 1) → ℂ) :
    ∃ eps : Eps (l + 1) (l + 1) n M, ∀ x, (numElec false x = n ∧ numElec true x = n) →
      upDownState (cpdOrbital eps x) (cpdOrbital eps x) (occOf x) = psi x ∧ (CPDBackflow.model (.restricted n) eps).full x = Complex.log (psi x) := by
  classical
  let V : Cfg (l + 1) → ℂ := fun x => if h : numElec false x = n ∧ numElec true x = n then
    (Matrix.vandermonde fun i => ((upSites ⟨x, h⟩ i).val : ℂ)).det * (Matrix.vandermonde fun i => ((dnSites ⟨x, h⟩ i).val : ℂ)).det else 1
  obtain ⟨c, hc⟩ := exists_factor (N := n + n) (by omega) psi V (fun x => numElec false x = n ∧ numElec true x = n) (fun x hx => by
    simp only [V, dif_pos hx]
    exact mul_ne_zero (vandermonde_ne _ (sites_spec ⟨x, hx⟩).up_mono.injective) (vandermonde_ne _ (sites_spec ⟨x, hx⟩).dn_mono.injective))
  obtain ⟨eps, he⟩ := cpd_orbitals hM fun x => powers (N := n) (c x)
  have h1 : ∀ x, (numElec false x = n ∧ numElec true x = n) → upDownState (cpdOrbital eps x) (cpdOrbital eps x) (occOf x) = psi x := by
    intro x hx
    rw [← upDown_state (sites_spec ⟨x, hx⟩)]
    simp only [he]
    rw [det_powers, det_powers, ← hc x hx]
    simp only [V, dif_pos hx]
    ring
  exact ⟨eps, fun x hx => ⟨h1 x hx, by rw [C105_cpd_restricted eps x hx, h1 x hx]⟩⟩

/-- C165, CPD backflow with unrestricted orbitals. -/
theorem C165_cpd_unrestricted {l : ℕ} (hn : 0 < nu + nd) (hM : 4 ^ l ≤ M) (psi : Cfg (l + 1) → ℂ) :
    ∃ eps : Eps (l + 1) (l + 1) (nu + nd) M, ∀ x, (numElec false x = nu ∧ numElec true x = nd) →
      upDownState (fun i k => cpdOrbital eps x i (Fin.castAdd nd k)) (fun i k => cpdOrbital eps x i (Fin.natAdd nu k)) (occOf x) = psi x ∧
      (CPDBackflow.model (.unrestricted nu nd) eps).full x = Complex.log (psi x) := by
  classical
  let V : Cfg (l + 1) → ℂ := fun x => if h : numElec false x = nu ∧ numElec true x = nd then
    (Matrix.vandermonde fun i => ((upSites ⟨x, h⟩ i).val : ℂ)).det * (Matrix.vandermonde fun i => ((dnSites ⟨x, h⟩ i).val : ℂ)).det else 1
  obtain ⟨c, hc⟩ := exists_factor (N := nu + nd) hn psi V (fun x => numElec false x = nu ∧ numElec true x = nd) (fun x hx => by
    simp only [V, dif_pos hx]
    exact mul_ne_zero (vandermonde_ne _ (sites_spec ⟨x, hx⟩).up_mono.injective) (vandermonde_ne _ (sites_spec ⟨x, hx⟩).dn_mono.injective))
  obtain ⟨eps, he⟩ := cpd_orbitals hM fun x α (k : Fin (nu + nd)) =>
    Fin.addCases (motive := fun _ => ℂ) (fun k : Fin nu => powers (c x) α k) (fun k : Fin nd => powers (c x) α k) k
  have h1 : ∀ x, (numElec false x = nu ∧ numElec true x = nd) →
      upDownState (fun i k => cpdOrbital eps x i (Fin.castAdd nd k)) (fun i k => cpdOrbital eps x i (Fin.natAdd nu k)) (occOf x) = psi x := by
    intro x hx
    rw [← upDown_state (sites_spec ⟨x, hx⟩)]
    simp only [he, Fin.addCases_left, Fin.addCases_right]
    rw [det_powers, det_powers, ← hc x hx]
    simp only [V, dif_pos hx]
    ring
  exact ⟨eps, fun x hx => ⟨h1 x hx, by rw [C105_cpd_unrestricted eps x hx, h1 x hx]⟩⟩

/-- C165, CPD backflow with generalised orbitals. -/
theorem C165_cpd_generalised {l : ℕ} (hn : 0 < nu + nd) (hM : 4 ^ l ≤ M) (psi : Cfg (l + 1) → ℂ) :
    ∃ eps : Eps (l + 1) ((l + 1) + (l + 1)) (nu + nd) M, ∀ x, (numElec false x = nu ∧ numElec true x = nd) →
      slaterState (List.ofFn fun k => stacked fun r => cpdOrbital eps x r k) (occOf x) = psi x ∧
      (CPDBackflow.model (.generalised nu nd) eps).full x = Complex.log (psi x) := by
  classical
  let pos : Sector (l + 1) nu nd → Fin (nu + nd) → Fin ((l + 1) + (l + 1)) := fun c i =>
    Fin.addCases (motive := fun _ => Fin ((l + 1) + (l + 1))) (fun i => Fin.castAdd (l + 1) (upSites c i)) (fun i => Fin.natAdd (l + 1) (dnSites c i)) i
  have hpos : ∀ c, Function.Injective (pos c) := by
    intro c a b hab
    have hu := (sites_spec c).up_mono.injective
    have hd := (sites_spec c).dn_mono.injective
    induction a using Fin.addCases with
    | left a =>
      induction b using Fin.addCases with
      | left b =>
        simp only [pos, Fin.addCases_left] at hab
        exact congrArg (Fin.castAdd nd) (hu (a₁ := a) (a₂ := b) (Fin.ext (by have := congrArg Fin.val hab; simpa using this)))
      | right b =>
        simp only [pos, Fin.addCases_left, Fin.addCases_right] at hab
        have := congrArg Fin.val hab
        rw [Fin.val_castAdd, Fin.val_natAdd] at this
        have := (upSites c a).isLt
        omega
    | right a =>
      induction b using Fin.addCases with
      | left b =>
        simp only [pos, Fin.addCases_left, Fin.addCases_right] at hab
        have := congrArg Fin.val hab
        rw [Fin.val_castAdd, Fin.val_natAdd] at this
        have := (upSites c b).isLt
        omega
      | right b =>
        simp only [pos, Fin.addCases_right] at hab
        have := congrArg Fin.val hab
        rw [Fin.val_natAdd, Fin.val_natAdd] at this
        exact congrArg (Fin.natAdd nu) (hd (a₁ := a) (a₂ := b) (Fin.ext (by omega)))
  let V : Cfg (l + 1) → ℂ := fun x => if h : numElec false x = nu ∧ numElec true x = nd then
    (Matrix.vandermonde fun i => ((pos ⟨x, h⟩ i).val : ℂ)).det else 1
  obtain ⟨c, hc⟩ := exists_factor (N := nu + nd) hn psi V (fun x => numElec false x = nu ∧ numElec true x = nd) (fun x hx => by
    simp only [V, dif_pos hx]
    exact vandermonde_ne _ (hpos ⟨x, hx⟩))
  obtain ⟨eps, he⟩ := cpd_orbitals hM fun x => powers (R := (l + 1) + (l + 1)) (N := nu + nd) (c x)
  have h1 : ∀ x, (numElec false x = nu ∧ numElec true x = nd) →
      slaterState (List.ofFn fun k => stacked fun r => cpdOrbital eps x r k) (occOf x) = psi x := by
    intro x hx
    rw [← stacked_state (u := fun r k => cpdOrbital eps x r k) (sites_spec ⟨x, hx⟩)]
    simp only [he]
    refine (det_powers (c x) (pos ⟨x, hx⟩)).trans ?_
    rw [← hc x hx]
    simp only [V, dif_pos hx]
  exact ⟨eps, fun x hx => ⟨h1 x hx, by rw [C105_cpd_generalised eps x hx, h1 x hx]⟩⟩

end CPD

/-! ## Non-vacuity -/

/-- Two sites with one up and one down electron have four configurations: four determinants suffice for every state. -/
example (psi : Cfg 2 → ℂ) : ∃ Uu Ud : Fin 4 → Fin 2 → Fin 1 → ℂ, ∀ x, (numElec false x = 1 ∧ numElec true x = 1) →
    (Slater.model ⟨.fixedMag Uu Ud, fun (_ : Unit) => (1 : Equiv.Perm (Fin 2)), fun _ => 1, true, fun a => ∑ m, ∑ s, ∑ t, a m s t⟩).full x = psi x :=
  C165_slater (by norm_num) (by decide) (fun _ => 1) true psi (fun _ x _ => by
    have h1 : moveSites (1 : Equiv.Perm (Fin 2)) x = x := rfl
    have h2 : fermiSign (1 : Equiv.Perm (Fin 2)) x = 1 := by
      unfold fermiSign
      refine Finset.prod_eq_one fun s _ => ?_
      rw [Finset.filter_eq_empty_iff.mpr (fun p _ h => absurd h.2.2.2 h.1.not_gt)]
      rfl
    rw [h1, h2]; simp)

end GPSKet.DetExpressive
