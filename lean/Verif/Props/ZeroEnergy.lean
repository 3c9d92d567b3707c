import Verif.Lemmas.ZeroEnergy
import Verif.Props.ZeroSampler
import Verif.Props.SampledEnergy

/-! # Property C179: local energies and their averages for wave functions with zeros -/

namespace GPSKet.ZeroEnergy
open Spec Floats Floats.F Relation ZeroSampler
open HoppingChain hiding chain target

variable {L N nu nd : ℕ} {Cache : Type}

/-! ## The kernels are those of C07, C11, C14 and C16 -/

/-- **C179**: for complex numbers the kernels are the ones of the earlier properties. -/
theorem C179_same (src : AmpSource L (Fin 4) Cache) (spins : AmpSource N ℤ Cache) (U : ℂ) (edges : List ((Fin L × Fin L) × ℂ))
    (bonds : List ((Fin N × Fin N) × Matrix (Fin 4) (Fin 4) ℂ)) (n_elecs : ℕ × ℕ) (t : Fin L → Fin L → ℂ) (eri : Fin L → Fin L → Fin L → Fin L → ℂ)
    (s1 : Sparse1 L ℂ) (s2 : Sparse2 L ℂ) (x : Cfg L) (σ : Fin N → ℤ) :
    hubbardEnergy id (fun upd => Complex.exp (src.conn x upd - src.logAmp x)) U edges x = hubbardLocalEn src U edges x ∧
    spinEnergy id (fun upd => Complex.exp (spins.conn σ upd - spins.logAmp σ)) bonds σ = J1J2.localEn spins bonds σ ∧
    moleculeEnergy id (fun upd => Complex.exp (src.connScan x upd - src.logAmp x)) n_elecs t eri x = abLocalEn src n_elecs t eri x ∧
    sparseEnergy id (fun upd => Complex.exp (src.connScan x upd - src.logAmp x)) n_elecs s1 s2 x = sparseLocalEn src n_elecs s1 s2 x := by
  refine ⟨rfl, rfl, ?_, rfl⟩
  unfold moleculeEnergy abLocalEn
  dsimp only [id]
  rfl

/-! ## Local energies at samples of non-zero amplitude -/

theorem localValue_restrict {C : Type} [Fintype C] {p : C → Prop} [Fintype {x // p x}] (H : C → C → ℂ)
    (hH : ∀ x y, p x → ¬ p y → H x y = 0) (psi : C → ℂ) (x : {x // p x}) :
    (∑ y, H x.1 y * psi y) / psi x.1 = localValue (fun a b : {x // p x} => H a.1 b.1) (fun a => psi a.1) x := by
  unfold localValue
  congr 1
  symm
  refine Finset.sum_of_injOn Subtype.val (fun a _ b _ h => Subtype.ext h) (fun _ _ => by simp) (fun y _ hy => ?_) (fun _ _ => rfl)
  have hpy : ¬ p y := fun h => hy ⟨⟨y, h⟩, by simp, rfl⟩
  rw [hH x.1 y x.2 hpy, zero_mul]

theorem float_hubbard (U : ℂ) (edges : List ((Fin L × Fin L) × ℂ)) (hne : ∀ e ∈ edges, e.1.1 ≠ e.1.2) (psi : Cfg L → ℂ) (x : Cfg L) (hx : psi x ≠ 0) :
    floatHubbard psi U edges x = FC.ofC ((∑ y, hubbard U edges (occOf x) (occOf y) * psi y) / psi x) := by
  unfold floatHubbard
  rw [hubbardEnergy_ofC (r := fun upd => psi (setSites x upd) / psi x) fun upd => floatRatio_eq _ hx]
  congr 1
  exact row_of_affine (fun r => hubbardEnergy id r U edges x) (hubbardEnergy_affine U edges x) (fun y => hubbard U edges (occOf x) (occOf y)) x
    (fun upd => setSites x upd) (fun logpsi => (C07_local_energy_partial (.full logpsi : AmpSource L (Fin 4) Unit) U edges hne x trivial).2) psi hx

theorem float_molecule (h : Fin L → Fin L → ℂ) (e : Fin L → Fin L → Fin L → Fin L → ℂ) (hsym : ∀ p q r s, e p q r s = e r s p q) (psi : Cfg L → ℂ) (x : Cfg L)
    (hx : psi x ≠ 0) : floatMolecule psi (numElec false x, numElec true x) (abT h e) e x =
      FC.ofC ((∑ y, (1 / 2) * abInitioTwice h e (occOf x) (occOf y) * psi y) / psi x) := by
  unfold floatMolecule
  rw [moleculeEnergy_ofC (r := fun upd => psi (scanSites x upd) / psi x) fun upd => floatRatio_eq _ hx]
  congr 1
  refine row_of_affine (fun r => moleculeEnergy id r (numElec false x, numElec true x) (abT h e) e x) (moleculeEnergy_affine _ _ _ x)
    (fun y => (1 / 2) * abInitioTwice h e (occOf x) (occOf y)) x (fun upd => scanSites x upd) (fun logpsi => ?_) psi hx
  refine Eq.trans ?_ (C14_local_energy_operator (.full logpsi : AmpSource L (Fin 4) Unit) h e hsym x trivial)
  exact (C179_same (.full logpsi : AmpSource L (Fin 4) Unit) (.full fun _ : Fin 0 → ℤ => 0) 0 [] [] (numElec false x, numElec true x) (abT h e) e
    (sparse1 h) (sparse2 e) x fun _ => 0).2.2.1

theorem float_sparse (h : Fin L → Fin L → ℂ) (e : Fin L → Fin L → Fin L → Fin L → ℂ) (hsym : ∀ p q r s, e p q r s = e r s p q) (psi : Cfg L → ℂ) (x : Cfg L)
    (hx : psi x ≠ 0) : floatSparse psi (numElec false x, numElec true x) (sparse1 h) (sparse2 e) x =
      FC.ofC ((∑ y, (1 / 2) * abInitioTwice h e (occOf x) (occOf y) * psi y) / psi x) := by
  unfold floatSparse
  rw [sparseEnergy_ofC (r := fun upd => psi (scanSites x upd) / psi x) fun upd => floatRatio_eq _ hx]
  congr 1
  refine row_of_affine (fun r => sparseEnergy id r (numElec false x, numElec true x) (sparse1 h) (sparse2 e) x) (sparseEnergy_affine _ _ _ x)
    (fun y => (1 / 2) * abInitioTwice h e (occOf x) (occOf y)) x (fun upd => scanSites x upd) (fun logpsi => ?_) psi hx
  exact C16_local_energy_operator (.full logpsi : AmpSource L (Fin 4) Unit) h e hsym x trivial

/-- The values a sample of spins has. -/
def toSpins (σ : Fin N → ℤ) : Spins N := fun k => decide (σ k = spinVal true)

theorem toSpins_spinVal (x : Spins N) : toSpins (fun k => spinVal (x k)) = x := by
  funext k
  unfold toSpins
  cases h : x k <;> simp [spinVal, h]

/-- Every list of updates a bond makes leads to a configuration of spins. -/
theorem float_spin (bonds : List ((Fin N × Fin N) × (ℂ × Bool))) (hd : ∀ b ∈ bonds, b.1.1 ≠ b.1.2) (psi : Spins N → ℂ) (x : Spins N) (hx : psi x ≠ 0) :
    let H := bonds.map fun b => (b.1, heisenbergBond b.2.1 b.2.2)
    floatSpin (fun σ => psi (toSpins σ)) H (fun k => spinVal (x k)) = FC.ofC ((∑ y, bondOperator H x y * psi y) / psi x) := by
  intro H
  have hx' : psi (toSpins fun k => spinVal (x k)) ≠ 0 := by rwa [toSpins_spinVal]
  unfold floatSpin
  rw [spinEnergy_ofC (r := fun upd => psi (toSpins (setSites (fun k => spinVal (x k)) upd)) / psi x) fun upd => by
    have := floatRatio_eq (psi (toSpins (setSites (fun k => spinVal (x k)) upd))) hx'
    rw [toSpins_spinVal] at this
    beta_reduce
    rwa [toSpins_spinVal]]
  congr 1
  refine row_of_affine (fun r => spinEnergy id r H fun k => spinVal (x k)) (spinEnergy_affine H _) (fun y => bondOperator H x y) x
    (fun upd => toSpins (setSites (fun k => spinVal (x k)) upd)) (fun logpsi => ?_) psi hx
  have := C11_heisenberg (.full (fun σ => logpsi (toSpins σ)) : AmpSource N ℤ Unit) bonds hd x trivial
  have e : (fun y : Spins N => (AmpSource.full (Cache := Unit) fun σ : Fin N → ℤ => logpsi (toSpins σ)).logAmp fun k => spinVal (y k)) = logpsi := by
    funext y
    show logpsi (toSpins fun k => spinVal (y k)) = _
    rw [toSpins_spinVal]
  rw [e] at this
  rw [← this]
  show _ = spinEnergy id (fun upd => Complex.exp (logpsi (toSpins (setSites (fun k => spinVal (x k)) upd)) - logpsi (toSpins fun k => spinVal (x k)))) H fun k => spinVal (x k)
  rw [toSpins_spinVal]

/-! ## C179: averages over samples -/

/-- Configurations without weight do not count. -/
theorem mean_local {C : Type} [Fintype C] (H : C → C → ℂ) (psi : C → ℂ) (w : C → ℝ) (hw : ∀ x, w x = ‖psi x‖ ^ 2) :
    weightedMean w (localValue H psi) = rayleigh H psi := by
  unfold weightedMean rayleigh bornNorm
  simp only [hw]
  congr 1
  refine Finset.sum_congr rfl fun x _ => ?_
  unfold localValue
  by_cases hx : psi x = 0
  · simp [hx]
  · rw [← Complex.normSq_eq_norm_sq, ← Complex.mul_conj, mul_comm (psi x), mul_assoc, mul_div_cancel₀ _ hx, Finset.mul_sum]
    exact Finset.sum_congr rfl fun y _ => by ring

theorem target_two (psi : Arr L → ℂ) (x : Sector L nu nd) : target psi 2 x = ‖amp psi x‖ ^ 2 := Real.rpow_two _

/-- The chain inside the support of a wave function. -/
theorem hopping_consistent (hn : 0 < nu + nd) (psi : Arr L → ℂ) {hop : ℝ} (h0 : 0 < hop) (h1 : hop ≤ 1)
    {T : Option (Fin L → Fin L → ℝ)} (hT : TableNonneg T) (ha : tableAccepted T) (hb : TableBalanced T) (hc : TableConnected T)
    (hz : ∃ z : Sector L nu nd, amp psi z = 0)
    (hconn : ∀ x y : Sector L nu nd, amp psi x ≠ 0 → amp psi y ≠ 0 → ReflTransGen (fun a b => Proposed hop T a b ∧ amp psi b ≠ 0) x y)
    {sweep : ℕ} (hs : 0 < sweep) (f : Sector L nu nd → ℂ) : ConsistentInside (chain psi 2 hop T ^ sweep) (target psi 2) f := by
  have h := zeros hn psi two_pos h0.le h1 hT ha hb (L := L) (nu := nu) (nd := nd)
  have hne : ∀ x : Sector L nu nd, target psi 2 x ≠ 0 ↔ amp psi x ≠ 0 := fun x => not_congr (target_eq_zero psi two_pos x)
  by_cases hx : ∃ s : Sector L nu nd, amp psi s ≠ 0
  · obtain ⟨z, hz⟩ := hz
    obtain ⟨s, hs'⟩ := hx
    obtain ⟨a, b, hab, hpa, hpb⟩ := crossing (sector_connected hc s z) (fun a => amp psi a ≠ 0) hs' (not_not.mpr hz)
    refine consistent_inside h (fun u v hu hv => ?_) ((hne a).mpr hpa) ((target_eq_zero psi two_pos b).mpr (not_not.mp hpb)) (move_proposed h0 h1 hT hab) hs f
    exact ReflTransGen.mono (fun c d (hcd : Proposed hop T c d ∧ amp psi d ≠ 0) => ⟨hcd.1, (hne d).mpr hcd.2⟩) _ _ (hconn u v ((hne u).mp hu) ((hne v).mp hv))
  · exact ⟨0, fun n _ x hxx => absurd ⟨x, (hne x).mp hxx⟩ hx⟩

/-- **C179**, Hubbard models: for a wave function with zeros every sample of the chain has the finite local energy `(Hψ)(x)/ψ(x)`, the averages over samples tend to the mean of the local
energies over `|ψ|²`, and this is the energy of the state.  Averages start at a configuration of non-zero amplitude, and hops have to connect these. -/
theorem C179_hubbard_partial (hn : 0 < nu + nd) (psi : Arr L → ℂ) {hop : ℝ} (h0 : 0 < hop) (h1 : hop ≤ 1)
    {T : Option (Fin L → Fin L → ℝ)} (hT : TableNonneg T) (ha : tableAccepted T) (hb : TableBalanced T) (hc : TableConnected T)
    (hz : ∃ z : Sector L nu nd, amp psi z = 0)
    (hconn : ∀ x y : Sector L nu nd, amp psi x ≠ 0 → amp psi y ≠ 0 → ReflTransGen (fun a b => Proposed hop T a b ∧ amp psi b ≠ 0) x y)
    {sweep : ℕ} (hs : 0 < sweep) (U : ℂ) (edges : List ((Fin L × Fin L) × ℂ)) (hne : ∀ e ∈ edges, e.1.1 ≠ e.1.2) :
    let H := fun x y : Sector L nu nd => hubbard U edges (occOf x.1) (occOf y.1)
    (∀ x : Sector L nu nd, amp psi x ≠ 0 → floatHubbard (fun y => psi (embed y)) U edges x.1 = FC.ofC (localValue H (amp psi) x)) ∧
      ConsistentInside (chain psi 2 hop T ^ sweep) (target psi 2) (localValue H (amp psi)) ∧
      weightedMean (target psi 2) (localValue H (amp psi)) = rayleigh H (amp psi) := by
  intro H
  refine ⟨fun x hx => ?_, hopping_consistent hn psi h0 h1 hT ha hb hc hz hconn hs _, mean_local H _ _ (target_two psi)⟩
  rw [float_hubbard U edges hne (fun y => psi (embed y)) x.1 hx, localValue_restrict (fun x y => hubbard U edges (occOf x) (occOf y)) (fun x y hx hy =>
    SampledEnergy.sector_conserves (H := fun x y => hubbard U edges (occOf x) (occOf y)) (SampledEnergy.hubbard_conserves U edges) x y hx hy)]
  rfl

/-- **C179**, molecules: the same for the dense and the sparse evaluation. -/
theorem C179_ab_initio_partial (hn : 0 < nu + nd) (psi : Arr L → ℂ) {hop : ℝ} (h0 : 0 < hop) (h1 : hop ≤ 1)
    {T : Option (Fin L → Fin L → ℝ)} (hT : TableNonneg T) (ha : tableAccepted T) (hb : TableBalanced T) (hc : TableConnected T)
    (hz : ∃ z : Sector L nu nd, amp psi z = 0)
    (hconn : ∀ x y : Sector L nu nd, amp psi x ≠ 0 → amp psi y ≠ 0 → ReflTransGen (fun a b => Proposed hop T a b ∧ amp psi b ≠ 0) x y)
    {sweep : ℕ} (hs : 0 < sweep) (h : Fin L → Fin L → ℂ) (e : Fin L → Fin L → Fin L → Fin L → ℂ) (hsym : ∀ p q r s, e p q r s = e r s p q) :
    let H := fun x y : Sector L nu nd => (1 / 2) * abInitioTwice h e (occOf x.1) (occOf y.1)
    (∀ x : Sector L nu nd, amp psi x ≠ 0 →
      floatMolecule (fun y => psi (embed y)) (nu, nd) (abT h e) e x.1 = FC.ofC (localValue H (amp psi) x) ∧
      floatSparse (fun y => psi (embed y)) (nu, nd) (sparse1 h) (sparse2 e) x.1 = FC.ofC (localValue H (amp psi) x)) ∧
      ConsistentInside (chain psi 2 hop T ^ sweep) (target psi 2) (localValue H (amp psi)) ∧
      weightedMean (target psi 2) (localValue H (amp psi)) = rayleigh H (amp psi) := by
  intro H
  have hl : ∀ x : Sector L nu nd, (∑ y, (1 / 2) * abInitioTwice h e (occOf x.1) (occOf y) * psi (embed y)) / psi (embed x.1) = localValue H (amp psi) x := fun x =>
    localValue_restrict (fun x y => (1 / 2) * abInitioTwice h e (occOf x) (occOf y)) (fun x y hx hy =>
      SampledEnergy.sector_conserves (H := fun x y => (1 / 2) * abInitioTwice h e (occOf x) (occOf y))
        (fun s x y hxy => by rw [SampledEnergy.abInitio_conserves h e s x y hxy, mul_zero]) x y hx hy) (fun y => psi (embed y)) x
  refine ⟨fun x hx => ⟨?_, ?_⟩, hopping_consistent hn psi h0 h1 hT ha hb hc hz hconn hs _, mean_local H _ _ (target_two psi)⟩
  · have := float_molecule h e hsym (fun y => psi (embed y)) x.1 hx
    rw [x.2.1, x.2.2, hl] at this
    exact this
  · have := float_sparse h e hsym (fun y => psi (embed y)) x.1 hx
    rw [x.2.1, x.2.2, hl] at this
    exact this

/-- The chain of exchanges inside the support of a wave function. -/
theorem exchange_consistent {S A : Type} [Fintype S] [DecidableEq S] [Fintype A] [DecidableEq A] {σ₀ : S → A} {clusters : List (S × S)} (hcl : clusters ≠ [])
    (hc : ExchangeChain.Connected clusters) (psi : (S → A) → ℂ) (hz : ∃ z : ExchangeChain.Sector σ₀, psi z.1 = 0)
    (hconn : ∀ x y : ExchangeChain.Sector σ₀, psi x.1 ≠ 0 → psi y.1 ≠ 0 →
      ReflTransGen (fun a b : ExchangeChain.Sector σ₀ => ExchangeChain.Swapped clusters a.1 b.1 ∧ psi b.1 ≠ 0) x y)
    {sweep : ℕ} (hs : 0 < sweep) (f : ExchangeChain.Sector σ₀ → ℂ) : ConsistentInside (spinChain σ₀ psi 2 clusters ^ sweep) (spinTarget σ₀ psi 2) f := by
  have h := spin_zeros (σ₀ := σ₀) hcl psi two_pos
  have hne : ∀ x : ExchangeChain.Sector σ₀, spinTarget σ₀ psi 2 x ≠ 0 ↔ psi x.1 ≠ 0 := fun x => not_congr (spinTarget_eq_zero psi two_pos x)
  by_cases hx : ∃ s : ExchangeChain.Sector σ₀, psi s.1 ≠ 0
  · obtain ⟨z, hz⟩ := hz
    obtain ⟨s, hs'⟩ := hx
    obtain ⟨a, b, hab, hpa, hpb⟩ := crossing (spin_connected hc s z) (fun a => psi a.1 ≠ 0) hs' (not_not.mpr hz)
    refine consistent_inside h (fun u v hu hv => ?_) ((hne a).mpr hpa) ((spinTarget_eq_zero psi two_pos b).mpr (not_not.mp hpb)) (swapped_proposed hcl hab) hs f
    exact ReflTransGen.mono (fun c d (hcd : ExchangeChain.Swapped clusters c.1 d.1 ∧ psi d.1 ≠ 0) => ⟨swapped_proposed hcl hcd.1, (hne d).mpr hcd.2⟩) _ _
      (hconn u v ((hne u).mp hu) ((hne v).mp hv))
  · exact ⟨0, fun n _ x hxx => absurd ⟨x, (hne x).mp hxx⟩ hx⟩

/-- **C179**, Heisenberg models with the exchange sampler. -/
theorem C179_heisenberg_partial {σ₀ : Spins N} {clusters : List (Fin N × Fin N)} (hcl : clusters ≠ []) (hc : ExchangeChain.Connected clusters)
    (psi : Spins N → ℂ) (hz : ∃ z : ExchangeChain.Sector σ₀, psi z.1 = 0)
    (hconn : ∀ x y : ExchangeChain.Sector σ₀, psi x.1 ≠ 0 → psi y.1 ≠ 0 →
      ReflTransGen (fun a b : ExchangeChain.Sector σ₀ => ExchangeChain.Swapped clusters a.1 b.1 ∧ psi b.1 ≠ 0) x y)
    {sweep : ℕ} (hs : 0 < sweep) (bonds : List ((Fin N × Fin N) × (ℂ × Bool))) (hd : ∀ b ∈ bonds, b.1.1 ≠ b.1.2) :
    let O := bonds.map fun b => (b.1, heisenbergBond b.2.1 b.2.2)
    let H := fun x y : ExchangeChain.Sector σ₀ => bondOperator O x.1 y.1
    let amp := fun x : ExchangeChain.Sector σ₀ => psi x.1
    (∀ x : ExchangeChain.Sector σ₀, psi x.1 ≠ 0 →
      floatSpin (fun σ => psi (toSpins σ)) O (fun k => spinVal (x.1 k)) = FC.ofC (localValue H amp x)) ∧
      ConsistentInside (spinChain σ₀ psi 2 clusters ^ sweep) (spinTarget σ₀ psi 2) (localValue H amp) ∧
      weightedMean (spinTarget σ₀ psi 2) (localValue H amp) = rayleigh H amp := by
  intro O H amp
  refine ⟨fun x hx => ?_, ?_, mean_local H _ _ fun x => Real.rpow_two _⟩
  · rw [float_spin bonds hd psi x.1 hx]
    congr 1
    refine localValue_restrict (fun x y => bondOperator O x y) (fun x y hx hy => ?_) psi x
    apply SampledEnergy.bond_conserves O _ x y
    · intro h; apply hy; intro v; rw [h v, hx v]
    · intro b hb
      obtain ⟨c, -, rfl⟩ := List.mem_map.mp hb
      intro p q p' q' h1 h2
      revert h1 h2
      cases p <;> cases q <;> cases p' <;> cases q' <;> simp [pairIndex, heisenbergBond]
  · convert exchange_consistent (σ₀ := σ₀) hcl hc psi hz hconn hs (localValue H amp)

/-- **C179 is false for samples of zero amplitude**: if an electron of a sample can hop along an edge, the local energy of a sample with amplitude zero is infinite or NaN, whatever the
other amplitudes are. -/
theorem C179_zero_sample_fails (psi : Cfg L → ℂ) (U : ℂ) (edges : List ((Fin L × Fin L) × ℂ)) (x : Cfg L) (hx : psi x = 0) {e : (Fin L × Fin L) × ℂ} (he : e ∈ edges)
    {s : Fin 4} (hs : s = 1 ∨ s = 2) (hocc : x e.1.1 &&& s ≠ 0) (hemp : x e.1.2 &&& s = 0) : ¬Finite (floatHubbard psi U edges x) := by
  intro hf
  have hlen : edges.length > 0 := List.length_pos_of_mem he
  unfold floatHubbard hubbardEnergy at hf
  dsimp only at hf
  rw [if_pos hlen] at hf
  obtain ⟨h1, h2⟩ := finite_of_add hf
  obtain ⟨-, h1⟩ := finite_of_add h1
  have key : ∀ count, ¬Finite (hoppingTerm FC.ofC (fun upd => floatRatio (logOf (psi (setSites x upd))) (logOf (psi x))) edges x s count) := by
    intro count hfin
    have h3 := finite_of_sum hfin _ (List.mem_map_of_mem he)
    obtain ⟨h4, -⟩ := finite_of_add (finite_of_mul h3).1
    unfold hopTerm at h4
    dsimp only at h4
    rw [if_neg (by push Not; exact ⟨hocc, hemp⟩)] at h4
    have h5 := (finite_of_mul h4).2
    rw [hx] at h5
    exact floatRatio_zero _ h5
  rcases hs with rfl | rfl
  · exact key _ h1
  · exact key _ h2

/-- The hypotheses are met: one electron on three sites with an amplitude of zero at the last one. -/
example : ∃ psi : Arr 3 → ℂ, (∃ z : Sector 3 1 0, amp psi z = 0) ∧ (∃ z : Sector 3 1 0, amp psi z ≠ 0) ∧
    ∀ x y : Sector 3 1 0, amp psi x ≠ 0 → amp psi y ≠ 0 → ReflTransGen (fun a b => Proposed 1 none a b ∧ amp psi b ≠ 0) x y := by
  classical
  let z : Sector 3 1 0 := ⟨![0, 0, 1], by decide, by decide⟩
  let a : Sector 3 1 0 := ⟨![1, 0, 0], by decide, by decide⟩
  have haz : embed a.1 ≠ embed z.1 := by decide
  refine ⟨fun x => if x = embed z.1 then 0 else 1, ⟨z, by simp [amp]⟩, ⟨a, by simp [amp, haz]⟩, fun x y _ hy => ?_⟩
  by_cases hxy : x = y
  · rw [hxy]
  refine ReflTransGen.single ⟨move_proposed one_pos le_rfl (T := none) trivial ?_, hy⟩
  have hall : ∀ x y : Cfg 3, numElec false x = 1 → numElec true x = 0 → numElec false y = 1 → numElec true y = 0 → x ≠ y →
      ∃ s i a, hasSpin s (x i) = true ∧ hasSpin s (x a) = false ∧ y = moveCfg x s i a := by
    set_option maxRecDepth 100000 in decide
  obtain ⟨s, i, a, h1, h2, h3⟩ := hall x.1 y.1 x.2.1 x.2.2 y.2.1 y.2.2 fun h => hxy (Subtype.ext h)
  exact ⟨s, i, a, trivial, h1, h2, h3⟩

/-- The hypotheses for spins are met: one flipped spin among three with an amplitude of zero at one end. -/
example : ∃ psi : Spins 3 → ℂ, (∃ z : ExchangeChain.Sector (![false, false, true] : Spins 3), psi z.1 = 0) ∧
    ∀ x y : ExchangeChain.Sector (![false, false, true] : Spins 3), psi x.1 ≠ 0 → psi y.1 ≠ 0 →
      ReflTransGen (fun a b : ExchangeChain.Sector (![false, false, true] : Spins 3) =>
        ExchangeChain.Swapped [((0 : Fin 3), (1 : Fin 3)), (1, 2)] a.1 b.1 ∧ psi b.1 ≠ 0) x y := by
  refine ⟨fun x => if x = ![false, false, true] then 0 else 1, ⟨⟨_, fun _ => rfl⟩, if_pos rfl⟩, fun x y hx hy => ?_⟩
  have hx' : x.1 ≠ ![false, false, true] := fun h => hx (if_pos h)
  have hy' : y.1 ≠ ![false, false, true] := fun h => hy (if_pos h)
  by_cases hxy : x = y
  · rw [hxy]
  · refine ReflTransGen.single ⟨?_, hy⟩
    have hall : ∀ x y : Spins 3, (∀ v, (Finset.univ.filter fun j => x j = v).card = (Finset.univ.filter fun j => (![false, false, true] : Spins 3) j = v).card) →
        (∀ v, (Finset.univ.filter fun j => y j = v).card = (Finset.univ.filter fun j => (![false, false, true] : Spins 3) j = v).card) →
        x ≠ ![false, false, true] → y ≠ ![false, false, true] → x ≠ y → y = x ∘ Equiv.swap 0 1 := by
      set_option maxRecDepth 100000 in decide
    exact ⟨(0, 1), by decide, hall x.1 y.1 x.2 y.2 hx' hy' fun h => hxy (Subtype.ext h)⟩

end GPSKet.ZeroEnergy
