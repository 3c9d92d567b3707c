import Verif.Lemmas.MarkovPath
import Verif.Lemmas.Sector
import Verif.Props.HoppingChain
import Verif.Props.ExchangeChain
import Verif.Props.Hubbard
import Verif.Props.J1J2
import Verif.Props.AbInitioSparse
import Verif.Spec.Rayleigh

/-!
# Averages of local energies over the samples of a Metropolis chain (C144, C145)

A sample is taken after every `sweep` steps of the chain (`_sample_next`, metropolis_fast.py:18-101), so that the samples form a
Markov chain whose kernel is a power of the kernel of a step.
-/

namespace GPSKet.SampledEnergy

open GPSKet GPSKet.Spec

variable {L nu nd : ℕ}

/-! ## C144: consistency -/

/-- C144: the default hopping sampler on at least three sites.  For every number of steps per sample and every local quantity, the
average over `n` successive samples tends to the `|ψ|^machine_pow`-weighted mean over the configurations with the given electron numbers, in
mean square and in probability, from every start. -/
theorem C144_hopping (hn : 0 < nu + nd) (hL : 3 ≤ L) (logpsi : Arr L → ℂ) (pow : ℝ) {hop : ℝ} (h0 : 0 < hop) (h1 : hop ≤ 1)
    {sweep : ℕ} (hs : 0 < sweep) (f : HoppingChain.Sector L nu nd → ℂ) :
    Consistent (HoppingChain.chain logpsi pow hop none ^ sweep) (HoppingChain.target logpsi pow) f :=
  Markov.consistent (Markov.pow_kernel (HoppingChain.C137_kernel hn logpsi pow h0.le h1 (T := none) trivial) sweep)
    (Markov.pow_irreducible (HoppingChain.C139_converges hn hL logpsi pow h0 h1) (HoppingChain.target_pos logpsi pow) sweep hs)
    (Markov.pow_invariant (HoppingChain.C137_invariant hn logpsi pow h0.le h1 (T := none) trivial trivial trivial) sweep)
    (HoppingChain.target_pos logpsi pow) f

/-- C144: with a connected balanced table, if `|ψ|` is not constant. -/
theorem C144_hopping_table (hn : 0 < nu + nd) (logpsi : Arr L → ℂ) (pow : ℝ) {hop : ℝ} (h0 : 0 < hop) (h1 : hop ≤ 1)
    {T : Option (Fin L → Fin L → ℝ)} (hT : HoppingChain.TableNonneg T) (ha : tableAccepted T) (hb : TableBalanced T)
    (hc : HoppingChain.TableConnected T)
    (hvary : ∃ x y : HoppingChain.Sector L nu nd, HoppingChain.target logpsi pow x ≠ HoppingChain.target logpsi pow y)
    {sweep : ℕ} (hs : 0 < sweep) (f : HoppingChain.Sector L nu nd → ℂ) :
    Consistent (HoppingChain.chain logpsi pow hop T ^ sweep) (HoppingChain.target logpsi pow) f :=
  Markov.consistent (Markov.pow_kernel (HoppingChain.C137_kernel hn logpsi pow h0.le h1 hT) sweep)
    (Markov.pow_irreducible (HoppingChain.C139_converges_table hn logpsi pow h0 h1 hT ha hb hc hvary)
      (HoppingChain.target_pos logpsi pow) sweep hs)
    (Markov.pow_invariant (HoppingChain.C137_invariant hn logpsi pow h0.le h1 hT ha hb) sweep)
    (HoppingChain.target_pos logpsi pow) f

/-- C144: when a sample is taken after every step this needs neither three sites nor a varying `|ψ|`. -/
theorem C144_hopping_every_step (hn : 0 < nu + nd) (logpsi : Arr L → ℂ) (pow : ℝ) {hop : ℝ} (h0 : 0 < hop) (h1 : hop ≤ 1)
    {T : Option (Fin L → Fin L → ℝ)} (hT : HoppingChain.TableNonneg T) (ha : tableAccepted T) (hb : TableBalanced T)
    (hc : HoppingChain.TableConnected T) (f : HoppingChain.Sector L nu nd → ℂ) :
    Consistent (HoppingChain.chain logpsi pow hop T) (HoppingChain.target logpsi pow) f :=
  Markov.consistent (HoppingChain.C137_kernel hn logpsi pow h0.le h1 hT) (HoppingChain.C138_irreducible hn logpsi pow h0 h1 hT hc)
    (HoppingChain.C137_invariant hn logpsi pow h0.le h1 hT ha hb) (HoppingChain.target_pos logpsi pow) f

/-- C144: the exchange sampler on connected clusters, if two sites share a local state. -/
theorem C144_exchange {S A : Type} [Fintype S] [DecidableEq S] [Fintype A] [DecidableEq A] {σ₀ : S → A} {clusters : List (S × S)}
    (hne : clusters ≠ []) (hc : ExchangeChain.Connected clusters) (logpsi : (S → A) → ℂ) (pow : ℝ) (hpair : ∃ i j, i ≠ j ∧ σ₀ i = σ₀ j)
    {sweep : ℕ} (hs : 0 < sweep) (f : ExchangeChain.Sector σ₀ → ℂ) :
    Consistent (ExchangeChain.chain σ₀ logpsi pow clusters ^ sweep) (ExchangeChain.target σ₀ logpsi pow) f :=
  Markov.consistent (Markov.pow_kernel (ExchangeChain.C140_kernel hne logpsi pow) sweep)
    (Markov.pow_irreducible (ExchangeChain.C140_converges hne hc logpsi pow hpair) (ExchangeChain.target_pos logpsi pow) sweep hs)
    (Markov.pow_invariant (ExchangeChain.C140_invariant hne logpsi pow) sweep) (ExchangeChain.target_pos logpsi pow) f

/-- **C144 is false for two sites** and the default of two steps per sample: one electron with constant `|ψ|` stays where it was started, so the
average never tends to the mean over both positions. -/
theorem C144_two_sites_fails (pow : ℝ) :
    ∃ f : HoppingChain.Sector 2 1 0 → ℂ,
      ¬ Consistent (HoppingChain.chain (fun _ => 0) pow 1 none ^ 2) (HoppingChain.target (fun _ => 0) pow) f := by
  have h1 := HoppingChain.C139_two_sites_fails pow 1
  rw [mul_one] at h1
  rw [h1]
  let a : HoppingChain.Sector 2 1 0 := ⟨![1, 0], by decide⟩
  let b : HoppingChain.Sector 2 1 0 := ⟨![0, 1], by decide⟩
  have hab : a ≠ b := by decide
  have hw : ∀ x : HoppingChain.Sector 2 1 0, HoppingChain.target (fun _ => 0) pow x = 1 := fun x => by
    unfold HoppingChain.target; simp
  refine ⟨fun x => if x = a then 1 else 0, ?_⟩
  rintro ⟨c, hc⟩
  have hpath : ∀ (n : ℕ) (F : List (HoppingChain.Sector 2 1 0) → ℝ) x, pathExpect 1 n F x = F (List.replicate n x) := by
    intro n
    induction n with
    | zero => intro F x; rfl
    | succ n ih =>
      intro F x
      show ∑ y, (1 : Matrix _ _ ℝ) x y * pathExpect 1 n (fun l => F (y :: l)) y = _
      simp only [ih, Matrix.one_apply, ite_mul, one_mul, zero_mul, Finset.sum_ite_eq, Finset.mem_univ, if_true]
      rfl
  set m := weightedMean (HoppingChain.target (nu := 1) (nd := 0) (fun _ : Arr 2 => 0) pow) (fun x => if x = a then (1 : ℂ) else 0) with hm
  have herr : ∀ n : ℕ, 0 < n → ∀ x, ‖(if x = a then (1 : ℂ) else 0) - m‖ ^ 2 ≤ c / n := by
    intro n hn x
    have := (hc n hn x).1
    rw [hpath] at this
    unfold averageError at this
    rw [List.map_replicate, List.sum_replicate, List.length_replicate, nsmul_eq_mul,
      mul_div_cancel_left₀ _ (by exact_mod_cast hn.ne')] at this
    exact this
  have hz : ∀ x, (if x = a then (1 : ℂ) else 0) = m := by
    intro x
    have h0 : ‖(if x = a then (1 : ℂ) else 0) - m‖ ^ 2 ≤ 0 := by
      by_contra hpos
      push Not at hpos
      obtain ⟨n, hn⟩ := exists_nat_gt (c / ‖(if x = a then (1 : ℂ) else 0) - m‖ ^ 2)
      have h2 := herr (n + 1) n.succ_pos x
      rw [le_div_iff₀ (by positivity)] at h2
      rw [div_lt_iff₀ hpos] at hn
      push_cast at h2
      nlinarith
    have h1 : ‖(if x = a then (1 : ℂ) else 0) - m‖ = 0 := by nlinarith [norm_nonneg ((if x = a then (1 : ℂ) else 0) - m)]
    exact sub_eq_zero.mp (norm_eq_zero.mp h1)
  have ha := hz a
  have hb := hz b
  rw [if_pos rfl] at ha
  rw [if_neg hab.symm] at hb
  rw [← ha] at hb
  exact zero_ne_one hb

/-- The hypotheses are met by three sites with one electron of each spin, and the set of configurations is not trivial. -/
example : 0 < 1 + 1 ∧ 3 ≤ 3 ∧ ∃ x y : HoppingChain.Sector 3 1 1, x ≠ y :=
  ⟨by decide, by decide, ⟨![3, 0, 0], by decide⟩, ⟨![1, 2, 0], by decide⟩, by decide⟩

/-! ## C145: the limit is the energy -/

/-- If the matrix connects a subset of configurations only with itself, the `|ψ|²`-weighted mean over the subset of the local energies is the
energy of the state in the subset. -/
theorem mean_energy {C : Type} [Fintype C] {p : C → Prop} [Fintype {x // p x}] (H : C → C → ℂ)
    (hH : ∀ x y, p x → ¬ p y → H x y = 0) (logpsi : C → ℂ) (w : {x // p x} → ℝ) (hw : ∀ x, w x = ‖Complex.exp (logpsi x.1)‖ ^ 2) :
    weightedMean w (fun x => localEnergy (H x.1) logpsi x.1) =
      rayleigh (fun x y : {x // p x} => H x.1 y.1) fun x => Complex.exp (logpsi x.1) := by
  unfold weightedMean rayleigh bornNorm
  simp only [hw]
  congr 1
  refine Finset.sum_congr rfl fun x _ => ?_
  unfold localEnergy
  have h1 : ∑ y, H x.1 y * (Complex.exp (logpsi y) / Complex.exp (logpsi x.1)) =
      ∑ y : {x // p x}, H x.1 y.1 * (Complex.exp (logpsi y.1) / Complex.exp (logpsi x.1)) := by
    symm
    refine Finset.sum_of_injOn Subtype.val (fun a _ b _ h => Subtype.ext h) (fun _ _ => by simp) (fun y _ hy => ?_) (fun _ _ => rfl)
    have hpy : ¬ p y := fun h => hy ⟨⟨y, h⟩, by simp, rfl⟩
    rw [hH x.1 y x.2 hpy, zero_mul]
  rw [h1, Finset.mul_sum]
  refine Finset.sum_congr rfl fun y _ => ?_
  have hx := Complex.exp_ne_zero (logpsi x.1)
  rw [← Complex.normSq_eq_norm_sq, ← Complex.mul_conj]
  field_simp

theorem target_two (logpsi : Arr L → ℂ) (x : HoppingChain.Sector L nu nd) :
    HoppingChain.target logpsi 2 x = ‖Complex.exp (logpsi (embed x.1))‖ ^ 2 := by
  unfold HoppingChain.target; exact Real.rpow_two _

theorem hubbard_conserves (U : ℂ) (edges : List ((Fin L × Fin L) × ℂ)) (s : Bool) (x y : Cfg L) (h : numElec s x ≠ numElec s y) :
    hubbard U edges (occOf x) (occOf y) = 0 := by
  have hop : ∀ e : (Fin L × Fin L) × ℂ, (∑ σ : Bool, (cre (mode σ e.1.1) * ann (mode σ e.1.2) +
      cre (mode σ e.1.2) * ann (mode σ e.1.1)) : Op L) (occOf x) (occOf y) = 0 := by
    intro e
    apply conserved (s := s) _ x y h
    rw [Finset.mul_sum, Finset.sum_mul]
    refine Finset.sum_congr rfl fun σ _ => ?_
    rw [mul_add, add_mul, numTot_bil, numTot_bil]
  have hint : (∑ i : Fin L, num (mode false i) * num (mode true i) : Op L) (occOf x) (occOf y) = 0 := by
    apply conserved (s := s) _ x y h
    rw [Finset.mul_sum, Finset.sum_mul]
    exact Finset.sum_congr rfl fun i _ => numTot_mul (numTot_bil s false i i) (numTot_bil s true i i)
  unfold hubbard
  rw [Matrix.add_apply, Matrix.smul_apply]
  have h2 : (toK ℂ (∑ i : Fin L, num (mode false i) * num (mode true i) : Op L)) (occOf x) (occOf y) = 0 := by
    simp only [toK, Matrix.map_apply, hint]; simp
  rw [h2, smul_zero, add_zero]
  induction edges with
  | nil => rfl
  | cons e es ih =>
    rw [List.map_cons, List.sum_cons, Matrix.add_apply, ih, add_zero, Matrix.neg_apply, Matrix.smul_apply]
    have h3 : (toK ℂ (∑ σ : Bool, (cre (mode σ e.1.1) * ann (mode σ e.1.2) + cre (mode σ e.1.2) * ann (mode σ e.1.1)) : Op L))
        (occOf x) (occOf y) = 0 := by
      simp only [toK, Matrix.map_apply, hop e]; simp
    rw [h3, smul_zero, neg_zero]

theorem abInitio_conserves (h : Fin L → Fin L → ℂ) (e : Fin L → Fin L → Fin L → Fin L → ℂ) (s : Bool) (x y : Cfg L)
    (hxy : numElec s x ≠ numElec s y) : abInitioTwice h e (occOf x) (occOf y) = 0 := by
  have h1 : ∀ p q, (toK ℂ (exc p q : Op L)) (occOf x) (occOf y) = 0 := by
    intro p q
    simp only [toK, Matrix.map_apply, conserved (numTot_exc s p q) x y hxy]; simp
  have h2 : ∀ p q r u, (toK ℂ (exc p q * exc r u - if q = r then exc p u else 0 : Op L)) (occOf x) (occOf y) = 0 := by
    intro p q r u
    have : numTot s * (exc p q * exc r u - if q = r then exc p u else 0 : Op L) =
        (exc p q * exc r u - if q = r then exc p u else 0 : Op L) * numTot s := by
      rw [mul_sub, sub_mul, numTot_mul (numTot_exc s p q) (numTot_exc s r u)]
      congr 1
      split_ifs
      · exact numTot_exc s p u
      · simp
    simp only [toK, Matrix.map_apply, conserved this x y hxy]; simp
  unfold abInitioTwice
  rw [Matrix.add_apply]
  simp only [Matrix.sum_apply, Matrix.smul_apply, h1, h2, smul_zero, Finset.sum_const_zero, add_zero]

/-- Configurations with given numbers of electrons. -/
theorem sector_conserves {H : Cfg L → Cfg L → ℂ} (hH : ∀ s x y, numElec s x ≠ numElec s y → H x y = 0) (x y : Cfg L)
    (hx : numElec false x = nu ∧ numElec true x = nd) (hy : ¬ (numElec false y = nu ∧ numElec true y = nd)) : H x y = 0 := by
  by_cases h1 : numElec false x = numElec false y
  · apply hH true
    intro h2
    exact hy ⟨by rw [← h1, hx.1], by rw [← h2, hx.2]⟩
  · exact hH false x y h1

variable {Cache : Type}

/-- C145, Hubbard models: averages of local energies computed on the fly over the samples of the hopping sampler tend to the energy
`⟨ψ|H|ψ⟩ / ⟨ψ|ψ⟩` of the state with the electron numbers of the Hilbert space.  `logpsi` is the model as the sampler calls it, `src` as the
Hamiltonian does. -/
theorem C145_hubbard (hn : 0 < nu + nd) (hL : 3 ≤ L) (logpsi : Arr L → ℂ) (src : AmpSource L (Fin 4) Cache)
    (hsame : ∀ x, logpsi (embed x) = src.logAmp x) (hs : ∀ x, src.OkAt x) {hop : ℝ} (h0 : 0 < hop) (h1 : hop ≤ 1) {sweep : ℕ}
    (hsw : 0 < sweep) (U : ℂ) (edges : List ((Fin L × Fin L) × ℂ)) (hne : ∀ e ∈ edges, e.1.1 ≠ e.1.2) :
    let f : HoppingChain.Sector L nu nd → ℂ := fun x => hubbardLocalEn src U edges x.1
    Consistent (HoppingChain.chain logpsi 2 hop none ^ sweep) (HoppingChain.target logpsi 2) f ∧
      weightedMean (HoppingChain.target logpsi 2) f =
        rayleigh (fun x y : HoppingChain.Sector L nu nd => hubbard U edges (occOf x.1) (occOf y.1))
          fun x => Complex.exp (src.logAmp x.1) := by
  intro f
  refine ⟨C144_hopping hn hL logpsi 2 h0 h1 hsw f, ?_⟩
  have hf : f = fun x => localEnergy (fun y => hubbard U edges (occOf x.1) (occOf y)) src.logAmp x.1 :=
    funext fun x => (C07_local_energy_partial src U edges hne x.1 (hs x.1)).2
  rw [hf]
  exact mean_energy (fun x y => hubbard U edges (occOf x) (occOf y)) (fun x y hx hy =>
    sector_conserves (H := fun x y => hubbard U edges (occOf x) (occOf y)) (hubbard_conserves U edges) x y hx hy) src.logAmp _
    (fun x => by rw [target_two, hsame])

/-- C145, molecules: the same for the dense and the sparse evaluation. -/
theorem C145_ab_initio (hn : 0 < nu + nd) (hL : 3 ≤ L) (logpsi : Arr L → ℂ) (src : AmpSource L (Fin 4) Cache)
    (hsame : ∀ x, logpsi (embed x) = src.logAmp x) (hs : ∀ x, src.OkPaddedAt x) {hop : ℝ} (h0 : 0 < hop) (h1 : hop ≤ 1) {sweep : ℕ}
    (hsw : 0 < sweep) (h : Fin L → Fin L → ℂ) (e : Fin L → Fin L → Fin L → Fin L → ℂ) (hsym : ∀ p q r s, e p q r s = e r s p q) :
    let f : HoppingChain.Sector L nu nd → ℂ := fun x => abLocalEn src (nu, nd) (abT h e) e x.1
    (∀ x : HoppingChain.Sector L nu nd, sparseLocalEn src (nu, nd) (sparse1 h) (sparse2 e) x.1 = f x) ∧
    Consistent (HoppingChain.chain logpsi 2 hop none ^ sweep) (HoppingChain.target logpsi 2) f ∧
      weightedMean (HoppingChain.target logpsi 2) f =
        rayleigh (fun x y : HoppingChain.Sector L nu nd => (1 / 2) * abInitioTwice h e (occOf x.1) (occOf y.1))
          fun x => Complex.exp (src.logAmp x.1) := by
  intro f
  refine ⟨fun x => ?_, C144_hopping hn hL logpsi 2 h0 h1 hsw f, ?_⟩
  · have := C16_sparse_eq_dense src h e hsym x.1 (hs x.1)
    rwa [x.2.1, x.2.2] at this
  have hf : f = fun x => localEnergy (fun y => (1 / 2) * abInitioTwice h e (occOf x.1) (occOf y)) src.logAmp x.1 := by
    funext x
    have := C14_local_energy_operator src h e hsym x.1 (hs x.1)
    rwa [x.2.1, x.2.2] at this
  rw [hf]
  exact mean_energy (fun x y => (1 / 2) * abInitioTwice h e (occOf x) (occOf y)) (fun x y hx hy =>
    sector_conserves (H := fun x y => (1 / 2) * abInitioTwice h e (occOf x) (occOf y))
      (fun s x y hxy => by rw [abInitio_conserves h e s x y hxy, mul_zero]) x y hx hy) src.logAmp _
    (fun x => by rw [target_two, hsame])

/-- The number of sites in each local state is conserved by exchange operators. -/
theorem bond_conserves {N : ℕ} (bonds : List ((Fin N × Fin N) × Matrix (Fin 4) (Fin 4) ℂ))
    (he : ∀ b ∈ bonds, OnlyExchange b.2) (x y : Spins N)
    (h : ¬ ∀ v, (Finset.univ.filter fun j => y j = v).card = (Finset.univ.filter fun j => x j = v).card) : bondOperator bonds x y = 0 := by
  unfold bondOperator
  rw [List.sum_eq_zero]
  intro t ht
  obtain ⟨b, hb, rfl⟩ := List.mem_map.mp ht
  split_ifs with hk
  · apply he b hb
    · intro heq
      rw [Prod.mk.injEq] at heq
      apply h
      have : x = y := by
        funext k
        by_cases h1 : k = b.1.1
        · rw [h1]; exact heq.1
        · by_cases h2 : k = b.1.2
          · rw [h2]; exact heq.2
          · exact hk k h1 h2
      intro v; rw [this]
    · intro heq
      rw [Prod.mk.injEq] at heq
      apply h
      have hy : y = x ∘ Equiv.swap b.1.1 b.1.2 := by
        funext k
        by_cases h1 : k = b.1.1
        · rw [h1, Function.comp_apply, Equiv.swap_apply_left]; exact heq.2.symm
        · by_cases h2 : k = b.1.2
          · rw [h2, Function.comp_apply, Equiv.swap_apply_right]; exact heq.1.symm
          · rw [Function.comp_apply, Equiv.swap_apply_of_ne_of_ne h1 h2]; exact (hk k h1 h2).symm
      intro v
      rw [hy]
      apply Finset.card_bij (fun j _ => Equiv.swap b.1.1 b.1.2 j)
      · intro j hj; simpa using hj
      · intro i _ j _ hij; exact (Equiv.swap b.1.1 b.1.2).injective hij
      · intro j hj
        exact ⟨Equiv.swap b.1.1 b.1.2 j, by simpa using hj, by simp⟩
  · rfl

/-- C145, Heisenberg models with the exchange sampler. -/
theorem C145_heisenberg {N : ℕ} {σ₀ : Spins N} {clusters : List (Fin N × Fin N)} (hcl : clusters ≠ [])
    (hc : ExchangeChain.Connected clusters) (hpair : ∃ i j, i ≠ j ∧ σ₀ i = σ₀ j) (src : AmpSource N ℤ Cache)
    (hs : ∀ x : Spins N, src.OkAt fun k => spinVal (x k)) {sweep : ℕ} (hsw : 0 < sweep)
    (bonds : List ((Fin N × Fin N) × (ℂ × Bool))) (hd : ∀ b ∈ bonds, b.1.1 ≠ b.1.2) :
    let H := bonds.map fun b => (b.1, heisenbergBond b.2.1 b.2.2)
    let logpsi : Spins N → ℂ := fun y => src.logAmp fun k => spinVal (y k)
    let f : ExchangeChain.Sector σ₀ → ℂ := fun x => J1J2.localEn src H fun k => spinVal (x.1 k)
    Consistent (ExchangeChain.chain σ₀ logpsi 2 clusters ^ sweep) (ExchangeChain.target σ₀ logpsi 2) f ∧
      weightedMean (ExchangeChain.target σ₀ logpsi 2) f =
        rayleigh (fun x y : ExchangeChain.Sector σ₀ => bondOperator H x.1 y.1) fun x => Complex.exp (logpsi x.1) := by
  intro H logpsi f
  refine ⟨by convert C144_exchange hcl hc logpsi 2 hpair hsw f, ?_⟩
  have hf : f = fun x => localEnergy (fun y => bondOperator H x.1 y) logpsi x.1 := funext fun x => C11_heisenberg src bonds hd x.1 (hs x.1)
  rw [hf]
  refine mean_energy (fun x y => bondOperator H x y) (fun x y hx hy => ?_) logpsi _ (fun x => ?_)
  · apply bond_conserves H _ x y
    · intro h; apply hy; intro v; rw [h v, hx v]
    · intro b hb
      obtain ⟨c, -, rfl⟩ := List.mem_map.mp hb
      intro p q p' q' h1 h2
      revert h1 h2
      cases p <;> cases q <;> cases p' <;> cases q' <;> simp [pairIndex, heisenbergBond]
  · unfold ExchangeChain.target; exact Real.rpow_two _

/-- The hypotheses of C145 are met by every model without a cache: the energy of two electrons on a ring of three sites. -/
example (φ : Cfg 3 → ℂ) (logpsi : Arr 3 → ℂ) (hsame : ∀ x, logpsi (embed x) = φ x) :=
  C145_hubbard (nu := 1) (nd := 1) (by decide) (by decide) logpsi (.full φ : AmpSource 3 (Fin 4) Unit) hsame (fun _ => trivial)
    (hop := 1) one_pos (le_refl _) (sweep := 3) (by decide) 8 [((0, 1), 1), ((1, 2), 1), ((2, 0), 1)] (by simp)

end GPSKet.SampledEnergy
