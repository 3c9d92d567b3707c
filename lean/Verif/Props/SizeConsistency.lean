import Verif.Props.ParticleHole
import Verif.Props.J1J2
import Verif.Model.QGPS
import Verif.Props.SlaterState
import Verif.Props.Containment
import Mathlib.LinearAlgebra.Matrix.SchurComplement

/-! # Subsystems that do not interact (C197)

A system is made of a first subsystem with `m` sites and a second one with `n` sites, listed one after the other. -/

namespace GPSKet.SizeConsistency

open GPSKet GPSKet.Spec

variable {m n : ℕ} {Cache CacheA CacheB : Type}

theorem append_update_left {α : Type} (a : Fin m → α) (b : Fin n → α) (i : Fin m) (v : α) :
    Fin.append (Function.update a i v) b = Function.update (Fin.append a b) (Fin.castAdd n i) v := by
  funext k
  refine Fin.addCases (fun j => ?_) (fun j => ?_) k
  · rw [Fin.append_left]
    by_cases h : j = i
    · subst h; simp
    · rw [Function.update_of_ne h, Function.update_of_ne (fun h' => h (Fin.castAdd_injective _ _ h')), Fin.append_left]
  · rw [Fin.append_right, Function.update_of_ne, Fin.append_right]
    intro h
    have := congrArg Fin.val h
    simp at this
    omega

theorem append_update_right {α : Type} (a : Fin m → α) (b : Fin n → α) (i : Fin n) (v : α) :
    Fin.append a (Function.update b i v) = Function.update (Fin.append a b) (Fin.natAdd m i) v := by
  funext k
  refine Fin.addCases (fun j => ?_) (fun j => ?_) k
  · rw [Fin.append_left, Function.update_of_ne, Fin.append_left]
    intro h
    have := congrArg Fin.val h
    simp at this
    omega
  · rw [Fin.append_right]
    by_cases h : j = i
    · subst h; simp
    · rw [Function.update_of_ne h, Function.update_of_ne (fun h' => h (Fin.natAdd_injective _ _ h')), Fin.append_right]

/-! ## Hubbard -/

/-- the edges of both subsystems -/
def bothEdges {K : Type} (eA : List ((Fin m × Fin m) × K)) (eB : List ((Fin n × Fin n) × K)) : List ((Fin (m + n) × Fin (m + n)) × K) :=
  eA.map (fun e => ((Fin.castAdd n e.1.1, Fin.castAdd n e.1.2), e.2)) ++ eB.map fun e => ((Fin.natAdd m e.1.1, Fin.natAdd m e.1.2), e.2)

/-- a hop within a subsystem of consecutive sites -/
theorem hop_sub {k N : ℕ} (ι : Fin k → Fin N) (hι : StrictMono ι) (hconv : ∀ i a j, ι i < j → j < ι a → ∃ j', ι j' = j)
    (put : Cfg k → Cfg N) (hput : ∀ y i v, put (Function.update y i v) = Function.update (put y) (ι i) v) (hget : ∀ y i, put y (ι i) = y i)
    (src : AmpSource N (Fin 4) Cache) (srcA : AmpSource k (Fin 4) CacheA) (y : Cfg k) (hs : src.OkAt (put y)) (hsA : srcA.OkAt y) (χ : ℂ)
    (hpsi : ∀ y', (∀ s, numElec s y' = numElec s y) → Complex.exp (src.logAmp (put y')) = χ * Complex.exp (srcA.logAmp y'))
    (s : Bool) {i a : Fin k} (h : a ≠ i) :
    hubbardHopTerm src (put y) (spinInt s) (cumsum (isOcc (put y) (spinInt s))) (ι i) (ι a) =
      hubbardHopTerm srcA y (spinInt s) (cumsum (isOcc y (spinInt s))) i a := by
  have h' : ι a ≠ ι i := fun e => h (hι.injective e)
  rw [hubbardHopTerm_eq src _ hs s h', hubbardHopTerm_eq srcA _ hsA s h]
  dsimp only
  by_cases hv : hasSpin s (y i) = true ∧ hasSpin s (y a) = false
  · have hv' : hasSpin s (put y (ι i)) = true ∧ hasSpin s (put y (ι a)) = false := by rwa [hget, hget]
    rw [applyHopping_valid _ s h' hv'.1 hv'.2, applyHopping_valid _ s h hv.1 hv.2]
    have hc : (siteBetween (put y) s (ι a) (ι i)).card = (siteBetween y s a i).card := by
      have hmap : siteBetween (put y) s (ι a) (ι i) = (siteBetween y s a i).map ⟨ι, hι.injective⟩ := by
        ext j
        unfold siteBetween
        simp only [Finset.mem_filter, Finset.mem_univ, true_and, Finset.mem_map, Function.Embedding.coeFn_mk, ← hι.monotone.map_min,
          ← hι.monotone.map_max]
        constructor
        · rintro ⟨h1, h2, h3⟩
          obtain ⟨j', rfl⟩ := hconv _ _ j h1 h2
          rw [hget] at h3
          exact ⟨j', ⟨hι.lt_iff_lt.mp h1, hι.lt_iff_lt.mp h2, h3⟩, rfl⟩
        · rintro ⟨j', ⟨h1, h2, h3⟩, rfl⟩
          exact ⟨hι h1, hι h2, by rwa [hget]⟩
      rw [hmap, Finset.card_map]
    have hcfg : Function.update (Function.update (put y) (ι i) (put y (ι i) - spinInt s)) (ι a) (put y (ι a) + spinInt s) =
        put (Function.update (Function.update y i (y i - spinInt s)) a (y a + spinInt s)) := by
      rw [hput, hput, hget, hget]
    dsimp only
    rw [hc, hcfg, hpsi _ (fun s' => numElec_move y h s s' hv.1 hv.2), hpsi y fun _ => rfl]
    have hχ : χ ≠ 0 := fun h0 => Complex.exp_ne_zero (src.logAmp (put y)) (by rw [hpsi y fun _ => rfl, h0, zero_mul])
    rw [mul_div_mul_left _ _ hχ]
  · have hv' : ¬ (hasSpin s (put y (ι i)) = true ∧ hasSpin s (put y (ι a)) = false) := by rwa [hget, hget]
    rw [applyHopping_invalid _ s h' hv', applyHopping_invalid _ s h hv]
    simp

theorem hubbardLocalEn_sum {L : ℕ} (src : AmpSource L (Fin 4) Cache) (U : ℂ) (edges : List ((Fin L × Fin L) × ℂ)) (x : Cfg L) :
    hubbardLocalEn src U edges x = U * (ParticleHole.doubly x : ℂ) +
      (hubbardHoppingTerm src edges x (spinInt false) (cumsum (isOcc x (spinInt false))) +
        hubbardHoppingTerm src edges x (spinInt true) (cumsum (isOcc x (spinInt true)))) := by
  unfold hubbardLocalEn ParticleHole.doubly
  cases edges with
  | nil => simp [hubbardHoppingTerm]
  | cons e es =>
    rw [if_pos (by simp)]
    exact add_assoc _ _ _

theorem doubly_append (a : Cfg m) (b : Cfg n) : ParticleHole.doubly (Fin.append a b : Cfg (m + n)) = ParticleHole.doubly a + ParticleHole.doubly b := by
  unfold ParticleHole.doubly
  simp only [Finset.card_filter]
  rw [Fin.sum_univ_add]
  simp only [Fin.append_left, Fin.append_right]

/-- **C197**, Hubbard models: if the amplitudes of the whole system are the products of those of two subsystems between which no electrons
hop, then its local energies are the sums of theirs. -/
theorem C197_hubbard (U : ℂ) (eA : List ((Fin m × Fin m) × ℂ)) (eB : List ((Fin n × Fin n) × ℂ)) (hA : ∀ e ∈ eA, e.1.1 ≠ e.1.2)
    (hB : ∀ e ∈ eB, e.1.1 ≠ e.1.2) (src : AmpSource (m + n) (Fin 4) Cache) (srcA : AmpSource m (Fin 4) CacheA) (srcB : AmpSource n (Fin 4) CacheB)
    (a : Cfg m) (b : Cfg n) (χ : ℂ)
    (hpsi : ∀ a' b', (∀ s, numElec s a' = numElec s a) → (∀ s, numElec s b' = numElec s b) →
      Complex.exp (src.logAmp (Fin.append a' b')) = χ * (Complex.exp (srcA.logAmp a') * Complex.exp (srcB.logAmp b')))
    (hs : src.OkAt (Fin.append a b)) (hsA : srcA.OkAt a) (hsB : srcB.OkAt b) :
    hubbardLocalEn src U (bothEdges eA eB) (Fin.append a b) = hubbardLocalEn srcA U eA a + hubbardLocalEn srcB U eB b := by
  rw [hubbardLocalEn_sum, hubbardLocalEn_sum srcA, hubbardLocalEn_sum srcB, doubly_append]
  have key : ∀ s, hubbardHoppingTerm src (bothEdges eA eB) (Fin.append a b) (spinInt s) (cumsum (isOcc (Fin.append a b : Cfg (m + n)) (spinInt s))) =
      hubbardHoppingTerm srcA eA a (spinInt s) (cumsum (isOcc a (spinInt s))) +
        hubbardHoppingTerm srcB eB b (spinInt s) (cumsum (isOcc b (spinInt s))) := by
    intro s
    have tA : ∀ {i k : Fin m}, k ≠ i → hubbardHopTerm src (Fin.append a b) (spinInt s) (cumsum (isOcc (Fin.append a b : Cfg (m + n)) (spinInt s)))
        (Fin.castAdd n i) (Fin.castAdd n k) = hubbardHopTerm srcA a (spinInt s) (cumsum (isOcc a (spinInt s))) i k := by
      intro i k hik
      refine hop_sub (Fin.castAdd n) (Fin.strictMono_castAdd n) (fun i k j _ h2 => ⟨⟨j.val, ?_⟩, Fin.ext rfl⟩) (fun y => Fin.append y b)
        (fun y i v => append_update_left y b i v) (fun y i => Fin.append_left y b i) src srcA a hs hsA (χ * Complex.exp (srcB.logAmp b))
        (fun y' hy' => ?_) s hik
      · have h3 : j.val < k.val := h2
        omega
      · rw [hpsi y' b hy' fun _ => rfl]; ring
    have tB : ∀ {i k : Fin n}, k ≠ i → hubbardHopTerm src (Fin.append a b) (spinInt s) (cumsum (isOcc (Fin.append a b : Cfg (m + n)) (spinInt s)))
        (Fin.natAdd m i) (Fin.natAdd m k) = hubbardHopTerm srcB b (spinInt s) (cumsum (isOcc b (spinInt s))) i k := by
      intro i k hik
      refine hop_sub (Fin.natAdd m) (Fin.strictMono_natAdd m) (fun i k j h1 _ => ⟨⟨j.val - m, ?_⟩, Fin.ext ?_⟩) (fun y => Fin.append a y)
        (fun y i v => append_update_right a y i v) (fun y i => Fin.append_right a y i) src srcB b hs hsB (χ * Complex.exp (srcA.logAmp a))
        (fun y' hy' => ?_) s hik
      · have := j.isLt
        omega
      · have h3 : m + i.val < j.val := h1
        show m + (j.val - m) = j.val
        omega
      · rw [hpsi a y' (fun _ => rfl) hy']; ring
    unfold hubbardHoppingTerm bothEdges
    rw [List.map_append, List.sum_append, List.map_map, List.map_map]
    congr 2
    · refine List.map_congr_left fun e he => ?_
      simp only [Function.comp]
      rw [tA (hA e he).symm, tA (hA e he)]
    · refine List.map_congr_left fun e he => ?_
      simp only [Function.comp]
      rw [tB (hB e he).symm, tB (hB e he)]
  rw [key, key]
  push_cast
  ring

/-! ## Spins -/

/-- the bonds of both subsystems -/
def bothBonds (bA : List ((Fin m × Fin m) × Matrix (Fin 4) (Fin 4) ℂ)) (bB : List ((Fin n × Fin n) × Matrix (Fin 4) (Fin 4) ℂ)) :
    List ((Fin (m + n) × Fin (m + n)) × Matrix (Fin 4) (Fin 4) ℂ) := bothEdges bA bB

/-- a bond within a subsystem -/
theorem bond_sub {k N : ℕ} (ι : Fin k → Fin N) (hι : Function.Injective ι)
    (put : (Fin k → ℤ) → Fin N → ℤ) (hput : ∀ y i v, put (Function.update y i v) = Function.update (put y) (ι i) v) (hget : ∀ y i, put y (ι i) = y i)
    (src : AmpSource N ℤ Cache) (srcA : AmpSource k ℤ CacheA) (y : Fin k → ℤ) (hs : src.OkAt (put y)) (hsA : srcA.OkAt y) (χ : ℂ)
    (hpsi : ∀ y', Complex.exp (src.logAmp (put y')) = χ * Complex.exp (srcA.logAmp y'))
    {i a : Fin k} (h : a ≠ i) (O : Matrix (Fin 4) (Fin 4) ℂ) :
    J1J2.bondTerm src (put y) ((ι i, ι a), O) = J1J2.bondTerm srcA y ((i, a), O) := by
  unfold J1J2.bondTerm J1J2.computeElement
  dsimp only
  simp only [conn_two src _ hs (fun e => h (hι e)), conn_two srcA _ hsA h, hget, Complex.exp_sub, ← hput, hpsi]
  have hχ : χ ≠ 0 := fun h0 => Complex.exp_ne_zero (src.logAmp (put y)) (by rw [hpsi y, h0, zero_mul])
  simp only [mul_div_mul_left _ _ hχ]

/-- **C197**, spins: the same for the local energies of Heisenberg models computed on the fly, for bonds with any operators. -/
theorem C197_spins (bA : List ((Fin m × Fin m) × Matrix (Fin 4) (Fin 4) ℂ)) (bB : List ((Fin n × Fin n) × Matrix (Fin 4) (Fin 4) ℂ))
    (hA : ∀ e ∈ bA, e.1.1 ≠ e.1.2) (hB : ∀ e ∈ bB, e.1.1 ≠ e.1.2) (src : AmpSource (m + n) ℤ Cache) (srcA : AmpSource m ℤ CacheA)
    (srcB : AmpSource n ℤ CacheB) (a : Fin m → ℤ) (b : Fin n → ℤ) (χ : ℂ)
    (hpsi : ∀ a' b', Complex.exp (src.logAmp (Fin.append a' b')) = χ * (Complex.exp (srcA.logAmp a') * Complex.exp (srcB.logAmp b')))
    (hs : src.OkAt (Fin.append a b)) (hsA : srcA.OkAt a) (hsB : srcB.OkAt b) :
    J1J2.localEn src (bothBonds bA bB) (Fin.append a b) = J1J2.localEn srcA bA a + J1J2.localEn srcB bB b := by
  unfold J1J2.localEn bothBonds bothEdges
  rw [List.map_append, List.sum_append, List.map_map, List.map_map]
  congr 2
  · refine List.map_congr_left fun e he => ?_
    exact bond_sub (Fin.castAdd n) (Fin.castAdd_injective _ _) (fun y => Fin.append y b) (fun y i v => append_update_left y b i v)
      (fun y i => Fin.append_left y b i) src srcA a hs hsA (χ * Complex.exp (srcB.logAmp b)) (fun y' => by rw [hpsi]; ring) (hA e he).symm e.2
  · refine List.map_congr_left fun e he => ?_
    exact bond_sub (Fin.natAdd m) (Fin.natAdd_injective _ _) (fun y => Fin.append a y) (fun y i v => append_update_right a y i v)
      (fun y i => Fin.append_right a y i) src srcB b hs hsB (χ * Complex.exp (srcA.logAmp a)) (fun y' => by rw [hpsi]; ring) (hB e he).symm e.2

/-! ## Ansätze -/

/-- **C197**, the qGPS: the product of qGPS states of two subsystems is a qGPS state of the whole, and the support dimensions add. -/
theorem C197_qgps {D M₁ M₂ : ℕ} (e₁ : Fin D → Fin M₁ → Fin m → ℂ) (e₂ : Fin D → Fin M₂ → Fin n → ℂ) :
    ∃ epsilon : Fin D → Fin (M₁ + M₂) → Fin (m + n) → ℂ, ∀ a b,
      (QGPS.model ⟨epsilon, QGPS.noSyms, QGPS.sumOut⟩).full (Fin.append a b) =
        (QGPS.model ⟨e₁, QGPS.noSyms, QGPS.sumOut⟩).full a + (QGPS.model ⟨e₂, QGPS.noSyms, QGPS.sumOut⟩).full b := by
  refine ⟨fun d k i => Fin.addCases (motive := fun _ => ℂ) (fun k => Fin.addCases (motive := fun _ => ℂ) (fun i => e₁ d k i) (fun _ => 1) i)
    (fun k => Fin.addCases (motive := fun _ => ℂ) (fun _ => 1) (fun i => e₂ d k i) i) k, fun a b => ?_⟩
  show ∑ k : Fin (M₁ + M₂), ∑ t : Unit, ∏ i : Fin (m + n), Fin.addCases (motive := fun _ => ℂ)
    (fun k => Fin.addCases (motive := fun _ => ℂ) (fun i' => e₁ ((Fin.append a b : Fin (m + n) → Fin D) i) k i') (fun _ => 1) i)
    (fun k => Fin.addCases (motive := fun _ => ℂ) (fun _ => 1) (fun i' => e₂ ((Fin.append a b : Fin (m + n) → Fin D) i) k i') i) k =
    (∑ k, ∑ t : Unit, ∏ i, e₁ (a i) k i) + ∑ k, ∑ t : Unit, ∏ i, e₂ (b i) k i
  rw [Fin.sum_univ_add]
  simp only [Fin.addCases_left, Fin.addCases_right, Fin.prod_univ_add, Fin.append_left, Fin.append_right, Finset.prod_const_one, mul_one, one_mul]

open AR in
theorem pickSum_append {D : ℕ} (l : Fin (m + n) → Fin D → LogAmp) (lA : Fin m → Fin D → LogAmp) (lB : Fin n → Fin D → LogAmp) (a : Fin m → Fin D)
    (b : Fin n → Fin D) (hA : ∀ i, l (Fin.castAdd n i) = lA i) (hB : ∀ i, l (Fin.natAdd m i) = lB i) :
    pickSum l (Fin.append a b) = Option.map₂ (· + ·) (pickSum lA a) (pickSum lB b) := by
  unfold pickSum
  have h : (∀ i, (l i ((Fin.append a b : Fin (m + n) → Fin D) i)).isSome) ↔ (∀ i, (lA i (a i)).isSome) ∧ ∀ i, (lB i (b i)).isSome := by
    constructor
    · intro h
      refine ⟨fun i => ?_, fun i => ?_⟩
      · have := h (Fin.castAdd n i)
        rwa [hA, Fin.append_left] at this
      · have := h (Fin.natAdd m i)
        rwa [hB, Fin.append_right] at this
    · rintro ⟨h1, h2⟩ i
      refine Fin.addCases (fun i => ?_) (fun i => ?_) i
      · rw [hA, Fin.append_left]; exact h1 i
      · rw [hB, Fin.append_right]; exact h2 i
  by_cases h1 : ∀ i, (lA i (a i)).isSome
  · by_cases h2 : ∀ i, (lB i (b i)).isSome
    · rw [if_pos (h.mpr ⟨h1, h2⟩), if_pos h1, if_pos h2, Option.map₂_some_some, Fin.sum_univ_add]
      simp only [hA, hB, Fin.append_left, Fin.append_right]
    · rw [if_neg (fun h' => h2 (h.mp h').2), if_neg h2, Option.map₂_none_right]
  · rw [if_neg (fun h' => h1 (h.mp h').1), if_neg h1, Option.map₂_none_left]

/-- parameters of the whole: those of the subsystem of the site for sites of the same subsystem, and factors 1 for the other one -/
noncomputable def arTable {D M : ℕ} (e₁ : Fin D → Fin M → ℕ → ℂ) (e₂ : Fin D → Fin M → ℕ → ℂ) : Fin D → Fin M → Fin (m + n) → Fin (m + n) → ℂ := fun d k i j =>
  Fin.addCases (motive := fun _ => ℂ)
    (fun i => Fin.addCases (motive := fun _ => ℂ) (fun j => ARFull.readPacked e₁ m d k (ARFull.lowerIndex i + j.val)) (fun _ => 1) j)
    (fun i => Fin.addCases (motive := fun _ => ℂ) (fun _ => 1) (fun j => ARFull.readPacked e₂ n d k (ARFull.lowerIndex i + j.val)) j) i

theorem fullVal_read {L D M : ℕ} (f : AR.Fields D M) (e : Fin D → Fin M → ℕ → ℂ) (i : Fin L) (x : Fin L → Fin D) (d : Fin D) :
    ARFull.fullVal f e i x d = f.out_transformation fun k => ARFull.readPacked e L d k (ARFull.lowerIndex i + i.val) *
      ∏ j : Fin L, if j.val < i.val then ARFull.readPacked e L (x j) k (ARFull.lowerIndex i + j.val) else 1 := by
  unfold ARFull.fullVal
  congr 1
  funext k
  congr 1
  unfold ARFull.contextProd
  refine Finset.prod_congr rfl fun j _ => ?_
  by_cases hj : j.val < i.val
  · rw [if_neg (by omega), if_pos hj, Props.sliceStart_eq i.isLt]
  · rw [if_pos (by omega), if_neg hj]

/-- **C197**, the autoregressive model with a set of parameters for every site: the product of two such states is one of the whole, with the
same support dimension and the same normalisation (here without constraints on the magnetisation). -/
theorem C197_autoregressive {D M : ℕ} (f : AR.Fields D M) (hfree : ∀ c i d, f.renormalize c i d = true) (e₁ e₂ : Fin D → Fin M → ℕ → ℂ) :
    ∃ epsilon : Fin D → Fin M → ℕ → ℂ, ∀ (a : Fin m → Fin D) (b : Fin n → Fin D),
      (ARFull.arqGPSFull f epsilon).logPsiOne (Fin.append a b) =
        Option.map₂ (· + ·) ((ARFull.arqGPSFull f e₁).logPsiOne a) ((ARFull.arqGPSFull f e₂).logPsiOne b) := by
  refine ⟨Containment.packed (arTable (m := m) (n := n) e₁ e₂), fun a b => ?_⟩
  have hmask : ∀ c i (v : Fin D → ℂ), AR.mask f c i v = fun d => some (v d) := by
    intro c i v
    funext d
    unfold AR.mask
    rw [hfree, if_pos rfl]
  refine pickSum_append _ _ _ a b (fun i => ?_) (fun i => ?_)
  · rw [(ARFull.arqGPSFull_good f _).log, (ARFull.arqGPSFull_good f _).log]
    show AR.maybeNormalize f (AR.mask f _ _ _) = AR.maybeNormalize f (AR.mask f _ _ _)
    rw [hmask, hmask]
    congr 1
    funext d
    rw [Containment.packed_val, fullVal_read]
    congr 2
    funext k
    simp only [arTable, Fin.addCases_left, Fin.prod_univ_add, Fin.addCases_right, Fin.append_left, Fin.append_right, Fin.val_castAdd, ite_self,
      Finset.prod_const_one, mul_one]
  · rw [(ARFull.arqGPSFull_good f _).log, (ARFull.arqGPSFull_good f _).log]
    show AR.maybeNormalize f (AR.mask f _ _ _) = AR.maybeNormalize f (AR.mask f _ _ _)
    rw [hmask, hmask]
    congr 1
    funext d
    rw [Containment.packed_val, fullVal_read]
    congr 2
    funext k
    simp only [arTable, Fin.addCases_left, Fin.prod_univ_add, Fin.addCases_right, Fin.append_left, Fin.append_right, Fin.val_natAdd, ite_self,
      Finset.prod_const_one, one_mul, Nat.add_lt_add_iff_left]

/-! ## Determinants -/

open SlaterAmplitudes Backflow

/-- a block-diagonal table -/
def blocks {p q k l : ℕ} (u : Fin p → Fin k → ℂ) (v : Fin q → Fin l → ℂ) : Fin (p + q) → Fin (k + l) → ℂ := fun i j =>
  Fin.addCases (motive := fun _ => ℂ) (fun i => Fin.addCases (motive := fun _ => ℂ) (fun j => u i j) (fun _ => 0) j)
    (fun i => Fin.addCases (motive := fun _ => ℂ) (fun _ => 0) (fun j => v i j) j) i

theorem det_blocks {k l : ℕ} (u : Fin k → Fin k → ℂ) (v : Fin l → Fin l → ℂ) :
    (Matrix.of (blocks u v)).det = (Matrix.of u).det * (Matrix.of v).det := by
  rw [← Matrix.det_submatrix_equiv_self finSumFinEquiv, ← Matrix.det_fromBlocks_zero₂₁ (Matrix.of u) 0 (Matrix.of v)]
  congr 1
  ext i j
  rcases i with i | i <;> rcases j with j | j <;>
    simp [blocks, Matrix.submatrix_apply]

/-- the electrons of both subsystems, one after the other -/
theorem enum_append {k l : ℕ} (s : Bool) (a : Cfg m) (b : Cfg n) (eA : Fin k → Fin m) (eB : Fin l → Fin n) (hA : StrictMono eA) (hB : StrictMono eB)
    (iA : ∀ i, hasSpin s (a i) = true ↔ ∃ j, eA j = i) (iB : ∀ i, hasSpin s (b i) = true ↔ ∃ j, eB j = i) :
    StrictMono (fun j : Fin (k + l) => Fin.addCases (motive := fun _ => Fin (m + n)) (fun j => Fin.castAdd n (eA j)) (fun j => Fin.natAdd m (eB j)) j) ∧
    ∀ i, hasSpin s ((Fin.append a b : Cfg (m + n)) i) = true ↔
      ∃ j : Fin (k + l), Fin.addCases (motive := fun _ => Fin (m + n)) (fun j => Fin.castAdd n (eA j)) (fun j => Fin.natAdd m (eB j)) j = i := by
  constructor
  · intro j j'
    refine Fin.addCases (fun j => ?_) (fun j => ?_) j <;> refine Fin.addCases (fun j' => ?_) (fun j' => ?_) j' <;> intro h <;>
      simp only [Fin.addCases_left, Fin.addCases_right]
    · exact hA h
    · have := (eA j).isLt
      rw [Fin.lt_def]
      simp only [Fin.val_castAdd, Fin.val_natAdd]
      omega
    · rw [Fin.lt_def] at h
      simp only [Fin.val_castAdd, Fin.val_natAdd] at h
      omega
    · have h' : j < j' := by
        rw [Fin.lt_def] at h ⊢
        simpa using h
      have := hB h'
      rw [Fin.lt_def] at this ⊢
      simpa using this
  · intro i
    refine Fin.addCases (fun i => ?_) (fun i => ?_) i
    · rw [Fin.append_left, iA]
      constructor
      · rintro ⟨j, rfl⟩
        exact ⟨Fin.castAdd l j, by rw [Fin.addCases_left]⟩
      · rintro ⟨j, h⟩
        revert h
        refine Fin.addCases (fun j => ?_) (fun j => ?_) j
        · rw [Fin.addCases_left]
          exact fun h => ⟨j, Fin.castAdd_injective _ _ h⟩
        · rw [Fin.addCases_right]
          intro h
          have := congrArg Fin.val h
          simp only [Fin.val_castAdd, Fin.val_natAdd] at this
          omega
    · rw [Fin.append_right, iB]
      constructor
      · rintro ⟨j, rfl⟩
        exact ⟨Fin.natAdd k j, by rw [Fin.addCases_right]⟩
      · rintro ⟨j, h⟩
        revert h
        refine Fin.addCases (fun j => ?_) (fun j => ?_) j
        · rw [Fin.addCases_left]
          intro h
          have := congrArg Fin.val h
          simp only [Fin.val_castAdd, Fin.val_natAdd] at this
          omega
        · rw [Fin.addCases_right]
          exact fun h => ⟨j, Fin.natAdd_injective _ _ h⟩

theorem numElec_append (s : Bool) (a : Cfg m) (b : Cfg n) : numElec s (Fin.append a b : Cfg (m + n)) = numElec s a + numElec s b := by
  unfold numElec
  simp only [Finset.card_filter]
  rw [Fin.sum_univ_add]
  simp only [Fin.append_left, Fin.append_right]

/-- **C197**, determinants: the amplitude of the determinant with the orbitals of both subsystems is the product of the amplitudes of the
determinants of the subsystems, wherever the numbers of electrons in the subsystems are theirs. -/
theorem C197_slater {nuA ndA nuB ndB : ℕ} (ct : Bool) (UuA : Fin 1 → Fin m → Fin nuA → ℂ) (UdA : Fin 1 → Fin m → Fin ndA → ℂ)
    (UuB : Fin 1 → Fin n → Fin nuB → ℂ) (UdB : Fin 1 → Fin n → Fin ndB → ℂ) (a : Cfg m) (b : Cfg n)
    (ha : numElec false a = nuA ∧ numElec true a = ndA) (hb : numElec false b = nuB ∧ numElec true b = ndB) :
    (Slater.model ⟨.fixedMag (fun k => blocks (UuA k) (UuB k)) (fun k => blocks (UdA k) (UdB k)), fun (_ : Unit) i => i, fun _ => 1, ct,
        fun v => ∑ k, ∑ s, ∑ t, v k s t⟩).full (Fin.append a b) =
      (Slater.model ⟨.fixedMag UuA UdA, fun (_ : Unit) i => i, fun _ => 1, ct, fun v => ∑ k, ∑ s, ∑ t, v k s t⟩).full a *
        (Slater.model ⟨.fixedMag UuB UdB, fun (_ : Unit) i => i, fun _ => 1, ct, fun v => ∑ k, ∑ s, ∑ t, v k s t⟩).full b := by
  have h0 : ∀ {L nu nd : ℕ} (Uu : Fin 1 → Fin L → Fin nu → ℂ) (Ud : Fin 1 → Fin L → Fin nd → ℂ) (x : Cfg L)
      (_ : numElec false x = nu ∧ numElec true x = nd),
      (Slater.model ⟨.fixedMag Uu Ud, fun (_ : Unit) i => i, fun _ => 1, ct, fun v => ∑ k, ∑ s, ∑ t, v k s t⟩).full x =
        upDownState (Uu 0) (Ud 0) (occOf x) := by
    intro L nu nd Uu Ud x hx
    show ∑ k, ∑ s, ∑ t, Slater.detValues (⟨.fixedMag Uu Ud, fun (_ : Unit) i => i, fun _ => 1, ct, fun v => ∑ k, ∑ s, ∑ t, v k s t⟩ :
      Slater.Module L nu nd 1 Unit Unit) x k s t * 1 = _
    simp only [Finset.univ_unique, Finset.sum_singleton, mul_one]
    exact C105_slater_fixed Uu Ud (fun (_ : Unit) i => i) (fun _ => 1) ct (fun v => ∑ k, ∑ s, ∑ t, v k s t) x hx 0 ()
  rw [h0 _ _ _ ⟨by rw [numElec_append, ha.1, hb.1], by rw [numElec_append, ha.2, hb.2]⟩, h0 _ _ a ha, h0 _ _ b hb]
  obtain ⟨upA, dnA, hA⟩ := exists_enumerates ha
  obtain ⟨upB, dnB, hB⟩ := exists_enumerates hb
  obtain ⟨u1, u2⟩ := enum_append false a b upA upB hA.up_mono hB.up_mono hA.up_iff hB.up_iff
  obtain ⟨d1, d2⟩ := enum_append true a b dnA dnB hA.dn_mono hB.dn_mono hA.dn_iff hB.dn_iff
  rw [← upDown_state (x := Fin.append a b) ⟨u1, d1, u2, d2⟩, ← upDown_state hA, ← upDown_state hB]
  have hb' : ∀ {k l : ℕ} (u : Fin m → Fin k → ℂ) (v : Fin n → Fin l → ℂ) (eA : Fin k → Fin m) (eB : Fin l → Fin n),
      (Matrix.of fun i j => blocks u v (Fin.addCases (motive := fun _ => Fin (m + n)) (fun j => Fin.castAdd n (eA j))
        (fun j => Fin.natAdd m (eB j)) i) j).det = (Matrix.of fun i j => u (eA i) j).det * (Matrix.of fun i j => v (eB i) j).det := by
    intro k l u v eA eB
    rw [← det_blocks]
    congr 1
    ext i j
    simp only [Matrix.of_apply]
    refine Fin.addCases (fun i => ?_) (fun i => ?_) i
    · simp only [blocks, Fin.addCases_left]
    · simp only [blocks, Fin.addCases_right]
  rw [hb', hb']
  ring

/-! ## Two dimers -/

/-- two Hubbard dimers in qGPS states: a qGPS of the four sites has the sum of their local energies everywhere -/
example {M₁ M₂ : ℕ} (e₁ : Fin 4 → Fin M₁ → Fin 2 → ℂ) (e₂ : Fin 4 → Fin M₂ → Fin 2 → ℂ) (U t t' : ℂ) :
    ∃ epsilon : Fin 4 → Fin (M₁ + M₂) → Fin (2 + 2) → ℂ, ∀ a b : Cfg 2,
      hubbardLocalEn (.full (QGPS.model ⟨epsilon, QGPS.noSyms, QGPS.sumOut⟩).full : AmpSource (2 + 2) (Fin 4) Unit) U
          [((0, 1), t), ((2, 3), t')] (Fin.append a b) =
        hubbardLocalEn (.full (QGPS.model ⟨e₁, QGPS.noSyms, QGPS.sumOut⟩).full : AmpSource 2 (Fin 4) Unit) U [((0, 1), t)] a +
        hubbardLocalEn (.full (QGPS.model ⟨e₂, QGPS.noSyms, QGPS.sumOut⟩).full : AmpSource 2 (Fin 4) Unit) U [((0, 1), t')] b := by
  obtain ⟨epsilon, h⟩ := C197_qgps e₁ e₂
  refine ⟨epsilon, fun a b => ?_⟩
  rw [← C197_hubbard U [((0, 1), t)] [((0, 1), t')] (by simp) (by simp)
    (.full (QGPS.model ⟨epsilon, QGPS.noSyms, QGPS.sumOut⟩).full : AmpSource (2 + 2) (Fin 4) Unit)
    (.full (QGPS.model ⟨e₁, QGPS.noSyms, QGPS.sumOut⟩).full : AmpSource 2 (Fin 4) Unit)
    (.full (QGPS.model ⟨e₂, QGPS.noSyms, QGPS.sumOut⟩).full : AmpSource 2 (Fin 4) Unit) a b 1 (fun a' b' _ _ => ?_) trivial trivial trivial]
  · rfl
  · show Complex.exp ((QGPS.model ⟨epsilon, QGPS.noSyms, QGPS.sumOut⟩).full (Fin.append a' b')) = _
    rw [h, Complex.exp_add, one_mul]
    rfl

/-- two pairs of spins with an exchange interaction, in product states of any kind -/
example (f g : (Fin 2 → ℤ) → ℂ) (O : Matrix (Fin 4) (Fin 4) ℂ) :
    J1J2.localEn (.full fun x => f (fun i => x (Fin.castAdd 2 i)) + g (fun i => x (Fin.natAdd 2 i)) : AmpSource (2 + 2) ℤ Unit)
        [((0, 1), O), ((2, 3), O)] (Fin.append ![1, -1] ![-1, 1]) =
      J1J2.localEn (.full f : AmpSource 2 ℤ Unit) [((0, 1), O)] ![1, -1] + J1J2.localEn (.full g : AmpSource 2 ℤ Unit) [((0, 1), O)] ![-1, 1] := by
  refine C197_spins [((0, 1), O)] [((0, 1), O)] (by simp) (by simp) _ _ _ _ _ 1 (fun a' b' => ?_) trivial trivial trivial
  simp only [AmpSource.logAmp, Fin.append_left, Fin.append_right, Complex.exp_add, one_mul]

/-- configurations with the electrons of the determinants -/
example : (numElec false (![1, 2] : Cfg 2) = 1 ∧ numElec true (![1, 2] : Cfg 2) = 1) ∧
    (numElec false (![3, 1] : Cfg 2) = 2 ∧ numElec true (![3, 1] : Cfg 2) = 1) := by decide

end GPSKet.SizeConsistency
