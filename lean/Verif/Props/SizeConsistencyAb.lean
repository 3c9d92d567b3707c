import Verif.Props.SizeConsistency
import Verif.Props.OrbitalSigns

/-! # Molecules that do not interact (C197) -/

namespace GPSKet.SizeConsistency

open GPSKet GPSKet.Spec Matrix

variable {m n : ℕ} {Cache CacheA CacheB : Type}

theorem applyHopping_put {k N : ℕ} (ι : Fin k → Fin N) (hι : StrictMono ι) (hconv : ∀ i a j, ι i < j → j < ι a → ∃ j', ι j' = j)
    (put : Cfg k → Cfg N) (hput : ∀ y i v, put (Function.update y i v) = Function.update (put y) (ι i) v) (hget : ∀ y i, put y (ι i) = y i)
    (y : Cfg k) (s : Bool) (i a : Fin k) :
    applyHopping (ι i) (ι a) (put y) (spinInt s) (some (cumsum (isOcc (put y) (spinInt s)))) =
      ((applyHopping i a y (spinInt s) (some (cumsum (isOcc y (spinInt s))))).1,
        put (applyHopping i a y (spinInt s) (some (cumsum (isOcc y (spinInt s))))).2) := by
  by_cases h : a = i
  · subst h
    unfold applyHopping
    simp only [hget, if_true]
    by_cases h0 : y a &&& spinInt s = 0
    · simp only [h0, if_true, ne_eq, not_true_eq_false, if_false]
    · simp only [h0, if_false, ne_eq, one_ne_zero, not_false_eq_true, if_true, hput, Function.update_self]
  · have h' : ι a ≠ ι i := fun e => h (hι.injective e)
    by_cases hv : hasSpin s (y i) = true ∧ hasSpin s (y a) = false
    · have hv' : hasSpin s (put y (ι i)) = true ∧ hasSpin s (put y (ι a)) = false := by rwa [hget, hget]
      rw [applyHopping_valid _ s h' hv'.1 hv'.2, applyHopping_valid _ s h hv.1 hv.2]
      have hmap : siteBetween (put y) s (ι a) (ι i) = (siteBetween y s a i).map ⟨ι, hι.injective⟩ := by
        ext j
        unfold siteBetween
        simp only [Finset.mem_filter, Finset.mem_univ, true_and, Finset.mem_map, Function.Embedding.coeFn_mk, ← hι.monotone.map_min,
          ← hι.monotone.map_max]
        constructor
        · rintro ⟨h1, h2, h3⟩
          obtain ⟨j', rfl⟩ := hconv _ _ j h1 h2
          rw [hget] at h3
          exact ⟨j', ⟨hι.lt_iff_lt.mp h1, hι.lt_iff_lt.mp h2, h3⟩, rfl⟩
        · rintro ⟨j', ⟨h1, h2, h3⟩, rfl⟩
          exact ⟨hι h1, hι h2, by rwa [hget]⟩
      rw [hmap, Finset.card_map, hput, hput, hget, hget]
    · have hv' : ¬ (hasSpin s (put y (ι i)) = true ∧ hasSpin s (put y (ι a)) = false) := by rwa [hget, hget]
      rw [applyHopping_invalid _ s h' hv', applyHopping_invalid _ s h hv]

theorem append_eq {α : Type} (a a' : Fin m → α) (b b' : Fin n → α) : Fin.append a b = Fin.append a' b' ↔ a = a' ∧ b = b' := by
  constructor
  · intro h
    refine ⟨funext fun i => ?_, funext fun i => ?_⟩
    · have := congrFun h (Fin.castAdd n i)
      rwa [Fin.append_left, Fin.append_left] at this
    · have := congrFun h (Fin.natAdd m i)
      rwa [Fin.append_right, Fin.append_right] at this
  · rintro ⟨rfl, rfl⟩; rfl

/-- an operator of the first subsystem as an operator of the whole -/
def LeftOf (X : Matrix (Occ (Mode m)) (Occ (Mode m)) ℤ) (Y : Matrix (Occ (Mode (m + n))) (Occ (Mode (m + n))) ℤ) : Prop :=
  ∀ (a a' : Cfg m) (b b' : Cfg n), Y (occOf (Fin.append a b)) (occOf (Fin.append a' b')) = if b = b' then X (occOf a) (occOf a') else 0

/-- an operator of the second subsystem as an operator of the whole -/
def RightOf (X : Matrix (Occ (Mode n)) (Occ (Mode n)) ℤ) (Y : Matrix (Occ (Mode (m + n))) (Occ (Mode (m + n))) ℤ) : Prop :=
  ∀ (a a' : Cfg m) (b b' : Cfg n), Y (occOf (Fin.append a b)) (occOf (Fin.append a' b')) = if a = a' then X (occOf b) (occOf b') else 0

theorem exc_left (p q : Fin m) : LeftOf (n := n) (exc p q) (exc (Fin.castAdd n p) (Fin.castAdd n q)) := by
  intro a a' b b'
  unfold exc
  rw [Matrix.sum_apply, Matrix.sum_apply]
  rw [show (if b = b' then ∑ s : Bool, (cre (mode s p) * ann (mode s q)) (occOf a) (occOf a') else 0) =
    ∑ s : Bool, if b = b' then (cre (mode s p) * ann (mode s q)) (occOf a) (occOf a') else 0 by split_ifs <;> simp]
  refine Finset.sum_congr rfl fun s _ => ?_
  rw [hop_mat, hop_mat]
  dsimp only
  rw [applyHopping_put (Fin.castAdd n) (Fin.strictMono_castAdd n) (fun i k j _ h2 => ⟨⟨j.val, by
    have h3 : j.val < k.val := h2
    omega⟩, Fin.ext rfl⟩) (fun y => Fin.append y b) (fun y i v => append_update_left y b i v) (fun y i => Fin.append_left y b i) a s p q]
  dsimp only
  simp only [append_eq]
  by_cases hb : b = b'
  · simp [hb]
  · simp [hb]

theorem exc_right (p q : Fin n) : RightOf (m := m) (exc p q) (exc (Fin.natAdd m p) (Fin.natAdd m q)) := by
  intro a a' b b'
  unfold exc
  rw [Matrix.sum_apply, Matrix.sum_apply]
  rw [show (if a = a' then ∑ s : Bool, (cre (mode s p) * ann (mode s q)) (occOf b) (occOf b') else 0) =
    ∑ s : Bool, if a = a' then (cre (mode s p) * ann (mode s q)) (occOf b) (occOf b') else 0 by split_ifs <;> simp]
  refine Finset.sum_congr rfl fun s _ => ?_
  rw [hop_mat, hop_mat]
  dsimp only
  rw [applyHopping_put (Fin.natAdd m) (Fin.strictMono_natAdd m) (fun i k j h1 _ => ⟨⟨j.val - m, by
    have := j.isLt
    have h3 : m + i.val < j.val := h1
    omega⟩, Fin.ext (by
    have h3 : m + i.val < j.val := h1
    show m + (j.val - m) = j.val
    omega)⟩) (fun y => Fin.append a y) (fun y i v => append_update_right a y i v) (fun y i => Fin.append_right a y i) b s p q]
  dsimp only
  simp only [append_eq]
  by_cases ha : a = a'
  · simp [ha]
  · simp [ha]

theorem sum_append {M : Type} [AddCommMonoid M] (f : Cfg (m + n) → M) : ∑ x, f x = ∑ a : Cfg m, ∑ b : Cfg n, f (Fin.append a b) := by
  rw [← Fintype.sum_prod_type' (f := fun a b => f (Fin.append a b))]
  exact (Equiv.sum_comp (Fin.appendEquiv m n) f).symm

theorem LeftOf.mul {X X' : Matrix (Occ (Mode m)) (Occ (Mode m)) ℤ} {Y Y' : Matrix (Occ (Mode (m + n))) (Occ (Mode (m + n))) ℤ} (h : LeftOf X Y)
    (h' : LeftOf X' Y') : LeftOf (X * X') (Y * Y') := by
  intro a a' b b'
  rw [Matrix.mul_apply, Matrix.mul_apply, sum_occ, sum_occ, sum_append]
  simp only [h _ _ _ _, h' _ _ _ _]
  by_cases hb : b = b'
  · subst hb
    rw [if_pos rfl]
    refine Finset.sum_congr rfl fun a'' _ => ?_
    rw [Finset.sum_eq_single b]
    · simp
    · intro b'' _ hne
      rw [if_neg (fun e => hne e.symm), zero_mul]
    · simp
  · rw [if_neg hb]
    refine Finset.sum_eq_zero fun a'' _ => Finset.sum_eq_zero fun b'' _ => ?_
    by_cases h1 : b = b''
    · rw [if_neg (fun e => hb (h1.trans e)), mul_zero]
    · rw [if_neg h1, zero_mul]

theorem RightOf.mul {X X' : Matrix (Occ (Mode n)) (Occ (Mode n)) ℤ} {Y Y' : Matrix (Occ (Mode (m + n))) (Occ (Mode (m + n))) ℤ} (h : RightOf X Y)
    (h' : RightOf X' Y') : RightOf (X * X') (Y * Y') := by
  intro a a' b b'
  rw [Matrix.mul_apply, Matrix.mul_apply, sum_occ, sum_occ, sum_append, Finset.sum_comm]
  simp only [h _ _ _ _, h' _ _ _ _]
  by_cases hb : a = a'
  · subst hb
    rw [if_pos rfl]
    refine Finset.sum_congr rfl fun b'' _ => ?_
    rw [Finset.sum_eq_single a]
    · simp
    · intro a'' _ hne
      rw [if_neg (fun e => hne e.symm), zero_mul]
    · simp
  · rw [if_neg hb]
    refine Finset.sum_eq_zero fun b'' _ => Finset.sum_eq_zero fun a'' _ => ?_
    by_cases h1 : a = a''
    · rw [if_neg (fun e => hb (h1.trans e)), mul_zero]
    · rw [if_neg h1, zero_mul]

/-- the two-electron integrals of two molecules -/
def bothTwo (eA : Fin m → Fin m → Fin m → Fin m → ℂ) (eB : Fin n → Fin n → Fin n → Fin n → ℂ) :
    Fin (m + n) → Fin (m + n) → Fin (m + n) → Fin (m + n) → ℂ := fun p q r s =>
  Fin.addCases (motive := fun _ => ℂ)
    (fun p => Fin.addCases (motive := fun _ => ℂ) (fun q => Fin.addCases (motive := fun _ => ℂ) (fun r => Fin.addCases (motive := fun _ => ℂ)
      (fun s => eA p q r s) (fun _ => 0) s) (fun _ => 0) r) (fun _ => 0) q)
    (fun p => Fin.addCases (motive := fun _ => ℂ) (fun _ => 0) (fun q => Fin.addCases (motive := fun _ => ℂ) (fun _ => 0)
      (fun r => Fin.addCases (motive := fun _ => ℂ) (fun _ => 0) (fun s => eB p q r s) s) r) q) p

theorem abInitio_append (hA : Fin m → Fin m → ℂ) (hB : Fin n → Fin n → ℂ) (eA : Fin m → Fin m → Fin m → Fin m → ℂ)
    (eB : Fin n → Fin n → Fin n → Fin n → ℂ) (a a' : Cfg m) (b b' : Cfg n) :
    abInitioTwice (blocks hA hB) (bothTwo eA eB) (occOf (Fin.append a b)) (occOf (Fin.append a' b')) =
      (if b = b' then abInitioTwice hA eA (occOf a) (occOf a') else 0) + if a = a' then abInitioTwice hB eB (occOf b) (occOf b') else 0 := by
  unfold abInitioTwice
  simp only [Matrix.add_apply, Matrix.sum_apply, Matrix.smul_apply, smul_eq_mul, toK_apply, Fin.sum_univ_add, blocks, bothTwo, Fin.addCases_left,
    Fin.addCases_right, mul_zero, zero_mul, Finset.sum_const_zero, add_zero, zero_add, Matrix.sub_apply]
  have l2 : ∀ p q r s : Fin m, (exc (Fin.castAdd n p) (Fin.castAdd n q) * exc (Fin.castAdd n r) (Fin.castAdd n s))
      (occOf (Fin.append a b)) (occOf (Fin.append a' b')) = if b = b' then (exc p q * exc r s) (occOf a) (occOf a') else 0 :=
    fun p q r s => (exc_left p q).mul (exc_left r s) a a' b b'
  have r2 : ∀ p q r s : Fin n, (exc (Fin.natAdd m p) (Fin.natAdd m q) * exc (Fin.natAdd m r) (Fin.natAdd m s))
      (occOf (Fin.append a b)) (occOf (Fin.append a' b')) = if a = a' then (exc p q * exc r s) (occOf b) (occOf b') else 0 :=
    fun p q r s => (exc_right p q).mul (exc_right r s) a a' b b'
  have l3 : ∀ p q r s : Fin m, (if Fin.castAdd n q = Fin.castAdd n r then exc (Fin.castAdd n p) (Fin.castAdd n s) else 0)
      (occOf (Fin.append a b)) (occOf (Fin.append a' b')) = if b = b' then (if q = r then exc p s else 0) (occOf a) (occOf a') else 0 := by
    intro p q r s
    by_cases h : q = r
    · rw [if_pos (by rw [h]), if_pos h]
      exact exc_left p s a a' b b'
    · rw [if_neg (fun e => h (Fin.castAdd_injective _ _ e)), if_neg h]
      simp
  have r3 : ∀ p q r s : Fin n, (if Fin.natAdd m q = Fin.natAdd m r then exc (Fin.natAdd m p) (Fin.natAdd m s) else 0)
      (occOf (Fin.append a b)) (occOf (Fin.append a' b')) = if a = a' then (if q = r then exc p s else 0) (occOf b) (occOf b') else 0 := by
    intro p q r s
    by_cases h : q = r
    · rw [if_pos (by rw [h]), if_pos h]
      exact exc_right p s a a' b b'
    · rw [if_neg (fun e => h (Fin.natAdd_injective _ _ e)), if_neg h]
      simp
  simp only [l2, r2, l3, r3, (exc_left _ _) a a' b b', (exc_right _ _) a a' b b']
  by_cases h1 : b = b' <;> by_cases h2 : a = a' <;> simp only [h1, h2, if_true, if_false, Int.cast_zero, sub_zero, mul_zero, Finset.sum_const_zero,
    add_zero, zero_add]
  ring

/-- local energies of product states for a sum of operators of the subsystems -/
theorem localEnergy_append (H : Cfg (m + n) → Cfg (m + n) → ℂ) (HA : Cfg m → Cfg m → ℂ) (HB : Cfg n → Cfg n → ℂ)
    (f : Cfg (m + n) → ℂ) (fA : Cfg m → ℂ) (fB : Cfg n → ℂ) (χ : ℂ) (a : Cfg m) (b : Cfg n)
    (hH : ∀ a' b', H (Fin.append a b) (Fin.append a' b') = (if b = b' then HA a a' else 0) + if a = a' then HB b b' else 0)
    (hA : ∀ a', HA a a' ≠ 0 ∨ a' = a → Complex.exp (f (Fin.append a' b)) = χ * (Complex.exp (fA a') * Complex.exp (fB b)))
    (hB : ∀ b', HB b b' ≠ 0 ∨ b' = b → Complex.exp (f (Fin.append a b')) = χ * (Complex.exp (fA a) * Complex.exp (fB b'))) :
    localEnergy (H (Fin.append a b)) f (Fin.append a b) = localEnergy (HA a) fA a + localEnergy (HB b) fB b := by
  unfold localEnergy
  rw [sum_append]
  have h0 := hA a (.inr rfl)
  have hχ : χ ≠ 0 := fun e => Complex.exp_ne_zero (f (Fin.append a b)) (by rw [h0, e, zero_mul])
  have ha := Complex.exp_ne_zero (fA a)
  have hb := Complex.exp_ne_zero (fB b)
  simp only [hH, add_mul, Finset.sum_add_distrib]
  congr 1
  · refine Finset.sum_congr rfl fun a' _ => ?_
    rw [Finset.sum_eq_single b]
    · rw [if_pos rfl]
      by_cases hz : HA a a' = 0
      · rw [hz, zero_mul, zero_mul]
      · rw [hA a' (.inl hz), h0]
        field_simp
    · intro b' _ hne
      rw [if_neg (fun e => hne e.symm), zero_mul]
    · simp
  · rw [Finset.sum_comm]
    refine Finset.sum_congr rfl fun b' _ => ?_
    rw [Finset.sum_eq_single a]
    · rw [if_pos rfl]
      by_cases hz : HB b b' = 0
      · rw [hz, zero_mul, zero_mul]
      · rw [hB b' (.inl hz), h0]
        field_simp
    · intro a' _ hne
      rw [if_neg (fun e => hne e.symm), zero_mul]
    · simp

/-- **C197**, molecules: the local energies (dense and sparse) of two molecules without integrals between them are the sums of those of the
molecules, for states that are products. -/
theorem C197_molecules (hA : Fin m → Fin m → ℂ) (hB : Fin n → Fin n → ℂ) (eA : Fin m → Fin m → Fin m → Fin m → ℂ)
    (eB : Fin n → Fin n → Fin n → Fin n → ℂ) (sA : ∀ p q r s, eA p q r s = eA r s p q) (sB : ∀ p q r s, eB p q r s = eB r s p q)
    (src : AmpSource (m + n) (Fin 4) Cache) (srcA : AmpSource m (Fin 4) CacheA) (srcB : AmpSource n (Fin 4) CacheB) (a : Cfg m) (b : Cfg n) (χ : ℂ)
    (hpsi : ∀ a' b', (∀ s, numElec s a' = numElec s a) → (∀ s, numElec s b' = numElec s b) →
      Complex.exp (src.logAmp (Fin.append a' b')) = χ * (Complex.exp (srcA.logAmp a') * Complex.exp (srcB.logAmp b')))
    (hs : src.OkPaddedAt (Fin.append a b)) (hsA : srcA.OkPaddedAt a) (hsB : srcB.OkPaddedAt b) :
    abLocalEn src (numElec false a + numElec false b, numElec true a + numElec true b) (abT (blocks hA hB) (bothTwo eA eB)) (bothTwo eA eB) (Fin.append a b) =
      abLocalEn srcA (numElec false a, numElec true a) (abT hA eA) eA a + abLocalEn srcB (numElec false b, numElec true b) (abT hB eB) eB b ∧
    sparseLocalEn src (numElec false a + numElec false b, numElec true a + numElec true b) (sparse1 (blocks hA hB)) (sparse2 (bothTwo eA eB)) (Fin.append a b) =
      sparseLocalEn srcA (numElec false a, numElec true a) (sparse1 hA) (sparse2 eA) a +
        sparseLocalEn srcB (numElec false b, numElec true b) (sparse1 hB) (sparse2 eB) b := by
  have hsym : ∀ p q r s, bothTwo eA eB p q r s = bothTwo eA eB r s p q := by
    intro p q r s
    unfold bothTwo
    refine Fin.addCases (fun p => ?_) (fun p => ?_) p <;> refine Fin.addCases (fun q => ?_) (fun q => ?_) q <;>
      refine Fin.addCases (fun r => ?_) (fun r => ?_) r <;> refine Fin.addCases (fun s => ?_) (fun s => ?_) s <;>
      simp only [Fin.addCases_left, Fin.addCases_right]
    · exact sA p q r s
    · exact sB p q r s
  have h1 := C14_local_energy_operator src (blocks hA hB) _ hsym (Fin.append a b) hs
  have h2 := C16_local_energy_operator src (blocks hA hB) _ hsym (Fin.append a b) hs
  rw [numElec_append, numElec_append] at h1 h2
  rw [h1, h2, C14_local_energy_operator srcA hA eA sA a hsA, C16_local_energy_operator srcA hA eA sA a hsA,
    C14_local_energy_operator srcB hB eB sB b hsB, C16_local_energy_operator srcB hB eB sB b hsB, and_self]
  refine localEnergy_append (fun x y => (1 / 2) * abInitioTwice (blocks hA hB) (bothTwo eA eB) (occOf x) (occOf y))
    (fun x y => (1 / 2) * abInitioTwice hA eA (occOf x) (occOf y)) (fun x y => (1 / 2) * abInitioTwice hB eB (occOf x) (occOf y))
    src.logAmp srcA.logAmp srcB.logAmp χ a b (fun a' b' => ?_)
    (fun a' h => hpsi a' b (OrbitalSigns.abInitio_conserves hA eA sA a a' h) fun _ => rfl)
    (fun b' h => hpsi a b' (fun _ => rfl) (OrbitalSigns.abInitio_conserves hB eB sB b b' h))
  rw [abInitio_append]
  split_ifs <;> ring

/-- two molecules with one orbital each, one doubly occupied and one with a single electron, in any product state -/
example (fA fB : Cfg 1 → ℂ) (h e : ℂ) :
    abLocalEn (.full fun x => fA (fun i => x (Fin.castAdd 1 i)) + fB (fun i => x (Fin.natAdd 1 i)) : AmpSource (1 + 1) (Fin 4) Unit)
        (1 + 1, 1 + 0) (abT (blocks (fun _ _ => h) (fun _ _ => h)) (bothTwo (fun _ _ _ _ => e) (fun _ _ _ _ => e)))
        (bothTwo (fun _ _ _ _ => e) (fun _ _ _ _ => e)) (Fin.append ![3] ![1]) =
      abLocalEn (.full fA : AmpSource 1 (Fin 4) Unit) (1, 1) (abT (fun _ _ => h) (fun _ _ _ _ => e)) (fun _ _ _ _ => e) ![3] +
      abLocalEn (.full fB : AmpSource 1 (Fin 4) Unit) (1, 0) (abT (fun _ _ => h) (fun _ _ _ _ => e)) (fun _ _ _ _ => e) ![1] :=
  (C197_molecules (fun _ _ => h) (fun _ _ => h) (fun _ _ _ _ => e) (fun _ _ _ _ => e) (fun _ _ _ _ => rfl) (fun _ _ _ _ => rfl)
    (.full fun x => fA (fun i => x (Fin.castAdd 1 i)) + fB (fun i => x (Fin.natAdd 1 i)) : AmpSource (1 + 1) (Fin 4) Unit)
    (.full fA : AmpSource 1 (Fin 4) Unit) (.full fB : AmpSource 1 (Fin 4) Unit) ![3] ![1] 1
    (fun a' b' _ _ => by simp only [AmpSource.logAmp, Fin.append_left, Fin.append_right, Complex.exp_add, one_mul]) trivial trivial trivial).1

end GPSKet.SizeConsistency
