import Verif.Props.Rdms
import Verif.Lemmas.Sector

/-!
# C93, C94: averages of the local reduced density matrices, and the arrays the script saves
-/

namespace GPSKet.Rdms

open Spec

variable {L : ℕ} {Cache : Type}

theorem comm_pair (p q r s : Fin L) (σ : Bool) :
    numTot σ * (exc p q * exc r s + exc r s * exc p q) = (exc p q * exc r s + exc r s * exc p q) * numTot σ := by
  rw [mul_add, add_mul, numTot_mul (numTot_exc σ p q) (numTot_exc σ r s), numTot_mul (numTot_exc σ r s) (numTot_exc σ p q)]

theorem expect_add (A B : Op L) (psi : Cfg L → ℂ) : expect (A + B) psi = expect A psi + expect B psi := by
  unfold expect braket
  rw [← add_div, ← Finset.sum_add_distrib]
  congr 1
  refine Finset.sum_congr rfl fun x _ => ?_
  rw [← Finset.sum_add_distrib]
  refine Finset.sum_congr rfl fun x' _ => ?_
  rw [Matrix.add_apply]; push_cast; ring

/-- The average over `|ψ|²` in a sector of a function of the configuration. -/
noncomputable def avg (logpsi : Cfg L → ℂ) (n : ℕ × ℕ) (f : Cfg L → ℂ) : ℂ :=
  ∑ x, star (sectorState logpsi n x) * sectorState logpsi n x / normSq (sectorState logpsi n) * f x

theorem avg_local {A : Op L} (hA : ∀ s, numTot s * A = A * numTot s) (logpsi : Cfg L → ℂ) (n : ℕ × ℕ) :
    avg logpsi n (fun x => localEnergy (fun x' => (A (occOf x) (occOf x') : ℂ)) logpsi x) = expect A (sectorState logpsi n) := by
  unfold avg expect
  rw [← sum_local hA, Finset.sum_div]
  refine Finset.sum_congr rfl fun x _ => ?_
  ring

theorem avg_congr (logpsi : Cfg L → ℂ) (n : ℕ × ℕ) {f g : Cfg L → ℂ}
    (h : ∀ x, (numElec false x, numElec true x) = n → f x = g x) : avg logpsi n f = avg logpsi n g := by
  unfold avg
  refine Finset.sum_congr rfl fun x _ => ?_
  by_cases hx : (numElec false x, numElec true x) = n
  · rw [h x hx]
  · have : sectorState logpsi n x = 0 := if_neg hx
    rw [this]; simp

/-- **C93**: averaged over `|ψ|²` the one-body array is the one-body density matrix, for every wave function. -/
theorem C93_mean_one (src : AmpSource L (Fin 4) Cache) (n : ℕ × ℕ)
    (hs : ∀ x, (numElec false x, numElec true x) = n → src.OkPaddedAt x) (p q : Fin L) :
    avg src.logAmp n (fun x => (abLocalRDMs src n x).1 (p, q)) = expect (exc p q) (sectorState src.logAmp n) := by
  rw [← avg_local (fun s => numTot_exc s p q)]
  refine avg_congr _ _ fun x hx => ?_
  have := C93_one src x (hs x hx) p q
  rwa [hx] at this

/-- **C93**: averaged over `|ψ|²` the symmetrised two-body array is `½ ⟨E_pq E_rs + E_rs E_pq⟩`. -/
theorem C93_mean_two (src : AmpSource L (Fin 4) Cache) (n : ℕ × ℕ)
    (hs : ∀ x, (numElec false x, numElec true x) = n → src.OkPaddedAt x) (p q r s : Fin L) :
    avg src.logAmp n (fun x => (abLocalRDMs src n x).2 (p, q, r, s)) + avg src.logAmp n (fun x => (abLocalRDMs src n x).2 (r, s, p, q))
      = 1 / 2 * (expect (exc p q * exc r s) (sectorState src.logAmp n) + expect (exc r s * exc p q) (sectorState src.logAmp n)) := by
  rw [← expect_add, ← avg_local (fun σ => comm_pair p q r s σ)]
  unfold avg
  rw [← Finset.sum_add_distrib, Finset.mul_sum]
  refine Finset.sum_congr rfl fun x _ => ?_
  by_cases hx : (numElec false x, numElec true x) = n
  · have h := C93_two src x (hs x hx) p q r s
    rw [hx] at h
    rw [← mul_add, h]
    unfold localEnergy
    simp only [Finset.mul_sum]
    refine Finset.sum_congr rfl fun x' _ => ?_
    ring
  · have : sectorState src.logAmp n x = 0 := if_neg hx
    rw [this]; simp

/-! ## The script -/

theorem foldl_sum1 (f : ℕ → Arr1 L) (m : ℕ) (p q : Fin L) :
    ((List.range m).foldl (fun acc i => fun p q => acc p q + f i p q) (fun _ _ => 0) : Arr1 L) p q = ∑ i ∈ Finset.range m, f i p q := by
  induction m with
  | zero => rfl
  | succ m ih => rw [List.range_succ, List.foldl_append, List.foldl_cons, List.foldl_nil, ih, Finset.sum_range_succ]

theorem foldl_sum2 (f : ℕ → Arr2 L) (m : ℕ) (p q r s : Fin L) :
    ((List.range m).foldl (fun acc i => fun p q r s => acc p q r s + f i p q r s) (fun _ _ _ _ => 0) : Arr2 L) p q r s
      = ∑ i ∈ Finset.range m, f i p q r s := by
  induction m with
  | zero => rfl
  | succ m ih => rw [List.range_succ, List.foldl_append, List.foldl_cons, List.foldl_nil, ih, Finset.sum_range_succ]

theorem sum_range_map (f : ℕ → ℂ) (m : ℕ) : ((List.range m).map f).sum = ∑ k ∈ Finset.range m, f k := by
  induction m with
  | zero => rfl
  | succ m ih => rw [List.range_succ, List.map_append, List.sum_append, ih, Finset.sum_range_succ]; simp

theorem reorder_eq (rdm1 : Arr1 L) (rdm2 : Arr2 L) (p q r s : Fin L) :
    reorder rdm1 rdm2 p q r s = 2 * rdm2 p q r s - if q = r then rdm1 s p else 0 := by
  unfold reorder
  by_cases h : q = r
  · subst h
    rw [if_pos rfl]
    have : ∀ (l : List (Fin L)) (v : ℂ), l.Nodup → l.foldl (fun v k => if q = k ∧ q = k then v - rdm1 s p else v) v
        = if q ∈ l then v - rdm1 s p else v := by
      intro l
      induction l with
      | nil => intro v _; simp
      | cons k l ih =>
        intro v hl
        rw [List.foldl_cons, ih _ (List.nodup_cons.mp hl).2]
        by_cases hk : q = k
        · subst hk
          simp [(List.nodup_cons.mp hl).1]
        · simp [hk]
    rw [this _ _ (List.nodup_finRange L), if_pos (List.mem_finRange q)]
  · rw [if_neg h, sub_zero]
    have : ∀ (l : List (Fin L)) (v : ℂ), l.foldl (fun v k => if q = k ∧ r = k then v - rdm1 s p else v) v = v := by
      intro l
      induction l with
      | nil => intro v; rfl
      | cons k l ih =>
        intro v
        rw [List.foldl_cons, ih, if_neg]
        rintro ⟨h1, h2⟩
        exact h (h1.trans h2.symm)
    rw [this]

/-- The saved arrays in closed form. -/
theorem saved_eq (src : AmpSource L (Fin 4) Cache) (n : ℕ × ℕ) (c : Setup) (samples : ℕ → ℕ → Cfg L) {m : ℕ} (hm : nChunks c = some m) :
    savedRDMs src n c samples = some
      ((fun p q => (∑ i ∈ Finset.range m, ∑ k ∈ Finset.range (drawn c), (abLocalRDMs src n (samples i k)).1 (p, q)) / c.nSamples),
       (fun p q r s => 2 * ((∑ i ∈ Finset.range m, ∑ k ∈ Finset.range (drawn c),
            (abLocalRDMs src n (samples i k)).2 (p, q, r, s)) / c.nSamples)
          - if q = r then (∑ i ∈ Finset.range m, ∑ k ∈ Finset.range (drawn c), (abLocalRDMs src n (samples i k)).1 (s, p)) / c.nSamples
            else 0)) := by
  unfold savedRDMs
  rw [hm]
  simp only [Option.some.injEq, Prod.mk.injEq]
  constructor
  · funext p q
    rw [foldl_sum1 (fun i p q => ((List.range (drawn c)).map fun k => (abLocalRDMs src n (samples i k)).1 (p, q)).sum)]
    simp only [sum_range_map]
  · funext p q r s
    rw [reorder_eq, foldl_sum1 (fun i p q => ((List.range (drawn c)).map fun k => (abLocalRDMs src n (samples i k)).1 (p, q)).sum),
      foldl_sum2 (fun i p q r s => ((List.range (drawn c)).map fun k => (abLocalRDMs src n (samples i k)).2 (p, q, r, s)).sum)]
    simp only [sum_range_map]

/-- the numbers of samples: the script divides by `n_samples = nodes * chunk_size * n_chunks` -/
theorem nSamples_eq {c : Setup} {m : ℕ} (hm : nChunks c = some m) : c.nSamples = c.nodes * (c.chunkSize * m) ∧ c.chunkSize ≠ 0 := by
  unfold nChunks at hm
  split at hm
  · cases hm
  · rename_i h1
    split at hm
    · cases hm
    · rename_i h2
      split at hm
      · cases hm
      · rename_i h3
        push Not at h1 h3
        rw [← Option.some.inj hm, Nat.mul_div_cancel' (Nat.dvd_of_mod_eq_zero h3), Nat.mul_div_cancel' (Nat.dvd_of_mod_eq_zero h1)]
        exact ⟨rfl, h2⟩

/-- The samples drawn in all chunks. -/
def total (c : Setup) (m : ℕ) : ℕ := m * drawn c

theorem drawn_of_dvd {c : Setup} (hn : 0 < c.nodes) (hc : 0 < c.chains) (hd : c.nodes * c.chains ∣ c.chunkSize) : drawn c = c.chunkSize := by
  unfold drawn
  obtain ⟨k, hk⟩ := hd
  have hp : 0 < c.nodes * c.chains := Nat.mul_pos hn hc
  rw [hk]
  congr 1
  have : c.nodes * c.chains * k + c.nodes * c.chains - 1 = (c.nodes * c.chains - 1) + c.nodes * c.chains * k := by omega
  rw [this, Nat.add_mul_div_left _ _ hp, Nat.div_eq_of_lt (by omega), zero_add]

/-- The samples are drawn from `|ψ|²` in the sector: in every chunk, every sample has this distribution (the samples need not be
independent).  `w` are the probabilities of the histories `ω`. -/
def Drawn {Ω : Type} [Fintype Ω] (w : Ω → ℝ) (samples : Ω → ℕ → ℕ → Cfg L) (c : Setup) (m : ℕ) (psi : Cfg L → ℂ) : Prop :=
  ∀ i < m, ∀ k < drawn c, ∀ x, (∑ ω with samples ω i k = x, (w ω : ℂ)) = star (psi x) * psi x / normSq psi

theorem mean_sample {Ω : Type} [Fintype Ω] (w : Ω → ℝ) (samples : Ω → ℕ → ℕ → Cfg L) (c : Setup) (m : ℕ) (logpsi : Cfg L → ℂ)
    (n : ℕ × ℕ) (hd : Drawn w samples c m (sectorState logpsi n)) (f : Cfg L → ℂ) {i k : ℕ} (hi : i < m) (hk : k < drawn c) :
    (∑ ω, (w ω : ℂ) * f (samples ω i k)) = avg logpsi n f := by
  unfold avg
  rw [← Finset.sum_fiberwise (s := Finset.univ) (g := fun ω => samples ω i k)]
  refine Finset.sum_congr rfl fun x _ => ?_
  rw [← hd i hi k hk x, Finset.sum_mul]
  refine Finset.sum_congr rfl fun ω hω => ?_
  rw [(Finset.mem_filter.mp hω).2]

/-- The expectation of a sum over all samples. -/
theorem mean_total {Ω : Type} [Fintype Ω] (w : Ω → ℝ) (samples : Ω → ℕ → ℕ → Cfg L) (c : Setup) (m : ℕ) (logpsi : Cfg L → ℂ)
    (n : ℕ × ℕ) (hd : Drawn w samples c m (sectorState logpsi n)) (f : Cfg L → ℂ) :
    (∑ ω, (w ω : ℂ) * ∑ i ∈ Finset.range m, ∑ k ∈ Finset.range (drawn c), f (samples ω i k)) = (total c m : ℂ) * avg logpsi n f := by
  simp only [Finset.mul_sum]
  rw [Finset.sum_comm]
  have h : ∀ i ∈ Finset.range m, (∑ ω, ∑ k ∈ Finset.range (drawn c), (w ω : ℂ) * f (samples ω i k)) = (drawn c : ℂ) * avg logpsi n f := by
    intro i hi
    rw [Finset.sum_comm, Finset.sum_congr rfl fun k hk =>
      mean_sample w samples c m logpsi n hd f (Finset.mem_range.mp hi) (Finset.mem_range.mp hk)]
    rw [Finset.sum_const, Finset.card_range, nsmul_eq_mul]
  rw [Finset.sum_congr rfl h, Finset.sum_const, Finset.card_range, nsmul_eq_mul, total]
  push_cast; ring

/-- The saved array of a history. -/
noncomputable def saved1 {Ω : Type} (src : AmpSource L (Fin 4) Cache) (n : ℕ × ℕ) (c : Setup) (samples : Ω → ℕ → ℕ → Cfg L) (ω : Ω) : Arr1 L :=
  ((savedRDMs src n c (samples ω)).getD (fun _ _ => 0, fun _ _ _ _ => 0)).1

noncomputable def saved2 {Ω : Type} (src : AmpSource L (Fin 4) Cache) (n : ℕ × ℕ) (c : Setup) (samples : Ω → ℕ → ℕ → Cfg L) (ω : Ω) : Arr2 L :=
  ((savedRDMs src n c (samples ω)).getD (fun _ _ => 0, fun _ _ _ _ => 0)).2

/-- **C94**: the expectation of the saved one-body array is the one-body density matrix times the ratio of the number of samples that
were drawn and the number the script divides by. -/
theorem C94_mean_one {Ω : Type} [Fintype Ω] (w : Ω → ℝ) (samples : Ω → ℕ → ℕ → Cfg L) (src : AmpSource L (Fin 4) Cache) (n : ℕ × ℕ)
    (hs : ∀ x, (numElec false x, numElec true x) = n → src.OkPaddedAt x) (c : Setup) (m : ℕ) (hm : nChunks c = some m)
    (hd : Drawn w samples c m (sectorState src.logAmp n)) (p q : Fin L) :
    (∑ ω, (w ω : ℂ) * saved1 src n c samples ω p q)
      = (total c m : ℂ) / (c.nSamples : ℂ) * expect (exc p q) (sectorState src.logAmp n) := by
  simp only [saved1, saved_eq src n c _ hm, Option.getD_some]
  rw [← C93_mean_one src n hs, div_mul_eq_mul_div, ← mean_total w samples c m src.logAmp n hd, Finset.sum_div]
  exact Finset.sum_congr rfl fun ω _ => (mul_div_assoc _ _ _).symm

theorem mean_two {Ω : Type} [Fintype Ω] (w : Ω → ℝ) (samples : Ω → ℕ → ℕ → Cfg L) (src : AmpSource L (Fin 4) Cache) (n : ℕ × ℕ)
    (hs : ∀ x, (numElec false x, numElec true x) = n → src.OkPaddedAt x) (c : Setup) (m : ℕ) (hm : nChunks c = some m)
    (hd : Drawn w samples c m (sectorState src.logAmp n)) (p q r s : Fin L) :
    (∑ ω, (w ω : ℂ) * saved2 src n c samples ω p q r s)
      = (total c m : ℂ) / (c.nSamples : ℂ) * (2 * avg src.logAmp n (fun x => (abLocalRDMs src n x).2 (p, q, r, s))
          - if q = r then expect (exc s p) (sectorState src.logAmp n) else 0) := by
  simp only [saved2, saved_eq src n c _ hm, Option.getD_some]
  rw [← C93_mean_one src n hs, mul_sub]
  simp only [mul_sub, Finset.sum_sub_distrib]
  congr 1
  · rw [show (total c m : ℂ) / (c.nSamples : ℂ) * (2 * avg src.logAmp n (fun x => (abLocalRDMs src n x).2 (p, q, r, s)))
      = 2 / (c.nSamples : ℂ) * ((total c m : ℂ) * avg src.logAmp n (fun x => (abLocalRDMs src n x).2 (p, q, r, s))) by ring,
      ← mean_total w samples c m src.logAmp n hd, Finset.mul_sum]
    exact Finset.sum_congr rfl fun ω _ => by ring
  · by_cases h : q = r
    · simp only [if_pos h]
      rw [div_mul_eq_mul_div, ← mean_total w samples c m src.logAmp n hd, Finset.sum_div]
      exact Finset.sum_congr rfl fun ω _ => (mul_div_assoc _ _ _).symm
    · simp [if_neg h]

theorem expect_sub_ite (A B : Op L) (P : Prop) [Decidable P] (psi : Cfg L → ℂ) :
    expect (A - if P then B else 0) psi = expect A psi - if P then expect B psi else 0 := by
  have h : expect A psi = expect (A - if P then B else 0) psi + expect (if P then B else 0) psi := by
    rw [← expect_add, sub_add_cancel]
  have h0 : expect (0 : Op L) psi = 0 := by simp [expect, braket]
  by_cases hP : P
  · simp only [if_pos hP] at h ⊢; rw [h]; ring
  · simp only [if_neg hP] at h ⊢; rw [h, h0]; ring

/-- For real amplitudes the one-body density matrix is symmetric. -/
theorem expect_exc_symm (psi : Cfg L → ℂ) (hr : ∀ x, (psi x).im = 0) (p q : Fin L) : expect (exc p q) psi = expect (exc q p) psi := by
  suffices h : braket (exc p q) psi = braket (exc q p) psi by unfold expect; rw [h]
  unfold braket
  refine Finset.sum_comm.trans ?_
  have hstar : ∀ x, star (psi x) = psi x := fun x => Complex.conj_eq_iff_im.mpr (hr x)
  refine Finset.sum_congr rfl fun x _ => Finset.sum_congr rfl fun x' _ => ?_
  have ht : (exc p q : Op L) (occOf x') (occOf x) = (exc q p : Op L) (occOf x) (occOf x') := by
    have : (exc p q : Op L).transpose = exc q p := by
      unfold exc
      rw [Matrix.transpose_sum]
      exact Finset.sum_congr rfl fun σ _ => cre_mul_ann_transpose _ _
    rw [← this]; rfl
  rw [ht, hstar, hstar]; ring

theorem combine (F : ℂ) {a b ea eb d1 d2 : ℂ} (h : a + b = 1 / 2 * (ea + eb)) :
    (F * (2 * a - d1) + F * (2 * b - d2)) / 2 = F * ((ea - d1 + (eb - d2)) / 2) := by
  linear_combination F * h

/-- **C94**: on one rank, with a chunk size that is a multiple of the number of chains, the factor is one. -/
theorem factor_one {c : Setup} {m : ℕ} (hm : nChunks c = some m) (h1 : c.nodes = 1) (hc : 0 < c.chains) (hd : c.chains ∣ c.chunkSize)
    (hn : c.nSamples ≠ 0) : (total c m : ℂ) / (c.nSamples : ℂ) = 1 := by
  have h2 : total c m = c.nSamples := by
    rw [total, drawn_of_dvd (by omega) hc (by rw [h1, one_mul]; exact hd), (nSamples_eq hm).1, h1, one_mul, mul_comm]
  rw [h2]
  exact div_self (Nat.cast_ne_zero.mpr hn)

/-- On `nodes` ranks, with a chunk size that is a multiple of the total number of chains, the factor is `1 / nodes`. -/
theorem factor_nodes {c : Setup} {m : ℕ} (hm : nChunks c = some m) (hc : 0 < c.chains) (hd : c.nodes * c.chains ∣ c.chunkSize)
    (hn : c.nSamples ≠ 0) : (total c m : ℂ) / (c.nSamples : ℂ) = 1 / c.nodes := by
  obtain ⟨h1, h2⟩ := nSamples_eq hm
  have h0 : c.nodes ≠ 0 := by rintro h; rw [h, zero_mul] at h1; exact hn h1
  have hm0 : m ≠ 0 := by rintro h; rw [h, mul_zero, mul_zero] at h1; exact hn h1
  rw [total, drawn_of_dvd (Nat.pos_of_ne_zero h0) hc hd, h1]
  have h3 : (c.nodes : ℂ) ≠ 0 := Nat.cast_ne_zero.mpr h0
  have h4 : (c.chunkSize : ℂ) ≠ 0 := Nat.cast_ne_zero.mpr h2
  have h5 : (m : ℂ) ≠ 0 := Nat.cast_ne_zero.mpr hm0
  push_cast
  field_simp

/-- **C94**: the expectation of the symmetrised saved two-body array, for every wave function: up to the same factor it is the two-body
density matrix `⟨Σ c†_p c†_r c_s c_q⟩`, plus an error from the transposition in `rdm2[:, k, k, :] -= rdm1.T`. -/
theorem C94_mean_two {Ω : Type} [Fintype Ω] (w : Ω → ℝ) (samples : Ω → ℕ → ℕ → Cfg L) (src : AmpSource L (Fin 4) Cache) (n : ℕ × ℕ)
    (hs : ∀ x, (numElec false x, numElec true x) = n → src.OkPaddedAt x) (c : Setup) (m : ℕ) (hm : nChunks c = some m)
    (psi : Cfg L → ℂ) (hpsi : psi = sectorState src.logAmp n) (hd : Drawn w samples c m psi) (p q r s : Fin L) :
    (∑ ω, (w ω : ℂ) * ((saved2 src n c samples ω p q r s + saved2 src n c samples ω r s p q) / 2))
      = (total c m : ℂ) / (c.nSamples : ℂ) * (expect (pairOp p q r s) psi
          + 1 / 2 * ((if q = r then expect (exc p s) psi - expect (exc s p) psi else 0)
            + if s = p then expect (exc r q) psi - expect (exc q r) psi else 0)) := by
  subst hpsi
  have h1 : pairOp p q r s = pairOp r s p q := by
    unfold pairOp
    rw [Finset.sum_comm]
    refine Finset.sum_congr rfl fun σ _ => Finset.sum_congr rfl fun τ _ => ?_
    have e1 : ∀ a b d f : Mode L, cre a * cre b * ann d * ann f = (cre a * cre b) * (ann d * ann f) := by intros; noncomm_ring
    rw [e1, e1, cre_anti, ann_anti (mode σ s)]; noncomm_ring
  have h2 : expect (pairOp p q r s) (sectorState src.logAmp n)
      = (expect (pairOp p q r s) (sectorState src.logAmp n) + expect (pairOp r s p q) (sectorState src.logAmp n)) / 2 := by
    rw [← h1]; ring
  rw [h2, pairOp_eq, pairOp_eq, expect_sub_ite, expect_sub_ite]
  have h3 := C93_mean_two src n hs p q r s
  have h4 := mean_two w samples src n hs c m hm hd p q r s
  have h5 := mean_two w samples src n hs c m hm hd r s p q
  have h6 : (∑ ω, (w ω : ℂ) * ((saved2 src n c samples ω p q r s + saved2 src n c samples ω r s p q) / 2))
      = ((∑ ω, (w ω : ℂ) * saved2 src n c samples ω p q r s) + ∑ ω, (w ω : ℂ) * saved2 src n c samples ω r s p q) / 2 := by
    rw [← Finset.sum_add_distrib, Finset.sum_div]
    exact Finset.sum_congr rfl fun ω _ => by ring
  rw [h6, h4, h5, combine _ h3]
  by_cases ha : q = r
  · by_cases hb : s = p
    · simp only [if_pos ha, if_pos hb]; ring
    · simp only [if_pos ha, if_neg hb]; ring
  · by_cases hb : s = p
    · simp only [if_neg ha, if_pos hb]; ring
    · simp only [if_neg ha, if_neg hb]; ring

/-- **C94** on one rank, for real amplitudes and a chunk size that is a multiple of the number of chains: the saved one-body array and
the symmetrised saved two-body array are unbiased estimates of the density matrices.  (Missing: several ranks, complex amplitudes, and the
single entries of the two-body array; see the `_fails` theorems.) -/
theorem C94_partial {Ω : Type} [Fintype Ω] (w : Ω → ℝ) (samples : Ω → ℕ → ℕ → Cfg L) (src : AmpSource L (Fin 4) Cache) (n : ℕ × ℕ)
    (hs : ∀ x, (numElec false x, numElec true x) = n → src.OkPaddedAt x) (c : Setup) (m : ℕ) (hm : nChunks c = some m)
    (psi : Cfg L → ℂ) (hpsi : psi = sectorState src.logAmp n) (hd : Drawn w samples c m psi) (hr : ∀ x, (psi x).im = 0)
    (h1 : c.nodes = 1) (hc : 0 < c.chains) (hdv : c.chains ∣ c.chunkSize) (hn : c.nSamples ≠ 0) (p q r s : Fin L) :
    (∑ ω, (w ω : ℂ) * saved1 src n c samples ω p q) = expect (exc p q) psi ∧
    (∑ ω, (w ω : ℂ) * ((saved2 src n c samples ω p q r s + saved2 src n c samples ω r s p q) / 2)) = expect (pairOp p q r s) psi := by
  have hf := factor_one hm h1 hc hdv hn
  constructor
  · have := C94_mean_one w samples src n hs c m hm (hpsi ▸ hd) p q
    rw [this, hf, one_mul, hpsi]
  · rw [C94_mean_two w samples src n hs c m hm psi hpsi hd p q r s, hf, one_mul, expect_exc_symm psi hr p s, expect_exc_symm psi hr r q]
    simp

/-! ### Traces, for every set of samples -/

theorem localEnergy_diag (A : Op L) (v : ℤ) (logpsi : Cfg L → ℂ) (x : Cfg L) (h : ∀ x', A (occOf x) (occOf x') = if x = x' then v else 0) :
    localEnergy (fun x' => (A (occOf x) (occOf x') : ℂ)) logpsi x = v := by
  unfold localEnergy
  rw [Finset.sum_eq_single x]
  · simp only [h, if_true]
    rw [div_self (Complex.exp_ne_zero _), mul_one]
  · intro b _ hb
    simp only [h, if_neg (Ne.symm hb), Int.cast_zero, zero_mul]
  · simp

theorem localEnergy_sum {α : Type} (t : Finset α) (A : α → Op L) (logpsi : Cfg L → ℂ) (x : Cfg L) :
    (∑ k ∈ t, localEnergy (fun x' => (A k (occOf x) (occOf x') : ℂ)) logpsi x)
      = localEnergy (fun x' => ((∑ k ∈ t, A k) (occOf x) (occOf x') : ℂ)) logpsi x := by
  unfold localEnergy
  rw [Finset.sum_comm]
  refine Finset.sum_congr rfl fun x' _ => ?_
  simp only [Matrix.sum_apply, Int.cast_sum, Finset.sum_mul]

theorem sum_exc : (∑ p, exc p p : Op L) = numTot false + numTot true := by
  unfold exc numTot
  rw [Finset.sum_comm, Fintype.sum_bool, add_comm]

theorem sum_exc_apply (x x' : Cfg L) :
    (∑ p, exc p p : Op L) (occOf x) (occOf x') = if x = x' then ((numElec false x + numElec true x : ℕ) : ℤ) else 0 := by
  rw [sum_exc, Matrix.add_apply, numTot_apply, numTot_apply]
  by_cases h : x = x'
  · subst h; simp
  · rw [if_neg (fun hh => h (occOf_injective hh)), if_neg (fun hh => h (occOf_injective hh)), if_neg h]; rfl

/-- the trace of the local one-body array is the number of electrons -/
theorem trace_local_one (src : AmpSource L (Fin 4) Cache) (x : Cfg L) (hs : src.OkPaddedAt x) :
    (∑ p, (abLocalRDMs src (numElec false x, numElec true x) x).1 (p, p)) = ((numElec false x + numElec true x : ℕ) : ℂ) := by
  simp only [C93_one src x hs]
  rw [localEnergy_sum, localEnergy_diag _ _ _ _ (sum_exc_apply x)]
  norm_cast

theorem trace_local_two (src : AmpSource L (Fin 4) Cache) (x : Cfg L) (hs : src.OkPaddedAt x) :
    (∑ p, ∑ r, (abLocalRDMs src (numElec false x, numElec true x) x).2 (p, p, r, r))
      = 1 / 2 * ((numElec false x + numElec true x : ℕ) : ℂ) ^ 2 := by
  have h1 : (∑ p, ∑ r, (abLocalRDMs src (numElec false x, numElec true x) x).2 (p, p, r, r))
      = 1 / 2 * ∑ p, ∑ r, ((abLocalRDMs src (numElec false x, numElec true x) x).2 (p, p, r, r)
        + (abLocalRDMs src (numElec false x, numElec true x) x).2 (r, r, p, p)) := by
    simp only [Finset.sum_add_distrib]
    rw [Finset.sum_comm (f := fun p r => (abLocalRDMs src (numElec false x, numElec true x) x).2 (r, r, p, p))]
    ring
  have h2 : ∀ p r : Fin L, localEnergy (fun x' => 1 / 2 * ((exc p p * exc r r + exc r r * exc p p) (occOf x) (occOf x') : ℤ)) src.logAmp x
      = 1 / 2 * localEnergy (fun x' => ((exc p p * exc r r + exc r r * exc p p : Op L) (occOf x) (occOf x') : ℂ)) src.logAmp x := by
    intro p r
    unfold localEnergy
    rw [Finset.mul_sum]
    exact Finset.sum_congr rfl fun x' _ => by ring
  have h3 : (∑ p, ∑ r, (exc p p * exc r r + exc r r * exc p p) : Op L) = 2 • ((∑ p, exc p p) * ∑ r, exc r r) := by
    simp only [Finset.sum_add_distrib]
    rw [Finset.sum_comm (f := fun p r => (exc r r * exc p p : Op L)), Finset.sum_mul_sum, two_nsmul]
  rw [h1]
  simp only [C93_two src x hs, h2]
  simp only [← Finset.mul_sum, localEnergy_sum]
  rw [h3, localEnergy_diag _ (2 * ((numElec false x + numElec true x : ℕ) : ℤ) ^ 2)]
  · push_cast; ring
  · intro x'
    rw [Matrix.smul_apply, sum_exc, add_mul, mul_add, mul_add]
    have e : ∀ s t : Bool, (numTot s * numTot t : Op L) (occOf x) (occOf x') = if x = x' then (numElec s x : ℤ) * numElec t x else 0 := by
      intro s t
      rw [Matrix.mul_apply]
      simp only [numTot_apply, ite_mul, zero_mul, Finset.sum_ite_eq, Finset.mem_univ, if_true]
      by_cases h : x = x'
      · subst h; simp
      · rw [if_neg (fun hh => h (occOf_injective hh)), if_neg h, mul_zero]
    simp only [Matrix.add_apply, e]
    by_cases h : x = x'
    · simp only [if_pos h]; push_cast; simp only [smul_eq_mul, nsmul_eq_mul]; push_cast; ring
    · simp only [if_neg h]; simp

/-- **C94**: the traces of the saved arrays, for every set of samples in the sector: `N` and `N (N - 1)` times the ratio of the number of
samples drawn and the number the script divides by, plus nothing else. -/
theorem C94_traces (src : AmpSource L (Fin 4) Cache) (n : ℕ × ℕ) (c : Setup) (m : ℕ) (hm : nChunks c = some m)
    (samples : ℕ → ℕ → Cfg L) (hx : ∀ i k, (numElec false (samples i k), numElec true (samples i k)) = n)
    (hs : ∀ x, (numElec false x, numElec true x) = n → src.OkPaddedAt x) :
    ∃ d1 d2, savedRDMs src n c samples = some (d1, d2)
      ∧ ∑ p, d1 p p = (total c m : ℂ) / c.nSamples * (n.1 + n.2 : ℕ)
      ∧ ∑ p, ∑ r, d2 p p r r = (total c m : ℂ) / c.nSamples * ((n.1 + n.2 : ℕ) * ((n.1 + n.2 : ℕ) - 1)) := by
  have t1 : ∀ i k, (∑ p, (abLocalRDMs src n (samples i k)).1 (p, p)) = ((n.1 + n.2 : ℕ) : ℂ) := by
    intro i k
    have := trace_local_one src (samples i k) (hs _ (hx i k))
    rw [hx i k] at this
    rw [this, ← hx i k]
  have t2 : ∀ i k, (∑ p, ∑ r, (abLocalRDMs src n (samples i k)).2 (p, p, r, r)) = 1 / 2 * ((n.1 + n.2 : ℕ) : ℂ) ^ 2 := by
    intro i k
    have := trace_local_two src (samples i k) (hs _ (hx i k))
    rw [hx i k] at this
    rw [this, ← hx i k]
  have s1 : (∑ p : Fin L, ∑ i ∈ Finset.range m, ∑ k ∈ Finset.range (drawn c), (abLocalRDMs src n (samples i k)).1 (p, p))
      = (total c m : ℂ) * (n.1 + n.2 : ℕ) := by
    rw [Finset.sum_comm]
    have : ∀ i ∈ Finset.range m, (∑ p : Fin L, ∑ k ∈ Finset.range (drawn c), (abLocalRDMs src n (samples i k)).1 (p, p))
        = (drawn c : ℂ) * (n.1 + n.2 : ℕ) := by
      intro i _
      rw [Finset.sum_comm]
      simp only [t1, Finset.sum_const, Finset.card_range, nsmul_eq_mul]
    rw [Finset.sum_congr rfl this, Finset.sum_const, Finset.card_range, nsmul_eq_mul, total]
    push_cast; ring
  have s2 : (∑ p : Fin L, ∑ r : Fin L, ∑ i ∈ Finset.range m, ∑ k ∈ Finset.range (drawn c), (abLocalRDMs src n (samples i k)).2 (p, p, r, r))
      = (total c m : ℂ) * (1 / 2 * ((n.1 + n.2 : ℕ) : ℂ) ^ 2) := by
    have e : ∀ p : Fin L, (∑ r : Fin L, ∑ i ∈ Finset.range m, ∑ k ∈ Finset.range (drawn c), (abLocalRDMs src n (samples i k)).2 (p, p, r, r))
        = ∑ i ∈ Finset.range m, ∑ k ∈ Finset.range (drawn c), ∑ r : Fin L, (abLocalRDMs src n (samples i k)).2 (p, p, r, r) := by
      intro p
      rw [Finset.sum_comm]
      exact Finset.sum_congr rfl fun i _ => Finset.sum_comm
    simp only [e]
    rw [Finset.sum_comm]
    have : ∀ i ∈ Finset.range m, (∑ p : Fin L, ∑ k ∈ Finset.range (drawn c), ∑ r : Fin L, (abLocalRDMs src n (samples i k)).2 (p, p, r, r))
        = (drawn c : ℂ) * (1 / 2 * ((n.1 + n.2 : ℕ) : ℂ) ^ 2) := by
      intro i _
      rw [Finset.sum_comm]
      simp only [t2, Finset.sum_const, Finset.card_range, nsmul_eq_mul]
    rw [Finset.sum_congr rfl this, Finset.sum_const, Finset.card_range, nsmul_eq_mul, total]
    push_cast; ring
  refine ⟨_, _, saved_eq src n c samples hm, ?_, ?_⟩
  · rw [← Finset.sum_div, s1]; ring
  · simp only [Finset.sum_sub_distrib, Finset.sum_ite_eq, Finset.mem_univ, if_true, ← Finset.mul_sum, ← Finset.sum_div, s1, s2]
    ring


end GPSKet.Rdms
