import Verif.Lemmas.BackflowScript

/-!
# C106-C108: models built by the backflow script
-/

namespace GPSKet.BackflowScript
open Spec

variable {L R N M K nu nd n : ℕ}

/-! ## C106: the initial state -/

theorem saved_eq (c : Matrix (Fin L) (Fin L) ℂ) (hn : n ≤ L) :
    (savedOrbitals (toArr c) (n, n)).rows = L ∧ (savedOrbitals (toArr c) (n, n)).cols = n ∧
      (savedOrbitals (toArr c) (n, n)).get = (toArr c).get := by
  have h : (n + n) / 2 = n := by omega
  have h2 : min n L = n := by omega
  simp [savedOrbitals, Arr.takeCols, h, toArr, h2]

theorem saved_ne (c : Matrix (Fin L) (Fin L) ℂ) (hu : nu ≤ L) (hd : nd ≤ L) (hne : nu ≠ nd) :
    (savedOrbitals (toArr c) (nu, nd)).rows = L ∧ (savedOrbitals (toArr c) (nu, nd)).cols = nu + nd ∧
      ∀ i j, (savedOrbitals (toArr c) (nu, nd)).get i j = if j < nu then (toArr c).get i j else (toArr c).get i (j - nu) := by
  have h1 : min nu L = nu := by omega
  have h2 : min nd L = nd := by omega
  simp [savedOrbitals, Arr.takeCols, Arr.concat, hne, toArr, h1, h2]

/-- **C106**, molecules, restricted orbitals: the orbitals of the file can be loaded, and with them and without noise every amplitude
of the model is that of the Hartree-Fock determinant, with or without cutoff. -/
theorem C106_restricted [NeZero L] [NeZero M] [NeZero K] (c : Matrix (Fin L) (Fin L) ℂ) (hn : n ≤ L) (given : Bool) :
    ∃ phi, orbitalsFromFile (savedOrbitals (toArr c) (n, n)) (n, n) given true true = some phi ∧
      ∀ x : Cfg L, numElec false x = n ∧ numElec true x = n →
        (Built.full (M := M) (K := K) (.restricted n) (initEpsilon phi 0)).call x false = some (Complex.log (hartreeFock c c hn hn (occOf x))) ∧
        ∀ env : Fin L → Fin K → Fin L, (Built.cutoff (M := M) (.restricted n) (initCutoff phi 0) env).call x false =
          some (Complex.log (hartreeFock c c hn hn (occOf x))) := by
  obtain ⟨hr, hc, hg⟩ := saved_eq c hn
  refine ⟨savedOrbitals (toArr c) (n, n), ?_, fun x hx => ⟨?_, fun env => ?_⟩⟩
  · have h : (n + n) / 2 = n := by omega
    simp [orbitalsFromFile, hc, h]
  · unfold Built.call
    dsimp only
    rw [full_restricted (NeZero.pos M) _ hr hc x hx, hg]
    simp only [toArr_get' _ _ _ (lt_of_lt_of_le (Fin.isLt _) hn)]
    rfl
  · unfold Built.call callCutoff
    dsimp only
    rw [if_neg (by simp), logDet_restricted _ x hx]
    unfold hartreeFock
    congr 4 <;> funext i k <;> rw [cutoffOrbitals_init, hg, toArr_get' _ _ _ (lt_of_lt_of_le (Fin.isLt _) hn)] <;> rfl

theorem unrestricted_file (c : Matrix (Fin L) (Fin L) ℂ) (hu : nu ≤ L) (hd : nd ≤ L) (given : Bool) :
    ∃ phi, orbitalsFromFile (savedOrbitals (toArr c) (nu, nd)) (nu, nd) given false true = some phi ∧ phi.rows = L ∧ phi.cols = nu + nd ∧
      ∀ i j, phi.get i j = if j < nu then (toArr c).get i j else (toArr c).get i (j - nu) := by
  by_cases h : nu = nd
  · subst h
    obtain ⟨hr, hc, hg⟩ := saved_eq c hu
    have h : (nu + nu) / 2 = nu := by omega
    exact ⟨(savedOrbitals (toArr c) (nu, nu)).concat (savedOrbitals (toArr c) (nu, nu)),
      by simp [orbitalsFromFile, hc, h], hr, by simp [Arr.concat, hc], fun i j => by simp [Arr.concat, hc, hg]⟩
  · obtain ⟨hr, hc, hg⟩ := saved_ne c hu hd h
    have h2 : ¬ nu + nd = (nu + nd) / 2 := by omega
    exact ⟨savedOrbitals (toArr c) (nu, nd), by simp [orbitalsFromFile, hc, h2], hr, hc, hg⟩

/-- Amplitudes for unrestricted orbitals that are stored side by side. -/
theorem unrestricted_call [NeZero L] [NeZero M] [NeZero K] (a b : Matrix (Fin L) (Fin L) ℂ) (hu : nu ≤ L) (hd : nd ≤ L) (phi : Arr)
    (hr : phi.rows = L) (hc : phi.cols = nu + nd)
    (hg : ∀ i j, phi.get i j = if j < nu then (toArr a).get i j else (toArr b).get i (j - nu)) (x : Cfg L)
    (hx : numElec false x = nu ∧ numElec true x = nd) :
    (Built.full (M := M) (K := K) (.unrestricted nu nd) (initEpsilon phi 0)).call x false =
        some (Complex.log (hartreeFock a b hu hd (occOf x))) ∧
      ∀ env : Fin L → Fin K → Fin L, (Built.cutoff (M := M) (.unrestricted nu nd) (initCutoff phi 0) env).call x false =
        some (Complex.log (hartreeFock a b hu hd (occOf x))) := by
  have e1 : ∀ (i : Fin L) (k : Fin nu), phi.get i k = a i (Fin.castLE hu k) := by
    intro i k
    rw [hg, if_pos k.isLt, toArr_get' _ _ _ (lt_of_lt_of_le k.isLt hu)]
    rfl
  have e2 : ∀ (i : Fin L) (k : Fin nd), phi.get i (nu + k.val) = b i (Fin.castLE hd k) := by
    intro i k
    rw [hg, if_neg (by omega), Nat.add_sub_cancel_left, toArr_get' _ _ _ (lt_of_lt_of_le k.isLt hd)]
    rfl
  refine ⟨?_, fun env => ?_⟩
  · unfold Built.call
    dsimp only
    rw [full_unrestricted (NeZero.pos M) _ hr hc x hx]
    simp only [e1, e2]
    rfl
  · unfold Built.call callCutoff
    dsimp only
    rw [if_neg (by simp), logDet_unrestricted _ x hx]
    simp only [cutoffOrbitals_init]
    unfold hartreeFock
    simp only [Fin.val_castAdd, Fin.val_natAdd, e1, e2]

/-- **C106**, molecules, unrestricted orbitals, any numbers of electrons. -/
theorem C106_unrestricted [NeZero L] [NeZero M] [NeZero K] (c : Matrix (Fin L) (Fin L) ℂ) (hu : nu ≤ L) (hd : nd ≤ L) (given : Bool) :
    ∃ phi, orbitalsFromFile (savedOrbitals (toArr c) (nu, nd)) (nu, nd) given false true = some phi ∧
      ∀ x : Cfg L, numElec false x = nu ∧ numElec true x = nd →
        (Built.full (M := M) (K := K) (.unrestricted nu nd) (initEpsilon phi 0)).call x false =
          some (Complex.log (hartreeFock c c hu hd (occOf x))) ∧
        ∀ env : Fin L → Fin K → Fin L, (Built.cutoff (M := M) (.unrestricted nu nd) (initCutoff phi 0) env).call x false =
          some (Complex.log (hartreeFock c c hu hd (occOf x))) := by
  obtain ⟨phi, h, hr, hc, hg⟩ := unrestricted_file c hu hd given
  exact ⟨phi, h, fun x hx => unrestricted_call c c hu hd phi hr hc hg x hx⟩

/-- Amplitudes for generalised orbitals in two blocks. -/
theorem generalised_call [NeZero L] [NeZero M] (a b : Matrix (Fin L) (Fin L) ℂ) (hu : nu ≤ L) (hd : nd ≤ L) (phi : Arr)
    (hr : phi.rows = L + L) (hc : phi.cols = nu + nd)
    (h1 : ∀ (i : Fin L) (k : Fin nu), phi.get i k = a i (Fin.castLE hu k))
    (h2 : ∀ (i : Fin L) (k : Fin nd), phi.get i (nu + k.val) = 0)
    (h3 : ∀ (i : Fin L) (k : Fin nu), phi.get (L + i.val) k = 0)
    (h4 : ∀ (i : Fin L) (k : Fin nd), phi.get (L + i.val) (nu + k.val) = b i (Fin.castLE hd k)) (x : Cfg L)
    (hx : numElec false x = nu ∧ numElec true x = nd) :
    (Built.full (M := M) (K := K) (.generalised nu nd) (initEpsilon phi 0)).call x false =
        some (Complex.log (hartreeFock a b hu hd (occOf x))) := by
  unfold Built.call
  dsimp only
  rw [full_generalised (NeZero.pos M) _ hr hc x hx]
  unfold hartreeFock upDownState
  rw [List.ofFn_add]
  congr 5
  · funext k m
    unfold stacked spinOrbital
    rcases h : (ofLex m).1
    · simp [h1]
    · simp [-Fin.natAdd_eq_addNat, h3]
  · funext k m
    unfold stacked spinOrbital
    rcases h : (ofLex m).1
    · simp [-Fin.natAdd_eq_addNat, h2]
    · simp [-Fin.natAdd_eq_addNat, h4]

/-- Two blocks of given widths. -/
theorem blocks {r w₁ w₂ : ℕ} (a b : Arr) (ha : a.rows = r) (hb : b.rows = r) (ha' : a.cols = w₁) (hb' : b.cols = w₂) :
    ∃ o phi, (Arr.zeros (2 * r) (w₁ + w₂)).setBlock 0 0 w₁ a = some o ∧ o.setBlock r w₁ (w₁ + w₂) b = some phi ∧
      phi.rows = r + r ∧ phi.cols = w₁ + w₂ ∧ (∀ i k, i < r → k < w₁ → phi.get i k = a.get i k) ∧
      (∀ i k, i < r → phi.get i (w₁ + k) = 0) ∧ (∀ i k, k < w₁ → phi.get (r + i) k = 0) ∧
      (∀ i k, i < r → k < w₂ → phi.get (r + i) (w₁ + k) = b.get i k) := by
  have e1 : a.cols = w₁ - 0 := by omega
  have e2 : b.cols = w₁ + w₂ - w₁ := by omega
  refine ⟨_, _, by rw [Arr.setBlock, if_pos e1], by rw [Arr.setBlock, if_pos e2], ?_, rfl, ?_, ?_, ?_, ?_⟩
  · simp [Arr.zeros]; omega
  · intro i k hi hk
    have h1 : ¬ r ≤ i := by omega
    simp [h1, ha, hi, hk]
  · intro i k hi
    have h1 : ¬ r ≤ i := by omega
    simp [h1, Arr.zeros]
  · intro i k hk
    have h1 : ¬ w₁ ≤ k := by omega
    simp [h1, Arr.zeros, ha]
  · intro i k hi hk
    simp [hb, hi, hk]

/-- **C106**, molecules, generalised orbitals, without cutoff: proved for equal numbers of up and down electrons. -/
theorem C106_generalised_partial [NeZero L] [NeZero M] (c : Matrix (Fin L) (Fin L) ℂ) (hn : n ≤ L) (given restricted : Bool) :
    ∃ phi, orbitalsFromFile (savedOrbitals (toArr c) (n, n)) (n, n) given restricted false = some phi ∧
      ∀ x : Cfg L, numElec false x = n ∧ numElec true x = n →
        (Built.full (M := M) (K := K) (.generalised n n) (initEpsilon phi 0)).call x false =
          some (Complex.log (hartreeFock c c hn hn (occOf x))) := by
  obtain ⟨hr, hc, hg⟩ := saved_eq c hn
  set f := savedOrbitals (toArr c) (n, n) with hf
  have ht : f.takeCols n = f := by
    have : min n f.cols = f.cols := by omega
    simp [Arr.takeCols, this]
  obtain ⟨o, phi, ho, hp, h1, h2, h3, h4, h5, h6⟩ := blocks (r := L) (w₁ := n) (w₂ := n) f f hr hr hc hc
  refine ⟨phi, ?_, fun x hx => ?_⟩
  · unfold orbitalsFromFile
    have e' : n * 2 = n + n := by omega
    rcases given with _ | _
    · simp only [hr, hc, Bool.false_eq_true, if_false, e']
      rw [show (n + n) / 2 = n by omega, ho]
      exact hp
    · simp only [hr, ht, Bool.false_eq_true, if_false, if_true, ho]
      exact hp
  · refine generalised_call c c hn hn phi h1 h2 (fun i k => ?_) (fun i k => h4 i k i.isLt) (fun i k => h5 i k k.isLt) (fun i k => ?_) x hx
    · rw [h3 i k i.isLt k.isLt, hg, toArr_get' _ _ _ (lt_of_lt_of_le k.isLt hn)]
      rfl
    · rw [h6 i k i.isLt k.isLt, hg, toArr_get' _ _ _ (lt_of_lt_of_le k.isLt hn)]
      rfl

/-- **C106** fails for generalised orbitals and different numbers of up and down electrons (other than one down electron): the orbitals
of the file cannot be loaded. -/
theorem C106_generalised_fails (c : Matrix (Fin L) (Fin L) ℂ) (hu : nu ≤ L) (hd : nd ≤ L) (hne : nu ≠ nd) (h1 : nd ≠ 1) (restricted : Bool) :
    orbitalsFromFile (savedOrbitals (toArr c) (nu, nd)) (nu, nd) true restricted false = none := by
  obtain ⟨hr, hc, hg⟩ := saved_ne c hu hd hne
  unfold orbitalsFromFile
  simp only [Bool.false_eq_true, if_false, if_true]
  have e : ((savedOrbitals (toArr c) (nu, nd)).takeCols nd).cols = nd := by simp [Arr.takeCols, hc]
  have hno : ∀ o : Arr, o.setBlock (savedOrbitals (toArr c) (nu, nd)).rows nd (nu + nd) ((savedOrbitals (toArr c) (nu, nd)).takeCols nd) = none := by
    intro o
    rw [Arr.setBlock, if_neg (by rw [e]; omega), if_neg (by rw [e]; exact h1)]
  simp only [hno]
  cases (Arr.zeros (2 * (savedOrbitals (toArr c) (nu, nd)).rows) (nu + nd)).setBlock 0 0 nu ((savedOrbitals (toArr c) (nu, nd)).takeCols nu) <;> rfl

/-- **C106** fails for generalised orbitals with cutoff: no amplitude can be computed, whatever the parameters. -/
theorem C106_cutoff_fails (eps : Fin (L + L) → Fin (nu + nd) → Fin 4 → Fin M → Fin K → ℂ) (env : Fin L → Fin K → Fin L) (x : Cfg L)
    (cache_intermediates : Bool) : (Built.cutoff (.generalised nu nd) eps env).call x cache_intermediates = none := by
  unfold Built.call callCutoff
  rcases cache_intermediates <;> rfl

theorem toArr_takeCols (a : Matrix (Fin L) (Fin L) ℂ) (hn : n ≤ L) : ((toArr a).takeCols n).cols = n := by
  simp [Arr.takeCols, toArr, hn]

/-- **C106**, Hubbard model, restricted orbitals. -/
theorem C106_hubbard_restricted [NeZero L] [NeZero M] (c : Matrix (Fin L) (Fin L) ℂ) (hn : n ≤ L) :
    ∃ phi, orbitalsFromMeanField (.inl (toArr c)) (n, n) true = some phi ∧
      ∀ x : Cfg L, numElec false x = n ∧ numElec true x = n →
        (Built.full (M := M) (K := K) (.restricted n) (initEpsilon phi 0)).call x false = some (Complex.log (hartreeFock c c hn hn (occOf x))) := by
  refine ⟨(toArr c).takeCols n, rfl, fun x hx => ?_⟩
  unfold Built.call
  dsimp only
  rw [full_restricted (L := L) (NeZero.pos M) _ rfl (toArr_takeCols c hn) x hx]
  have e : ∀ (i : Fin L) (k : Fin n), ((toArr c).takeCols n).get i k = c i (Fin.castLE hn k) := by
    intro i k
    change (toArr c).get i k = _
    rw [toArr_get' _ _ _ (lt_of_lt_of_le k.isLt hn)]
    rfl
  simp only [e]
  rfl

/-- **C106**, Hubbard model, orbitals for each spin, unrestricted or generalised, any numbers of electrons. -/
theorem C106_hubbard [NeZero L] [NeZero M] (a b : Matrix (Fin L) (Fin L) ℂ) (hu : nu ≤ L) (hd : nd ≤ L) :
    (∃ phi, orbitalsFromMeanField (.inr (toArr a, toArr b)) (nu, nd) true = some phi ∧
      ∀ x : Cfg L, numElec false x = nu ∧ numElec true x = nd →
        (Built.full (M := M) (K := K) (.unrestricted nu nd) (initEpsilon phi 0)).call x false =
          some (Complex.log (hartreeFock a b hu hd (occOf x)))) ∧
    (∃ phi, orbitalsFromMeanField (.inr (toArr a, toArr b)) (nu, nd) false = some phi ∧
      ∀ x : Cfg L, numElec false x = nu ∧ numElec true x = nd →
        (Built.full (M := M) (K := K) (.generalised nu nd) (initEpsilon phi 0)).call x false =
          some (Complex.log (hartreeFock a b hu hd (occOf x)))) := by
  refine ⟨⟨((toArr a).takeCols nu).concat ((toArr b).takeCols nd), rfl, fun x hx => ?_⟩, ?_⟩
  · unfold Built.call
    dsimp only
    rw [full_unrestricted (L := L) (NeZero.pos M) (((toArr a).takeCols nu).concat ((toArr b).takeCols nd)) rfl
      (by simp [Arr.concat, toArr_takeCols, hu, hd]) x hx]
    have e1 : ∀ (i : Fin L) (k : Fin nu), (((toArr a).takeCols nu).concat ((toArr b).takeCols nd)).get i k = a i (Fin.castLE hu k) := by
      intro i k
      simp only [Arr.concat, toArr_takeCols a hu, k.isLt, if_true]
      change (toArr a).get i k = _
      rw [toArr_get' _ _ _ (lt_of_lt_of_le k.isLt hu)]
      rfl
    have e2 : ∀ (i : Fin L) (k : Fin nd), (((toArr a).takeCols nu).concat ((toArr b).takeCols nd)).get i (nu + k.val) =
        b i (Fin.castLE hd k) := by
      intro i k
      simp only [Arr.concat, toArr_takeCols a hu, Nat.add_sub_cancel_left]
      rw [if_neg (by omega)]
      change (toArr b).get i k = _
      rw [toArr_get' _ _ _ (lt_of_lt_of_le k.isLt hd)]
      rfl
    simp only [e1, e2]
    rfl
  · obtain ⟨o, phi, ho, hp, h1, h2, h3, h4, h5, h6⟩ := blocks (r := L) ((toArr a).takeCols nu) ((toArr b).takeCols nd) rfl rfl
      (toArr_takeCols a hu) (toArr_takeCols b hd)
    refine ⟨phi, ?_, fun x hx => ?_⟩
    · unfold orbitalsFromMeanField
      have e : (toArr a).rows = L := rfl
      simp only [Bool.false_eq_true, if_false, e, ho]
      exact hp
    · refine generalised_call a b hu hd phi h1 h2 (fun i k => ?_) (fun i k => h4 i k i.isLt) (fun i k => h5 i k k.isLt) (fun i k => ?_) x hx
      · rw [h3 i k i.isLt k.isLt]
        change (toArr a).get i k = _
        rw [toArr_get' _ _ _ (lt_of_lt_of_le k.isLt hu)]
        rfl
      · rw [h6 i k i.isLt k.isLt]
        change (toArr b).get i k = _
        rw [toArr_get' _ _ _ (lt_of_lt_of_le k.isLt hd)]
        rfl

/-- **C106** fails for the Hubbard model with restricted mean-field orbitals and a generalised model. -/
theorem C106_hubbard_fails (c : Matrix (Fin L) (Fin L) ℂ) (n_elec : ℕ × ℕ) : orbitalsFromMeanField (.inl (toArr c)) n_elec false = none := rfl

/-- Two sites, one electron of each spin in the bonding orbital, both electrons on the first site: the hypotheses hold. -/
example : numElec false (![3, 0] : Cfg 2) = 1 ∧ numElec true (![3, 0] : Cfg 2) = 1 ∧ (1 : ℕ) ≤ 2 := by decide

/-! ## C107: models and Hamiltonians -/

/-- **C107** for models without cutoff: the Hamiltonian computes the amplitude of the model. -/
theorem C107_partial (kind : CPDBackflow.Kind L R N nu nd) (eps : Fin 4 → Fin (M * (R * N)) → Fin L → ℂ) (x : Cfg L) :
    kernelLogAmp (Built.full (K := K) kind eps) x = (Built.full (K := K) kind eps).call x false ∧
      (kernelLogAmp (Built.full (K := K) kind eps) x).isSome := ⟨rfl, rfl⟩

/-- **C107** fails for every model with cutoff: its Hamiltonian raises an exception for every sample, although the model itself has
amplitudes (restricted and unrestricted orbitals). -/
theorem C107_fails (kind : CPDBackflow.Kind L R N nu nd) (eps : Fin R → Fin N → Fin 4 → Fin M → Fin K → ℂ) (env : Fin L → Fin K → Fin L)
    (x : Cfg L) : kernelLogAmp (.cutoff kind eps env) x = none := by
  unfold kernelLogAmp Built.call callCutoff Built.applyFastUpdate
  rfl

theorem C107_amplitudes (eps : Fin L → Fin n → Fin 4 → Fin M → Fin K → ℂ) (eps' : Fin L → Fin (nu + nd) → Fin 4 → Fin M → Fin K → ℂ)
    (env : Fin L → Fin K → Fin L) (x : Cfg L) :
    ((Built.cutoff (.restricted n) eps env).call x false).isSome ∧ ((Built.cutoff (.unrestricted nu nd) eps' env).call x false).isSome :=
  ⟨rfl, rfl⟩

/-! ## C108: environments -/

/-- The environment of every orbital: the orbitals to which the sorted matrix couples it most strongly, the strongest first. -/
theorem C108_top (v : Fin L → Fin L → ℝ) (order : Fin L → List (Fin L)) (h : ∀ α, IsArgsort (v α) (order α)) (k : ℕ) (hk : 0 < k) (α : Fin L) :
    IsTop (v α) k (topK order k α) := by
  have hp := (h α).perm
  have hs := (h α).ascending
  have hl : (order α).length = L := by simpa using hp.length_eq
  have e : topK order k α = ((order α).drop (L - k)).reverse := by
    unfold topK H2O.lastK
    rw [if_neg (by omega), hl]
  have hnd : (order α).Nodup := hp.nodup_iff.mpr (List.nodup_finRange L)
  rw [e]
  refine ⟨?_, ?_, ?_, ?_⟩
  · exact List.nodup_reverse.mpr (hnd.sublist (List.drop_sublist _ _))
  · rw [List.length_reverse, List.length_drop, hl]; omega
  · rw [List.pairwise_reverse]
    exact hs.sublist (List.drop_sublist _ _)
  · intro i hi j hj
    rw [List.mem_reverse] at hi hj
    have hj' : j ∈ (order α).take (L - k) := by
      have : j ∈ (order α).take (L - k) ++ (order α).drop (L - k) := by
        rw [List.take_append_drop]
        exact hp.mem_iff.mpr (List.mem_finRange j)
      rcases List.mem_append.mp this with h | h
      · exact h
      · exact absurd h hj
    have := hs
    rw [← List.take_append_drop (L - k) (order α), List.pairwise_append] at this
    exact this.2.2 j hj' i hi

/-- A cutoff of zero selects all orbitals. -/
theorem C108_zero (order : Fin L → List (Fin L)) (α : Fin L) : topK order 0 α = (order α).reverse := by
  simp [topK, H2O.lastK]

/-- **C108**, proved for a basis that leaves the exchange matrix as it is (in particular for a calculation in orthonormal atomic
orbitals). -/
theorem C108_partial (local_basis : Bool) (basis em : Matrix (Fin L) (Fin L) ℝ) (hb : inBasis basis em = em) (order : Fin L → List (Fin L))
    (h : ∀ α, IsArgsort (sortedExchange local_basis basis (storedExchange local_basis basis em) α) (order α)) (k : ℕ) (hk : 0 < k) (α : Fin L) :
    IsTop (inBasis basis em α) k (topK order k α) := by
  have e : sortedExchange local_basis basis (storedExchange local_basis basis em) = inBasis basis em := by
    unfold inBasis at hb
    rcases local_basis
    · simp [sortedExchange, storedExchange, inBasis, hb]
    · simp [sortedExchange, storedExchange, inBasis, hb]
  have := C108_top (sortedExchange local_basis basis (storedExchange local_basis basis em)) order h k hk α
  rwa [e] at this

/-- **C108** fails, for local and for canonical orbitals: with two atomic orbitals whose order is exchanged by the basis, the
environment of the first orbital is the wrong one. -/
theorem C108_fails (local_basis : Bool) :
    ∃ basis em : Matrix (Fin 2) (Fin 2) ℝ, basis.transpose * basis = 1 ∧ ∃ order : Fin 2 → List (Fin 2),
      (∀ α, IsArgsort (sortedExchange local_basis basis (storedExchange local_basis basis em) α) (order α)) ∧
      ¬ IsTop (inBasis basis em 0) 1 (topK order 1 0) := by
  have hs : sortedExchange local_basis !![0, 1; 1, 0] (storedExchange local_basis !![0, 1; 1, 0] !![2, 1; 1, 0]) =
      (!![2, 1; 1, 0] : Matrix (Fin 2) (Fin 2) ℝ) := by
    rcases local_basis
    · rfl
    · ext i j
      fin_cases i <;> fin_cases j <;> simp [sortedExchange, storedExchange, Matrix.mul_apply, Fin.sum_univ_two]
  refine ⟨!![0, 1; 1, 0], !![2, 1; 1, 0], ?_, fun _ => [1, 0], ?_, ?_⟩
  · ext i j
    fin_cases i <;> fin_cases j <;> simp [Matrix.mul_apply, Fin.sum_univ_two]
  · intro α
    rw [hs]
    refine ⟨by change [1, 0].Perm (List.finRange 2); decide, ?_⟩
    fin_cases α <;> simp
  · intro h
    have := h.largest 0 (by simp [topK, H2O.lastK]) 1 (by simp [topK, H2O.lastK])
    simp [inBasis, Matrix.mul_apply, Fin.sum_univ_two] at this
    norm_num at this

/-- A non-trivial instance of the hypotheses of `C108_partial`: the identity basis and a matrix with different entries. -/
example : inBasis (1 : Matrix (Fin 2) (Fin 2) ℝ) !![2, 1; 1, 0] = !![2, 1; 1, 0] ∧
    IsArgsort ((!![2, 1; 1, 0] : Matrix (Fin 2) (Fin 2) ℝ) 0) [1, 0] := by
  refine ⟨by simp [inBasis], by decide, by simp⟩

end GPSKet.BackflowScript
