import Verif.Lemmas.SlaterBridge
import Mathlib.LinearAlgebra.Matrix.Block

/-! # Property C41: the Slater determinant and its fast updates -/

namespace GPSKet.Props
open Spec Slater

variable {L nu nd M : ℕ} {κ ι : Type}

/-- The row of the orbital matrix at a (shifted) position, moved by a symmetry. -/
noncomputable def frow (mod : Module L nu nd M κ ι) (m : Fin M) (s : κ) (t : ι) (z : ℤ) (c : Fin (nu + nd)) : ℂ :=
  get (fun r => fullU mod.orbs m r c s) (symSite mod t (z % L) + z / L * L)

theorem symShift (mod : Module L nu nd M κ ι) (t : ι) (σ : Bool) (i : Fin L) :
    symSite mod t (((orb σ i).val : ℤ) % L) + ((orb σ i).val : ℤ) / L * L = ((orb σ (mod.symmetries t i)).val : ℤ) := by
  have hi := i.isLt
  have hL : (0 : ℤ) < L := by omega
  have h1 : ((orb σ i).val : ℤ) % L = i.val := by
    rw [orb_val]
    cases σ
    · simp only [Bool.false_eq_true, if_false, add_zero]; exact Int.emod_eq_of_lt (by omega) (by omega)
    · simp only [if_true]; rw [Int.add_emod_right]; exact Int.emod_eq_of_lt (by omega) (by omega)
  have h2 : ((orb σ i).val : ℤ) / L * L = if σ then (L : ℤ) else 0 := by
    have := Int.mul_ediv_add_emod ((orb σ i).val : ℤ) L
    rw [h1, orb_val] at this
    rw [orb_val, mul_comm]
    linarith
  rw [h1, h2, orb_val]
  unfold symSite
  rw [get_fin]

theorem frow_orb (mod : Module L nu nd M κ ι) (m : Fin M) (s : κ) (t : ι) (σ : Bool) (i : Fin L) (c : Fin (nu + nd)) :
    frow mod m s t ((orb σ i).val : ℤ) c = fullU mod.orbs m (orb σ (mod.symmetries t i)) c s := by
  unfold frow
  rw [symShift, get_fin]

theorem yPositions_eq (mod : Module L nu nd M κ ι) {x : Cfg L} (h : HasElec nu nd x) (t : ι) (n : Fin (nu + nd)) :
    yPositions mod x t n = symSite mod t (posF nu nd x n % L) + posF nu nd x n / L * L := by
  have aux : ∀ (σ : Bool) (j : ℕ) (hj : j < L), symSite mod t (((orb σ ⟨j, hj⟩).val : ℤ) % L) +
      ((orb σ ⟨j, hj⟩).val : ℤ) / L * L = symSite mod t (j : ℤ) + if σ then (L : ℤ) else 0 := by
    intro σ j hj
    rw [symShift, orb_val]
    congr 1
    unfold symSite
    exact (get_fin (fun k => ((mod.symmetries t k).val : ℤ)) (⟨j, hj⟩ : Fin L)).symm
  unfold yPositions
  induction n using Fin.addCases with
  | left i =>
    obtain ⟨hl, e⟩ := posF_up (nd := nd) h i
    obtain ⟨_, e'⟩ := electrons_up (nd := nd) h i i.isLt
    have h3 := aux false _ (siteList_lt false x i hl)
    rw [orb_val] at h3
    simp only [Bool.false_eq_true, if_false, add_zero] at h3
    rw [e, h3, Fin.val_castAdd, e', if_neg (not_le.mpr i.isLt), add_zero]
  | right i =>
    obtain ⟨hl, e⟩ := posF_down (nu := nu) h i
    obtain ⟨_, e'⟩ := electrons_down (nu := nu) h i i.isLt
    have h3 := aux true _ (siteList_lt true x i hl)
    rw [orb_val] at h3
    simp only [if_true] at h3
    rw [e, h3, Fin.val_natAdd, e', if_pos (Nat.le_add_right _ _)]

theorem uSubmat_eq (mod : Module L nu nd M κ ι) {x : Cfg L} (h : HasElec nu nd x) (m : Fin M) (s : κ) (t : ι) :
    uSubmat mod x m s t = Matrix.of fun n c => frow mod m s t (posF nu nd x n) c := by
  ext n c
  simp only [uSubmat, Matrix.of_apply, frow]
  rw [yPositions_eq mod h]

/-- The product of the two blocks is the determinant of the whole matrix. -/
theorem detValues_eq (mod : Module L nu nd M κ ι) {x : Cfg L} (h : HasElec nu nd x) (m : Fin M) (s : κ) (t : ι) :
    detValues mod x m s t = (uSubmat mod x m s t).det := by
  unfold detValues
  rcases mod with ⟨orbs, sym, chars, ct, out⟩
  cases orbs with
  | projected => rfl
  | generalised => rfl
  | fixedMag U_up U_dn =>
    simp only [evaluateSD]
    rw [uSubmat_eq _ h]
    set mod' : Module L nu nd M Unit ι := ⟨.fixedMag U_up U_dn, sym, chars, ct, out⟩ with hmod
    set A : Matrix (Fin (nu + nd)) (Fin (nu + nd)) ℂ := Matrix.of fun n c => frow mod' m s t (posF nu nd x n) c with hA
    have h12 : ∀ (i : Fin nu) (j : Fin nd), A (Fin.castAdd nd i) (Fin.natAdd nu j) = 0 := by
      intro i j
      obtain ⟨hl, e⟩ := posF_up (nd := nd) h i
      have h3 : posF nu nd x (Fin.castAdd nd i) = ((orb false ⟨_, siteList_lt false x i hl⟩).val : ℤ) := by
        rw [e, orb_val]; simp
      simp only [hA, Matrix.of_apply]
      rw [h3, frow_orb]
      simp [hmod, fullU, getFullU, orb]
    have h21 : ∀ (i : Fin nd) (j : Fin nu), A (Fin.natAdd nu i) (Fin.castAdd nd j) = 0 := by
      intro i j
      obtain ⟨hl, e⟩ := posF_down (nu := nu) h i
      have h3 : posF nu nd x (Fin.natAdd nu i) = ((orb true ⟨_, siteList_lt true x i hl⟩).val : ℤ) := by
        rw [e, orb_val]; simp
      simp only [hA, Matrix.of_apply]
      rw [h3, frow_orb]
      simp only [hmod, fullU, getFullU, orb, if_true, Fin.addCases_right, Fin.addCases_left]
    rw [← Matrix.det_submatrix_equiv_self finSumFinEquiv A]
    have hb : A.submatrix finSumFinEquiv finSumFinEquiv =
        Matrix.fromBlocks (A.submatrix (Fin.castAdd nd) (Fin.castAdd nd)) 0 0 (A.submatrix (Fin.natAdd nu) (Fin.natAdd nu)) := by
      ext i j
      rcases i with i | i <;> rcases j with j | j
      · rfl
      · exact h12 i j
      · exact h21 i j
      · rfl
    rw [hb, Matrix.det_fromBlocks_zero₂₁]

/-- C41 (the value of an evaluation from scratch): each determinant is that of the orbitals' rows at the occupied spin-orbitals in
increasing order (spin up before spin down), moved by the symmetry. -/
theorem C41_full (mod : Module L nu nd M κ ι) (x : Cfg L) (hx : numElec false x = nu ∧ numElec true x = nd) (m : Fin M) (s : κ)
    (t : ι) (up : Fin nu → Fin L) (dn : Fin nd → Fin L) (hup : StrictMono up) (hdn : StrictMono dn)
    (hu : ∀ i, hasSpin false (x i) = true ↔ ∃ n, up n = i) (hd : ∀ i, hasSpin true (x i) = true ↔ ∃ n, dn n = i) :
    detValues mod x m s t = (Matrix.of fun (n c : Fin (nu + nd)) =>
      fullU mod.orbs m (Fin.addCases (motive := fun _ => Fin (L + L)) (fun n => Fin.castAdd L (mod.symmetries t (up n)))
        (fun n => Fin.natAdd L (mod.symmetries t (dn n))) n) c s).det := by
  have hE : HasElec nu nd x := hx
  rw [detValues_eq mod hE, uSubmat_eq mod hE]
  set q : Fin (nu + nd) → ℤ := fun n =>
    Fin.addCases (motive := fun _ => ℤ) (fun n => ((orb false (up n)).val : ℤ)) (fun n => ((orb true (dn n)).val : ℤ)) n with hq
  have hqm : StrictMono q := by
    intro a b hab
    induction a using Fin.addCases with
    | left a =>
      induction b using Fin.addCases with
      | left b =>
        simp only [hq, Fin.addCases_left, orb_val]
        have := Fin.lt_def.mp (hup (show a < b from hab))
        simp only [Bool.false_eq_true, if_false]; omega
      | right b =>
        simp only [hq, Fin.addCases_left, Fin.addCases_right, orb_val]
        have := (up a).isLt
        simp only [Bool.false_eq_true, if_false, if_true]; omega
    | right a =>
      induction b using Fin.addCases with
      | left b =>
        have hab' := Fin.lt_def.mp hab
        rw [Fin.val_natAdd, Fin.val_castAdd] at hab'
        have := b.isLt
        omega
      | right b =>
        simp only [hq, Fin.addCases_right, orb_val]
        have hab' := Fin.lt_def.mp hab
        rw [Fin.val_natAdd, Fin.val_natAdd] at hab'
        have := Fin.lt_def.mp (hdn (show a < b from by rw [Fin.lt_def]; omega))
        simp only [if_true]; omega
  have hrange : Set.range (posF nu nd x) = Set.range q := by
    ext z
    rw [Set.mem_range, posF_range hE, Set.mem_range]
    constructor
    · rintro ⟨s, rfl, hs⟩
      obtain ⟨σ, i, rfl⟩ := orb_surj s
      rw [bits_orb] at hs
      cases σ with
      | false =>
        obtain ⟨n, rfl⟩ := (hu i).mp (by by_contra hc; simp [hc] at hs)
        exact ⟨Fin.castAdd nd n, by simp only [hq, Fin.addCases_left]⟩
      | true =>
        obtain ⟨n, rfl⟩ := (hd i).mp (by by_contra hc; simp [hc] at hs)
        exact ⟨Fin.natAdd nu n, by simp only [hq, Fin.addCases_right]⟩
    · rintro ⟨n, rfl⟩
      induction n using Fin.addCases with
      | left n => exact ⟨orb false (up n), by simp only [hq, Fin.addCases_left], by rw [bits_orb, if_pos ((hu _).mpr ⟨n, rfl⟩)]⟩
      | right n => exact ⟨orb true (dn n), by simp only [hq, Fin.addCases_right], by rw [bits_orb, if_pos ((hd _).mpr ⟨n, rfl⟩)]⟩
  have hpq : posF nu nd x = q := (StrictMono.range_inj (posF_strictMono hE) hqm).mp hrange
  rw [hpq]
  congr 1
  ext n c
  simp only [Matrix.of_apply]
  induction n using Fin.addCases with
  | left n => simp only [hq, Fin.addCases_left]; rw [frow_orb]; rfl
  | right n => simp only [hq, Fin.addCases_right]; rw [frow_orb]; rfl

section Update
variable (mod : Module L nu nd M κ ι) {x : Cfg L} {upd : List (Fin L × Fin 4)}

/-- Everything about the moved electrons needed below. -/
theorem moved (hp : Padded x upd) (h : HasElec nu nd x) (h' : HasElec nu nd (applyUpdate x upd)) :
    ∃ (k : ℕ) (els : Fin k → Fin (nu + nd)), k ≤ upd.length ∧ Function.Injective els ∧
      (∀ i, i < k → ∃ s : Fin (L + L), changeSites x upd (-1) i = (s.val : ℤ) ∧ bits x s = 0 ∧ bits (applyUpdate x upd) s = 1) ∧
      (∀ i j, i < k → j < k → changeSites x upd (-1) i = changeSites x upd (-1) j → i = j) ∧
      (∀ i : Fin k, changeSites x upd 1 i = posF nu nd x (els i) ∧ nonzeroEq (updates x upd) 1 upd.length i ≠ -1) ∧
      (∀ i, k ≤ i → changeSites x upd (-1) i = -1 ∧ changeSites x upd 1 i = -1) ∧
      (∀ n, (∀ i : Fin k, els i ≠ n) → ∃ s : Fin (L + L), (s.val : ℤ) = posF nu nd x n ∧ bits (applyUpdate x upd) s = 1) := by
  have hbal := found_balanced hp h h'
  have hle := found_le hp h h'
  set k := (found x upd (-1)).length with hk
  have hcr := changeSites_eq (x := x) (upd := upd) 1 (by omega)
  have hca := changeSites_eq (x := x) (upd := upd) (-1) hle
  have hrm : ∀ i : Fin k, ∃ n, posF nu nd x n = changeSites x upd 1 i := by
    intro i
    have hi : i.val < (found x upd 1).length := by have := i.isLt; omega
    rw [((hcr i).1 hi).2]
    obtain ⟨s, e, hs⟩ := (found_mem hp (v := 1) (by norm_num) _).mp ⟨_, List.getElem_mem hi, rfl⟩
    apply (posF_range h _).mpr
    refine ⟨s, e, ?_⟩
    rcases bits_zero_or_one x s with h1 | h1
    · rcases bits_zero_or_one (applyUpdate x upd) s with h2 | h2 <;> omega
    · exact h1
  choose els hels using hrm
  refine ⟨k, els, hle, ?_, ?_, ?_, ?_, ?_, ?_⟩
  · intro i j hij
    have hi : i.val < (found x upd 1).length := by have := i.isLt; omega
    have hj : j.val < (found x upd 1).length := by have := j.isLt; omega
    have e : changeSites x upd 1 i = changeSites x upd 1 j := by rw [← hels, ← hels, hij]
    rw [((hcr i).1 hi).2, ((hcr j).1 hj).2] at e
    have := found_inj hp (v := 1) (by norm_num) (List.getElem_mem hi) (List.getElem_mem hj) e
    exact Fin.ext ((List.Nodup.getElem_inj_iff (found_nodup 1)).mp this)
  · intro i hi
    rw [((hca i).1 hi).2]
    obtain ⟨s, e, hs⟩ := (found_mem hp (v := -1) (by norm_num) _).mp ⟨_, List.getElem_mem hi, rfl⟩
    refine ⟨s, e.symm, ?_⟩
    rcases bits_zero_or_one x s with h1 | h1 <;> rcases bits_zero_or_one (applyUpdate x upd) s with h2 | h2 <;> omega
  · intro i j hi hj e
    rw [((hca i).1 hi).2, ((hca j).1 hj).2] at e
    have := found_inj hp (v := -1) (by norm_num) (List.getElem_mem hi) (List.getElem_mem hj) e
    exact (List.Nodup.getElem_inj_iff (found_nodup (-1))).mp this
  · intro i
    have hi : i.val < (found x upd 1).length := by have := i.isLt; omega
    exact ⟨(hels i).symm, ((hcr i).1 hi).1⟩
  · intro i hi
    exact ⟨((hca i).2 (by omega)).2, ((hcr i).2 (by omega)).2⟩
  · intro n hn
    obtain ⟨s, e, hs⟩ := (posF_range h _).mp ⟨n, rfl⟩
    refine ⟨s, e, ?_⟩
    by_contra hc
    have hb : bits x s - bits (applyUpdate x upd) s = 1 := by
      rcases bits_zero_or_one (applyUpdate x upd) s with h2 | h2
      · omega
      · exact absurd h2 hc
    obtain ⟨j, hj, ej⟩ := (found_mem hp (v := 1) (by norm_num) (s.val : ℤ)).mpr ⟨s, rfl, hb⟩
    obtain ⟨i, hi, rfl⟩ := List.getElem_of_mem hj
    have hik : i < k := by omega
    apply hn ⟨i, hik⟩
    apply (posF_strictMono h).injective
    rw [hels, ← e, ← ej]
    exact ((hcr i).1 hi).2

/-- The fast evaluation of the determinants and of the inverses. -/
theorem fast_eq (hp : Padded x upd) (h : HasElec nu nd x) (h' : HasElec nu nd (applyUpdate x upd)) (m : Fin M) (s : κ) (t : ι)
    (hA : IsUnit (uSubmat mod x m s t)) :
    fastDetValues mod ((model mod).cacheOf x) upd m s t = detValues mod (applyUpdate x upd) m s t ∧
    (IsUnit (uSubmat mod (applyUpdate x upd) m s t) →
      fastInverses mod ((model mod).cacheOf x) upd m s t = (uSubmat mod (applyUpdate x upd) m s t)⁻¹) := by
  obtain ⟨k, els, hk, hels, hadd, hinj, hrm, hpad, hrest⟩ := moved (nu := nu) (nd := nd) hp h h'
  set c := (model mod).cacheOf x with hc
  set add := changeSites x upd (-1) with hadd_def
  set rm := changeSites x upd 1 with hrm_def
  set pos := posF nu nd x with hpos
  set A := uSubmat mod x m s t with hA_def
  have hmono : StrictMono pos := posF_strictMono h
  have hnew : ∀ i < k, ∀ n, pos n ≠ add i := by
    intro i hi n hn
    obtain ⟨z, e, hz, -⟩ := hadd i hi
    obtain ⟨z', e', hz'⟩ := (posF_range h _).mp ⟨n, rfl⟩
    have : z = z' := Fin.ext (by rw [hpos] at hn; omega)
    subst this
    omega
  have hadd0 : ∀ i < k, 0 ≤ add i := by
    intro i hi; obtain ⟨z, e, -⟩ := hadd i hi; omega
  have hpos0 : ∀ n, 0 ≤ pos n := by
    intro n; obtain ⟨z', e', -⟩ := (posF_range h _).mp ⟨n, rfl⟩; rw [hpos]; omega
  have hmask : ∀ i, add i ≠ -1 ↔ i < k := by
    intro i
    constructor
    · intro hi; by_contra hc; exact hi (hpad i (not_lt.mp hc)).1
    · intro hi hc; have := hadd0 i hi; omega
  have hmaskS : ∀ i, symSites mod t add i ≠ -1 ↔ i < k := by
    intro i
    unfold symSites
    constructor
    · intro hi
      by_contra hc
      rw [if_neg (fun h => hc ((hmask i).mp h))] at hi
      exact hi rfl
    · intro hi
      rw [if_pos ((hmask i).mpr hi)]
      obtain ⟨z, e, -⟩ := hadd i hi
      obtain ⟨σ, j, rfl⟩ := orb_surj z
      rw [e, symShift]
      omega
  have hel : ∀ i : Fin k, elIds c upd i = ((els i).val : ℤ) := by
    intro i
    unfold elIds
    change (if nonzeroEq (updates x upd) 1 upd.length i ≠ -1 then get (sitesToElectrons nu nd x) (rm i) else -1) = _
    rw [if_pos (hrm i).2, (hrm i).1]
    exact sitesToElectrons_eq h (els i)
  have hidx : ∀ i : Fin k, pyIdx (nu + nd) (elIds c upd i) = some (els i) := by
    intro i; rw [hel i, pyIdx_fin]
  have hget : ∀ (f : Fin (nu + nd) → ℂ) (i : Fin k), get f (elIds c upd i) = f (els i) := by
    intro f i; rw [hel i, get_fin]
  -- rows
  set rows : ℕ → Fin (nu + nd) → ℂ := fun i => frow mod m s t (add i) with hrows
  have hArow : ∀ n cc, A n cc = frow mod m s t (pos n) cc := by
    intro n cc; rw [hA_def, uSubmat_eq mod h]; rfl
  have hsymrow : ∀ (sites : ℕ → ℤ) (i : ℕ) (cc : Fin (nu + nd)), sites i ≠ -1 →
      get (fun r => fullU mod.orbs m r cc s) (symSites mod t sites i) = frow mod m s t (sites i) cc := by
    intro sites i cc hi
    unfold symSites frow
    rw [if_pos hi]
  set p := posAfter pos els add k with hp_def
  have hsum : A + eMat upd.length els * vMat upd.length els A rows = Matrix.of fun n cc => frow mod m s t (p n) cc := by
    ext n cc
    obtain ⟨h1, h2⟩ := add_changes upd.length els A rows hk hels n cc
    rcases posAfter_cases pos els add hels k n with ⟨i, _, hi, e⟩ | ⟨hi, e⟩
    · rw [h1 i hi, Matrix.of_apply, hp_def, e]
    · rw [h2 (fun i => hi i i.isLt), Matrix.of_apply, hp_def, e, hArow]
  -- the moved positions are those of the new configuration
  have hpinj : Function.Injective p := posAfter_injective pos els add hmono.injective hels hinj hnew k
  have hq := posF_strictMono h'
  have hpocc : ∀ n, ∃ n', posF nu nd (applyUpdate x upd) n' = p n := by
    intro n
    apply (posF_range h' _).mpr
    rcases posAfter_cases pos els add hels k n with ⟨i, _, hi, e⟩ | ⟨hi, e⟩
    · obtain ⟨z, e', -, hz⟩ := hadd i i.isLt
      exact ⟨z, by rw [hp_def, e, e'], hz⟩
    · obtain ⟨z, e', hz⟩ := hrest n (fun i => hi i i.isLt)
      exact ⟨z, by rw [hp_def, e, e'], hz⟩
  choose f hf using hpocc
  have hfinj : Function.Injective f := by
    intro n n' e; apply hpinj; rw [← hf, ← hf, e]
  set σ : Equiv.Perm (Fin (nu + nd)) := Equiv.ofBijective f (Finite.injective_iff_bijective.mp hfinj) with hσ
  have hpσ : ∀ n, p n = posF nu nd (applyUpdate x upd) (σ n) := fun n => (hf n).symm
  -- the determinant
  have hentry : ∀ i (j : Fin k), i < k →
      updateEntry c m s t (symSites mod t add i) (elIds c upd j) = ∑ cc, rows i cc * A⁻¹ cc (els j) := by
    intro i j hi
    have hi' : add i ≠ -1 := (hmask i).mpr hi
    obtain ⟨z, e, -⟩ := hadd i hi
    have hz : ∃ z' : Fin (L + L), symSites mod t add i = (z'.val : ℤ) := by
      obtain ⟨σ', j', rfl⟩ := orb_surj z
      refine ⟨orb σ' (mod.symmetries t j'), ?_⟩
      unfold symSites
      rw [if_pos hi', e, symShift]
    obtain ⟨z', hz'⟩ := hz
    have hrow : ∀ cc, rows i cc = fullU mod.orbs m z' cc s := by
      intro cc
      change frow mod m s t (add i) cc = _
      rw [← hsymrow add i cc hi', hz', get_fin]
    cases hct : mod.constant_time_updates with
    | true =>
      have : c.update_matrices = some fun m s t i n => ∑ k, fullU mod.orbs m i k s * (uSubmat mod x m s t)⁻¹ k n := by
        change (if mod.constant_time_updates then _ else _) = _
        rw [hct]; rfl
      simp only [updateEntry, this]
      rw [hz', get_fin, hget _ j]
      exact Finset.sum_congr rfl fun cc _ => by rw [hrow]
    | false =>
      have : c.update_matrices = none := by
        change (if mod.constant_time_updates then _ else _) = _
        rw [hct]; rfl
      simp only [updateEntry, this]
      apply Finset.sum_congr rfl
      intro cc _
      rw [hget _ j]
      change get (fun i => fullU mod.orbs m i cc s) _ * A⁻¹ cc (els j) = _
      rw [hz', get_fin, hrow]
  have hdet := det_update upd.length els A rows hA hels (symSites mod t add) (elIds c upd) _ (fun i _ => hmaskS i) hentry
  have hsign : signUpdate c upd = invSign p := by
    unfold signUpdate
    change ((List.range upd.length).foldl (signStep add rm) (1, fun j => get (cumCount x) (add j), fun j => get (cumCount x) (rm j))).1 = _
    apply signLoop pos els add hmono.injective hels hinj hnew rm hmono (fun i => (hrm i).1) hpad _ _ _ _ _ _ _ hk
    · intro i
      by_cases hi : i < k
      · have e := (hrm ⟨i, hi⟩).1
        have := hpos0 (els ⟨i, hi⟩)
        have := hadd0 i hi
        simp only at e
        constructor <;> omega
      · have := hpad i (not_lt.mp hi)
        omega
    · intro i hi
      obtain ⟨z, e, -⟩ := hadd i hi
      rw [e, get_fin, cumCount_eq h]
    · intro i hi
      have e := (hrm ⟨i, hi⟩).1
      simp only at e
      obtain ⟨z, e', -⟩ := (posF_range h _).mp ⟨els ⟨i, hi⟩, rfl⟩
      rw [e, hpos, ← e', get_fin, cumCount_eq h]
    · intro i hi
      rw [(hpad i hi).1, (hpad i hi).2]
  have hsorted := det_sorted (frow mod m s t) p _ hq σ hpσ
  refine ⟨?_, ?_⟩
  · rw [detValues_eq mod h', uSubmat_eq mod h']
    have hcd : c.log_dets m s t = A.det := detValues_eq mod h m s t
    unfold fastDetValues
    dsimp only
    rw [hcd, hsign]
    change determinantUpdate upd.length (symSites mod t add) (elIds c upd) _ * A.det * _ = _
    rw [hdet, hsum, hsorted]
    have := invSign_sq p
    have h1 : (invSign p : ℂ) * (invSign p : ℂ) = 1 := by exact_mod_cast this
    linear_combination (Matrix.of fun i j => frow mod m s t (posF nu nd (applyUpdate x upd) i) j).det * h1
  · intro hunit
    have hdet' : IsUnit (A + eMat upd.length els * vMat upd.length els A rows) := by
      rw [hsum, Matrix.isUnit_iff_isUnit_det, hsorted]
      rw [uSubmat_eq mod h', Matrix.isUnit_iff_isUnit_det] at hunit
      apply IsUnit.mul _ hunit
      have := invSign_sq p
      have h1 : (invSign p : ℂ) * (invSign p : ℂ) = 1 := by exact_mod_cast this
      exact IsUnit.of_mul_eq_one _ h1
    have hinv := inverse_update upd.length els A rows hA (symSites mod t add) (symSites mod t rm) (elIds c upd)
      (fun r k => fullU mod.orbs m r k s) (fun i _ => hmaskS i) hidx
      (fun i hi cc => hsymrow add i cc ((hmask i).mpr hi))
      (fun i cc => by
        have hri : rm i ≠ -1 := by rw [(hrm i).1]; have := hpos0 (els i); omega
        rw [hsymrow rm i cc hri, hArow, (hrm i).1]) hdet'
    have hpermpos : updateElPos upd.length add (elIds c upd) (nu + nd) (fun i => elPositions nu nd x i) = p := by
      unfold updateElPos
      have hcount : ((List.range upd.length).filter fun i => add i ≠ -1).length = k := by
        have : (List.range upd.length).filter (fun i => decide (add i ≠ -1)) = List.range k := by
          have h1 : ∀ n, k ≤ n → (List.range n).filter (fun i => decide (add i ≠ -1)) = List.range k := by
            intro n hn
            induction n, hn using Nat.le_induction with
            | base =>
              rw [List.filter_eq_self]
              intro i hi
              simpa using (hmask i).mpr (List.mem_range.mp hi)
            | succ n hn ih =>
              rw [List.range_succ, List.filter_append, ih]
              have : add n = -1 := (hpad n hn).1
              simp [this]
          exact h1 _ hk
        rw [this, List.length_range]
      rw [hcount, hp_def]
      have h2 : ∀ j ≤ k, (List.range j).foldl
          (fun pos i => fun n => if pyIdx (nu + nd) (elIds c upd i) = some n then add i else pos n) pos = posAfter pos els add j := by
        intro j hj
        induction j with
        | zero => rfl
        | succ j ih =>
          rw [List.range_succ, List.foldl_append, List.foldl_cons, List.foldl_nil, ih (by omega)]
          simp only [posAfter]
          rw [dif_pos (by omega)]
          funext n
          rw [hidx ⟨j, by omega⟩]
          by_cases hn : els ⟨j, by omega⟩ = n
          · subst hn; simp
          · rw [if_neg (fun he => hn (Option.some.inj he)), Function.update_of_ne (Ne.symm hn)]
      exact h2 k le_rfl
    have hsortmono : StrictMono (p ∘ Tuple.sort p) :=
      (Tuple.monotone_sort p).strictMono_of_injective (hpinj.comp (Tuple.sort p).injective)
    have hsorteq : p ∘ Tuple.sort p = posF nu nd (applyUpdate x upd) := by
      apply (StrictMono.range_inj hsortmono hq).mp
      rw [Set.range_comp, Equiv.range_eq_univ, Set.image_univ]
      have : p = posF nu nd (applyUpdate x upd) ∘ σ := funext hpσ
      rw [this, Set.range_comp, Equiv.range_eq_univ, Set.image_univ]
    change (updateInverse upd.length (symSites mod t add) (symSites mod t rm) (elIds c upd) (fun r k => fullU mod.orbs m r k s)
      A⁻¹).submatrix id (Tuple.sort (updateElPos upd.length add (elIds c upd) (nu + nd) fun i => elPositions nu nd x i)) = _
    rw [hpermpos, hinv, uSubmat_eq mod h']
    have h3 : (Matrix.of fun n cc => frow mod m s t (posF nu nd (applyUpdate x upd) n) cc) =
        (A + eMat upd.length els * vMat upd.length els A rows).submatrix (Tuple.sort p) (Equiv.refl _) := by
      rw [hsum]
      ext n cc
      rw [Matrix.submatrix_apply, Matrix.of_apply, Matrix.of_apply, ← hsorteq]
      rfl
    rw [h3, Matrix.inv_submatrix_equiv]
    rfl

end Update

/-- C41: for every update list whose repeated sites are padding dummies, between configurations with the right electron numbers
and non-singular orbital matrices, the fast evaluation gives the value of an evaluation from scratch on the updated configuration, and
the stored variables (inverses, update matrices, tables, determinants) are those stored by an evaluation from scratch. -/
theorem C41_fast_update (mod : Module L nu nd M κ ι) : (model mod).CoherentOn fun x upd =>
    Padded x upd ∧ (numElec false x = nu ∧ numElec true x = nd) ∧
    (numElec false (applyUpdate x upd) = nu ∧ numElec true (applyUpdate x upd) = nd) ∧
    (∀ m s t, IsUnit (uSubmat mod x m s t)) ∧ ∀ m s t, IsUnit (uSubmat mod (applyUpdate x upd) m s t) := by
  intro x upd ⟨hp, h, h', hA, hA'⟩
  have hv : fastDetValues mod ((model mod).cacheOf x) upd = detValues mod (applyUpdate x upd) := by
    funext m s t; exact (fast_eq mod hp h h' m s t (hA m s t)).1
  have hi : fastInverses mod ((model mod).cacheOf x) upd = fun m s t => (uSubmat mod (applyUpdate x upd) m s t)⁻¹ := by
    funext m s t; exact (fast_eq mod hp h h' m s t (hA m s t)).2 (hA' m s t)
  refine ⟨?_, ?_⟩
  · change mod.out_transformation _ = mod.out_transformation _
    rw [hv]
  · change store mod _ (fastInverses mod ((model mod).cacheOf x) upd) (setSites x upd.reverse) (fastDetValues mod ((model mod).cacheOf x) upd) = _
    rw [hv, hi]
    have : setSites x upd.reverse = applyUpdate x upd := by rw [applyUpdate_foldr]; rfl
    rw [this]
    rfl

/-- The value alone needs only the current orbital matrix to be non-singular. -/
theorem C41_fast_value (mod : Module L nu nd M κ ι) (x : Cfg L) (upd : List (Fin L × Fin 4)) (hp : Padded x upd)
    (h : numElec false x = nu ∧ numElec true x = nd)
    (h' : numElec false (applyUpdate x upd) = nu ∧ numElec true (applyUpdate x upd) = nd)
    (hA : ∀ m s t, IsUnit (uSubmat mod x m s t)) :
    (model mod).fast ((model mod).cacheOf x) upd = (model mod).full (applyUpdate x upd) := by
  have hv : fastDetValues mod ((model mod).cacheOf x) upd = detValues mod (applyUpdate x upd) := by
    funext m s t; exact (fast_eq mod hp h h' m s t (hA m s t)).1
  change mod.out_transformation _ = mod.out_transformation _
  rw [hv]

/-- C41 over histories: after any sequence of such updates the cache is the one of an evaluation from scratch on the current
configuration. -/
theorem C41_history (mod : Module L nu nd M κ ι) (x : Cfg L) (upds : List (List (Fin L × Fin 4)))
    (hx : (numElec false x = nu ∧ numElec true x = nd) ∧ ∀ m s t, IsUnit (uSubmat mod x m s t))
    (hs : ∀ pre upd post, upds = pre ++ upd :: post → Padded (pre.foldl applyUpdate x) upd ∧
      (numElec false ((pre ++ [upd]).foldl applyUpdate x) = nu ∧ numElec true ((pre ++ [upd]).foldl applyUpdate x) = nd) ∧
      ∀ m s t, IsUnit (uSubmat mod ((pre ++ [upd]).foldl applyUpdate x) m s t)) :
    upds.foldl (model mod).fastCache ((model mod).cacheOf x) = (model mod).cacheOf (upds.foldl applyUpdate x) := by
  induction upds generalizing x with
  | nil => rfl
  | cons upd rest ih =>
    obtain ⟨hp, hn, hu⟩ := hs [] upd rest rfl
    simp only [List.nil_append, List.foldl_cons, List.foldl_nil] at hp hn hu
    rw [List.foldl_cons, List.foldl_cons, (C41_fast_update mod x upd ⟨hp, hx.1, hn, hx.2, hu⟩).2]
    apply ih _ ⟨hn, hu⟩
    intro pre u post he
    exact hs (upd :: pre) u post (by rw [he]; rfl)

/-- C61: the orbitals used for the `S²` projection are the spinor orbitals rotated by the angle in the spin space of every site:
with `u` and `d` the spin-up and spin-down components, the rotated components are `cos(θ/2) u - sin(θ/2) d` and
`sin(θ/2) u + cos(θ/2) d`, in every column. -/
theorem C61_rotation (U_up : Fin M → Fin L → Fin nu → ℂ) (U_dn : Fin M → Fin L → Fin nd → ℂ) (angle : κ → ℝ) (m : Fin M) (s : κ)
    (i : Fin L) (j : Fin (nu + nd)) :
    fullU (.projected U_up U_dn angle) m (Fin.castAdd L i) j s =
      Complex.cos (angle s / 2) * fullU (.fixedMag U_up U_dn) m (Fin.castAdd L i) j () -
        Complex.sin (angle s / 2) * fullU (.fixedMag U_up U_dn) m (Fin.natAdd L i) j () ∧
    fullU (.projected U_up U_dn angle) m (Fin.natAdd L i) j s =
      Complex.sin (angle s / 2) * fullU (.fixedMag U_up U_dn) m (Fin.castAdd L i) j () +
        Complex.cos (angle s / 2) * fullU (.fixedMag U_up U_dn) m (Fin.natAdd L i) j () := by
  induction j using Fin.addCases <;>
    constructor <;>
    simp only [fullU, applyRotation, getFullU, Fin.addCases_left, Fin.addCases_right] <;> push_cast <;> ring

/-- The rotation of a general orbital matrix, as written, is not a rotation: the signs are right only because the blocks mixing
spin and electron columns vanish (the code asserts fixed magnetization). -/
theorem C61_general_fails : ∃ (F : Fin (1 + 1) → Fin (1 + 0) → ℂ) (θ : ℝ),
    applyRotation F θ (Fin.castAdd 1 0) 0 ≠
      Complex.cos (θ / 2) * F (Fin.castAdd 1 0) 0 - Complex.sin (θ / 2) * F (Fin.natAdd 1 0) 0 := by
  refine ⟨fun _ _ => 1, Real.pi, ?_⟩
  have e0 : (0 : Fin (1 + 0)) = Fin.castAdd 0 (0 : Fin 1) := rfl
  rw [e0]
  simp only [applyRotation, Fin.addCases_left]
  simp
  norm_num

/-- A Slater determinant on two sites with one electron of each spin. -/
noncomputable def exModule : Module 2 1 1 1 Unit Unit where
  orbs := .fixedMag (fun _ i _ => (i.val + 1 : ℕ)) (fun _ i _ => (i.val + 2 : ℕ))
  symmetries _ i := i
  chars _ := 1
  constant_time_updates := true
  out_transformation a := a 0 () ()

theorem exModule_unit (x : Cfg 2) (i : Fin 2) (h : numElec false x = 1 ∧ numElec true x = 1)
    (hu : ∀ j, hasSpin false (x j) = true ↔ i = j) (hd : ∀ j, hasSpin true (x j) = true ↔ i = j) :
    IsUnit (uSubmat exModule x 0 () ()) := by
  rw [Matrix.isUnit_iff_isUnit_det, ← detValues_eq exModule h,
    C41_full exModule x h 0 () () (fun _ => i) (fun _ => i) (fun a b hab => absurd hab (by simp [Subsingleton.elim a b]))
      (fun a b hab => absurd hab (by simp [Subsingleton.elim a b])) (fun j => by rw [hu j]; simp) (fun j => by rw [hd j]; simp)]
  rw [isUnit_iff_ne_zero, Matrix.det_fin_two]
  simp only [Matrix.of_apply]
  have e0 : (0 : Fin (1 + 1)) = Fin.castAdd 1 (0 : Fin 1) := rfl
  have e1 : (1 : Fin (1 + 1)) = Fin.natAdd 1 (0 : Fin 1) := rfl
  rw [e0, e1]
  simp only [Fin.addCases_left, Fin.addCases_right, exModule, fullU, getFullU, mul_zero, sub_zero]
  norm_cast

/-- The hypotheses of C41 hold for the move of both electrons of that model from site 0 to site 1, listed with dummies. -/
example : Padded (![3, 0] : Cfg 2) [(0, 0), (1, 3), (0, 3), (1, 0)] ∧
    (numElec false (![3, 0] : Cfg 2) = 1 ∧ numElec true (![3, 0] : Cfg 2) = 1) ∧
    (numElec false (applyUpdate (![3, 0] : Cfg 2) [(0, 0), (1, 3), (0, 3), (1, 0)]) = 1 ∧
      numElec true (applyUpdate (![3, 0] : Cfg 2) [(0, 0), (1, 3), (0, 3), (1, 0)]) = 1) ∧
    (∀ m s t, IsUnit (uSubmat exModule ![3, 0] m s t)) ∧
    ∀ m s t, IsUnit (uSubmat exModule (applyUpdate ![3, 0] [(0, 0), (1, 3), (0, 3), (1, 0)]) m s t) := by
  refine ⟨?_, by decide, by decide, fun m s t => ?_, fun m s t => ?_⟩
  · simp only [Padded, List.pairwise_cons, List.Pairwise.nil, and_true]; decide
  · rw [Subsingleton.elim m 0]; exact exModule_unit _ 0 (by decide) (by decide) (by decide)
  · rw [Subsingleton.elim m 0]; exact exModule_unit _ 1 (by decide) (by decide) (by decide)

end GPSKet.Props
