import Verif.Props.Correlations

/-! # C95: the correlations that `corrfunc.py` computes from the saved arrays -/

namespace GPSKet.Rdms

open Spec

variable {L : ℕ} {Cache : Type}

section Entries

variable {I : Type} [DecidableEq I]

theorem adds_append (l l' : List (I × ℂ)) (u : I) : rdmAdds (l ++ l') u = rdmAdds l u + rdmAdds l' u := by
  unfold rdmAdds; rw [List.map_append, List.sum_append]

theorem adds_none (l : List (I × ℂ)) (u : I) (h : ∀ v ∈ l, v.1 ≠ u) : rdmAdds l u = 0 := by
  unfold rdmAdds
  induction l with
  | nil => rfl
  | cons v l ih =>
    rw [List.map_cons, List.sum_cons, if_neg (h v (by simp)), zero_add]
    exact ih fun w hw => h w (by simp [hw])

theorem adds_flatMap {α : Type} [DecidableEq α] (l : List α) (hl : l.Nodup) (F : α → List (I × ℂ)) (u : I) (a : α)
    (h : ∀ i, i ≠ a → ∀ v ∈ F i, v.1 ≠ u) : rdmAdds (l.flatMap F) u = if a ∈ l then rdmAdds (F a) u else 0 := by
  induction l with
  | nil => simp [rdmAdds]
  | cons i l ih =>
    rw [List.flatMap_cons, adds_append, ih (List.nodup_cons.mp hl).2]
    by_cases hi : i = a
    · subst hi
      rw [if_neg (List.nodup_cons.mp hl).1]; simp
    · rw [adds_none _ _ (h i hi), zero_add]
      simp [Ne.symm hi]

theorem adds_map {α : Type} [DecidableEq α] (l : List α) (hl : l.Nodup) (F : α → I × ℂ) (u : I) (a : α)
    (h : ∀ i, (F i).1 = u ↔ i = a) : rdmAdds (l.map F) u = if a ∈ l then (F a).2 else 0 := by
  have := adds_flatMap l hl (fun i => [F i]) u a (by
    intro i hi v hv
    rw [List.mem_singleton] at hv
    rw [hv]
    exact fun e => hi ((h i).mp e))
  have e : l.map F = l.flatMap fun i => [F i] := by
    induction l with
    | nil => rfl
    | cons i l ih =>
      rw [List.map_cons, List.flatMap_cons, List.map_eq_flatMap]; rfl
  rw [e, this]
  simp [rdmAdds, (h a).mpr rfl]

end Entries

/-- Indicator of an entry of a list. -/
def ind (l : List (Fin L)) (a : Fin L) : ℂ := if a ∈ l then 1 else 0

theorem adds_diag (l l' : List (Fin L)) (hl : l.Nodup) (hl' : l'.Nodup) (c : ℂ) (a b : Fin L) :
    rdmAdds (l.flatMap fun i => l'.map fun j => ((i, i, j, j), c)) (a, a, b, b) = ind l a * ind l' b * c := by
  rw [adds_flatMap l hl _ _ a, adds_map l' hl' _ _ b]
  · unfold ind; by_cases h1 : a ∈ l <;> by_cases h2 : b ∈ l' <;> simp [h1, h2]
  · intro i; simp
  · intro i hi v hv
    obtain ⟨j, _, rfl⟩ := List.mem_map.mp hv
    simp [hi]

theorem adds_exch (l l' : List (Fin L)) (hl : l.Nodup) (hl' : l'.Nodup) (c : ℂ) (a b : Fin L) :
    rdmAdds (l.flatMap fun i => l'.map fun j => ((i, j, j, i), c)) (a, b, b, a) = ind l a * ind l' b * c := by
  rw [adds_flatMap l hl _ _ a, adds_map l' hl' _ _ b]
  · unfold ind; by_cases h1 : a ∈ l <;> by_cases h2 : b ∈ l' <;> simp [h1, h2]
  · intro i; simp
  · intro i hi v hv
    obtain ⟨j, _, rfl⟩ := List.mem_map.mp hv
    simp [hi]

theorem adds_mixed (l m l' m' : List (Fin L)) (hl : l.Nodup) (hm : m.Nodup) (hl' : l'.Nodup) (hm' : m'.Nodup)
    (f : Fin L → Fin L → Fin L → Fin L → ℂ) (a b c d : Fin L) :
    rdmAdds (l.flatMap fun i => m.flatMap fun a => l'.flatMap fun j => m'.map fun b => ((i, a, j, b), f i a j b)) (a, b, c, d)
      = ind l a * ind m b * ind l' c * ind m' d * f a b c d := by
  rw [adds_flatMap l hl _ _ a, adds_flatMap m hm _ _ b, adds_flatMap l' hl' _ _ c, adds_map m' hm' _ _ d]
  · unfold ind
    by_cases h1 : a ∈ l <;> by_cases h2 : b ∈ m <;> by_cases h3 : c ∈ l' <;> by_cases h4 : d ∈ m' <;> simp [h1, h2, h3, h4]
  · intro i; simp
  · intro i hi v hv
    obtain ⟨j, _, rfl⟩ := List.mem_map.mp hv
    simp [hi]
  · intro i hi v hv
    obtain ⟨j, _, hj⟩ := List.mem_flatMap.mp hv
    obtain ⟨k, _, rfl⟩ := List.mem_map.mp hj
    simp [hi]
  · intro i hi v hv
    obtain ⟨j, _, hj⟩ := List.mem_flatMap.mp hv
    obtain ⟨k, _, hk⟩ := List.mem_flatMap.mp hj
    obtain ⟨k, _, rfl⟩ := List.mem_map.mp hk
    simp [hi]

/-- The one-body terms do not contribute to the entries `(a, a, b, b)` and `(a, b, b, a)`. -/
theorem one_none {O O' V : List (Fin L)} (hd : ∀ i ∈ O, i ∉ V) (r : Fin L → Fin L → ℂ) {a b : Fin L} :
    rdmAdds (O.flatMap fun i => V.flatMap fun v => oneAdds (r i v) O O' V i v) (a, a, b, b) = 0 ∧
    rdmAdds (O.flatMap fun i => V.flatMap fun v => oneAdds (r i v) O O' V i v) (a, b, b, a) = 0 := by
  constructor <;>
  · refine adds_none _ _ fun w hw => ?_
    obtain ⟨i, hi, hw⟩ := List.mem_flatMap.mp hw
    obtain ⟨v, hv, hw⟩ := List.mem_flatMap.mp hw
    have hiv : i ≠ v := fun e => hd i hi (e ▸ hv)
    unfold oneAdds at hw
    simp only [List.mem_append, List.mem_map] at hw
    rcases hw with ((⟨k, hk, rfl⟩ | ⟨k, hk, rfl⟩) | ⟨k, hk, rfl⟩) | ⟨k, hk, rfl⟩ <;>
    · simp only [ne_eq, Prod.mk.injEq, not_and]
      intro e1 e2 e3 e4
      subst_vars
      exact hiv rfl

theorem same_none (src : AmpSource L (Fin 4) Cache) (x : Cfg L) (d : ℤ) (count : ℕ → ℤ) {O V : List (Fin L)} (hd : ∀ i ∈ O, i ∉ V)
    {a b : Fin L} :
    rdmAdds (sameAdds src x d count O V) (a, a, b, b) = 0 ∧ rdmAdds (sameAdds src x d count O V) (a, b, b, a) = 0 := by
  constructor <;>
  · refine adds_none _ _ fun w hw => ?_
    unfold sameAdds at hw
    obtain ⟨i, hi, hw⟩ := List.mem_flatMap.mp hw
    obtain ⟨v, hv, hw⟩ := List.mem_flatMap.mp hw
    obtain ⟨j, hj, hw⟩ := List.mem_flatMap.mp hw
    obtain ⟨c, hc, rfl⟩ := List.mem_map.mp hw
    simp only [ne_eq, Prod.mk.injEq, not_and]
    intro e1 e2 e3 e4
    subst_vars
    first
      | exact hd _ hi hv
      | exact hd _ (List.mem_filter.mp hj).1 hv

theorem diag_none (l l' : List (Fin L)) (c : ℂ) {a b : Fin L} (hab : a ≠ b) :
    rdmAdds (l.flatMap fun i => l'.map fun j => ((i, i, j, j), c)) (a, b, b, a) = 0 := by
  refine adds_none _ _ fun w hw => ?_
  obtain ⟨i, hi, hw⟩ := List.mem_flatMap.mp hw
  obtain ⟨j, hj, rfl⟩ := List.mem_map.mp hw
  simp only [ne_eq, Prod.mk.injEq, not_and]
  intro e1 e2
  exact absurd (e1.symm.trans e2) hab

theorem exch_none (l l' : List (Fin L)) (c : ℂ) {a b : Fin L} (hab : a ≠ b) :
    rdmAdds (l.flatMap fun i => l'.map fun j => ((i, j, j, i), c)) (a, a, b, b) = 0 := by
  refine adds_none _ _ fun w hw => ?_
  obtain ⟨i, hi, hw⟩ := List.mem_flatMap.mp hw
  obtain ⟨j, hj, rfl⟩ := List.mem_map.mp hw
  simp only [ne_eq, Prod.mk.injEq, not_and]
  intro e1 e2 e3
  exact absurd (e2.symm.trans e3) hab

/-- Is there an electron of the spin on the site? -/
def nOcc (s : Bool) (x : Cfg L) (a : Fin L) : ℂ := if hasSpin s (x a) then 1 else 0

theorem ind_occ (x : Cfg L) (s : Bool) (a : Fin L) : ind (occInds x (spinInt s)) a = nOcc s x a := by
  unfold ind nOcc
  have : a ∈ occInds x (spinInt s) ↔ hasSpin s (x a) = true := by
    rw [← List.mem_toFinset, occInds_toFinset, mem_occ]; rfl
  simp only [this]

theorem ind_unocc (x : Cfg L) (s : Bool) (a : Fin L) : ind (unoccInds x (spinInt s)) a = 1 - nOcc s x a := by
  unfold ind nOcc
  have : a ∈ unoccInds x (spinInt s) ↔ hasSpin s (x a) = false := by
    rw [← List.mem_toFinset, unoccInds_toFinset, mem_empty]; rfl
  simp only [this]
  by_cases h : hasSpin s (x a) = true <;> simp [h]

theorem occ_disj (x : Cfg L) (s : Bool) : ∀ i ∈ occInds x (spinInt s), i ∉ unoccInds x (spinInt s) := by
  intro i hi hi'
  rw [← List.mem_toFinset, occInds_toFinset] at hi
  rw [← List.mem_toFinset, unoccInds_toFinset] at hi'
  have h1 := mem_occ.mp hi
  rw [mem_empty.mp hi'] at h1
  exact absurd h1 (by simp)

theorem local_entries (src : AmpSource L (Fin 4) Cache) (x : Cfg L) {a b : Fin L} (hab : a ≠ b) :
    (abLocalRDMs src (numElec false x, numElec true x) x).2 (a, a, b, b)
      = nOcc false x a * nOcc true x b + 1 / 2 * (nOcc false x a * nOcc false x b + nOcc true x a * nOcc true x b) ∧
    (abLocalRDMs src (numElec false x, numElec true x) x).2 (a, b, b, a)
      = 1 / 2 * (nOcc false x a * (1 - nOcc false x b) + nOcc true x a * (1 - nOcc true x b))
        + nOcc false x a * (1 - nOcc false x b) * nOcc true x b * (1 - nOcc true x a)
          * mixedRatio src x (cumsum (isOcc x (spinInt false))) (cumsum (isOcc x (spinInt true))) a b b a := by
  unfold abLocalRDMs
  rw [show (1 : Fin 4) = spinInt false from rfl, show (2 : Fin 4) = spinInt true from rfl]
  simp only [nonzeroSize_eq _ _ (occInds_length x false), nonzeroSize_eq _ _ (occInds_length x true),
    nonzeroSize_eq (unoccInds x (spinInt false)) (L - numElec false x) (by have := unoccInds_length x false; omega), nonzeroSize_eq (unoccInds x (spinInt true)) (L - numElec true x) (by have := unoccInds_length x true; omega)]
  unfold eriAdds
  have nu := occInds_nodup x (spinInt false)
  have nd := occInds_nodup x (spinInt true)
  have nu' := unoccInds_nodup x (spinInt false)
  have nd' := unoccInds_nodup x (spinInt true)
  have du := occ_disj x false
  have dd := occ_disj x true
  simp only [adds_append]
  rw [show (1 : Fin 4) = spinInt false from rfl, show (2 : Fin 4) = spinInt true from rfl]
  constructor
  · rw [adds_diag _ _ nu nd, adds_diag _ _ nu nu, adds_diag _ _ nd nd, exch_none _ _ _ hab, exch_none _ _ _ hab, (one_none du _).1,
      (one_none dd _).1, (same_none src x _ _ du).1, (same_none src x _ _ dd).1, adds_mixed _ _ _ _ nu nu' nd nd']
    simp only [ind_occ, ind_unocc]
    have : nOcc false x a * (1 - nOcc false x a) = 0 := by unfold nOcc; by_cases h : hasSpin false (x a) = true <;> simp [h]
    rw [this]; ring
  · rw [diag_none _ _ _ hab, diag_none _ _ _ hab, diag_none _ _ _ hab, adds_exch _ _ nu nu', adds_exch _ _ nd nd', (one_none du _).2,
      (one_none dd _).2, (same_none src x _ _ du).2, (same_none src x _ _ dd).2, adds_mixed _ _ _ _ nu nu' nd nd']
    simp only [ind_occ, ind_unocc]
    ring

/-! ### Local estimators of products of two hops -/

/-- `c†_pσ c_qσ c†_rτ c_sτ` -/
def op2 (σ : Bool) (p q : Fin L) (τ : Bool) (r s : Fin L) : Op L :=
  cre (mode σ p) * ann (mode σ q) * (cre (mode τ r) * ann (mode τ s))

theorem numTot_op2 (s σ : Bool) (p q : Fin L) (τ : Bool) (r t : Fin L) :
    numTot s * op2 σ p q τ r t = op2 σ p q τ r t * numTot s :=
  numTot_mul (numTot_bil s σ p q) (numTot_bil s τ r t)

theorem T_sum_right (p q : Mode L) (g : Occ (Mode L) → ℂ) (n : Occ (Mode L)) (M : Op L) (f : Occ (Mode L) → ℂ)
    (hg : ∀ m, g m = ∑ n', f n' * toK ℂ M m n') : T p q g n = ∑ n', f n' * toK ℂ (cre p * ann q * M) n n' := by
  rw [show g = fun m => ∑ n', f n' * toK ℂ M m n' from funext hg]
  rw [T_sum p q Finset.univ f (fun n' m => toK ℂ M m n') n]
  exact Finset.sum_congr rfl fun n' _ => by rw [T_row]

theorem local_op2 (src : AmpSource L (Fin 4) Cache) (x : Cfg L) (σ : Bool) (p q : Fin L) (τ : Bool) (r s : Fin L) :
    localEnergy (fun x' => (op2 σ p q τ r s (occOf x) (occOf x') : ℂ)) src.logAmp x
      = T (mode σ p) (mode σ q) (T (mode τ r) (mode τ s) (ratioF src x)) (occOf x) := by
  have h1 : ∀ m, ratioF src x m = ∑ n', ratioF src x n' * toK ℂ (1 : Op L) m n' := by
    intro m
    simp [toK, Matrix.one_apply]
  have h2 : ∀ m, T (mode τ r) (mode τ s) (ratioF src x) m = ∑ n', ratioF src x n' * toK ℂ (cre (mode τ r) * ann (mode τ s) : Op L) m n' := by
    intro m
    rw [T_sum_right _ _ _ _ 1 _ h1, Matrix.mul_one]
  rw [T_sum_right _ _ _ _ _ _ h2, sum_occ]
  unfold localEnergy op2
  refine Finset.sum_congr rfl fun x' _ => ?_
  rw [ratioF_apply, toK, Matrix.map_apply, mul_comm]

theorem local_exc (src : AmpSource L (Fin 4) Cache) (x : Cfg L) (a : Fin L) :
    localEnergy (fun x' => (exc a a (occOf x) (occOf x') : ℂ)) src.logAmp x = nOcc false x a + nOcc true x a := by
  have h1 : ∀ m, ratioF src x m = ∑ n', ratioF src x n' * toK ℂ (1 : Op L) m n' := by
    intro m
    simp [toK, Matrix.one_apply]
  have h2 : ∀ σ, localEnergy (fun x' => ((cre (mode σ a) * ann (mode σ a) : Op L) (occOf x) (occOf x') : ℂ)) src.logAmp x = nOcc σ x a := by
    intro σ
    have e := T_sum_right (mode σ a) (mode σ a) _ (occOf x) 1 _ h1
    rw [Matrix.mul_one, T_self, ratioF_self, sum_occ] at e
    unfold nOcc
    rw [show hasSpin σ (x a) = occOf x (mode σ a) from rfl, e]
    unfold localEnergy
    refine Finset.sum_congr rfl fun x' _ => ?_
    rw [ratioF_apply, toK, Matrix.map_apply, mul_comm]
  unfold exc
  rw [← localEnergy_sum, Fintype.sum_bool, h2, h2, add_comm]

theorem local_num (src : AmpSource L (Fin 4) Cache) (x : Cfg L) (σ τ : Bool) (a b : Fin L) :
    localEnergy (fun x' => (op2 σ a a τ b b (occOf x) (occOf x') : ℂ)) src.logAmp x = nOcc σ x a * nOcc τ x b := by
  rw [local_op2, T_self, T_self, ratioF_self]
  have h1 : ∀ s (i : Fin L), occOf x (mode s i) = hasSpin s (x i) := fun _ _ => rfl
  unfold nOcc
  rw [h1, h1]
  by_cases ha : hasSpin σ (x a) = true <;> by_cases hb : hasSpin τ (x b) = true <;> simp [ha, hb]

theorem local_mixed (src : AmpSource L (Fin 4) Cache) (x : Cfg L) (hs : src.OkPaddedAt x) {a b : Fin L} (hab : a ≠ b) :
    nOcc false x a * (1 - nOcc false x b) * nOcc true x b * (1 - nOcc true x a)
        * mixedRatio src x (cumsum (isOcc x (spinInt false))) (cumsum (isOcc x (spinInt true))) a b b a
      = localEnergy (fun x' => (op2 false a b true b a (occOf x) (occOf x') : ℂ)) src.logAmp x := by
  rw [local_op2]
  have h1 : ∀ s (i : Fin L), occOf x (mode s i) = hasSpin s (x i) := fun _ _ => rfl
  have hm : ∀ i j : Fin L, mode (L := L) false i ≠ mode true j := by
    intro i j h; have := mode_inj.mp h; simp at this
  have hba : mode false b ≠ mode false a := by
    intro h; exact hab (mode_inj.mp h).2.symm
  have hab' : mode true a ≠ mode true b := by
    intro h; exact hab (mode_inj.mp h).2
  by_cases c1 : hasSpin false (x a) = true
  · by_cases c2 : hasSpin false (x b) = true
    · rw [T_occ hba _ _ ((h1 _ _).trans c2)]; simp [nOcc, c2]
    · by_cases c3 : hasSpin true (x b) = true
      · by_cases c4 : hasSpin true (x a) = true
        · rw [T_T_comm (hm _ _) (hm _ _), T_occ hab' _ _ ((h1 _ _).trans c4)]; simp [nOcc, c4]
        · rw [mixedRatio_eq src x hs c1 (by simpa using c2) c3 (by simpa using c4)]
          simp [nOcc, c1, c2, c3, c4]
      · rw [T_T_comm (hm _ _) (hm _ _), T_unocc _ _ _ ((h1 _ _).trans (by simpa using c3))]; simp [nOcc, c3]
  · rw [T_unocc _ _ _ ((h1 _ _).trans (by simpa using c1))]; simp [nOcc, c1]

theorem avg_add (logpsi : Cfg L → ℂ) (n : ℕ × ℕ) (f g : Cfg L → ℂ) :
    avg logpsi n (fun x => f x + g x) = avg logpsi n f + avg logpsi n g := by
  unfold avg; simp only [mul_add, Finset.sum_add_distrib]

theorem avg_mul (logpsi : Cfg L → ℂ) (n : ℕ × ℕ) (k : ℂ) (f : Cfg L → ℂ) :
    avg logpsi n (fun x => k * f x) = k * avg logpsi n f := by
  unfold avg; rw [Finset.mul_sum]; exact Finset.sum_congr rfl fun x _ => by ring

/-- The averages of the entries `(a, a, b, b)` and `(a, b, b, a)` of the local two-body array. -/
theorem avg_entries (src : AmpSource L (Fin 4) Cache) (n : ℕ × ℕ)
    (hs : ∀ x, (numElec false x, numElec true x) = n → src.OkPaddedAt x) {a b : Fin L} (hab : a ≠ b) (psi : Cfg L → ℂ)
    (hpsi : psi = sectorState src.logAmp n) :
    avg src.logAmp n (fun x => (abLocalRDMs src n x).2 (a, a, b, b))
      = expect (op2 false a a true b b) psi + 1 / 2 * (expect (op2 false a a false b b) psi + expect (op2 true a a true b b) psi) ∧
    avg src.logAmp n (fun x => (abLocalRDMs src n x).2 (a, b, b, a))
      = 1 / 2 * (expect (exc a a) psi - (expect (op2 false a a false b b) psi + expect (op2 true a a true b b) psi))
        + expect (op2 false a b true b a) psi := by
  subst hpsi
  have av : ∀ σ p q τ r s, avg src.logAmp n (fun x => localEnergy (fun x' => (op2 σ p q τ r s (occOf x) (occOf x') : ℂ)) src.logAmp x)
      = expect (op2 σ p q τ r s) (sectorState src.logAmp n) := fun σ p q τ r s => avg_local (fun t => numTot_op2 t σ p q τ r s) _ _
  have one : ∀ x, (numElec false x, numElec true x) = n → (abLocalRDMs src n x).1 (a, a) = nOcc false x a + nOcc true x a := by
    intro x hx
    have := C93_one src x (hs x hx) a a
    rw [hx] at this
    rw [this, local_exc]
  constructor
  · rw [← av, ← av, ← av, ← avg_add, ← avg_mul, ← avg_add]
    refine avg_congr _ _ fun x hx => ?_
    have := (local_entries src x hab).1
    rw [hx] at this
    rw [this, local_num, local_num, local_num]
  · rw [← av, ← av, ← av, ← C93_mean_one src n hs, sub_eq_add_neg, neg_eq_neg_one_mul, ← avg_add, ← avg_mul, ← avg_add, ← avg_mul, ← avg_add]
    refine avg_congr _ _ fun x hx => ?_
    have := (local_entries src x hab).2
    rw [hx] at this
    rw [this, local_num, local_num, one x hx, ← local_mixed src x (hs x hx) hab]
    ring

/-! ### Singlets -/

theorem expect_transpose (A : Op L) (psi : Cfg L → ℂ) : expect A.transpose psi = star (expect A psi) := by
  have h1 : braket A.transpose psi = star (braket A psi) := by
    unfold braket
    rw [star_sum]
    simp only [star_sum]
    refine Finset.sum_comm.trans ?_
    refine Finset.sum_congr rfl fun x _ => Finset.sum_congr rfl fun x' _ => ?_
    simp only [star_mul', star_star, star_intCast, Matrix.transpose_apply]
    ring
  have h2 : star (normSq psi) = normSq psi := by
    unfold normSq
    rw [star_sum]
    refine Finset.sum_congr rfl fun x _ => ?_
    simp only [star_mul', star_star]; ring
  unfold expect
  rw [star_div₀, h1, h2]

theorem op2_comm {σ τ : Bool} (h : σ ≠ τ) (p q r s : Fin L) : (op2 σ p q τ r s : Op L) = op2 τ r s σ p q := by
  rw [← sub_eq_zero]
  unfold op2
  rw [bil_comm]
  simp [mode_inj, h, Ne.symm h]

theorem num_comm (σ : Bool) (a b : Fin L) : (op2 σ b b σ a a : Op L) = op2 σ a a σ b b := by
  by_cases hab : a = b
  · rw [hab]
  rw [← sub_eq_zero]
  unfold op2
  rw [bil_comm]
  simp [mode_inj, hab, Ne.symm hab]

theorem mixed_re (psi : Cfg L → ℂ) (a b : Fin L) :
    (expect (op2 false a b true b a) psi).re = (expect (op2 false b a true a b) psi).re := by
  have : (op2 false b a true a b : Op L) = (op2 false a b true b a).transpose := by
    rw [op2_comm (by simp)]
    unfold op2
    rw [Matrix.transpose_mul, cre_mul_ann_transpose, cre_mul_ann_transpose]
  rw [this, expect_transpose]
  rfl

theorem comm_down_exc (b : Fin L) : (∑ k, spinDown k k : Op L) * exc b b - exc b b * ∑ k, spinDown k k = 0 := by
  rw [comm_sum]
  have h : ∀ A B C : Op L, A * (B + C) - (B + C) * A = (A * B - B * A) + (A * C - C * A) := by intros; noncomm_ring
  unfold spinDown exc
  simp only [Fintype.sum_bool, h, bil_comm, mode_inj, true_and, Finset.sum_sub_distrib, Finset.sum_add_distrib, Finset.sum_ite_eq,
    Finset.sum_ite_eq', Finset.mem_univ, if_true, false_and, if_false, Finset.sum_const_zero, Bool.false_eq_true]
  abel

/-- In a singlet the spin on a site is not correlated with the charge on another. -/
theorem singlet_spin_charge {psi : Cfg L → ℂ} (h : IsSinglet psi) (a b : Fin L) :
    braket (spinZ2 a a * exc b b) psi = 0 ∧ braket (exc b b * spinZ2 a a) psi = 0 := by
  have h1 := singlet_down h (spinUp a a * exc b b)
  rw [comm_product, comm_down_up, comm_down_exc, mul_zero, add_zero, neg_mul, braket_neg, neg_eq_zero] at h1
  have h2 := singlet_down h (exc b b * spinUp a a)
  rw [comm_product, comm_down_up, comm_down_exc, zero_mul, zero_add, mul_neg, braket_neg, neg_eq_zero] at h2
  exact ⟨h1, h2⟩

theorem singlet_diag {psi : Cfg L → ℂ} (h : IsSinglet psi) (a b : Fin L) :
    expect (op2 false a a true b b) psi = expect (op2 false b b true a a) psi := by
  have e : (op2 false a a true b b : Op L) + op2 false a a true b b - (op2 false b b true a a + op2 false b b true a a)
      = spinZ2 a a * exc b b - exc a a * spinZ2 b b := by
    rw [op2_comm (σ := false) (τ := true) (by simp) b b a a]
    unfold op2 spinZ2 exc
    simp only [Fintype.sum_bool]
    noncomm_ring
  have e2 := congrArg (fun A => braket A psi) e
  simp only [braket_sub, braket_add] at e2
  rw [(singlet_spin_charge h a b).1, (singlet_spin_charge h b a).2] at e2
  have e3 : braket (op2 false a a true b b) psi = braket (op2 false b b true a a) psi := by linear_combination (1 / 2) * e2
  unfold expect
  rw [e3]

/-- The correlation of two sites in terms of three entries of the arrays. -/
theorem corr_entries (r1 : Arr1 L) (r2 : Arr2 L) (a b : Fin L) :
    correlations r1 r2 a b = (1 / 4 * (if a = b then r1 a a else 0) - 1 / 12 * r2 a a b b - 1 / 6 * r2 a b b a).re := by
  unfold correlations spinSpin spinSpinC
  dsimp only
  rw [proj_sum a b fun i j k l => -(r2 i j k l / 6 + r2 i l k j / 3)]
  have : (∑ i, ∑ j, ∑ k, proj a i k * proj b j k * r1 i j) = if a = b then r1 a a else 0 := by
    rw [Finset.sum_eq_single a, Finset.sum_eq_single b, Finset.sum_eq_single a]
    · unfold proj
      by_cases h : a = b
      · subst h; simp
      · simp [h]
    · intro k _ hk; simp [proj, hk]
    · simp
    · intro j _ hj; exact Finset.sum_eq_zero fun k _ => by simp [proj, hj]
    · simp
    · intro i _ hi; exact Finset.sum_eq_zero fun j _ => Finset.sum_eq_zero fun k _ => by simp [proj, hi]
    · simp
  rw [this]
  congr 1
  ring

/-- **C95**, for the arrays the script saves: for a singlet (of real or complex amplitudes) the expectation of every entry of
`get_correlations` is `⟨S^z_a S^z_b⟩`, times the ratio of the number of samples that were drawn and the number the script divides by. -/
theorem C95_saved {Ω : Type} [Fintype Ω] (w : Ω → ℝ) (samples : Ω → ℕ → ℕ → Cfg L) (src : AmpSource L (Fin 4) Cache) (n : ℕ × ℕ)
    (hs : ∀ x, (numElec false x, numElec true x) = n → src.OkPaddedAt x) (c : Setup) (m : ℕ) (hm : nChunks c = some m)
    (psi : Cfg L → ℂ) (hpsi : psi = sectorState src.logAmp n) (hd : Drawn w samples c m psi) (hS : IsSinglet psi) (a b : Fin L) :
    ((∑ ω, w ω * correlations (saved1 src n c samples ω) (saved2 src n c samples ω) a b : ℝ) : ℂ)
      = (total c m : ℂ) / (c.nSamples : ℂ) * (1 / 4 * expect (spinZ2 a a * spinZ2 b b) psi) := by
  have hex := C95_sites psi a b
  rw [singlet_dot hS] at hex
  rw [show 1 / 4 * expect (spinZ2 a a * spinZ2 b b) psi = 1 / 3 * (1 / 4 * (3 * expect (spinZ2 a a * spinZ2 b b) psi)) by ring, ← hex,
    corr_entries]
  obtain ⟨f, hf⟩ : ∃ f : ℝ, (total c m : ℂ) / (c.nSamples : ℂ) = (f : ℂ) :=
    ⟨(total c m : ℝ) / (c.nSamples : ℝ), by push_cast; rfl⟩
  have m1 := C94_mean_one w samples src n hs c m hm (hpsi ▸ hd) a a
  have m2 := fun p q r s => mean_two w samples src n hs c m hm (hpsi ▸ hd) p q r s
  have mm := fun p q r s => C94_mean_two w samples src n hs c m hm psi hpsi hd p q r s
  simp only [hf, ← hpsi] at m1 m2 mm ⊢
  have half : ∀ p q r s, (∑ ω, (w ω : ℂ) * ((saved2 src n c samples ω p q r s + saved2 src n c samples ω r s p q) / 2))
      = 1 / 2 * ((∑ ω, (w ω : ℂ) * saved2 src n c samples ω p q r s) + ∑ ω, (w ω : ℂ) * saved2 src n c samples ω r s p q) := by
    intro p q r s
    rw [← Finset.sum_add_distrib, Finset.mul_sum]
    exact Finset.sum_congr rfl fun ω _ => by ring
  have k1 : (∑ ω, (w ω : ℂ) * saved2 src n c samples ω a a b b) = f * expect (pairOp a a b b) psi := by
    have h1 := mm a a b b
    rw [half] at h1
    by_cases hab : a = b
    · subst hab
      simp only [sub_self, ite_self, add_zero, mul_zero] at h1
      rw [← h1]; ring
    · simp only [if_neg hab, if_neg (Ne.symm hab), add_zero, mul_zero] at h1
      have h2 := m2 a a b b
      have h3 := m2 b b a a
      rw [(avg_entries src n hs hab psi hpsi).1, if_neg hab] at h2
      rw [(avg_entries src n hs (Ne.symm hab) psi hpsi).1, if_neg (Ne.symm hab)] at h3
      have h4 := singlet_diag hS a b
      have h5 : (op2 false b b false a a : Op L) = op2 false a a false b b := num_comm _ _ _
      have h6 : (op2 true b b true a a : Op L) = op2 true a a true b b := num_comm _ _ _
      rw [h5, h6, ← h4] at h3
      linear_combination h1 + 1 / 2 * h2 - 1 / 2 * h3
  have k2 : (∑ ω, (w ω : ℂ) * saved2 src n c samples ω a b b a).re = f * (expect (pairOp a b b a) psi).re := by
    have h1 := mm a b b a
    rw [half] at h1
    simp only [sub_self, ite_self, add_zero, mul_zero] at h1
    by_cases hab : a = b
    · subst hab
      rw [← Complex.re_ofReal_mul, ← h1]
      congr 1; ring
    · have h2 := m2 a b b a
      have h3 := m2 b a a b
      rw [(avg_entries src n hs hab psi hpsi).2, if_pos rfl] at h2
      rw [(avg_entries src n hs (Ne.symm hab) psi hpsi).2, if_pos rfl] at h3
      have h5 : (op2 false b b false a a : Op L) = op2 false a a false b b := num_comm _ _ _
      have h6 : (op2 true b b true a a : Op L) = op2 true a a true b b := num_comm _ _ _
      rw [h5, h6] at h3
      have h7 : (∑ ω, (w ω : ℂ) * saved2 src n c samples ω a b b a)
          = f * (expect (pairOp a b b a) psi + (expect (op2 false a b true b a) psi - expect (op2 false b a true a b) psi)) := by
        linear_combination h1 + 1 / 2 * h2 - 1 / 2 * h3
      rw [h7, Complex.re_ofReal_mul, Complex.add_re, Complex.sub_re, mixed_re psi a b, sub_self, add_zero]
  have lhs : (∑ ω, w ω * correlations (saved1 src n c samples ω) (saved2 src n c samples ω) a b)
      = (1 / 4 * (if a = b then ∑ ω, (w ω : ℂ) * saved1 src n c samples ω a a else 0)
          - 1 / 12 * (∑ ω, (w ω : ℂ) * saved2 src n c samples ω a a b b) - 1 / 6 * ∑ ω, (w ω : ℂ) * saved2 src n c samples ω a b b a).re := by
    have : (1 / 4 * (if a = b then ∑ ω, (w ω : ℂ) * saved1 src n c samples ω a a else 0)
          - 1 / 12 * (∑ ω, (w ω : ℂ) * saved2 src n c samples ω a a b b) - 1 / 6 * ∑ ω, (w ω : ℂ) * saved2 src n c samples ω a b b a)
        = ∑ ω, (w ω : ℂ) * (1 / 4 * (if a = b then saved1 src n c samples ω a a else 0)
          - 1 / 12 * saved2 src n c samples ω a a b b - 1 / 6 * saved2 src n c samples ω a b b a) := by
      by_cases hab : a = b
      · simp only [if_pos hab]
        rw [Finset.mul_sum, Finset.mul_sum, Finset.mul_sum, ← Finset.sum_sub_distrib, ← Finset.sum_sub_distrib]
        exact Finset.sum_congr rfl fun ω _ => by ring
      · simp only [if_neg hab]
        rw [Finset.mul_sum, Finset.mul_sum, mul_zero, zero_sub, ← Finset.sum_neg_distrib, ← Finset.sum_sub_distrib]
        exact Finset.sum_congr rfl fun ω _ => by ring
    rw [this, Complex.re_sum]
    exact Finset.sum_congr rfl fun ω _ => by rw [Complex.re_ofReal_mul, corr_entries]
  have q1 : ∀ (r : ℝ) (u v z : ℂ), ((r : ℂ) * u - 1 / 12 * v - 1 / 6 * z).re = r * u.re - 1 / 12 * v.re - 1 / 6 * z.re := by
    intro r u v z
    rw [Complex.sub_re, Complex.sub_re, Complex.re_ofReal_mul, show (1 / 12 : ℂ) = ((1 / 12 : ℝ) : ℂ) by push_cast; rfl,
      show (1 / 6 : ℂ) = ((1 / 6 : ℝ) : ℂ) by push_cast; rfl, Complex.re_ofReal_mul, Complex.re_ofReal_mul]
  rw [← Complex.ofReal_mul]
  congr 1
  rw [lhs, show (1 / 4 : ℂ) = ((1 / 4 : ℝ) : ℂ) by push_cast; rfl, q1, q1, k1, k2, m1]
  by_cases hab : a = b
  · simp only [if_pos hab, Complex.re_ofReal_mul]; ring
  · simp only [if_neg hab, Complex.re_ofReal_mul, Complex.zero_re]; ring

end GPSKet.Rdms
