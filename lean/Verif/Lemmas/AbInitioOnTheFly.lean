import Verif.Lemmas.AbInitio
import Verif.Lemmas.Updates

/-! # Lemmas about the on-the-fly ab-initio kernels -/

namespace GPSKet
open Spec

variable {L : ℕ} {Cache : Type}

/-! ### Updates -/

section
variable {S A : Type} [DecidableEq S]

/-- Changing the first entry of a site. -/
def modFirst (l : List (S × A)) (site : S) (f : A → A) : List (S × A) :=
  l.modify (l.findIdx fun u => decide (u.1 = site)) fun u => (u.1, f u.2)

theorem modFirst_cons_eq (u : S × A) (l : List (S × A)) (f : A → A) : modFirst (u :: l) u.1 f = (u.1, f u.2) :: l := by
  simp [modFirst, List.findIdx_cons]

theorem modFirst_cons_ne {u : S × A} {site : S} (h : u.1 ≠ site) (l : List (S × A)) (f : A → A) :
    modFirst (u :: l) site f = u :: modFirst l site f := by
  simp [modFirst, List.findIdx_cons, h]

theorem modFirst_map_fst (l : List (S × A)) (site : S) (f : A → A) : (modFirst l site f).map Prod.fst = l.map Prod.fst := by
  induction l with
  | nil => simp [modFirst]
  | cons u l ih =>
    by_cases h : u.1 = site
    · subst h; rw [modFirst_cons_eq]; rfl
    · rw [modFirst_cons_ne h, List.map_cons, ih, List.map_cons]

theorem applyUpdate_modFirst (x : S → A) (l : List (S × A)) (site : S) (f : A → A) (h : site ∈ l.map Prod.fst) :
    applyUpdate x (modFirst l site f) = Function.update (applyUpdate x l) site (f (applyUpdate x l site)) := by
  induction l with
  | nil => simp at h
  | cons u l ih =>
    by_cases hu : u.1 = site
    · subst hu
      rw [modFirst_cons_eq, applyUpdate_cons, applyUpdate_cons]
      simp
    · rw [modFirst_cons_ne hu, applyUpdate_cons, applyUpdate_cons, ih, Function.update_of_ne (Ne.symm hu), Function.update_comm hu]
      rw [List.map_cons, List.mem_cons] at h
      rcases h with h | h
      · exact absurd h.symm hu
      · exact h

theorem padded_modFirst {x : S → A} {l : List (S × A)} (h : Padded x l) (site : S) (f : A → A) : Padded x (modFirst l site f) := by
  induction l with
  | nil => simpa [modFirst] using h
  | cons u l ih =>
    rw [padded_cons] at h
    by_cases hu : u.1 = site
    · subst hu; rw [modFirst_cons_eq, padded_cons]; exact h
    · rw [modFirst_cons_ne hu, padded_cons]
      refine ⟨fun v hv huv => ?_, ih h.2⟩
      -- an entry of another site is not changed
      have : ∀ l : List (S × A), v ∈ modFirst l site f → v.1 ≠ site → v ∈ l := by
        intro l
        induction l with
        | nil => simp [modFirst]
        | cons w l ih2 =>
          by_cases hw : w.1 = site
          · subst hw
            rw [modFirst_cons_eq, List.mem_cons]
            rintro (rfl | h1) hne
            · exact absurd rfl hne
            · exact List.mem_cons_of_mem _ h1
          · rw [modFirst_cons_ne hw, List.mem_cons]
            rintro (rfl | h1) hne
            · exact List.mem_cons_self
            · exact List.mem_cons_of_mem _ (ih2 h1 hne)
      exact h.1 v (this l hv (by rw [← huv]; exact hu)) huv

theorem applyUpdate_append_old (x : S → A) (l : List (S × A)) (site : S) : applyUpdate x (l ++ [(site, x site)]) = applyUpdate x l := by
  induction l with
  | nil => rw [List.nil_append, applyUpdate_cons]; exact Function.update_eq_self _ _
  | cons u l ih => rw [List.cons_append, applyUpdate_cons, ih, applyUpdate_cons]

theorem padded_append_old {x : S → A} {l : List (S × A)} (h : Padded x l) (site : S) : Padded x (l ++ [(site, x site)]) := by
  unfold Padded at *
  rw [List.pairwise_append]
  refine ⟨h, List.pairwise_singleton _ _, ?_⟩
  intro u _ v hv _
  rw [List.mem_singleton] at hv
  rw [hv]

end

theorem prevMove_eq (x : Cfg L) (upd : List (Fin L × Fin 4)) (site : Fin L) (d : ℤ) :
    prevMove x upd site d = modFirst (upd ++ [(site, x site)]) site (fun v => occAdd v d) := rfl

theorem prevMove_apply (x : Cfg L) (upd : List (Fin L × Fin 4)) (site : Fin L) (d : ℤ) :
    applyUpdate x (prevMove x upd site d) = Function.update (applyUpdate x upd) site (occAdd (applyUpdate x upd site) d) := by
  rw [prevMove_eq, applyUpdate_modFirst _ _ _ _ (by simp), applyUpdate_append_old]

theorem prevMove_padded {x : Cfg L} {upd : List (Fin L × Fin 4)} (h : Padded x upd) (site : Fin L) (d : ℤ) :
    Padded x (prevMove x upd site d) := by
  rw [prevMove_eq]; exact padded_modFirst (padded_append_old h site) _ _

theorem connScan_eq (src : AmpSource L (Fin 4) Cache) (x : Cfg L) (hs : src.OkPaddedAt x) (upd : List (Fin L × Fin 4))
    (hp : Padded x upd) : src.connScan x upd = src.logAmp (applyUpdate x upd) := by
  cases src with
  | full f => simp only [AmpSource.connScan, AmpSource.logAmp]; rw [applyUpdate_foldr]
  | fast m => exact hs x upd ⟨rfl, hp⟩

theorem ampRatio_eq (src : AmpSource L (Fin 4) Cache) (x : Cfg L) (hs : src.OkPaddedAt x) (upd : List (Fin L × Fin 4))
    (hp : Padded x upd) :
    ampRatio src x upd = Complex.exp (src.logAmp (applyUpdate x upd)) / Complex.exp (src.logAmp x) := by
  unfold ampRatio
  rw [connScan_eq src x hs upd hp, Complex.exp_sub]

/-- `1` for up, `2` for down. -/
def spinZ : Bool → ℤ
  | false => 1
  | true => 2

theorem occAdd_sub : ∀ (s : Bool) (v : Fin 4), hasSpin s v = true → occAdd v (-spinZ s) = v - spinInt s := by decide
theorem occAdd_add : ∀ (s : Bool) (v : Fin 4), hasSpin s v = false → occAdd v (spinZ s) = v + spinInt s := by decide

theorem hopUpdate_apply (x : Cfg L) {s : Bool} {i a : Fin L} (h : a ≠ i) (hi : hasSpin s (x i) = true) (ha : hasSpin s (x a) = false) :
    applyUpdate x (hopUpdate x (spinZ s) i a) = hopCfg x s i a := by
  unfold hopUpdate hopCfg
  rw [applyUpdate_two x h, occAdd_sub s _ hi, occAdd_add s _ ha]

theorem hopUpdate_padded (x : Cfg L) (d : ℤ) {i a : Fin L} (h : a ≠ i) : Padded x (hopUpdate x d i a) := by
  apply padded_of_nodup
  simp [hopUpdate, h.symm]

theorem same_apply (x : Cfg L) {s : Bool} {i a j b : Fin L} (hi : hasSpin s (x i) = true)
    (ha : hasSpin s (x a) = false) (hj : hasSpin s (x j) = true) (hb : hasSpin s (x b) = false) (hij : j ≠ i) (hab : b ≠ a) :
    Padded x (hopUpdate x (spinZ s) i a ++ hopUpdate x (spinZ s) j b) ∧
    applyUpdate x (hopUpdate x (spinZ s) i a ++ hopUpdate x (spinZ s) j b) = hopCfg (hopCfg x s i a) s j b := by
  have hai : a ≠ i := by rintro rfl; simp [hi] at ha
  have hbj : b ≠ j := by rintro rfl; simp [hj] at hb
  have haj : j ≠ a := by rintro rfl; simp [hj] at ha
  have hbi : b ≠ i := by rintro rfl; simp [hi] at hb
  constructor
  · apply padded_of_nodup
    simp [hopUpdate, hai.symm, hij.symm, hbi.symm, haj.symm, hab.symm, hbj.symm]
  · unfold hopUpdate
    simp only [List.cons_append, List.nil_append, applyUpdate_cons, applyUpdate_nil]
    rw [occAdd_sub s _ hi, occAdd_add s _ ha, occAdd_sub s _ hj, occAdd_add s _ hb]
    unfold hopCfg
    rw [Function.update_of_ne haj, Function.update_of_ne hij, Function.update_of_ne hab, Function.update_of_ne hbi]
    funext k
    simp only [Function.update_apply]
    by_cases h1 : k = i
    · subst h1; simp [hbi.symm, hai.symm, hij.symm]
    · by_cases h2 : k = a
      · subst h2; simp [h1, hab.symm, haj.symm]
      · by_cases h3 : k = j
        · subst h3; simp [h1, h2, hbj.symm]
        · simp [h1, h2, h3]

theorem mixed_apply (x : Cfg L) {s : Bool} {i a j b : Fin L} (hi : hasSpin s (x i) = true)
    (ha : hasSpin s (x a) = false) (hj : hasSpin (!s) (x j) = true) (hb : hasSpin (!s) (x b) = false) :
    let upd := prevMove x (prevMove x (hopUpdate x (spinZ s) i a) j (-spinZ (!s))) b (spinZ (!s))
    Padded x upd ∧ applyUpdate x upd = hopCfg (hopCfg x s i a) (!s) j b := by
  intro upd
  have hai : a ≠ i := by rintro rfl; simp [hi] at ha
  have hbj : b ≠ j := by rintro rfl; simp [hj] at hb
  have hne : (!s) ≠ s := by cases s <;> simp
  refine ⟨prevMove_padded (prevMove_padded (hopUpdate_padded x _ hai) _ _) _ _, ?_⟩
  simp only [upd]
  rw [prevMove_apply, prevMove_apply, hopUpdate_apply x hai hi ha]
  have h1 : hasSpin (!s) (hopCfg x s i a j) = true := by rw [hopCfg_spin x (!s) hai hi ha]; simp [hne, hj]
  have h2 : hasSpin (!s) (hopCfg x s i a b) = false := by rw [hopCfg_spin x (!s) hai hi ha]; simp [hne, hb]
  rw [Function.update_of_ne hbj, occAdd_sub _ _ h1, occAdd_add _ _ h2]
  rfl

theorem occ_site {x : Cfg L} {s : Bool} {i : Fin L} (h : i ∈ occSet s (occOf x)) : hasSpin s (x i) = true := mem_occ.mp h
theorem empty_site {x : Cfg L} {s : Bool} {i : Fin L} (h : i ∈ emptySet s (occOf x)) : hasSpin s (x i) = false := mem_empty.mp h

/-! ### Local energy -/

theorem nonzeroSize_eq (inds : List (Fin L)) (size : ℕ) (h : inds.length = size) : nonzeroSize inds size = inds := by
  subst h
  unfold nonzeroSize
  rw [List.take_length, Nat.sub_self]
  cases (List.finRange L).head? <;> simp

/-- Amplitude ratio as a function on Fock states. -/
noncomputable def ratioF (src : AmpSource L (Fin 4) Cache) (x : Cfg L) : Occ (Mode L) → ℂ :=
  Function.extend occOf (fun y => Complex.exp (src.logAmp y) / Complex.exp (src.logAmp x)) 0

theorem ratioF_apply (src : AmpSource L (Fin 4) Cache) (x y : Cfg L) :
    ratioF src x (occOf y) = Complex.exp (src.logAmp y) / Complex.exp (src.logAmp x) := occOf_injective.extend_apply ..

theorem ratioF_self (src : AmpSource L (Fin 4) Cache) (x : Cfg L) : ratioF src x (occOf x) = 1 := by
  rw [ratioF_apply, div_self (Complex.exp_ne_zero _)]

theorem oneRatio_eq (src : AmpSource L (Fin 4) Cache) (x : Cfg L) (hs : src.OkPaddedAt x) {s : Bool} {i a : Fin L}
    (hi : hasSpin s (x i) = true) (ha : hasSpin s (x a) = false) :
    oneRatio src x (spinZ s) (cumsum (isOcc x (spinInt s))) i a = T (mode s i) (mode s a) (ratioF src x) (occOf x) := by
  have hai : a ≠ i := by rintro rfl; simp [hi] at ha
  unfold oneRatio
  rw [ampRatio_eq src x hs _ (hopUpdate_padded x _ hai), hopUpdate_apply x hai hi ha, T_one _ x hai hi ha, ratioF_apply,
    parityMult_eq x s hai]
  push_cast; ring

theorem sameRatio_eq (src : AmpSource L (Fin 4) Cache) (x : Cfg L) (hs : src.OkPaddedAt x) {s : Bool} {i a j b : Fin L}
    (hi : hasSpin s (x i) = true)
    (ha : hasSpin s (x a) = false) (hj : hasSpin s (x j) = true) (hb : hasSpin s (x b) = false) (hij : j ≠ i) (hab : b ≠ a) :
    sameRatio src x (spinZ s) (cumsum (isOcc x (spinInt s))) i a j b =
      T (mode s i) (mode s a) (T (mode s j) (mode s b) (ratioF src x)) (occOf x) := by
  have hai : a ≠ i := by rintro rfl; simp [hi] at ha
  have hbj : b ≠ j := by rintro rfl; simp [hj] at hb
  obtain ⟨hp, hu⟩ := same_apply x hi ha hj hb hij hab
  unfold sameRatio
  rw [T_same _ x hi ha hj hb hij hab, ampRatio_eq src x hs _ hp, hu, ratioF_apply, parityMult_eq x s hai, parityMult_eq x s hbj]
  simp only [between_iff hbj]
  congr 2
  unfold sameSign
  by_cases h1 : min j b < i ∧ i < max j b <;> by_cases h2 : min j b < a ∧ a < max j b <;> simp [h1, h2]

theorem mixedRatio_eq (src : AmpSource L (Fin 4) Cache) (x : Cfg L) (hs : src.OkPaddedAt x) {i a j b : Fin L}
    (hi : hasSpin false (x i) = true)
    (ha : hasSpin false (x a) = false) (hj : hasSpin true (x j) = true) (hb : hasSpin true (x b) = false) :
    mixedRatio src x (cumsum (isOcc x (spinInt false))) (cumsum (isOcc x (spinInt true))) i a j b =
      T (mode false i) (mode false a) (T (mode true j) (mode true b) (ratioF src x)) (occOf x) := by
  have hai : a ≠ i := by rintro rfl; simp [hi] at ha
  have hbj : b ≠ j := by rintro rfl; simp [hj] at hb
  obtain ⟨hp, hu⟩ := mixed_apply (s := false) x hi ha hj hb
  simp only [Bool.not_false, spinZ] at hp hu
  unfold mixedRatio
  rw [T_mixed _ x (by simp) hi ha hj hb, ampRatio_eq src x hs _ hp, hu, ratioF_apply, parityMult_eq x false hai, parityMult_eq x true hbj]

theorem sameTerms_eq (src : AmpSource L (Fin 4) Cache) (e : Fin L → Fin L → Fin L → Fin L → ℂ) (x : Cfg L) (hs : src.OkPaddedAt x) (s : Bool) :
    sameTerms src e x (spinZ s) (cumsum (isOcc x (spinInt s))) (occInds x (spinInt s)) (unoccInds x (spinInt s)) =
      ∑ i ∈ occSet s (occOf x), ∑ a ∈ emptySet s (occOf x), ∑ j ∈ (occSet s (occOf x)).erase i, ∑ b ∈ (emptySet s (occOf x)).erase a,
        1 / 2 * (e i a j b * T (mode s i) (mode s a) (T (mode s j) (mode s b) (ratioF src x)) (occOf x)) := by
  unfold sameTerms
  simp only [filter_ne_sum (occInds_nodup x _), filter_ne_sum (unoccInds_nodup x _), occInds_toFinset, unoccInds_toFinset, occInds_sum,
    unoccInds_sum]
  apply Finset.sum_congr rfl; intro i hi
  apply Finset.sum_congr rfl; intro a ha
  rw [Finset.mul_sum]
  apply Finset.sum_congr rfl; intro j hj
  rw [Finset.mul_sum]
  apply Finset.sum_congr rfl; intro b hb
  rw [Finset.mem_erase] at hj hb
  rw [sameRatio_eq src x hs (occ_site hi) (empty_site ha) (occ_site hj.2) (empty_site hb.2) hj.1 hb.1]

/-- The on-the-fly local energy pairs the kernel's rows with the amplitude ratios. -/
theorem abLocalEn_eq (src : AmpSource L (Fin 4) Cache) (t : Fin L → Fin L → ℂ) (e : Fin L → Fin L → Fin L → Fin L → ℂ) (x : Cfg L)
    (n_elecs : ℕ × ℕ) (hu : numElec false x = n_elecs.1) (hd : numElec true x = n_elecs.2)
    (hlu : (occInds x (spinInt false)).length = n_elecs.1) (hld : (occInds x (spinInt true)).length = n_elecs.2)
    (hlu' : (unoccInds x (spinInt false)).length = L - n_elecs.1) (hld' : (unoccInds x (spinInt true)).length = L - n_elecs.2)
    (hs : src.OkPaddedAt x) :
    abLocalEn src n_elecs t e x = rowApply (abRows t e x) (fun y => ratioF src x (occOf y)) := by
  unfold abLocalEn
  rw [show (1 : Fin 4) = spinInt false from rfl, show (2 : Fin 4) = spinInt true from rfl]
  simp only [nonzeroSize_eq _ _ hlu, nonzeroSize_eq _ _ hld, nonzeroSize_eq _ _ hlu', nonzeroSize_eq _ _ hld']
  have s1 := sameTerms_eq src e x hs false
  have s2 := sameTerms_eq src e x hs true
  simp only [spinZ] at s1 s2
  rw [s1, s2, abRows_split, ratioF_self, mul_one]
  have o1 : ∀ (s : Bool) (O O' V : List (Fin L)), O = occInds x (spinInt s) → V = unoccInds x (spinInt s) →
      (O.map fun i => (V.map fun a => abOneValue t e O O' V i a * oneRatio src x (spinZ s) (cumsum (isOcc x (spinInt s))) i a).sum).sum
      = ∑ i ∈ occSet s (occOf x), ∑ a ∈ emptySet s (occOf x), abOneValue t e O O' V i a * T (mode s i) (mode s a) (ratioF src x) (occOf x) := by
    intro s O O' V hO hV
    rw [← occInds_sum, ← hO]
    congr 1
    apply List.map_congr_left
    intro i hi
    rw [← unoccInds_sum, ← hV]
    congr 1
    apply List.map_congr_left
    intro a ha
    rw [hO, ← List.mem_toFinset, occInds_toFinset] at hi
    rw [hV, ← List.mem_toFinset, unoccInds_toFinset] at ha
    rw [oneRatio_eq src x hs (occ_site hi) (empty_site ha)]
  have o1f := o1 false _ (occInds x (spinInt true)) _ rfl rfl
  have o1t := o1 true _ (occInds x (spinInt false)) _ rfl rfl
  simp only [spinZ] at o1f o1t
  rw [o1f, o1t]
  have m : ((occInds x (spinInt false)).map fun i => ((unoccInds x (spinInt false)).map fun a => ((occInds x (spinInt true)).map fun j =>
      ((unoccInds x (spinInt true)).map fun b =>
        e i a j b * mixedRatio src x (cumsum (isOcc x (spinInt false))) (cumsum (isOcc x (spinInt true))) i a j b).sum).sum).sum).sum =
      ∑ i ∈ occSet false (occOf x), ∑ a ∈ emptySet false (occOf x), ∑ j ∈ occSet true (occOf x), ∑ b ∈ emptySet true (occOf x),
        e i a j b * T (mode false i) (mode false a) (T (mode true j) (mode true b) (ratioF src x)) (occOf x) := by
    simp only [occInds_sum, unoccInds_sum]
    apply Finset.sum_congr rfl; intro i hi
    apply Finset.sum_congr rfl; intro a ha
    apply Finset.sum_congr rfl; intro j hj
    apply Finset.sum_congr rfl; intro b hb
    rw [mixedRatio_eq src x hs (occ_site hi) (empty_site ha) (occ_site hj) (empty_site hb)]
  rw [m]
  unfold abDiag
  simp only [← List.sum_map_mul_left]
  rfl

end GPSKet
