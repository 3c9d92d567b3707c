import Verif.Model.PlaquetteQGPS
import Verif.Props.QGPS

/-! # Property C38: fast updates of the plaquette qGPS -/

namespace GPSKet.Props
open Spec PlaquetteQGPS

variable {L D M P K : ℕ} {ι : Type}

theorem invPlaquette_eq (pl : Fin K → Fin L) (hinj : Function.Injective pl) (k : Fin K) : invPlaquette pl (pl k) = some k := by
  have H : ∀ (l : List (Fin K)) (tab : Fin L → Option (Fin K)),
      l.foldl (fun tab j => Function.update tab (pl j) (some j)) tab (pl k) = if k ∈ l then some k else tab (pl k) := by
    intro l
    induction l with
    | nil => intro tab; simp
    | cons a l ih =>
      intro tab
      rw [List.foldl_cons, ih]
      by_cases h : k ∈ l
      · simp [h]
      · by_cases ha : k = a
        · subst ha; simp
        · have : pl k ≠ pl a := fun hk => ha (hinj hk)
          simp [h, ha, Function.update_of_ne this]
  unfold invPlaquette
  rw [H]
  simp

theorem invPlaquette_none (pl : Fin K → Fin L) (s : Fin L) (hs : ∀ k, pl k ≠ s) : invPlaquette pl s = none := by
  have H : ∀ (l : List (Fin K)) (tab : Fin L → Option (Fin K)),
      l.foldl (fun tab j => Function.update tab (pl j) (some j)) tab s = tab s := by
    intro l
    induction l with
    | nil => intro tab; rfl
    | cons a l ih => intro tab; rw [List.foldl_cons, ih, Function.update_of_ne (hs a).symm]
  unfold invPlaquette
  rw [H]

/-- The factor of a site in a plaquette. -/
def siteFactor (mod : Module L D M P K ι) (p : Fin P) (m : Fin M) (s : Fin L) (d : Fin D) : ℂ :=
  match invPlaquette (mod.plaquettes p) s with
  | some k => mod.epsilon d p m k
  | none => 1

theorem siteProd_sites (mod : Module L D M P K ι) (hinj : ∀ p, Function.Injective (mod.plaquettes p)) (x : Fin L → Fin D)
    (p : Fin P) (m : Fin M) (t : ι) :
    siteProd mod x p m t = ∏ s, siteFactor mod p m s (mod.syms.symmetries x t s) := by
  classical
  unfold siteProd
  have h1 : ∏ s ∈ Finset.univ.image (mod.plaquettes p), siteFactor mod p m s (mod.syms.symmetries x t s) =
      ∏ k, mod.epsilon (mod.syms.symmetries x t (mod.plaquettes p k)) p m k := by
    rw [Finset.prod_image fun a _ b _ h => hinj p h]
    apply Finset.prod_congr rfl
    intro k _
    unfold siteFactor
    rw [invPlaquette_eq _ (hinj p)]
  rw [← h1]
  apply Finset.prod_subset (Finset.subset_univ _)
  intro s _ hs
  unfold siteFactor
  rw [invPlaquette_none]
  intro k hk
  exact hs (Finset.mem_image.mpr ⟨k, Finset.mem_univ k, hk⟩)

theorem plaquette_fastSiteProd (mod : Module L D M P K ι) (hinj : ∀ p, Function.Injective (mod.plaquettes p))
    (hs : SymsConsistent mod.syms) (x : Fin L → Fin D) (upd : List (Fin L × Fin D)) (hp : Padded x upd)
    (h0 : ∀ d p m k, mod.epsilon d p m k ≠ 0) :
    fastSiteProd mod ⟨x, siteProd mod x⟩ upd = siteProd mod (applyUpdate x upd) := by
  funext p m t
  obtain ⟨e, f, h1, h2⟩ := hs t
  have hx : mod.syms.symmetries x t = fun i => f (x (e i)) := funext (h1 x)
  have hy : mod.syms.symmetries (applyUpdate x upd) t = fun i => f (applyUpdate x upd (e i)) := funext (h1 _)
  have hnz : ∀ s d, siteFactor mod p m s d ≠ 0 := by
    intro s d
    unfold siteFactor
    split
    · exact h0 _ _ _ _
    · exact one_ne_zero
  have key := prod_applyUpdate (siteFactor mod p m) (fun i => f (x (e i)))
    (upd.map fun u => (e.symm u.1, f u.2)) (padded_map e f hp) (fun u _ => hnz u.1 _)
  unfold fastSiteProd
  dsimp only
  rw [siteProd_sites mod hinj, siteProd_sites mod hinj, hx, hy, applyUpdate_map, key, h2, h2]
  have z1 : ((upd.map Prod.snd).map f).zip ((upd.map Prod.fst).map e.symm) = upd.map fun u => (f u.2, e.symm u.1) := by
    simp [List.zip_map']
  have z2 : (((upd.map Prod.fst).map x).map f).zip ((upd.map Prod.fst).map e.symm) =
      upd.map fun u => (f (x u.1), e.symm u.1) := by
    simp [List.zip_map']
  unfold listProd
  dsimp only
  rw [z1, z2, List.map_map, List.map_map, List.map_map, List.map_map]
  simp only [Function.comp_def, Equiv.apply_symm_apply]
  change _ * (((upd.map fun u => siteFactor mod p m (e.symm u.1) (f u.2)).prod) /
    ((upd.map fun u => siteFactor mod p m (e.symm u.1) (f (x u.1))).prod)) = _
  ring

/-- Repeated sites are listed with the same occupation. -/
def Agree (upd : List (Fin L × Fin D)) : Prop := ∀ u ∈ upd, ∀ v ∈ upd, u.1 = v.1 → u.2 = v.2

theorem fold_agree (upd l : List (Fin L × Fin D)) (h : Agree upd) (hl : ∀ u, u ∈ l ↔ u ∈ upd) (x : Fin L → Fin D) :
    l.foldl (fun y u => Function.update y u.1 u.2) x = applyUpdate x upd := by
  funext s
  by_cases hs : ∃ u ∈ upd, u.1 = s
  · obtain ⟨u, hu, hus⟩ := hs
    have hfold : ∀ (l : List (Fin L × Fin D)) (y : Fin L → Fin D), (∀ v ∈ l, v ∈ upd) → (u ∈ l ∨ y s = u.2) →
        l.foldl (fun y u => Function.update y u.1 u.2) y s = u.2 := by
      intro l
      induction l with
      | nil => intro y _ h; exact h.resolve_left (by simp)
      | cons a l ih =>
        intro y hm hor
        rw [List.foldl_cons]
        apply ih _ (fun v hv => hm v (List.mem_cons_of_mem a hv))
        by_cases ha : a.1 = s
        · right
          rw [← ha, Function.update_self]
          exact h a (hm a List.mem_cons_self) u hu (by rw [ha, hus])
        · rcases hor with hor | hor
          · rcases List.mem_cons.mp hor with hor | hor
            · exact absurd (hor ▸ hus) ha
            · exact Or.inl hor
          · right
            rw [Function.update_of_ne (Ne.symm ha)]
            exact hor
    rw [hfold l x (fun v hv => (hl v).mp hv) (Or.inl ((hl u).mpr hu)), applyUpdate_foldr]
    exact (hfold upd.reverse x (fun v hv => List.mem_reverse.mp hv) (Or.inl (List.mem_reverse.mpr hu))).symm
  · push Not at hs
    rw [applyUpdate_not_mem x upd s (by
      rw [List.mem_map]; rintro ⟨u, hu, hus⟩; exact hs u hu hus)]
    have hfold : ∀ (l : List (Fin L × Fin D)) (y : Fin L → Fin D), (∀ v ∈ l, v ∈ upd) →
        l.foldl (fun y u => Function.update y u.1 u.2) y s = y s := by
      intro l
      induction l with
      | nil => intro y _; rfl
      | cons a l ih =>
        intro y hm
        rw [List.foldl_cons, ih _ (fun v hv => hm v (List.mem_cons_of_mem a hv)), Function.update_of_ne]
        exact (hs a (hm a List.mem_cons_self)).symm
    exact hfold l x fun v hv => (hl v).mp hv

/-- The part of C38 that holds.  For plaquettes that list distinct sites and non-zero parameters: the value of a fast
evaluation is right for every update (sites may be repeated as padding dummies), and the stored cache is right if repeated
sites are listed with the same occupation, in whatever order the writes are carried out.  Missing: the cache after updates
with dummies (false, `C38_dummy_cache_fails`), plaquettes listing a site twice (false, `C38_repeated_plaquette_site_fails`),
zero parameters. -/
theorem C38_fast_update_partial (order : List (Fin L × Fin D) → List (Fin L × Fin D)) (horder : ∀ l, (order l).Perm l)
    (mod : Module L D M P K ι) (hinj : ∀ p, Function.Injective (mod.plaquettes p)) (hs : SymsConsistent mod.syms)
    (h0 : ∀ d p m k, mod.epsilon d p m k ≠ 0) (x : Fin L → Fin D) (upd : List (Fin L × Fin D)) (hp : Padded x upd) :
    (model order mod).fast ((model order mod).cacheOf x) upd = (model order mod).full (applyUpdate x upd) ∧
    (Agree upd → (model order mod).fastCache ((model order mod).cacheOf x) upd = (model order mod).cacheOf (applyUpdate x upd)) := by
  have h := plaquette_fastSiteProd mod hinj hs x upd hp h0
  refine ⟨?_, fun ha => ?_⟩
  · change mod.out_transformation (fastSiteProd mod ⟨x, siteProd mod x⟩ upd) = _
    rw [h]; rfl
  · change Cache.mk (scatter order x upd) (fastSiteProd mod ⟨x, siteProd mod x⟩ upd) = _
    rw [h]
    unfold scatter
    rw [fold_agree upd (order upd) ha (fun u => (horder upd).mem_iff)]
    rfl

/-- C38 over histories of updates with distinct sites: value and cache are those of a fresh evaluation. -/
theorem C38_history_partial (order : List (Fin L × Fin D) → List (Fin L × Fin D)) (horder : ∀ l, (order l).Perm l)
    (mod : Module L D M P K ι) (hinj : ∀ p, Function.Injective (mod.plaquettes p)) (hs : SymsConsistent mod.syms)
    (h0 : ∀ d p m k, mod.epsilon d p m k ≠ 0) (x : Fin L → Fin D) (upds : List (List (Fin L × Fin D)))
    (hn : ∀ upd ∈ upds, (upd.map Prod.fst).Nodup) :
    upds.foldl (model order mod).fastCache ((model order mod).cacheOf x) =
      (model order mod).cacheOf (upds.foldl applyUpdate x) := by
  induction upds generalizing x with
  | nil => rfl
  | cons upd rest ih =>
    have hnd := hn upd List.mem_cons_self
    have ha : Agree upd := by
      intro u hu v hv huv
      exact congrArg Prod.snd (List.inj_on_of_nodup_map hnd hu hv huv)
    rw [List.foldl_cons, List.foldl_cons,
      (C38_fast_update_partial order horder mod hinj hs h0 x upd (padded_of_nodup x upd hnd)).2 ha]
    exact ih _ fun u hu => hn u (List.mem_cons_of_mem upd hu)

/-- The hypotheses hold for a ring of three sites with plaquettes of two neighbouring sites and translations. -/
example : (∀ p : Fin 3, Function.Injective (fun k : Fin 2 => p + k.castSucc)) ∧
    SymsConsistent (QGPS.symsAut (L := 3) (T := 3) fun i j => i + j) ∧
    Padded (![0, 1, 1] : Fin 3 → Fin 2) [(0, 1), (1, 0), (0, 0)] := by
  refine ⟨by decide, (C35_syms_consistent (D := 2) (T := 3) fun j => Equiv.addRight j).1, ?_⟩
  simp only [Padded, List.pairwise_cons]; decide

/-- C38 is false for the cache after an update padded with a dummy: when the writes are carried out in the listed order,
the stored configuration is the old one, while the stored products are those of the new one. -/
theorem C38_dummy_cache_fails : ∃ (mod : Module 1 2 1 1 1 Unit) (x : Fin 1 → Fin 2) (upd : List (Fin 1 × Fin 2)),
    (∀ d p m k, mod.epsilon d p m k ≠ 0) ∧ Padded x upd ∧
    (model id mod).fastCache ((model id mod).cacheOf x) upd ≠ (model id mod).cacheOf (applyUpdate x upd) := by
  refine ⟨⟨fun d _ _ _ => (d.val + 1 : ℕ), fun _ _ => 0, QGPS.noSyms, fun a => a 0 0 ()⟩, fun _ => 0, [(0, 1), (0, 0)], ?_, ?_, ?_⟩
  · intro d p m k; exact Nat.cast_ne_zero.mpr (Nat.succ_ne_zero _)
  · simp only [Padded, List.pairwise_cons]; decide
  · intro h
    have := congrFun (congrArg Cache.samples h) 0
    simp [model, scatter, applyUpdate] at this

/-- C38 is false for a plaquette that lists a site twice: the inverse table keeps one of the positions only. -/
theorem C38_repeated_plaquette_site_fails : ∃ (mod : Module 1 2 1 1 2 Unit) (x : Fin 1 → Fin 2) (upd : List (Fin 1 × Fin 2)),
    (∀ d p m k, mod.epsilon d p m k ≠ 0) ∧ (upd.map Prod.fst).Nodup ∧
    (model id mod).fast ((model id mod).cacheOf x) upd ≠ (model id mod).full (applyUpdate x upd) := by
  refine ⟨⟨fun d _ _ _ => (d.val + 1 : ℕ), fun _ _ => 0, QGPS.noSyms, fun a => a 0 0 ()⟩, fun _ => 0, [(0, 1)], ?_, by simp, ?_⟩
  · intro d p m k; exact Nat.cast_ne_zero.mpr (Nat.succ_ne_zero _)
  · have : invPlaquette (fun _ : Fin 2 => (0 : Fin 1)) 0 = some 1 := by decide
    simp [model, fastSiteProd, listProd, siteProd, QGPS.noSyms, applyUpdate, this]
    norm_num

end GPSKet.Props
