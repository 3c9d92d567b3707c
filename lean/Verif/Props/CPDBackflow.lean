import Verif.Model.CPDBackflow
import Verif.Lemmas.Updates
import Mathlib.Data.Fin.VecNotation
import Mathlib.Analysis.SpecialFunctions.Complex.LogDeriv

/-! # Property C39: fast updates of the CPD backflow model -/

namespace GPSKet.Props
open Spec CPDBackflow

variable {L R N M : ℕ}

theorem updateFun_eq (x : Cfg L) (upd : List (Fin L × Fin 4)) : updateFun x upd = applyUpdate x upd := by
  rw [applyUpdate_foldr]; rfl

/-- A site that is listed more than once keeps its occupation. -/
def RepeatsUnchanged (x : Cfg L) (upd : List (Fin L × Fin 4)) : Prop :=
  upd.Pairwise fun u v => u.1 = v.1 → applyUpdate x upd v.1 = x v.1

theorem cpd_fast (eps : Eps L R N M) (h0 : ∀ α k d m β, eps α k d m β ≠ 0) (x : Cfg L) (upd : List (Fin L × Fin 4))
    (hr : RepeatsUnchanged x upd) :
    fastSiteProducts eps ⟨x, siteProducts eps x⟩ upd = siteProducts eps (applyUpdate x upd) := by
  have heff : applyUpdate x (upd.map fun u => (u.1, applyUpdate x upd u.1)) = applyUpdate x upd := by
    funext s
    by_cases hs : ∃ u ∈ upd, u.1 = s
    · have : ∀ (l : List (Fin L × Fin 4)) (f : Fin L → Fin 4), (∃ u ∈ l, u.1 = s) →
          applyUpdate x (l.map fun u => (u.1, f u.1)) s = f s := by
        intro l f
        induction l with
        | nil => simp
        | cons a l ih =>
          rintro ⟨u, hu, hus⟩
          rw [List.map_cons, applyUpdate_cons]
          by_cases ha : a.1 = s
          · subst ha; simp
          · rw [Function.update_of_ne (Ne.symm ha)]
            apply ih
            rcases List.mem_cons.mp hu with hu | hu
            · exact absurd (hu ▸ hus) ha
            · exact ⟨u, hu, hus⟩
      exact this upd _ hs
    · push Not at hs
      rw [applyUpdate_not_mem, applyUpdate_not_mem]
      · rw [List.mem_map]; rintro ⟨u, hu, hus⟩; exact hs u hu hus
      · rw [List.map_map, List.mem_map]; rintro ⟨u, hu, hus⟩; exact hs u hu hus
  have hpad : Padded x (upd.map fun u => (u.1, applyUpdate x upd u.1)) := by
    unfold Padded
    rw [List.pairwise_map]
    exact hr.imp fun {u v} h => h
  funext α k m
  have key := prod_applyUpdate (fun β d => eps α k d m β) x _ hpad (fun u _ => h0 _ _ _ _ _)
  rw [heff] at key
  unfold fastSiteProducts siteProductsWithCache
  dsimp only
  rw [updateFun_eq]
  have z1 : ((upd.map Prod.fst).map x).zip (upd.map Prod.fst) = upd.map fun u => (x u.1, u.1) := by simp [List.zip_map']
  have z2 : ((upd.map Prod.fst).map (applyUpdate x upd)).zip (upd.map Prod.fst) =
      upd.map fun u => (applyUpdate x upd u.1, u.1) := by simp [List.zip_map']
  rw [z1, z2]
  simp only [List.map_map, Function.comp_def] at key ⊢
  exact key.symm

/-- The part of C39 that holds: fast evaluation and cache update are right for every update in which no changed site is listed
twice, for restricted, unrestricted and generalised orbitals.  Missing: updates with a dummy for a changed site, which the
package's ab-initio operators do send; for those the property is false (`C39_dummy_fails`). -/
theorem C39_fast_update_partial {n_up n_down : ℕ} (kind : Kind L R N n_up n_down) (eps : Eps L R N M)
    (h0 : ∀ α k d m β, eps α k d m β ≠ 0) : (model kind eps).CoherentOn RepeatsUnchanged := by
  intro x upd hr
  have h := cpd_fast eps h0 x upd hr
  refine ⟨?_, ?_⟩
  · change logDet kind (orbitals (fastSiteProducts eps ⟨x, siteProducts eps x⟩ upd))
      (Electrons.occupanciesToElectrons [updateFun x upd] n_up n_down 0) = _
    rw [h, updateFun_eq]; rfl
  · change Cache.mk (updateFun x upd) (fastSiteProducts eps ⟨x, siteProducts eps x⟩ upd) = _
    rw [h, updateFun_eq]; rfl

/-- An update with a repeated site that meets the hypothesis. -/
example : RepeatsUnchanged (![1, 2, 0] : Cfg 3) [(0, 0), (2, 1), (1, 2), (1, 2)] := by
  unfold RepeatsUnchanged
  simp only [List.pairwise_cons, List.Pairwise.nil, and_true, List.forall_mem_cons, List.not_mem_nil, false_implies,
    implies_true]
  decide

/-- C39 over histories of updates. -/
theorem C39_history_partial {n_up n_down : ℕ} (kind : Kind L R N n_up n_down) (eps : Eps L R N M)
    (h0 : ∀ α k d m β, eps α k d m β ≠ 0) (x : Cfg L) (upds : List (List (Fin L × Fin 4)))
    (hn : ∀ upd ∈ upds, (upd.map Prod.fst).Nodup) :
    upds.foldl (model kind eps).fastCache ((model kind eps).cacheOf x) = (model kind eps).cacheOf (upds.foldl applyUpdate x) := by
  induction upds generalizing x with
  | nil => rfl
  | cons upd rest ih =>
    have hnd := hn upd List.mem_cons_self
    have hr : RepeatsUnchanged x upd := by
      unfold RepeatsUnchanged
      have := List.pairwise_map.mp hnd
      exact this.imp fun {u v} h h' => absurd h' h
    rw [List.foldl_cons, List.foldl_cons, (C39_fast_update_partial kind eps h0 x upd hr).2]
    exact ih _ fun u hu => hn u (List.mem_cons_of_mem upd hu)

/-- Parameters for the counterexample: the factor of site 0 is (occupation + 1), that of site 1 is 1. -/
noncomputable def cexEps : Eps 2 2 1 1 := fun _ _ d _ β => if β = 0 then (d.val + 1 : ℕ) else 1

/-- C39 is false when a changed site is listed again as a dummy: an up and a down electron both moving from site 0 to site 1, as
sent by the ab-initio operators (sites 0, 1, 0, 1 with occupations 0, 3 and then the dummies 3, 0), gives a wrong value: the new
factor of site 0 is multiplied twice, and its old factor divided out twice. -/
theorem C39_dummy_fails : (∀ α k d m β, cexEps α k d m β ≠ 0) ∧
    Padded (![3, 0] : Cfg 2) [(0, 0), (1, 3), (0, 3), (1, 0)] ∧
    (model (.restricted 1) cexEps).fast ((model (.restricted 1) cexEps).cacheOf ![3, 0]) [(0, 0), (1, 3), (0, 3), (1, 0)] ≠
      (model (.restricted 1) cexEps).full (applyUpdate ![3, 0] [(0, 0), (1, 3), (0, 3), (1, 0)]) := by
  refine ⟨?_, ?_, ?_⟩
  · intro α k d m β
    unfold cexEps
    split
    · exact Nat.cast_ne_zero.mpr (Nat.succ_ne_zero _)
    · exact one_ne_zero
  · simp only [Padded, List.pairwise_cons, List.Pairwise.nil, and_true]; decide
  · have happ : applyUpdate (![3, 0] : Cfg 2) [(0, 0), (1, 3), (0, 3), (1, 0)] = ![0, 3] := by decide
    have hup : updateFun (![3, 0] : Cfg 2) [(0, 0), (1, 3), (0, 3), (1, 0)] = ![0, 3] := by rw [updateFun_eq, happ]
    have he : Electrons.occupanciesToElectrons [(![0, 3] : Cfg 2)] 1 1 0 = [1, 1] := by decide
    have hfast : ∀ α k m, fastSiteProducts cexEps ⟨![3, 0], siteProducts cexEps ![3, 0]⟩
        [(0, 0), (1, 3), (0, 3), (1, 0)] α k m = 1 / 4 := by
      intro α k m
      unfold fastSiteProducts siteProductsWithCache
      dsimp only
      rw [hup]
      simp [cexEps, siteProducts]
      norm_num
    have hfull : ∀ α k m, siteProducts cexEps (![0, 3] : Cfg 2) α k m = 1 := by
      intro α k m; simp [cexEps, siteProducts]
    rw [happ]
    change logDet (.restricted 1) (orbitals (fastSiteProducts cexEps ⟨![3, 0], siteProducts cexEps ![3, 0]⟩ _))
      (Electrons.occupanciesToElectrons [updateFun ![3, 0] _] 1 1 0) ≠
      logDet (.restricted 1) (orbitals (siteProducts cexEps ![0, 3])) (Electrons.occupanciesToElectrons [![0, 3]] 1 1 0)
    rw [hup, he]
    have hne : Complex.log (4⁻¹ * 4⁻¹ : ℂ) ≠ 0 := by
      intro h
      have := congrArg Complex.exp h
      rw [Complex.exp_log (by norm_num), Complex.exp_zero] at this
      norm_num at this
    simpa [logDet, take, orbitals, hfast, hfull] using hne

end GPSKet.Props
