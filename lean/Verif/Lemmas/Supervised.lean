import Verif.Model.Supervised
import Verif.Spec.Supervised

/-! # Lemmas on the feature matrix of the supervised qGPS and its cache -/

namespace GPSKet.Supervised

variable {D M L : ℕ}

theorem foldl_skip (g : Fin L → ℂ) (r : Fin L) (l : List (Fin L)) (a : ℂ) :
    l.foldl (fun p j => if j ≠ r then p * g j else p) a = a * (l.map fun j => if j = r then 1 else g j).prod := by
  induction l generalizing a with
  | nil => simp
  | cons j l ih =>
    rw [List.foldl_cons, ih, List.map_cons, List.prod_cons]
    by_cases h : j = r
    · simp [h]
    · simp [h, mul_assoc]

theorem foldl_skip_eq (g : Fin L → ℂ) (r : Fin L) :
    (List.finRange L).foldl (fun p j => if j ≠ r then p * g j else p) 1 = ∏ j ∈ Finset.univ.erase r, g j := by
  rw [foldl_skip, one_mul, ← Fin.prod_univ_def]
  rw [← Finset.mul_prod_erase Finset.univ _ (Finset.mem_univ r), if_pos rfl, one_mul]
  apply Finset.prod_congr rfl
  intro j hj
  rw [if_neg (Finset.ne_of_mem_erase hj)]

theorem siteProd_eq (eps : Eps D M L) (refs : Refs M L) (x : Fin L → Fin D) (w : Fin M) :
    siteProd eps refs x w = ∏ j ∈ Finset.univ.erase (refs w), eps (x j) w j :=
  foldl_skip_eq (fun j => eps (x j) w j) (refs w)

theorem divCutoff_pos : 0 < divCutoff := by
  unfold divCutoff; positivity

theorem moveSiteProd_eq (eps : Eps D M L) (refs old : Refs M L) (x : Fin L → Fin D) :
    moveSiteProd eps refs old x (siteProd eps old x) = siteProd eps refs x := by
  funext w
  unfold moveSiteProd
  by_cases h : refs w ≠ old w
  · rw [if_pos h]
    by_cases hb : divCutoff < ‖eps (x (refs w)) w (refs w)‖
    · rw [if_pos hb]
      have hne : eps (x (refs w)) w (refs w) ≠ 0 := by
        intro h0
        rw [h0, norm_zero] at hb
        exact absurd divCutoff_pos (not_lt.mpr hb.le)
      rw [siteProd_eq, siteProd_eq]
      have h1 : refs w ∈ Finset.univ.erase (old w) := Finset.mem_erase.mpr ⟨h, Finset.mem_univ _⟩
      have h2 : old w ∈ Finset.univ.erase (refs w) := Finset.mem_erase.mpr ⟨h.symm, Finset.mem_univ _⟩
      rw [← Finset.mul_prod_erase _ _ h1, ← Finset.mul_prod_erase _ _ h2, Finset.erase_right_comm]
      field_simp
    · rw [if_neg hb, foldl_skip_eq (fun j => eps (x j) w j) (refs w), siteProd_eq]
  · rw [if_neg h]
    rw [not_not] at h
    rw [siteProd_eq, siteProd_eq, h]

theorem moveSiteProds_eq (eps : Eps D M L) (refs old : Refs M L) (confs : Confs D L) :
    moveSiteProds eps refs old confs (siteProds eps old confs) = siteProds eps refs confs := by
  unfold moveSiteProds siteProds
  rw [List.zipWith_map_right, List.zipWith_self]
  apply List.map_congr_left
  intro row _
  rw [List.zipWith_map_right, List.zipWith_self]
  apply List.map_congr_left
  intro x _
  exact moveSiteProd_eq eps refs old x

/-- The feature matrix computed from scratch. -/
def freshKernel (eps : Eps D M L) (refs : Refs M L) (confs : Confs D L) : List (Features D M) :=
  sumSyms (kernelPerSym refs confs (siteProds eps refs confs))

theorem list_sum_apply {ι : Type} (l : List (ι → ℂ)) (i : ι) : l.sum i = (l.map fun g => g i).sum := by
  induction l with
  | nil => simp
  | cons a l ih => simp [ih]

theorem freshKernel_eq (eps : Eps D M L) (refs : Refs M L) (confs : Confs D L) :
    freshKernel eps refs confs = confs.map fun row f =>
      Spec.feature eps (refs (finProdFinEquiv.symm f).1) (finProdFinEquiv.symm f).1 (finProdFinEquiv.symm f).2 row := by
  unfold freshKernel sumSyms kernelPerSym siteProds
  rw [List.zipWith_map_right, List.zipWith_self, List.map_map]
  apply List.map_congr_left
  intro row _
  funext f
  rw [Function.comp_apply, List.zipWith_map_right, List.zipWith_self, list_sum_apply, List.map_map, Spec.feature]
  congr 1
  apply List.map_congr_left
  intro x _
  simp only [Function.comp_apply, kernelEntry, siteProd_eq]

theorem list_sum_finset {ι : Type} (s : Finset ι) (l : List (Fin L → Fin D)) (g : (Fin L → Fin D) → ι → ℂ) :
    (∑ i ∈ s, (l.map fun x => g x i).sum) = (l.map fun x => ∑ i ∈ s, g x i).sum := by
  induction l with
  | nil => simp
  | cons a l ih => simp [Finset.sum_add_distrib, ih]

theorem list_sum_mul (l : List (Fin L → Fin D)) (g : (Fin L → Fin D) → ℂ) (c : ℂ) :
    (l.map g).sum * c = (l.map fun x => g x * c).sum := by
  induction l with
  | nil => simp
  | cons a l ih => simp [add_mul, ih]

theorem features_dot (eps : Eps D M L) (refs : Refs M L) (row : List (Fin L → Fin D)) :
    (∑ f : Fin (M * D), Spec.feature eps (refs (finProdFinEquiv.symm f).1) (finProdFinEquiv.symm f).1
        (finProdFinEquiv.symm f).2 row * refWeights eps refs f)
      = (row.map fun x => ∑ w, ∏ j, eps (x j) w j).sum := by
  rw [← Equiv.sum_comp finProdFinEquiv]
  simp only [refWeights, Equiv.symm_apply_apply, Spec.feature, list_sum_mul]
  rw [list_sum_finset]
  congr 1
  apply List.map_congr_left
  intro x _
  rw [Fintype.sum_prod_type]
  apply Finset.sum_congr rfl
  intro w _
  rw [Finset.sum_eq_single (x (refs w))]
  · rw [if_pos rfl, mul_comm, Finset.mul_prod_erase Finset.univ (fun j => eps (x j) w j) (Finset.mem_univ (refs w))]
  · intro d _ hd
    rw [if_neg (Ne.symm hd), zero_mul]
  · simp

/-- The cache holds what would be computed from scratch now. -/
def CacheValid (h : Heap D M L) (s : Learner D M L) : Prop :=
  ∀ sp, s.siteProd = some sp → ∃ a r, s.confs = some a ∧ s.siteProdRefs = some r ∧
    sp = siteProds s.eps (h.deref r) (h.confs a) ∧ s.kernel = some (kernelPerSym (h.deref r) (h.confs a) sp)

theorem setKernelMat_spec (h : Heap D M L) (s : Learner D M L) (hv : CacheValid h s) (addr : ℕ) (r : RefArray L)
    (hr : s.refs = some r) :
    ∃ s', s.setKernelMat h addr = some (s', freshKernel s.eps (h.deref r) (h.confs addr)) ∧ CacheValid h s' ∧
      s'.eps = s.eps ∧ s'.bias = s.bias ∧ s'.includeBias = s.includeBias ∧ s'.refs = some r ∧
      (∃ sp r', s'.siteProd = some sp ∧ s'.siteProdRefs = some r' ∧ h.deref r' = h.deref r) := by
  obtain ⟨eps, ib, bias, refs, confs, sp, spr, K⟩ := s
  simp only at hr
  subst hr
  have fresh : ∃ s', (some (Learner.mk eps ib bias (some r) (some addr) (some (siteProds eps (h.deref r) (h.confs addr))) (some r)
        (some (kernelPerSym (h.deref r) (h.confs addr) (siteProds eps (h.deref r) (h.confs addr)))),
        sumSyms (kernelPerSym (h.deref r) (h.confs addr) (siteProds eps (h.deref r) (h.confs addr)))) :
          Option (Learner D M L × List (Features D M)))
        = some (s', freshKernel eps (h.deref r) (h.confs addr)) ∧ CacheValid h s' ∧
      s'.eps = eps ∧ s'.bias = bias ∧ s'.includeBias = ib ∧ s'.refs = some r ∧
      (∃ sp r', s'.siteProd = some sp ∧ s'.siteProdRefs = some r' ∧ h.deref r' = h.deref r) := by
    refine ⟨_, rfl, ?_, rfl, rfl, rfl, rfl, _, _, rfl, rfl, rfl⟩
    intro sp hsp
    cases hsp
    exact ⟨addr, r, rfl, rfl, rfl, rfl⟩
  cases sp with
  | none =>
    cases confs with
    | none => exact fresh
    | some a =>
      by_cases hsame : h.confs a = h.confs addr
      · simp only [Learner.setKernelMat, hsame, decide_true, Option.bind_eq_bind, Option.bind_some]
        exact fresh
      · simp only [Learner.setKernelMat, hsame, decide_false, Option.bind_eq_bind, Option.bind_some]
        exact fresh
  | some sp =>
    obtain ⟨a, r', ha, hr', hsp', hK⟩ := hv sp rfl
    simp only at ha hr' hK hsp'
    subst ha hr' hK
    by_cases hsame : h.confs a = h.confs addr
    · simp only [Learner.setKernelMat, hsame, decide_true, Option.bind_eq_bind, Option.bind_some]
      by_cases href : h.deref r = h.deref r'
      · simp only [href, ne_eq, not_true_eq_false, if_false]
        refine ⟨Learner.mk eps ib bias (some r) (some a) (some sp) (some r')
          (some (kernelPerSym (h.deref r') (h.confs addr) sp)), ?_, ?_, rfl, rfl, rfl, rfl, sp, r', rfl, rfl, rfl⟩
        · rw [freshKernel, hsp', hsame]
          rfl
        · rw [← hsame]; exact hv
      · simp only [ne_eq, href, not_false_eq_true, if_true]
        rw [hsp', hsame, moveSiteProds_eq]
        refine ⟨_, rfl, ?_, rfl, rfl, rfl, rfl, _, _, rfl, rfl, rfl⟩
        intro sp2 hsp2
        cases hsp2
        refine ⟨a, r, rfl, rfl, ?_, ?_⟩
        · rw [hsame]
        · rw [hsame]
    · simp only [Learner.setKernelMat, hsame, decide_false, Option.bind_eq_bind, Option.bind_some]
      exact fresh

end GPSKet.Supervised
