import Verif.Lemmas.Supervised

/-!
# C54, C55: supervised predictions do not depend on the reference sites, and the cache is never stale

The learner is compared with a learner that caches nothing (`Ref`): its state is just the parameters and the bias, its predictions
are the specification `Spec.qgpsLog`, and its fits see the features `Spec.feature` of the current parameters.
-/

namespace GPSKet.Supervised

variable {D M L : ℕ}

/-- A learner without reference sites and without caches. -/
structure Ref (D M L : ℕ) where
  eps : Fin D → Fin M → Fin L → ℂ
  includeBias : Bool
  bias : ℂ

/-- The log-amplitudes of a data set. -/
def Ref.predictLog (p : Ref D M L) (confs : Confs D L) : List ℂ :=
  confs.map (Spec.qgpsLog p.eps (if p.includeBias then p.bias else 0))

/-- One operation of the learner without caches. -/
def Ref.step (hp : Heap D M L × Ref D M L) : Op D M L → Heap D M L × Ref D M L
  | .assignEps eps => (hp.1, { hp.2 with eps })
  | .setRefs _ => hp
  | .predict _ => hp
  | .fitStep a r fit =>
    let refs := hp.1.deref r
    let res := fit
      ((hp.1.confs a).map fun row f => Spec.feature hp.2.eps (refs (finProdFinEquiv.symm f).1) (finProdFinEquiv.symm f).1
        (finProdFinEquiv.symm f).2 row)
      (fun f => hp.2.eps (finProdFinEquiv.symm f).2 (finProdFinEquiv.symm f).1 (refs (finProdFinEquiv.symm f).1))
      hp.2.bias
    (hp.1, { hp.2 with
      eps := fun d w j => if j = refs w then res.1 (finProdFinEquiv (w, d)) else hp.2.eps d w j
      bias := if hp.2.includeBias then res.2 else hp.2.bias })
  | .writeConfs a c => ({ hp.1 with confs := Function.update hp.1.confs a c }, hp.2)
  | .writeRefs a r => ({ hp.1 with refs := Function.update hp.1.refs a r }, hp.2)
  | .pokeEps eps => (hp.1, { hp.2 with eps })

/-- A history of the learner without caches. -/
def Ref.run (hp : Heap D M L × Ref D M L) (ops : List (Op D M L)) : Heap D M L × Ref D M L :=
  ops.foldl Ref.step hp

/-- The history neither overwrites the contents of an array that the learner holds, nor writes to the parameters around the setter. -/
def Clean (first : Fin L) (hs : Heap D M L × Learner D M L) : List (Op D M L) → Prop
  | [] => True
  | o :: os =>
    (match o with
      | .writeConfs a _ => hs.2.confs ≠ some a
      | .writeRefs a _ => hs.2.siteProdRefs ≠ some (.caller a)
      | .pokeEps _ => False
      | _ => True) ∧
    ∀ hs', step first hs o = some hs' → Clean first hs' os

theorem deref_update_ne (h : Heap D M L) (a : ℕ) (v : Refs M L) (r : RefArray L) (hr : r ≠ .caller a) :
    ({ h with refs := Function.update h.refs a v } : Heap D M L).deref r = h.deref r := by
  cases r with
  | own s => rfl
  | caller b =>
    have hb : b ≠ a := fun e => hr (by rw [e])
    show Function.update h.refs a v b = h.refs b
    rw [Function.update_of_ne hb]

theorem siteProds_write (eps : Eps D M L) (refs : Refs M L) (v : Features D M) (confs : Confs D L) :
    siteProds (writeRefWeights eps refs v) refs confs = siteProds eps refs confs := by
  unfold siteProds
  apply List.map_congr_left
  intro row _
  apply List.map_congr_left
  intro x _
  funext w
  rw [siteProd_eq, siteProd_eq]
  apply Finset.prod_congr rfl
  intro j hj
  show (if j = refs w then _ else _) = _
  rw [if_neg (Finset.ne_of_mem_erase hj)]

/-- A learner and a learner without caches are in the same state, and the cache of the former is right. -/
def Agree (hs : Heap D M L × Learner D M L) (hp : Heap D M L × Ref D M L) : Prop :=
  hs.1 = hp.1 ∧ hs.2.eps = hp.2.eps ∧ hs.2.includeBias = hp.2.includeBias ∧ hs.2.bias = hp.2.bias ∧ CacheValid hs.1 hs.2

theorem predictLog_spec (h : Heap D M L) (s : Learner D M L) (hv : CacheValid h s) (first : Fin L) (addr : ℕ) :
    ∃ s', s.predictLog h first addr
        = some (s', (h.confs addr).map (Spec.qgpsLog s.eps (if s.includeBias then s.bias else 0))) ∧
      CacheValid h s' ∧ s'.eps = s.eps ∧ s'.bias = s.bias ∧ s'.includeBias = s.includeBias := by
  have key : ∀ (s : Learner D M L) (r : RefArray L), CacheValid h s → s.refs = some r →
      ∃ s', ((s.setKernelMat h addr).bind fun x => x.1.refs.bind fun r =>
          some (x.1, x.2.map fun row => (∑ f, row f * refWeights x.1.eps (h.deref r) f)
            + (if x.1.includeBias then x.1.bias else 0)))
          = some (s', (h.confs addr).map (Spec.qgpsLog s.eps (if s.includeBias then s.bias else 0))) ∧
        CacheValid h s' ∧ s'.eps = s.eps ∧ s'.bias = s.bias ∧ s'.includeBias = s.includeBias := by
    intro s r hv hr
    obtain ⟨s', h1, h2, h3, h4, h5, h6, -⟩ := setKernelMat_spec h s hv addr r hr
    refine ⟨s', ?_, h2, h3, h4, h5⟩
    rw [h1, Option.bind_some]
    simp only [h6, Option.bind_some, h3, h4, h5]
    congr 2
    rw [freshKernel_eq, List.map_map]
    apply List.map_congr_left
    intro row _
    rw [Function.comp_apply, features_dot, Spec.qgpsLog]
  unfold Learner.predictLog
  cases hr : s.refs with
  | none =>
    have hv' : CacheValid h (s.setRefs (.own first)) := hv
    exact key (s.setRefs (.own first)) (.own first) hv' rfl
  | some r =>
    exact key s r hv hr

theorem step_agree (first : Fin L) (hs : Heap D M L × Learner D M L) (hp : Heap D M L × Ref D M L) (ha : Agree hs hp)
    (o : Op D M L) (hc : Clean first hs [o]) :
    ∃ hs', step first hs o = some hs' ∧ Agree hs' (Ref.step hp o) := by
  obtain ⟨h, s⟩ := hs
  obtain ⟨h', p⟩ := hp
  obtain ⟨rfl, he, hi, hb, hv⟩ := ha
  cases o with
  | assignEps eps =>
    refine ⟨_, rfl, rfl, rfl, hi, hb, ?_⟩
    intro sp hsp
    cases hsp
  | setRefs r => exact ⟨_, rfl, rfl, he, hi, hb, hv⟩
  | predict a =>
    obtain ⟨s', h1, h2, h3, h4, h5⟩ := predictLog_spec h s hv first a
    refine ⟨(h, s'), ?_, rfl, h3.trans he, h5.trans hi, h4.trans hb, h2⟩
    show (s.predictLog h first a).map _ = _
    rw [h1]
    rfl
  | fitStep a r fit =>
    obtain ⟨s', h1, h2, h3, h4, h5, h6, sp, r', h7, h8, h9⟩ := setKernelMat_spec h (s.setRefs r) hv a r rfl
    refine ⟨(h, { s' with
      eps := writeRefWeights s'.eps (h.deref r) (fit (freshKernel s.eps (h.deref r) (h.confs a))
        (refWeights s'.eps (h.deref r)) s'.bias).1
      bias := if s'.includeBias then (fit (freshKernel s.eps (h.deref r) (h.confs a))
        (refWeights s'.eps (h.deref r)) s'.bias).2 else s'.bias }), ?_, rfl, ?_, ?_, ?_, ?_⟩
    · show ((s.fitStep h a r fit).map fun s => (h, s)) = _
      unfold Learner.fitStep
      simp only [Option.bind_eq_bind, h1, Option.bind_some]
      rfl
    · dsimp only at he hi hb ⊢
      rw [h3, h4, freshKernel_eq]
      simp only [Learner.setRefs, Ref.step, he, hb]
      rfl
    · exact h5.trans hi
    · dsimp only at he hi hb ⊢
      rw [h3, h4, h5, freshKernel_eq]
      simp only [Learner.setRefs, Ref.step, he, hb, hi]
      rfl
    · intro sp2 hsp2
      have h7' : sp2 = sp := by
        have : s'.siteProd = some sp2 := hsp2
        rw [h7] at this
        exact (Option.some.inj this).symm
      subst h7'
      obtain ⟨a', r2, e1, e2, e3, e4⟩ := h2 sp2 h7
      have : r2 = r' := by rw [h8] at e2; exact (Option.some.inj e2).symm
      subst this
      refine ⟨a', r2, e1, e2, ?_, e4⟩
      dsimp only at e3 ⊢
      rw [e3, h9]
      exact (siteProds_write _ _ _ _).symm
  | writeConfs a c =>
    have hne : s.confs ≠ some a := hc.1
    refine ⟨_, rfl, rfl, he, hi, hb, ?_⟩
    intro sp hsp
    obtain ⟨b, r, e1, e2, e3, e4⟩ := hv sp hsp
    have hba : b ≠ a := fun e => hne (by rw [← e]; exact e1)
    refine ⟨b, r, e1, e2, ?_, ?_⟩
    · show sp = siteProds s.eps (Heap.deref ⟨_, _⟩ r) (Function.update h.confs a c b)
      rw [Function.update_of_ne hba]
      cases r <;> exact e3
    · show s.kernel = some (kernelPerSym (Heap.deref ⟨_, _⟩ r) (Function.update h.confs a c b) sp)
      rw [Function.update_of_ne hba]
      cases r <;> exact e4
  | writeRefs a v =>
    have hne : s.siteProdRefs ≠ some (.caller a) := hc.1
    refine ⟨_, rfl, rfl, he, hi, hb, ?_⟩
    intro sp hsp
    obtain ⟨b, r, e1, e2, e3, e4⟩ := hv sp hsp
    have hra : r ≠ .caller a := fun e => hne (by rw [← e]; exact e2)
    refine ⟨b, r, e1, e2, ?_, ?_⟩
    · dsimp only
      rw [deref_update_ne h a v r hra]
      exact e3
    · dsimp only
      rw [deref_update_ne h a v r hra]
      exact e4
  | pokeEps eps => exact absurd hc.1 id

theorem run_agree (first : Fin L) (ops : List (Op D M L)) (hs : Heap D M L × Learner D M L) (hp : Heap D M L × Ref D M L)
    (ha : Agree hs hp) (hc : Clean first hs ops) :
    ∃ hs', run first hs ops = some hs' ∧ Agree hs' (Ref.run hp ops) := by
  induction ops generalizing hs hp with
  | nil => exact ⟨hs, rfl, ha⟩
  | cons o os ih =>
    obtain ⟨hs1, h1, h2⟩ := step_agree first hs hp ha o ⟨hc.1, fun _ _ => trivial⟩
    obtain ⟨hs2, h3, h4⟩ := ih hs1 (Ref.step hp o) h2 (hc.2 hs1 h1)
    refine ⟨hs2, ?_, h4⟩
    show (step first hs o).bind _ = _
    rw [h1]
    exact h3

/-- C55: after any history of predictions, fits at any reference sites, assignments of parameters and of reference sites, and of
creations and changes of arrays not held by the learner, no operation has raised, the parameters and the bias are those of a
learner that caches nothing, and so is every prediction. -/
theorem C55_partial (first : Fin L) (h : Heap D M L) (eps : Eps D M L) (includeBias : Bool) (ops : List (Op D M L))
    (hclean : Clean first (h, Learner.init eps includeBias) ops) :
    ∃ h' s, run first (h, Learner.init eps includeBias) ops = some (h', s) ∧
      let hp := Ref.run (h, ⟨eps, includeBias, 0⟩) ops
      h' = hp.1 ∧ s.eps = hp.2.eps ∧ s.bias = hp.2.bias ∧
      ∀ addr, ∃ s', s.predictLog h' first addr = some (s', hp.2.predictLog (hp.1.confs addr)) := by
  obtain ⟨⟨h', s⟩, h1, h2, h3, h4, h5, h6⟩ := run_agree first ops (h, Learner.init eps includeBias) (h, ⟨eps, includeBias, 0⟩)
    ⟨rfl, rfl, rfl, rfl, fun sp hsp => by cases hsp⟩ hclean
  refine ⟨h', s, h1, h2, h3, h5, ?_⟩
  intro addr
  obtain ⟨s', e1, -⟩ := predictLog_spec h' s h6 first addr
  refine ⟨s', ?_⟩
  rw [e1]
  dsimp only at h2 h3 h4 h5 ⊢
  rw [Ref.predictLog, ← h2, ← h3, ← h4, ← h5]

/-- C54: whichever reference sites are set, after any such history the predicted amplitude of every data point is the exponential of
the sum over symmetries and support of the full product over the sites. -/
theorem C54 (first : Fin L) (h : Heap D M L) (eps : Eps D M L) (includeBias : Bool) (ops : List (Op D M L))
    (hclean : Clean first (h, Learner.init eps includeBias) ops) (h' : Heap D M L) (s : Learner D M L)
    (hrun : run first (h, Learner.init eps includeBias) ops = some (h', s)) (r : RefArray L) (addr : ℕ) :
    ∃ s', (s.setRefs r).predictExp h' first addr = some (s', (h'.confs addr).map fun row =>
        Complex.exp ((row.map fun x => ∑ w, ∏ j, s.eps (x j) w j).sum + if includeBias then s.bias else 0)) := by
  obtain ⟨⟨h2', s2⟩, h1, h2, h3, h4, h5, h6⟩ := run_agree first ops (h, Learner.init eps includeBias) (h, ⟨eps, includeBias, 0⟩)
    ⟨rfl, rfl, rfl, rfl, fun sp hsp => by cases hsp⟩ hclean
  rw [hrun] at h1
  cases h1
  have hv : CacheValid h' (s.setRefs r) := h6
  have hi : s.includeBias = includeBias := by
    have : ∀ (ops : List (Op D M L)) (hp : Heap D M L × Ref D M L), (Ref.run hp ops).2.includeBias = hp.2.includeBias := by
      intro ops
      induction ops with
      | nil => intro hp; rfl
      | cons o os ih =>
        intro hp
        refine (ih (Ref.step hp o)).trans ?_
        cases o <;> rfl
    exact h4.trans (this ops _)
  obtain ⟨s', e1, -⟩ := predictLog_spec h' (s.setRefs r) hv first addr
  refine ⟨s', ?_⟩
  unfold Learner.predictExp
  rw [e1]
  simp only [Option.map_some, List.map_map, Learner.setRefs, hi]
  rfl

/-- The cache itself: after any such history, preparing the features for any reference sites and any data set gives the features
of the current parameters. -/
theorem C55_features_partial (first : Fin L) (h : Heap D M L) (eps : Eps D M L) (includeBias : Bool) (ops : List (Op D M L))
    (hclean : Clean first (h, Learner.init eps includeBias) ops) (h' : Heap D M L) (s : Learner D M L)
    (hrun : run first (h, Learner.init eps includeBias) ops = some (h', s)) (r : RefArray L) (addr : ℕ) :
    ∃ s', (s.setRefs r).setKernelMat h' addr = some (s', (h'.confs addr).map fun row f =>
      Spec.feature s.eps (h'.deref r (finProdFinEquiv.symm f).1) (finProdFinEquiv.symm f).1 (finProdFinEquiv.symm f).2 row) := by
  obtain ⟨⟨h2', s2⟩, h1, h2, h3, h4, h5, h6⟩ := run_agree first ops (h, Learner.init eps includeBias) (h, ⟨eps, includeBias, 0⟩)
    ⟨rfl, rfl, rfl, rfl, fun sp hsp => by cases hsp⟩ hclean
  rw [hrun] at h1
  cases h1
  have hv : CacheValid h' (s.setRefs r) := h6
  obtain ⟨s', e1, -⟩ := setKernelMat_spec h' (s.setRefs r) hv addr r rfl
  exact ⟨s', by rw [e1, freshKernel_eq]; rfl⟩

/-! ## The histories that are excluded do go wrong -/

/-- The learner after its first prediction. -/
def afterPredict (h : Heap D M L) (eps : Eps D M L) (r : RefArray L) (a : ℕ) : Learner D M L :=
  ⟨eps, false, 0, some r, some a, some (siteProds eps (h.deref r) (h.confs a)), some r,
    some (kernelPerSym (h.deref r) (h.confs a) (siteProds eps (h.deref r) (h.confs a)))⟩

theorem run_afterPredict (h : Heap D M L) (eps : Eps D M L) (a : ℕ) (r : RefArray L) (first : Fin L) (o : Op D M L) :
    run first (h, Learner.init eps false) [.setRefs r, .predict a, o] = step first (h, afterPredict h eps r a) o := by
  have : ((Learner.init eps false).setRefs r).predictLog h first a
      = some (afterPredict h eps r a,
        (freshKernel eps (h.deref r) (h.confs a)).map fun row => ∑ f, row f * refWeights eps (h.deref r) f) := by
    simp [Learner.predictLog, Learner.setKernelMat, Learner.init, Learner.setRefs, freshKernel, afterPredict]
  have h1 : step first (h, Learner.init eps false) (.setRefs r) = some (h, (Learner.init eps false).setRefs r) := rfl
  have h2 : step first (h, (Learner.init eps false).setRefs r) (.predict a) = some (h, afterPredict h eps r a) := by
    simp only [step, this, Option.map_some]
  rw [run, h1, Option.bind_some, run, h2, Option.bind_some, run]
  exact Option.bind_fun_some _

/-- A second prediction for the same data set and reference sites uses the cache of the first, whatever has happened to the arrays. -/
theorem predictLog_cached (h h' : Heap D M L) (eps eps' : Eps D M L) (r : RefArray L) (a : ℕ) (first : Fin L) :
    Learner.predictLog h' { afterPredict h eps r a with eps := eps' } first a
      = some ({ afterPredict h eps r a with eps := eps' },
        (h.confs a).map fun row => ∑ p : Fin M × Fin D,
          Spec.feature eps (h.deref r p.1) p.1 p.2 row * eps' p.2 p.1 (h'.deref r p.1)) := by
  simp only [Learner.predictLog, Learner.setKernelMat, afterPredict, Option.isNone_some, Bool.false_eq_true, if_false,
    Option.bind_eq_bind, Option.bind_some, decide_true, ne_eq, not_true_eq_false]
  refine congrArg some (Prod.ext rfl ?_)
  show List.map _ (freshKernel eps (h.deref r) (h.confs a)) = _
  rw [freshKernel_eq, List.map_map]
  apply List.map_congr_left
  intro row _
  rw [Function.comp_apply, ← Equiv.sum_comp finProdFinEquiv]
  simp only [Equiv.symm_apply_apply, refWeights, Bool.false_eq_true, if_false, add_zero]

/-- Parameters for one support index and two sites. -/
def epsA : Eps 2 1 2 := fun d _ j => d.val + 1 + 3 * j.val

/-- The memory: a data set of one configuration, and reference site 0, at all addresses. -/
def heapA : Heap 2 1 2 := ⟨fun _ => [[fun _ => 0]], fun _ _ => 0⟩

/-- C55 fails: a program predicts for a data set, overwrites the contents of the data set in place, and predicts again.  The learner
compares the new contents with themselves, so it returns the amplitude of the old data. -/
theorem C55_data_fails : ∃ h s s', run 0 (heapA, Learner.init epsA false)
      [.setRefs (.own 0), .predict 0, .writeConfs 0 [[fun _ => 1]]] = some (h, s) ∧
    s.eps = epsA ∧ s.predictLog h 0 0 = some (s', [4]) ∧ (h.confs 0).map (Spec.qgpsLog s.eps 0) = [10] := by
  refine ⟨⟨Function.update heapA.confs 0 [[fun _ => 1]], heapA.refs⟩, afterPredict heapA epsA (.own 0) 0,
    afterPredict heapA epsA (.own 0) 0, ?_, rfl, ?_, ?_⟩
  · rw [run_afterPredict]
    rfl
  · refine (predictLog_cached heapA _ epsA epsA (.own 0) 0 0).trans (congrArg some (Prod.ext rfl ?_))
    have he : Finset.univ.erase (0 : Fin 2) = {1} := by decide
    simp [heapA, Heap.deref, Spec.feature, epsA, Fintype.sum_prod_type, he]
    norm_num
  · simp [Spec.qgpsLog, epsA, afterPredict]
    norm_num

/-- C55 fails: the same for the vector of reference sites.  A program that fits or predicts with a vector of reference sites, changes
the vector in place, and goes on, gets features of the old reference sites with parameters of the new ones. -/
theorem C55_refs_fails : ∃ h s s', run 0 (heapA, Learner.init epsA false)
      [.setRefs (.caller 0), .predict 0, .writeRefs 0 (fun _ => 1)] = some (h, s) ∧
    s.eps = epsA ∧ s.predictLog h 0 0 = some (s', [16]) ∧ (h.confs 0).map (Spec.qgpsLog s.eps 0) = [4] := by
  refine ⟨⟨heapA.confs, Function.update heapA.refs 0 (fun _ => 1)⟩, afterPredict heapA epsA (.caller 0) 0,
    afterPredict heapA epsA (.caller 0) 0, ?_, rfl, ?_, ?_⟩
  · rw [run_afterPredict]
    rfl
  · refine (predictLog_cached heapA _ epsA epsA (.caller 0) 0 0).trans (congrArg some (Prod.ext rfl ?_))
    have he : Finset.univ.erase (0 : Fin 2) = {1} := by decide
    simp [heapA, Heap.deref, Spec.feature, epsA, Fintype.sum_prod_type, he]
    norm_num
  · simp [Spec.qgpsLog, epsA, afterPredict, heapA]
    norm_num

/-- C55 fails: an assignment to entries of `learner.epsilon` does not reach the setter, and the cache stays as it was. -/
theorem C55_parameters_fails : ∃ h s s', run 0 (heapA, Learner.init epsA false)
      [.setRefs (.own 0), .predict 0, .pokeEps (fun _ _ _ => 1)] = some (h, s) ∧
    s.eps = (fun _ _ _ => 1) ∧ s.predictLog h 0 0 = some (s', [4]) ∧ (h.confs 0).map (Spec.qgpsLog s.eps 0) = [1] := by
  refine ⟨heapA, { afterPredict heapA epsA (.own 0) 0 with eps := fun _ _ _ => 1 },
    { afterPredict heapA epsA (.own 0) 0 with eps := fun _ _ _ => 1 }, ?_, rfl, ?_, ?_⟩
  · rw [run_afterPredict]
    rfl
  · refine (predictLog_cached heapA heapA epsA (fun _ _ _ => 1) (.own 0) 0 0).trans (congrArg some (Prod.ext rfl ?_))
    have he : Finset.univ.erase (0 : Fin 2) = {1} := by decide
    simp [heapA, Heap.deref, Spec.feature, epsA, Fintype.sum_prod_type, he]
    norm_num
  · simp [Spec.qgpsLog, heapA]

/-- A clean history: a prediction, a fit at another reference site, a new data set, and an assignment of parameters. -/
example : Clean 0 (heapA, Learner.init epsA true)
    [.predict 0, .writeConfs 1 [[fun _ => 1], [fun _ => 0]], .fitStep 1 (.own 1) (fun _ w b => (fun f => 2 * w f, b + 1)),
      .predict 0, .assignEps (fun _ _ _ => 3), .predict 1] := by
  refine ⟨trivial, fun hs1 h1 => ⟨?_, fun hs2 _ => ⟨trivial, fun hs3 _ => ⟨trivial, fun hs4 _ => ⟨trivial, fun hs5 _ =>
    ⟨trivial, fun _ _ => trivial⟩⟩⟩⟩⟩⟩
  simp [step, Learner.predictLog, Learner.setKernelMat, Learner.init, Learner.setRefs] at h1
  rw [← h1]
  simp

end GPSKet.Supervised
