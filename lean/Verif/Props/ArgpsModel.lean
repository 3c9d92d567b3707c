import Verif.Lemmas.ArgpsModel

/-!
# C112, C113: models and samplers of the autoregressive script
-/

namespace GPSKet.ArgpsModel
open QGPS
open Spec
open Props
open MeasureTheory

variable {L M : ℕ}

theorem requested_eq (kind : String) (groups : List String) : requested kind groups = asksFor kind groups := by
  unfold requested asksFor
  by_cases h1 : kind ∈ groups <;> by_cases h2 : groups.head? = some "all" <;>
    by_cases h3 : groups.head? = some "automorphisms" <;> simp_all

/-- The group of symmetries that the configuration asks for. -/
def configured (A T P : Subgroup (Equiv.Perm (Fin L))) (groups : List String) : Subgroup (Equiv.Perm (Fin L) × Equiv.Perm (Fin 2)) :=
  spinGroup (latticeGroup A T P (asksFor "translations" groups) (asksFor "point-symmetries" groups)) (asksFor "spin-flip" groups)

/-- The symmetry functions that the models use list the group that the configuration asks for, each element once, and the inverse functions
are those of the inverse elements. -/
theorem model_represents [NeZero L] (name : Name) (hn : name ≠ .FilterGPS) (groups : List String) {g : Graph L}
    {A T P : Subgroup (Equiv.Perm (Fin L))} (h : GraphOk g A T P) :
    ∃ ops, ListsOps ops (configured A T P groups) ∧ Represents ((modelFuns name groups g).syms name) ops := by
  unfold modelFuns configured
  rw [if_neg hn, requested_eq, requested_eq, requested_eq]
  exact represents name _ _ _ h

theorem machine_provided [NeZero L] {D : ℕ} (f : AR.Fields D M) (lattice : Option (List (Fin L → Fin L))) (params : Params L D M) :
    ProvidedAR (machine f lattice params) := by
  cases params with
  | full epsilon => exact .full f epsilon
  | filter epsilon =>
    cases lattice with
    | some rows => exact .plaquette f epsilon _ (masks_hide _)
    | none => exact .plaquette f epsilon _ (masks_hide _)

theorem machine_fields [NeZero L] {D : ℕ} (f : AR.Fields D M) (lattice : Option (List (Fin L → Fin L))) (params : Params L D M) :
    (machine f lattice params).fields = f := by cases params <;> rfl

/-- The log-amplitude of an autoregressive model of the script for a spin system. -/
noncomputable def logPsi [NeZero L] (name : Name) (groups : List String) (g : Graph L) (lattice : Option (List (Fin L → Fin L)))
    (params : Params L 2 M) (x : Fin L → Fin 2) : AR.LogAmp :=
  (machine (spinFields name L true) lattice params).logPsi (fun t x => ((modelFuns name groups g).syms name).symmetries x t) x

/-- **C112**: for a spin system with zero magnetisation (an even number of sites), whichever symmetries the configuration asks for: the
autoregressive models assign the same log-amplitude to configurations that these symmetries (lattice symmetries and spin flips) map to each
other. -/
theorem C112_invariant [NeZero L] (name : Name) (hn : name.isGPS = false) (groups : List String) (g : Graph L)
    (A T P : Subgroup (Equiv.Perm (Fin L))) (h : GraphOk g A T P) (lattice : Option (List (Fin L → Fin L))) (params : Params L 2 M) :
    ∀ k ∈ configured A T P groups, ∀ x, logPsi name groups g lattice params (act k x) = logPsi name groups g lattice params x := by
  intro k hk x
  obtain ⟨ops, hl, hr⟩ := model_represents name (by rintro rfl; simp [Name.isGPS] at hn) groups h
  unfold logPsi
  simp only [hr.1]
  exact logPsi_invariant _ hl hk x

/-- **C112**: with `AR` in the name the probabilities of all configurations sum to one, exactly the configurations with equally many up
and down spins have a positive probability, and the direct sampler returns every configuration with its probability: the average over the
drawn symmetry operation of the measure of the variates that lead to it. -/
theorem C112_direct_sampling [NeZero L] (name : Name) (hn : name.hasAR = true) (groups : List String) (g : Graph L)
    (A T P : Subgroup (Equiv.Perm (Fin L))) (h : GraphOk g A T P) (lattice : Option (List (Fin L → Fin L))) (params : Params L 2 M)
    (hL : Even L) :
    ∑ x, bornWeight 2 (logPsi name groups g lattice params x) = 1 ∧
      (∀ x, 0 < bornWeight 2 (logPsi name groups g lattice params x) ↔ Balanced x) ∧
      ∀ buffer x, (1 / (modelFuns name groups g).columns : ENNReal) *
          ∑ r, volume {u : Fin L → ℝ | (∀ i, u i ∈ Set.Ico (0 : ℝ) 1) ∧
            AR.sampleChain (machine (spinFields name L true) lattice params)
              (fun t x => ((modelFuns name groups g).syms name).symmetries x t) buffer u r = x} =
        ENNReal.ofReal (bornWeight 2 (logPsi name groups g lattice params x)) := by
  obtain ⟨ops, hl, hr⟩ := model_represents name (by rintro rfl; simp [Name.hasAR] at hn) groups h
  have hne : Nonempty (Fin (modelFuns name groups g).columns) := ListsOps.nonempty hl
  set m := machine (spinFields (M := M) name L true) lattice params with hm
  have hprov : ProvidedAR m := machine_provided _ lattice params
  have hf : m.fields = spinFields name L true := machine_fields _ lattice params
  have hpow : m.fields.machine_pow = 2 := by rw [hf]; rfl
  have hp : m.fields.machine_pow ≠ 0 := by rw [hpow]; norm_num
  have hnorm : m.fields.normalize = true := by rw [hf]; exact hn
  have hspin : SpinHalf L true m.fields := by rw [hf]; exact ⟨rfl, rfl, rfl⟩
  have hs : (fun (t : Fin (modelFuns name groups g).columns) x => ((modelFuns name groups g).syms name).symmetries x t) =
      fun t x => act (ops t) x := by funext t x; rw [hr.1]
  have hb := C31_zero_magnetisation m hprov hp hspin hL (fun t x => act (ops t) x) fun t x => balanced_act (ops t) x
  obtain ⟨inv, hinv⟩ := exists_inverse hl
  have hsamp := fun buffer x => C27_direct_sampling m hprov hnorm hp hb.2 (fun t x => act (ops t) x) inv hinv buffer x
  have hsum := C28_normalised_spin m hprov hnorm hp hspin hL (fun t x => act (ops t) x) fun t => act_bijective (ops t)
  unfold logPsi
  rw [← hm, hs]
  rw [hpow] at hb hsum
  simp only [hpow, Fintype.card_fin] at hsamp
  exact ⟨hsum, hb.1, hsamp⟩

/-- **C112**: the fast updates of the model with separate parameters for every site are right for every choice of symmetries, over any
history of updates. -/
theorem C112_fast_update [NeZero L] (name : Name) (hn : name.isGPS = false) (groups : List String) (g : Graph L)
    (A T P : Subgroup (Equiv.Perm (Fin L))) (h : GraphOk g A T P) (epsilon : Fin 2 → Fin M → ℕ → ℂ) (h0 : ∀ d m k, epsilon d m k ≠ 0)
    (x : Fin L → Fin 2) (upds : List (List (Fin L × Fin 2)))
    (hp : ∀ pre upd, pre ++ [upd] <+: upds → Padded (pre.foldl applyUpdate x) upd) :
    upds.foldl (fun r upd => ARFull.callUpdate (spinFields name L true) epsilon ((modelFuns name groups g).syms name) r.2 upd)
        (ARFull.callFull (spinFields name L true) epsilon ((modelFuns name groups g).syms name) x) =
      ARFull.callFull (spinFields name L true) epsilon ((modelFuns name groups g).syms name) (upds.foldl applyUpdate x) := by
  obtain ⟨ops, hl, hr⟩ := model_represents name (by rintro rfl; simp [Name.isGPS] at hn) groups h
  exact C36_history _ epsilon _ hr.consistent h0 x upds hp

/-- **C112**: the qGPS has the symmetries the configuration asks for, and its fast updates are right where the site products do not
vanish. -/
theorem C112_gps [NeZero L] {S : ℕ} (groups : List String) (g : Graph L) (A T P : Subgroup (Equiv.Perm (Fin L))) (h : GraphOk g A T P)
    (epsilon : Fin 2 → Fin S → Fin L → ℂ) :
    (∀ k ∈ configured A T P groups, ∀ x,
        (QGPS.model (gps .GPS groups g epsilon)).full (act k x) = (QGPS.model (gps .GPS groups g epsilon)).full x) ∧
      (QGPS.model (gps .GPS groups g epsilon)).CoherentOn fun x upd =>
        Padded x upd ∧ ∀ m t, QGPS.siteProd (gps .GPS groups g epsilon) x m t ≠ 0 := by
  obtain ⟨ops, hl, hr⟩ := model_represents .GPS (by decide) groups h
  exact ⟨fun k hk x => gps_invariant epsilon hr hl hk x, C34_fast_update _ hr.consistent⟩

/-- **C112**: the filter version of the qGPS has the translations as symmetries, and only these are built in. -/
theorem C112_filter_partial [NeZero L] {S : ℕ} (groups : List String) (g : Graph L) (A T P : Subgroup (Equiv.Perm (Fin L)))
    (h : GraphOk g A T P) (epsilon : Fin 2 → Fin S → Fin L → ℂ) :
    ∀ k ∈ spinGroup T false, ∀ x,
      (QGPS.model (gps .FilterGPS groups g epsilon)).full (act k x) = (QGPS.model (gps .FilterGPS groups g epsilon)).full x := by
  obtain ⟨ops, hl, hr⟩ := represents .FilterGPS true false false h
  exact fun k hk x => gps_invariant epsilon hr hl hk x

/-- The filter version of the qGPS ignores what the configuration asks for: with `symmetries = "all"` its amplitude changes when all spins
are flipped. -/
theorem C112_filter_fails :
    ∃ (g : Graph 1) (A T P : Subgroup (Equiv.Perm (Fin 1))) (epsilon : Fin 2 → Fin 1 → Fin 1 → ℂ), GraphOk g A T P ∧
      ∃ k ∈ configured A T P ["all"], ∃ x,
        (QGPS.model (gps .FilterGPS ["all"] g epsilon)).full (act k x) ≠ (QGPS.model (gps .FilterGPS ["all"] g epsilon)).full x := by
  have hlist : ListsGroup (L := 1) [id] ⊤ := ⟨by simp, fun f => ⟨fun _ => ⟨1, trivial, by funext i; exact Subsingleton.elim _ _⟩,
    fun _ => by rw [List.mem_singleton]; funext i; exact Subsingleton.elim _ _⟩⟩
  refine ⟨⟨[id], [id], [id]⟩, ⊤, ⊤, ⊤, fun d _ _ => (d.val : ℂ), ⟨hlist, hlist, hlist⟩, (1, Equiv.swap 0 1), ?_, fun _ => 0, ?_⟩
  · have hall : ∀ k, asksFor k ["all"] = true := fun k => by simp [asksFor]
    simp [configured, hall, spinGroup, latticeGroup]
  · have hval : ∀ x : Fin 1 → Fin 2, (QGPS.model (gps .FilterGPS ["all"] (⟨[id], [id], [id]⟩ : Graph 1)
        fun (d : Fin 2) (_ : Fin 1) (_ : Fin 1) => (d.val : ℂ))).full x = ((x 0).val : ℂ) := fun x => by
      change ∑ m : Fin 1, ∑ t : Fin 1, ∏ i : Fin 1, ((toIndex .FilterGPS (seen .FilterGPS (x i))).val : ℂ) = _
      simp [toIndex_seen]
    rw [hval, hval]
    simp [act]

/-- **C112**: in the filter models each site uses its own filter position 0 for itself, and the filter looks at every site once; only
sites before it are shown (`masks_hide`). -/
theorem C112_filter_plaquettes [NeZero L] (rows : List (Fin L → Fin L)) (h : Regular rows) :
    IsFilter (plaquettesAndMasks (some rows)).plaquettes ∧ IsFilter (plaquettesAndMasks (L := L) none).plaquettes ∧
      ∀ lattice i k, (plaquettesAndMasks (L := L) lattice).masks i k = true ↔ (plaquettesAndMasks lattice).plaquettes i k < i := by
  refine ⟨latticePlaquettes_filter h, circulant_filter, fun lattice i k => ?_⟩
  have key : ∀ p : Fin L → Fin L → Fin L, (ARPlaquette.withMasks p).masks i k = true ↔ (ARPlaquette.withMasks p).plaquettes i k < i := by
    intro p
    unfold ARPlaquette.withMasks
    dsimp only
    by_cases hc : (p i k).val ≥ i.val
    · rw [if_pos hc]
      exact ⟨fun h => absurd h (by simp), fun h => absurd (Fin.lt_def.mp h) (by omega)⟩
    · rw [if_neg hc]
      exact ⟨fun _ => Fin.lt_def.mpr (by omega), fun _ => rfl⟩
  cases lattice <;> exact key _

/-- **C112** for fermionic systems, where the script passes no graph and no symmetries are used: probabilities sum to one, and the direct
sampler returns every configuration with its probability. -/
theorem C112_fermionic [NeZero L] (name : Name) (hname : name.hasAR = true) (n : ℕ × ℕ) (h1 : n.1 ≤ L) (h2 : n.2 ≤ L)
    (params : Params L 4 M) :
    let m := machine (fermionicFields name L n) none params
    let syms : Unit → Cfg L → Cfg L := fun t x => (noSyms (L := L) (D := 4)).symmetries x t
    ∑ x, bornWeight 2 (m.logPsi syms x) = 1 ∧
      (∀ x, 0 < bornWeight 2 (m.logPsi syms x) ↔ numElec false x = n.1 ∧ numElec true x = n.2) ∧
      ∀ buffer x, volume {u : Fin L → ℝ | (∀ i, u i ∈ Set.Ico (0 : ℝ) 1) ∧ AR.sampleChain m syms buffer u () = x} =
        ENNReal.ofReal (bornWeight 2 (m.logPsi syms x)) := by
  intro m syms
  have hm : ProvidedAR m := machine_provided _ none params
  have hfe : m.fields = fermionicFields name L n := machine_fields _ none params
  have hp : m.fields.machine_pow = 2 := by rw [hfe]; rfl
  have hp0 : m.fields.machine_pow ≠ 0 := by rw [hp]; norm_num
  have hn : m.fields.normalize = true := by rw [hfe]; exact hname
  have hfer : Fermionic L n m.fields := by rw [hfe]; exact ⟨rfl, rfl, rfl⟩
  have a := C28_normalised_fermionic n m hm hn hp0 hfer h1 h2 syms fun _ => Function.bijective_id
  have b := C33_fermionic_constraint n m hm hp0 hfer h1 h2 syms fun _ _ _ => rfl
  have c := fun buffer x => C27_direct_sampling m hm hn hp0 (fermi_continuable hm hp0 hfer h1 h2) syms id
    ⟨fun _ => rfl, fun _ _ => rfl⟩ buffer x
  simp only [hp] at a b c
  refine ⟨a, b, fun buffer x => ?_⟩
  have := c buffer x
  simpa using this

/-- The hypotheses hold for a ring of two sites: its translations are a group with two elements, they are regular, and the group asked for
by `point-symmetries,spin-flip` contains the exchange of the sites together with a spin flip. -/
example : ∃ (g : Graph 2) (A T P : Subgroup (Equiv.Perm (Fin 2))), GraphOk g A T P ∧ Regular g.translation_group ∧ Even 2 ∧
    ((Equiv.swap 0 1, Equiv.swap 0 1) : Equiv.Perm (Fin 2) × Equiv.Perm (Fin 2)) ∈ configured A T P ["point-symmetries", "spin-flip"] ∧
    ((1, Equiv.swap 0 1) : Equiv.Perm (Fin 2) × Equiv.Perm (Fin 2)) ∉ configured A T P ["translations"] := by
  have hlist : ListsGroup (L := 2) [⇑(1 : Equiv.Perm (Fin 2)), ⇑(Equiv.swap (0 : Fin 2) 1)] ⊤ := by
    refine ⟨by decide, fun f => ⟨fun h => ?_, ?_⟩⟩
    · rcases List.mem_cons.mp h with h | h
      · exact ⟨1, trivial, h⟩
      · exact ⟨Equiv.swap 0 1, trivial, List.mem_singleton.mp h⟩
    · rintro ⟨k, -, rfl⟩
      rcases perm_two k with rfl | rfl <;> simp
  refine ⟨⟨_, _, _⟩, ⊤, ⊤, ⊤, ⟨hlist, hlist, hlist⟩, ⟨by decide, ?_⟩, by decide, ?_, ?_⟩
  · intro r hr
    obtain ⟨k, -, rfl⟩ := (hlist.mem r).mp hr
    exact k.bijective
  · simp [configured, asksFor, spinGroup, latticeGroup]
  · simp only [configured, asksFor, spinGroup, Subgroup.mem_prod]
    simp

/-! ## C113 -/

theorem batchChoice_scale {D : ℕ} [NeZero D] (p : Fin D → ℝ) (s : ℝ) (hs : 0 < s) (u : ℝ) :
    AR.batchChoice (fun d => p d / s) u = AR.batchChoice p u := by
  unfold AR.batchChoice
  dsimp only
  have h : ∀ k : Fin D, (∑ j, if j ≤ k then p j / s else 0) = (∑ j, if j ≤ k then p j else 0) / s := fun k => by
    rw [Finset.sum_div]
    apply Finset.sum_congr rfl
    intro j _
    split_ifs <;> simp
  have : (Finset.univ.filter fun k : Fin D => (∑ j, if j ≤ k then p j / s else 0) < (∑ j, p j / s) * u) =
      Finset.univ.filter fun k : Fin D => (∑ j, if j ≤ k then p j else 0) < (∑ j, p j) * u := by
    apply Finset.filter_congr
    intro k _
    rw [h, ← Finset.sum_div, div_mul_eq_mul_div, div_lt_div_iff_of_pos_right hs]
  simp only [this]

/-- **C113** (what holds): for an autoregressive model that is not normalised the direct sampler returns the same configurations as for
the normalised model with the same parameters. -/
theorem C113_partial [NeZero L] {D : ℕ} [NeZero D] (f : AR.Fields D M) (hf : f.normalize = false) (hp : f.machine_pow ≠ 0)
    (lattice : Option (List (Fin L → Fin L))) (params : Params L D M) (buffer : Fin L → Fin D) (u : Fin L → ℝ) :
    AR.sampleSites (machine f lattice params) buffer u = AR.sampleSites (machine { f with normalize := true } lattice params) buffer u := by
  have hc : ∀ x i d, (machine { f with normalize := true } lattice params).conditionals x i d =
      (machine f lattice params).conditionals x i d / ∑ e, (machine f lattice params).conditionals x i e := by
    intro x i d
    unfold AR.Machine.conditionals
    rw [machine_fields, machine_fields]
    have hlog : (machine { f with normalize := true } lattice params).conditionalsLog x i = (machine f lattice params).conditionalsLog x i := by
      cases params <;> rfl
    unfold AR.maybeNormalize
    rw [hlog, if_pos rfl, if_neg (by rw [hf]; simp)]
    exact AR.weight_normalize hp _ d
  symm
  rw [sampleSites_eq_iff _ (machine_provided _ _ _)]
  intro i
  have h := (sampleSites_eq_iff (machine f lattice params) (machine_provided _ _ _) buffer u _).mp rfl i
  rw [← h]
  set x := AR.sampleSites (machine f lattice params) buffer u
  rw [h]
  have hnn : ∀ d, 0 ≤ (machine f lattice params).conditionals x i d := fun d => conditionals_nonneg _ x i d
  have hfun : (machine { f with normalize := true } lattice params).conditionals x i =
      fun d => (machine f lattice params).conditionals x i d / ∑ e, (machine f lattice params).conditionals x i e :=
    funext (hc x i)
  rw [hfun]
  rcases (Finset.sum_nonneg fun d (_ : d ∈ Finset.univ) => hnn d).lt_or_eq with hpos | hzero
  · rw [batchChoice_scale _ _ hpos]
    exact h
  · have hz : ∀ d, (machine f lattice params).conditionals x i d = 0 := fun d =>
      (Finset.sum_eq_zero_iff_of_nonneg fun d _ => hnn d).mp hzero.symm d (Finset.mem_univ d)
    have : (fun d => (machine f lattice params).conditionals x i d / ∑ e, (machine f lattice params).conditionals x i e) =
        (machine f lattice params).conditionals x i := by
      funext d
      rw [hz d, zero_div]
    rw [this]
    exact h

/-- The parameters of the counterexample: only the state 1 of the second site has a non-trivial amplitude. -/
def badEpsilon (d : Fin 2) (_ : Fin 1) (k : ℕ) : ℂ := if k = 1 then 1 else if d = 1 ∧ k = 2 then 1 else 0

theorem bad_context (x : Fin 2 → Fin 2) : ARFull.contextProd badEpsilon x 1 0 = 1 := by
  unfold ARFull.contextProd
  rw [Fin.prod_univ_two]
  simp [ARFull.readPacked, ARFull.sliceStart, ARFull.lowerIndex, ARFull.packedSize, badEpsilon]

theorem bad_first (x : Fin 2 → Fin 2) (d : Fin 2) : ARFull.fullVal (spinFields .MaskedGPS 2 true) badEpsilon 0 x d = 0 := by
  simp [ARFull.fullVal, spinFields, AR.sumOut, ARFull.readPacked, ARFull.lowerIndex, ARFull.packedSize, badEpsilon]

theorem bad_second (x : Fin 2 → Fin 2) (d : Fin 2) :
    ARFull.fullVal (spinFields .MaskedGPS 2 true) badEpsilon 1 x d = if d = 1 then 1 else 0 := by
  simp [ARFull.fullVal, spinFields, AR.sumOut, ARFull.readPacked, ARFull.lowerIndex, ARFull.packedSize, bad_context]
  simp [badEpsilon]

/-- The model of the counterexample. -/
noncomputable def bad : AR.Machine 2 2 1 := machine (spinFields .MaskedGPS 2 true) none (.full badEpsilon)

theorem bad_cond_first (x : Fin 2 → Fin 2) (d : Fin 2) : bad.conditionals x 0 d = 1 := by
  unfold AR.Machine.conditionals
  have hlog : bad.conditionalsLog x 0 = _ := (ARFull.arqGPSFull_good (L := 2) (spinFields .MaskedGPS 2 true) badEpsilon).log x 0
  rw [hlog]
  have : AR.defaultRenormalize 2 (AR.spinsAt (spinFields (M := 1) .MaskedGPS 2 true) x 0) 0 d = true := by
    simp [AR.defaultRenormalize, AR.spinsAt, spinFields]
  have hm : AR.mask (spinFields (M := 1) .MaskedGPS 2 true) (AR.spinsAt (spinFields (M := 1) .MaskedGPS 2 true) x 0) 0
      (ARFull.fullVal (spinFields .MaskedGPS 2 true) badEpsilon 0 x) d = some 0 := by
    unfold AR.mask
    rw [bad_first]
    exact if_pos this
  change AR.weight 2 (AR.mask (spinFields (M := 1) .MaskedGPS 2 true) (AR.spinsAt (spinFields (M := 1) .MaskedGPS 2 true) x 0) 0
      (ARFull.fullVal (spinFields .MaskedGPS 2 true) badEpsilon 0 x) d) = 1
  rw [hm]
  simp [AR.weight]

theorem bad_cond_second (x : Fin 2 → Fin 2) (d : Fin 2) :
    bad.conditionals x 1 d = if d = x 0 then 0 else if d = 1 then Real.exp 2 else 1 := by
  unfold AR.Machine.conditionals
  have hlog : bad.conditionalsLog x 1 = _ := (ARFull.arqGPSFull_good (L := 2) (spinFields .MaskedGPS 2 true) badEpsilon).log x 1
  rw [hlog]
  have hcount : AR.spinsAt (spinFields (M := 1) .MaskedGPS 2 true) x 1 d = if x 0 = d then 1 else 0 := by
    unfold AR.spinsAt
    rw [if_pos (show (spinFields (M := 1) .MaskedGPS 2 true).constrained = true from rfl), Fin.sum_univ_two]
    rw [if_pos (by decide), if_neg (by decide), add_zero]
    exact defaultCountSpins_eq (x 0) d
  change AR.weight 2 (AR.mask (spinFields (M := 1) .MaskedGPS 2 true) (AR.spinsAt (spinFields (M := 1) .MaskedGPS 2 true) x 1) 1
      (ARFull.fullVal (spinFields .MaskedGPS 2 true) badEpsilon 1 x) d) = _
  unfold AR.mask
  rw [bad_second]
  have hren : (spinFields (M := 1) .MaskedGPS 2 true).renormalize (AR.spinsAt (spinFields (M := 1) .MaskedGPS 2 true) x 1) 1 d =
      decide (d ≠ x 0) := by
    change decide _ = _
    rw [hcount]
    by_cases h : x 0 = d
    · rw [if_pos h, ← h]; simp
    · rw [if_neg h]; simp [Ne.symm h]
  change AR.weight 2 (if (spinFields (M := 1) .MaskedGPS 2 true).renormalize (AR.spinsAt (spinFields (M := 1) .MaskedGPS 2 true) x 1) 1 d = true then _ else _) = _
  rw [hren]
  by_cases h : d = x 0
  · simp [h, AR.weight]
  · by_cases h1 : d = 1
    · have h2 : ¬ (1 : Fin 2) = x 0 := fun hh => h (h1.trans hh)
      simp [h1, h2, AR.weight]
    · simp [h, h1, AR.weight]

/-- **C113** is false: `get_sampler` only looks at an entry `normalize` of the model configuration, which `get_model` does not use and no
configuration sets, so the direct sampler is accepted for the models without normalisation (`Masked...`); what it then returns is not
distributed according to the probabilities of the state, however these are normalised. -/
theorem C113_fails :
    getSampler none .ARDirectSampler = some .ARDirectSampler ∧ (spinFields (M := 1) .MaskedGPS 2 true).normalize = false ∧
      ∀ buffer : Fin 2 → Fin 2, ¬ ∃ c : ENNReal, ∀ x,
        c * volume {u : Fin 2 → ℝ | (∀ i, u i ∈ Set.Ico (0 : ℝ) 1) ∧ AR.sampleSites bad buffer u = x} =
          ENNReal.ofReal (bornWeight 2 (bad.logPsiOne x)) := by
  refine ⟨rfl, rfl, fun buffer => ?_⟩
  rintro ⟨c, hc⟩
  have hb : ∀ x, bornWeight 2 (bad.logPsiOne x) = bad.conditionals x 0 (x 0) * bad.conditionals x 1 (x 1) := fun x => by
    rw [AR.bornWeight_eq]
    have := AR.weight_logPsiOne bad x
    rw [show bad.fields.machine_pow = 2 from rfl] at this
    rw [this]
    unfold chainLaw
    rw [Fin.prod_univ_two]
  have hset : ∀ x : Fin 2 → Fin 2, x 0 ≠ x 1 →
      volume {u : Fin 2 → ℝ | (∀ i, u i ∈ Set.Ico (0 : ℝ) 1) ∧ AR.sampleSites bad buffer u = x} = ENNReal.ofReal (1 / 2) := by
    intro x hx
    have h1 : {u : Fin 2 → ℝ | (∀ i, u i ∈ Set.Ico (0 : ℝ) 1) ∧ AR.sampleSites bad buffer u = x} =
        Set.pi Set.univ fun i => {v : ℝ | v ∈ Set.Ico (0 : ℝ) 1 ∧ AR.batchChoice (bad.conditionals x i) v = x i} := by
      ext u
      simp only [Set.mem_ofPred_eq, Set.mem_pi, Set.mem_univ, forall_true_left,
        sampleSites_eq_iff bad (machine_provided _ none _) buffer u x]
      exact ⟨fun h i => ⟨h.1 i, h.2 i⟩, fun h => ⟨fun i => (h i).1, fun i => (h i).2⟩⟩
    rw [h1, volume_pi_pi, Fin.prod_univ_two]
    have hpos : 0 < ∑ k, bad.conditionals x 1 k := by
      refine Finset.sum_pos' (fun k _ => conditionals_nonneg bad x 1 k) ⟨x 1, Finset.mem_univ _, ?_⟩
      rw [bad_cond_second, if_neg (Ne.symm hx)]
      split_ifs
      · exact Real.exp_pos _
      · exact one_pos
    rw [C26_batch_choice _ (conditionals_nonneg bad x 0) (by simp [bad_cond_first]),
      C26_batch_choice _ (conditionals_nonneg bad x 1) hpos]
    have hs : bad.conditionals x 1 (x 1) / ∑ k, bad.conditionals x 1 k = 1 := by
      have : ∑ k, bad.conditionals x 1 k = bad.conditionals x 1 (x 1) := by
        apply Finset.sum_eq_single (x 1)
        · intro k _ hk
          rw [bad_cond_second, if_pos]
          have key : ∀ a b c : Fin 2, a ≠ b → c ≠ b → c = a := by decide
          exact key _ _ _ hx hk
        · intro h; exact absurd (Finset.mem_univ _) h
      rw [this] at hpos ⊢
      exact div_self (ne_of_gt hpos)
    rw [hs]
    simp [bad_cond_first]
  have e1 := hc ![0, 1]
  have e2 := hc ![1, 0]
  rw [hset _ (by decide)] at e1 e2
  rw [e1] at e2
  rw [hb, hb, bad_cond_first, bad_cond_first, bad_cond_second, bad_cond_second] at e2
  simp at e2

end GPSKet.ArgpsModel
