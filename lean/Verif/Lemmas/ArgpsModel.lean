import Verif.Model.ArgpsModel
import Verif.Spec.SymmetryGroup
import Verif.Props.AutoregFull
import Verif.Props.ARSampler
import Verif.Props.QGPS

/-! # Lemmas on the symmetry functions of the autoregressive script -/

namespace GPSKet.ArgpsModel
open QGPS
open Spec
open Props

variable {L M T : ℕ}

theorem toIndex_seen (name : Name) (d : Fin 2) : toIndex name (seen name d) = d := by
  unfold toIndex seen
  cases name.isGPS <;> fin_cases d <;> decide

theorem toIndex_flip (name : Name) (d : Fin 2) : toIndex name (invCentre name - seen name d) = Equiv.swap 0 1 d := by
  unfold toIndex seen invCentre
  cases name.isGPS <;> fin_cases d <;> decide

/-- The functions are those of the listed operations. -/
def Represents {D : ℕ} (s : Syms L D (Fin T)) (ops : Fin T → Equiv.Perm (Fin L) × Equiv.Perm (Fin D)) : Prop :=
  (∀ x t, s.symmetries x t = act (ops t) x) ∧
    ∀ occs sites t, s.inverse occs sites t = (occs.map (ops t).2, sites.map (ops t).1.symm)

theorem invColumn [NeZero L] (e : Equiv.Perm (Fin L)) : invSymsColumn (e : Fin L → Fin L) = e.symm := by
  obtain ⟨h, -⟩ := C35_syms_consistent (D := 2) (T := 1) fun _ => e
  have H : ∀ (l : List (Fin L)) (tab : Fin L → Fin L) (k : Fin L),
      l.foldl (fun tab i => Function.update tab (e i) i) tab k = if e.symm k ∈ l then e.symm k else tab k := by
    intro l
    induction l with
    | nil => intro tab k; simp
    | cons a l ih =>
      intro tab k
      rw [List.foldl_cons, ih]
      by_cases h : e.symm k ∈ l
      · simp [h]
      · by_cases ha : e.symm k = a
        · subst ha; simp
        · have : k ≠ e a := fun hk => ha (by rw [hk, Equiv.symm_apply_apply])
          simp [h, ha, Function.update_of_ne this]
  funext k
  unfold invSymsColumn
  rw [H]
  simp

/-- The elements behind the rows. -/
theorem exists_elems {rows : List (Fin L → Fin L)} {G : Subgroup (Equiv.Perm (Fin L))} (h : ListsGroup rows G) :
    ∃ e : Fin rows.length → Equiv.Perm (Fin L), (∀ j, rows.get j = ⇑(e j)) ∧ (∀ j, e j ∈ G) ∧ Function.Injective e ∧
      ∀ g ∈ G, ∃ j, e j = g := by
  have hex : ∀ j : Fin rows.length, ∃ g ∈ G, rows.get j = ⇑g := fun j => (h.mem _).mp (List.get_mem rows j)
  choose e he1 he2 using hex
  refine ⟨e, he2, he1, fun a b hab => ?_, fun g hg => ?_⟩
  · have : rows.get a = rows.get b := by rw [he2, he2, hab]
    exact (List.nodup_iff_injective_get.mp h.nodup) this
  · obtain ⟨j, hj⟩ := List.get_of_mem ((h.mem g).mpr ⟨g, hg, rfl⟩)
    exact ⟨j, DFunLike.coe_injective (by rw [← he2, hj])⟩

theorem perm_two (f : Equiv.Perm (Fin 2)) : f = 1 ∨ f = Equiv.swap 0 1 := by
  revert f; decide

theorem map_toIndex (name : Name) (occs : List (Fin 2)) : (occs.map (seen name)).map (toIndex name) = occs := by
  rw [List.map_map]
  conv_rhs => rw [← List.map_id occs]
  apply List.map_congr_left
  intro d _
  exact toIndex_seen name d

theorem map_toIndex_flip (name : Name) (occs : List (Fin 2)) :
    ((occs.map (seen name)).map fun o => invCentre name - o).map (toIndex name) = occs.map (Equiv.swap 0 1) := by
  rw [List.map_map, List.map_map]
  apply List.map_congr_left
  intro d _
  exact toIndex_flip name d

theorem map_symm_one (sites : List (Fin L)) : sites.map (Equiv.symm (1 : Equiv.Perm (Fin L))) = sites := List.map_id sites

theorem aut_represents [NeZero L] (name : Name) {rows : List (Fin L → Fin L)} {G : Subgroup (Equiv.Perm (Fin L))}
    (h : ListsGroup rows G) : ∃ ops, ListsOps ops (spinGroup G false) ∧ Represents ((aut rows).syms name) ops := by
  obtain ⟨e, he, hm, hi, hs⟩ := exists_elems h
  refine ⟨fun j => (e j, 1), ⟨fun a b hab => hi (congrArg Prod.fst hab), fun k => ?_⟩, fun x t => ?_, fun occs sites t => ?_⟩
  · simp only [spinGroup, Subgroup.mem_prod, Bool.false_eq_true, if_false, Subgroup.mem_bot]
    constructor
    · rintro ⟨h1, h2⟩
      obtain ⟨j, hj⟩ := hs k.1 h1
      exact ⟨j, Prod.ext hj h2.symm⟩
    · rintro ⟨j, rfl⟩
      exact ⟨hm j, rfl⟩
  · funext i
    change Fin rows.length at t
    change toIndex name (seen name (x (rows.get t i))) = _
    rw [toIndex_seen, he]
    rfl
  · change Fin rows.length at t
    change ((occs.map (seen name)).map (toIndex name), sites.map (invSymsColumn (rows.get t))) = _
    rw [map_toIndex, he, invColumn]
    simp

theorem autFlip_represents [NeZero L] (name : Name) {rows : List (Fin L → Fin L)} {G : Subgroup (Equiv.Perm (Fin L))}
    (h : ListsGroup rows G) :
    ∃ ops, ListsOps ops (spinGroup G true) ∧ Represents ((autFlip (invCentre name) rows).syms name) ops := by
  obtain ⟨e, he, hm, hi, hs⟩ := exists_elems h
  have hne : (1 : Equiv.Perm (Fin 2)) ≠ Equiv.swap 0 1 := by decide
  refine ⟨Fin.append (fun j => (e j, 1)) fun j => (e j, Equiv.swap 0 1), ⟨fun a b hab => ?_, fun k => ?_⟩, fun x t => ?_,
    fun occs sites t => ?_⟩
  · change Fin (rows.length + rows.length) at a b
    induction a using Fin.addCases with
    | left a =>
      induction b using Fin.addCases with
      | left b =>
        rw [Fin.append_left, Fin.append_left] at hab
        rw [hi (congrArg Prod.fst hab)]
      | right b =>
        rw [Fin.append_left, Fin.append_right] at hab
        exact absurd (congrArg Prod.snd hab) hne
    | right a =>
      induction b using Fin.addCases with
      | left b =>
        rw [Fin.append_left, Fin.append_right] at hab
        exact absurd (congrArg Prod.snd hab).symm hne
      | right b =>
        rw [Fin.append_right, Fin.append_right] at hab
        rw [hi (congrArg Prod.fst hab)]
  · simp only [spinGroup, Subgroup.mem_prod, if_true, Subgroup.mem_top, and_true]
    constructor
    · intro h1
      obtain ⟨j, hj⟩ := hs k.1 h1
      rcases perm_two k.2 with h2 | h2
      · exact ⟨Fin.castAdd _ j, by rw [Fin.append_left]; exact Prod.ext hj h2.symm⟩
      · exact ⟨Fin.natAdd _ j, by rw [Fin.append_right]; exact Prod.ext hj h2.symm⟩
    · rintro ⟨j, rfl⟩
      change Fin (rows.length + rows.length) at j
      induction j using Fin.addCases with
      | left j => rw [Fin.append_left]; exact hm j
      | right j => rw [Fin.append_right]; exact hm j
  · funext i
    change Fin (rows.length + rows.length) at t
    change toIndex name (Fin.append (fun j i => seen name (x (rows.get j i))) (fun j i => invCentre name - seen name (x (rows.get j i))) t i) = _
    induction t using Fin.addCases with
    | left t =>
      rw [Fin.append_left, Fin.append_left, toIndex_seen, he]
      rfl
    | right t =>
      rw [Fin.append_right, Fin.append_right, toIndex_flip, he]
      rfl
  · change Fin (rows.length + rows.length) at t
    change ((Fin.append (fun j => (occs.map (seen name), sites.map (invSymsColumn (rows.get j))))
        (fun j => ((occs.map (seen name)).map fun o => invCentre name - o, sites.map (invSymsColumn (rows.get j)))) t).1.map (toIndex name),
      (Fin.append (fun j => (occs.map (seen name), sites.map (invSymsColumn (rows.get j))))
        (fun j => ((occs.map (seen name)).map fun o => invCentre name - o, sites.map (invSymsColumn (rows.get j)))) t).2) = _
    induction t using Fin.addCases with
    | left t =>
      simp only [Fin.append_left]
      rw [map_toIndex, he, invColumn]
      simp
    | right t =>
      simp only [Fin.append_right]
      rw [map_toIndex_flip, he, invColumn]

theorem flip_represents (name : Name) :
    ∃ ops, ListsOps ops (spinGroup (⊥ : Subgroup (Equiv.Perm (Fin L))) true) ∧ Represents ((flip (L := L) (invCentre name)).syms name) ops := by
  have hne : (1 : Equiv.Perm (Fin 2)) ≠ Equiv.swap 0 1 := by decide
  refine ⟨Fin.append (fun _ => (1, 1)) fun _ => (1, Equiv.swap 0 1), ⟨fun a b hab => ?_, fun k => ?_⟩, fun x t => ?_,
    fun occs sites t => ?_⟩
  · change Fin (1 + 1) at a b
    induction a using Fin.addCases with
    | left a =>
      induction b using Fin.addCases with
      | left b => rw [Subsingleton.elim a b]
      | right b =>
        rw [Fin.append_left, Fin.append_right] at hab
        exact absurd (congrArg Prod.snd hab) hne
    | right a =>
      induction b using Fin.addCases with
      | left b =>
        rw [Fin.append_left, Fin.append_right] at hab
        exact absurd (congrArg Prod.snd hab).symm hne
      | right b => rw [Subsingleton.elim a b]
  · simp only [spinGroup, Subgroup.mem_prod, if_true, Subgroup.mem_top, and_true, Subgroup.mem_bot]
    constructor
    · intro h1
      rcases perm_two k.2 with h2 | h2
      · exact ⟨Fin.castAdd 1 0, by rw [Fin.append_left]; exact Prod.ext h1.symm h2.symm⟩
      · exact ⟨Fin.natAdd 1 0, by rw [Fin.append_right]; exact Prod.ext h1.symm h2.symm⟩
    · rintro ⟨j, rfl⟩
      change Fin (1 + 1) at j
      induction j using Fin.addCases with
      | left j => rw [Fin.append_left]
      | right j => rw [Fin.append_right]
  · funext i
    change Fin (1 + 1) at t
    change toIndex name (Fin.append (fun _ i => seen name (x i)) (fun _ i => invCentre name - seen name (x i)) t i) = _
    induction t using Fin.addCases with
    | left t =>
      rw [Fin.append_left, Fin.append_left, toIndex_seen]
      rfl
    | right t =>
      rw [Fin.append_right, Fin.append_right, toIndex_flip]
      rfl
  · change Fin (1 + 1) at t
    change ((Fin.append (fun _ => (occs.map (seen name), sites)) (fun _ => ((occs.map (seen name)).map fun o => invCentre name - o, sites)) t).1.map (toIndex name),
      (Fin.append (fun _ => (occs.map (seen name), sites)) (fun _ => ((occs.map (seen name)).map fun o => invCentre name - o, sites)) t).2) = _
    induction t using Fin.addCases with
    | left t =>
      simp only [Fin.append_left]
      rw [map_toIndex, map_symm_one]
      simp
    | right t =>
      simp only [Fin.append_right]
      rw [map_toIndex_flip, map_symm_one]

theorem plain_represents (name : Name) :
    ∃ ops, ListsOps ops (spinGroup (⊥ : Subgroup (Equiv.Perm (Fin L))) false) ∧ Represents ((plain (L := L)).syms name) ops := by
  refine ⟨fun _ => (1, 1), ⟨fun a b _ => ?_, fun k => ?_⟩, fun x t => ?_, fun occs sites t => ?_⟩
  · change Fin 1 at a b
    exact Subsingleton.elim a b
  · simp only [spinGroup, Subgroup.mem_prod, Bool.false_eq_true, if_false, Subgroup.mem_bot]
    constructor
    · rintro ⟨h1, h2⟩
      exact ⟨(0 : Fin 1), Prod.ext h1.symm h2.symm⟩
    · rintro ⟨j, rfl⟩
      exact ⟨rfl, rfl⟩
  · funext i
    change toIndex name (seen name (x i)) = _
    rw [toIndex_seen]
    rfl
  · change ((occs.map (seen name)).map (toIndex name), sites) = _
    rw [map_toIndex, map_symm_one]
    simp

/-- The listed groups of a graph. -/
structure GraphOk (g : Graph L) (A T P : Subgroup (Equiv.Perm (Fin L))) : Prop where
  automorphisms : ListsGroup g.automorphisms A
  translations : ListsGroup g.translation_group T
  point : ListsGroup g.point_group P

theorem represents [NeZero L] (name : Name) (t p s : Bool) {g : Graph L} {A T P : Subgroup (Equiv.Perm (Fin L))} (h : GraphOk g A T P) :
    ∃ ops, ListsOps ops (spinGroup (latticeGroup A T P t p) s) ∧ Represents ((symmetryFuns name t p s g).syms name) ops := by
  cases t <;> cases p <;> cases s
  · exact plain_represents name
  · exact flip_represents name
  · exact aut_represents name h.point
  · exact autFlip_represents name h.point
  · exact aut_represents name h.translations
  · exact autFlip_represents name h.translations
  · exact aut_represents name h.automorphisms
  · exact autFlip_represents name h.automorphisms

/-! ## Consequences of representing a group -/

variable {D : ℕ} {H : Subgroup (Equiv.Perm (Fin L) × Equiv.Perm (Fin D))} {ops : Fin T → Equiv.Perm (Fin L) × Equiv.Perm (Fin D)}

theorem Represents.consistent {s : Syms L D (Fin T)} (h : Represents s ops) : SymsConsistent s := fun t =>
  ⟨(ops t).1, (ops t).2, fun x i => by rw [h.1]; rfl, fun occs sites => h.2 occs sites t⟩

/-- Moving the configuration permutes the operations. -/
theorem shift {G : Subgroup (Equiv.Perm (Fin L))} {F : Subgroup (Equiv.Perm (Fin D))} (hl : ListsOps ops (G.prod F))
    {k : Equiv.Perm (Fin L) × Equiv.Perm (Fin D)} (hk : k ∈ G.prod F) :
    ∃ π : Equiv.Perm (Fin T), ∀ t x, act (ops t) (act k x) = act (ops (π t)) x := by
  have hop : ∀ t, ops t ∈ G.prod F := fun t => (hl.mem _).mpr ⟨t, rfl⟩
  have hmem : ∀ t, ((k.1 * (ops t).1, (ops t).2 * k.2) : Equiv.Perm (Fin L) × Equiv.Perm (Fin D)) ∈ G.prod F := fun t =>
    Subgroup.mem_prod.mpr ⟨G.mul_mem (Subgroup.mem_prod.mp hk).1 (Subgroup.mem_prod.mp (hop t)).1,
      F.mul_mem (Subgroup.mem_prod.mp (hop t)).2 (Subgroup.mem_prod.mp hk).2⟩
  choose π hπ using fun t => (hl.mem _).mp (hmem t)
  have hinj : Function.Injective π := fun a b hab => by
    have h := (hπ a).symm.trans ((congrArg ops hab).trans (hπ b))
    apply hl.injective
    exact Prod.ext (mul_left_cancel (congrArg Prod.fst h)) (mul_right_cancel (congrArg Prod.snd h))
  refine ⟨Equiv.ofBijective π (Finite.injective_iff_bijective.mp hinj), fun t x => ?_⟩
  change _ = act (ops (π t)) x
  rw [hπ]
  rfl

/-- The index of the inverse operation. -/
theorem exists_inverse (hl : ListsOps ops H) : ∃ inv : Fin T → Fin T, ClosedUnderInverse (fun t x => act (ops t) x) inv := by
  choose inv hinv using fun t => (hl.mem _).mp (H.inv_mem ((hl.mem _).mpr ⟨t, rfl⟩ : ops t ∈ H))
  refine ⟨inv, fun t => hl.injective (by rw [hinv, hinv, inv_inv]), fun t x => ?_⟩
  rw [hinv]
  funext i
  simp [act]

theorem act_bijective (k : Equiv.Perm (Fin L) × Equiv.Perm (Fin D)) : Function.Bijective (act k) := by
  refine Function.bijective_iff_has_inverse.mpr ⟨act k⁻¹, fun x => ?_, fun x => ?_⟩ <;> funext i <;> simp [act]

theorem ListsOps.nonempty (hl : ListsOps ops H) : Nonempty (Fin T) := by
  obtain ⟨t, -⟩ := (hl.mem 1).mp H.one_mem
  exact ⟨t⟩

theorem balanced_act (k : Equiv.Perm (Fin L) × Equiv.Perm (Fin 2)) (x : Fin L → Fin 2) : Balanced (act k x) ↔ Balanced x := by
  rcases perm_two k.2 with h | h
  · have : act k x = fun i => x (k.1 i) := by funext i; simp [act, h]
    rw [this, balanced_perm]
  · have : act k x = fun i => 1 - x (k.1 i) := by
      funext i
      have key : ∀ d : Fin 2, Equiv.swap 0 1 d = 1 - d := by decide
      simp only [act, h, key]
    rw [this, balanced_flip fun i => x (k.1 i), balanced_perm]

/-- The symmetrised log-amplitude is the same for equivalent configurations. -/
theorem logPsi_invariant {G : Subgroup (Equiv.Perm (Fin L))} {F : Subgroup (Equiv.Perm (Fin D))} (m : AR.Machine L D M)
    (hl : ListsOps ops (G.prod F)) {k : Equiv.Perm (Fin L) × Equiv.Perm (Fin D)} (hk : k ∈ G.prod F) (x : Fin L → Fin D) :
    m.logPsi (fun t x => act (ops t) x) (act k x) = m.logPsi (fun t x => act (ops t) x) x := by
  obtain ⟨π, hπ⟩ := shift hl hk
  unfold AR.Machine.logPsi AR.symmetrise
  simp only [hπ]
  have h1 := Equiv.sum_comp π fun t => AR.weight m.fields.machine_pow (m.logPsiOne (act (ops t) x)) * (1 / (Fintype.card (Fin T) : ℝ))
  have h2 := Equiv.sum_comp π fun t => Complex.exp (Complex.I * (((m.logPsiOne (act (ops t) x)).getD 0).im : ℂ))
  rw [h1, h2]

/-- The summed log-amplitude of a qGPS is the same for equivalent configurations. -/
theorem gps_invariant {S : ℕ} {G : Subgroup (Equiv.Perm (Fin L))} {F : Subgroup (Equiv.Perm (Fin D))} (epsilon : Fin D → Fin S → Fin L → ℂ)
    {s : Syms L D (Fin T)} (h : Represents s ops) (hl : ListsOps ops (G.prod F)) {k : Equiv.Perm (Fin L) × Equiv.Perm (Fin D)}
    (hk : k ∈ G.prod F) (x : Fin L → Fin D) :
    (QGPS.model ⟨epsilon, s, QGPS.sumOut⟩).full (act k x) = (QGPS.model ⟨epsilon, s, QGPS.sumOut⟩).full x := by
  obtain ⟨π, hπ⟩ := shift hl hk
  simp only [QGPS.model, QGPS.sumOut, QGPS.siteProd]
  apply Finset.sum_congr rfl
  intro m _
  simp only [h.1, hπ]
  exact Equiv.sum_comp π fun t => ∏ i, epsilon (act (ops t) x i) m i

/-! ## Plaquettes -/

theorem latticePlaquettes_filter [NeZero L] {rows : List (Fin L → Fin L)} (h : Regular rows) : IsFilter (latticePlaquettes rows) := by
  set sorted := rows.insertionSort fun a b => a 0 ≤ b 0 with hs
  have hperm : sorted.Perm rows := List.perm_insertionSort _ rows
  have hlen : sorted.length = L := by
    have := (hperm.map fun r => r 0).length_eq.trans h.first.length_eq
    simpa using this
  have hsorted : sorted.Pairwise fun a b => a 0 ≤ b 0 := by
    have : Std.Total fun a b : Fin L → Fin L => a 0 ≤ b 0 := ⟨fun a b => le_total _ _⟩
    have : IsTrans (Fin L → Fin L) fun a b => a 0 ≤ b 0 := ⟨fun _ _ _ => le_trans⟩
    exact List.pairwise_insertionSort _ rows
  have hfirst : sorted.map (fun r => r 0) = List.finRange L := by
    apply List.Perm.eq_of_pairwise (le := (· ≤ ·))
    · intro a b _ _ h1 h2
      exact le_antisymm h1 h2
    · exact List.pairwise_map.mpr hsorted
    · exact (List.pairwise_lt_finRange L).imp le_of_lt
    · exact (hperm.map fun r => r 0).trans h.first
  have hget : ∀ i : Fin L, latticePlaquettes rows i = sorted[i.val]'(by rw [hlen]; exact i.isLt) := fun i => by
    unfold latticePlaquettes
    rw [← hs]
    rw [List.getD_eq_getElem?_getD, List.getElem?_eq_getElem (by rw [hlen]; exact i.isLt)]
    rfl
  refine ⟨fun i => ?_, fun i => ?_⟩
  · rw [hget]
    have h1 : (sorted.map fun r => r 0)[i.val]'(by simp [hlen]) = (List.finRange L)[i.val]'(by simp) := by
      simp only [hfirst]
    simpa using h1
  · rw [hget]
    exact h.bijective _ (hperm.subset (List.getElem_mem _))

theorem circulant_filter [NeZero L] : IsFilter (ARPlaquette.circulantPlaquettes (L := L)) := by
  refine ⟨fun i => ?_, fun i => ?_⟩
  · unfold ARPlaquette.circulantPlaquettes
    exact sub_zero i
  · unfold ARPlaquette.circulantPlaquettes
    exact (Equiv.subLeft i).bijective

end GPSKet.ArgpsModel
