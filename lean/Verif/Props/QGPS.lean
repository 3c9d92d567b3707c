import Verif.Model.QGPS
import Verif.Model.Metropolis
import Verif.Lemmas.Updates
import Verif.Props.Metropolis
import Mathlib.Data.Fin.VecNotation

/-! # Properties C34, C35: qGPS fast updates and symmetrisation -/

namespace GPSKet
open Spec QGPS

variable {L D M : ℕ} {ι : Type}

/-! ## C35: symmetry operations -/

/-- A pair of symmetry functions is consistent if each operation permutes the sites and relabels the local states, and
the inverse function relabels and moves the listed updates accordingly. -/
def SymsConsistent (s : Syms L D ι) : Prop :=
  ∀ t, ∃ (e : Equiv.Perm (Fin L)) (f : Fin D → Fin D),
    (∀ x i, s.symmetries x t i = f (x (e i))) ∧
    ∀ occs sites, s.inverse occs sites t = (occs.map f, sites.map e.symm)

private theorem invSymsColumn_eq [NeZero L] (e : Equiv.Perm (Fin L)) : invSymsColumn (fun i => e i) = e.symm := by
  have H : ∀ (l : List (Fin L)) (tab : Fin L → Fin L) (k : Fin L),
      l.foldl (fun tab i => Function.update tab (e i) i) tab k = if e.symm k ∈ l then e.symm k else tab k := by
    intro l
    induction l with
    | nil => intro tab k; simp
    | cons a l ih =>
      intro tab k
      rw [List.foldl_cons, ih]
      by_cases h : e.symm k ∈ l
      · simp [h]
      · by_cases ha : e.symm k = a
        · subst ha; simp
        · have : k ≠ e a := fun hk => ha (by rw [hk, Equiv.symm_apply_apply])
          simp [h, ha, Function.update_of_ne this]
  funext k
  unfold invSymsColumn
  rw [H]
  simp

/-- **C35**: the four kinds of symmetry pairs the package provides are consistent, for every list of automorphisms. -/
theorem C35_syms_consistent [NeZero L] {T : ℕ} (auts : Fin T → Equiv.Perm (Fin L)) :
    SymsConsistent (symsAut fun i j => auts j i) ∧ SymsConsistent (symsAutFlip fun i j => auts j i) ∧
      SymsConsistent (symsFlip (L := L)) ∧ SymsConsistent (noSyms (L := L) (D := D)) := by
  refine ⟨fun t => ⟨auts t, id, fun _ _ => rfl, fun occs sites => ?_⟩, fun t => ?_, fun t => ?_, fun t => ?_⟩
  · simp only [symsAut, invSymsColumn_eq (auts t), List.map_id]
  · rcases t with ⟨b, t⟩
    cases b
    · exact ⟨auts t, id, fun _ _ => rfl, fun occs sites => by
        simp only [symsAutFlip, invSymsColumn_eq (auts t), List.map_id]; rfl⟩
    · exact ⟨auts t, fun o => 1 - o, fun _ _ => rfl, fun occs sites => by
        simp only [symsAutFlip, invSymsColumn_eq (auts t)]; rfl⟩
  · cases t
    · exact ⟨Equiv.refl _, id, fun _ _ => rfl, fun occs sites => by simp [symsFlip]⟩
    · exact ⟨Equiv.refl _, fun o => 1 - o, fun _ _ => rfl, fun occs sites => by simp [symsFlip]⟩
  · exact ⟨Equiv.refl _, id, fun _ _ => rfl, fun occs sites => by simp [noSyms]⟩

private theorem zip_upd (upd : List (Fin L × Fin D)) (e : Equiv.Perm (Fin L)) (f : Fin D → Fin D) :
    ((upd.map Prod.fst).map e.symm).zip ((upd.map Prod.snd).map f) = upd.map fun u => (e.symm u.1, f u.2) := by
  induction upd with
  | nil => rfl
  | cons u l ih => simp only [List.map_cons, List.zip_cons_cons, ih]

/-- **C35**: the inverse function turns an update of the configuration into the update each equivalent configuration
sees. -/
theorem C35_inverse (s : Syms L D ι) (hs : SymsConsistent s) (x : Fin L → Fin D) (upd : List (Fin L × Fin D)) (t : ι) :
    s.symmetries (applyUpdate x upd) t =
      applyUpdate (s.symmetries x t)
        ((s.inverse (upd.map Prod.snd) (upd.map Prod.fst) t).2.zip (s.inverse (upd.map Prod.snd) (upd.map Prod.fst) t).1) := by
  obtain ⟨e, f, h1, h2⟩ := hs t
  rw [h2]
  dsimp only
  rw [zip_upd, show s.symmetries x t = fun i => f (x (e i)) from funext (h1 x), ← applyUpdate_map]
  exact funext (h1 _)

example : (symsAut (L := 3) (T := 1) fun i _ => i + 1).inverse [1, 0] [0, 2] 0 = ([1, 0], [2, 1]) := by decide

/-- **C35**: with a group of automorphisms (each listed once) the summed log-amplitude is the same for a configuration
and its image under any element of the group, with or without added spin flips. -/
theorem C35_symmetric [NeZero L] {T : ℕ} (auts : Fin T → Equiv.Perm (Fin L)) (G : Subgroup (Equiv.Perm (Fin L)))
    (hinj : Function.Injective auts) (hG : Set.range auts = (G : Set (Equiv.Perm (Fin L))))
    (epsilon : Fin 2 → Fin M → Fin L → ℂ) (g : Equiv.Perm (Fin L)) (hg : g ∈ G) (x : Fin L → Fin 2) :
    (model ⟨epsilon, symsAut fun i j => auts j i, sumOut⟩).full (fun i => x (g i)) =
        (model ⟨epsilon, symsAut fun i j => auts j i, sumOut⟩).full x ∧
      (model ⟨epsilon, symsAutFlip fun i j => auts j i, sumOut⟩).full (fun i => x (g i)) =
        (model ⟨epsilon, symsAutFlip fun i j => auts j i, sumOut⟩).full x := by
  have mem : ∀ j, auts j ∈ G := fun j => by
    have : auts j ∈ (G : Set (Equiv.Perm (Fin L))) := hG ▸ Set.mem_range_self j
    exact this
  have pre : ∀ p ∈ G, ∃ j, auts j = p := fun p hp => by
    have : p ∈ Set.range auts := by rw [hG]; exact hp
    exact this
  choose π hπ using fun j => pre (g * auts j) (G.mul_mem hg (mem j))
  have πinj : Function.Injective π := fun a b h => by
    apply hinj
    have := hπ a
    rw [h, hπ b] at this
    exact (mul_left_cancel this).symm
  have πbij : Function.Bijective π := Finite.injective_iff_bijective.mp πinj
  let Pm : Equiv.Perm (Fin T) := Equiv.ofBijective π πbij
  have shift : ∀ j i, g (auts j i) = auts (Pm j) i := fun j i => by
    have : auts (Pm j) = g * auts j := hπ j
    rw [this]; rfl
  constructor
  · simp only [model, sumOut, siteProd, symsAut]
    apply Finset.sum_congr rfl
    intro m _
    simp only [shift]
    exact Equiv.sum_comp Pm fun j => ∏ i, epsilon (x (auts j i)) m i
  · simp only [model, sumOut, siteProd, symsAutFlip]
    apply Finset.sum_congr rfl
    intro m _
    rw [Fintype.sum_prod_type, Fintype.sum_prod_type]
    apply Finset.sum_congr rfl
    intro b _
    simp only [shift]
    exact Equiv.sum_comp Pm fun j => ∏ i, epsilon (if b then 1 - x (auts j i) else x (auts j i)) m i

/-- **C35**: with spin flips included the log-amplitude is invariant under flipping all spins. -/
theorem C35_spin_flip [NeZero L] {T : ℕ} (auts : Fin T → Equiv.Perm (Fin L)) (epsilon : Fin 2 → Fin M → Fin L → ℂ)
    (x : Fin L → Fin 2) :
    (model ⟨epsilon, symsAutFlip fun i j => auts j i, sumOut⟩).full (fun i => 1 - x i) =
        (model ⟨epsilon, symsAutFlip fun i j => auts j i, sumOut⟩).full x ∧
      (model ⟨epsilon, symsFlip, sumOut⟩).full (fun i => 1 - x i) = (model ⟨epsilon, symsFlip, sumOut⟩).full x := by
  have h : ∀ v : Fin 2, 1 - (1 - v) = v := by decide
  constructor
  · simp only [model, sumOut, siteProd, symsAutFlip]
    apply Finset.sum_congr rfl
    intro m _
    rw [Fintype.sum_prod_type, Fintype.sum_prod_type]
    simp [Fintype.sum_bool, h, add_comm]
  · simp only [model, sumOut, siteProd, symsFlip]
    apply Finset.sum_congr rfl
    intro m _
    simp [Fintype.sum_bool, h, add_comm]

/-! ## C34 -/

private theorem updateConfig_eq (x : Fin L → Fin D) (upd : List (Fin L × Fin D)) :
    updateConfig x upd = applyUpdate x upd := (applyUpdate_foldr x upd).symm

private theorem fastSiteProd_eq (mod : Module L D M ι) (hs : SymsConsistent mod.syms) (x : Fin L → Fin D)
    (upd : List (Fin L × Fin D)) (hp : Padded x upd) (h0 : ∀ m t, siteProd mod x m t ≠ 0) :
    fastSiteProd mod ⟨x, siteProd mod x⟩ upd = siteProd mod (applyUpdate x upd) := by
  funext m t
  obtain ⟨e, f, h1, h2⟩ := hs t
  have hx : mod.syms.symmetries x t = fun i => f (x (e i)) := funext (h1 x)
  have hy : mod.syms.symmetries (applyUpdate x upd) t = fun i => f (applyUpdate x upd (e i)) := funext (h1 _)
  have hnz : ∀ i, mod.epsilon (f (x (e i))) m i ≠ 0 := by
    intro i hi
    apply h0 m t
    unfold siteProd
    rw [hx]
    exact Finset.prod_eq_zero (Finset.mem_univ i) hi
  have key := prod_applyUpdate (fun i d => mod.epsilon d m i) (fun i => f (x (e i)))
    (upd.map fun u => (e.symm u.1, f u.2)) (padded_map e f hp) (fun u _ => hnz u.1)
  unfold fastSiteProd siteProdUpdate siteProd listProd
  dsimp only
  rw [h2, h2, hx, hy, applyUpdate_map, key]
  dsimp only
  have z1 : ((upd.map Prod.snd).map f).zip ((upd.map Prod.fst).map e.symm) = upd.map fun u => (f u.2, e.symm u.1) := by
    induction upd with
    | nil => rfl
    | cons u l ih => simp only [List.map_cons, List.zip_cons_cons, List.map_map] at *; simp [List.zip_map']
  have z2 : (((upd.map Prod.fst).map x).map f).zip ((upd.map Prod.fst).map e.symm) =
      upd.map fun u => (f (x u.1), e.symm u.1) := by
    simp [List.zip_map']
  rw [z1, z2]
  simp only [List.map_map, Function.comp_def, Equiv.apply_symm_apply]

/-- **C34** (for updates that list a site twice only as a padding dummy, at configurations whose site products
do not vanish): evaluation with `update_sites` equals evaluation of the updated configuration, and the stored
intermediates are those a fresh evaluation stores.  Both restrictions are needed: `C34_zero_fails`,
`C34_repeated_site_fails`. -/
theorem C34_fast_update (mod : Module L D M ι) (hs : SymsConsistent mod.syms) :
    (model mod).CoherentOn fun x upd => Padded x upd ∧ ∀ m t, siteProd mod x m t ≠ 0 := by
  rintro x upd ⟨hp, h0⟩
  have h := fastSiteProd_eq mod hs x upd hp h0
  refine ⟨?_, ?_⟩
  · change mod.out_transformation (fastSiteProd mod ⟨x, siteProd mod x⟩ upd) = _
    rw [h]; rfl
  · change Cache.mk (updateConfig x upd) (fastSiteProd mod ⟨x, siteProd mod x⟩ upd) = _
    rw [h, updateConfig_eq]; rfl

/-- The updates of a history are admissible one after the other. -/
def HistoryOk (mod : Module L D M ι) : (Fin L → Fin D) → List (List (Fin L × Fin D)) → Prop
  | _, [] => True
  | x, upd :: rest => Padded x upd ∧ (∀ m t, siteProd mod x m t ≠ 0) ∧ HistoryOk mod (applyUpdate x upd) rest

/-- **C34** over histories: after any chain of cached updates the cache is the one a fresh evaluation of the final
configuration stores, and the next fast evaluation is right. -/
theorem C34_history (mod : Module L D M ι) (hs : SymsConsistent mod.syms) (x : Fin L → Fin D)
    (upds : List (List (Fin L × Fin D))) (h : HistoryOk mod x upds) :
    upds.foldl (model mod).fastCache ((model mod).cacheOf x) = (model mod).cacheOf (upds.foldl applyUpdate x) := by
  induction upds generalizing x with
  | nil => rfl
  | cons upd rest ih =>
    obtain ⟨h1, h2, h3⟩ := h
    rw [List.foldl_cons, List.foldl_cons, (C34_fast_update mod hs x upd ⟨h1, h2⟩).2]
    exact ih _ h3

/-- The hypotheses hold for a two-site model, an update of both sites and a padded update. -/
example : let mod : Module 2 2 1 Unit := ⟨fun d _ i => (d.val + i.val + 1 : ℕ), noSyms, sumOut⟩
    HistoryOk mod ![0, 1] [[(0, 1), (1, 0)], [(1, 1), (1, 0)]] := by
  have nz : ∀ x m t, siteProd (ι := Unit) ⟨fun d _ i => ((d.val + i.val + 1 : ℕ) : ℂ), noSyms, sumOut⟩ (x : Fin 2 → Fin 2) (m : Fin 1) t ≠ 0 := by
    intro x m t
    unfold siteProd
    rw [Finset.prod_ne_zero_iff]
    intro i _
    exact Nat.cast_ne_zero.mpr (by omega)
  refine ⟨by simp [Padded], nz _, ?_, nz _, trivial⟩
  simp only [Padded, List.pairwise_cons]
  decide

/-- **C34** is false when a parameter vanishes: the ratio divides by zero.  (In the model `a/0 = 0`; the code gets
`nan`.  Either way the amplitude of the updated configuration, here `1`, is not returned.) -/
theorem C34_zero_fails : ∃ (mod : Module 1 2 1 Unit) (x : Fin 1 → Fin 2) (upd : List (Fin 1 × Fin 2)),
    SymsConsistent mod.syms ∧ (upd.map Prod.fst).Nodup ∧
    (model mod).fast ((model mod).cacheOf x) upd ≠ (model mod).full (applyUpdate x upd) := by
  refine ⟨⟨fun d _ _ => (d.val : ℂ), noSyms, sumOut⟩, fun _ => 0, [(0, 1)],
    (C35_syms_consistent (T := 0) (fun _ => Equiv.refl _)).2.2.2, by simp, ?_⟩
  simp [model, sumOut, fastSiteProd, siteProdUpdate, listProd, noSyms, siteProd, applyUpdate]

/-- **C34** is false when an update lists a site twice with its new occupation: the factor is counted twice. -/
theorem C34_repeated_site_fails : ∃ (mod : Module 1 2 1 Unit) (x : Fin 1 → Fin 2) (upd : List (Fin 1 × Fin 2)),
    SymsConsistent mod.syms ∧ (∀ m t, siteProd mod x m t ≠ 0) ∧
    (model mod).fast ((model mod).cacheOf x) upd ≠ (model mod).full (applyUpdate x upd) := by
  refine ⟨⟨fun d _ _ => (d.val + 1 : ℂ), noSyms, sumOut⟩, fun _ => 0, [(0, 1), (0, 1)],
    (C35_syms_consistent (T := 0) (fun _ => Equiv.refl _)).2.2.2, ?_, ?_⟩
  · intro m t; simp [siteProd, noSyms]
  · simp [model, sumOut, fastSiteProd, siteProdUpdate, listProd, noSyms, siteProd, applyUpdate]

/-! ## qGPS with the exchange rule in the fast sampler (C24 instantiated) -/

/-- The exchange rule for all chains with drawn clusters (exchange_with_update.py:15-34). -/
def exchangeTransition {Chain : Type} (clusters : Chain → Fin L × Fin L) (σ : Chain → Fin L → Fin D) :
    Proposal Chain (Fin L) (Fin D) where
  σp c := (exchangeUpdate (σ c) (clusters c)).1
  log_prob_correction := none
  update_sites c := [(clusters c).1, (clusters c).2]

/-- **C24** for qGPS with non-vanishing parameters and the exchange rule: no matter which clusters and uniform
variates are drawn, the fast sampler holds the configurations of the plain Metropolis chain. -/
theorem C24_qGPS_exchange {Chain : Type} [Fintype Chain] (mod : Module L D M ι) (hs : SymsConsistent mod.syms)
    (h0 : ∀ d m i, mod.epsilon d m i ≠ 0) (pow : ℝ) (state : SamplerState Chain (Fin L) (Fin D))
    (draws : List ((Chain → Fin L × Fin L) × (Chain → ℝ))) :
    let inputs := draws.map fun d => StepInput.mk (exchangeTransition d.1) d.2
    (runLoop (model mod) pow state inputs).σ = mhRun (model mod).full pow state.σ inputs := by
  intro inputs
  refine (C24_fast_is_plain (fun _ => True) (model mod) pow state inputs (fun _ => trivial) ?_).1
  intro inp hinp σ _ c
  obtain ⟨d, _, rfl⟩ := List.mem_map.mp hinp
  have sw := C23_exchange_swaps (σ c) (d.1 c)
  have happ : applyUpdate (σ c) ([(d.1 c).1, (d.1 c).2].map fun j => (j, (exchangeUpdate (σ c) (d.1 c)).1 j)) =
      (exchangeUpdate (σ c) (d.1 c)).1 := sw.2.2
  have hpad : Padded (σ c) ([(d.1 c).1, (d.1 c).2].map fun j => (j, (exchangeUpdate (σ c) (d.1 c)).1 j)) := by
    simp only [Padded, List.map_cons, List.map_nil, List.pairwise_cons, List.mem_singleton, forall_eq, List.not_mem_nil,
      false_implies, implies_true, List.Pairwise.nil, and_true]
    intro he
    rw [sw.1]
    simp [he]
  have hnz : ∀ m t, siteProd mod (σ c) m t ≠ 0 := by
    intro m t
    unfold siteProd
    rw [Finset.prod_ne_zero_iff]
    exact fun i _ => h0 _ _ _
  obtain ⟨c1, c2⟩ := C34_fast_update mod hs (σ c) _ ⟨hpad, hnz⟩
  exact ⟨trivial, happ, c1, c2⟩

end GPSKet
