import Verif.Model.Backflow
import Verif.Lemmas.ElectronList
import Verif.Lemmas.Updates
import Verif.Props.CPDBackflow

/-!
# C68 (backflow amplitudes and their fast updates), and the part of C58 that concerns `BackflowJastrow`
-/

namespace GPSKet.Backflow
open Spec Electrons
open CPDBackflow (Kind take)

variable {L R N n_up n_down : ℕ} {ι Cache : Type} [Fintype ι]

/-- Specification: `up` and `dn` enumerate the up and down electrons of `x` in increasing order of the sites. -/
structure Enumerates (x : Cfg L) (up : Fin n_up → Fin L) (dn : Fin n_down → Fin L) : Prop where
  up_mono : StrictMono up
  dn_mono : StrictMono dn
  up_iff : ∀ i, hasSpin false (x i) = true ↔ ∃ n, up n = i
  dn_iff : ∀ i, hasSpin true (x i) = true ↔ ∃ n, dn n = i

theorem card_of_enum (s : Bool) (x : Cfg L) {n : ℕ} (e : Fin n → Fin L) (he : StrictMono e)
    (h : ∀ i, hasSpin s (x i) = true ↔ ∃ n, e n = i) : numElec s x = n := by
  unfold numElec
  have : (Finset.univ.filter fun i => hasSpin s (x i) = true) = Finset.univ.image e := by
    ext i
    simp [h i]
  rw [this, Finset.card_image_of_injective _ he.injective, Finset.card_fin]

theorem Enumerates.electrons {x : Cfg L} {up : Fin n_up → Fin L} {dn : Fin n_down → Fin L} (h : Enumerates x up dn) :
    occupanciesToElectrons [x] n_up n_down 0 = (List.ofFn fun n => (up n).val) ++ List.ofFn fun n => (dn n).val :=
  ElectronList.occupanciesToElectrons_eq x ⟨card_of_enum false x up h.up_mono h.up_iff, card_of_enum true x dn h.dn_mono h.dn_iff⟩
    up dn h.up_mono h.dn_mono h.up_iff h.dn_iff

theorem take_ofFn {n : ℕ} (o : Fin R → Fin N → ℂ) (f : Fin n → ℕ) (l : List ℕ) (i : Fin n) (j : Fin N) (r : Fin R) (h : f i = r.val) :
    take o (List.ofFn f ++ l) i j = o r j := by
  unfold take
  have e : (List.ofFn f ++ l).getD i.val 0 = r.val := by
    rw [List.getD_append _ _ _ _ (by simp), List.getD_eq_getElem _ _ (by simp), List.getElem_ofFn, ← h]
  rw [dif_pos (by rw [e]; exact r.isLt)]
  congr 1
  exact Fin.ext e

theorem take_ofFn' {n : ℕ} (o : Fin R → Fin N → ℂ) (f : Fin n → ℕ) (i : Fin n) (j : Fin N) (r : Fin R) (h : f i = r.val) :
    take o (List.ofFn f) i j = o r j := by
  have := take_ofFn o f [] i j r h
  rwa [List.append_nil] at this

/-- The positions after a symmetry operation. -/
theorem positions (sym : Fin L → Fin L) (f : ℕ → ℕ) (hf : ∀ k : Fin L, f k.val = (sym k).val) (up : Fin n_up → Fin L) (dn : Fin n_down → Fin L) :
    (((List.ofFn fun n => (up n).val) ++ List.ofFn fun n => (dn n).val).map f).take n_up = List.ofFn (fun n => (sym (up n)).val) ∧
    (((List.ofFn fun n => (up n).val) ++ List.ofFn fun n => (dn n).val).map f).drop n_up = List.ofFn (fun n => (sym (dn n)).val) := by
  have e1 : (List.ofFn fun n => (up n).val).map f = List.ofFn fun n => (sym (up n)).val := by
    rw [List.map_ofFn]; congr 1; funext n; exact hf _
  have e2 : (List.ofFn fun n => (dn n).val).map f = List.ofFn fun n => (sym (dn n)).val := by
    rw [List.map_ofFn]; congr 1; funext n; exact hf _
  rw [List.map_append, e1, e2]
  exact ⟨List.take_left' (by simp), List.drop_left' (by simp)⟩

/-- The orbitals at which the determinant is taken: the mean-field orbitals, if given, plus the correction for the symmetry
operation `t`. -/
def correctedOrbital (mod : Module L R N n_up n_down ι Cache) (x : Cfg L) (t : ι) (r : Fin R) (k : Fin N) : ℂ :=
  (match mod.orbitals with | some Φ => Φ r k | none => 0) + mod.correction_fun.full x r k t

omit [Fintype ι] in
theorem orbitalSum_eq (mod : Module L R N n_up n_down ι Cache) (x : Cfg L) (t : ι) :
    orbitalSum mod.orbitals (mod.correction_fun.full x) t = correctedOrbital mod x t := by
  unfold orbitalSum correctedOrbital
  funext r k
  rcases mod.orbitals with _ | Φ
  · simp
  · rfl

/-- **C68**, restricted orbitals: the amplitude is the sum over the symmetry operations of the product of the up and the down
determinant of the corrected orbitals at the images of the electron positions. -/
theorem C68_restricted {n : ℕ} (c : Correction L L n ι Cache) (Φ : Option (Fin L → Fin n → ℂ)) (f : ι → ℕ → ℕ) (sym : ι → Fin L → Fin L)
    (hf : ∀ t (k : Fin L), f t k.val = (sym t k).val) (x : Cfg L) (up dn : Fin n → Fin L) (h : Enumerates x up dn) :
    let mod : Module L L n n n ι Cache := ⟨.restricted n, c, Φ, f⟩
    (model mod).full x = Complex.log (∑ t,
      (Matrix.of fun i j => correctedOrbital mod x t (sym t (up i)) j).det * (Matrix.of fun i j => correctedOrbital mod x t (sym t (dn i)) j).det) := by
  intro mod
  change Complex.log (amplitude mod (c.full x) x) = _
  unfold amplitude
  dsimp only
  rw [h.electrons]
  congr 1
  refine Finset.sum_congr rfl fun t _ => ?_
  rw [orbitalSum_eq mod]
  change detOf (.restricted n) _ _ = _
  unfold detOf
  dsimp only
  rw [(positions (sym t) (f t) (hf t) up dn).1, (positions (sym t) (f t) (hf t) up dn).2]
  congr 2
  · funext i j; exact take_ofFn' _ _ i j _ rfl
  · funext i j; exact take_ofFn' _ _ i j _ rfl

/-- **C68**, unrestricted orbitals: the first columns belong to the up, the others to the down electrons. -/
theorem C68_unrestricted (c : Correction L L (n_up + n_down) ι Cache) (Φ : Option (Fin L → Fin (n_up + n_down) → ℂ)) (f : ι → ℕ → ℕ)
    (sym : ι → Fin L → Fin L) (hf : ∀ t (k : Fin L), f t k.val = (sym t k).val) (x : Cfg L) (up : Fin n_up → Fin L) (dn : Fin n_down → Fin L)
    (h : Enumerates x up dn) :
    let mod : Module L L (n_up + n_down) n_up n_down ι Cache := ⟨.unrestricted n_up n_down, c, Φ, f⟩
    (model mod).full x = Complex.log (∑ t,
      (Matrix.of fun i j => correctedOrbital mod x t (sym t (up i)) (Fin.castAdd n_down j)).det *
        (Matrix.of fun i j => correctedOrbital mod x t (sym t (dn i)) (Fin.natAdd n_up j)).det) := by
  intro mod
  change Complex.log (amplitude mod (c.full x) x) = _
  unfold amplitude
  dsimp only
  rw [h.electrons]
  congr 1
  refine Finset.sum_congr rfl fun t _ => ?_
  rw [orbitalSum_eq mod]
  change detOf (.unrestricted n_up n_down) _ _ = _
  unfold detOf
  dsimp only
  rw [(positions (sym t) (f t) (hf t) up dn).1, (positions (sym t) (f t) (hf t) up dn).2]
  congr 2
  · funext i j; exact take_ofFn' _ _ i _ _ rfl
  · funext i j; exact take_ofFn' _ _ i _ _ rfl

/-- **C68**, generalised orbitals: one determinant over spin-orbitals, those of the down electrons following those of the up
electrons. -/
theorem C68_generalised (c : Correction L (L + L) (n_up + n_down) ι Cache) (Φ : Option (Fin (L + L) → Fin (n_up + n_down) → ℂ)) (f : ι → ℕ → ℕ)
    (sym : ι → Fin L → Fin L) (hf : ∀ t (k : Fin L), f t k.val = (sym t k).val) (x : Cfg L) (up : Fin n_up → Fin L) (dn : Fin n_down → Fin L)
    (h : Enumerates x up dn) :
    let mod : Module L (L + L) (n_up + n_down) n_up n_down ι Cache := ⟨.generalised n_up n_down, c, Φ, f⟩
    (model mod).full x = Complex.log (∑ t, (Matrix.of fun (i j : Fin (n_up + n_down)) => correctedOrbital mod x t
      (Fin.addCases (motive := fun _ => Fin (L + L)) (fun i => Fin.castAdd L (sym t (up i))) (fun i => Fin.natAdd L (sym t (dn i))) i) j).det) := by
  intro mod
  change Complex.log (amplitude mod (c.full x) x) = _
  unfold amplitude
  dsimp only
  rw [h.electrons]
  congr 1
  refine Finset.sum_congr rfl fun t _ => ?_
  rw [orbitalSum_eq mod]
  change detOf (.generalised n_up n_down) _ _ = _
  unfold detOf
  dsimp only
  rw [(positions (sym t) (f t) (hf t) up dn).1, (positions (sym t) (f t) (hf t) up dn).2]
  congr 2
  funext i j
  have e2 : (List.ofFn fun n => (sym t (dn n)).val).map (· + L) = List.ofFn fun n => (sym t (dn n)).val + L := by
    rw [List.map_ofFn]; rfl
  rw [e2]
  induction i using Fin.addCases with
  | left i =>
    rw [Fin.addCases_left]
    exact take_ofFn _ _ _ i j _ rfl
  | right i =>
    rw [Fin.addCases_right]
    unfold take
    have e : ((List.ofFn fun n => (sym t (up n)).val) ++ List.ofFn fun n => (sym t (dn n)).val + L).getD (Fin.natAdd n_up i).val 0 =
        (Fin.natAdd L (sym t (dn i))).val := by
      rw [List.getD_append_right _ _ _ _ (by simp), List.getD_eq_getElem _ _ (by simp), List.getElem_ofFn]
      simp [Nat.add_comm]
    rw [dif_pos (by rw [e]; exact Fin.isLt _)]
    congr 1
    exact Fin.ext e

/-- The correction module's own fast evaluation is right for the updates satisfying `P`. -/
def CorrectionCoherent (c : Correction L R N ι Cache) (P : Cfg L → List (Fin L × Fin 4) → Prop) : Prop :=
  ∀ x upd, P x upd → c.fast (c.cacheOf x) upd = c.full (applyUpdate x upd) ∧ c.fastCache (c.cacheOf x) upd = c.cacheOf (applyUpdate x upd)

/-- **C68**: if the correction module evaluates updates correctly, so does the backflow model; repeated sites included. -/
theorem C68_fast_update (mod : Module L R N n_up n_down ι Cache) (P : Cfg L → List (Fin L × Fin 4) → Prop)
    (hc : CorrectionCoherent mod.correction_fun P) : (model mod).CoherentOn P := by
  intro x upd hP
  obtain ⟨h1, h2⟩ := hc x upd hP
  have hs : setSites x upd.reverse = applyUpdate x upd := Props.updateFun_eq x upd
  constructor
  · change Complex.log (amplitude mod (mod.correction_fun.fast (mod.correction_fun.cacheOf x) upd) (setSites x upd.reverse)) = _
    rw [h1, hs]; rfl
  · change (setSites x upd.reverse, mod.correction_fun.fastCache (mod.correction_fun.cacheOf x) upd) = _
    rw [h2, hs]; rfl

/-- The updates of a history satisfy `P` one after the other. -/
def HistoryOk (P : Cfg L → List (Fin L × Fin 4) → Prop) : Cfg L → List (List (Fin L × Fin 4)) → Prop
  | _, [] => True
  | x, upd :: rest => P x upd ∧ HistoryOk P (applyUpdate x upd) rest

/-- **C68** over histories. -/
theorem C68_history (mod : Module L R N n_up n_down ι Cache) (P : Cfg L → List (Fin L × Fin 4) → Prop)
    (hc : CorrectionCoherent mod.correction_fun P) (x : Cfg L) (upds : List (List (Fin L × Fin 4))) (h : HistoryOk P x upds) :
    upds.foldl (model mod).fastCache ((model mod).cacheOf x) = (model mod).cacheOf (upds.foldl applyUpdate x) := by
  induction upds generalizing x with
  | nil => rfl
  | cons upd rest ih =>
    rw [List.foldl_cons, List.foldl_cons, (C68_fast_update mod P hc x upd h.1).2]
    exact ih _ h.2

/-! ## `BackflowJastrow` -/

/-- Constructed with its arguments in the order of declaration, `Backflow` evaluates to its amplitude. -/
theorem C58_backflow_direct (kind : Kind L R N n_up n_down) (defaultSym sym : ι → ℕ → ℕ) (c : Correction L R N ι Cache)
    (Φ : Fin R → Fin N → ℂ) (x : Cfg L) :
    (PyCall.bind (fields defaultSym) [.hilbert, .module c, .array Φ] [("apply_symmetries", .symmetries sym)]).bind
      (fun self => evalFields kind self x) = some (amplitude ⟨kind, c, some Φ, sym⟩ (c.full x) x) := rfl

/-- **C58** is false for `BackflowJastrow`: it hands the orbitals over as the correction module and the module as the orbitals, so
every evaluation with at least one determinant raises, whatever the parameters. -/
theorem C58_backflow_jastrow_fails {τ : Type} [Fintype τ] (kind : Kind L R N n_up n_down) (defaultSym : ι → ℕ → ℕ) (a b : Bool)
    (mod : BackflowJastrow L R N ι τ Cache) (hn : mod.orbitals ≠ []) (x : Cfg L) :
    callBackflowJastrow defaultSym kind a b mod x = none := by
  unfold callBackflowJastrow
  split
  · rfl
  · rename_i hl
    rw [not_not] at hl
    rcases ho : mod.orbitals with _ | ⟨o, os⟩
    · exact absurd ho hn
    · rcases hc : mod.correction_fun with _ | ⟨c, cs⟩
      · rw [ho, hc] at hl; simp at hl
      · simp only [List.zip_cons_cons, List.mapM_cons]
        have e : (do
            let self ← subModel defaultSym mod.backflow_apply_symmetries a b o c
            evalFields kind self x) = (none : Option ℂ) := rfl
        rw [e]
        rfl

omit [Fintype ι] in
/-- What the sub-model of a determinant sees: `orbitals` and `correction_fun` exchanged. -/
theorem C58_backflow_jastrow_swapped (defaultSym sym : ι → ℕ → ℕ) (a b : Bool) (Φ : Fin R → Fin N → ℂ) (c : Correction L R N ι Cache) :
    ∃ self, subModel defaultSym sym a b Φ c = some self ∧ self "correction_fun" = some (.array Φ) ∧ self "orbitals" = some (.module c) :=
  ⟨_, rfl, rfl, rfl⟩

/-! ## Non-vacuity -/

/-- A correction that depends on the configuration, with the configuration as its cache. -/
def exCorrection : Correction 2 2 1 Unit (Cfg 2) where
  full x r _ _ := ((x r).val : ℂ) + r.val
  cacheOf x := x
  fast x upd r _ _ := ((applyUpdate x upd r).val : ℂ) + r.val
  fastCache x upd := applyUpdate x upd

example : CorrectionCoherent exCorrection fun _ _ => True := fun _ _ _ => ⟨rfl, rfl⟩

example : Enumerates (![3, 0] : Cfg 2) (fun _ : Fin 1 => 0) (fun _ : Fin 1 => 0) := by
  refine ⟨?_, ?_, ?_, ?_⟩
  · intro a b h; exact absurd h (by simp [Subsingleton.elim a b])
  · intro a b h; exact absurd h (by simp [Subsingleton.elim a b])
  · decide
  · decide

/-- An amplitude that is neither zero nor that of the mean-field orbitals alone. -/
example : amplitude (⟨.restricted 1, exCorrection, some fun r _ => r.val + 1, fun _ k => k⟩ : Module 2 2 1 1 1 Unit (Cfg 2))
    (exCorrection.full ![3, 0]) ![3, 0] = 16 := by
  unfold amplitude
  have : occupanciesToElectrons [(![3, 0] : Cfg 2)] 1 1 0 = [0, 0] := by decide
  rw [this]
  simp [detOf, orbitalSum, take, exCorrection]
  norm_num

end GPSKet.Backflow
