import Verif.Model.SupervisedSweep
import Verif.Props.SupervisedCache
import Verif.Props.SupervisedFit
import Verif.Spec.Sweep

/-! # Lemmas for C167: one block of parameters at a time -/

namespace GPSKet.SupervisedSweep

open GPSKet.Supervised GPSKet.SupervisedFit

/-- An exact minimisation over some coordinates, where some others (`Z`) keep their values and enter separately. -/
theorem block_descent {m R : Type} (J : (m → R) → ℝ) (H : (m → R) → ℝ) (Z P : m → Prop) (new old prior : m → R)
    [DecidablePred Z]
    (hsep : ∀ t, J t = J (fun f => if Z f then prior f else t f) + H t)
    (hH : ∀ t t', (∀ f, Z f → t f = t' f) → H t = H t')
    (hPZ : ∀ f, P f → ¬ Z f)
    (hkeep : ∀ f, Z f → new f = old f)
    (hcut : ∀ f, ¬ P f → ¬ Z f → new f = prior f ∧ old f = prior f)
    (hmin : ∀ best : m → R, (∀ f, P f → best f = new f) → (∀ f, ¬ P f → best f = prior f) →
      ∀ t : m → R, (∀ f, ¬ P f → t f = prior f) → t ≠ best → J best < J t) :
    new = old ∨ J new < J old := by
  classical
  have hH' := hH new old hkeep
  by_cases h : (fun f => if Z f then prior f else old f) = (fun f => if Z f then prior f else new f)
  · left
    funext f
    by_cases hz : Z f
    · exact hkeep f hz
    · have := congrFun h f
      simp only [if_neg hz] at this
      exact this.symm
  · right
    rw [hsep new, hsep old, hH']
    have := hmin (fun f => if Z f then prior f else new f)
      (fun f hf => if_neg (hPZ f hf))
      (fun f hf => by
        by_cases hz : Z f
        · exact if_pos hz
        · simp only [if_neg hz]; exact (hcut f hf hz).1)
      (fun f => if Z f then prior f else old f)
      (fun f hf => by
        by_cases hz : Z f
        · exact if_pos hz
        · simp only [if_neg hz]; exact (hcut f hf hz).2) h
    linarith

open Classical in
/-- A sum of functions of linear combinations and of functions of single coordinates, where the coordinates in `Z` do not enter
the former or enter additively. -/
theorem separates {m ι R : Type} [Fintype m] [Fintype ι] [CommRing R] (K : ι → m → R) (g : ι → R → ℝ) (q : m → R → ℝ)
    (Z : m → Prop) (prior : m → R)
    (hadd : ∀ i, (∀ f, Z f → K i f = 0) ∨ ∀ a b, g i (a + b) = g i a + g i b) (t : m → R) :
    (∑ i, g i (∑ f, K i f * t f)) + ∑ f, q f (t f)
      = ((∑ i, g i (∑ f, K i f * (if Z f then prior f else t f))) + ∑ f, q f (if Z f then prior f else t f))
        + ((∑ i, if ∀ f, Z f → K i f = 0 then 0 else g i (∑ f, if Z f then K i f * (t f - prior f) else 0))
          + ∑ f, if Z f then q f (t f) - q f (prior f) else 0) := by
  have h1 : ∀ i, g i (∑ f, K i f * t f) = g i (∑ f, K i f * (if Z f then prior f else t f))
      + (if ∀ f, Z f → K i f = 0 then 0 else g i (∑ f, if Z f then K i f * (t f - prior f) else 0)) := by
    intro i
    by_cases h : ∀ f, Z f → K i f = 0
    · rw [if_pos h, add_zero]
      congr 1
      apply Finset.sum_congr rfl
      intro f _
      by_cases hz : Z f
      · rw [h f hz, zero_mul, zero_mul]
      · rw [if_neg hz]
    · rw [if_neg h]
      have hg := (hadd i).resolve_left h
      rw [← hg, ← Finset.sum_add_distrib]
      congr 1
      apply Finset.sum_congr rfl
      intro f _
      by_cases hz : Z f
      · rw [if_pos hz, if_pos hz]; ring
      · rw [if_neg hz, if_neg hz, add_zero]
  have h2 : ∀ f, q f (t f) = q f (if Z f then prior f else t f) + (if Z f then q f (t f) - q f (prior f) else 0) := by
    intro f
    by_cases hz : Z f
    · rw [if_pos hz, if_pos hz]; ring
    · rw [if_neg hz, if_neg hz, add_zero]
  rw [Finset.sum_congr rfl fun i _ => h1 i, Finset.sum_congr rfl fun f _ => h2 f, Finset.sum_add_distrib, Finset.sum_add_distrib]
  ring

/-- The two together. -/
theorem block_step {m ι R : Type} [Fintype m] [Fintype ι] [CommRing R] (K : ι → m → R) (g : ι → R → ℝ) (q : m → R → ℝ)
    (Z P : m → Prop) (new old prior : m → R)
    (hadd : ∀ i, (∀ f, Z f → K i f = 0) ∨ ∀ a b, g i (a + b) = g i a + g i b)
    (hPZ : ∀ f, P f → ¬ Z f)
    (hkeep : ∀ f, Z f → new f = old f)
    (hcut : ∀ f, ¬ P f → ¬ Z f → new f = prior f ∧ old f = prior f)
    (hmin : ∀ best : m → R, (∀ f, P f → best f = new f) → (∀ f, ¬ P f → best f = prior f) →
      ∀ t : m → R, (∀ f, ¬ P f → t f = prior f) → t ≠ best →
        (∑ i, g i (∑ f, K i f * best f)) + ∑ f, q f (best f) < (∑ i, g i (∑ f, K i f * t f)) + ∑ f, q f (t f)) :
    new = old ∨ (∑ i, g i (∑ f, K i f * new f)) + ∑ f, q f (new f) < (∑ i, g i (∑ f, K i f * old f)) + ∑ f, q f (old f) := by
  classical
  refine block_descent (fun t => (∑ i, g i (∑ f, K i f * t f)) + ∑ f, q f (t f)) _ Z P new old prior
    (separates K g q Z prior hadd) ?_ hPZ hkeep hcut hmin
  intro t t' h
  have e1 : ∀ i, (∑ f, if Z f then K i f * (t f - prior f) else 0) = ∑ f, if Z f then K i f * (t' f - prior f) else 0 := by
    intro i
    apply Finset.sum_congr rfl
    intro f _
    by_cases hz : Z f
    · rw [if_pos hz, if_pos hz, h f hz]
    · rw [if_neg hz, if_neg hz]
  have e2 : ∀ f, (if Z f then q f (t f) - q f (prior f) else 0) = if Z f then q f (t' f) - q f (prior f) else 0 := by
    intro f
    by_cases hz : Z f
    · rw [if_pos hz, if_pos hz, h f hz]
    · rw [if_neg hz, if_neg hz]
  simp only [e1, e2]

variable {D M L N : ℕ}

/-- The feature does not depend on the parameters at the reference sites. -/
theorem feature_write (eps : Eps D M L) (refs : Refs M L) (v : Features D M) (w : Fin M) (d : Fin D) (row : List (Fin L → Fin D)) :
    Spec.feature (writeRefWeights eps refs v) (refs w) w d row = Spec.feature eps (refs w) w d row := by
  unfold Spec.feature
  congr 1
  apply List.map_congr_left
  intro x _
  by_cases hx : x (refs w) = d
  · rw [if_pos hx, if_pos hx]
    apply Finset.prod_congr rfl
    intro j hj
    show (if j = refs w then _ else _) = _
    rw [if_neg (Finset.ne_of_mem_erase hj)]
  · rw [if_neg hx, if_neg hx]

/-- The features of one data point. -/
def feat (eps : Eps D M L) (refs : Refs M L) (row : List (Fin L → Fin D)) : Features D M := fun f =>
  Spec.feature eps (refs (finProdFinEquiv.symm f).1) (finProdFinEquiv.symm f).1 (finProdFinEquiv.symm f).2 row

theorem refWeights_write (eps : Eps D M L) (refs : Refs M L) (v : Features D M) :
    refWeights (writeRefWeights eps refs v) refs = v := by
  funext f
  show (if refs _ = refs _ then v (finProdFinEquiv ((finProdFinEquiv.symm f).1, (finProdFinEquiv.symm f).2)) else _) = v f
  rw [if_pos rfl, Prod.mk.eta, Equiv.apply_symm_apply]

theorem write_refWeights (eps : Eps D M L) (refs : Refs M L) : writeRefWeights eps refs (refWeights eps refs) = eps := by
  funext d w j
  unfold refWeights writeRefWeights
  by_cases h : j = refs w
  · simp [h]
  · simp [h]

/-- The log-amplitude is linear in the parameters at the reference sites. -/
theorem qgpsLog_write (eps : Eps D M L) (refs : Refs M L) (v : Features D M) (bias : ℂ) (row : List (Fin L → Fin D)) :
    Spec.qgpsLog (writeRefWeights eps refs v) bias row = ∑ f, feat eps refs row f * v f + bias := by
  unfold Spec.qgpsLog
  rw [← features_dot (writeRefWeights eps refs v) refs row, refWeights_write]
  simp only [feature_write]
  rfl

/-- The penalty of the parameters at the reference sites, and of the others. -/
theorem penalty_write (eps : Eps D M L) (refs : Refs M L) (v : Features D M) (pen : Fin D → Fin M → Fin L → ℂ → ℝ) :
    (∑ w, ∑ d, ∑ j, pen d w j (writeRefWeights eps refs v d w j))
      = (∑ f : Fin (M * D), pen (finProdFinEquiv.symm f).2 (finProdFinEquiv.symm f).1 (refs (finProdFinEquiv.symm f).1) (v f))
        + ∑ w, ∑ d, ∑ j, if j = refs w then 0 else pen d w j (eps d w j) := by
  rw [← Equiv.sum_comp finProdFinEquiv, Fintype.sum_prod_type, ← Finset.sum_add_distrib]
  apply Finset.sum_congr rfl
  intro w _
  rw [← Finset.sum_add_distrib]
  apply Finset.sum_congr rfl
  intro d _
  have h : ∀ j, pen d w j (writeRefWeights eps refs v d w j)
      = (if j = refs w then pen d w j (v (finProdFinEquiv (w, d))) else 0) + (if j = refs w then 0 else pen d w j (eps d w j)) := by
    intro j
    unfold writeRefWeights
    by_cases hj : j = refs w
    · simp [hj]
    · simp [hj]
  rw [Finset.sum_congr rfl fun j _ => h j, Finset.sum_add_distrib, Finset.sum_ite_eq' Finset.univ (refs w)]
  simp

/-- The objective as a function of the parameters at the reference sites. -/
theorem penalisedError_write (data : Fin N → List (Fin L → Fin D)) (err : Fin N → ℂ → ℝ)
    (pen : Fin D → Fin M → Fin L → ℂ → ℝ) (eps : Eps D M L) (bias : ℂ) (refs : Refs M L) (v : Features D M) :
    Spec.penalisedError data err pen (writeRefWeights eps refs v) bias
      = ((∑ i, err i (∑ f, feat eps refs (data i) f * v f + bias))
        + ∑ f : Fin (M * D), pen (finProdFinEquiv.symm f).2 (finProdFinEquiv.symm f).1 (refs (finProdFinEquiv.symm f).1) (v f))
        + ∑ w, ∑ d, ∑ j, if j = refs w then 0 else pen d w j (eps d w j) := by
  unfold Spec.penalisedError
  rw [penalty_write]
  simp only [qgpsLog_write]
  ring

theorem asMatrix_features (data : Fin N → List (Fin L → Fin D)) (eps : Eps D M L) (refs : Refs M L) :
    (asMatrix ((List.ofFn data).map (feat eps refs)) : Matrix (Fin N) (Fin (M * D)) ℂ) = fun i f => feat eps refs (data i) f := by
  funext i f
  unfold asMatrix
  simp

/-- The calls that make up a sweep: predictions, assignments of reference sites, and fit steps for the data set `data` with the given
function from reference sites to fits. -/
def SweepOp (h : Heap D M L) (data : Fin N → List (Fin L → Fin D))
    (fitOf : Refs M L → List (Features D M) → Features D M → ℂ → Features D M × ℂ) : Op D M L → Prop
  | .predict _ => True
  | .setRefs _ => True
  | .fitStep a r fit => h.confs a = List.ofFn data ∧ fit = fitOf (h.deref r)
  | _ => False

/-- A history of calls of a sweep, from one step without caches. -/
theorem sweep_run (first : Fin L) (h : Heap D M L) (data : Fin N → List (Fin L → Fin D))
    (fitOf : Refs M L → List (Features D M) → Features D M → ℂ → Features D M × ℂ) (withBias : Bool)
    (Inv : Eps D M L → ℂ → Prop) (obj : Eps D M L → ℂ → ℝ) (W : Eps D M L → Refs M L → Prop)
    (hstep : ∀ (eps : Eps D M L) (bias : ℂ) (refs : Refs M L), Inv eps bias → W eps refs →
      let res := fitOf refs ((List.ofFn data).map (feat eps refs)) (refWeights eps refs) bias
      let eps' := writeRefWeights eps refs res.1
      let bias' := if withBias then res.2 else bias
      Inv eps' bias' ∧ ((eps' = eps ∧ bias' = bias) ∨ obj eps' bias' < obj eps bias))
    (ops : List (Op D M L)) (hops : ∀ op ∈ ops, SweepOp h data fitOf op)
    (s : Learner D M L) (p : Ref D M L) (ha : Agree (h, s) (h, p)) (hb : p.includeBias = withBias) (hinv : Inv p.eps p.bias)
    (hW : ∀ front a r fit back, ops = front ++ .fitStep a r fit :: back → ∀ s', run first (h, s) front = some (h, s') →
      W s'.eps (h.deref r)) :
    ∃ s', run first (h, s) ops = some (h, s') ∧ Inv s'.eps s'.bias ∧
      ((s'.eps = s.eps ∧ s'.bias = s.bias) ∨ obj s'.eps s'.bias < obj s.eps s.bias) := by
  induction ops generalizing s p with
  | nil =>
    refine ⟨s, rfl, ?_, Or.inl ⟨rfl, rfl⟩⟩
    have h2 : s.eps = p.eps := ha.2.1
    have h4 : s.bias = p.bias := ha.2.2.2.1
    rw [h2, h4]
    exact hinv
  | cons o os ih =>
    have ho := hops o List.mem_cons_self
    have hclean : Clean first (h, s) [o] := by
      refine ⟨?_, fun _ _ => trivial⟩
      cases o <;> first | trivial | exact absurd ho id
    obtain ⟨⟨h1, s1⟩, e1, ha1⟩ := step_agree first (h, s) (h, p) ha o hclean
    have hh : (Ref.step (h, p) o).1 = h := by
      cases o <;> first | rfl | exact absurd ho id
    have hh1 : h1 = h := ha1.1.trans hh
    subst hh1
    have hpe : s.eps = p.eps := ha.2.1
    have hpb : s.bias = p.bias := ha.2.2.2.1
    have he1 : s1.eps = (Ref.step (h1, p) o).2.eps := ha1.2.1
    have hb1 : s1.bias = (Ref.step (h1, p) o).2.bias := ha1.2.2.2.1
    have hib : (Ref.step (h1, p) o).2.includeBias = withBias := by
      rw [← hb]; cases o <;> rfl
    have key : Inv (Ref.step (h1, p) o).2.eps (Ref.step (h1, p) o).2.bias ∧
        (((Ref.step (h1, p) o).2.eps = p.eps ∧ (Ref.step (h1, p) o).2.bias = p.bias)
          ∨ obj (Ref.step (h1, p) o).2.eps (Ref.step (h1, p) o).2.bias < obj p.eps p.bias) := by
      cases o with
      | predict a => exact ⟨hinv, Or.inl ⟨rfl, rfl⟩⟩
      | setRefs r => exact ⟨hinv, Or.inl ⟨rfl, rfl⟩⟩
      | fitStep a r fit =>
        have hw := hW [] a r fit os rfl s rfl
        rw [hpe] at hw
        have := hstep p.eps p.bias (h1.deref r) hinv hw
        have hfit : fit = fitOf (h1.deref r) := ho.2
        have hdata : h1.confs a = List.ofFn data := ho.1
        rw [← hb] at this
        simp only [Ref.step, hfit, hdata]
        exact this
      | assignEps e => exact absurd ho id
      | writeConfs a c => exact absurd ho id
      | writeRefs a c => exact absurd ho id
      | pokeEps e => exact absurd ho id
    have ha1' : Agree (h1, s1) (h1, (Ref.step (h1, p) o).2) := ⟨rfl, ha1.2⟩
    obtain ⟨s2, e2, i2, c2⟩ := ih (fun op hop => hops op (List.mem_cons_of_mem _ hop)) s1 (Ref.step (h1, p) o).2 ha1' hib key.1
      (by
        intro front a r fit back hsplit s' hrun
        refine hW (o :: front) a r fit back (by rw [hsplit]; rfl) s' ?_
        show (step first (h1, s) o).bind _ = _
        rw [e1]
        exact hrun)
    refine ⟨s2, ?_, i2, ?_⟩
    · show (step first (h1, s) o).bind _ = _
      rw [e1]
      exact e2
    · rw [he1, hb1] at c2
      rw [hpe, hpb]
      rcases c2 with ⟨c, c'⟩ | c <;> rcases key.2 with ⟨k, k'⟩ | k
      · exact Or.inl ⟨c.trans k, c'.trans k'⟩
      · right; rw [c, c']; exact k
      · right; rw [k, k'] at c; exact c
      · exact Or.inr (c.trans k)

end GPSKet.SupervisedSweep
