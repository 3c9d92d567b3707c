import Verif.Model.SRPrecond
import Verif.Props.RMSProp

/-!
# Property C150: the preconditioner on trees of parameters
-/

namespace GPSKet.SRPrecond

open Matrix GPSKet.RMSProp GPSKet.Props ComplexOrder

variable {ρ γ : Type} {R P : ℕ} {ι : Type} [Fintype ι]

theorem toDense_symm (e : Coord ρ γ ≃ Fin P) (v : Fin P → ℝ) : toDenseFormat e (fromDenseFormat e v) = v := by
  funext k
  unfold toDenseFormat fromDenseFormat
  have h : ∀ q, toReal (reassemble fun q => v (e q) : Tree ρ γ) q = v (e q) := by
    rintro (i | i | i) <;> rfl
  rw [h, Equiv.apply_symm_apply]

theorem toReal_from (e : Coord ρ γ ≃ Fin P) (v : Fin P → ℝ) (q : Coord ρ γ) : toReal (fromDenseFormat e v) q = v (e q) := by
  have := congrFun (toDense_symm (ρ := ρ) (γ := γ) e v) (e q)
  unfold toDenseFormat at this
  rwa [Equiv.symm_apply_apply] at this

/-- The round trip of a tree is the identity. -/
theorem C150_roundtrip (e : Coord ρ γ ≃ Fin P) (t : Tree ρ γ) : fromDenseFormat e (toDenseFormat e t) = t := by
  cases t
  simp [fromDenseFormat, toDenseFormat, reassemble, toReal]

theorem matmul_dense (e : Coord ρ γ ≃ Fin P) (S : QGT ρ γ R P ι) (v : Fin P → ℝ) : S.matmulInSolve e v = S.toDense e *ᵥ v := by
  funext k
  unfold QGT.matmulInSolve QGT.toDense matVecReal
  dsimp only
  rw [add_mulVec, Pi.add_apply, smul_mulVec, Pi.smul_apply, smul_mulVec, Pi.smul_apply, mulVec_diagonal, smul_eq_mul, smul_eq_mul,
    sum_mulVec, Finset.sum_apply, mul_assoc]
  congr 2
  refine Finset.sum_congr rfl fun r _ => ?_
  rw [← mulVec_mulVec, mulVec, dotProduct]
  exact Finset.sum_congr rfl fun a _ => mul_comm _ _

/-- The dense form is positive definite for positive shift and `eps`. -/
theorem toDense_posDef (e : Coord ρ γ ≃ Fin P) (S : QGT ρ γ R P ι) (h0 : 0 < S.shift) (h1 : S.shift ≤ 1) (he : 0 < S.eps) : (S.toDense e).PosDef := by
  unfold QGT.toDense
  dsimp only
  rw [← diagonal_smul]
  have hsum : (∑ r, (S.O r)ᵀ * S.O r).PosSemidef := by
    refine Matrix.posSemidef_sum _ fun r _ => ?_
    have := posSemidef_conjTranspose_mul_self (S.O r)
    rwa [conjTranspose_eq_transpose_of_trivial] at this
  refine PosDef.posSemidef_add (hsum.smul (by linarith)) (PosDef.diagonal fun k => ?_)
  exact mul_pos h0 (add_pos_of_nonneg_of_pos (Real.sqrt_nonneg _) he)

/-- The column of the Jacobian that belongs to a real coordinate of the parameters. -/
def column (e : Coord ρ γ ≃ Fin P) (O : Fin R → Matrix ι (Fin P) ℝ) (q : Coord ρ γ) (a : Fin R × ι) : ℝ := O a.1 a.2 (e q)

/-- C150, products: every real coordinate of `S @ tree` is that of `((1 - s) OᵀO + s diag(√ema + eps))` applied to the real coordinates of the
tree. -/
theorem C150_product [Fintype ρ] [Fintype γ] (e : Coord ρ γ ≃ Fin P) (S : QGT ρ γ R P ι) (t : Tree ρ γ) (q : Coord ρ γ) :
    toReal (S.matmulTree e t) q =
      (1 - S.shift) * ∑ q', (∑ a, column e S.O q a * column e S.O q' a) * toReal t q' +
        S.shift * (Real.sqrt (toReal S.ema q) + S.eps) * toReal t q := by
  unfold QGT.matmulTree
  rw [toReal_from]
  unfold matVecReal
  dsimp only
  have h1 : ∀ u : Tree ρ γ, toDenseFormat e u (e q) = toReal u q := fun u => by unfold toDenseFormat; rw [Equiv.symm_apply_apply]
  rw [h1, h1]
  congr 2
  simp only [mulVec, dotProduct, Finset.sum_mul]
  rw [← Fintype.sum_prod_type' (f := fun r a => ∑ i, S.O r a i * toDenseFormat e t i * S.O r a (e q))]
  rw [Finset.sum_comm (s := (Finset.univ : Finset (Coord ρ γ)))]
  refine Finset.sum_congr rfl fun a _ => ?_
  rw [← Equiv.sum_comp e]
  refine Finset.sum_congr rfl fun q' _ => ?_
  have h2 : toDenseFormat e t (e q') = toReal t q' := by unfold toDenseFormat; rw [Equiv.symm_apply_apply]
  rw [h2]
  unfold column
  ring

/-- A solver that solves positive definite systems, whether it uses the products or the dense form. -/
def SolvesOperator (solver : Operator P → (Fin P → ℝ) → Fin P → ℝ) : Prop :=
  ∀ A : Matrix (Fin P) (Fin P) ℝ, A.PosDef → ∀ y, A *ᵥ solver ⟨fun v => A *ᵥ v, A⟩ y = y

/-- Such solvers exist. -/
theorem exists_solver : ∃ solver : Operator P → (Fin P → ℝ) → Fin P → ℝ, SolvesOperator solver := by
  obtain ⟨s, hs⟩ := exists_solvesPosDef (P := P)
  exact ⟨fun op y => s op.dense y, fun A hA y => hs A y hA⟩

/-- C150, solutions: solving for a tree gives a tree whose product is that tree. -/
theorem C150_solve (e : Coord ρ γ ≃ Fin P) (S : QGT ρ γ R P ι) (h0 : 0 < S.shift) (h1 : S.shift ≤ 1) (he : 0 < S.eps)
    (solver : Operator P → (Fin P → ℝ) → Fin P → ℝ) (hs : SolvesOperator solver) (y : Tree ρ γ) :
    S.matmulTree e (S.solve e solver y) = y := by
  have hop : (⟨S.matmulInSolve e, S.toDense e⟩ : Operator P) = ⟨fun v => S.toDense e *ᵥ v, S.toDense e⟩ := by
    congr 1
    funext v
    exact matmul_dense e S v
  have h2 := hs (S.toDense e) (toDense_posDef e S h0 h1 he) (toDenseFormat e y)
  unfold QGT.solve QGT.matmulTree
  dsimp only
  rw [toDense_symm, hop]
  have h3 : ∀ v, matVecReal v S.O S.shift (toDenseFormat e S.ema) S.eps = S.toDense e *ᵥ v := matmul_dense e S
  rw [h3, h2, C150_roundtrip]

/-- The initial average: `initial_scale` for real entries and real parts, 0 for imaginary parts. -/
def initialAverage (initial_scale : ℝ) : Coord ρ γ → ℝ
  | .inr (.inr _) => 0
  | _ => initial_scale

theorem updateTree_coord (decay : ℝ) (nu g : Tree ρ γ) (q : Coord ρ γ) :
    toReal (updateTree decay nu g) q = updateEma decay (toReal nu q) (toReal g q) := by
  rcases q with i | i | i
  · rfl
  all_goals
    unfold toReal updateTree updateEmaComplex updateEma
    simp [← Complex.ofReal_pow]

theorem correctTree_coord (decay : ℝ) (t : ℕ) (nu : Tree ρ γ) (q : Coord ρ γ) :
    toReal (correctTree decay t nu) q = toReal nu q / (1 - decay ^ t) := by
  rcases q with i | i | i
  · rfl
  · simp only [toReal, correctTree, Complex.div_ofReal_re]
  · simp only [toReal, correctTree, Complex.div_ofReal_im]

theorem callAll_ema (e : Coord ρ γ ≃ Fin P) (solver : Operator P → (Fin P → ℝ) → Fin P → ℝ)
    (calls : List ((Fin R → Matrix ι (Fin P) ℝ) × Tree ρ γ × Option ℕ)) (p : Precond ρ γ) (q : Coord ρ γ) :
    toReal (callAll e solver p calls).ema q = emaAfter p.decay (toReal p.ema q) (calls.map fun c => toReal c.2.1 q) ∧
      (callAll e solver p calls).decay = p.decay ∧ (callAll e solver p calls).eps = p.eps ∧
      (callAll e solver p calls).diag_shift = p.diag_shift := by
  unfold callAll emaAfter
  induction calls generalizing p with
  | nil => exact ⟨rfl, rfl, rfl, rfl⟩
  | cons c cs ih =>
    rw [List.foldl_cons, List.map_cons, List.foldl_cons]
    obtain ⟨h1, h2, h3, h4⟩ := ih (call e solver p c.1 c.2.1 c.2.2).2
    refine ⟨?_, h2, h3, h4⟩
    rw [h1]
    congr 1
    exact updateTree_coord _ _ _ _

/-- The value of the shift at a step. -/
def Shift.at : Shift → ℕ → ℝ
  | .scalar s, _ => s
  | .schedule f, k => f k

/-- C150.  However the preconditioner was called before (also with calls that raised), a call with a step returns a tree `x` of the
structure of the parameters that solves `((1 - s) OᵀO + s diag(√ema_hat + eps)) x = gradient` in every real coordinate, where `ema_hat` is the
moving average of the squares of that coordinate of all gradients so far, corrected with `1 - decay^(step+1)`. -/
theorem C150_preconditioner [Fintype ρ] [Fintype γ] (e : Coord ρ γ ≃ Fin P) (solver : Operator P → (Fin P → ℝ) → Fin P → ℝ)
    (hs : SolvesOperator solver) (diag_shift : Shift) (decay eps initial_scale : ℝ) (he : 0 < eps)
    (calls : List ((Fin R → Matrix ι (Fin P) ℝ) × Tree ρ γ × Option ℕ)) (O : Fin R → Matrix ι (Fin P) ℝ) (gradient : Tree ρ γ) (step : ℕ)
    (h0 : 0 < diag_shift.at step) (h1 : diag_shift.at step ≤ 1) :
    ∃ p : Precond ρ γ, construct diag_shift decay eps initial_scale = some p ∧
    ∃ x : Tree ρ γ, (call e solver (callAll e solver p calls) O gradient (some step)).1 = some x ∧
    ∀ q, let gs := (calls.map fun c => toReal c.2.1 q) ++ [toReal gradient q]
      let s := diag_shift.at step
      let ema := decay ^ gs.length * initialAverage initial_scale q +
        (1 - decay) * ∑ i : Fin gs.length, decay ^ (gs.length - 1 - i.val) * (gs.get i) ^ 2
      (1 - s) * ∑ q', (∑ a, column e O q a * column e O q' a) * toReal x q' +
        s * (Real.sqrt (ema / (1 - decay ^ (step + 1))) + eps) * toReal x q = toReal gradient q := by
  set p : Precond ρ γ := ⟨diag_shift, decay, eps, ⟨fun _ => initial_scale, fun _ => (initial_scale : ℂ)⟩⟩ with hp
  refine ⟨p, ?_, ?_⟩
  · unfold construct
    cases diag_shift with
    | scalar s => exact if_pos ⟨h0.le, h1⟩
    | schedule f => rfl
  set p' := callAll e solver p calls with hp'
  have hinv := callAll_ema e solver calls p
  set pn : Precond ρ γ := { p' with ema := updateTree p'.decay p'.ema gradient } with hpn
  set S : QGT ρ γ R P ι := ⟨O, diag_shift.at step, eps, correctTree pn.decay (step + 1) pn.ema⟩ with hS
  have hshift : p'.diag_shift = diag_shift ∧ p'.eps = eps ∧ p'.decay = decay := by
    rcases isEmpty_or_nonempty (Coord ρ γ) with hemp | ⟨⟨q⟩⟩
    · -- the fields do not depend on coordinates
      have : ∀ (cs : List ((Fin R → Matrix ι (Fin P) ℝ) × Tree ρ γ × Option ℕ)) (p0 : Precond ρ γ),
          (callAll e solver p0 cs).diag_shift = p0.diag_shift ∧ (callAll e solver p0 cs).eps = p0.eps ∧
            (callAll e solver p0 cs).decay = p0.decay := by
        intro cs
        induction cs with
        | nil => exact fun _ => ⟨rfl, rfl, rfl⟩
        | cons c cs ih => exact fun p0 => ih (call e solver p0 c.1 c.2.1 c.2.2).2
      exact this calls p
    · exact ⟨(hinv q).2.2.2, (hinv q).2.2.1, (hinv q).2.1⟩
  have hlhs : lhs pn O (correctTree pn.decay (step + 1) pn.ema) (some step) = some S := by
    unfold lhs
    have h2 : pn.diag_shift = diag_shift := hshift.1
    have h3 : pn.eps = eps := hshift.2.1
    rw [h2, h3]
    cases diag_shift with
    | scalar s =>
      have : 0 ≤ s ∧ s ≤ 1 := ⟨h0.le, h1⟩
      simp only [Option.bind_eq_bind, Option.bind_some, if_pos this]
      rfl
    | schedule f =>
      have : 0 ≤ f step ∧ f step ≤ 1 := ⟨h0.le, h1⟩
      simp only [Option.bind_eq_bind, Option.bind_some, if_pos this]
      rfl
  refine ⟨S.solve e solver gradient, ?_, fun q => ?_⟩
  · show (do
      let t ← (some step).map (· + 1)
      let S ← lhs pn O (correctTree pn.decay t pn.ema) (some step)
      return S.solve e solver gradient : Option (Tree ρ γ)) = _
    simp only [Option.map_some, Option.bind_eq_bind, Option.bind_some, hlhs]
    rfl
  · intro gs s ema
    have hsol := C150_solve e S h0 h1 he solver hs gradient
    have hq := congrArg (fun t => toReal t q) hsol
    rw [C150_product] at hq
    rw [← hq]
    congr 3
    have h5 : toReal S.ema q = ema / (1 - decay ^ (step + 1)) := by
      show toReal (correctTree pn.decay (step + 1) pn.ema) q = _
      rw [correctTree_coord]
      have h6 : pn.decay = decay := hshift.2.2
      rw [h6]
      congr 1
      show toReal (updateTree p'.decay p'.ema gradient) q = _
      rw [updateTree_coord, hshift.2.2, (hinv q).1]
      have h7 : toReal p.ema q = initialAverage initial_scale q := by
        rcases q with i | i | i
        · rfl
        · exact Complex.ofReal_re _
        · exact Complex.ofReal_im _
      rw [h7]
      have h8 : updateEma decay (emaAfter p.decay (initialAverage initial_scale q) (calls.map fun c => toReal c.2.1 q)) (toReal gradient q) =
          emaAfter decay (initialAverage initial_scale q) gs := by
        unfold emaAfter
        rw [List.foldl_append]
        rfl
      rw [h8, C46_closed_form]
    rw [h5]

omit [Fintype ι] in
/-- A call without a step always raises, even with a constant shift, and the average has been updated by then. -/
theorem C150_no_step_fails [Fintype ι] (e : Coord ρ γ ≃ Fin P) (solver : Operator P → (Fin P → ℝ) → Fin P → ℝ) (p : Precond ρ γ)
    (O : Fin R → Matrix ι (Fin P) ℝ) (gradient : Tree ρ γ) :
    (call e solver p O gradient none).1 = none ∧
      ∀ q, toReal (call e solver p O gradient none).2.ema q = p.decay * toReal p.ema q + (1 - p.decay) * toReal gradient q ^ 2 :=
  ⟨rfl, fun q => updateTree_coord _ _ _ _⟩

/-- A shift outside `[0, 1]` is refused when the preconditioner is built, a scheduled one when it is called. -/
theorem C150_shift_refused (e : Coord ρ γ ≃ Fin P) (solver : Operator P → (Fin P → ℝ) → Fin P → ℝ) (decay eps initial_scale s : ℝ)
    (hs : s < 0 ∨ 1 < s) (f : ℕ → ℝ) (step : ℕ) (hf : f step < 0 ∨ 1 < f step) (p : Precond ρ γ) (hp : p.diag_shift = .schedule f)
    (O : Fin R → Matrix ι (Fin P) ℝ) (gradient : Tree ρ γ) :
    construct (ρ := ρ) (γ := γ) (.scalar s) decay eps initial_scale = none ∧ (call e solver p O gradient (some step)).1 = none := by
  have hneg : ∀ x : ℝ, x < 0 ∨ 1 < x → ¬ (0 ≤ x ∧ x ≤ 1) := fun x h h' => by rcases h with h | h <;> linarith [h'.1, h'.2]
  refine ⟨if_neg (hneg s hs), ?_⟩
  unfold call
  dsimp only
  simp only [Option.map_some, Option.bind_eq_bind, Option.bind_some, lhs, hp, if_neg (hneg _ hf), Option.bind_none]

/-- The hypotheses of C150 are met: one real and one complex parameter, the shift 0.01 and the defaults of the code, an earlier call that raised
and one that did not. -/
example (e : Coord (Fin 1) (Fin 1) ≃ Fin 3) (O : Fin 2 → Matrix (Fin 5 × Fin 2) (Fin 3) ℝ) (g : Tree (Fin 1) (Fin 1))
    (s : Operator 3 → (Fin 3 → ℝ) → Fin 3 → ℝ) (hs : SolvesOperator s) :=
  C150_preconditioner e s hs (.scalar (1 / 100)) (9 / 10) (1 / 10 ^ 8) 0 (by norm_num) [(O, g, none), (O, g, some 0)] O g 1
    (by simp [Shift.at]) (by simp [Shift.at]; norm_num)

example : Nonempty (Coord (Fin 1) (Fin 1) ≃ Fin 3) := ⟨Fintype.equivFinOfCardEq rfl⟩

end GPSKet.SRPrecond
