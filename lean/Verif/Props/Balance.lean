import Verif.Model.Runs
import Verif.Props.Holomorphic
import Verif.Props.MinSR
import Verif.Props.Solvers

/-!
# Property C194: the updates keep the balance between the sites of a qGPS

Multiplying the parameters of a support point at one site by a number and dividing those at another site by it does not change a qGPS.  No
update moves along this direction.
-/

namespace GPSKet.Balance
open GPSKet GPSKet.Spec GPSKet.Runs GPSKet.Props GPSKet.Holomorphic Matrix

variable {L D M P : ℕ} {ι : Type}

/-- The log-derivative of a qGPS with respect to one of its parameters. -/
noncomputable def dlog (syms : QGPS.Syms L D ι) (out : (Fin M → ι → ℂ) → ℂ) (epsilon : Fin D → Fin M → Fin L → ℂ) (x : Fin L → Fin D) (d : Fin D)
    (m : Fin M) (i : Fin L) : ℂ :=
  deriv (fun z => (QGPS.model ⟨shifted epsilon d m i z, syms, out⟩).full x) 0

/-- The parameters of one support point at one site. -/
def part (epsilon : Fin D → Fin M → Fin L → ℂ) (m : Fin M) (i : Fin L) : Fin D → Fin M → Fin L → ℂ :=
  fun d' m' i' => if m' = m ∧ i' = i then epsilon d' m' i' else 0

def single (d : Fin D) (m : Fin M) (i : Fin L) : Fin D → Fin M → Fin L → ℂ := fun d' m' i' => if d' = d ∧ m' = m ∧ i' = i then 1 else 0

theorem shifted_eq (epsilon : Fin D → Fin M → Fin L → ℂ) (d : Fin D) (m : Fin M) (i : Fin L) (z : ℂ) :
    shifted epsilon d m i z = epsilon + z • single d m i := by
  funext d' m' i'
  simp only [shifted, single, Pi.add_apply, Pi.smul_apply, smul_eq_mul]
  split_ifs <;> simp

theorem sum_single (epsilon : Fin D → Fin M → Fin L → ℂ) (m : Fin M) (i : Fin L) : ∑ d, epsilon d m i • single d m i = part epsilon m i := by
  funext d' m' i'
  simp only [Finset.sum_apply, Pi.smul_apply, smul_eq_mul, single, part]
  by_cases h : m' = m ∧ i' = i
  · obtain ⟨rfl, rfl⟩ := h
    simp
  · rw [if_neg h]
    exact Finset.sum_eq_zero fun d _ => by rw [if_neg fun h' => h h'.2, mul_zero]

theorem hasDerivAt_line (F : (Fin D → Fin M → Fin L → ℂ) → ℂ) (hF : Differentiable ℂ F) (epsilon v : Fin D → Fin M → Fin L → ℂ) :
    HasDerivAt (fun z : ℂ => F (epsilon + z • v)) (fderiv ℂ F epsilon v) 0 := by
  have h1 : HasDerivAt (fun z : ℂ => epsilon + z • v) v 0 := by
    simpa using ((hasDerivAt_id (0 : ℂ)).smul_const v).const_add epsilon
  have h2 : HasFDerivAt F (fderiv ℂ F epsilon) (epsilon + (0 : ℂ) • v) := by
    rw [zero_smul, add_zero]
    exact (hF epsilon).hasFDerivAt
  exact h2.comp_hasDerivAt (0 : ℂ) h1

theorem siteProd_part (syms : QGPS.Syms L D ι) (out : (Fin M → ι → ℂ) → ℂ) (epsilon : Fin D → Fin M → Fin L → ℂ) (m : Fin M) (i : Fin L) (z : ℂ)
    (x : Fin L → Fin D) (m' : Fin M) (t : ι) :
    QGPS.siteProd ⟨epsilon + z • part epsilon m i, syms, out⟩ x m' t =
      (if m' = m then 1 + z else 1) * QGPS.siteProd ⟨epsilon, syms, out⟩ x m' t := by
  unfold QGPS.siteProd
  by_cases h : m' = m
  · subst h
    rw [if_pos rfl, ← Finset.mul_prod_erase _ _ (Finset.mem_univ i), ← Finset.mul_prod_erase Finset.univ (fun k => epsilon _ m' k) (Finset.mem_univ i)]
    rw [Finset.prod_congr rfl fun k hk => show (epsilon + z • part epsilon m' i) (syms.symmetries x t k) m' k = epsilon (syms.symmetries x t k) m' k by
      simp [part, Finset.ne_of_mem_erase hk]]
    simp only [Pi.add_apply, Pi.smul_apply, part, smul_eq_mul, and_self, if_true]
    ring
  · rw [if_neg h, one_mul]
    exact Finset.prod_congr rfl fun k _ => by simp [part, h]

/-- **C194**, the log-derivatives: for every configuration, weighted with the parameters themselves, they add up to the same number at all
sites.  For any output transformation for which the log-amplitude is holomorphic. -/
theorem C194_log_derivatives (syms : QGPS.Syms L D ι) (out : (Fin M → ι → ℂ) → ℂ) (epsilon : Fin D → Fin M → Fin L → ℂ) (x : Fin L → Fin D)
    (hd : Differentiable ℂ fun epsilon : Fin D → Fin M → Fin L → ℂ => (QGPS.model ⟨epsilon, syms, out⟩).full x) (m : Fin M) (i j : Fin L) :
    ∑ d, epsilon d m i * dlog syms out epsilon x d m i = ∑ d, epsilon d m j * dlog syms out epsilon x d m j := by
  set F := fun epsilon : Fin D → Fin M → Fin L → ℂ => (QGPS.model ⟨epsilon, syms, out⟩).full x with hFd
  have h1 : ∀ d i, dlog syms out epsilon x d m i = fderiv ℂ F epsilon (single d m i) := by
    intro d i
    unfold dlog
    simp only [shifted_eq]
    exact (hasDerivAt_line F hd epsilon (single d m i)).deriv
  have h2 : ∀ i, ∑ d, epsilon d m i * dlog syms out epsilon x d m i = deriv (fun z : ℂ => F (epsilon + z • part epsilon m i)) 0 := by
    intro i
    rw [(hasDerivAt_line F hd epsilon _).deriv, ← sum_single, map_sum]
    refine Finset.sum_congr rfl fun d _ => ?_
    rw [h1, map_smul, smul_eq_mul]
  rw [h2, h2]
  congr 1
  funext z
  simp only [hFd, QGPS.model]
  congr 1
  funext m' t
  rw [siteProd_part, siteProd_part]

theorem sum_default [Fintype ι] (syms : QGPS.Syms L D ι) (epsilon : Fin D → Fin M → Fin L → ℂ) (x : Fin L → Fin D) (m : Fin M) (i j : Fin L) :
    ∑ d, epsilon d m i * dlog syms QGPS.sumOut epsilon x d m i = ∑ d, epsilon d m j * dlog syms QGPS.sumOut epsilon x d m j :=
  C194_log_derivatives syms QGPS.sumOut epsilon x (C191_qgps syms x).1 m i j

/-- What is proved of an update: the inner products with the parameters of a support point at one site are the same at all sites. -/
def Balanced (epsilon v : Fin D → Fin M → Fin L → ℂ) : Prop :=
  ∀ m i j, ∑ d, (starRingEnd ℂ) (epsilon d m i) * v d m i = ∑ d, (starRingEnd ℂ) (epsilon d m j) * v d m j

/-- Combinations of conjugated rows are balanced if the rows are. -/
theorem balanced_combination {S : Type} [Fintype S] (epsilon : Fin D → Fin M → Fin L → ℂ) (O : S → Fin D → Fin M → Fin L → ℂ)
    (hO : ∀ s m i j, ∑ d, epsilon d m i * O s d m i = ∑ d, epsilon d m j * O s d m j) (y : S → ℂ) (v : Fin D → Fin M → Fin L → ℂ)
    (hv : ∀ d m i, v d m i = ∑ s, (starRingEnd ℂ) (O s d m i) * y s) : Balanced epsilon v := by
  intro m i j
  have h : ∀ i, ∑ d, (starRingEnd ℂ) (epsilon d m i) * v d m i = ∑ s, (starRingEnd ℂ) (∑ d, epsilon d m i * O s d m i) * y s := by
    intro i
    simp only [hv, Finset.mul_sum, map_sum, map_mul, Finset.sum_mul]
    rw [Finset.sum_comm]
    exact Finset.sum_congr rfl fun s _ => Finset.sum_congr rfl fun d _ => by ring
  rw [h, h, Finset.sum_congr rfl fun s _ => by rw [hO s m i j]]

open UniqueSamples in
/-- **C194**, the gradient reported by `expect_and_grad` for any samples, weights and local energies. -/
theorem C194_gradient {ranks : ℕ} [Fintype ι] (syms : QGPS.Syms L D ι) (epsilon : Fin D → Fin M → Fin L → ℂ)
    (sw : Fin ranks → List ((Fin L → Fin D) × ℝ)) (E : (Fin L → Fin D) → ℂ) :
    Balanced epsilon fun d m i => gradient sw E fun x => dlog syms QGPS.sumOut epsilon x d m i := by
  intro m i j
  have h : ∀ i, ∑ d, (starRingEnd ℂ) (epsilon d m i) * gradient sw E (fun x => dlog syms QGPS.sumOut epsilon x d m i) =
      ∑ r, ((sw r).map fun e => (starRingEnd ℂ) (∑ d, epsilon d m i * dlog syms QGPS.sumOut epsilon e.1 d m i) *
        ((e.2 : ℂ) * (E e.1 - mean sw E))).sum := by
    intro i
    unfold gradient
    simp only [Finset.mul_sum]
    rw [Finset.sum_comm]
    refine Finset.sum_congr rfl fun r _ => ?_
    generalize mean sw E = μ
    induction sw r with
    | nil => simp
    | cons e l ih =>
      simp only [List.map_cons, List.sum_cons, mul_add, Finset.sum_add_distrib, ih]
      congr 1
      rw [map_sum, Finset.sum_mul]
      exact Finset.sum_congr rfl fun d _ => by rw [map_mul]; ring
  beta_reduce
  rw [h, h]
  simp only [sum_default syms epsilon _ m i j]

variable {R K B : ℕ}

/-- The rows which `minSRVMC` uses are combinations of the log-derivatives. -/
theorem rows_balanced (rescale : Bool) (epsilon : Fin D → Fin M → Fin L → ℂ) (e : Fin D × Fin M × Fin L → Fin P)
    (O : MinSR.Sample R K B → Fin P → ℂ) (counts : MinSR.Sample R K B → ℝ)
    (hO : ∀ s m i j, ∑ d, epsilon d m i * O s (e (d, m, i)) = ∑ d, epsilon d m j * O s (e (d, m, j))) (s : MinSR.Sample R K B) (m : Fin M)
    (i j : Fin L) :
    ∑ d, epsilon d m i * rows rescale O counts s (e (d, m, i)) = ∑ d, epsilon d m j * rows rescale O counts s (e (d, m, j)) := by
  have h1 : ∀ s, ∑ d, epsilon d m i * MinSR.jacobian rescale O counts s (e (d, m, i)) =
      ∑ d, epsilon d m j * MinSR.jacobian rescale O counts s (e (d, m, j)) := by
    intro s
    have := hO s m i j
    cases rescale
    · exact this
    · simp only [MinSR.jacobian, if_true]
      have h := congrArg (fun z => (Real.sqrt (counts s) : ℂ) * z) this
      simp only [Finset.mul_sum] at h
      refine Eq.trans (Finset.sum_congr rfl fun d _ => ?_) (h.trans (Finset.sum_congr rfl fun d _ => ?_)) <;> ring
  have h2 : ∀ i, ∑ d, epsilon d m i * MinSR.oAvg (MinSR.jacobian rescale O counts) counts (e (d, m, i)) =
      MinSR.chunkSum fun s => (∑ d, epsilon d m i * MinSR.jacobian rescale O counts s (e (d, m, i))) * (counts s : ℂ) := by
    intro i
    unfold MinSR.oAvg MinSR.chunkSum
    simp only [Finset.mul_sum, Finset.sum_mul]
    rw [Finset.sum_comm]
    refine Finset.sum_congr rfl fun k _ => ?_
    rw [Finset.sum_comm]
    refine Finset.sum_congr rfl fun r _ => ?_
    rw [Finset.sum_comm]
    exact Finset.sum_congr rfl fun b _ => Finset.sum_congr rfl fun d _ => by ring
  simp only [rows, mul_sub, Finset.sum_sub_distrib, h2, h1]

/-- **C194**, `minSRVMC` in both modes for complex parameters; the parameters may be laid out in any way and other parameters may be optimised
at the same time. -/
theorem C194_minSR [Fintype ι] (syms : QGPS.Syms L D ι) (epsilon : Fin D → Fin M → Fin L → ℂ) (e : Fin D × Fin M × Fin L → Fin P)
    (x : MinSR.Sample R K B → Fin L → Fin D) (O : MinSR.Sample R K B → Fin P → ℂ)
    (hO : ∀ s d m i, O s (e (d, m, i)) = dlog syms QGPS.sumOut epsilon (x s) d m i) (E : MinSR.Sample R K B → ℂ)
    (solver : Matrix (Fin (K * R * B)) (Fin (K * R * B)) ℂ → (Fin (K * R * B) → ℂ) → (Fin (K * R * B) → ℂ))
    (hs : ∀ A b, LeastSquares A b (solver A b)) :
    Balanced epsilon (fun d m i => minSRHolomorphic solver O E (e (d, m, i))) ∧
    Balanced epsilon (fun d m i => minSRComplex solver O E (e (d, m, i))) := by
  have hO' : ∀ s m i j, ∑ d, epsilon d m i * O s (e (d, m, i)) = ∑ d, epsilon d m j * O s (e (d, m, j)) := by
    intro s m i j
    simp only [hO]
    exact sum_default syms epsilon (x s) m i j
  constructor
  · obtain ⟨y, h1, _⟩ := update_eq true solver O E MinSR.uniformCounts hs
    refine balanced_combination epsilon (fun s d m i => rows true O MinSR.uniformCounts s (e (d, m, i)))
      (rows_balanced true epsilon e O MinSR.uniformCounts hO') y _ fun d m i => ?_
    unfold minSRHolomorphic
    rw [h1]
    rfl
  · obtain ⟨y, h1, _⟩ := update_eq true solver (MinSR.splitRows O fun s k => Complex.I * O s k) E MinSR.uniformCounts hs
    set O2 := MinSR.splitRows O fun s k => Complex.I * O s k with hO2
    have hl : ∀ s k, O2 s (Fin.castAdd P k) = O s k := fun s k => by simp only [hO2, MinSR.splitRows, Fin.addCases_left]
    have hr : ∀ s k, O2 s (Fin.natAdd P k) = Complex.I * O s k := fun s k => by simp only [hO2, MinSR.splitRows, Fin.addCases_right]
    have hb1 := rows_balanced true epsilon (fun p => Fin.castAdd P (e p)) O2 MinSR.uniformCounts (by simpa only [hl] using hO')
    have hb2 := rows_balanced true epsilon (fun p => Fin.natAdd P (e p)) O2 MinSR.uniformCounts (by
      intro s m i j
      simp only [hr]
      have h := congrArg (fun z => Complex.I * z) (hO' s m i j)
      simp only [Finset.mul_sum] at h
      refine Eq.trans (Finset.sum_congr rfl fun d _ => ?_) (h.trans (Finset.sum_congr rfl fun d _ => ?_)) <;> ring)
    have c1 := balanced_combination epsilon (fun s d m i => rows true O2 MinSR.uniformCounts s (Fin.castAdd P (e (d, m, i)))) hb1 y _ fun d m i => rfl
    have c2 := balanced_combination epsilon (fun s d m i => rows true O2 MinSR.uniformCounts s (Fin.natAdd P (e (d, m, i)))) hb2 y _ fun d m i => rfl
    intro m i j
    unfold minSRComplex MinSR.reassemble
    rw [← hO2, h1]
    have e1 := c1 m i j
    have e2 := congrArg (fun z => Complex.I * z) (c2 m i j)
    simp only [Finset.mul_sum] at e2
    simp only [mul_add, Finset.sum_add_distrib]
    refine congrArg₂ (· + ·) e1 ?_
    refine Eq.trans (Finset.sum_congr rfl fun d _ => ?_) (e2.trans (Finset.sum_congr rfl fun d _ => ?_))
    · simp only [mulVec, dotProduct, conjTranspose_apply, Finset.mul_sum]
      exact Finset.sum_congr rfl fun s _ => by simp only [starRingEnd_apply]; ring
    · simp only [mulVec, dotProduct, conjTranspose_apply, Finset.mul_sum]
      exact Finset.sum_congr rfl fun s _ => by simp only [starRingEnd_apply]; ring

/-- **C194**, stochastic reconfiguration with any shift `lam` of the diagonal (as for NetKet's `SR`). -/
theorem C194_sr {S : Type} [Fintype S] [Fintype ι] (syms : QGPS.Syms L D ι) (epsilon : Fin D → Fin M → Fin L → ℂ)
    (e : Fin D × Fin M × Fin L → Fin P) (x : S → Fin L → Fin D) (O : S → Fin P → ℂ)
    (hO : ∀ s d m i, O s (e (d, m, i)) = dlog syms QGPS.sumOut epsilon (x s) d m i) (E : S → ℂ) (lam : ℂ) (hlam : lam ≠ 0) (v : Fin P → ℂ)
    (hv : ∀ k, ∑ l, srMatrix O k l * v l + lam * v k = srForce O E k) : Balanced epsilon fun d m i => v (e (d, m, i)) := by
  have hO' : ∀ s m i j, ∑ d, epsilon d m i * O s (e (d, m, i)) = ∑ d, epsilon d m j * O s (e (d, m, j)) := by
    intro s m i j
    simp only [hO]
    exact sum_default syms epsilon (x s) m i j
  let C : S → Fin P → ℂ := fun s k => O s k - sampleMean fun s => O s k
  have hC : ∀ s m i j, ∑ d, epsilon d m i * C s (e (d, m, i)) = ∑ d, epsilon d m j * C s (e (d, m, j)) := by
    intro s m i j
    have h2 : ∀ i, ∑ d, epsilon d m i * (sampleMean fun s => O s (e (d, m, i))) = sampleMean fun s => ∑ d, epsilon d m i * O s (e (d, m, i)) := by
      intro i
      unfold sampleMean
      simp only [Finset.sum_div, Finset.mul_sum]
      rw [Finset.sum_comm]
      exact Finset.sum_congr rfl fun s _ => Finset.sum_congr rfl fun d _ => by ring
    simp only [C, mul_sub, Finset.sum_sub_distrib, h2, hO' _ m i j]
  refine balanced_combination epsilon (fun s d m i => C s (e (d, m, i))) hC
    (fun s => ((E s - sampleMean E) - ∑ l, C s l * v l) / (Fintype.card S : ℂ) / lam) _ fun d m i => ?_
  have h := hv (e (d, m, i))
  have h3 : lam * v (e (d, m, i)) = ∑ s, (starRingEnd ℂ) (C s (e (d, m, i))) * (((E s - sampleMean E) - ∑ l, C s l * v l) / (Fintype.card S : ℂ)) := by
    rw [eq_sub_of_add_eq' h]
    have h4 : ∑ l, srMatrix O (e (d, m, i)) l * v l = ∑ s, (starRingEnd ℂ) (C s (e (d, m, i))) * ((∑ l, C s l * v l) / (Fintype.card S : ℂ)) := by
      have h5 : ∀ l, srMatrix O (e (d, m, i)) l = (∑ s, (starRingEnd ℂ) (C s (e (d, m, i))) * C s l) / (Fintype.card S : ℂ) := fun l => rfl
      simp only [h5, Finset.sum_div, Finset.sum_mul, Finset.mul_sum]
      rw [Finset.sum_comm]
      exact Finset.sum_congr rfl fun s _ => Finset.sum_congr rfl fun l _ => by ring
    have h6 : srForce O E (e (d, m, i)) = ∑ s, (starRingEnd ℂ) (C s (e (d, m, i))) * ((E s - sampleMean E) / (Fintype.card S : ℂ)) := by
      unfold srForce
      rw [sampleMean, Finset.sum_div]
      exact Finset.sum_congr rfl fun s _ => by simp only [C]; ring
    rw [h4, h6, ← Finset.sum_sub_distrib]
    exact Finset.sum_congr rfl fun s _ => by ring
  rw [← mul_right_inj' hlam, h3, Finset.mul_sum]
  refine Finset.sum_congr rfl fun s _ => ?_
  field_simp

/-- **C194**, stochastic reconfiguration without shift with the solver `pinv`, for any right-hand side. -/
theorem C194_pinv {S : Type} [Fintype S] [Fintype ι] (syms : QGPS.Syms L D ι) (epsilon : Fin D → Fin M → Fin L → ℂ)
    (e : Fin D × Fin M × Fin L → Fin P) (x : S → Fin L → Fin D) (O : S → Fin P → ℂ)
    (hO : ∀ s d m i, O s (e (d, m, i)) = dlog syms QGPS.sumOut epsilon (x s) d m i) (rcond : ℝ) (b v : Fin P → ℂ)
    (hs : Solvers.WellSeparated rcond (Matrix.of (srMatrix O))) (hv : Solvers.pinv rcond (.operator (Matrix.of (srMatrix O))) b = some (v, ())) :
    Balanced epsilon fun d m i => v (e (d, m, i)) := by
  intro m i j
  have hA : (Matrix.of (srMatrix O)).IsHermitian := by
    ext k l
    simp only [conjTranspose_apply, of_apply, srMatrix, sampleMean, star_div₀, star_sum, star_mul', Complex.star_def, Complex.conj_conj, map_natCast]
    congr 1
    exact Finset.sum_congr rfl fun s _ => mul_comm _ _
  obtain ⟨Q, hQ, hp⟩ := Solvers.C69_penrose rcond _ hA hs b
  rw [hp] at hv
  have hx : Q.mulVec b = v := congrArg Prod.fst (Option.some.inj hv)
  have horth : ∀ z : Fin P → ℂ, (Matrix.of (srMatrix O)).mulVec z = 0 → star z ⬝ᵥ v = 0 := by
    intro z hz
    have e1 : Q.mulVec b = (Q * Matrix.of (srMatrix O))ᴴ.mulVec (Q.mulVec b) := by
      rw [hQ.h4, Matrix.mulVec_mulVec, hQ.h2]
    rw [← hx, e1, Matrix.dotProduct_mulVec, ← Matrix.star_mulVec, ← Matrix.mulVec_mulVec, hz]
    simp
  let z : Fin P → ℂ := fun k => (∑ d, if e (d, m, i) = k then epsilon d m i else 0) - ∑ d, if e (d, m, j) = k then epsilon d m j else 0
  have hsum : ∀ (f : Fin P → ℂ), ∑ k, z k * f k = (∑ d, epsilon d m i * f (e (d, m, i))) - ∑ d, epsilon d m j * f (e (d, m, j)) := by
    intro f
    simp only [z, sub_mul, Finset.sum_sub_distrib, Finset.sum_mul]
    congr 1 <;>
    · rw [Finset.sum_comm]
      refine Finset.sum_congr rfl fun d _ => ?_
      simp only [ite_mul, zero_mul, Finset.sum_ite_eq, Finset.mem_univ, if_true]
  have hOz : ∀ s, ∑ k, z k * O s k = 0 := by
    intro s
    rw [hsum, sub_eq_zero]
    simp only [hO]
    exact sum_default syms epsilon (x s) m i j
  have hz : (Matrix.of (srMatrix O)).mulVec z = 0 := by
    funext k
    simp only [mulVec, dotProduct, of_apply, srMatrix, Pi.zero_apply]
    have h1 : ∀ s, ∑ l, z l * (O s l - sampleMean fun s => O s l) = 0 := by
      intro s
      simp only [mul_sub, Finset.sum_sub_distrib, hOz s, zero_sub, neg_eq_zero]
      unfold sampleMean
      simp only [Finset.sum_div, Finset.mul_sum]
      rw [Finset.sum_comm]
      refine Finset.sum_eq_zero fun s _ => ?_
      have := congrArg (· / (Fintype.card S : ℂ)) (hOz s)
      simp only [Finset.sum_div, zero_div] at this
      exact Eq.trans (Finset.sum_congr rfl fun l _ => by ring) this
    conv_lhs => unfold sampleMean
    simp only [Finset.sum_div, Finset.sum_mul]
    rw [Finset.sum_comm]
    refine Finset.sum_eq_zero fun s _ => ?_
    have := congrArg (fun y => (starRingEnd ℂ) (O s k - sampleMean fun s => O s k) / (Fintype.card S : ℂ) * y) (h1 s)
    simp only [Finset.mul_sum, mul_zero] at this
    refine Eq.trans (Finset.sum_congr rfl fun l _ => ?_) this
    simp only [sampleMean, Finset.sum_div]
    ring
  have h := congrArg (starRingEnd ℂ) (horth z hz)
  rw [map_zero, dotProduct, map_sum] at h
  have h2 := hsum fun k => (starRingEnd ℂ) (v k)
  rw [show ∑ k, z k * (starRingEnd ℂ) (v k) = 0 by
    rw [← h]
    refine Finset.sum_congr rfl fun k _ => ?_
    simp [Pi.star_apply], eq_comm, sub_eq_zero] at h2
  have h3 := congrArg (starRingEnd ℂ) h2
  simpa only [map_sum, map_mul, Complex.conj_conj] using h3

/-- **C194**, what it means: in a step of `Sgd` with a balanced update, the difference of the lengths of the parameters of a support point at
two sites changes only in second order of the learning rate, and by an explicit amount. -/
theorem C194_norms (epsilon v : Fin D → Fin M → Fin L → ℂ) (hb : Balanced epsilon v) (lr : ℝ) (m : Fin M) (i j : Fin L) :
    (∑ d, ‖epsilon d m i - lr * v d m i‖ ^ 2) - ∑ d, ‖epsilon d m j - lr * v d m j‖ ^ 2 =
      ((∑ d, ‖epsilon d m i‖ ^ 2) - ∑ d, ‖epsilon d m j‖ ^ 2) + lr ^ 2 * ((∑ d, ‖v d m i‖ ^ 2) - ∑ d, ‖v d m j‖ ^ 2) := by
  have h : ∀ i, ∑ d, ‖epsilon d m i - lr * v d m i‖ ^ 2 = (∑ d, ‖epsilon d m i‖ ^ 2) -
      2 * lr * (∑ d, (starRingEnd ℂ) (epsilon d m i) * v d m i).re + lr ^ 2 * ∑ d, ‖v d m i‖ ^ 2 := by
    intro i
    rw [Complex.re_sum, Finset.mul_sum, Finset.mul_sum, ← Finset.sum_sub_distrib, ← Finset.sum_add_distrib]
    refine Finset.sum_congr rfl fun d _ => ?_
    simp only [← Complex.normSq_eq_norm_sq, Complex.normSq_apply, Complex.sub_re, Complex.sub_im, Complex.im_ofReal_mul,
      Complex.mul_re, Complex.conj_re, Complex.conj_im, Complex.ofReal_re, Complex.ofReal_im]
    ring
  rw [h, h, hb m i j]
  ring

/-- every sample has such rows, in the order of the flattened array -/
example [Fintype ι] (syms : QGPS.Syms L D ι) (epsilon : Fin D → Fin M → Fin L → ℂ) (x : MinSR.Sample R K B → Fin L → Fin D) :
    ∃ (e : Fin D × Fin M × Fin L ≃ Fin (D * (M * L))) (O : MinSR.Sample R K B → Fin (D * (M * L)) → ℂ),
      ∀ s d m i, O s (e (d, m, i)) = dlog syms QGPS.sumOut epsilon (x s) d m i :=
  let e : Fin D × Fin M × Fin L ≃ Fin (D * (M * L)) := (Equiv.prodCongr (Equiv.refl _) finProdFinEquiv).trans finProdFinEquiv
  ⟨e, fun s k => dlog syms QGPS.sumOut epsilon (x s) (e.symm k).1 (e.symm k).2.1 (e.symm k).2.2, fun s d m i => by simp⟩

/-- a balanced update that is not zero, and one that is not balanced -/
example : Balanced (fun (_ : Fin 2) (_ : Fin 1) (i : Fin 2) => if i = 0 then 1 else 2) (fun _ _ i => if i = 0 then 2 else 1) ∧
    ¬ Balanced (fun (_ : Fin 2) (_ : Fin 1) (i : Fin 2) => if i = 0 then 1 else 2) (fun _ _ _ => 1) := by
  constructor
  · intro m i j
    fin_cases i <;> fin_cases j <;> simp [Complex.conj_ofNat]
  · intro h
    have := h 0 0 1
    norm_num [Complex.conj_ofNat] at this

end GPSKet.Balance
