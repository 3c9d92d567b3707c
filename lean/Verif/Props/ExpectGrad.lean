import Verif.Model.ExpectGrad
import Verif.Props.Expect
import Verif.Props.Descent
import Verif.Props.SampledEnergy

/-!
# Property C166: `expect_and_grad` of unique-sample states reports energy, variance and gradient of the energy for every chunk size,
# distribution over ranks and differentiable model
-/

namespace GPSKet.ExpectGrad

open GPSKet.Spec GPSKet.Props GPSKet.Expect GPSKet.EnergyGradient GPSKet.Descent

variable {ρ γ X : Type} {ranks ranks' : ℕ}

/-! ## Vector-Jacobian products -/

theorem vjp_nil (mixed : Bool) (d : Derivs ρ γ X) : vjp mixed d [] = ⟨0, 0⟩ := by
  ext k <;> simp [vjp]

theorem vjp_append (mixed : Bool) (d : Derivs ρ γ X) (l l' : List (X × ℂ)) :
    vjp mixed d (l ++ l') = (vjp mixed d l).add (vjp mixed d l') := by
  ext k
  · simp only [vjp, Cotangent.add, Pi.add_apply, List.map_append, List.sum_append]
    split_ifs <;> simp
  · simp only [vjp, Cotangent.add, Pi.add_apply, List.map_append, List.sum_append, Complex.add_re, Complex.ofReal_add, map_sub, map_add, map_mul]
    ring

theorem foldr_vjp (mixed : Bool) (d : Derivs ρ γ X) (ls : List (List (X × ℂ))) :
    (ls.map (vjp mixed d)).foldr Cotangent.add ⟨0, 0⟩ = vjp mixed d ls.flatten := by
  induction ls with
  | nil => simp [vjp_nil]
  | cons l ls ih => rw [List.map_cons, List.foldr_cons, ih, List.flatten_cons, vjp_append]

/-- Chunks make no difference for the products. -/
theorem vjpChunked_eq (mixed : Bool) (d : Derivs ρ γ X) (c : ℕ) (hc : c ≠ 0) (l : List (X × ℂ)) :
    vjpChunked mixed d c l = some (vjp mixed d l) := by
  unfold vjpChunked
  rw [if_neg hc]
  split_ifs with h1
  · rfl
  · dsimp only
    have hle := Nat.mod_le l.length c
    have hmul : (l.take (l.length - l.length % c)).length % c = 0 := by
      rw [List.length_take, min_eq_left (by omega)]
      have := Nat.div_add_mod l.length c
      have e : l.length - l.length % c = c * (l.length / c) := by omega
      rw [e]
      exact Nat.mul_mod_right _ _
    rw [foldr_vjp, blocks_flatten c _ hmul]
    split_ifs with h2
    · rw [h2, Nat.sub_zero, List.take_length]
    · rw [← vjp_append, List.take_append_drop]

/-- The gradient with respect to real entry `k`: `2 Re ∑ p O* (E - mean)`. -/
noncomputable def realFormula (d : Derivs ρ γ X) (kernel : X → ℂ) (mean : ℂ) (l : List (X × ℝ)) (k : ρ) : ℝ :=
  2 * (l.map fun e => (e.2 : ℂ) * ((starRingEnd ℂ) (d.real k e.1) * (kernel e.1 - mean))).sum.re

/-- The gradient with respect to complex entry `k`, with the derivatives `∂ = (∂x - i ∂y)/2` and `∂' = (∂x + i ∂y)/2` of the log-amplitudes:
`∑ p (∂* (E - mean) + ∂' (E - mean)*)`. -/
noncomputable def complexFormula (d : Derivs ρ γ X) (kernel : X → ℂ) (mean : ℂ) (l : List (X × ℝ)) (k : γ) : ℂ :=
  (l.map fun e => (e.2 : ℂ) * ((starRingEnd ℂ) ((d.re k e.1 - Complex.I * d.im k e.1) / 2) * (kernel e.1 - mean)
    + (d.re k e.1 + Complex.I * d.im k e.1) / 2 * (starRingEnd ℂ) (kernel e.1 - mean))).sum

theorem sum_map_re (l : List (X × ℝ)) (f : X × ℝ → ℂ) : (l.map f).sum.re = (l.map fun e => (f e).re).sum := by
  induction l with
  | nil => simp
  | cons e l ih => simp [ih]

theorem zip_samples (l : List (X × ℝ)) (kernel : X → ℂ) (mean : ℂ) :
    (l.map Prod.fst).zip ((List.zipWith (fun (p : ℝ) v => (p : ℂ) * (v - mean)) (l.map Prod.snd) ((l.map Prod.fst).map kernel)).map (starRingEnd ℂ))
      = l.map fun e => (e.1, (starRingEnd ℂ) ((e.2 : ℂ) * (kernel e.1 - mean))) := by
  induction l with
  | nil => rfl
  | cons e l ih =>
    simp only [List.map_cons, List.zipWith_cons_cons, List.zip_cons_cons, ih]

theorem zipWith_map (g : ℝ → ℂ → Y) (l : List (X × ℝ)) (kernel : X → ℂ) :
    List.zipWith g (l.map Prod.snd) ((l.map Prod.fst).map kernel) = l.map fun e => g e.2 (kernel e.1) := by
  induction l with
  | nil => rfl
  | cons e l ih => simp only [List.map_cons, List.zipWith_cons_cons, ih]

theorem real_parts (w a b : ℂ) : (((starRingEnd ℂ) w * a).re : ℂ) + Complex.I * (((starRingEnd ℂ) w * b).re : ℂ)
    = (starRingEnd ℂ) ((a - Complex.I * b) / 2) * w + (a + Complex.I * b) / 2 * (starRingEnd ℂ) w := by
  rw [Complex.re_eq_add_conj, Complex.re_eq_add_conj]
  simp only [map_mul, map_sub, map_div₀, Complex.conj_conj, Complex.conj_I, Complex.conj_ofNat]
  ring

theorem cast_vjp (mixed : Bool) (d : Derivs ρ γ X) (kernel : X → ℂ) (mean : ℂ) (l : List (X × ℝ)) :
    cast (vjp mixed d (l.map fun e => (e.1, (starRingEnd ℂ) ((e.2 : ℂ) * (kernel e.1 - mean)))))
      = ⟨realFormula d kernel mean l, complexFormula d kernel mean l⟩ := by
  ext k
  · unfold cast realFormula vjp
    dsimp only
    have h : (l.map fun e => (e.2 : ℂ) * ((starRingEnd ℂ) (d.real k e.1) * (kernel e.1 - mean))).sum.re =
        (((l.map fun e => (e.1, (starRingEnd ℂ) ((e.2 : ℂ) * (kernel e.1 - mean)))).map fun e => e.2 * d.real k e.1).sum).re := by
      rw [List.map_map, sum_map_re, sum_map_re]
      congr 1
      refine List.map_congr_left fun e _ => ?_
      simp only [Function.comp_apply, map_mul, Complex.conj_ofReal, Complex.mul_re, Complex.conj_re, Complex.conj_im,
        Complex.ofReal_re, Complex.ofReal_im, Complex.mul_im]
      ring
    rw [h]
    split_ifs
    · rw [Complex.ofReal_re]
    · rw [Complex.conj_re]
  · unfold cast complexFormula vjp
    dsimp only
    induction l with
    | nil => simp
    | cons e l ih =>
      have h : (e.2 : ℂ) * ((starRingEnd ℂ) ((d.re k e.1 - Complex.I * d.im k e.1) / 2) * (kernel e.1 - mean)
          + (d.re k e.1 + Complex.I * d.im k e.1) / 2 * (starRingEnd ℂ) (kernel e.1 - mean)) =
          (starRingEnd ℂ) ((d.re k e.1 - Complex.I * d.im k e.1) / 2) * ((e.2 : ℂ) * (kernel e.1 - mean))
          + (d.re k e.1 + Complex.I * d.im k e.1) / 2 * (starRingEnd ℂ) ((e.2 : ℂ) * (kernel e.1 - mean)) := by
        rw [map_mul (starRingEnd ℂ) (e.2 : ℂ), Complex.conj_ofReal]
        ring
      simp only [List.map_cons, List.sum_cons, ← ih, h, Complex.add_re, Complex.ofReal_add]
      rw [← real_parts]
      simp only [map_sub, map_add, map_mul, Complex.conj_ofReal, Complex.conj_I]
      ring

/-- C166: for every positive chunk size and without one, mean, variance and all entries of the gradient are given by the sums
over the samples of all ranks: with weights `p` and local values `E`, `∑ p E`, `∑ p |E - mean|²`, `2 Re ∑ p O* (E - mean)` for real entries,
and `∑ p (∂* (E - mean) + ∂' (E - mean)*)` for complex ones. -/
theorem C166_formula (mixed : Bool) (kernel : X → ℂ) (d : Derivs ρ γ X) (chunk_size : Option ℕ) (hc : chunk_size ≠ some 0)
    (sw : Fin ranks → List (X × ℝ)) :
    let mean := ∑ r, ((sw r).map fun e => (e.2 : ℂ) * kernel e.1).sum
    expectAndGrad mixed kernel d chunk_size sw = some
      { mean := mean
        variance := ∑ r, ((sw r).map fun e => e.2 * ‖kernel e.1 - mean‖ ^ 2).sum
        grad :=
          { real := fun k => ∑ r, realFormula d kernel mean (sw r) k
            complex := fun k => ∑ r, complexFormula d kernel mean (sw r) k } } := by
  intro mean
  unfold expectAndGrad
  have hg : ∀ l m, rankGradient mixed d chunk_size (l.map Prod.fst) (l.map Prod.snd) ((l.map Prod.fst).map kernel) m
      = some ⟨realFormula d kernel m l, complexFormula d kernel m l⟩ := by
    intro l m
    unfold rankGradient
    dsimp only
    rw [zip_samples]
    cases chunk_size with
    | none => dsimp only; rw [Option.map_some, cast_vjp]
    | some c => dsimp only; rw [vjpChunked_eq mixed d c (fun h => hc (by rw [h])), Option.map_some, cast_vjp]
  simp only [C163_chunks kernel chunk_size hc, Option.isSome_some, implies_true, dite_true, Option.get_some, zipWith_map, hg]
  rfl

/-- C166: a chunk size of zero is refused. -/
theorem C166_zero_chunk [NeZero ranks] (mixed : Bool) (kernel : X → ℂ) (d : Derivs ρ γ X) (sw : Fin ranks → List (X × ℝ)) :
    expectAndGrad mixed kernel d (some 0) sw = none := by
  unfold expectAndGrad
  rw [dif_neg]
  intro h
  have := h 0
  simp [vmapChunked] at this

theorem sum_ranks {M : Type} [AddCommMonoid M] (sw : Fin ranks → List (X × ℝ)) (f : X × ℝ → M) :
    ∑ r, ((sw r).map f).sum = (((List.ofFn sw).flatten).map f).sum := by
  rw [List.map_flatten, List.sum_flatten, List.map_map, List.map_ofFn, List.sum_ofFn]
  rfl

/-- C166, distribution over ranks: the same samples with the same weights give the same results, on any number of ranks, in any order, and
with any two chunk sizes, in a pure or a mixed tree of parameters. -/
theorem C166_ranks (mixed mixed' : Bool) (kernel : X → ℂ) (d : Derivs ρ γ X) (chunk_size chunk_size' : Option ℕ)
    (hc : chunk_size ≠ some 0) (hc' : chunk_size' ≠ some 0) (sw : Fin ranks → List (X × ℝ)) (sw' : Fin ranks' → List (X × ℝ))
    (h : ((List.ofFn sw).flatten).Perm (List.ofFn sw').flatten) :
    expectAndGrad mixed kernel d chunk_size sw = expectAndGrad mixed' kernel d chunk_size' sw' := by
  have hsum : ∀ {M : Type} [AddCommMonoid M] (f : X × ℝ → M), ∑ r, ((sw r).map f).sum = ∑ r, ((sw' r).map f).sum := by
    intro M _ f
    rw [sum_ranks, sum_ranks]
    exact (h.map f).sum_eq
  rw [C166_formula mixed kernel d chunk_size hc, C166_formula mixed' kernel d chunk_size' hc']
  have hmean := hsum fun e => (e.2 : ℂ) * kernel e.1
  rw [← hmean]
  congr 2
  · exact hsum _
  · congr 1
    · funext k
      unfold realFormula
      rw [← Finset.mul_sum, ← Finset.mul_sum, ← Complex.re_sum, ← Complex.re_sum, hsum]
    · funext k
      exact hsum _

/-! ## The gradient of the energy -/

/-- The parameters: real and complex entries. -/
abbrev Params (ρ γ : Type) := (ρ → ℝ) × (γ → ℂ)

/-- `g` is the gradient of the energy: in every direction `v` of the parameters the derivative of the energy is
`∑ v_k g_k` over the real entries plus `2 Re ∑ v_k* g_k` over the complex ones, so `g_k` is the derivative for real entries and half of
`∂x + i ∂y` for complex entries. -/
def IsGradient [Fintype ρ] [Fintype γ] (energy : Params ρ γ → ℂ) (θ : Params ρ γ) (g : Gradient ρ γ) : Prop :=
  ∀ v : Params ρ γ, HasDerivAt (fun t : ℝ => energy (θ + t • v))
    ((∑ k, v.1 k * g.real k + 2 * (∑ k, (starRingEnd ℂ) (v.2 k) * g.complex k).re : ℝ) : ℂ) 0

/-- The derivatives of the log-amplitudes of a differentiable family of states, from the derivatives `D` of the amplitudes `psi`. -/
noncomputable def logDerivs [DecidableEq ρ] [DecidableEq γ] {C : Type} (psi : C → ℂ) (D : C → Params ρ γ → ℂ) : Derivs ρ γ C where
  real k x := D x (Pi.single k 1, 0) / psi x
  re k x := D x (0, Pi.single k 1) / psi x
  im k x := D x (0, Pi.single k Complex.I) / psi x

theorem complexFormula_re (d : Derivs ρ γ X) (kernel : X → ℂ) (mean : ℂ) (l : List (X × ℝ)) (k : γ) :
    (complexFormula d kernel mean l k).re = (l.map fun e => (e.2 : ℂ) * ((starRingEnd ℂ) (d.re k e.1) * (kernel e.1 - mean))).sum.re := by
  unfold complexFormula
  rw [sum_map_re, sum_map_re]
  congr 1
  refine List.map_congr_left fun e _ => ?_
  rw [Complex.re_ofReal_mul, Complex.re_ofReal_mul, ← real_parts]
  simp
  left; ring

theorem complexFormula_im (d : Derivs ρ γ X) (kernel : X → ℂ) (mean : ℂ) (l : List (X × ℝ)) (k : γ) :
    (complexFormula d kernel mean l k).im = (l.map fun e => (e.2 : ℂ) * ((starRingEnd ℂ) (d.im k e.1) * (kernel e.1 - mean))).sum.re := by
  have him : ∀ f : X × ℝ → ℂ, (l.map f).sum.im = (l.map fun e => (f e).im).sum := by
    intro f
    induction l with
    | nil => simp
    | cons e l ih => simp [ih]
  unfold complexFormula
  rw [him, sum_map_re]
  congr 1
  refine List.map_congr_left fun e _ => ?_
  rw [Complex.im_ofReal_mul, Complex.re_ofReal_mul, ← real_parts]
  simp
  left; ring

section Energy

variable {C : Type} [Fintype C] [DecidableEq C] [Fintype ρ] [Fintype γ] [DecidableEq ρ] [DecidableEq γ]

open UniqueSamples

omit [Fintype C] in
theorem realGradient_eq (sw : Fin ranks → List (C × ℝ)) (loc O : C → ℂ) :
    realGradient sw loc O = 2 * ∑ r, ((sw r).map fun e => (e.2 : ℂ) * ((starRingEnd ℂ) (O e.1) * (loc e.1 - UniqueSamples.mean sw loc))).sum.re := by
  unfold realGradient gradient
  rw [← Complex.re_sum]
  congr 2
  refine Finset.sum_congr rfl fun r _ => ?_
  congr 1
  exact List.map_congr_left fun e _ => by ring

omit [Fintype C] in
theorem realGradient_add (sw : Fin ranks → List (C × ℝ)) (loc O O' : C → ℂ) :
    realGradient sw loc (fun c => O c + O' c) = realGradient sw loc O + realGradient sw loc O' := by
  rw [realGradient_eq, realGradient_eq, realGradient_eq, ← mul_add, ← Finset.sum_add_distrib]
  congr 1
  refine Finset.sum_congr rfl fun r _ => ?_
  rw [sum_map_re, sum_map_re, sum_map_re, ← List.sum_map_add]
  congr 1
  refine List.map_congr_left fun e _ => ?_
  rw [map_add, ← Complex.add_re]
  congr 1; ring

omit [Fintype C] in
theorem realGradient_smul (sw : Fin ranks → List (C × ℝ)) (loc O : C → ℂ) (a : ℝ) :
    realGradient sw loc (fun c => (a : ℂ) * O c) = a * realGradient sw loc O := by
  have h : ∀ l : List (C × ℝ), (l.map fun e => (e.2 : ℂ) * ((starRingEnd ℂ) ((a : ℂ) * O e.1) * (loc e.1 - UniqueSamples.mean sw loc))).sum.re
      = a * (l.map fun e => (e.2 : ℂ) * ((starRingEnd ℂ) (O e.1) * (loc e.1 - UniqueSamples.mean sw loc))).sum.re := by
    intro l
    rw [sum_map_re, sum_map_re, ← List.sum_map_mul_left]
    congr 1
    refine List.map_congr_left fun e _ => ?_
    rw [map_mul, Complex.conj_ofReal, ← Complex.re_ofReal_mul]
    congr 1; ring
  rw [realGradient_eq, realGradient_eq]
  simp only [h]
  rw [← Finset.mul_sum]
  ring

omit [Fintype C] in
theorem realGradient_sum {κ : Type} (s : Finset κ) (sw : Fin ranks → List (C × ℝ)) (loc : C → ℂ) (O : κ → C → ℂ) :
    realGradient sw loc (fun c => ∑ k ∈ s, O k c) = ∑ k ∈ s, realGradient sw loc (O k) := by
  classical
  induction s using Finset.induction_on with
  | empty =>
    simp only [Finset.sum_empty]
    rw [realGradient_eq]
    simp
  | insert k s hk ih =>
    simp only [Finset.sum_insert hk]
    rw [realGradient_add, ih]

theorem split_params (D : Params ρ γ →L[ℝ] ℂ) (v : Params ρ γ) :
    D v = ∑ k, (v.1 k : ℂ) * D (Pi.single k 1, 0) +
      ∑ k, (((v.2 k).re : ℂ) * D (0, Pi.single k 1) + ((v.2 k).im : ℂ) * D (0, Pi.single k Complex.I)) := by
  have hv : v = ∑ k, v.1 k • ((Pi.single k 1, 0) : Params ρ γ) +
      ∑ k, ((v.2 k).re • ((0, Pi.single k 1) : Params ρ γ) + (v.2 k).im • ((0, Pi.single k Complex.I) : Params ρ γ)) := by
    refine Prod.ext ?_ ?_
    · funext j
      simp [Prod.fst_sum, Finset.sum_apply, Pi.single_apply]
    · funext j
      simp only [Prod.snd_add, Prod.snd_sum, Prod.smul_snd, smul_zero, Finset.sum_const_zero, Finset.sum_apply, Pi.add_apply,
        Pi.smul_apply, Pi.single_apply, smul_ite]
      simp only [Finset.sum_add_distrib, Finset.sum_ite_eq, Finset.mem_univ, if_true]
      simp
  conv_lhs => rw [hv]
  simp only [map_add, map_sum, map_smul, Complex.real_smul]

/-- C166, gradient of the energy: if the weights of the samples are the Born probabilities, `expect_and_grad` reports the energy and its
gradient, for every tree of real and complex parameters, whether or not the amplitudes depend holomorphically on the complex ones, every chunk
size and distribution over ranks.  (Where an amplitude vanishes its derivative has to vanish, see `C133_zero_fails`.) -/
theorem C166_energy (mixed : Bool) (H : C → C → ℂ) (hH : Hermitian H) (psi : Params ρ γ → C → ℂ) (θ : Params ρ γ)
    (D : C → Params ρ γ →L[ℝ] ℂ) (hd : ∀ c, HasFDerivAt (fun θ => psi θ c) (D c) θ) (hn : bornNorm (psi θ) ≠ 0)
    (h0 : ∀ c, psi θ c = 0 → D c = 0) (sw : Fin ranks → List (C × ℝ)) (hb : Born sw (psi θ)) (kernel : C → ℂ)
    (hk : ∀ r, ∀ e ∈ sw r, kernel e.1 = localValue H (psi θ) e.1) (chunk_size : Option ℕ) (hc : chunk_size ≠ some 0) :
    ∃ res, expectAndGrad mixed kernel (logDerivs (psi θ) fun c => D c) chunk_size sw = some res ∧
      res.mean = rayleigh H (psi θ) ∧ IsGradient (fun θ => rayleigh H (psi θ)) θ res.grad := by
  have hmean : (∑ r, ((sw r).map fun e => (e.2 : ℂ) * kernel e.1).sum) = UniqueSamples.mean sw (localValue H (psi θ)) := by
    unfold UniqueSamples.mean
    refine Finset.sum_congr rfl fun r _ => ?_
    congr 1
    exact List.map_congr_left fun e he => by rw [hk r e he]
  refine ⟨_, C166_formula mixed kernel _ chunk_size hc sw, ?_, ?_⟩
  · exact hmean.trans (C133_mean sw H (psi θ) hb)
  · intro v
    have hdir : ∀ c, HasDerivAt (fun t : ℝ => psi (θ + t • v) c) (D c v) 0 := by
      intro c
      have hline : HasDerivAt (fun t : ℝ => θ + t • v) v 0 := by
        have := ((hasDerivAt_id (0 : ℝ)).smul_const v).const_add θ
        simpa using this
      have h' : HasFDerivAt (fun θ => psi θ c) (D c) (θ + (0 : ℝ) • v) := by simpa using hd c
      exact h'.comp_hasDerivAt (0 : ℝ) hline
    have hz : θ + (0 : ℝ) • v = θ := by simp
    have key := C133_real_partial sw H hH (fun t c => psi (θ + t • v) c) (fun c => D c v) 0 hdir (by simpa only [hz] using hn)
      (by simpa only [hz] using hb) (fun c h => by rw [h0 c (by simpa only [hz] using h)]; rfl)
    simp only [hz] at key
    refine key.congr_deriv ?_
    congr 1
    have hsplit : (fun c => D c v / psi θ c) = fun c =>
        (∑ k, (v.1 k : ℂ) * ((logDerivs (psi θ) fun c => D c).real k c)) +
        ∑ k, (((v.2 k).re : ℂ) * ((logDerivs (psi θ) fun c => D c).re k c) + ((v.2 k).im : ℂ) * ((logDerivs (psi θ) fun c => D c).im k c)) := by
      funext c
      rw [split_params (D c) v, add_div, Finset.sum_div, Finset.sum_div]
      simp only [logDerivs, add_div, mul_div_assoc]
    rw [hsplit, realGradient_add, realGradient_sum, realGradient_sum]
    simp only [realGradient_add, realGradient_smul]
    have hform : ∀ (O : C → ℂ), realGradient sw (localValue H (psi θ)) O =
        2 * ∑ r, ((sw r).map fun e => (e.2 : ℂ) * ((starRingEnd ℂ) (O e.1) *
          (kernel e.1 - ∑ r, ((sw r).map fun e => (e.2 : ℂ) * kernel e.1).sum))).sum.re := by
      intro O
      rw [realGradient_eq, hmean]
      congr 1
      refine Finset.sum_congr rfl fun r _ => ?_
      congr 2
      exact List.map_congr_left fun e he => by rw [hk r e he]
    congr 1
    · refine Finset.sum_congr rfl fun k _ => ?_
      rw [hform]
      unfold realFormula
      rw [← Finset.mul_sum]
    · rw [Complex.re_sum, Finset.mul_sum]
      refine Finset.sum_congr rfl fun k _ => ?_
      rw [hform, hform]
      simp only [Complex.mul_re, Complex.conj_re, Complex.conj_im, Complex.re_sum, Complex.im_sum, complexFormula_re, complexFormula_im]
      ring

omit [DecidableEq ρ] [DecidableEq γ] in
/-- C166: the reported gradient is zero exactly at stationary points of the energy; otherwise every sufficiently small step against it
lowers the energy. -/
theorem C166_descent (energy : Params ρ γ → ℂ) (θ : Params ρ γ) (g : Gradient ρ γ) (h : IsGradient energy θ g) :
    ((g.real = 0 ∧ g.complex = 0) ↔ ∀ v : Params ρ γ, HasDerivAt (fun t : ℝ => energy (θ + t • v)) 0 0) ∧
    (¬ (g.real = 0 ∧ g.complex = 0) → Lowers fun η => energy (θ - η • (g.real, g.complex))) := by
  have hsq : ∀ g : Gradient ρ γ, (∑ k, g.real k * g.real k + 2 * (∑ k, (starRingEnd ℂ) (g.complex k) * g.complex k).re)
      = ∑ k, g.real k ^ 2 + 2 * ∑ k, ‖g.complex k‖ ^ 2 := by
    intro g
    rw [Complex.re_sum]
    congr 1
    · exact Finset.sum_congr rfl fun k _ => by ring
    · congr 1
      refine Finset.sum_congr rfl fun k _ => ?_
      rw [mul_comm, Complex.mul_conj, Complex.ofReal_re, Complex.normSq_eq_norm_sq]
  have hzero : (∑ k, g.real k ^ 2 + 2 * ∑ k, ‖g.complex k‖ ^ 2) = 0 → g.real = 0 ∧ g.complex = 0 := by
    intro he
    have h1 : 0 ≤ ∑ k, g.real k ^ 2 := Finset.sum_nonneg fun k _ => sq_nonneg _
    have h2 : 0 ≤ ∑ k, ‖g.complex k‖ ^ 2 := Finset.sum_nonneg fun k _ => sq_nonneg _
    have e1 : ∑ k, g.real k ^ 2 = 0 := by linarith
    have e2 : ∑ k, ‖g.complex k‖ ^ 2 = 0 := by linarith
    rw [Finset.sum_eq_zero_iff_of_nonneg fun k _ => sq_nonneg _] at e1 e2
    exact ⟨funext fun k => pow_eq_zero_iff (two_ne_zero) |>.1 (e1 k (Finset.mem_univ k)),
      funext fun k => norm_eq_zero.1 (pow_eq_zero_iff (two_ne_zero) |>.1 (e2 k (Finset.mem_univ k)))⟩
  refine ⟨⟨fun hg v => ?_, fun hs => ?_⟩, fun hg => ?_⟩
  · have := h v
    rw [hg.1, hg.2] at this
    simpa using this
  · have e := (h (g.real, g.complex)).unique (hs (g.real, g.complex))
    rw [Complex.ofReal_eq_zero, hsq g] at e
    exact hzero e
  · have hd := h (-(g.real, g.complex))
    refine lowers_of_deriv (a := ∑ k, g.real k ^ 2 + 2 * ∑ k, ‖g.complex k‖ ^ 2) ?_ ?_
    · have e : (fun η : ℝ => energy (θ - η • (g.real, g.complex))) = fun η : ℝ => energy (θ + η • -(g.real, g.complex)) := by
        funext η
        rw [smul_neg, sub_eq_add_neg]
      rw [e]
      refine hd.congr_deriv ?_
      congr 1
      rw [← hsq g]
      simp [Finset.sum_neg_distrib]
      ring
    · refine lt_of_le_of_ne ?_ fun he => hg (hzero he.symm)
      exact add_nonneg (Finset.sum_nonneg fun k _ => sq_nonneg _) (mul_nonneg (by norm_num) (Finset.sum_nonneg fun k _ => sq_nonneg _))

end Energy

/-! ## Fermionic Hamiltonians -/

section Fermions

variable {L : ℕ} {Cache : Type} [Fintype ρ] [Fintype γ] [DecidableEq ρ] [DecidableEq γ]

theorem represents_conserves {op : FermionOp L} {H : Cfg L → Cfg L → ℂ} (hH : Represents op H) :
    ∀ s x y, numElec s x ≠ numElec s y → H x y = 0 := by
  intro s x y h
  cases hH with
  | hubbard U edges hne => exact SampledEnergy.hubbard_conserves U edges s x y h
  | abInitio sparse t e hsym =>
    show 1 / 2 * abInitioTwice t e (occOf x) (occOf y) = 0
    rw [SampledEnergy.abInitio_conserves t e s x y h, mul_zero]

/-- C166 for the fermionic Hamiltonians: with Born weights on the configurations with the electron numbers of the Hilbert space, for models
with and without fast updates, `expect_and_grad` reports the energy of the state and its gradient. -/
theorem C166_fermions (mixed : Bool) (op : FermionOp L) (H : Cfg L → Cfg L → ℂ) (hrep : Represents op H) (hH : Hermitian H) (n : ℕ × ℕ)
    (hne : ∃ x : Cfg L, (numElec false x, numElec true x) = n)
    (logpsi : Params ρ γ → Cfg L → ℂ) (θ : Params ρ γ) (D : Cfg L → Params ρ γ →L[ℝ] ℂ)
    (hd : ∀ c, HasFDerivAt (fun θ => logpsi θ c) (D c) θ)
    (model : FastModel (Fin L) (Fin 4) Cache) (hm : model.full = logpsi θ) (apply_fast_update : Option Bool)
    (sw : Fin ranks → List (Cfg L × ℝ)) (hsec : ∀ r, ∀ e ∈ sw r, (numElec false e.1, numElec true e.1) = n)
    (hf : ∀ r, ∀ e ∈ sw r, FastOk model apply_fast_update e.1) (hb : Born sw (sectorState (logpsi θ) n))
    (chunk_size : Option ℕ) (hc : chunk_size ≠ some 0) :
    ∃ res, expectAndGrad mixed (op.kernel n (source model apply_fast_update))
        { real := fun k x => D x (Pi.single k 1, 0), re := fun k x => D x (0, Pi.single k 1), im := fun k x => D x (0, Pi.single k Complex.I) }
        chunk_size sw = some res ∧
      res.mean = rayleigh H (sectorState (logpsi θ) n) ∧
      IsGradient (fun θ => rayleigh H (sectorState (logpsi θ) n)) θ res.grad := by
  classical
  set D' : Cfg L → Params ρ γ →L[ℝ] ℂ := fun c =>
    if (numElec false c, numElec true c) = n then Complex.exp (logpsi θ c) • D c else 0 with hD'
  have hd' : ∀ c, HasFDerivAt (fun θ => sectorState (logpsi θ) n c) (D' c) θ := by
    intro c
    by_cases hx : (numElec false c, numElec true c) = n
    · simp only [sectorState, hD', if_pos hx]
      exact (hd c).cexp
    · simp only [sectorState, hD', if_neg hx]
      exact hasFDerivAt_const _ _
  have hne' : bornNorm (sectorState (logpsi θ) n) ≠ 0 := by
    obtain ⟨x, hx⟩ := hne
    unfold bornNorm
    intro h
    rw [Finset.sum_eq_zero_iff_of_nonneg fun k _ => sq_nonneg _] at h
    have := norm_eq_zero.1 (pow_eq_zero_iff (two_ne_zero) |>.1 (h x (Finset.mem_univ x)))
    rw [sectorState, if_pos hx] at this
    exact Complex.exp_ne_zero _ this
  have h0 : ∀ c, sectorState (logpsi θ) n c = 0 → D' c = 0 := by
    intro c h
    by_cases hx : (numElec false c, numElec true c) = n
    · rw [sectorState, if_pos hx] at h
      exact absurd h (Complex.exp_ne_zero _)
    · simp only [hD', if_neg hx]
  have hk : ∀ r, ∀ e ∈ sw r, op.kernel n (source model apply_fast_update) e.1 = localValue H (sectorState (logpsi θ) n) e.1 := by
    intro r e he
    have hx := hsec r e he
    have hx1 : numElec false e.1 = n.1 ∧ numElec true e.1 = n.2 := ⟨congrArg Prod.fst hx, congrArg Prod.snd hx⟩
    rw [kernel_eq op H hrep model apply_fast_update n e.1 hx1 (hf r e he), hm]
    unfold localEnergy localValue
    rw [Finset.sum_div]
    refine Finset.sum_congr rfl fun y _ => ?_
    by_cases hy : (numElec false y, numElec true y) = n
    · rw [sectorState, sectorState, if_pos hx, if_pos hy, mul_div_assoc]
    · rw [SampledEnergy.sector_conserves (represents_conserves hrep) e.1 y hx1 fun h => hy (Prod.ext h.1 h.2)]
      simp
  obtain ⟨res, h1, h2, h3⟩ := C166_energy mixed H hH (fun θ => sectorState (logpsi θ) n) θ D' hd' hne' h0 sw hb _ hk chunk_size hc
  refine ⟨res, ?_, h2, h3⟩
  rw [← h1]
  rw [C166_formula mixed _ _ chunk_size hc, C166_formula mixed _ _ chunk_size hc]
  have hq : ∀ r, ∀ e ∈ sw r, ∀ v, D' e.1 v / sectorState (logpsi θ) n e.1 = D e.1 v := by
    intro r e he v
    simp only [hD', sectorState, if_pos (hsec r e he)]
    rw [smul_apply, smul_eq_mul, mul_div_cancel_left₀ _ (Complex.exp_ne_zero _)]
  congr 3
  · funext k
    refine Finset.sum_congr rfl fun r _ => ?_
    unfold realFormula logDerivs
    congr 3
    exact List.map_congr_left fun e he => by simp only [hq r e he]
  · funext k
    refine Finset.sum_congr rfl fun r _ => ?_
    unfold complexFormula logDerivs
    congr 1
    exact List.map_congr_left fun e he => by simp only [hq r e he]

end Fermions

/-! ## The hypotheses can be met -/

/-- One complex and one real parameter; the amplitudes 1 and `a + conj z` do not depend holomorphically on `z`. -/
noncomputable def exPsi2 (θ : Params Unit Unit) (c : Bool) : ℂ := if c then (θ.1 () : ℂ) + (starRingEnd ℂ) (θ.2 ()) else 1

noncomputable def exD2 (c : Bool) : Params Unit Unit →L[ℝ] ℂ :=
  if c then
    Complex.ofRealCLM.comp ((ContinuousLinearMap.proj ()).comp (ContinuousLinearMap.fst ℝ (Unit → ℝ) (Unit → ℂ)))
      + (Complex.conjCLE : ℂ →L[ℝ] ℂ).comp ((ContinuousLinearMap.proj ()).comp (ContinuousLinearMap.snd ℝ (Unit → ℝ) (Unit → ℂ)))
  else 0

/-- The hypotheses of `C166_energy` are met on two ranks by a model that is not holomorphic, at `a = 1`, `z = 0`; the derivatives are not all
zero. -/
example : Hermitian EnergyGradient.exH ∧ (∀ c, HasFDerivAt (fun θ => exPsi2 θ c) (exD2 c) ((fun _ => 1, fun _ => 0) : Params Unit Unit)) ∧
    bornNorm (exPsi2 (fun _ => 1, fun _ => 0)) ≠ 0 ∧ (∀ c, exPsi2 (fun _ => 1, fun _ => 0) c = 0 → exD2 c = 0) ∧
    Born (ranks := 2) ![[(true, 1 / 2)], [(false, 1 / 2), (true, 0)]] (exPsi2 (fun _ => 1, fun _ => 0)) ∧
    exD2 true (0, fun _ => Complex.I) = -Complex.I := by
  have hv : ∀ c, exPsi2 (fun _ => 1, fun _ => 0) c = 1 := by intro c; cases c <;> simp [exPsi2]
  have hn : bornNorm (exPsi2 (fun _ => 1, fun _ => 0)) = 2 := by simp [bornNorm, hv]
  refine ⟨exH_hermitian, ?_, by rw [hn]; norm_num, ?_, ?_, ?_⟩
  · intro c
    cases c
    · simp only [exPsi2, exD2, Bool.false_eq_true, if_false]
      exact hasFDerivAt_const _ _
    · have e : (fun θ => exPsi2 θ true) = fun θ => exD2 true θ := by
        funext θ
        simp [exPsi2, exD2]
      rw [e]
      exact (exD2 true).hasFDerivAt
  · intro c h
    rw [hv] at h
    exact absurd h one_ne_zero
  · intro c
    rw [hn, hv]
    cases c <;> simp [weight, Fin.sum_univ_two]
  · simp [exD2]

/-- Real Hubbard Hamiltonians are Hermitian matrices. -/
theorem hubbard_hermitian {L : ℕ} (U : ℝ) (edges : List ((Fin L × Fin L) × ℝ)) :
    Hermitian fun x y : Cfg L => hubbard (U : ℂ) (edges.map fun e => (e.1, (e.2 : ℂ))) (occOf x) (occOf y) := by
  intro x y
  have hsym := (C05_hubbard_symmetric (U : ℂ) (edges.map fun e => (e.1, (e.2 : ℂ))) y x).2
  rw [C04_hubbard_row, C04_hubbard_row] at hsym
  refine hsym.trans ?_
  clear hsym
  change _ = (starRingEnd ℂ) (hubbard (U : ℂ) (edges.map fun e => (e.1, (e.2 : ℂ))) (occOf x) (occOf y))
  unfold hubbard
  rw [Matrix.add_apply, Matrix.smul_apply, map_add]
  congr 1
  · induction edges with
    | nil => simp
    | cons e es ih =>
      rw [List.map_cons, List.map_cons, List.sum_cons, Matrix.add_apply, map_add, ← ih]
      congr 1
      simp [Matrix.neg_apply, Matrix.smul_apply, toK]
  · simp [toK]

/-- The hypotheses of `C166_fermions` are met: one spin-up electron on two sites, with the amplitudes `exp (conj z)` and 1 at `z = 0`, no
fast updates. -/
example : let n : ℕ × ℕ := (1, 0)
    let logpsi : Params Empty Unit → Cfg 2 → ℂ := fun θ x => if x 0 = 1 then (starRingEnd ℂ) (θ.2 ()) else 0
    Represents (.hubbard ((4 : ℝ) : ℂ) ([((0, 1), 1)].map fun e => (e.1, ((e.2 : ℝ) : ℂ))))
      (fun x y : Cfg 2 => hubbard ((4 : ℝ) : ℂ) ([((0, 1), 1)].map fun e => (e.1, ((e.2 : ℝ) : ℂ))) (occOf x) (occOf y)) ∧
    (∃ x : Cfg 2, (numElec false x, numElec true x) = n) ∧
    (∀ c, ∃ D : Params Empty Unit →L[ℝ] ℂ, HasFDerivAt (fun θ => logpsi θ c) D (fun _ => 0, fun _ => 0)) ∧
    (∀ r, ∀ e ∈ (![[(![1, 0], 1 / 2)], [(![0, 1], 1 / 2)]] : Fin 2 → List (Cfg 2 × ℝ)) r, (numElec false e.1, numElec true e.1) = n) ∧
    Born (ranks := 2) ![[(![1, 0], 1 / 2)], [(![0, 1], 1 / 2)]] (sectorState (logpsi (fun _ => 0, fun _ => 0)) n) := by
  intro n logpsi
  refine ⟨.hubbard _ _ ?_, ⟨![1, 0], by decide⟩, ?_, ?_, ?_⟩
  · intro e he
    simp at he
    rw [he]
    decide
  · intro c
    by_cases h : c 0 = 1
    · simp only [logpsi, if_pos h]
      exact ⟨_, ((Complex.conjCLE : ℂ →L[ℝ] ℂ).comp
        ((ContinuousLinearMap.proj ()).comp (ContinuousLinearMap.snd ℝ (Empty → ℝ) (Unit → ℂ)))).hasFDerivAt⟩
    · simp only [logpsi, if_neg h]
      exact ⟨0, hasFDerivAt_const _ _⟩
  · intro r e he
    fin_cases r <;> simp at he <;> rw [he] <;> decide
  · have hs : ∀ x : Cfg 2, sectorState (logpsi (fun _ => 0, fun _ => 0)) n x = if x = ![1, 0] ∨ x = ![0, 1] then 1 else 0 := by
      intro x
      have hx : (numElec false x, numElec true x) = n ↔ (x = ![1, 0] ∨ x = ![0, 1]) := by revert x; decide
      unfold sectorState
      by_cases h : (numElec false x, numElec true x) = n
      · rw [if_pos h, if_pos (hx.1 h)]
        simp [logpsi]
      · rw [if_neg h, if_neg fun h' => h (hx.2 h')]
    have hne : (![1, 0] : Cfg 2) ≠ ![0, 1] := by decide
    have hn : bornNorm (sectorState (logpsi (fun _ => 0, fun _ => 0)) n) = 2 := by
      unfold bornNorm
      simp only [hs]
      have h2 : ∀ x : Cfg 2, ‖(if x = ![1, 0] ∨ x = ![0, 1] then (1 : ℂ) else 0)‖ ^ 2 =
          (if x = ![1, 0] then (1 : ℝ) else 0) + if x = ![0, 1] then (1 : ℝ) else 0 := by
        intro x
        by_cases h1 : x = ![1, 0]
        · subst h1; simp [hne]
        · by_cases h2 : x = ![0, 1]
          · subst h2; simp [hne.symm]
          · simp [h1, h2]
      simp only [h2, Finset.sum_add_distrib, Finset.sum_ite_eq', Finset.mem_univ, if_true]
      norm_num
    intro c
    rw [hn, hs]
    by_cases h1 : c = ![1, 0]
    · subst h1; simp [weight, Fin.sum_univ_two]
    · by_cases h2 : c = ![0, 1]
      · subst h2; simp [weight, Fin.sum_univ_two]
      · simp [weight, Fin.sum_univ_two, h1, h2, Ne.symm h1, Ne.symm h2]

end GPSKet.ExpectGrad
