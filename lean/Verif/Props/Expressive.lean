import Verif.Lemmas.Expressive
import Verif.Props.Autoreg

/-! # Every state can be represented with enough support points (C160) -/

namespace GPSKet.Expressive
open Spec AR Props

/-! ## qGPS -/

/-- **C160**, qGPS: with `D^(L-1)` support points or more, a qGPS of `L` sites (default output transformation, any symmetry operations) can
represent every log-amplitude that is invariant under its symmetry operations: every state without zeros and with that symmetry. -/
theorem C160_qgps {n D M : ℕ} {ι : Type} [Fintype ι] [Nonempty ι] (hM : D ^ n ≤ M) (syms : QGPS.Syms (n + 1) D ι) (psi : (Fin (n + 1) → Fin D) → ℂ)
    (h0 : ∀ x, psi x ≠ 0) (hs : ∀ x t, psi (syms.symmetries x t) = psi x) :
    ∃ epsilon : Fin D → Fin M → Fin (n + 1) → ℂ, ∀ x, Complex.exp ((QGPS.model ⟨epsilon, syms, QGPS.sumOut⟩).full x) = psi x := by
  obtain ⟨epsilon, h⟩ := qgps_represents hM syms (fun x => Complex.log (psi x)) (fun x t => by rw [hs])
  exact ⟨epsilon, fun x => by rw [h, Complex.exp_log (h0 x)]⟩

/-- The same without exponential, as used with an output transformation `log(sum(...))`: every state with the symmetry, zeros included. -/
theorem C160_qgps_linear {n D M : ℕ} {ι : Type} [Fintype ι] [Nonempty ι] (hM : D ^ n ≤ M) (syms : QGPS.Syms (n + 1) D ι) (psi : (Fin (n + 1) → Fin D) → ℂ)
    (hs : ∀ x t, psi (syms.symmetries x t) = psi x) :
    ∃ epsilon : Fin D → Fin M → Fin (n + 1) → ℂ, ∀ x, (QGPS.model ⟨epsilon, syms, QGPS.sumOut⟩).full x = psi x :=
  qgps_represents hM syms psi hs

/-- **C160**: a larger support dimension never loses states. -/
theorem C160_qgps_monotone {L D M M' : ℕ} {ι : Type} [Fintype ι] [NeZero L] (hM : M ≤ M') (syms : QGPS.Syms L D ι) (epsilon : Fin D → Fin M → Fin L → ℂ) :
    ∃ epsilon' : Fin D → Fin M' → Fin L → ℂ,
      ∀ x, (QGPS.model ⟨epsilon', syms, QGPS.sumOut⟩).full x = (QGPS.model ⟨epsilon, syms, QGPS.sumOut⟩).full x := by
  refine ⟨fun d m i => if h : m.val < M then epsilon d ⟨m.val, h⟩ i else 0, fun x => ?_⟩
  show ∑ m : Fin M', ∑ t, ∏ i, (if h : m.val < M then epsilon (syms.symmetries x t i) ⟨m.val, h⟩ i else 0) =
    ∑ m : Fin M, ∑ t, ∏ i, epsilon (syms.symmetries x t i) m i
  obtain ⟨k, rfl⟩ := Nat.exists_eq_add_of_le hM
  rw [Fin.sum_univ_add]
  have h1 : ∀ m : Fin k, ∑ t, ∏ i, (if h : (Fin.natAdd M m).val < M then epsilon (syms.symmetries x t i) ⟨(Fin.natAdd M m).val, h⟩ i else 0) = 0 := by
    intro m
    refine Finset.sum_eq_zero fun t _ => Finset.prod_eq_zero (Finset.mem_univ 0) ?_
    rw [dif_neg (by simp)]
  rw [Finset.sum_congr rfl fun m _ => h1 m, Finset.sum_const_zero, add_zero]
  refine Finset.sum_congr rfl fun m _ => Finset.sum_congr rfl fun t _ => Finset.prod_congr rfl fun i _ => ?_
  rw [dif_pos (by simp)]
  rfl

/-! ## Autoregressive models -/

variable {L D M : ℕ}

/-- Total weight of the configurations that agree with `x` on the first `k` sites. -/
noncomputable def prefixWeight (p : ℝ) (psi : (Fin L → Fin D) → ℂ) (k : ℕ) (x : Fin L → Fin D) : ℝ :=
  ∑ y, if ∀ j : Fin L, j.val < k → y j = x j then ‖psi y‖ ^ p else 0

theorem weight_nonneg' (p : ℝ) (psi : (Fin L → Fin D) → ℂ) (k : ℕ) (x y : Fin L → Fin D) :
    0 ≤ if ∀ j : Fin L, j.val < k → y j = x j then ‖psi y‖ ^ p else 0 := by
  split_ifs
  · exact Real.rpow_nonneg (norm_nonneg _) _
  · exact le_rfl

theorem prefixWeight_zero (p : ℝ) (psi : (Fin L → Fin D) → ℂ) (x : Fin L → Fin D) : prefixWeight p psi 0 x = ∑ y, ‖psi y‖ ^ p := by
  unfold prefixWeight
  exact Finset.sum_congr rfl fun y _ => if_pos fun j hj => absurd hj (by omega)

theorem prefixWeight_full (p : ℝ) (psi : (Fin L → Fin D) → ℂ) (x : Fin L → Fin D) : prefixWeight p psi L x = ‖psi x‖ ^ p := by
  unfold prefixWeight
  rw [Finset.sum_eq_single x]
  · rw [if_pos fun _ _ => rfl]
  · intro y _ hy
    rw [if_neg fun h => hy (funext fun j => h j j.isLt)]
  · intro h
    exact absurd (Finset.mem_univ x) h

theorem prefixWeight_congr (p : ℝ) (psi : (Fin L → Fin D) → ℂ) (k : ℕ) (x x' : Fin L → Fin D) (h : ∀ j : Fin L, j.val < k → x j = x' j) :
    prefixWeight p psi k x = prefixWeight p psi k x' := by
  unfold prefixWeight
  refine Finset.sum_congr rfl fun y _ => ?_
  have : (∀ j : Fin L, j.val < k → y j = x j) ↔ ∀ j : Fin L, j.val < k → y j = x' j :=
    ⟨fun hy j hj => (hy j hj).trans (h j hj), fun hy j hj => (hy j hj).trans (h j hj).symm⟩
  simp only [this]

/-- The weights of the continuations by one site add up. -/
theorem prefixWeight_split (p : ℝ) (psi : (Fin L → Fin D) → ℂ) (i : Fin L) (x : Fin L → Fin D) :
    ∑ d, prefixWeight p psi (i.val + 1) (Function.update x i d) = prefixWeight p psi i.val x := by
  unfold prefixWeight
  rw [Finset.sum_comm]
  refine Finset.sum_congr rfl fun y _ => ?_
  have hiff : ∀ d, (∀ j : Fin L, j.val < i.val + 1 → y j = Function.update x i d j) ↔ (y i = d ∧ ∀ j : Fin L, j.val < i.val → y j = x j) := by
    intro d
    constructor
    · intro h
      refine ⟨by simpa using h i (Nat.lt_succ_self _), fun j hj => ?_⟩
      have := h j (by omega)
      rwa [Function.update_of_ne (fun hh => by subst hh; exact lt_irrefl _ hj)] at this
    · rintro ⟨h1, h2⟩ j hj
      by_cases hji : j = i
      · subst hji
        rw [Function.update_self, h1]
      · rw [Function.update_of_ne hji]
        refine h2 j ?_
        have : j.val ≠ i.val := fun hh => hji (Fin.ext hh)
        omega
  simp only [hiff]
  by_cases hy : ∀ j : Fin L, j.val < i.val → y j = x j
  · rw [if_pos hy, Finset.sum_eq_single (y i)]
    · rw [if_pos ⟨rfl, hy⟩]
    · intro d _ hd
      rw [if_neg fun h => hd h.1.symm]
    · intro h
      exact absurd (Finset.mem_univ _) h
  · rw [if_neg hy]
    exact Finset.sum_eq_zero fun d _ => if_neg fun h => hy h.2

/-- The conditional log-amplitudes of the state, up to the normalisation of each of them; the last one carries the phase. -/
noncomputable def target (p : ℝ) (psi : (Fin L → Fin D) → ℂ) (i : Fin L) (x : Fin L → Fin D) (d : Fin D) : ℂ :=
  ((1 / p * Real.log (prefixWeight p psi (i.val + 1) (Function.update x i d)) : ℝ) : ℂ) +
    if i.val + 1 = L then Complex.I * (Complex.arg (psi (Function.update x i d)) : ℂ) else 0

theorem target_causal (p : ℝ) (psi : (Fin L → Fin D) → ℂ) : Causal (target p psi) := by
  intro i x x' h
  funext d
  unfold target
  have hag : ∀ j : Fin L, j.val < i.val + 1 → Function.update x i d j = Function.update x' i d j := by
    intro j hj
    by_cases hji : j = i
    · subst hji
      simp
    · rw [Function.update_of_ne hji, Function.update_of_ne hji]
      refine h j ?_
      have : j.val ≠ i.val := fun hh => hji (Fin.ext hh)
      rw [Fin.lt_def]
      omega
  rw [prefixWeight_congr p psi (i.val + 1) _ _ hag]
  congr 1
  split_ifs with hl
  · have : Function.update x i d = Function.update x' i d := funext fun j => hag j (by have := j.isLt; omega)
    rw [this]
  · rfl

/-- The configurations to which the constraint of a model gives a non-zero amplitude. -/
def Allowed (f : Fields D M) (x : Fin L → Fin D) : Prop := ∀ i, f.renormalize (spinsAt f x i) i (x i) = true

/-- No dead ends. -/
def NoDeadEnds (L : ℕ) (f : Fields D M) : Prop :=
  ∀ (x : Fin L → Fin D) (i : Fin L), (∀ j, j < i → f.renormalize (spinsAt f x j) j (x j) = true) → ∃ d, f.renormalize (spinsAt f x i) i d = true

theorem complete (f : Fields D M) (hd : NoDeadEnds L f) (n : ℕ) : ∀ (k : ℕ) (_ : k + n = L) (x : Fin L → Fin D),
    (∀ j : Fin L, j.val < k → f.renormalize (spinsAt f x j) j (x j) = true) → ∃ y, (∀ j : Fin L, j.val < k → y j = x j) ∧ Allowed f y := by
  induction n with
  | zero => exact fun k hk x hx => ⟨x, fun _ _ => rfl, fun i => hx i (by have := i.isLt; omega)⟩
  | succ n ih =>
    intro k hk x hx
    have hkL : k < L := by omega
    obtain ⟨d, hdd⟩ := hd x ⟨k, hkL⟩ fun j hj => hx j hj
    have hu : ∀ j : Fin L, j.val < k → Function.update x ⟨k, hkL⟩ d j = x j := fun j hj =>
      Function.update_of_ne (fun hh => by rw [hh] at hj; exact lt_irrefl _ hj) _ _
    obtain ⟨y, hy1, hy2⟩ := ih (k + 1) (by omega) (Function.update x ⟨k, hkL⟩ d) (by
      intro j hj
      have hsp : spinsAt f (Function.update x ⟨k, hkL⟩ d) j = spinsAt f x j := spinsAt_causal f j _ _ fun l hl => hu l (by
        rw [Fin.lt_def] at hl; omega)
      rw [hsp]
      by_cases hjk : j.val < k
      · rw [hu j hjk]
        exact hx j hjk
      · have : j = ⟨k, hkL⟩ := Fin.ext (by dsimp only; omega)
        subst this
        rw [Function.update_self]
        exact hdd)
    exact ⟨y, fun j hj => (hy1 j (by omega)).trans (hu j hj), hy2⟩

/-- A normalised model whose unmasked conditionals are those of `psi` has the amplitudes of `psi`. -/
theorem amplitude_of_target [NeZero L] (m : Machine L D M) (psi : (Fin L → Fin D) → ℂ) (g : Good m (target m.fields.machine_pow psi))
    (hn : m.fields.normalize = true) (hp : 0 < m.fields.machine_pow) (hd : NoDeadEnds L m.fields)
    (h1 : ∑ x, ‖psi x‖ ^ m.fields.machine_pow = 1) (hs : ∀ x, psi x ≠ 0 ↔ Allowed m.fields x) (x : Fin L → Fin D) :
    amplitude (m.logPsiOne x) = psi x := by
  set p := m.fields.machine_pow with hpdef
  have hval : ∀ i, maybeNormalize m.fields (m.conditionalsLog x i) =
      normalizeLog p (mask m.fields (spinsAt m.fields x i) i (target p psi i x)) := by
    intro i
    unfold maybeNormalize
    rw [if_pos hn, g.log]
  unfold Machine.logPsiOne
  simp only [hval]
  by_cases hx : psi x = 0
  · have : ¬ Allowed m.fields x := fun h => ((hs x).mpr h) hx
    unfold Allowed at this
    push Not at this
    obtain ⟨i, hi⟩ := this
    unfold pickSum
    rw [if_neg]
    · rw [hx]
      rfl
    · intro h
      have := h i
      unfold normalizeLog mask at this
      dsimp only at this
      rw [if_neg (by simpa using hi)] at this
      simp at this
  · have hall := (hs x).mp hx
    -- positivity and vanishing of the weights of the continuations
    have hpos : ∀ (i : Fin L) (d : Fin D), m.fields.renormalize (spinsAt m.fields x i) i d = true →
        0 < prefixWeight p psi (i.val + 1) (Function.update x i d) := by
      intro i d hid
      obtain ⟨y, hy1, hy2⟩ := complete m.fields hd (L - (i.val + 1)) (i.val + 1) (by have := i.isLt; omega) (Function.update x i d) (by
        intro j hj
        have hsp : spinsAt m.fields (Function.update x i d) j = spinsAt m.fields x j := spinsAt_causal m.fields j _ _ fun l hl =>
          Function.update_of_ne (fun hh => by rw [hh, Fin.lt_def] at hl; omega) _ _
        rw [hsp]
        by_cases hji : j = i
        · subst hji
          rw [Function.update_self]
          exact hid
        · rw [Function.update_of_ne hji]
          exact hall j)
      unfold prefixWeight
      refine Finset.sum_pos' (fun y _ => weight_nonneg' p psi _ _ y) ⟨y, Finset.mem_univ y, ?_⟩
      rw [if_pos hy1]
      exact Real.rpow_pos_of_pos (norm_pos_iff.mpr ((hs y).mpr hy2)) _
    have hzero : ∀ (i : Fin L) (d : Fin D), m.fields.renormalize (spinsAt m.fields x i) i d = false →
        prefixWeight p psi (i.val + 1) (Function.update x i d) = 0 := by
      intro i d hid
      unfold prefixWeight
      refine Finset.sum_eq_zero fun y _ => ?_
      split_ifs with hy
      · have hy0 : psi y = 0 := by
          by_contra hne
          have := (hs y).mp hne i
          have hsp : spinsAt m.fields y i = spinsAt m.fields x i := spinsAt_causal m.fields i _ _ fun l hl => by
            rw [hy l (by rw [Fin.lt_def] at hl; omega), Function.update_of_ne (ne_of_lt hl)]
          have hyi : y i = d := by simpa using hy i (Nat.lt_succ_self _)
          rw [hsp, hyi, hid] at this
          exact Bool.false_ne_true this
        rw [hy0, norm_zero, Real.zero_rpow hp.ne']
      · rfl
    have hre : ∀ i d, (target p psi i x d).re = 1 / p * Real.log (prefixWeight p psi (i.val + 1) (Function.update x i d)) := by
      intro i d
      unfold target
      rw [Complex.add_re, Complex.ofReal_re]
      split_ifs <;> simp
    have hw : ∀ i, ∑ e, weight p (mask m.fields (spinsAt m.fields x i) i (target p psi i x) e) = prefixWeight p psi i.val x := by
      intro i
      rw [← prefixWeight_split p psi i x]
      refine Finset.sum_congr rfl fun e _ => ?_
      unfold mask
      by_cases he : m.fields.renormalize (spinsAt m.fields x i) i e = true
      · rw [if_pos he]
        show Real.exp (p * _) = _
        rw [hre, ← mul_assoc, mul_one_div_cancel hp.ne', one_mul, Real.exp_log (hpos i e he)]
      · rw [if_neg he, hzero i e (by simpa using he)]
        rfl
    have hterm : ∀ i, normalizeLog p (mask m.fields (spinsAt m.fields x i) i (target p psi i x)) (x i) =
        some (target p psi i x (x i) - ((1 / p * Real.log (prefixWeight p psi i.val x) : ℝ) : ℂ)) := by
      intro i
      unfold normalizeLog
      rw [hw]
      unfold mask
      rw [if_pos (hall i), Option.map_some]
    unfold pickSum
    simp only [hterm, Option.isSome_some, implies_true, if_true, Option.getD_some]
    show Complex.exp _ = _
    have hsum : ∑ i : Fin L, (target p psi i x (x i) - ((1 / p * Real.log (prefixWeight p psi i.val x) : ℝ) : ℂ)) =
        Complex.log (psi x) := by
      have hsplit : ∀ i : Fin L, target p psi i x (x i) - ((1 / p * Real.log (prefixWeight p psi i.val x) : ℝ) : ℂ) =
          (((1 / p * Real.log (prefixWeight p psi (i.val + 1) x)) - (1 / p * Real.log (prefixWeight p psi i.val x)) : ℝ) : ℂ) +
            if i.val + 1 = L then Complex.I * (Complex.arg (psi x) : ℂ) else 0 := by
        intro i
        unfold target
        rw [Function.update_eq_self]
        push_cast
        ring
      rw [Finset.sum_congr rfl fun i _ => hsplit i, Finset.sum_add_distrib, ← Complex.ofReal_sum,
        Fin.sum_univ_eq_sum_range (fun k => (1 / p * Real.log (prefixWeight p psi (k + 1) x)) - (1 / p * Real.log (prefixWeight p psi k x))) L,
        Finset.sum_range_sub (fun k => 1 / p * Real.log (prefixWeight p psi k x)), prefixWeight_full, prefixWeight_zero, h1, Real.log_one, mul_zero, sub_zero,
        Real.log_rpow (norm_pos_iff.mpr hx), ← mul_assoc, one_div_mul_cancel hp.ne', one_mul]
      have hph : (∑ i : Fin L, if i.val + 1 = L then Complex.I * (Complex.arg (psi x) : ℂ) else 0) = Complex.I * (Complex.arg (psi x) : ℂ) := by
        rcases L with _ | n
        · exact absurd rfl (NeZero.ne 0)
        · rw [Finset.sum_eq_single (Fin.last n)]
          · simp
          · intro i _ hi
            rw [if_neg]
            intro hh
            exact hi (Fin.ext (by simp; omega))
          · intro h
            exact absurd (Finset.mem_univ _) h
      rw [hph, mul_comm Complex.I]
      rfl
    rw [hsum, Complex.exp_log hx]

theorem exp_log_im (z : ℂ) : Complex.exp (((Complex.log (Complex.exp (Complex.I * (z.im : ℂ)))).im : ℂ) * Complex.I) = Complex.exp (Complex.I * (z.im : ℂ)) := by
  have h3 := Complex.exp_log (Complex.exp_ne_zero (Complex.I * (z.im : ℂ)))
  conv_rhs => rw [← h3]
  congr 1
  rw [← Complex.re_add_im (Complex.log (Complex.exp (Complex.I * (z.im : ℂ))))]
  have h4 : (Complex.log (Complex.exp (Complex.I * (z.im : ℂ)))).re = 0 := by
    rw [Complex.log_re, Complex.norm_exp]
    simp
  rw [h4]
  simp

/-- The symmetrisation keeps amplitudes on which all symmetry operations agree. -/
theorem amplitude_symmetrise {ι : Type} [Fintype ι] [Nonempty ι] (p : ℝ) (hp : p ≠ 0) (l : ι → LogAmp) (a : ℂ) (hl : ∀ t, amplitude (l t) = a) :
    amplitude (symmetrise p l) = a := by
  have hT : (Fintype.card ι : ℝ) ≠ 0 := by exact_mod_cast Fintype.card_ne_zero
  unfold symmetrise
  dsimp only
  by_cases ha : a = 0
  · have hn : ∀ t, l t = none := by
      intro t
      rcases h : l t with _ | z
      · rfl
      · exact absurd (ha ▸ (by rw [← hl t, h]; rfl : Complex.exp z = a)) (Complex.exp_ne_zero z)
    simp only [hn]
    rw [if_pos (by simp [weight]), ha]
    rfl
  · have hz : ∀ t, ∃ z, l t = some z ∧ Complex.exp z = a := by
      intro t
      rcases h : l t with _ | z
      · exact absurd (by rw [← hl t, h]; rfl) ha
      · exact ⟨z, rfl, by rw [← hl t, h]; rfl⟩
    choose z hz1 hz2 using hz
    have t0 : ι := Classical.arbitrary ι
    have hre : ∀ t, (z t).re = (z t0).re := by
      intro t
      have : Real.exp (z t).re = Real.exp (z t0).re := by rw [← Complex.norm_exp, ← Complex.norm_exp, hz2, hz2]
      exact Real.exp_injective this
    have him : ∀ t, Complex.exp (Complex.I * ((z t).im : ℂ)) = Complex.exp (Complex.I * ((z t0).im : ℂ)) := by
      intro t
      have h := (hz2 t).trans (hz2 t0).symm
      rw [← Complex.re_add_im (z t), ← Complex.re_add_im (z t0), Complex.exp_add, Complex.exp_add, hre t] at h
      have := mul_left_cancel₀ (Complex.exp_ne_zero _) h
      rwa [mul_comm Complex.I, mul_comm Complex.I]
    simp only [hz1, weight, hre, Option.getD_some, him, Finset.sum_const, Finset.card_univ, nsmul_eq_mul]
    have hs : (Fintype.card ι : ℝ) * (Real.exp (p * (z t0).re) * (1 / (Fintype.card ι : ℝ))) = Real.exp (p * (z t0).re) := by
      field_simp
    rw [hs, if_neg (Real.exp_pos _).ne', Real.log_exp]
    have hi : (Complex.log ((Fintype.card ι : ℂ) * Complex.exp (Complex.I * ((z t0).im : ℂ)))).im =
        (Complex.log (Complex.exp (Complex.I * ((z t0).im : ℂ)))).im := by
      rw [Complex.log_im, Complex.log_im]
      have := Complex.arg_real_mul (Complex.exp (Complex.I * ((z t0).im : ℂ))) (r := (Fintype.card ι : ℝ)) (by exact_mod_cast Fintype.card_pos)
      exact_mod_cast this
    rw [hi]
    show Complex.exp _ = a
    have h1 : 1 / p * (p * (z t0).re) = (z t0).re := by field_simp
    rw [h1, ← hz2 t0]
    have h2 : (⟨(z t0).re, (Complex.log (Complex.exp (Complex.I * ((z t0).im : ℂ)))).im⟩ : ℂ) =
        ((z t0).re : ℂ) + ((Complex.log (Complex.exp (Complex.I * ((z t0).im : ℂ)))).im : ℂ) * Complex.I := (Complex.re_add_im _).symm
    rw [h2, Complex.exp_add, exp_log_im]
    conv_rhs => rw [← Complex.re_add_im (z t0), Complex.exp_add]
    rw [mul_comm Complex.I]

theorem noDeadEnds {m : Machine L D M} {val} (g : Good m val) (hp : PowOk m) (hc : Continuable m) : NoDeadEnds L m.fields := by
  intro x i h
  obtain ⟨d, hd⟩ := hc x i fun j hj => (Good.conditionals_pos g hp x j (x j)).mpr (h j hj)
  exact ⟨d, (Good.conditionals_pos g hp x i d).mp hd⟩

/-- **C160**, `ARqGPSFull`: with `D^(L-1)` support points or more, every normalised state whose support is the set of configurations allowed
by the constraint of the model and which is invariant under its symmetry operations can be represented exactly (constraints without dead ends; see below for the ones that come with the models). -/
theorem C160_ar_full {ι : Type} [Fintype ι] [Nonempty ι] {n : ℕ} [NeZero D] (hM : D ^ n ≤ M) (f : Fields D M) (ho : f.out_transformation = AR.sumOut) (hn : f.normalize = true)
    (hp : 0 < f.machine_pow) (hd : NoDeadEnds (n + 1) f) (psi : (Fin (n + 1) → Fin D) → ℂ) (h1 : ∑ x, ‖psi x‖ ^ f.machine_pow = 1)
    (hs : ∀ x, psi x ≠ 0 ↔ Allowed f x)
    (syms : ι → (Fin (n + 1) → Fin D) → Fin (n + 1) → Fin D) (hinv : ∀ x t, psi (syms t x) = psi x) :
    ∃ epsilon : Fin D → Fin M → ℕ → ℂ, ∀ x, amplitude ((ARFull.arqGPSFull f epsilon).logPsi syms x) = psi x := by
  obtain ⟨epsilon, h⟩ := full_represents hM f ho (target f.machine_pow psi) (target_causal _ _)
  refine ⟨epsilon, fun x => ?_⟩
  have g := ARFull.arqGPSFull_good (L := n + 1) f epsilon
  rw [h] at g
  refine amplitude_symmetrise _ hp.ne' _ _ fun t => ?_
  rw [← hinv x t]
  exact amplitude_of_target (ARFull.arqGPSFull f epsilon) psi g hn hp hd h1 hs (syms t x)

/-- **C160**, `ARqGPS`: the same for the model that shares its parameters between the sites, with `1 + D + ... + D^(L-1)` support points or
more. -/
theorem C160_ar {ι : Type} [Fintype ι] [Nonempty ι] [NeZero L] [NeZero D] (hM : ∑ k : Fin L, D ^ k.val ≤ M) (f : Fields D M) (ho : f.out_transformation = AR.sumOut) (hn : f.normalize = true)
    (hp : 0 < f.machine_pow) (hd : NoDeadEnds L f) (psi : (Fin L → Fin D) → ℂ) (h1 : ∑ x, ‖psi x‖ ^ f.machine_pow = 1)
    (hs : ∀ x, psi x ≠ 0 ↔ Allowed f x)
    (syms : ι → (Fin L → Fin D) → Fin L → Fin D) (hinv : ∀ x t, psi (syms t x) = psi x) :
    ∃ epsilon : Fin D → Fin M → Fin L → ℂ, ∀ x, amplitude ((arqGPS f epsilon).logPsi syms x) = psi x := by
  obtain ⟨epsilon, h⟩ := ar_represents hM f ho (target f.machine_pow psi) (target_causal _ _)
  refine ⟨epsilon, fun x => ?_⟩
  have g := arqGPS_good (L := L) f epsilon
  rw [h] at g
  refine amplitude_symmetrise _ hp.ne' _ _ fun t => ?_
  rw [← hinv x t]
  exact amplitude_of_target (arqGPS f epsilon) psi g hn hp hd h1 hs (syms t x)

/-- Every normalised state of spins with `total_sz = 0` and no further zeros. -/
theorem C160_spin {ι : Type} [Fintype ι] [Nonempty ι] {n : ℕ} (hM : 2 ^ n ≤ M) (f : Fields 2 M) (ho : f.out_transformation = AR.sumOut) (hn : f.normalize = true)
    (hp : 0 < f.machine_pow) (hf : SpinHalf (n + 1) true f) (hL : Even (n + 1)) (psi : (Fin (n + 1) → Fin 2) → ℂ)
    (h1 : ∑ x, ‖psi x‖ ^ f.machine_pow = 1) (hs : ∀ x, psi x ≠ 0 ↔ Props.Balanced x)
    (syms : ι → (Fin (n + 1) → Fin 2) → Fin (n + 1) → Fin 2) (hinv : ∀ x t, psi (syms t x) = psi x) :
    ∃ epsilon : Fin 2 → Fin M → ℕ → ℂ, ∀ x, amplitude ((ARFull.arqGPSFull f epsilon).logPsi syms x) = psi x := by
  have g := ARFull.arqGPSFull_good (L := n + 1) f fun _ _ _ => 0
  have hP : ProvidedAR (L := n + 1) (ARFull.arqGPSFull f fun _ _ _ => 0) := .full _ _
  refine C160_ar_full hM f ho hn hp (noDeadEnds g hp.ne' (spin_continuable hP hp.ne' hf hL)) psi h1 (fun x => ?_) syms hinv
  rw [hs, ← one_balanced g hp.ne' hf hL x]
  exact Good.one_pos g hp.ne' x

/-- Every normalised state of at least four unconstrained spins without zeros. -/
theorem C160_free {ι : Type} [Fintype ι] [Nonempty ι] {n : ℕ} (hM : 2 ^ n ≤ M) (f : Fields 2 M) (ho : f.out_transformation = AR.sumOut) (hn : f.normalize = true)
    (hp : 0 < f.machine_pow) (hf : SpinHalf (n + 1) false f) (hL : 4 ≤ n + 1) (psi : (Fin (n + 1) → Fin 2) → ℂ)
    (h1 : ∑ x, ‖psi x‖ ^ f.machine_pow = 1) (hs : ∀ x, psi x ≠ 0)
    (syms : ι → (Fin (n + 1) → Fin 2) → Fin (n + 1) → Fin 2) (hinv : ∀ x t, psi (syms t x) = psi x) :
    ∃ epsilon : Fin 2 → Fin M → ℕ → ℂ, ∀ x, amplitude ((ARFull.arqGPSFull f epsilon).logPsi syms x) = psi x := by
  have hall : ∀ (x : Fin (n + 1) → Fin 2) i d, f.renormalize (spinsAt f x i) i d = true := by
    intro x i d
    rw [free_allowed hf]
    split_ifs <;> omega
  exact C160_ar_full hM f ho hn hp (fun x i _ => ⟨0, hall x i 0⟩) psi h1 (fun x => ⟨fun _ i => hall x i (x i), fun _ => hs x⟩) syms hinv

/-- Every normalised state of electrons with the given numbers and no further zeros. -/
theorem C160_fermions {ι : Type} [Fintype ι] [Nonempty ι] {n : ℕ} (n_elec : ℕ × ℕ) (hM : 4 ^ n ≤ M) (f : Fields 4 M) (ho : f.out_transformation = AR.sumOut) (hn : f.normalize = true)
    (hp : 0 < f.machine_pow) (hf : Fermionic (n + 1) n_elec f) (hu : n_elec.1 ≤ n + 1) (hdn : n_elec.2 ≤ n + 1) (psi : Cfg (n + 1) → ℂ)
    (h1 : ∑ x, ‖psi x‖ ^ f.machine_pow = 1) (hs : ∀ x, psi x ≠ 0 ↔ numElec false x = n_elec.1 ∧ numElec true x = n_elec.2)
    (syms : ι → Cfg (n + 1) → Cfg (n + 1)) (hinv : ∀ x t, psi (syms t x) = psi x) :
    ∃ epsilon : Fin 4 → Fin M → ℕ → ℂ, ∀ x, amplitude ((ARFull.arqGPSFull f epsilon).logPsi syms x) = psi x := by
  have g := ARFull.arqGPSFull_good (L := n + 1) f fun _ _ _ => 0
  have hP : ProvidedAR (L := n + 1) (ARFull.arqGPSFull f fun _ _ _ => 0) := .full _ _
  refine C160_ar_full hM f ho hn hp (noDeadEnds g hp.ne' (fermi_continuable hP hp.ne' hf hu hdn)) psi h1 (fun x => ?_) syms hinv
  rw [hs, ← one_fermi g hp.ne' hf hu hdn x]
  exact Good.one_pos g hp.ne' x

/-- The fields of a model with the default output transformation, for any support dimension. -/
def fieldsOf (pow : ℝ) (norm con : Bool) (cnt : Fin D → Fin D → ℤ) (ren : (Fin D → ℤ) → ℕ → Fin D → Bool) (M : ℕ) : Fields D M :=
  ⟨pow, norm, con, cnt, ren, AR.sumOut⟩

theorem logPsi_of_val {M' : ℕ} (m : Machine L D M) (m' : Machine L D M') (val : Fin L → (Fin L → Fin D) → Fin D → ℂ) (g : Good m val) (g' : Good m' val)
    (pow : ℝ) (norm con : Bool) (cnt : Fin D → Fin D → ℤ) (ren : (Fin D → ℤ) → ℕ → Fin D → Bool)
    (hf : m.fields = fieldsOf pow norm con cnt ren M) (hf' : m'.fields = fieldsOf pow norm con cnt ren M')
    {ι : Type} [Fintype ι] (syms : ι → (Fin L → Fin D) → Fin L → Fin D) (x : Fin L → Fin D) : m.logPsi syms x = m'.logPsi syms x := by
  have h1 : ∀ y, m.logPsiOne y = m'.logPsiOne y := by
    intro y
    unfold Machine.logPsiOne
    congr 1
    funext i
    rw [g.log, g'.log, hf, hf']
    rfl
  unfold Machine.logPsi
  simp only [h1]
  rw [hf, hf']
  rfl

/-- **C160**: a larger support dimension never loses states, `ARqGPS`. -/
theorem C160_ar_monotone {M' : ℕ} (hM : M ≤ M') (pow : ℝ) (norm con : Bool) (cnt : Fin D → Fin D → ℤ) (ren : (Fin D → ℤ) → ℕ → Fin D → Bool)
    (epsilon : Fin D → Fin M → Fin L → ℂ) : ∃ epsilon' : Fin D → Fin M' → Fin L → ℂ, ∀ {ι : Type} [Fintype ι] (syms : ι → (Fin L → Fin D) → Fin L → Fin D) x,
      (arqGPS (fieldsOf pow norm con cnt ren M') epsilon').logPsi syms x = (arqGPS (fieldsOf pow norm con cnt ren M) epsilon).logPsi syms x := by
  refine ⟨fun d m i => if h : m.val < M then epsilon d ⟨m.val, h⟩ i else 0, fun syms x => ?_⟩
  refine logPsi_of_val _ _ _ (arqGPS_good _ _) ?_ pow norm con cnt ren rfl rfl syms x
  have g := arqGPS_good (L := L) (fieldsOf pow norm con cnt ren M) epsilon
  have hv : qgpsVal (fieldsOf pow norm con cnt ren M') (fun d m i => if h : m.val < M then epsilon d ⟨m.val, h⟩ i else 0) =
      qgpsVal (fieldsOf pow norm con cnt ren M) epsilon := by
    obtain ⟨k, rfl⟩ := Nat.exists_eq_add_of_le hM
    funext i x d
    show ∑ m : Fin (M + k), _ = ∑ m : Fin M, _
    rw [Fin.sum_univ_add]
    simp only [ctx]
    simp
  exact hv.symm ▸ g

/-- The same for `ARqGPSFull`. -/
theorem C160_ar_full_monotone {M' : ℕ} (hM : M ≤ M') (pow : ℝ) (norm con : Bool) (cnt : Fin D → Fin D → ℤ) (ren : (Fin D → ℤ) → ℕ → Fin D → Bool)
    (epsilon : Fin D → Fin M → ℕ → ℂ) : ∃ epsilon' : Fin D → Fin M' → ℕ → ℂ, ∀ {ι : Type} [Fintype ι] (syms : ι → (Fin L → Fin D) → Fin L → Fin D) x,
      (ARFull.arqGPSFull (fieldsOf pow norm con cnt ren M') epsilon').logPsi syms x =
        (ARFull.arqGPSFull (fieldsOf pow norm con cnt ren M) epsilon).logPsi syms x := by
  refine ⟨fun d m i => if h : m.val < M then epsilon d ⟨m.val, h⟩ i else 0, fun syms x => ?_⟩
  refine logPsi_of_val _ _ _ (ARFull.arqGPSFull_good _ _) ?_ pow norm con cnt ren rfl rfl syms x
  have g := ARFull.arqGPSFull_good (L := L) (fieldsOf pow norm con cnt ren M) epsilon
  have hv : ARFull.fullVal (L := L) (fieldsOf pow norm con cnt ren M') (fun d m i => if h : m.val < M then epsilon d ⟨m.val, h⟩ i else 0) =
      ARFull.fullVal (fieldsOf pow norm con cnt ren M) epsilon := by
    obtain ⟨k, rfl⟩ := Nat.exists_eq_add_of_le hM
    funext i x d
    show ∑ m : Fin (M + k), _ = ∑ m : Fin M, _
    rw [Fin.sum_univ_add]
    simp only [ARFull.contextProd, ARFull.readPacked]
    simp
  exact hv.symm ▸ g

/-- A case of the hypotheses: on two sites with `total_sz = 0`, the singlet `(|01⟩ - |10⟩) / √2` with two support points. -/
example : ∃ epsilon : Fin 2 → Fin 2 → ℕ → ℂ, ∀ x : Fin 2 → Fin 2,
    amplitude ((ARFull.arqGPSFull ⟨2, true, true, defaultCountSpins, defaultRenormalize 2, AR.sumOut⟩ epsilon).logPsi (fun (_ : Unit) y => y) x) =
      if x 0 = x 1 then 0 else if x 0 = 0 then ((1 / Real.sqrt 2 : ℝ) : ℂ) else -((1 / Real.sqrt 2 : ℝ) : ℂ) := by
  refine C160_spin (n := 1) (by norm_num) _ rfl rfl (by norm_num) ⟨rfl, rfl, rfl⟩ (by decide) _ ?_ ?_ _ fun _ _ => rfl
  · have hall : ∀ F : (Fin 2 → Fin 2) → ℝ, ∑ x, F x = F ![0, 0] + F ![0, 1] + F ![1, 0] + F ![1, 1] := by
      intro F
      rw [← (finTwoArrowEquiv (Fin 2)).symm.sum_comp, Fintype.sum_prod_type]
      simp [Fin.sum_univ_two, finTwoArrowEquiv]
      ring
    rw [hall]
    simp
    norm_num
  · intro x
    have hx : ∀ x : Fin 2 → Fin 2, Props.Balanced x ↔ x 0 ≠ x 1 := by
      unfold Props.Balanced
      decide
    rw [hx]
    split_ifs with h1 h2
    · simp [h1]
    · simp [h1]
    · simp [h1]

/-- A case with a symmetry: the triplet `(|01⟩ + |10⟩) / √2` in a model that is symmetrised with respect to the exchange of the two spin states. -/
example : ∃ epsilon : Fin 2 → Fin 2 → ℕ → ℂ, ∀ x : Fin 2 → Fin 2,
    amplitude ((ARFull.arqGPSFull ⟨2, true, true, defaultCountSpins, defaultRenormalize 2, AR.sumOut⟩ epsilon).logPsi
      (fun (b : Bool) y => if b then fun i => 1 - y i else y) x) = if x 0 = x 1 then 0 else ((1 / Real.sqrt 2 : ℝ) : ℂ) := by
  refine C160_spin (n := 1) (by norm_num) _ rfl rfl (by norm_num) ⟨rfl, rfl, rfl⟩ (by decide) _ ?_ ?_ _ ?_
  · have hall : ∀ F : (Fin 2 → Fin 2) → ℝ, ∑ x, F x = F ![0, 0] + F ![0, 1] + F ![1, 0] + F ![1, 1] := by
      intro F
      rw [← (finTwoArrowEquiv (Fin 2)).symm.sum_comp, Fintype.sum_prod_type]
      simp [Fin.sum_univ_two, finTwoArrowEquiv]
      ring
    rw [hall]
    simp
    norm_num
  · intro x
    have hx : ∀ x : Fin 2 → Fin 2, Props.Balanced x ↔ x 0 ≠ x 1 := by
      unfold Props.Balanced
      decide
    rw [hx]
    split_ifs with h1
    · simp [h1]
    · simp [h1]
  · intro x t
    cases t
    · rfl
    · have : (1 - x 0 = 1 - x 1) ↔ x 0 = x 1 := sub_right_inj
      simp [this]

/-- A case of the hypotheses for qGPS: two sites, two support points, spin-flip symmetry. -/
example : ∃ epsilon : Fin 2 → Fin 2 → Fin 2 → ℂ, ∀ x : Fin 2 → Fin 2,
    Complex.exp ((QGPS.model ⟨epsilon, QGPS.symsFlip, QGPS.sumOut⟩).full x) = if x 0 = x 1 then 2 else -3 := by
  refine C160_qgps (n := 1) (by norm_num) QGPS.symsFlip _ ?_ ?_
  · intro x
    split_ifs <;> norm_num
  · intro x t
    have : (QGPS.symsFlip.symmetries x t 0 = QGPS.symsFlip.symmetries x t 1) ↔ x 0 = x 1 := by
      cases t
      · rfl
      · show (1 - x 0 = 1 - x 1) ↔ x 0 = x 1
        exact sub_right_inj
    simp only [this]

end GPSKet.Expressive
