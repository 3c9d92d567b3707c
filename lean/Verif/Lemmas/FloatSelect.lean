import Verif.Model.FloatSelect
import Verif.Lemmas.Autoreg

/-! # Lemmas on the evaluation of autoregressive models with infinities and NaN -/

namespace GPSKet.Floats
open AR F

variable {L D M : ℕ}

namespace F

@[simp] theorem fin_add (x y : ℝ) : fin x + fin y = fin (x + y) := rfl
@[simp] theorem fin_mul (x y : ℝ) : fin x * fin y = fin (x * y) := rfl
@[simp] theorem fin_neg (x : ℝ) : -fin x = fin (-x) := rfl
@[simp] theorem ninf_add (x : ℝ) : ninf + fin x = ninf := rfl
@[simp] theorem add_ninf (x : ℝ) : fin x + ninf = ninf := rfl
@[simp] theorem ninf_add_ninf : ninf + ninf = ninf := rfl
@[simp] theorem nan_add (a : F) : nan + a = nan := by cases a <;> rfl
@[simp] theorem add_nan (a : F) : a + nan = nan := by cases a <;> rfl
@[simp] theorem nan_mul (a : F) : nan * a = nan := by cases a <;> rfl
@[simp] theorem mul_nan (a : F) : a * nan = nan := by cases a <;> rfl
@[simp] theorem nan_neg : -nan = nan := rfl
theorem zero_eq : (0 : F) = fin 0 := rfl

theorem mul_ninf {x : ℝ} (h : 0 < x) : fin x * ninf = ninf := by
  change neg (timesInf x) = ninf
  rw [timesInf, if_pos h]
  rfl

theorem zero_mul_ninf : fin 0 * ninf = nan := by
  change neg (timesInf 0) = nan
  rw [timesInf, if_neg (lt_irrefl _), if_neg (lt_irrefl _)]
  rfl

theorem log_pos {x : ℝ} (h : 0 < x) : F.log (fin x) = fin (Real.log x) := if_pos h

theorem log_zero : F.log (fin 0) = ninf := by
  change (if (0 : ℝ) < 0 then fin (Real.log 0) else if (0 : ℝ) = 0 then ninf else nan) = ninf
  rw [if_neg (lt_irrefl _), if_pos rfl]

theorem sum_fin {ι : Type} (s : Finset ι) (a : ι → ℝ) : ∑ i ∈ s, fin (a i) = fin (∑ i ∈ s, a i) := by
  classical
  induction s using Finset.induction_on with
  | empty => rfl
  | insert i s hi h => rw [Finset.sum_insert hi, Finset.sum_insert hi, h, fin_add]

/-- A sum of finite numbers and `-inf` with at least one `-inf`. -/
theorem sum_ninf {ι : Type} (s : Finset ι) (a : ι → F) (h : ∀ i ∈ s, (∃ x, a i = fin x) ∨ a i = ninf) (j : ι) (hj : j ∈ s)
    (hn : a j = ninf) : ∑ i ∈ s, a i = ninf := by
  classical
  have key : ∀ t : Finset ι, (∀ i ∈ t, (∃ x, a i = fin x) ∨ a i = ninf) → (∃ x, ∑ i ∈ t, a i = fin x) ∨ ∑ i ∈ t, a i = ninf := by
    intro t
    induction t using Finset.induction_on with
    | empty => intro _; exact Or.inl ⟨0, rfl⟩
    | insert i t hi ih =>
      intro ht
      rw [Finset.sum_insert hi]
      rcases ht i (Finset.mem_insert_self i t) with ⟨x, hx⟩ | hx <;>
        rcases ih fun k hk => ht k (Finset.mem_insert_of_mem hk) with ⟨y, hy⟩ | hy <;> rw [hx, hy]
      · exact Or.inl ⟨x + y, rfl⟩
      · exact Or.inr rfl
      · exact Or.inr rfl
      · exact Or.inr rfl
  rw [← Finset.add_sum_erase s a hj, hn]
  rcases key (s.erase j) fun k hk => h k (Finset.mem_of_mem_erase hk) with ⟨x, hx⟩ | hx <;> rw [hx] <;> rfl

theorem sum_nan {ι : Type} (s : Finset ι) (a : ι → F) (j : ι) (hj : j ∈ s) (hn : a j = nan) : ∑ i ∈ s, a i = nan := by
  classical
  rw [← Finset.add_sum_erase s a hj, hn, nan_add]

end F

namespace FC

@[simp] theorem add_re (a b : FC) : (a + b).re = a.re + b.re := rfl
@[simp] theorem add_im (a b : FC) : (a + b).im = a.im + b.im := rfl
@[simp] theorem neg_re (a : FC) : (-a).re = -a.re := rfl
@[simp] theorem neg_im (a : FC) : (-a).im = -a.im := rfl
@[simp] theorem mul_re (a b : FC) : (a * b).re = a.re * b.re + -(a.im * b.im) := rfl
@[simp] theorem mul_im (a b : FC) : (a * b).im = a.re * b.im + a.im * b.re := rfl
@[simp] theorem ofC_re (z : ℂ) : (ofC z).re = fin z.re := rfl
@[simp] theorem ofC_im (z : ℂ) : (ofC z).im = fin z.im := rfl
@[simp] theorem ofF_re (a : F) : (ofF a).re = a := rfl
@[simp] theorem ofF_im (a : F) : (ofF a).im = fin 0 := rfl

theorem sum_re {ι : Type} (s : Finset ι) (a : ι → FC) : (∑ i ∈ s, a i).re = ∑ i ∈ s, (a i).re := by
  classical
  induction s using Finset.induction_on with
  | empty => rfl
  | insert i s hi h => rw [Finset.sum_insert hi, Finset.sum_insert hi, ← h, add_re]

theorem sum_im {ι : Type} (s : Finset ι) (a : ι → FC) : (∑ i ∈ s, a i).im = ∑ i ∈ s, (a i).im := by
  classical
  induction s using Finset.induction_on with
  | empty => rfl
  | insert i s hi h => rw [Finset.sum_insert hi, Finset.sum_insert hi, ← h, add_im]

theorem ofC_mul (a b : ℂ) : ofC a * ofC b = ofC (a * b) := by
  ext
  · simp [Complex.mul_re, sub_eq_add_neg]
  · simp [Complex.mul_im]

theorem ofC_add (a b : ℂ) : ofC a + ofC b = ofC (a + b) := rfl

theorem sum_ofC {ι : Type} (s : Finset ι) (a : ι → ℂ) : ∑ i ∈ s, ofC (a i) = ofC (∑ i ∈ s, a i) := by
  ext
  · rw [sum_re]; simp [F.sum_fin]
  · rw [sum_im]; simp [F.sum_fin]

end FC

/-- `w` is the floating-point number standing for the log-amplitude `a`: a finite number (real for real dtype), or `-inf`, whose
imaginary part is NaN for complex dtype. -/
def Enc (dt : DType) (a : LogAmp) (w : FC) : Prop :=
  match a, dt with
  | some z, .complex => w = FC.ofC z
  | some z, .real => w = FC.ofC z ∧ z.im = 0
  | none, .complex => w = ⟨ninf, nan⟩
  | none, .real => w = ⟨ninf, fin 0⟩

theorem Enc.some {dt : DType} {z : ℂ} {w : FC} (h : Enc dt (some z) w) : w = FC.ofC z := by
  cases dt
  · exact h.1
  · exact h

theorem Enc.none_re {dt : DType} {w : FC} (h : Enc dt none w) : w.re = ninf := by
  cases dt <;> (have h' : w = _ := h; rw [h'])

theorem enc_some {dt : DType} {z : ℂ} (h : dt = .real → z.im = 0) : Enc dt (some z) (FC.ofC z) := by
  cases dt
  · exact ⟨rfl, h rfl⟩
  · rfl

theorem Enc.re {dt : DType} {a : LogAmp} {w : FC} (h : Enc dt a w) : (∃ x, w.re = fin x) ∨ w.re = ninf := by
  cases a with
  | none => exact Or.inr h.none_re
  | some z => exact Or.inl ⟨z.re, by rw [h.some]; rfl⟩

/-- The modulus of the encoded amplitude. -/
theorem Enc.exp {dt : DType} {a : LogAmp} {w : FC} (h : Enc dt a w) {pow : ℝ} (hp : 0 < pow) :
    F.exp (fin pow * w.re) = fin (weight pow a) := by
  cases a with
  | none => rw [h.none_re, F.mul_ninf hp]; rfl
  | some z => rw [h.some]; rfl

/-- For finite arguments `gpu_cond` selects. -/
theorem gpuCond_finite (dt : DType) (p : Bool) (x y : ℂ) (h : dt = .real → x.im = 0 ∧ y.im = 0) :
    gpuCond dt p (FC.ofC x) (FC.ofC y) = FC.ofC (if p then x else y) := by
  cases dt
  · obtain ⟨hx, hy⟩ := h rfl
    cases p <;> ext <;> simp [gpuCond, hx, hy]
  · cases p <;> ext <;> simp [gpuCond]

theorem gpuCondInt_eq (p : Bool) (x y : ℤ) : gpuCondInt p x y = if p then x else y := by
  cases p <;> simp [gpuCondInt]

theorem maskF_enc (dt : DType) (f : Fields D M) (n_spins : Fin D → ℤ) (i : ℕ) (log_psi : Fin D → ℂ)
    (h : dt = .real → ∀ d, (log_psi d).im = 0) (d : Fin D) :
    Enc dt (mask f n_spins i log_psi d) (maskF dt f n_spins (i : ℤ) (fun d => FC.ofC (log_psi d)) d) := by
  unfold mask maskF addRenormalize
  have hi : decide ((0 : ℤ) ≤ (i : ℤ)) = true := decide_eq_true (Int.natCast_nonneg i)
  rw [hi, Int.toNat_natCast]
  by_cases ha : f.renormalize n_spins i d = true
  · rw [if_pos ha, if_pos ha, F.log_pos one_pos, Real.log_one]
    have e : FC.ofC (log_psi d) + FC.ofF (fin 0) = FC.ofC (log_psi d) := by ext <;> simp
    rw [e, gpuCond_finite dt true _ _ fun hd => ⟨h hd d, h hd d⟩]
    exact enc_some fun hd => h hd d
  · rw [if_neg ha, if_neg ha, F.log_zero]
    cases dt
    · change _ = _
      ext
      · simp [gpuCond, F.mul_ninf one_pos]
      · simp [gpuCond]
    · change _ = _
      ext
      · simp [gpuCond, F.mul_ninf one_pos]
      · simp [gpuCond, F.zero_mul_ninf]

theorem logSumExp_enc {dt : DType} {a : Fin D → LogAmp} {w : Fin D → FC} (h : ∀ d, Enc dt (a d) (w d)) {pow : ℝ} (hp : 0 < pow)
    (ha : ∃ d, (a d).isSome) : logSumExp pow w = fin (Real.log (∑ d, weight pow (a d))) := by
  unfold logSumExp
  have : ∀ d, F.exp (fin pow * (w d).re) = fin (weight pow (a d)) := fun d => (h d).exp hp
  simp only [this]
  rw [F.sum_fin, F.log_pos]
  obtain ⟨d, hd⟩ := ha
  exact Finset.sum_pos' (fun e _ => weight_nonneg _ _) ⟨d, Finset.mem_univ d, (weight_pos_iff _ _).mpr hd⟩

theorem maybeNormalizeF_enc {dt : DType} {f : Fields D M} {a : Fin D → LogAmp} {w : Fin D → FC} (h : ∀ d, Enc dt (a d) (w d))
    (hp : 0 < f.machine_pow) (ha : ∃ d, (a d).isSome) (d : Fin D) : Enc dt (maybeNormalize f a d) (maybeNormalizeF f w d) := by
  unfold maybeNormalize maybeNormalizeF
  by_cases hn : f.normalize = true
  · rw [if_pos hn, if_pos hn, logSumExp_enc h hp ha]
    unfold normalizeLog
    have hd := h d
    generalize a d = ad at hd
    cases ad with
    | none =>
      cases dt
      · have e : w d = _ := hd
        change _ = _
        rw [e]
        ext <;> simp
      · have e : w d = _ := hd
        change _ = _
        rw [e]
        ext <;> simp
    | some z =>
      rw [hd.some]
      have e : FC.ofC z + -FC.ofF (fin (1 / f.machine_pow) * fin (Real.log (∑ d, weight f.machine_pow (a d)))) =
          FC.ofC (z - ((1 / f.machine_pow * Real.log (∑ e, weight f.machine_pow (a e)) : ℝ) : ℂ)) := by
        ext
        · simp only [FC.add_re, FC.neg_re, FC.ofF_re, FC.ofC_re, F.fin_mul, F.fin_neg, F.fin_add, Complex.sub_re, Complex.ofReal_re]
          rw [sub_eq_add_neg]
        · simp only [FC.add_im, FC.neg_im, FC.ofF_im, FC.ofC_im, F.fin_neg, F.fin_add, Complex.sub_im, Complex.ofReal_im]
          rw [sub_eq_add_neg]
      rw [e]
      refine enc_some fun hr => ?_
      subst hr
      have : z.im = 0 := hd.2
      simp [this]
  · rw [if_neg hn, if_neg hn]
    exact h d

theorem pickF_enc {dt : DType} {f : Fields D M} {a : Fin L → Fin D → LogAmp} {w : Fin L → Fin D → FC} (h : ∀ i d, Enc dt (a i d) (w i d))
    (hp : 0 < f.machine_pow) (ha : ∀ i, ∃ d, (a i d).isSome) (x : Fin L → Fin D) :
    Enc dt (pickSum (fun i => maybeNormalize f (a i)) x) (pickF f w x) := by
  have hi : ∀ i, Enc dt (maybeNormalize f (a i) (x i)) (maybeNormalizeF f (w i) (x i)) :=
    fun i => maybeNormalizeF_enc (h i) hp (ha i) (x i)
  unfold pickSum pickF
  generalize hb : (fun i => maybeNormalize f (a i) (x i)) = b at *
  generalize hv : (fun i => maybeNormalizeF f (w i) (x i)) = v at *
  have hb' : ∀ i, maybeNormalize f (a i) (x i) = b i := fun i => congrFun hb i
  have hv' : ∀ i, maybeNormalizeF f (w i) (x i) = v i := fun i => congrFun hv i
  simp only [hb', hv'] at hi ⊢
  by_cases hall : ∀ i, (b i).isSome
  · rw [if_pos hall]
    have hz : ∀ i, ∃ z, b i = some z := fun i => Option.isSome_iff_exists.mp (hall i)
    choose z hz using hz
    have e : ∀ i, v i = FC.ofC (z i) := fun i => by
      have := hi i
      rw [hz] at this
      exact this.some
    have g : ∀ i, (b i).getD 0 = z i := fun i => by rw [hz]; rfl
    simp only [e, g]
    rw [FC.sum_ofC]
    refine enc_some fun hr => ?_
    subst hr
    rw [Complex.im_sum]
    refine Finset.sum_eq_zero fun i _ => ?_
    have := hi i
    rw [hz] at this
    exact this.2
  · rw [if_neg hall]
    push Not at hall
    obtain ⟨j, hj⟩ := hall
    have hj : b j = none := by
      cases hbj : b j with
      | none => rfl
      | some z => rw [hbj] at hj; simp at hj
    have hre : (∑ i, v i).re = ninf := by
      rw [FC.sum_re]
      refine F.sum_ninf _ _ (fun i _ => (hi i).re) j (Finset.mem_univ j) ?_
      have := hi j
      rw [hj] at this
      exact this.none_re
    have hj2 := hi j
    rw [hj] at hj2
    cases dt
    · change _ = _
      refine FC.ext hre ?_
      rw [FC.sum_im]
      have : ∀ i, (v i).im = fin 0 := by
        intro i
        have := hi i
        cases hbi : b i with
        | none =>
          rw [hbi] at this
          have e : v i = _ := this
          rw [e]
        | some z =>
          rw [hbi] at this
          rw [this.1]
          exact congrArg fin this.2
      simp only [this]
      rw [F.sum_fin, Finset.sum_const_zero]
    · change _ = _
      refine FC.ext hre ?_
      rw [FC.sum_im]
      have e : v j = _ := hj2
      exact F.sum_nan _ _ j (Finset.mem_univ j) (by rw [e])

theorem times_i (a : ℝ) : (⟨fin 0, fin 1⟩ : FC) * FC.ofF (fin a) = ⟨fin 0, fin a⟩ := by
  ext <;> simp

/-- The real part of the symmetrised log-amplitude. -/
theorem symmetriseF_re {ι : Type} [Fintype ι] {dt : DType} {pow : ℝ} (hp : 0 < pow) {a : ι → LogAmp} {w : ι → FC}
    (h : ∀ t, Enc dt (a t) (w t)) :
    fin (1 / pow) * F.log (∑ t, fin (1 / (Fintype.card ι : ℝ)) * F.exp (fin pow * (w t).re)) =
      if (∑ t, weight pow (a t) * (1 / (Fintype.card ι : ℝ))) = 0 then ninf
      else fin (1 / pow * Real.log (∑ t, weight pow (a t) * (1 / (Fintype.card ι : ℝ)))) := by
  have : ∀ t, F.exp (fin pow * (w t).re) = fin (weight pow (a t)) := fun t => (h t).exp hp
  simp only [this, F.fin_mul]
  rw [F.sum_fin]
  have e : (∑ t, 1 / (Fintype.card ι : ℝ) * weight pow (a t)) = ∑ t, weight pow (a t) * (1 / (Fintype.card ι : ℝ)) :=
    Finset.sum_congr rfl fun t _ => mul_comm _ _
  rw [e]
  have hs : 0 ≤ ∑ t, weight pow (a t) * (1 / (Fintype.card ι : ℝ)) :=
    Finset.sum_nonneg fun t _ => mul_nonneg (weight_nonneg _ _) (by positivity)
  split_ifs with h0
  · rw [h0, F.log_zero, F.mul_ninf (by positivity)]
  · rw [F.log_pos (lt_of_le_of_ne hs (Ne.symm h0)), F.fin_mul]

theorem symmetriseF_finite {ι : Type} [Fintype ι] [Nonempty ι] {dt : DType} {pow : ℝ} (hp : 0 < pow) {a : ι → LogAmp} {w : ι → FC}
    (h : ∀ t, Enc dt (a t) (w t)) (hs : ∀ t, (a t).isSome) : ∃ z, symmetrise pow a = some z ∧ symmetriseF pow w = FC.ofC z := by
  unfold symmetriseF
  rw [symmetriseF_re hp h]
  have hpos : (∑ t, weight pow (a t) * (1 / (Fintype.card ι : ℝ))) ≠ 0 := by
    refine ne_of_gt (Finset.sum_pos (fun t _ => ?_) Finset.univ_nonempty)
    have h1 := (weight_pos_iff pow (a t)).mpr (hs t)
    have h2 : (0 : ℝ) < Fintype.card ι := Nat.cast_pos.mpr Fintype.card_pos
    positivity
  unfold symmetrise
  simp only [if_neg hpos]
  refine ⟨_, rfl, ?_⟩
  choose z hz using fun t => Option.isSome_iff_exists.mp (hs t)
  have e : ∀ t, FC.exp ((⟨fin 0, fin 1⟩ : FC) * FC.ofF (w t).im) = FC.ofC (Complex.exp (Complex.I * ((a t).getD 0).im)) := by
    intro t
    have := h t
    rw [hz t] at this ⊢
    rw [this.some, FC.ofC_im, times_i]
    unfold FC.exp
    have : Complex.I * ((Option.getD (some (z t)) 0).im : ℂ) = ((z t).im : ℂ) * Complex.I := by
      rw [Option.getD_some, mul_comm]
    rw [this, Complex.exp_mul_I]
    ext
    · simp [F.exp, F.cos, ← Complex.ofReal_cos, ← Complex.ofReal_sin]
    · simp [F.exp, F.sin, ← Complex.ofReal_cos, ← Complex.ofReal_sin]
  simp only [e]
  rw [FC.sum_ofC]
  have e2 : FC.logIm (FC.ofC (∑ t, Complex.exp (Complex.I * ((a t).getD 0).im))) =
      fin (Complex.log (∑ t, Complex.exp (Complex.I * ((a t).getD 0).im))).im := rfl
  rw [e2, times_i]
  ext <;> simp

/-- What the evaluation returns for a configuration outside the space. -/
def outside : DType → FC
  | .real => ⟨ninf, fin 0⟩
  | .complex => ⟨nan, nan⟩

/-- The symmetrised log-amplitude of images without amplitude: `-inf` for real dtype, NaN for complex dtype. -/
theorem symmetriseF_none {ι : Type} [Fintype ι] [Nonempty ι] {dt : DType} {pow : ℝ} (hp : 0 < pow) {a : ι → LogAmp} {w : ι → FC}
    (h : ∀ t, Enc dt (a t) (w t)) (hs : ∀ t, a t = none) :
    symmetriseF pow w = outside dt := by
  unfold symmetriseF outside
  rw [symmetriseF_re hp h]
  have h0 : (∑ t, weight pow (a t) * (1 / (Fintype.card ι : ℝ))) = 0 := by
    refine Finset.sum_eq_zero fun t _ => ?_
    rw [hs t]
    simp [weight]
  rw [if_pos h0]
  cases dt
  · have e : ∀ t, FC.exp ((⟨fin 0, fin 1⟩ : FC) * FC.ofF (w t).im) = FC.ofC 1 := by
      intro t
      have := h t
      rw [hs t] at this
      have e : w t = _ := this
      rw [e]
      dsimp only
      rw [times_i]
      unfold FC.exp
      ext <;> simp [F.exp, F.cos, F.sin]
    simp only [e]
    rw [FC.sum_ofC]
    have e2 : FC.logIm (FC.ofC (∑ _t : ι, (1 : ℂ))) = fin (Complex.log (∑ _t : ι, (1 : ℂ))).im := rfl
    rw [e2, times_i]
    have e3 : (Complex.log (∑ _t : ι, (1 : ℂ))).im = 0 := by
      rw [Finset.sum_const, Finset.card_univ, nsmul_eq_mul, mul_one, ← Complex.ofReal_natCast, Complex.log_im,
        Complex.arg_ofReal_of_nonneg (Nat.cast_nonneg _)]
    rw [e3]
    ext <;> simp
  · obtain ⟨t0⟩ := ‹Nonempty ι›
    have e : (FC.exp ((⟨fin 0, fin 1⟩ : FC) * FC.ofF (w t0).im)).re = nan := by
      have := h t0
      rw [hs t0] at this
      have e : w t0 = _ := this
      rw [e]
      simp [FC.exp, F.exp, F.cos]
    have e2 : FC.logIm (∑ t, FC.exp ((⟨fin 0, fin 1⟩ : FC) * FC.ofF (w t).im)) = nan := by
      have e3 := F.sum_nan Finset.univ (fun t => (FC.exp ((⟨fin 0, fin 1⟩ : FC) * FC.ofF (w t).im)).re) t0 (Finset.mem_univ t0) e
      rw [← FC.sum_re] at e3
      unfold FC.logIm
      rw [e3]
    rw [e2]
    ext <;> simp

/-! ## The three models -/

theorem pyIndex_fin [NeZero L] (i : Fin L) : (pyIndex (i : ℤ) : Fin L) = i := by
  unfold pyIndex
  rw [if_neg (by omega)]
  ext
  simp [Fin.ofNat, Nat.mod_eq_of_lt i.isLt]

theorem pyIndex_prev [NeZero L] (i : Fin L) : (pyIndex ((i : ℤ) - 1) : Fin L) = prevSite i := by
  have hi := i.isLt
  unfold pyIndex prevSite
  ext
  simp only [Fin.ofNat]
  by_cases h : i.val = 0
  · rw [if_pos (by omega), if_pos h, h]
    have : ((((0 : ℕ) : ℤ) - 1) + (L : ℤ)).toNat = L - 1 := by omega
    rw [this]
    exact Nat.mod_eq_of_lt (by omega)
  · rw [if_neg (by omega), if_neg h]
    have : (((i.val : ℕ) : ℤ) - 1).toNat = i.val - 1 := by omega
    rw [this]
    exact Nat.mod_eq_of_lt (by omega)

theorem bumpSpinsF_eq [NeZero L] (f : Fields D M) (n_spins : Fin D → ℤ) (inputs : Fin L → Fin D) (i : Fin L) :
    bumpSpinsF f n_spins inputs (i : ℤ) = bumpSpins f n_spins inputs i := by
  unfold bumpSpinsF bumpSpins
  funext d
  rw [gpuCondInt_eq, pyIndex_prev]
  by_cases h : i.val > 0
  · rw [if_pos (by simpa using h), if_pos h]
  · rw [if_neg (by simpa using h), if_neg h]

theorem conditionalsF_enc [NeZero L] (dt : DType) (f : Fields D M) (epsilon : Fin D → Fin M → Fin L → ℂ)
    (hf : f.out_transformation = sumOut) (hr : dt = .real → ∀ d m i, (epsilon d m i).im = 0) (x : Fin L → Fin D) (i : Fin L) (d : Fin D) :
    Enc dt ((arqGPS f epsilon).conditionalsLog x i d) (conditionalsF dt f epsilon x i d) := by
  have step : ∀ (st : Carry D M) (i : Fin L), (dt = .real → ∀ d m, (st.cache d m).im = 0) →
      (computeConditionalF dt f epsilon ⟨fun d m => FC.ofC (st.cache d m), st.n_spins⟩ x i).1 =
        ⟨fun d m => FC.ofC ((computeConditional f epsilon st x i).1.cache d m), (computeConditional f epsilon st x i).1.n_spins⟩ ∧
      (dt = .real → ∀ d m, ((computeConditional f epsilon st x i).1.cache d m).im = 0) ∧
      ∀ d, Enc dt ((computeConditional f epsilon st x i).2 d)
        ((computeConditionalF dt f epsilon ⟨fun d m => FC.ofC (st.cache d m), st.n_spins⟩ x i).2 d) := by
    intro st i hst
    have hreal : dt = .real → ∀ d m, (epsilon d m i * st.cache (x (prevSite i)) m).im = 0 := by
      intro hd d m
      rw [Complex.mul_im, hr hd, hst hd]
      simp
    have hpos : decide ((0 : ℤ) ≤ (i : ℤ)) = true := decide_eq_true (Int.natCast_nonneg i)
    unfold computeConditionalF computeConditional
    simp only [pyIndex_fin, pyIndex_prev, bumpSpinsF_eq, FC.ofC_mul, FC.sum_ofC, hpos]
    refine ⟨?_, hreal, ?_⟩
    · congr 1
      funext d m
      rw [gpuCond_finite dt true _ _ fun hd => ⟨hreal hd d m, hst hd d m⟩, if_pos rfl]
    · intro d
      have := maskF_enc dt f (bumpSpins f st.n_spins x i) i (fun d => ∑ m, epsilon d m i * st.cache (x (prevSite i)) m)
        (fun hd d => by rw [Complex.im_sum]; exact Finset.sum_eq_zero fun m _ => hreal hd d m) d
      rw [hf]
      exact this
  have scan : ∀ k, scanState (fun (st : CarryF D M) (index : Fin L) =>
      let r := computeConditionalF dt f epsilon st x index
      ((⟨r.1.cache, fun d => gpuCondInt f.constrained (r.1.n_spins d) 0⟩ : CarryF D M), r.2)) ⟨fun _ _ => FC.ofC 1, fun _ => 0⟩ k =
      ⟨fun d m => FC.ofC ((scanState (AR.scanStep f epsilon x) ⟨fun _ _ => 1, fun _ => 0⟩ k).cache d m),
        (scanState (AR.scanStep f epsilon x) ⟨fun _ _ => 1, fun _ => 0⟩ k).n_spins⟩ ∧
      (dt = .real → ∀ d m, ((scanState (AR.scanStep f epsilon x) ⟨fun _ _ => 1, fun _ => 0⟩ k).cache d m).im = 0) := by
    intro k
    induction k with
    | zero => exact ⟨rfl, fun _ _ _ => Complex.one_im⟩
    | succ k ih =>
      unfold scanState
      by_cases hk : k < L
      · simp only [dif_pos hk]
        rw [ih.1]
        obtain ⟨s1, s2, -⟩ := step _ ⟨k, hk⟩ ih.2
        dsimp only at s1 ⊢
        rw [s1]
        refine ⟨?_, s2⟩
        unfold AR.scanStep
        congr 1
        funext d
        rw [gpuCondInt_eq]
        by_cases hc : f.constrained = true
        · simp only [hc, if_true]
        · simp only [hc]; rfl
      · simp only [dif_neg hk]
        exact ih
  unfold conditionalsF Machine.conditionalsLog scanOut
  rw [(scan i).1]
  exact (step _ i (scan i).2).2.2 d

/-- For the models which only cache the spin counts. -/
theorem spins_enc [NeZero L] (dt : DType) (f : Fields D M) (x : Fin L → Fin D) (val : Fin L → Fin D → ℂ)
    (hr : dt = .real → ∀ i d, (val i d).im = 0) (i : Fin L) (d : Fin D) :
    Enc dt (scanOut (fun (n_spins : Fin D → ℤ) (index : Fin L) =>
        ((if f.constrained then bumpSpins f n_spins x index else fun _ => 0),
          mask f (bumpSpins f n_spins x index) index (val index))) (fun _ => 0) i d)
      (scanOut (fun (n_spins : Fin D → ℤ) (index : Fin L) =>
        ((fun d => gpuCondInt f.constrained (bumpSpinsF f n_spins x index d) 0),
          maskF dt f (bumpSpinsF f n_spins x index) index fun d => FC.ofC (val index d))) (fun _ => 0) i d) := by
  have e : ∀ k, scanState (fun (n_spins : Fin D → ℤ) (index : Fin L) =>
        ((fun d => gpuCondInt f.constrained (bumpSpinsF f n_spins x index d) 0),
          maskF dt f (bumpSpinsF f n_spins x index) index fun d => FC.ofC (val index d))) (fun _ => 0) k =
      scanState (fun (n_spins : Fin D → ℤ) (index : Fin L) =>
        ((if f.constrained then bumpSpins f n_spins x index else fun _ => 0),
          mask f (bumpSpins f n_spins x index) index (val index))) (fun _ => 0) k := by
    intro k
    induction k with
    | zero => rfl
    | succ k ih =>
      unfold scanState
      by_cases hk : k < L
      · simp only [dif_pos hk]
        rw [ih]
        funext d
        have hb := bumpSpinsF_eq f (scanState (fun (n_spins : Fin D → ℤ) (index : Fin L) =>
          ((if f.constrained then bumpSpins f n_spins x index else fun _ => 0),
            mask f (bumpSpins f n_spins x index) index (val index))) (fun _ => 0) k) x ⟨k, hk⟩
        dsimp only at hb
        rw [gpuCondInt_eq, hb]
        by_cases hc : f.constrained = true
        · simp only [hc, if_true]
        · simp only [hc]; rfl
      · simp only [dif_neg hk]
        exact ih
  unfold scanOut
  rw [e]
  dsimp only
  rw [bumpSpinsF_eq]
  exact maskF_enc dt f _ i (val i) (fun hd d => hr hd i d) d

end GPSKet.Floats
