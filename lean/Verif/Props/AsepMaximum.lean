import Verif.Lemmas.AsepMaximum
import Verif.Model.AsepTutorial

/-!
# C181: what maximising the energy of an exclusion process finds

The tutorial maximises the energy and compares it with the eigenvalue of largest real part, the cumulant generating function.
-/

namespace GPSKet.AsepMaximum
open GPSKet.Spec hiding localEnergy
open GPSKet.Asep GPSKet.AsepSpectrum

variable {n : ℕ}

/-- `theta` is the eigenvalue with the largest real part. -/
def IsTop (r : AsepRates) (n : ℕ) (theta : ℝ) : Prop := IsEigenvalue r n theta ∧ ∀ z, IsEigenvalue r n z → z.re ≤ theta

/-- It exists for positive rates (C168) and is unique. -/
theorem top_exists (r : AsepRates) (hr : Positive r) (n : ℕ) : ∃! theta, IsTop r n theta := by
  obtain ⟨t, h1, h2, -⟩ := C168_perron r hr n
  refine ⟨t, ⟨h1, h2⟩, fun s hs => le_antisymm ?_ ?_⟩
  · simpa using h2 s hs.1
  · simpa using hs.2 t h1

theorem top_vector (r : AsepRates) (hr : Positive r) {theta : ℝ} (ht : IsTop r n theta) :
    ∃ v : Chain n → ℝ, (∀ x, 0 < v x) ∧ (∀ x, localEnergy r v x = theta) ∧ ∀ x, ∑ y, rowElem (kernel r [x]).out y * v y = theta * v x := by
  obtain ⟨t, h1, h2, ⟨v, hv, hloc⟩, -⟩ := C168_perron r hr n
  have : theta = t := (top_exists r hr n).unique ht ⟨h1, h2⟩
  subst this
  refine ⟨v, hv, hloc, fun x => ?_⟩
  have h := hloc x
  unfold localEnergy at h
  rwa [sum_entries, div_eq_iff (hv x).ne'] at h

theorem energy_real (r : AsepRates) (psi : Chain n → ℝ) :
    energy r (fun x => (psi x : ℂ)) = (((∑ x, ∑ y, psi x * rowElem (kernel r [x]).out y * psi y) / ∑ x, psi x ^ 2 : ℝ) : ℂ) := by
  unfold energy rayleigh bornNorm
  simp only [Complex.conj_ofReal, Complex.norm_real, Real.norm_eq_abs, sq_abs]
  push_cast
  rfl

theorem energy_re (r : AsepRates) (phi : Chain n → ℂ) :
    (energy r phi).re = (∑ x, ∑ y, (starRingEnd ℂ) (phi x) * ((rowElem (kernel r [x]).out y : ℝ) : ℂ) * phi y).re / ∑ x, ‖phi x‖ ^ 2 := by
  unfold energy rayleigh bornNorm
  rw [Complex.div_ofReal_re]

theorem norm_pos {phi : Chain n → ℂ} (h : phi ≠ 0) : 0 < ∑ x, ‖phi x‖ ^ 2 := by
  obtain ⟨x, hx⟩ := Function.ne_iff.mp h
  exact Finset.sum_pos' (fun _ _ => by positivity) ⟨x, Finset.mem_univ x, by have : ‖phi x‖ ≠ 0 := norm_ne_zero_iff.mpr hx; positivity⟩

/-- **C181**: some positive amplitudes have the eigenvalue with the largest real part as their energy: the maximum is not below it. -/
theorem C181_reached (r : AsepRates) (hr : Positive r) {theta : ℝ} (ht : IsTop r n theta) :
    ∃ psi : Chain n → ℝ, (∀ x, 0 < psi x) ∧ energy r (fun x => (psi x : ℂ)) = theta := by
  obtain ⟨v, hv, -, he⟩ := top_vector r hr ht
  refine ⟨v, hv, ?_⟩
  rw [energy_real]
  congr 1
  rw [div_eq_iff (Finset.sum_pos (fun x _ => pow_pos (hv x) 2) Finset.univ_nonempty).ne', Finset.mul_sum]
  refine Finset.sum_congr rfl fun x _ => ?_
  simp only [mul_assoc]
  rw [← Finset.mul_sum, he x]
  ring

/-- If the largest energy is the eigenvalue, positive amplitudes are an eigenvector from both sides; otherwise positive amplitudes have a
larger energy. -/
theorem exceeds (r : AsepRates) (hr : Positive r) {theta : ℝ} (ht : IsTop r n theta)
    (h : ¬ ∃ v : Chain n → ℝ, (∀ x, 0 < v x) ∧ (∀ x, ∑ y, rowElem (kernel r [x]).out y * v y = theta * v x) ∧
      ∀ y, ∑ x, v x * rowElem (kernel r [x]).out y = theta * v y) :
    ∃ psi : Chain n → ℝ, (∀ x, 0 < psi x) ∧ theta < (energy r (fun x => (psi x : ℂ))).re := by
  obtain ⟨v, hv, -, he⟩ := top_vector r hr ht
  obtain ⟨psi, h1, h2⟩ := improve (fun x y => rowElem (kernel r [x]).out y) theta v hv he (fun hl => h ⟨v, hv, he, hl⟩)
  refine ⟨psi, h1, ?_⟩
  rw [energy_real, Complex.ofReal_re, lt_div_iff₀ (Finset.sum_pos (fun x _ => pow_pos (h1 x) 2) Finset.univ_nonempty)]
  exact h2

/-- **C181**: the largest energy is the eigenvalue with the largest real part exactly if some positive amplitudes are an eigenvector
of the operator and of its transpose. -/
theorem C181_iff (r : AsepRates) (hr : Positive r) {theta : ℝ} (ht : IsTop r n theta) :
    (∀ phi : Chain n → ℂ, phi ≠ 0 → (energy r phi).re ≤ theta) ↔
      ∃ v : Chain n → ℝ, (∀ x, 0 < v x) ∧ (∀ x, ∑ y, rowElem (kernel r [x]).out y * v y = theta * v x) ∧
        ∀ y, ∑ x, v x * rowElem (kernel r [x]).out y = theta * v y := by
  constructor
  · intro h
    by_contra hc
    obtain ⟨psi, h1, h2⟩ := exceeds r hr ht hc
    refine absurd (h (fun x => (psi x : ℂ)) ?_) (not_le.mpr h2)
    intro h0
    have : ((psi 0 : ℝ) : ℂ) = 0 := congrFun h0 0
    exact (h1 0).ne' (by exact_mod_cast this)
  · rintro ⟨v, hv, h1, h2⟩ phi hphi
    rw [energy_re, div_le_iff₀ (norm_pos hphi)]
    refine bounded (fun x y => rowElem (kernel r [x]).out y) (fun x y hxy => ?_) theta v hv h1 h2 phi
    exact C08_asep_nonneg r hr.1.le hr.2.1.le hr.2.2.1.le hr.2.2.2.1.le hr.2.2.2.2.1.le hr.2.2.2.2.2.le x y hxy

/-- **C181** (partial): if the operator is symmetric, the largest energy of all states is the eigenvalue with the largest real part. -/
theorem C181_symmetric_partial (r : AsepRates) (hr : Positive r) {theta : ℝ} (ht : IsTop r n theta)
    (hs : ∀ x y : Chain n, rowElem (kernel r [x]).out y = rowElem (kernel r [y]).out x) (phi : Chain n → ℂ) (hphi : phi ≠ 0) :
    (energy r phi).re ≤ theta := by
  obtain ⟨v, hv, -, he⟩ := top_vector r hr ht
  refine (C181_iff r hr ht).mpr ⟨v, hv, he, fun y => ?_⟩ phi hphi
  rw [← he y]
  exact Finset.sum_congr rfl fun x _ => by rw [hs x y, mul_comm]

/-- The moves to the right out of `x`, weighted. -/
def rightSum (v : Chain n → ℝ) (x : Chain n) : ℝ :=
  (if x 0 = 0 then v (Function.update x 0 1) else 0) + (if x (Fin.last n) = 1 then v (Function.update x (Fin.last n) 0) else 0)
    + ∑ i : Fin n, if x i.castSucc = 1 ∧ x i.succ = 0 then v (Function.update (Function.update x i.castSucc 0) i.succ 1) else 0

/-- The moves to the left out of `x`, weighted. -/
def leftSum (v : Chain n → ℝ) (x : Chain n) : ℝ :=
  (if x 0 = 1 then v (Function.update x 0 0) else 0) + (if x (Fin.last n) = 0 then v (Function.update x (Fin.last n) 1) else 0)
    + ∑ i : Fin n, if x i.succ = 1 ∧ x i.castSucc = 0 then v (Function.update (Function.update x i.succ 0) i.castSucc 1) else 0

theorem row_equal (k lambd : ℝ) (v : Chain n → ℝ) (x : Chain n) :
    ∑ y, asepGenerator (equalRates k lambd) x y * v y = k * Real.exp lambd * rightSum v x + k * Real.exp (-lambd) * leftSum v x
      - k * (rightSum (fun _ => 1) x + leftSum (fun _ => 1) x) * v x := by
  rw [row_sum, sum_moves]
  simp only [AsepMove.enabled, AsepMove.target, AsepMove.rate, AsepMove.current, weight, equalRates, rightSum, leftSum, mul_one, mul_neg_one]
  have e : ∀ (P : Fin n → Prop) [DecidablePred P] (a : ℝ) (f : Fin n → ℝ),
      (∑ i, if P i then a * f i - k * v x else 0) = a * (∑ i, if P i then f i else 0) - k * (∑ i, if P i then 1 else 0) * v x := by
    intro P _ a f
    rw [Finset.mul_sum, Finset.mul_sum, Finset.sum_mul, ← Finset.sum_sub_distrib]
    refine Finset.sum_congr rfl fun i _ => ?_
    split_ifs <;> ring
  rw [e, e]
  split_ifs <;> ring

theorem column_equal (k lambd : ℝ) (v : Chain n → ℝ) (x : Chain n) :
    ∑ y, v y * asepGenerator (equalRates k lambd) y x = k * Real.exp (-lambd) * rightSum v x + k * Real.exp lambd * leftSum v x
      - k * (rightSum (fun _ => 1) x + leftSum (fun _ => 1) x) * v x := by
  rw [column_sum, sum_moves]
  simp only [AsepMove.enabled, AsepMove.target, AsepMove.rate, AsepMove.current, weight, rev, equalRates, rightSum, leftSum, mul_one, mul_neg_one]
  have e : ∀ (P : Fin n → Prop) [DecidablePred P] (a : ℝ) (f : Fin n → ℝ),
      (∑ i, if P i then a * f i - k * v x else 0) = a * (∑ i, if P i then f i else 0) - k * (∑ i, if P i then 1 else 0) * v x := by
    intro P _ a f
    rw [Finset.mul_sum, Finset.mul_sum, Finset.sum_mul, ← Finset.sum_sub_distrib]
    refine Finset.sum_congr rfl fun i _ => ?_
    split_ifs <;> ring
  rw [e, e]
  split_ifs <;> ring

/-- For equal rates and a non-zero counting field, an eigenvector from both sides gives the moves to the right and to the left the same weight. -/
theorem balance {k lambd theta : ℝ} (hk : 0 < k) (hl : lambd ≠ 0) {v : Chain n → ℝ}
    (h1 : ∀ x, ∑ y, asepGenerator (equalRates k lambd) x y * v y = theta * v x)
    (h2 : ∀ y, ∑ x, v x * asepGenerator (equalRates k lambd) x y = theta * v y) (x : Chain n) :
    rightSum v x = leftSum v x ∧
      k * (Real.exp lambd + Real.exp (-lambd)) * rightSum v x = (theta + k * (rightSum (fun _ => 1) x + leftSum (fun _ => 1) x)) * v x := by
  have e1 := h1 x
  have e2 := h2 x
  rw [row_equal] at e1
  rw [column_equal] at e2
  have hne : Real.exp lambd - Real.exp (-lambd) ≠ 0 := by
    intro h
    have := Real.exp_injective (sub_eq_zero.mp h)
    exact hl (by linarith)
  have hR : rightSum v x = leftSum v x := by
    have h3 : k * (Real.exp lambd - Real.exp (-lambd)) * (rightSum v x - leftSum v x) = 0 := by linear_combination e1 - e2
    rcases mul_eq_zero.mp h3 with h | h
    · exact absurd h (mul_ne_zero hk.ne' hne)
    · linarith
  refine ⟨hR, ?_⟩
  rw [← hR] at e1
  linear_combination e1

/-- With two sites there is no such eigenvector. -/
theorem none_two {k lambd theta : ℝ} (hk : 0 < k) (hl : lambd ≠ 0) {v : Chain 1 → ℝ} (hv : ∀ x, 0 < v x)
    (h1 : ∀ x, ∑ y, asepGenerator (equalRates k lambd) x y * v y = theta * v x)
    (h2 : ∀ y, ∑ x, v x * asepGenerator (equalRates k lambd) x y = theta * v y) : False := by
  have b := balance hk hl h1 h2
  set a := v ![0, 0] with ha
  set c := v ![1, 0] with hc
  set d := v ![0, 1] with hd
  set e := v ![1, 1] with he
  have hlast : Fin.last 1 = (1 : Fin 2) := rfl
  have r00 : ∀ f : Chain 1 → ℝ, rightSum f ![0, 0] = f ![1, 0] ∧ leftSum f ![0, 0] = f ![0, 1] := by
    intro f
    constructor <;> simp [rightSum, leftSum, hlast] <;> exact congrArg f (by decide)
  have r10 : ∀ f : Chain 1 → ℝ, rightSum f ![1, 0] = f ![0, 1] ∧ leftSum f ![1, 0] = f ![0, 0] + f ![1, 1] := by
    intro f
    constructor
    · simp [rightSum, hlast]
      exact congrArg f (by decide)
    · simp [leftSum, hlast]
      exact congrArg₂ (· + ·) (congrArg f (by decide)) (congrArg f (by decide))
  have r11 : ∀ f : Chain 1 → ℝ, rightSum f ![1, 1] = f ![1, 0] ∧ leftSum f ![1, 1] = f ![0, 1] := by
    intro f
    constructor <;> simp [rightSum, leftSum, hlast] <;> exact congrArg f (by decide)
  have b00 := b ![0, 0]
  have b10 := b ![1, 0]
  have b11 := b ![1, 1]
  simp only [(r00 _).1, (r00 _).2] at b00
  simp only [(r10 _).1, (r10 _).2] at b10
  simp only [(r11 _).1, (r11 _).2] at b11
  have hE : 0 < Real.exp lambd + Real.exp (-lambd) := by positivity
  have pa : 0 < a := hv _
  have pc : 0 < c := hv _
  have pe : 0 < e := hv _
  set E := Real.exp lambd + Real.exp (-lambd)
  have hcd : c = d := b00.1
  norm_num at b00 b10 b11
  simp only [← ha, ← hc, ← hd, ← he] at b00 b10 b11
  have hcae : c = a + e := by rw [hcd]; exact b10.1
  have hne : theta + k * 2 ≠ 0 := by
    intro h
    have := b00.2
    rw [h, zero_mul] at this
    exact (mul_pos (mul_pos hk hE) pc).ne' this
  have hae : a = e := mul_left_cancel₀ hne (b00.2.symm.trans b11.2)
  have hc2 : c = 2 * a := by rw [hcae, ← hae]; ring
  have e1 : k * E * 2 = theta + k * 2 := by
    have := b00.2
    rw [hc2] at this
    exact mul_right_cancel₀ pa.ne' (by linear_combination this)
  have e2 : k * E = theta + k * 3 := by
    have := b10.2
    rw [← hcd] at this
    exact mul_right_cancel₀ pc.ne' this
  have := mul_pos hk hE
  linarith

/-- The configuration with particles at the sites in `S`. -/
def sites (S : ℕ → Prop) [DecidablePred S] (n : ℕ) : Chain n := fun j => if S j.val then 1 else 0

theorem sites_one (S : ℕ → Prop) [DecidablePred S] (j : Fin (n + 1)) : sites S n j = 1 ↔ S j.val := by
  unfold sites; split_ifs with h <;> simp [h]

theorem sites_zero (S : ℕ → Prop) [DecidablePred S] (j : Fin (n + 1)) : sites S n j = 0 ↔ ¬ S j.val := by
  unfold sites; split_ifs with h <;> simp [h]

theorem sites_fill (S T : ℕ → Prop) [DecidablePred S] [DecidablePred T] (j : Fin (n + 1)) (h : ∀ k, k ≤ n → (T k ↔ S k ∨ k = j.val)) :
    Function.update (sites S n) j 1 = sites T n := by
  funext k
  have := h k.val (by omega)
  by_cases hk : k = j
  · subst hk
    rw [Function.update_self]
    symm
    rw [sites_one, this]
    exact Or.inr rfl
  · rw [Function.update_of_ne hk]
    have hk' : k.val ≠ j.val := fun e => hk (Fin.ext e)
    unfold sites
    simp [this, hk']

theorem sites_empty (S T : ℕ → Prop) [DecidablePred S] [DecidablePred T] (j : Fin (n + 1)) (h : ∀ k, k ≤ n → (T k ↔ S k ∧ k ≠ j.val)) :
    Function.update (sites S n) j 0 = sites T n := by
  funext k
  have := h k.val (by omega)
  by_cases hk : k = j
  · subst hk
    rw [Function.update_self]
    symm
    rw [sites_zero, this]
    simp
  · rw [Function.update_of_ne hk]
    have hk' : k.val ≠ j.val := fun e => hk (Fin.ext e)
    unfold sites
    simp [this, hk']

theorem sum_if_one {N : ℕ} (P : Fin N → Prop) [DecidablePred P] (f : Fin N → ℝ) (i : Fin N) (h : ∀ j, P j ↔ j = i) :
    (∑ j, if P j then f j else 0) = f i := by
  simp only [h]
  simp

theorem sum_if_none {N : ℕ} (P : Fin N → Prop) [DecidablePred P] (f : Fin N → ℝ) (h : ∀ j, ¬ P j) :
    (∑ j, if P j then f j else 0) = 0 := by
  simp [h]

/-- With three or more sites there is no such eigenvector. -/
theorem none_more {k lambd theta : ℝ} (hk : 0 < k) (hl : lambd ≠ 0) (m : ℕ) {v : Chain (m + 2) → ℝ} (hv : ∀ x, 0 < v x)
    (h1 : ∀ x, ∑ y, asepGenerator (equalRates k lambd) x y * v y = theta * v x)
    (h2 : ∀ y, ∑ x, v x * asepGenerator (equalRates k lambd) x y = theta * v y) : False := by
  have b := balance hk hl h1 h2
  set o : Chain (m + 2) := sites (fun _ => False) (m + 2) with ho
  set p : Chain (m + 2) := sites (fun j => j = 0) (m + 2) with hp
  set q : Chain (m + 2) := sites (fun j => j = 1) (m + 2) with hq
  set pl : Chain (m + 2) := sites (fun j => j = 0 ∨ j = m + 2) (m + 2) with hpl
  set ql : Chain (m + 2) := sites (fun j => j = 1 ∨ j = m + 2) (m + 2) with hql
  -- the first site occupied
  have rp : ∀ f : Chain (m + 2) → ℝ, rightSum f p = f q := by
    intro f
    unfold rightSum
    rw [if_neg (by rw [hp, sites_zero]; simp), if_neg (by rw [hp, sites_one]; simp), zero_add, zero_add]
    rw [sum_if_one _ _ 0]
    · congr 1
      rw [hp, hq, sites_empty _ (fun _ => False) _ (by intro k _; simp), sites_fill _ (fun j => j = 1) _ (by intro k _; simp)]
    · intro j
      rw [hp, sites_one, sites_zero, Fin.ext_iff]
      have := j.isLt
      simp only [Fin.val_castSucc, Fin.val_succ, Fin.val_zero, Fin.val_one]
      omega
  have lp : ∀ f : Chain (m + 2) → ℝ, leftSum f p = f o + f pl := by
    intro f
    unfold leftSum
    rw [if_pos (by rw [hp, sites_one]; simp), if_pos (by rw [hp, sites_zero]; simp), sum_if_none, add_zero]
    · congr 2
      · rw [hp, ho, sites_empty _ (fun _ => False) _ (by intro k _; simp)]
      · rw [hp, hpl, sites_fill _ (fun j => j = 0 ∨ j = m + 2) _ (by intro k _; simp)]
    · intro j
      rw [hp, sites_one, sites_zero]
      simp
  -- the first and the last site occupied
  have rpl : ∀ f : Chain (m + 2) → ℝ, rightSum f pl = f p + f ql := by
    intro f
    unfold rightSum
    rw [if_neg (by rw [hpl, sites_zero]; simp), if_pos (by rw [hpl, sites_one]; simp), zero_add]
    rw [sum_if_one _ _ 0]
    · congr 2
      · rw [hpl, hp, sites_empty _ (fun j => j = 0) _ (by intro k _; simp only [Fin.val_last]; omega)]
      · rw [hpl, hql, sites_empty _ (fun j => j = m + 2) _ (by intro k _; simp; omega),
          sites_fill _ (fun j => j = 1 ∨ j = m + 2) _ (by intro k _; simp; omega)]
    · intro j
      rw [hpl, sites_one, sites_zero, Fin.ext_iff]
      have := j.isLt
      simp only [Fin.val_castSucc, Fin.val_succ, Fin.val_zero, Fin.val_last]
      omega
  have lpl : leftSum (fun _ => 1) pl = 2 := by
    unfold leftSum
    rw [if_pos (by rw [hpl, sites_one]; simp), if_neg (by rw [hpl, sites_zero]; simp)]
    rw [sum_if_one _ _ (Fin.last (m + 1))]
    · norm_num
    · intro j
      rw [hpl, sites_one, sites_zero, Fin.ext_iff]
      have := j.isLt
      simp only [Fin.val_castSucc, Fin.val_succ, Fin.val_zero, Fin.val_last]
      omega
  -- the second site occupied
  have lq : ∀ f : Chain (m + 2) → ℝ, leftSum f q = f p + f ql := by
    intro f
    unfold leftSum
    rw [if_neg (by rw [hq, sites_one]; simp), if_pos (by rw [hq, sites_zero]; simp), zero_add]
    rw [sum_if_one _ _ 0, add_comm]
    · congr 2
      · rw [hq, hp, sites_empty _ (fun _ => False) _ (by intro k _; simp), sites_fill _ (fun j => j = 0) _ (by intro k _; simp)]
      · rw [hq, hql, sites_fill _ (fun j => j = 1 ∨ j = m + 2) _ (by intro k _; simp)]
    · intro j
      rw [hq, sites_one, sites_zero, Fin.ext_iff]
      have := j.isLt
      simp only [Fin.val_castSucc, Fin.val_succ, Fin.val_zero, Fin.val_one]
      omega
  have rq : rightSum (fun _ => 1) q = 2 := by
    unfold rightSum
    rw [if_pos (by rw [hq, sites_zero]; simp), if_neg (by rw [hq, sites_one]; simp)]
    rw [sum_if_one _ _ 1]
    · norm_num
    · intro j
      rw [hq, sites_one, sites_zero, Fin.ext_iff]
      have := j.isLt
      simp only [Fin.val_castSucc, Fin.val_succ, Fin.val_zero, Fin.val_one]
      omega
  have b1 := (b p).1
  rw [rp, lp] at b1
  have b2 := (b pl).2
  rw [rpl, rpl, lpl] at b2
  have b3 := (b q).2
  rw [(b q).1, lq, lq, rq] at b3
  have hE : 0 < Real.exp lambd + Real.exp (-lambd) := by positivity
  have hne : theta + k * ((1 + 1) + 2) ≠ 0 := by
    intro h
    rw [h, zero_mul] at b2
    have := add_pos (hv p) (hv ql)
    exact (mul_pos (mul_pos hk hE) this).ne' b2
  have h3 : v pl = v q := mul_left_cancel₀ hne (b2.symm.trans (b3.trans (by ring)))
  have := hv o
  linarith

/-- **C181 is false of the tutorial**: with equal rates, at least two sites and any non-zero counting field, some positive amplitudes have an
energy larger than the eigenvalue with the largest real part: the maximum is another number. -/
theorem C181_tutorial_fails {k lambd : ℝ} (hk : 0 < k) (hl : lambd ≠ 0) (m : ℕ) {theta : ℝ} (ht : IsTop (equalRates k lambd) (m + 1) theta) :
    ∃ psi : Chain (m + 1) → ℝ, (∀ x, 0 < psi x) ∧ theta < (energy (equalRates k lambd) (fun x => (psi x : ℂ))).re := by
  refine exceeds _ ⟨hk, hk, hk, hk, hk, hk⟩ ht ?_
  rintro ⟨v, hv, h1, h2⟩
  simp only [C09_asep_generator] at h1 h2
  cases m with
  | zero => exact none_two hk hl hv h1 h2
  | succ m => exact none_more hk hl m hv h1 h2

/-- **C181** (partial): without counting field, or with one site only, equal rates give a symmetric operator, and the largest energy is the
eigenvalue. -/
theorem C181_equal_partial {k lambd : ℝ} (hk : 0 < k) (h : lambd = 0 ∨ n = 0) {theta : ℝ} (ht : IsTop (equalRates k lambd) n theta)
    (phi : Chain n → ℂ) (hphi : phi ≠ 0) : (energy (equalRates k lambd) phi).re ≤ theta := by
  refine C181_symmetric_partial _ ⟨hk, hk, hk, hk, hk, hk⟩ ht ?_ phi hphi
  intro x y
  simp only [C09_asep_generator]
  rcases h with h | h
  · have := gen_transpose (n := n) (equalRates k lambd) (equalRates k lambd) (fun _ => 0) (fun m => rfl)
      (fun m => by subst h; cases m <;> simp [rev, weight, equalRates, AsepMove.rate, AsepMove.current, rise]) y x
    simpa [level] using this
  · subst h
    revert x y
    intro x y
    by_cases hxy : x = y
    · rw [hxy]
    rw [gen_offdiag _ hxy, gen_offdiag _ (Ne.symm hxy), sum_moves, sum_moves]
    have hx : ∀ z : Chain 0, z = (fun _ => 0) ∨ z = fun _ => 1 := by decide
    have hne : (fun _ => 0 : Chain 0) ≠ fun _ => 1 := by decide
    have h0 : ∀ (z : Chain 0) (j s), Function.update z j s = fun _ => s := by decide
    rcases hx x with rfl | rfl <;> rcases hx y with rfl | rfl
    · exact absurd rfl hxy
    · simp [AsepMove.enabled, AsepMove.target, h0, hne, weight, equalRates, AsepMove.rate, AsepMove.current]
      ring
    · simp [AsepMove.enabled, AsepMove.target, h0, hne, weight, equalRates, AsepMove.rate, AsepMove.current]
      ring
    · exact absurd rfl hxy

/-- What leaves and enters a configuration without counting field, in terms of its first and last site. -/
theorem column_free (r : AsepRates) (h0 : r.lambd = 0) (y : Chain n) :
    ∑ x, 1 * asepGenerator r x y = (2 * ((y 0).val : ℝ) - 1) * (r.alpha - r.gamma) + (2 * ((y (Fin.last n)).val : ℝ) - 1) * (r.beta - r.delta)
      + (((y (Fin.last n)).val : ℝ) - (y 0).val) * (r.p - r.q) := by
  rw [column_sum r (fun _ => 1), sum_moves]
  simp only [AsepMove.enabled, AsepMove.rate, weight, rev, h0, zero_mul, Real.exp_zero, mul_one]
  have hsum : (∑ i : Fin n, if y i.castSucc = 1 ∧ y i.succ = 0 then r.q - r.p else 0)
      + (∑ i : Fin n, if y i.succ = 1 ∧ y i.castSucc = 0 then r.p - r.q else 0)
      = ∑ i : Fin n, (((y i.succ).val : ℝ) - (y i.castSucc).val) * (r.p - r.q) := by
    rw [← Finset.sum_add_distrib]
    refine Finset.sum_congr rfl fun i _ => ?_
    rcases fin2_cases (y i.succ) with h | h <;> rcases fin2_cases (y i.castSucc) with h' | h' <;> simp [h, h']
  have htel : ∀ f : Fin (n + 1) → ℝ, ∑ i : Fin n, (f i.succ - f i.castSucc) = f (Fin.last n) - f 0 := by
    intro f
    rw [Finset.sum_sub_distrib]
    have h1 := Fin.sum_univ_succ f
    have h2 := Fin.sum_univ_castSucc f
    linarith
  rw [hsum, ← Finset.sum_mul, htel fun j => ((y j).val : ℝ)]
  rcases fin2_cases (y 0) with h | h <;> rcases fin2_cases (y (Fin.last n)) with h' | h' <;> simp [h, h'] <;> ring

/-- **C181** without counting field, where the eigenvalue is zero: on two or more sites the largest energy is zero exactly if all configurations
are equally likely in the stationary state, that is if the rates satisfy two equations; otherwise positive amplitudes have a positive energy. -/
theorem C181_no_field (r : AsepRates) (hr : Positive r) (h0 : r.lambd = 0) (m : ℕ) :
    IsTop r (m + 1) 0 ∧
    ((∀ phi : Chain (m + 1) → ℂ, phi ≠ 0 → (energy r phi).re ≤ 0) ↔
      r.alpha + r.beta = r.gamma + r.delta ∧ 2 * (r.alpha - r.gamma) = r.p - r.q) := by
  have ht : IsTop r (m + 1) 0 := by
    have := C168_stationary (n := m + 1) r hr.nonneg h0
    exact ⟨by exact_mod_cast this.2.1, this.2.2⟩
  refine ⟨ht, ?_⟩
  rw [C181_iff r hr ht]
  simp only [C09_asep_generator]
  constructor
  · rintro ⟨v, hv, h1, h2⟩
    -- the right eigenvector is constant
    have hconst : ∀ x, v x = v 0 := by
      obtain ⟨x0, -, hx0⟩ := Finset.exists_max_image Finset.univ v Finset.univ_nonempty
      have hmax : ∀ (x : Chain (m + 1)) (mv : AsepMove (m + 1)), mv.enabled x → v x = v x0 → v (mv.target x) = v x0 := by
        intro x mv hm hx
        have h3 := h1 x
        rw [row_sum, zero_mul] at h3
        have hle : ∀ mv ∈ (Finset.univ : Finset (AsepMove (m + 1))),
            (if mv.enabled x then weight r mv * v (mv.target x) - mv.rate r * v x else 0) ≤ 0 := by
          intro mv _
          split_ifs
          · have hw : weight r mv = mv.rate r := by simp [weight, h0]
            have hp : 0 < mv.rate r := by
              obtain ⟨q1, q2, q3, q4, q5, q6⟩ := hr
              cases mv <;> assumption
            have := mul_le_mul_of_nonneg_left (hx0 (mv.target x) (Finset.mem_univ _)) hp.le
            rw [hw, hx]
            linarith
          · exact le_rfl
        have h4 := (Finset.sum_eq_zero_iff_of_nonpos hle).mp h3 mv (Finset.mem_univ mv)
        rw [if_pos hm, hx] at h4
        have hw : weight r mv = mv.rate r := by simp [weight, h0]
        have hp : 0 < mv.rate r := by
          obtain ⟨q1, q2, q3, q4, q5, q6⟩ := hr
          cases mv <;> assumption
        rw [hw, ← mul_sub] at h4
        rcases mul_eq_zero.mp h4 with h | h
        · exact absurd h hp.ne'
        · linarith
      have hiff : ∀ x, v x = v x0 ↔ v 0 = v x0 := by
        refine connected (fun x => v x = v x0) (fun x mv hm => ⟨fun h => ?_, hmax x mv hm⟩)
        have h2 := rev_spec ⟨hm, rfl⟩
        have := hmax (mv.target x) (rev mv) h2.1 h
        rwa [h2.2] at this
      have hz : v 0 = v x0 := (hiff x0).mp rfl
      exact fun x => ((hiff x).mpr hz).trans hz.symm
    have h3 : ∀ y : Chain (m + 1), ∑ x, 1 * asepGenerator r x y = 0 := by
      intro y
      have := h2 y
      simp only [hconst, zero_mul] at this
      rw [← Finset.mul_sum] at this
      rcases mul_eq_zero.mp this with h | h
      · exact absurd h (hv 0).ne'
      · simpa using h
    have e1 := h3 (fun _ => 0)
    have e2 := h3 (sites (fun j => j = 0) (m + 1))
    rw [column_free r h0] at e1 e2
    have hs0 : sites (fun j => j = 0) (m + 1) 0 = 1 := by rw [sites_one]; rfl
    have hs1 : sites (fun j => j = 0) (m + 1) (Fin.last (m + 1)) = 0 := by rw [sites_zero]; simp
    rw [hs0, hs1] at e2
    norm_num at e1 e2
    constructor <;> linarith
  · rintro ⟨e1, e2⟩
    refine ⟨fun _ => 1, fun _ => one_pos, fun x => ?_, fun y => ?_⟩
    · have := (C08_asep_probability r h0 x).2
      simp only [C09_asep_generator] at this
      simpa using this
    · rw [column_free r h0]
      linear_combination (2 * ((y (Fin.last (m + 1))).val : ℝ) - 1) * e1 + (((y 0).val : ℝ) - (y (Fin.last (m + 1))).val) * e2

/-- The tutorial: ten sites, all rates 1/2, counting field 0.2.  The eigenvalue exists and the energy of some positive amplitudes is larger. -/
example : ∃ theta, IsTop (equalRates (1/2) (1/5)) 9 theta ∧
    ∃ psi : Chain 9 → ℝ, (∀ x, 0 < psi x) ∧ theta < (energy (equalRates (1/2) (1/5)) (fun x => (psi x : ℂ))).re := by
  have h : (0 : ℝ) < 1/2 := by norm_num
  obtain ⟨t, ht, -⟩ := top_exists (equalRates (1/2) (1/5)) ⟨h, h, h, h, h, h⟩ 9
  exact ⟨t, ht, C181_tutorial_fails h (by norm_num) 8 ht⟩

/-- Rates without counting field that are not symmetric but satisfy the two equations, and rates that do not. -/
example : ((1 : ℝ) + 1/2 = 1/2 + 1 ∧ 2 * ((1 : ℝ) - 1/2) = 3/2 - 1/2) ∧ Positive ⟨0, 1, 1/2, 1/2, 1, 3/2, 1/2⟩ ∧
    ∃ phi : Chain 3 → ℂ, phi ≠ 0 ∧ 0 < (energy ⟨0, 1, 1/2, 1/2, 1/2, 1/2, 1/2⟩ phi).re := by
  refine ⟨by norm_num, by unfold Positive; norm_num, ?_⟩
  by_contra h
  push Not at h
  have := ((C181_no_field ⟨0, 1, 1/2, 1/2, 1/2, 1/2, 1/2⟩ (by unfold Positive; norm_num) rfl 2).2.mp h).1
  norm_num at this

end GPSKet.AsepMaximum
