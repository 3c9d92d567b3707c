import Verif.Spec.MarkovPath
import Verif.Lemmas.Markov
import Mathlib.LinearAlgebra.Dimension.RankNullity
import Mathlib.LinearAlgebra.FiniteDimensional.Lemmas
import Mathlib.LinearAlgebra.Matrix.ToLin
import Mathlib.Analysis.Complex.Norm
import Mathlib.Analysis.Complex.Basic
import Mathlib.Data.Complex.BigOperators
import Mathlib.Algebra.Order.Group.Indicator

/-! # Averages along finite Markov chains: the Poisson equation and mean-square convergence -/

namespace GPSKet.Spec.Markov

variable {α : Type} [Fintype α] {P : Matrix α α ℝ} {w : α → ℝ}

theorem pathExpect_mono (h : IsKernel P) (n : ℕ) (F G : List α → ℝ) (hFG : ∀ l, l.length = n → F l ≤ G l) (x : α) :
    pathExpect P n F x ≤ pathExpect P n G x := by
  induction n generalizing F G x with
  | zero => exact hFG [] rfl
  | succ n ih =>
    exact Finset.sum_le_sum fun y _ => mul_le_mul_of_nonneg_left
      (ih _ _ (fun l hl => hFG (y :: l) (by simp [hl])) y) (h.nonneg _ _)

theorem pathExpect_congr (n : ℕ) (F G : List α → ℝ) (hFG : ∀ l, l.length = n → F l = G l) (x : α) :
    pathExpect P n F x = pathExpect P n G x := by
  induction n generalizing F G x with
  | zero => exact hFG [] rfl
  | succ n ih =>
    refine Finset.sum_congr rfl fun y _ => ?_
    rw [ih _ _ (fun l hl => hFG (y :: l) (by simp [hl])) y]

theorem pathExpect_add (n : ℕ) (F G : List α → ℝ) (x : α) :
    pathExpect P n (fun l => F l + G l) x = pathExpect P n F x + pathExpect P n G x := by
  induction n generalizing F G x with
  | zero => rfl
  | succ n ih =>
    show ∑ y, P x y * pathExpect P n (fun l => F (y :: l) + G (y :: l)) y = _
    simp only [ih, mul_add, Finset.sum_add_distrib]
    rfl

theorem pathExpect_mul (n : ℕ) (c : ℝ) (F : List α → ℝ) (x : α) :
    pathExpect P n (fun l => c * F l) x = c * pathExpect P n F x := by
  induction n generalizing F x with
  | zero => rfl
  | succ n ih =>
    show ∑ y, P x y * pathExpect P n (fun l => c * F (y :: l)) y = _
    simp only [ih]
    show _ = c * ∑ y, P x y * pathExpect P n (fun l => F (y :: l)) y
    rw [Finset.mul_sum]
    exact Finset.sum_congr rfl fun y _ => by ring

theorem pathExpect_const (h : IsKernel P) (n : ℕ) (c : ℝ) (x : α) : pathExpect P n (fun _ => c) x = c := by
  induction n generalizing x with
  | zero => rfl
  | succ n ih =>
    show ∑ y, P x y * pathExpect P n (fun _ => c) y = _
    simp only [ih, ← Finset.sum_mul, h.sum, one_mul]

/-- The total probability of all paths is one. -/
theorem pathExpect_one (h : IsKernel P) (n : ℕ) (x : α) : pathExpect P n (fun _ => 1) x = 1 := pathExpect_const h n 1 x

variable [DecidableEq α]

/-- The last state has the law given by the powers of the matrix. -/
theorem pathExpect_last (n : ℕ) (f : α → ℝ) (x : α) :
    pathExpect P n (fun l => f (l.getLastD x)) x = ∑ y, (P ^ n) x y * f y := by
  suffices hs : ∀ (z : α), pathExpect P n (fun l => f (l.getLastD z)) x = if n = 0 then f z else ∑ y, (P ^ n) x y * f y by
    rw [hs x]
    split_ifs with hn
    · subst hn; simp [Matrix.one_apply]
    · rfl
  induction n generalizing x with
  | zero => intro z; simp [pathExpect]
  | succ n ih =>
    intro z
    show ∑ y, P x y * pathExpect P n (fun l => f ((y :: l).getLastD z)) y = _
    have hd : ∀ (y : α) (l : List α), (y :: l).getLastD z = l.getLastD y := by intro y l; cases l <;> rfl
    simp only [hd, ih]
    rw [if_neg (Nat.succ_ne_zero n)]
    have hy : ∀ y, (if n = 0 then f y else ∑ u, (P ^ n) y u * f u) = ∑ u, (P ^ n) y u * f u := by
      intro y
      split_ifs with hn
      · subst hn; simp [Matrix.one_apply]
      · rfl
    simp only [hy, pow_succ', Matrix.mul_apply, Finset.mul_sum, Finset.sum_mul]
    rw [Finset.sum_comm]
    exact Finset.sum_congr rfl fun y _ => Finset.sum_congr rfl fun u _ => by ring

/-- A function that is its own expected value one step later is constant. -/
theorem harmonic_const (h : IsKernel P) (hc : Irreducible P) (g : α → ℝ) (hg : ∀ x, ∑ y, P x y * g y = g x) (x y : α) : g x = g y := by
  have hgn : ∀ n x, ∑ y, (P ^ n) x y * g y = g x := by
    intro n
    induction n with
    | zero => intro x; simp [Matrix.one_apply]
    | succ n ih =>
      intro x
      simp only [pow_succ, Matrix.mul_apply, Finset.sum_mul]
      rw [Finset.sum_comm]
      simp only [mul_assoc, ← Finset.mul_sum, hg, ih]
  obtain ⟨m, -, hm⟩ := Finset.exists_max_image Finset.univ g ⟨x, Finset.mem_univ x⟩
  have hall : ∀ z, g z = g m := by
    intro z
    obtain ⟨n, hn⟩ := hc m z
    have hk := pow_kernel h n
    have h1 : ∑ u, (P ^ n) m u * (g m - g u) = 0 := by
      simp only [mul_sub, Finset.sum_sub_distrib, ← Finset.sum_mul, hk.sum, one_mul, hgn]
      ring
    have h2 := (Finset.sum_eq_zero_iff_of_nonneg fun u _ =>
      mul_nonneg (hk.nonneg _ _) (sub_nonneg.mpr (hm u (Finset.mem_univ u)))).mp h1 z (Finset.mem_univ z)
    have h3 := (mul_eq_zero.mp h2).resolve_left hn.ne'
    linarith
  rw [hall x, hall y]

/-- The Poisson equation: a function with mean zero is `g - P g` for some `g`. -/
theorem poisson (h : IsKernel P) (hc : Irreducible P) (hi : Invariant P w) (hw : ∀ x, 0 < w x) (f : α → ℝ)
    (hf : ∑ x, w x * f x = 0) : ∃ g : α → ℝ, ∀ x, f x = g x - ∑ y, P x y * g y := by
  rcases isEmpty_or_nonempty α with he | ⟨⟨x0⟩⟩
  · exact ⟨f, fun x => he.elim x⟩
  let T : (α → ℝ) →ₗ[ℝ] (α → ℝ) := LinearMap.id - Matrix.mulVecLin P
  let φ : (α → ℝ) →ₗ[ℝ] ℝ := ∑ x, w x • LinearMap.proj x
  have hT : ∀ g x, T g x = g x - ∑ y, P x y * g y := fun g x => rfl
  have hφ : ∀ g, φ g = ∑ x, w x * g x := by
    intro g
    simp only [φ, LinearMap.sum_apply, LinearMap.smul_apply, LinearMap.proj_apply, smul_eq_mul]
  have hle : LinearMap.range T ≤ LinearMap.ker φ := by
    rintro _ ⟨g, rfl⟩
    rw [LinearMap.mem_ker, hφ]
    simp only [hT, mul_sub, Finset.sum_sub_distrib, Finset.mul_sum]
    rw [Finset.sum_comm]
    simp only [← mul_assoc, ← Finset.sum_mul, hi _]
    ring
  have hker : Module.finrank ℝ (LinearMap.ker T) ≤ 1 := by
    have hsub : LinearMap.ker T ≤ Submodule.span ℝ {(fun _ => 1 : α → ℝ)} := by
      intro g hg
      have hg' : ∀ x, ∑ y, P x y * g y = g x := by
        intro x
        have := congrFun (LinearMap.mem_ker.mp hg) x
        rw [hT] at this
        simp only [Pi.zero_apply] at this
        linarith
      rw [Submodule.mem_span_singleton]
      refine ⟨g x0, ?_⟩
      funext y
      simp [harmonic_const h hc g hg' x0 y]
    exact (Submodule.finrank_mono hsub).trans (by
      have := finrank_span_le_card (R := ℝ) ({(fun _ => 1 : α → ℝ)} : Set (α → ℝ))
      simpa using this)
  have hφr : LinearMap.range φ = ⊤ := by
    rw [LinearMap.range_eq_top]
    intro r
    refine ⟨fun x => if x = x0 then r / w x0 else 0, ?_⟩
    rw [hφ]
    simp [mul_div_cancel₀, (hw x0).ne']
  have e1 := LinearMap.finrank_range_add_finrank_ker T
  have e2 := LinearMap.finrank_range_add_finrank_ker φ
  rw [hφr, finrank_top, Module.finrank_self] at e2
  have heq : LinearMap.range T = LinearMap.ker φ := Submodule.eq_of_le_of_finrank_le hle (by omega)
  have hmem : f ∈ LinearMap.range T := by rw [heq, LinearMap.mem_ker, hφ]; exact hf
  obtain ⟨g, hg⟩ := hmem
  exact ⟨g, fun x => by rw [← hg, hT]⟩

theorem sum_expect (h : IsKernel P) (f g : α → ℝ) (hg : ∀ x, f x = g x - ∑ y, P x y * g y) (n : ℕ) (x : α) :
    pathExpect P n (fun l => (l.map f).sum) x = ∑ y, P x y * g y - ∑ y, (P ^ (n + 1)) x y * g y := by
  induction n generalizing x with
  | zero => simp [pathExpect]
  | succ n ih =>
    show ∑ y, P x y * pathExpect P n (fun l => ((y :: l).map f).sum) y = _
    have h1 : ∀ y, pathExpect P n (fun l => ((y :: l).map f).sum) y = g y - ∑ z, (P ^ (n + 1)) y z * g z := by
      intro y
      simp only [List.map_cons, List.sum_cons]
      rw [pathExpect_add n (fun _ => f y) (fun l => (l.map f).sum) y, pathExpect_const h, ih y, hg y]
      ring
    simp only [h1, mul_sub, Finset.sum_sub_distrib]
    congr 1
    rw [pow_succ' P (n + 1)]
    simp only [Matrix.mul_apply, Finset.mul_sum, Finset.sum_mul]
    rw [Finset.sum_comm]
    exact Finset.sum_congr rfl fun y _ => Finset.sum_congr rfl fun u _ => by ring

/-- The second moment of a sum along the chain grows at most linearly. -/
theorem second_moment (h : IsKernel P) (hc : Irreducible P) (hi : Invariant P w) (hw : ∀ x, 0 < w x) (f : α → ℝ)
    (hf : ∑ x, w x * f x = 0) : ∃ c, 0 ≤ c ∧ ∀ n x, pathExpect P n (fun l => (l.map f).sum ^ 2) x ≤ c * n := by
  obtain ⟨g, hg⟩ := poisson h hc hi hw f hf
  obtain ⟨G, hG⟩ : ∃ G, ∀ x, |g x| ≤ G := ⟨∑ x, |g x|, fun x => Finset.single_le_sum (fun y _ => abs_nonneg (g y)) (Finset.mem_univ x)⟩
  obtain ⟨B, hB⟩ : ∃ B, ∀ x, |f x| ≤ B := ⟨∑ x, |f x|, fun x => Finset.single_le_sum (fun y _ => abs_nonneg (f y)) (Finset.mem_univ x)⟩
  rcases isEmpty_or_nonempty α with he | ⟨⟨x0⟩⟩
  · exact ⟨0, le_rfl, fun n x => he.elim x⟩
  have hG0 : 0 ≤ G := (abs_nonneg _).trans (hG x0)
  have hB0 : 0 ≤ B := (abs_nonneg _).trans (hB x0)
  have hbound : ∀ (Q : Matrix α α ℝ), IsKernel Q → ∀ x, |∑ y, Q x y * g y| ≤ G := by
    intro Q hQ x
    refine (Finset.abs_sum_le_sum_abs _ _).trans ?_
    calc ∑ y, |Q x y * g y| ≤ ∑ y, Q x y * G := Finset.sum_le_sum fun y _ => by
            rw [abs_mul, abs_of_nonneg (hQ.nonneg x y)]
            exact mul_le_mul_of_nonneg_left (hG y) (hQ.nonneg x y)
      _ = G := by rw [← Finset.sum_mul, hQ.sum, one_mul]
  have hmean : ∀ n x, |pathExpect P n (fun l => (l.map f).sum) x| ≤ 2 * G := by
    intro n x
    rw [sum_expect h f g hg]
    refine (abs_sub _ _).trans ?_
    have h1 := hbound P h x
    have h2 := hbound _ (pow_kernel h (n + 1)) x
    linarith
  refine ⟨B ^ 2 + 4 * B * G, by positivity, fun n => ?_⟩
  induction n with
  | zero => intro x; simp [pathExpect]
  | succ n ih =>
    intro x
    show ∑ y, P x y * pathExpect P n (fun l => ((y :: l).map f).sum ^ 2) y ≤ _
    have h1 : ∀ y, pathExpect P n (fun l => ((y :: l).map f).sum ^ 2) y ≤ (B ^ 2 + 4 * B * G) * ((n + 1 : ℕ) : ℝ) := by
      intro y
      have e : pathExpect P n (fun l => ((y :: l).map f).sum ^ 2) y =
          f y ^ 2 + (2 * f y * pathExpect P n (fun l => (l.map f).sum) y + pathExpect P n (fun l => (l.map f).sum ^ 2) y) := by
        rw [← pathExpect_const h n (f y ^ 2) y, ← pathExpect_mul n (2 * f y), ← pathExpect_add, ← pathExpect_add]
        exact pathExpect_congr n _ _ (fun l _ => by simp only [List.map_cons, List.sum_cons]; ring) y
      rw [e]
      have a1 : f y ^ 2 ≤ B ^ 2 := by rw [← sq_abs]; exact pow_le_pow_left₀ (abs_nonneg _) (hB y) 2
      have a2 : 2 * f y * pathExpect P n (fun l => (l.map f).sum) y ≤ 2 * B * (2 * G) := by
        refine (le_abs_self _).trans ?_
        rw [abs_mul, abs_mul, abs_two]
        exact mul_le_mul (by linarith [hB y]) (hmean n y) (abs_nonneg _) (by positivity)
      have a3 := ih y
      push_cast
      linarith
    calc _ ≤ ∑ y, P x y * ((B ^ 2 + 4 * B * G) * ((n + 1 : ℕ) : ℝ)) :=
          Finset.sum_le_sum fun y _ => mul_le_mul_of_nonneg_left (h1 y) (h.nonneg x y)
      _ = _ := by rw [← Finset.sum_mul, h.sum, one_mul]

theorem consistent (h : IsKernel P) (hc : Irreducible P) (hi : Invariant P w) (hw : ∀ x, 0 < w x) (f : α → ℂ) : Consistent P w f := by
  rcases isEmpty_or_nonempty α with he | ⟨⟨x0⟩⟩
  · exact ⟨0, fun n _ x => he.elim x⟩
  set m := weightedMean w f with hm
  have hW : 0 < ∑ x, w x := Finset.sum_pos (fun x _ => hw x) ⟨x0, Finset.mem_univ x0⟩
  have hz : ∑ x, (w x : ℂ) * (f x - m) = 0 := by
    simp only [mul_sub, Finset.sum_sub_distrib, ← Finset.sum_mul]
    have : (∑ x, (w x : ℂ)) = ((∑ x, w x : ℝ) : ℂ) := (Complex.ofReal_sum _ _).symm
    rw [this, hm]
    unfold weightedMean
    rw [mul_div_cancel₀ _ (by exact_mod_cast hW.ne'), sub_self]
  have hre : ∑ x, w x * (f x - m).re = 0 := by
    have := congrArg Complex.re hz
    simpa [Complex.re_sum] using this
  have him : ∑ x, w x * (f x - m).im = 0 := by
    have := congrArg Complex.im hz
    simpa [Complex.im_sum] using this
  obtain ⟨c1, hc1, h1⟩ := second_moment h hc hi hw _ hre
  obtain ⟨c2, hc2, h2⟩ := second_moment h hc hi hw _ him
  have key : ∀ l : List α, 0 < l.length → averageError w f l ^ 2 =
      1 / (l.length : ℝ) ^ 2 * ((l.map fun x => (f x - m).re).sum ^ 2 + (l.map fun x => (f x - m).im).sum ^ 2) := by
    intro l hl
    have hl' : (l.length : ℂ) ≠ 0 := by exact_mod_cast hl.ne'
    have hs : (l.map f).sum / (l.length : ℂ) - m = (l.map fun x => f x - m).sum / (l.length : ℂ) := by
      have : (l.map fun x => f x - m).sum = (l.map f).sum - l.length * m := by
        clear hl hl'
        induction l with
        | nil => simp
        | cons a l ih => simp only [List.map_cons, List.sum_cons, ih, List.length_cons]; push_cast; ring
      rw [this, sub_div, mul_div_cancel_left₀ _ hl']
    have hsum : ∀ l : List α, ((l.map fun x => f x - m).sum).re = (l.map fun x => (f x - m).re).sum ∧
        ((l.map fun x => f x - m).sum).im = (l.map fun x => (f x - m).im).sum := by
      intro l
      induction l with
      | nil => simp
      | cons a l ih => simp only [List.map_cons, List.sum_cons, Complex.add_re, Complex.add_im, ih.1, ih.2]; exact ⟨trivial, trivial⟩
    unfold averageError
    rw [← hm, hs, norm_div, div_pow, Complex.norm_natCast, ← Complex.normSq_eq_norm_sq, Complex.normSq_apply, (hsum l).1, (hsum l).2]
    ring
  have hmse : ∀ n : ℕ, 0 < n → ∀ x, pathExpect P n (fun l => averageError w f l ^ 2) x ≤ (c1 + c2) / n := by
    intro n hn x
    have hn' : (0 : ℝ) < n := by exact_mod_cast hn
    rw [pathExpect_congr n _ (fun l => 1 / (n : ℝ) ^ 2 *
      ((l.map fun x => (f x - m).re).sum ^ 2 + (l.map fun x => (f x - m).im).sum ^ 2)) (fun l hl => by
        rw [key l (by omega), hl]), pathExpect_mul, pathExpect_add]
    calc 1 / (n : ℝ) ^ 2 * (pathExpect P n (fun l => (l.map fun x => (f x - m).re).sum ^ 2) x +
          pathExpect P n (fun l => (l.map fun x => (f x - m).im).sum ^ 2) x)
        ≤ 1 / (n : ℝ) ^ 2 * (c1 * n + c2 * n) := mul_le_mul_of_nonneg_left (add_le_add (h1 n x) (h2 n x)) (by positivity)
      _ = (c1 + c2) / n := by field_simp
  refine ⟨c1 + c2, fun n hn x => ⟨hmse n hn x, fun ε hε => ?_⟩⟩
  have hn' : (0 : ℝ) < n := by exact_mod_cast hn
  calc pathExpect P n (Set.indicator {l | ε ≤ averageError w f l} 1) x
      ≤ pathExpect P n (fun l => 1 / ε ^ 2 * averageError w f l ^ 2) x := by
        apply pathExpect_mono h
        intro l _
        by_cases hl : l ∈ {l | ε ≤ averageError w f l}
        · rw [Set.indicator_of_mem hl, Pi.one_apply, div_mul_eq_mul_div, one_mul, le_div_iff₀ (by positivity), one_mul]
          exact pow_le_pow_left₀ hε.le hl 2
        · rw [Set.indicator_of_notMem hl]; positivity
    _ = 1 / ε ^ 2 * pathExpect P n (fun l => averageError w f l ^ 2) x := pathExpect_mul _ _ _ _
    _ ≤ 1 / ε ^ 2 * ((c1 + c2) / n) := mul_le_mul_of_nonneg_left (hmse n hn x) (by positivity)
    _ = (c1 + c2) / (n * ε ^ 2) := by field_simp

/-- Taking only every `s`-th state: irreducible if the law of the chain converges to positive weights. -/
theorem pow_irreducible (hv : Converges P w) (hw : ∀ x, 0 < w x) (s : ℕ) (hs : 0 < s) : Irreducible (P ^ s) := by
  intro x y
  have hpos : 0 < w y / ∑ z, w z := div_pos (hw y) (Finset.sum_pos (fun z _ => hw z) ⟨y, Finset.mem_univ y⟩)
  have hev := (hv x y).eventually (lt_mem_nhds hpos)
  obtain ⟨N, hN⟩ := Filter.eventually_atTop.mp hev
  exact ⟨N, by rw [← pow_mul]; exact hN (s * N) (Nat.le_mul_of_pos_left N hs)⟩

end GPSKet.Spec.Markov
