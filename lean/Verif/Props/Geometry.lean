import Verif.Model.Geometry
import Mathlib.Analysis.Real.Sqrt
import Mathlib.Tactic.Linarith
import Mathlib.Tactic.Ring

/-!
# C129: geometries of hydrogen chains and sheets
-/

namespace GPSKet.Geometry

/-! ## Rounding -/

/-- The model of `round(math.sqrt(n))` is the integer next to the root. -/
theorem roundSqrt_spec (n : ℕ) : |(roundSqrt n : ℝ) - Real.sqrt n| < 1 / 2 := by
  have h1 : n.sqrt * n.sqrt ≤ n := Nat.sqrt_le n
  have h2 : n < (n.sqrt + 1) * (n.sqrt + 1) := Nat.lt_succ_sqrt n
  have hs : 0 ≤ Real.sqrt n := Real.sqrt_nonneg _
  have hq : Real.sqrt n * Real.sqrt n = n := Real.mul_self_sqrt (by positivity)
  have h1' : (n.sqrt : ℝ) * n.sqrt ≤ n := by exact_mod_cast h1
  have h2' : (n : ℝ) + 1 ≤ (n.sqrt + 1) * (n.sqrt + 1) := by exact_mod_cast h2
  have h0 : (0 : ℝ) ≤ n.sqrt := by positivity
  unfold roundSqrt
  rw [abs_lt]
  by_cases h : n ≤ n.sqrt * n.sqrt + n.sqrt
  · rw [if_pos h]
    have h' : (n : ℝ) ≤ n.sqrt * n.sqrt + n.sqrt := by exact_mod_cast h
    constructor
    · nlinarith
    · nlinarith
  · rw [if_neg h]
    have h' : (n.sqrt : ℝ) * n.sqrt + n.sqrt + 1 ≤ n := by exact_mod_cast Nat.lt_of_not_le h
    push_cast
    constructor
    · nlinarith
    · nlinarith

theorem roundSqrt_pos {n : ℕ} (h : 1 ≤ n) : 1 ≤ roundSqrt n := by
  have : 1 ≤ n.sqrt := Nat.sqrt_pos.mpr h
  unfold roundSqrt
  split_ifs <;> omega

/-- no divisor that reaches the rounded root exceeds the root -/
theorem le_of_dvd {n a b : ℕ} (hab : a * b = n) (ha : a ≤ roundSqrt n) (hn : 1 ≤ n) : a ≤ b := by
  by_contra hlt
  have hlt : b + 1 ≤ a := Nat.lt_of_not_le hlt
  have h1 : n.sqrt * n.sqrt ≤ n := Nat.sqrt_le n
  have h2 : n < (n.sqrt + 1) * (n.sqrt + 1) := Nat.lt_succ_sqrt n
  unfold roundSqrt at ha
  split_ifs at ha with h
  · have : a * b ≤ n.sqrt * b := Nat.mul_le_mul_right _ ha
    have h3 : n.sqrt * (b + 1) ≤ n.sqrt * n.sqrt := Nat.mul_le_mul_left _ (by omega)
    have : 1 ≤ n.sqrt := Nat.sqrt_pos.mpr hn
    nlinarith
  · have h3 : b ≤ n.sqrt := by omega
    have : a * b ≤ (n.sqrt + 1) * n.sqrt := Nat.mul_le_mul ha h3
    exact h (by nlinarith)

theorem le_roundSqrt {n c d : ℕ} (hcd : c * d = n) (h : c ≤ d) : c ≤ roundSqrt n := by
  have : c ≤ n.sqrt := Nat.le_sqrt.mpr (hcd ▸ Nat.mul_le_mul_left c h)
  unfold roundSqrt
  split_ifs <;> omega

theorem down_spec (n a : ℕ) (ha : 1 ≤ a) : ∃ d, down n a = some d ∧ 1 ≤ d ∧ d ≤ a ∧ d ∣ n ∧ ∀ e, e ≤ a → e ∣ n → 1 ≤ e → e ≤ d := by
  induction a with
  | zero => omega
  | succ a ih =>
    unfold down
    by_cases h : n % (a + 1) > 0
    · rw [if_pos h]
      have : 1 ≤ a := by
        rcases Nat.eq_zero_or_pos a with rfl | h'
        · simp [Nat.mod_one] at h
        · exact h'
      obtain ⟨d, h1, h2, h3, h4, h5⟩ := ih this
      refine ⟨d, h1, h2, by omega, h4, fun e he hd h1e => h5 e ?_ hd h1e⟩
      rcases Nat.lt_or_ge e (a + 1) with h' | h'
      · omega
      · obtain rfl : e = a + 1 := by omega
        rw [Nat.mod_eq_zero_of_dvd hd] at h
        omega
    · rw [if_neg h]
      exact ⟨a + 1, rfl, by omega, le_rfl, Nat.dvd_of_mod_eq_zero (by omega), fun e he _ _ => he⟩

/-- **C129**: for every positive number of atoms `closest_divisors` ends, and returns the two factors with product `n` that are closest to
each other, the smaller one first. -/
theorem C129_divisors (n : ℕ) (hn : 1 ≤ n) :
    ∃ a b, closestDivisors n = some (a, b) ∧ a * b = n ∧ a ≤ b ∧ ∀ c d, c * d = n → c ≤ d → c ≤ a ∧ b ≤ d := by
  obtain ⟨a, h1, h2, h3, ⟨b, hb⟩, h5⟩ := down_spec n _ (roundSqrt_pos hn)
  have hb' : n / a = b := by rw [hb]; exact Nat.mul_div_cancel_left _ h2
  refine ⟨a, b, ?_, hb.symm, le_of_dvd hb.symm h3 hn, fun c d hcd hle => ?_⟩
  · unfold closestDivisors
    rw [h1, Option.map_some, hb']
  · have hc : 1 ≤ c := Nat.pos_of_ne_zero fun h => by subst h; omega
    have hca : c ≤ a := h5 c (le_roundSqrt hcd hle) ⟨d, hcd.symm⟩ hc
    refine ⟨hca, ?_⟩
    by_contra hlt
    have hlt : d + 1 ≤ b := Nat.lt_of_not_le hlt
    have : c * d ≤ a * d := Nat.mul_le_mul_right _ hca
    have : a * (d + 1) ≤ a * b := Nat.mul_le_mul_left _ hlt
    nlinarith

/-- **C129**: without atoms `sheet` raises an exception. -/
theorem C129_empty (dist : ℝ) : closestDivisors 0 = none ∧ sheet 0 dist = none := by
  have h : closestDivisors 0 = none := by decide
  exact ⟨h, by rw [sheet, h]⟩

/-! ## Positions -/

/-- The square of the distance of two points. -/
def sqDist (p q : Point) : ℝ := (p.1 - q.1) ^ 2 + (p.2.1 - q.2.1) ^ 2 + (p.2.2 - q.2.2) ^ 2

theorem foldl_append {α β : Type} (f : α → β) (l : List α) (m : List β) : l.foldl (fun m y => m ++ [f y]) m = m ++ l.map f := by
  induction l generalizing m with
  | nil => simp
  | cons y l ih => rw [List.foldl_cons, ih]; simp

theorem foldl_rows {α β : Type} (f : α → List β) (l : List α) (m : List β) : l.foldl (fun m x => m ++ f x) m = m ++ l.flatMap f := by
  induction l generalizing m with
  | nil => simp
  | cons y l ih => rw [List.foldl_cons, ih]; simp

theorem sheet_eq {n a b : ℕ} (h : closestDivisors n = some (a, b)) (dist : ℝ) :
    sheet n dist = some ((List.range a).flatMap fun (x : ℕ) => (List.range b).map fun (y : ℕ) => ((x * dist, y * dist, 0) : Point)) := by
  unfold sheet
  rw [h]
  simp only [foldl_append, foldl_rows, List.nil_append]

theorem flatMap_get {β : Type} (f : ℕ → ℕ → β) (b : ℕ) : ∀ a x y, x < a → y < b →
    ((List.range a).flatMap fun x => (List.range b).map (f x))[x * b + y]? = some (f x y) := by
  intro a
  induction a with
  | zero => intro x y h; omega
  | succ a ih =>
    intro x y hx hy
    rw [List.range_succ, List.flatMap_append]
    have hlen : ((List.range a).flatMap fun x => (List.range b).map (f x)).length = a * b := by
      simp [List.length_flatMap]
    rcases Nat.lt_or_ge x a with h | h
    · rw [List.getElem?_append_left, ih x y h hy]
      rw [hlen]
      have : (x + 1) * b ≤ a * b := Nat.mul_le_mul_right _ h
      nlinarith
    · obtain rfl : x = a := by omega
      rw [List.getElem?_append_right (by rw [hlen]; omega), hlen]
      simp [List.getElem?_map, List.getElem?_range hy]

theorem natDist {i j : ℕ} (h : i ≠ j) (d : ℝ) : d ^ 2 ≤ ((i : ℝ) * d - j * d) ^ 2 := by
  have h1 : (1 : ℝ) ≤ ((i : ℝ) - j) ^ 2 := by
    have : (1 : ℤ) ≤ ((i : ℤ) - j) ^ 2 := by
      have : ((i : ℤ) - j) ≠ 0 := by omega
      have := Int.one_le_abs this
      nlinarith [sq_abs ((i : ℤ) - j)]
    exact_mod_cast this
  have h2 : ((i : ℝ) * d - j * d) ^ 2 = ((i : ℝ) - j) ^ 2 * d ^ 2 := by ring
  nlinarith [sq_nonneg d]

/-- **C129**: a sheet of `n ≥ 1` atoms has exactly `n` atoms; it is the rectangle with the most equal sides, and atom `x b + y` is at
`(x d, y d, 0)`. -/
theorem C129_sheet (n : ℕ) (hn : 1 ≤ n) (d : ℝ) :
    ∃ a b mol, sheet n d = some mol ∧ mol.length = n ∧ a * b = n ∧ a ≤ b ∧ (∀ a' b', a' * b' = n → a' ≤ b' → a' ≤ a ∧ b ≤ b') ∧
      ∀ x y : ℕ, x < a → y < b → mol[x * b + y]? = some ((x * d, y * d, 0) : Point) := by
  obtain ⟨a, b, h1, h2, h3, h4⟩ := C129_divisors n hn
  refine ⟨a, b, _, sheet_eq h1 d, by simp [List.length_flatMap, h2], h2, h3, h4, fun x y hx hy => ?_⟩
  exact flatMap_get (fun (x y : ℕ) => ((x * d, y * d, 0) : Point)) b a x y hx hy

/-- **C129**: no two atoms of a sheet are closer than the distance that was asked for. -/
theorem C129_sheet_apart (n : ℕ) (d : ℝ) (mol : List Point) (h : sheet n d = some mol) : mol.Pairwise fun p q => d ^ 2 ≤ sqDist p q := by
  rcases Nat.eq_zero_or_pos n with rfl | hn
  · rw [(C129_empty d).2] at h; cases h
  obtain ⟨a, b, h1, h2, h3, h4⟩ := C129_divisors n hn
  rw [sheet_eq h1] at h
  obtain rfl := Option.some.inj h
  rw [List.pairwise_flatMap]
  constructor
  · intro x _
    rw [List.pairwise_map]
    refine List.Pairwise.imp ?_ List.pairwise_lt_range
    intro y y' hy
    have := natDist (Nat.ne_of_lt hy) d
    unfold sqDist
    dsimp only
    nlinarith
  · refine List.Pairwise.imp ?_ List.pairwise_lt_range
    intro x x' hx p hp q hq
    obtain ⟨y, _, rfl⟩ := List.mem_map.mp hp
    obtain ⟨y', _, rfl⟩ := List.mem_map.mp hq
    have := natDist (Nat.ne_of_lt hx) d
    unfold sqDist
    dsimp only
    nlinarith [sq_nonneg ((y : ℝ) * d - y' * d)]

/-- **C129**: a chain of `n` atoms has exactly `n` atoms, atom `x` at `(x d, 0, 0)`, and no two of them are closer than `d`. -/
theorem C129_chain (n : ℕ) (d : ℝ) : (chain n d).length = n ∧ (∀ x : ℕ, x < n → (chain n d)[x]? = some ((x * d, 0, 0) : Point)) ∧
    (chain n d).Pairwise fun p q => d ^ 2 ≤ sqDist p q := by
  refine ⟨by simp [chain], fun x hx => by simp [chain, List.getElem?_range hx], ?_⟩
  unfold chain
  rw [List.pairwise_map]
  refine List.Pairwise.imp ?_ List.pairwise_lt_range
  intro y y' hy
  have := natDist (Nat.ne_of_lt hy) d
  unfold sqDist
  dsimp only
  nlinarith

/-! ## The hypotheses are met -/

/-- The sheet of the backflow script has six rows of six atoms; seven atoms form a row, twelve three rows of four. -/
example : closestDivisors 36 = some (6, 6) ∧ closestDivisors 7 = some (1, 7) ∧ closestDivisors 12 = some (3, 4) := by decide +kernel

example : ∃ mol, sheet 12 1 = some mol ∧ mol ≠ [] := by
  obtain ⟨a, b, mol, h, h', _⟩ := C129_sheet 12 (by decide) 1
  exact ⟨mol, h, fun e => by rw [e] at h'; cases h'⟩

end GPSKet.Geometry
