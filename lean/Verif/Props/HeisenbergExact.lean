import Verif.Lemmas.HeisenbergExact
import Verif.Spec.SignRule

/-!
# Property C200: energies of Heisenberg models that are known exactly

`energyAt bonds psi x` is the local energy that the on-the-fly evaluation returns (as a number that could be infinite or NaN) for the
Heisenberg operator `Σ J σ_i · σ_j`, without sign rule, over the listed bonds.
-/

set_option linter.unusedSimpArgs false

namespace GPSKet.HeisenbergExact
open Spec Floats ZeroEnergy

variable {N : ℕ}

/-- The sum of the couplings. -/
def total (bonds : List ((Fin N × Fin N) × ℝ)) : ℝ := (bonds.map fun b => b.2).sum

/-- The amplitudes do not change, or change their sign, when the spins of two sites are exchanged. -/
def TripletOn (psi : Spins N → ℂ) (i j : Fin N) : Prop := ∀ y, psi (exchanged y i j) = psi y

def SingletOn (psi : Spins N → ℂ) (i j : Fin N) : Prop := ∀ y, psi (exchanged y i j) = -psi y

/-- **C200**: polarised states.  If exchanging the spins of the sites of a bond never changes the amplitude, all local energies are the
sum of the couplings. -/
theorem C200_polarised (bonds : List ((Fin N × Fin N) × ℝ)) (hd : ∀ b ∈ bonds, b.1.1 ≠ b.1.2) (psi : Spins N → ℂ)
    (hs : ∀ b ∈ bonds, TripletOn psi b.1.1 b.1.2) (x : Spins N) (hx : psi x ≠ 0) : energyAt bonds psi x = FC.ofC (total bonds) := by
  rw [energyAt_eq bonds hd psi x hx]
  congr 1
  rw [div_eq_iff hx]
  have e : (bonds.map fun b => (b.2 : ℂ) * bondValue psi x b.1.1 b.1.2) = bonds.map fun b => (b.2 : ℂ) * psi x :=
    List.map_congr_left fun b hb => by rw [bondValue, hs b hb]; ring
  rw [e, List.sum_map_mul_right, total]
  congr 1
  induction bonds with
  | nil => simp
  | cons b bs ih => simp_all

/-- Models whose amplitude depends on the number of up spins only, such as a constant, are of this kind on every lattice. -/
example (f : ℕ → ℂ) (i j : Fin N) : TripletOn (fun x : Spins N => f (Finset.univ.filter fun k => x k).card) i j := by
  intro y
  dsimp only
  congr 1
  refine Finset.card_bij (fun k _ => Equiv.swap i j k) (fun k hk => ?_) (fun a _ b _ h => (Equiv.swap i j).injective h) fun k hk => ?_
  · rw [Finset.mem_filter] at hk ⊢
    exact ⟨Finset.mem_univ _, hk.2⟩
  · rw [Finset.mem_filter] at hk
    exact ⟨Equiv.swap i j k, by rw [Finset.mem_filter]; exact ⟨Finset.mem_univ _, by simpa [exchanged] using hk.2⟩, by simp⟩

/-- **C200**: valence bonds.  In a state with singlets on the dimers, each dimer contributes `-3 J`, and two bonds with the same coupling
from the two sites of a dimer to a third site contribute nothing; so the local energies of an operator that consists of such bonds are
constant. -/
theorem C200_dimers (psi : Spins N → ℂ) (dimers : List ((Fin N × Fin N) × ℝ)) (hd : ∀ b ∈ dimers, b.1.1 ≠ b.1.2)
    (hs : ∀ b ∈ dimers, SingletOn psi b.1.1 b.1.2) (triangles : List ((Fin N × Fin N × Fin N) × ℝ))
    (ht : ∀ t ∈ triangles, t.1.1 ≠ t.1.2.1 ∧ t.1.1 ≠ t.1.2.2 ∧ t.1.2.1 ≠ t.1.2.2 ∧ SingletOn psi t.1.1 t.1.2.1)
    (bonds : List ((Fin N × Fin N) × ℝ))
    (hb : bonds.Perm (dimers ++ triangles.flatMap fun t => [((t.1.1, t.1.2.2), t.2), ((t.1.2.1, t.1.2.2), t.2)]))
    (x : Spins N) (hx : psi x ≠ 0) : energyAt bonds psi x = FC.ofC (-3 * total dimers : ℝ) := by
  have hne : ∀ b ∈ bonds, b.1.1 ≠ b.1.2 := by
    intro b hb'
    rcases List.mem_append.1 (hb.mem_iff.1 hb') with h | h
    · exact hd b h
    · obtain ⟨t, ht', h⟩ := List.mem_flatMap.1 h
      obtain ⟨h1, h2, h3, -⟩ := ht t ht'
      rcases List.mem_pair.1 h with rfl | rfl
      · exact h2
      · exact h3
  rw [energyAt_eq bonds hne psi x hx]
  congr 1
  rw [div_eq_iff hx, (hb.map _).sum_eq, List.map_append, List.sum_append]
  have e1 : (dimers.map fun b => (b.2 : ℂ) * bondValue psi x b.1.1 b.1.2).sum = ((-3 * total dimers : ℝ) : ℂ) * psi x := by
    clear hb hd
    unfold total
    induction dimers with
    | nil => simp
    | cons b bs ih =>
      rw [List.map_cons, List.sum_cons, ih fun b hb => hs b (List.mem_cons_of_mem _ hb), bondValue, hs b List.mem_cons_self]
      simp only [List.map_cons, List.sum_cons]
      push_cast
      ring
  have e2 : ((triangles.flatMap fun t => [((t.1.1, t.1.2.2), t.2), ((t.1.2.1, t.1.2.2), t.2)]).map
      fun b => (b.2 : ℂ) * bondValue psi x b.1.1 b.1.2).sum = 0 := by
    clear hb
    induction triangles with
    | nil => simp
    | cons t ts ih =>
      obtain ⟨h1, h2, h3, h4⟩ := ht t List.mem_cons_self
      rw [List.flatMap_cons, List.map_append, List.sum_append, ih fun t ht' => ht t (List.mem_cons_of_mem _ ht')]
      simp only [List.map_cons, List.map_nil, List.sum_cons, List.sum_nil, add_zero]
      rw [← mul_add, singlet_screens psi h1 h2 h3 h4, mul_zero]
  rw [e1, e2, add_zero]

/-! ## Bounds for all states -/

theorem re_exchange (psi : Spins N → ℂ) (i j : Fin N) :
    |(∑ x, (starRingEnd ℂ) (psi x) * psi (exchanged x i j)).re| ≤ bornNorm psi := by
  have hn : ∑ x, ‖psi (exchanged x i j)‖ ^ 2 = bornNorm psi := (exchangeEquiv i j).sum_comp fun x => ‖psi x‖ ^ 2
  rw [Complex.re_sum]
  refine (Finset.abs_sum_le_sum_abs _ _).trans ?_
  have : bornNorm psi = ∑ x, (‖psi x‖ ^ 2 + ‖psi (exchanged x i j)‖ ^ 2) / 2 := by
    rw [← Finset.sum_div, Finset.sum_add_distrib, hn]
    unfold bornNorm
    ring
  rw [this]
  refine Finset.sum_le_sum fun x _ => ?_
  have h := (Complex.abs_re_le_norm ((starRingEnd ℂ) (psi x) * psi (exchanged x i j)))
  rw [norm_mul, RCLike.norm_conj] at h
  nlinarith [sq_nonneg (‖psi x‖ - ‖psi (exchanged x i j)‖)]

/-- The contribution of a bond with `J = 1` to the energy times the norm. -/
noncomputable def form (psi : Spins N → ℂ) (i j : Fin N) : ℝ := (∑ x, (starRingEnd ℂ) (psi x) * bondValue psi x i j).re

theorem form_eq (psi : Spins N → ℂ) (i j : Fin N) :
    form psi i j = 2 * (∑ x, (starRingEnd ℂ) (psi x) * psi (exchanged x i j)).re - bornNorm psi := by
  unfold form bornNorm
  rw [Complex.re_sum, Complex.re_sum, Finset.mul_sum, ← Finset.sum_sub_distrib]
  refine Finset.sum_congr rfl fun x _ => ?_
  have h : (starRingEnd ℂ) (psi x) * bondValue psi x i j
      = 2 * ((starRingEnd ℂ) (psi x) * psi (exchanged x i j)) - (‖psi x‖ ^ 2 : ℝ) := by
    rw [bondValue, ← Complex.normSq_eq_norm_sq, Complex.normSq_eq_conj_mul_self]
    ring
  rw [h, Complex.sub_re, Complex.ofReal_re]
  simp

theorem form_le (psi : Spins N → ℂ) (i j : Fin N) : form psi i j ≤ bornNorm psi := by
  have := (abs_le.1 (re_exchange psi i j)).2
  rw [form_eq]
  linarith

theorem le_form (psi : Spins N → ℂ) (i j : Fin N) : -3 * bornNorm psi ≤ form psi i j := by
  have := (abs_le.1 (re_exchange psi i j)).1
  rw [form_eq]
  linarith

/-- The mean of the local energies, with the weights of the samples. -/
theorem mean_eq (bonds : List ((Fin N × Fin N) × ℝ)) (hd : ∀ b ∈ bonds, b.1.1 ≠ b.1.2) (psi : Spins N → ℂ) (e : Spins N → ℂ)
    (he : ∀ x, psi x ≠ 0 → energyAt bonds psi x = FC.ofC (e x)) :
    (weightedMean (fun x => ‖psi x‖ ^ 2) e).re = (bonds.map fun b => b.2 * form psi b.1.1 b.1.2).sum / bornNorm psi := by
  have h1 : ∀ x, ((‖psi x‖ ^ 2 : ℝ) : ℂ) * e x
      = (bonds.map fun b => (b.2 : ℂ) * ((starRingEnd ℂ) (psi x) * bondValue psi x b.1.1 b.1.2)).sum := by
    intro x
    by_cases hx : psi x = 0
    · simp [hx]
    · have h := he x hx
      rw [energyAt_eq bonds hd psi x hx] at h
      rw [← ofC_injective h, ← Complex.normSq_eq_norm_sq, Complex.normSq_eq_conj_mul_self, mul_assoc, mul_div_cancel₀ _ hx,
        ← List.sum_map_mul_left]
      congr 1
      refine List.map_congr_left fun b _ => ?_
      ring
  unfold weightedMean
  have h2 : (∑ x, (((fun x => ‖psi x‖ ^ 2) x : ℝ) : ℂ) * e x).re = (bonds.map fun b => b.2 * form psi b.1.1 b.1.2).sum := by
    rw [Finset.sum_congr rfl fun x _ => h1 x]
    clear he h1 hd
    induction bonds with
    | nil => simp
    | cons b bs ih =>
      simp only [List.map_cons, List.sum_cons]
      rw [Finset.sum_add_distrib, Complex.add_re, ih, ← Finset.mul_sum, Complex.re_ofReal_mul]
      rfl
  rw [Complex.div_ofReal_re, h2]
  rfl

theorem bornNorm_pos {psi : Spins N → ℂ} (h : ∃ x, psi x ≠ 0) : 0 < bornNorm psi := by
  obtain ⟨x, hx⟩ := h
  exact Finset.sum_pos' (fun _ _ => sq_nonneg _) ⟨x, Finset.mem_univ x, by positivity⟩

/-- **C200**: with antiferromagnetic couplings the mean of the local energies, which is the energy that is reported for many samples, is
never below `-3 Σ J` nor above `Σ J`, whatever the state. -/
theorem C200_bounds (bonds : List ((Fin N × Fin N) × ℝ)) (hd : ∀ b ∈ bonds, b.1.1 ≠ b.1.2) (hJ : ∀ b ∈ bonds, 0 ≤ b.2)
    (psi : Spins N → ℂ) (hp : ∃ x, psi x ≠ 0) (e : Spins N → ℂ) (he : ∀ x, psi x ≠ 0 → energyAt bonds psi x = FC.ofC (e x)) :
    -3 * total bonds ≤ (weightedMean (fun x => ‖psi x‖ ^ 2) e).re ∧ (weightedMean (fun x => ‖psi x‖ ^ 2) e).re ≤ total bonds := by
  rw [mean_eq bonds hd psi e he, le_div_iff₀ (bornNorm_pos hp), div_le_iff₀ (bornNorm_pos hp)]
  clear he hd
  unfold total
  induction bonds with
  | nil => simp
  | cons b bs ih =>
    obtain ⟨h1, h2⟩ := ih fun b hb => hJ b (List.mem_cons_of_mem _ hb)
    have h3 := mul_le_mul_of_nonneg_left (form_le psi b.1.1 b.1.2) (hJ b List.mem_cons_self)
    have h4 := mul_le_mul_of_nonneg_left (le_form psi b.1.1 b.1.2) (hJ b List.mem_cons_self)
    simp only [List.map_cons, List.sum_cons]
    constructor <;> nlinarith

/-! ## The ring with couplings `J` and `J / 2` -/

/-- The sum of the three exchanges of three spins is not negative. -/
theorem triangle_nonneg (psi : Spins N → ℂ) {i j k : Fin N} (hij : i ≠ j) (hik : i ≠ k) (hjk : j ≠ k) :
    -3 * bornNorm psi ≤ form psi i j + form psi i k + form psi j k := by
  -- the two cyclic permutations
  let T : Spins N ≃ Spins N := (exchangeEquiv i k).trans (exchangeEquiv i j)
  have hT : ∀ x, T x = exchanged (exchanged x i k) i j := fun x => rfl
  have hT' : ∀ x, T (T x) = exchanged (exchanged x j k) i j := by
    intro x
    rw [hT, hT]
    have hji := hij.symm
    have hki := hik.symm
    have hkj := hjk.symm
    funext l
    by_cases e1 : l = i
    · subst e1; simp [exchanged, hij, hik, hjk, hji, hki, hkj, Equiv.swap_apply_of_ne_of_ne]
    by_cases e2 : l = j
    · subst e2; simp [exchanged, hij, hik, hjk, hji, hki, hkj, Equiv.swap_apply_of_ne_of_ne]
    by_cases e3 : l = k
    · subst e3; simp [exchanged, hij, hik, hjk, hji, hki, hkj, Equiv.swap_apply_of_ne_of_ne]
    simp [exchanged, e1, e2, e3, Equiv.swap_apply_of_ne_of_ne]
  have hT3 : ∀ x, T (T (T x)) = x := by
    intro x
    have hji := hij.symm
    have hki := hik.symm
    have hkj := hjk.symm
    rw [hT', hT]
    funext l
    by_cases e1 : l = i
    · subst e1; simp [exchanged, hij, hik, hjk, hji, hki, hkj, Equiv.swap_apply_of_ne_of_ne]
    by_cases e2 : l = j
    · subst e2; simp [exchanged, hij, hik, hjk, hji, hki, hkj, Equiv.swap_apply_of_ne_of_ne]
    by_cases e3 : l = k
    · subst e3; simp [exchanged, hij, hik, hjk, hji, hki, hkj, Equiv.swap_apply_of_ne_of_ne]
    simp [exchanged, e1, e2, e3, Equiv.swap_apply_of_ne_of_ne]
  let a : Spins N → ℂ := fun x => psi x + psi (T x) + psi (T (T x))
  have ha : ∀ x, a (T x) = a x := by
    intro x
    simp only [a, hT3]
    ring
  -- `⟨ψ|a⟩ = ⟨a|a⟩ / 3`
  have h1 : ∑ x, (starRingEnd ℂ) (psi x) * a x = ∑ x, (starRingEnd ℂ) (psi (T x)) * a x := by
    rw [← T.sum_comp fun x => (starRingEnd ℂ) (psi x) * a x]
    exact Finset.sum_congr rfl fun x _ => by rw [ha]
  have h2 : ∑ x, (starRingEnd ℂ) (psi x) * a x = ∑ x, (starRingEnd ℂ) (psi (T (T x))) * a x := by
    rw [h1, ← T.sum_comp fun x => (starRingEnd ℂ) (psi (T x)) * a x]
    exact Finset.sum_congr rfl fun x _ => by rw [ha]
  have h3 : 3 * ∑ x, (starRingEnd ℂ) (psi x) * a x = ∑ x, ((‖a x‖ ^ 2 : ℝ) : ℂ) := by
    have : ∑ x, ((‖a x‖ ^ 2 : ℝ) : ℂ) = ∑ x, (starRingEnd ℂ) (psi x) * a x + ∑ x, (starRingEnd ℂ) (psi (T x)) * a x
        + ∑ x, (starRingEnd ℂ) (psi (T (T x))) * a x := by
      rw [← Finset.sum_add_distrib, ← Finset.sum_add_distrib]
      refine Finset.sum_congr rfl fun x _ => ?_
      rw [← Complex.normSq_eq_norm_sq, Complex.normSq_eq_conj_mul_self]
      have : (starRingEnd ℂ) (a x) = (starRingEnd ℂ) (psi x) + (starRingEnd ℂ) (psi (T x)) + (starRingEnd ℂ) (psi (T (T x))) := by
        simp only [a, map_add]
      rw [this]
      ring
    rw [this, ← h1, ← h2]
    ring
  have h4 : 0 ≤ (∑ x, (starRingEnd ℂ) (psi x) * a x).re := by
    have h5 := congrArg Complex.re h3
    rw [← Complex.ofReal_sum, Complex.ofReal_re] at h5
    have h6 : (3 * ∑ x, (starRingEnd ℂ) (psi x) * a x).re = 3 * (∑ x, (starRingEnd ℂ) (psi x) * a x).re := by simp
    have h7 : (0 : ℝ) ≤ ∑ x, ‖a x‖ ^ 2 := Finset.sum_nonneg fun _ _ => sq_nonneg _
    linarith
  have h5 : (∑ x, (starRingEnd ℂ) (psi x) * a x) = (∑ x, (starRingEnd ℂ) (psi x) * psi (exchanged x i j))
      + (∑ x, (starRingEnd ℂ) (psi x) * psi (exchanged x i k)) + ∑ x, (starRingEnd ℂ) (psi x) * psi (exchanged x j k) := by
    rw [← Finset.sum_add_distrib, ← Finset.sum_add_distrib]
    refine Finset.sum_congr rfl fun x _ => ?_
    have := three psi x hij hik hjk
    rw [← hT, ← hT'] at this
    show (starRingEnd ℂ) (psi x) * (psi x + psi (T x) + psi (T (T x))) = _
    rw [this]
    ring
  rw [h5, Complex.add_re, Complex.add_re] at h4
  rw [form_eq, form_eq, form_eq]
  linarith

/-- Site `i` of a ring. -/
def ringSite (m : ℕ) [NeZero m] (i : ℕ) : Fin m := Fin.ofNat m i

/-- The bonds of a ring: `J` between neighbours, `J / 2` between next neighbours.  (For four sites, each pair of next neighbours is there
twice.) -/
noncomputable def ringBonds (m : ℕ) [NeZero m] (J : ℝ) : List ((Fin m × Fin m) × ℝ) :=
  ((List.range m).map fun i => ((ringSite m i, ringSite m (i + 1)), J))
    ++ (List.range m).map fun i => ((ringSite m i, ringSite m (i + 2)), J / 2)

theorem ringSite_ne {m : ℕ} [NeZero m] (i d : ℕ) (h0 : 0 < d) (hd : d < m) : ringSite m i ≠ ringSite m (i + d) := by
  intro h
  have h1 : i % m = (i + d) % m := congrArg Fin.val h
  have h2 := (Nat.modEq_iff_dvd' (Nat.le_add_right i d)).1 h1
  rw [Nat.add_sub_cancel_left] at h2
  exact absurd (Nat.le_of_dvd h0 h2) (not_le.2 hd)

theorem ringSite_wrap {m : ℕ} [NeZero m] (i : ℕ) : ringSite m (m + i) = ringSite m i := by
  apply Fin.ext
  show (m + i) % m = i % m
  rw [Nat.add_mod_left]

theorem ring_ne {m : ℕ} [NeZero m] (hm : 3 ≤ m) (J : ℝ) : ∀ b ∈ ringBonds m J, b.1.1 ≠ b.1.2 := by
  intro b hb
  rcases List.mem_append.1 hb with h | h <;> obtain ⟨i, -, rfl⟩ := List.mem_map.1 h
  · exact ringSite_ne i 1 one_pos (by omega)
  · exact ringSite_ne i 2 two_pos (by omega)

theorem sum_ring {A : Type} [AddCommMonoid A] {m : ℕ} [NeZero m] (J : ℝ) (g : (Fin m × Fin m) × ℝ → A) :
    ((ringBonds m J).map g).sum = ∑ i ∈ Finset.range m, (g ((ringSite m i, ringSite m (i + 1)), J)
      + g ((ringSite m i, ringSite m (i + 2)), J / 2)) := by
  rw [Finset.sum_add_distrib, ringBonds, List.map_append, List.sum_append, List.map_map, List.map_map]
  rfl

theorem sum_pairs {A : Type} [AddCommMonoid A] (g : ℕ → A) (n : ℕ) :
    ∑ i ∈ Finset.range (2 * n), g i = ∑ k ∈ Finset.range n, (g (2 * k) + g (2 * k + 1)) := by
  induction n with
  | zero => simp
  | succ n ih =>
    rw [show 2 * (n + 1) = 2 * n + 1 + 1 by ring, Finset.sum_range_succ, Finset.sum_range_succ, ih, Finset.sum_range_succ, add_assoc]

/-- **C200**: the states with singlets on every second bond of a ring with couplings `J` and `J / 2` have the same energy `-3 J` for each
singlet at all samples (Majumdar and Ghosh). -/
theorem C200_majumdar_ghosh (n : ℕ) [NeZero (2 * n)] (hn : 2 ≤ n) (J : ℝ) (psi : Spins (2 * n) → ℂ)
    (hs : ∀ k < n, SingletOn psi (ringSite (2 * n) (2 * k)) (ringSite (2 * n) (2 * k + 1))) (x : Spins (2 * n)) (hx : psi x ≠ 0) :
    energyAt (ringBonds (2 * n) J) psi x = FC.ofC (-3 * J * n : ℝ) := by
  have hs' : ∀ k ≤ n, SingletOn psi (ringSite (2 * n) (2 * k)) (ringSite (2 * n) (2 * k + 1)) := by
    intro k hk
    rcases hk.lt_or_eq with h | rfl
    · exact hs k h
    · rw [ringSite_wrap 1, show ringSite (2 * k) (2 * k) = ringSite (2 * k) 0 from ringSite_wrap 0]
      exact hs 0 (by omega)
  rw [energyAt_eq _ (ring_ne (by omega) J) psi x hx]
  congr 1
  rw [div_eq_iff hx, sum_ring, sum_pairs]
  refine (Finset.sum_congr rfl (g := fun _ => -3 * (J : ℂ) * psi x) fun k hk => ?_).trans ?_
  · have hk := Finset.mem_range.1 hk
    have h1 := singlet_screens psi (i := ringSite (2 * n) (2 * k)) (j := ringSite (2 * n) (2 * k + 1)) (k := ringSite (2 * n) (2 * k + 2))
      (ringSite_ne _ 1 one_pos (by omega)) (ringSite_ne _ 2 two_pos (by omega)) (ringSite_ne (2 * k + 1) 1 one_pos (by omega)) (hs k hk) x
    have h2 := singlet_screens psi (i := ringSite (2 * n) (2 * k + 2)) (j := ringSite (2 * n) (2 * k + 3)) (k := ringSite (2 * n) (2 * k + 1))
      (ringSite_ne (2 * k + 2) 1 one_pos (by omega)) (ringSite_ne (2 * k + 1) 1 one_pos (by omega)).symm
      (ringSite_ne (2 * k + 1) 2 two_pos (by omega)).symm (hs' (k + 1) hk) x
    have h3 : ∀ i j, bondValue psi x i j = bondValue psi x j i := fun i j => by unfold bondValue; rw [exchanged_comm]
    rw [h3 (ringSite (2 * n) (2 * k + 2)), h3 (ringSite (2 * n) (2 * k + 3))] at h2
    have h4 : bondValue psi x (ringSite (2 * n) (2 * k)) (ringSite (2 * n) (2 * k + 1)) = -3 * psi x := by
      rw [bondValue, hs k hk]
      ring
    show (J : ℂ) * bondValue psi x (ringSite (2 * n) (2 * k)) (ringSite (2 * n) (2 * k + 1))
        + ((J / 2 : ℝ) : ℂ) * bondValue psi x (ringSite (2 * n) (2 * k)) (ringSite (2 * n) (2 * k + 2))
        + ((J : ℂ) * bondValue psi x (ringSite (2 * n) (2 * k + 1)) (ringSite (2 * n) (2 * k + 2))
        + ((J / 2 : ℝ) : ℂ) * bondValue psi x (ringSite (2 * n) (2 * k + 1)) (ringSite (2 * n) (2 * k + 3))) = _
    rw [h4]
    push_cast
    linear_combination ((J : ℂ) / 2) * h1 + ((J : ℂ) / 2) * h2
  · rw [Finset.sum_const, Finset.card_range, nsmul_eq_mul]
    push_cast
    ring

/-- **C200**: on a ring with couplings `J` and `J / 2` no state has an energy below `-3 J / 2` for each site, so that the states of
`C200_majumdar_ghosh` are ground states. -/
theorem C200_ring_bound (m : ℕ) [NeZero m] (hm : 3 ≤ m) (J : ℝ) (hJ : 0 ≤ J) (psi : Spins m → ℂ) (hp : ∃ x, psi x ≠ 0) (e : Spins m → ℂ)
    (he : ∀ x, psi x ≠ 0 → energyAt (ringBonds m J) psi x = FC.ofC (e x)) :
    -3 / 2 * J * m ≤ (weightedMean (fun x => ‖psi x‖ ^ 2) e).re := by
  rw [mean_eq _ (ring_ne hm J) psi e he, le_div_iff₀ (bornNorm_pos hp), sum_ring]
  have shift : ∑ i ∈ Finset.range m, form psi (ringSite m i) (ringSite m (i + 1))
      = ∑ i ∈ Finset.range m, form psi (ringSite m (i + 1)) (ringSite m (i + 2)) := by
    have h1 := Finset.sum_range_succ (fun i => form psi (ringSite m i) (ringSite m (i + 1))) m
    have h2 := Finset.sum_range_succ' (fun i => form psi (ringSite m i) (ringSite m (i + 1))) m
    have h3 : form psi (ringSite m m) (ringSite m (m + 1)) = form psi (ringSite m 0) (ringSite m (0 + 1)) := by
      rw [ringSite_wrap 1, show ringSite m m = ringSite m 0 from ringSite_wrap 0]
    rw [h3] at h1
    linarith
  have h : ∑ i ∈ Finset.range m, (J * form psi (ringSite m i) (ringSite m (i + 1)) + J / 2 * form psi (ringSite m i) (ringSite m (i + 2)))
      = J / 2 * ∑ i ∈ Finset.range m, (form psi (ringSite m i) (ringSite m (i + 1)) + form psi (ringSite m i) (ringSite m (i + 2))
        + form psi (ringSite m (i + 1)) (ringSite m (i + 2))) := by
    simp only [Finset.sum_add_distrib, ← Finset.mul_sum]
    rw [← shift]
    ring
  show _ ≤ ∑ i ∈ Finset.range m, (J * form psi (ringSite m i) (ringSite m (i + 1)) + J / 2 * form psi (ringSite m i) (ringSite m (i + 2)))
  rw [h]
  have h2 : (m : ℝ) * (-3 * bornNorm psi) ≤ ∑ i ∈ Finset.range m, (form psi (ringSite m i) (ringSite m (i + 1))
      + form psi (ringSite m i) (ringSite m (i + 2)) + form psi (ringSite m (i + 1)) (ringSite m (i + 2))) := by
    have := Finset.card_nsmul_le_sum (Finset.range m) (fun i => form psi (ringSite m i) (ringSite m (i + 1))
      + form psi (ringSite m i) (ringSite m (i + 2)) + form psi (ringSite m (i + 1)) (ringSite m (i + 2))) (-3 * bornNorm psi) fun i _ =>
        triangle_nonneg psi (ringSite_ne i 1 one_pos (by omega)) (ringSite_ne i 2 two_pos (by omega))
          (ringSite_ne (i + 1) 1 one_pos (by omega))
    rwa [Finset.card_range, nsmul_eq_mul] at this
  nlinarith [mul_le_mul_of_nonneg_left h2 (by positivity : 0 ≤ J / 2)]

/-! ### There are such states -/

/-- The product of singlets on the sites `2 k` and `2 k + 1`. -/
def dimerState (n : ℕ) [NeZero (2 * n)] (x : Spins (2 * n)) : ℂ :=
  ∏ k ∈ Finset.range n, if x (ringSite (2 * n) (2 * k)) = x (ringSite (2 * n) (2 * k + 1)) then 0
    else if x (ringSite (2 * n) (2 * k)) then 1 else -1

theorem ringSite_inj {m : ℕ} [NeZero m] {i j : ℕ} (hi : i < m) (hj : j < m) (h : ringSite m i = ringSite m j) : i = j := by
  have h1 : i % m = j % m := congrArg Fin.val h
  rwa [Nat.mod_eq_of_lt hi, Nat.mod_eq_of_lt hj] at h1

theorem dimerState_singlet (n : ℕ) [NeZero (2 * n)] (k : ℕ) (hk : k < n) :
    SingletOn (dimerState n) (ringSite (2 * n) (2 * k)) (ringSite (2 * n) (2 * k + 1)) := by
  intro y
  unfold dimerState
  rw [← Finset.mul_prod_erase _ _ (Finset.mem_range.2 hk), ← Finset.mul_prod_erase _ _ (Finset.mem_range.2 hk), ← neg_mul]
  congr 1
  · simp only [exchanged, Equiv.swap_apply_left, Equiv.swap_apply_right]
    cases y (ringSite (2 * n) (2 * k)) <;> cases y (ringSite (2 * n) (2 * k + 1)) <;> simp
  · refine Finset.prod_congr rfl fun l hl => ?_
    obtain ⟨h1, h2⟩ := Finset.mem_erase.1 hl
    have h2 := Finset.mem_range.1 h2
    have e1 : exchanged y (ringSite (2 * n) (2 * k)) (ringSite (2 * n) (2 * k + 1)) (ringSite (2 * n) (2 * l)) = y (ringSite (2 * n) (2 * l)) := by
      unfold exchanged
      rw [Equiv.swap_apply_of_ne_of_ne]
      · exact fun h => absurd (ringSite_inj (by omega) (by omega) h) (by omega)
      · exact fun h => absurd (ringSite_inj (by omega) (by omega) h) (by omega)
    have e2 : exchanged y (ringSite (2 * n) (2 * k)) (ringSite (2 * n) (2 * k + 1)) (ringSite (2 * n) (2 * l + 1))
        = y (ringSite (2 * n) (2 * l + 1)) := by
      unfold exchanged
      rw [Equiv.swap_apply_of_ne_of_ne]
      · exact fun h => absurd (ringSite_inj (by omega) (by omega) h) (by omega)
      · exact fun h => absurd (ringSite_inj (by omega) (by omega) h) (by omega)
    rw [e1, e2]

theorem dimerState_neel (n : ℕ) [NeZero (2 * n)] : dimerState n (fun i => decide (i.val % 2 = 0)) = 1 := by
  refine Finset.prod_eq_one fun k hk => ?_
  have hk := Finset.mem_range.1 hk
  have h1 : (ringSite (2 * n) (2 * k)).val = 2 * k := Nat.mod_eq_of_lt (by omega)
  have h2 : (ringSite (2 * n) (2 * k + 1)).val = 2 * k + 1 := Nat.mod_eq_of_lt (by omega)
  beta_reduce
  rw [h1, h2]
  have h3 : 2 * k % 2 = 0 := by omega
  have h4 : ¬ (2 * k + 1) % 2 = 0 := by omega
  simp [h3, h4]

/-- The singlet state has the energy `-3 J` for each singlet at the antiferromagnetic configuration of any even ring. -/
example (n : ℕ) [NeZero (2 * n)] (hn : 2 ≤ n) (J : ℝ) :
    energyAt (ringBonds (2 * n) J) (dimerState n) (fun i => decide (i.val % 2 = 0)) = FC.ofC (-3 * J * n : ℝ) :=
  C200_majumdar_ghosh n hn J _ (dimerState_singlet n) _ (by rw [dimerState_neel]; exact one_ne_zero)

/-- Two singlets on four sites with an additional coupling of the third site to both sites of the first singlet. -/
example (J J' c : ℝ) (x : Spins (2 * 2)) (hx : dimerState 2 x ≠ 0) :
    energyAt [((0, 2), c), ((0, 1), J), ((1, 2), c), ((2, 3), J')] (dimerState 2) x = FC.ofC (-3 * (J + J') : ℝ) := by
  have h := C200_dimers (dimerState 2) [((0, 1), J), ((2, 3), J')] (by simp) (by
      intro b hb
      rcases List.mem_pair.1 hb with rfl | rfl
      · exact dimerState_singlet 2 0 (by omega)
      · exact dimerState_singlet 2 1 (by omega))
    [((0, 1, 2), c)] (by
      intro t ht
      rw [List.mem_singleton] at ht
      subst ht
      exact ⟨show (0 : Fin 4) ≠ 1 by decide, show (0 : Fin 4) ≠ 2 by decide, show (1 : Fin 4) ≠ 2 by decide, dimerState_singlet 2 0 (by omega)⟩)
    [((0, 2), c), ((0, 1), J), ((1, 2), c), ((2, 3), J')]
    (((List.Perm.swap _ _ _).trans (List.Perm.cons _ (((List.Perm.cons _ (List.Perm.swap _ _ _)).trans (List.Perm.swap _ _ _))))))
    x hx
  rw [h]
  simp [total]

/-- The constant state reaches the upper bound of `C200_bounds`, a singlet the lower one. -/
example (J : ℝ) (x : Spins 2) : energyAt [((0, 1), J)] (fun _ => 1) x = FC.ofC (total [(((0 : Fin 2), (1 : Fin 2)), J)] : ℝ) :=
  C200_polarised _ (by simp) _ (fun _ _ _ => rfl) x one_ne_zero

/-! ## Multiplets -/

/-- The state to which the total raising operator (`a = true`) or lowering operator takes a state. -/
noncomputable def ladder (a : Bool) (psi : Spins N → ℂ) (x : Spins N) : ℂ :=
  ∑ k, if x k = a then psi (Function.update x k (!a)) else 0

theorem update_exchanged (x : Spins N) (i j k : Fin N) (a : Bool) :
    Function.update (exchanged x i j) k a = exchanged (Function.update x (Equiv.swap i j k) a) i j := by
  funext l
  unfold exchanged
  by_cases h : l = k
  · subst h; simp
  · have : Equiv.swap i j l ≠ Equiv.swap i j k := fun e => h ((Equiv.swap i j).injective e)
    simp [h, this]

theorem bondValue_ladder (a : Bool) (psi : Spins N → ℂ) (x : Spins N) (i j : Fin N) :
    bondValue (ladder a psi) x i j = ladder a (fun y => bondValue psi y i j) x := by
  unfold bondValue ladder
  rw [← Equiv.sum_comp (Equiv.swap i j) fun k => if exchanged x i j k = a then psi (Function.update (exchanged x i j) k (!a)) else 0,
    Finset.mul_sum, ← Finset.sum_sub_distrib]
  refine Finset.sum_congr rfl fun k _ => ?_
  have h : exchanged x i j (Equiv.swap i j k) = x k := by simp [exchanged]
  rw [h, update_exchanged, Equiv.swap_apply_self]
  split_ifs <;> simp

/-- **C200**: multiplets.  If a state is an eigenstate of the Heisenberg model, so is the state with the total spin raised or lowered, and
all its local energies are the eigenvalue. -/
theorem C200_multiplets (bonds : List ((Fin N × Fin N) × ℝ)) (hd : ∀ b ∈ bonds, b.1.1 ≠ b.1.2) (psi : Spins N → ℂ) (E : ℂ)
    (hE : ∀ x, ∑ y, heisenberg (bonds.map fun b => (b.1, (b.2 : ℂ))) x y * psi y = E * psi x) (a : Bool) (x : Spins N)
    (hx : ladder a psi x ≠ 0) : energyAt bonds (ladder a psi) x = FC.ofC E := by
  rw [energyAt_eq bonds hd _ x hx]
  congr 1
  rw [div_eq_iff hx]
  have hE' : ∀ y, (bonds.map fun b => (b.2 : ℂ) * bondValue psi y b.1.1 b.1.2).sum = E * psi y := by
    intro y
    rw [← row_eq bonds hd psi y, ← hE y]
    unfold heisenberg
    rw [List.map_map]
    rfl
  have key : (bonds.map fun b => (b.2 : ℂ) * bondValue (ladder a psi) x b.1.1 b.1.2).sum
      = ladder a (fun y => (bonds.map fun b => (b.2 : ℂ) * bondValue psi y b.1.1 b.1.2).sum) x := by
    clear hE hE' hd
    induction bonds with
    | nil => simp [ladder]
    | cons b bs ih =>
      simp only [List.map_cons, List.sum_cons]
      rw [ih, bondValue_ladder]
      unfold ladder
      rw [Finset.mul_sum, ← Finset.sum_add_distrib]
      refine Finset.sum_congr rfl fun k _ => ?_
      split_ifs <;> simp
  rw [key]
  unfold ladder
  rw [Finset.mul_sum]
  refine Finset.sum_congr rfl fun k _ => ?_
  beta_reduce
  rw [hE']
  split_ifs <;> simp

/-- The state with all spins up, and the states with one spin less, of two sites. -/
example (J : ℝ) : energyAt [((0, 1), J)] (ladder false fun x : Spins 2 => if x = fun _ => true then 1 else 0) ![true, false]
    = FC.ofC (J : ℂ) := by
  refine C200_multiplets [((0, 1), J)] (by simp) _ J (fun x => ?_) false _ ?_
  · have h := row_eq [((0, 1), J)] (by simp) (fun x : Spins 2 => if x = fun _ => true then (1 : ℂ) else 0) x
    simp only [List.map_cons, List.map_nil, List.sum_cons, List.sum_nil, add_zero] at h
    rw [heisenberg]
    refine h.trans ?_
    have e : exchanged x 0 1 = (fun _ => true) ↔ x = fun _ => true := by
      constructor <;> intro h
      · rw [← exchanged_exchanged x 0 1, h]; rfl
      · rw [h]; rfl
    simp only [bondValue, e]
    split_ifs <;> ring
  · have h : Function.update (![true, false] : Spins 2) 1 true = fun _ => true := by
      funext k
      fin_cases k <;> simp
    simp [ladder, Fin.sum_univ_two, h]

end GPSKet.HeisenbergExact
