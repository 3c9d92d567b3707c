import Verif.Lemmas.ChainFrequency
import Verif.Props.MinSR
import Verif.Props.SampledEnergy
import Verif.Props.DirectEnergy

/-!
# Property C183: updates from more and more samples tend to the exact update

The driver computes the update from the samples of all chains on all ranks.  Here the samples are random, and the update is compared with
the solution of smallest norm of the equation `S u = F` in which all averages are exact (`Spec.SRSolution`).
-/

namespace GPSKet.SampledUpdate

open GPSKet.Spec GPSKet.MinSR GPSKet.Props

variable {α : Type} [Fintype α] {P : ℕ}

/-- The samples of all ranks and chunks are those of all chains, in some order. -/
def Arranged {R K B : ℕ} (x : Sample R K B → α) (ls : List (List α)) : Prop := Multiset.map x Finset.univ.val = (ls.flatten : Multiset α)

/-- An outcome of the chains from which, for some distribution of the samples over ranks and chunks and some least-squares solver, the update
computed by `minSRVMC` with the logarithmic derivatives `O` and the local energies `E` differs from `u` by at least `ε`. -/
def FarOff (O : α → Fin P → ℂ) (E : α → ℂ) (u : Fin P → ℂ) (ε : ℝ) : Set (List (List α)) :=
  {ls | ∃ (R K B : ℕ) (x : Sample R K B → α) (solver : _), (∀ A b, LeastSquares A b (solver A b)) ∧ Arranged x ls ∧
    ε ≤ ‖update true solver (fun s => O (x s)) (fun s => E (x s)) uniformCounts - u‖}

/-- The same for complex parameters in mode `complex`. -/
def FarOffComplex (O : α → Fin P → ℂ) (E : α → ℂ) (u : Fin P → ℂ) (ε : ℝ) : Set (List (List α)) :=
  {ls | ∃ (R K B : ℕ) (x : Sample R K B → α) (solver : _), (∀ A b, LeastSquares A b (solver A b)) ∧ Arranged x ls ∧
    ε ≤ ‖reassemble (update true solver (splitRows (fun s => O (x s)) fun s k => Complex.I * O (x s) k) (fun s => E (x s)) uniformCounts) - u‖}

/-- The same for real parameters with real logarithmic derivatives (mode `real`): the real part is applied. -/
def FarOffReal (O : α → Fin P → ℝ) (E : α → ℂ) (u : Fin P → ℝ) (ε : ℝ) : Set (List (List α)) :=
  {ls | ∃ (R K B : ℕ) (x : Sample R K B → α) (solver : _), (∀ A b, LeastSquares A b (solver A b)) ∧ Arranged x ls ∧
    ε ≤ ‖castReal (update true solver (fun s k => (O (x s) k : ℂ)) (fun s => E (x s)) uniformCounts) - u‖}

/-! ## The exact update -/

/-- C183: the equation with exact averages has exactly one solution of smallest norm. -/
theorem C183_exact (w : α → ℝ) (h0 : ∀ x, 0 ≤ w x) (h : ∑ x, w x ≠ 0) (O : α → Fin P → ℂ) (E : α → ℂ) : ∃! u, SRSolution w O E u := by
  have hp := normal_prob h0 h
  simp only [solution_normal h]
  obtain ⟨u, hu⟩ := solution_exists hp O E
  refine ⟨u, hu, fun v hv => ?_⟩
  obtain ⟨r, b, hmem, hb⟩ := spanning (normal w) O
  rw [solution_eq hp hu b hmem hb, solution_eq hp hv b hmem hb]

/-! ## The update computed from samples -/

theorem arranged_cov [DecidableEq α] {R K B : ℕ} {x : Sample R K B → α} {ls : List (List α)} (hx : Arranged x ls) (hne : ls.flatten ≠ [])
    (f g : α → ℂ) : (sampleMean fun s => (starRingEnd ℂ) (f (x s) - sampleMean fun s => f (x s)) * (g (x s) - sampleMean fun s => g (x s))) =
      covariance (freq ls.flatten) f g := by
  have h := (freq_prob hne).sum
  have hm : ∀ f : α → ℂ, (sampleMean fun s => f (x s)) = weightedMean (freq ls.flatten) f := by
    intro f
    rw [weightedMean_prob h]
    exact mean_freq x ls.flatten hx f
  unfold covariance
  rw [hm f, hm g]
  exact hm fun a => (starRingEnd ℂ) (f a - weightedMean (freq ls.flatten) f) * (g a - weightedMean (freq ls.flatten) g)

/-- The equation of the samples is the one with the relative frequencies as weights. -/
theorem solves_freq [DecidableEq α] {R K B : ℕ} {x : Sample R K B → α} {ls : List (List α)} (hx : Arranged x ls) (hne : ls.flatten ≠ [])
    (O : α → Fin P → ℂ) (E : α → ℂ) (u : Fin P → ℂ)
    (h : (∀ k, ∑ l, srMatrix (fun s => O (x s)) k l * u l = srForce (fun s => O (x s)) (fun s => E (x s)) k) ∧
      ∀ y : Fin P → ℂ, (∀ k, ∑ l, srMatrix (fun s => O (x s)) k l * y l = srForce (fun s => O (x s)) (fun s => E (x s)) k) →
        ∑ k, ‖u k‖ ^ 2 ≤ ∑ k, ‖y k‖ ^ 2) : SRSolution (freq ls.flatten) O E u := by
  have h1 : ∀ k l, srMatrix (fun s => O (x s)) k l = covariance (freq ls.flatten) (fun a => O a k) fun a => O a l :=
    fun k l => arranged_cov hx hne (fun a => O a k) fun a => O a l
  have h2 : ∀ k, srForce (fun s => O (x s)) (fun s => E (x s)) k = covariance (freq ls.flatten) (fun a => O a k) E :=
    fun k => arranged_cov hx hne (fun a => O a k) E
  simp only [h1, h2] at h
  exact h

/-- The real part of the solution for real rows. -/
theorem real_part {q : α → ℝ} (h : Prob q) {O : α → Fin P → ℝ} {E : α → ℂ} {u : Fin P → ℂ} (hu : SRSolution q (fun x k => (O x k : ℂ)) E u) :
    SRSolution q (fun x k => (O x k : ℂ)) (fun x => ((E x).re : ℂ)) fun k => ((u k).re : ℂ) := by
  set Oc : α → Fin P → ℂ := fun x k => (O x k : ℂ) with hOc
  have hconj : ∀ f g : α → ℂ, (∀ x, (starRingEnd ℂ) (f x) = f x) → (starRingEnd ℂ) (covariance q f g) = covariance q f fun x => (starRingEnd ℂ) (g x) := by
    intro f g hf
    have hm : ∀ g : α → ℂ, (starRingEnd ℂ) (weightedMean q g) = weightedMean q fun x => (starRingEnd ℂ) (g x) := by
      intro g
      rw [weightedMean_prob h.sum, weightedMean_prob h.sum, map_sum]
      exact Finset.sum_congr rfl fun x _ => by rw [map_mul, Complex.conj_ofReal]
    unfold covariance
    rw [hm]
    congr 1
    funext x
    have hmf : (starRingEnd ℂ) (weightedMean q f) = weightedMean q f := by rw [hm]; simp only [hf]
    rw [map_mul, map_sub, map_sub, map_sub, hm g]
    simp only [hf, hmf]
  have hadd : ∀ f g g' : α → ℂ, covariance q f g + covariance q f g' = covariance q f fun x => g x + g' x := by
    intro f g g'
    unfold covariance
    simp only [weightedMean_prob h.sum]
    rw [← Finset.sum_add_distrib]
    refine Finset.sum_congr rfl fun x _ => ?_
    simp only [mul_add, Finset.sum_add_distrib]
    ring
  have hmul : ∀ (f g : α → ℂ) (c : ℂ), c * covariance q f g = covariance q f fun x => c * g x := by
    intro f g c
    unfold covariance
    simp only [weightedMean_prob h.sum]
    rw [Finset.mul_sum]
    refine Finset.sum_congr rfl fun x _ => ?_
    have : ∑ x, (q x : ℂ) * (c * g x) = c * ∑ x, (q x : ℂ) * g x := by
      rw [Finset.mul_sum]; exact Finset.sum_congr rfl fun x _ => by ring
    rw [this]
    ring
  have hre : ∀ z : ℂ, ((z.re : ℝ) : ℂ) = (1 / 2) * (z + (starRingEnd ℂ) z) := fun z => by
    rw [Complex.add_conj]; push_cast; ring
  have hreal : ∀ k x, (starRingEnd ℂ) (Oc x k) = Oc x k := fun k x => Complex.conj_ofReal _
  obtain ⟨h1, -⟩ := (solution_iff q Oc E u).mp hu
  refine solution_of_orthogonal h ?_ ?_
  · funext k
    have h2 := congrFun h1 k
    have h3 := congrArg (starRingEnd ℂ) h2
    rw [cov_mulVec h.sum, hconj _ _ (hreal k)] at h3
    unfold force at h3
    rw [hconj _ _ (hreal k)] at h3
    rw [cov_mulVec h.sum] at h2 ⊢
    unfold force at h2 ⊢
    have e1 : along Oc (fun k => ((u k).re : ℂ)) = fun x => (1 / 2) * (along Oc u x + (starRingEnd ℂ) (along Oc u x)) := by
      funext x
      unfold along
      rw [map_sum, ← Finset.sum_add_distrib, Finset.mul_sum]
      refine Finset.sum_congr rfl fun k _ => ?_
      beta_reduce
      rw [hre, map_mul, hreal]
      ring
    have e2 : (fun x => ((E x).re : ℂ)) = fun x => (1 / 2) * (E x + (starRingEnd ℂ) (E x)) := funext fun x => hre _
    rw [e1, e2, ← hmul, ← hmul, ← hadd, ← hadd, h2, h3]
  · intro y hy
    have hy' : (fun k => (starRingEnd ℂ) (y k)) ∈ flat q Oc := by
      intro a b ha hb
      have := congrArg (starRingEnd ℂ) (hy a b ha hb)
      unfold along at this ⊢
      rw [map_sum, map_sum] at this
      simp only [map_mul, hreal] at this
      exact this
    have o1 := orthogonal h hu hy
    have o2 := congrArg (starRingEnd ℂ) (orthogonal h hu hy')
    unfold dot at *
    rw [map_sum, map_zero] at o2
    simp only [map_mul, Complex.conj_conj] at o2
    have : ∑ k, (starRingEnd ℂ) (y k) * ((u k).re : ℂ) =
        (1 / 2) * (∑ k, (starRingEnd ℂ) (y k) * u k + ∑ k, (starRingEnd ℂ) (y k) * (starRingEnd ℂ) (u k)) := by
      rw [← Finset.sum_add_distrib, Finset.mul_sum]
      refine Finset.sum_congr rfl fun k _ => ?_
      rw [hre]
      ring
    rw [this, o1, o2]
    ring

/-- If the frequencies are close enough to the exact weights, the update is close to the exact one; all three modes. -/
theorem close [DecidableEq α] {w : α → ℝ} (h0 : ∀ x, 0 ≤ w x) (h : ∑ x, w x ≠ 0) (O : α → Fin P → ℂ) (E : α → ℂ) {u : Fin P → ℂ}
    (hu : SRSolution w O E u) {ε : ℝ} (hε : 0 < ε) : ∃ δ : ℝ, 0 < δ ∧ ∀ ls : List (List α), ls.flatten ≠ [] →
      (∀ x ∈ ls.flatten, w x ≠ 0) → (∀ c, |freq ls.flatten c - normal w c| < δ) → ls ∉ FarOff O E u ε ∧ ls ∉ FarOffComplex O E u ε := by
  have hp := normal_prob h0 h
  obtain ⟨δ, hδ, hcl⟩ := solution_continuous hp O E ((solution_normal h O E u).mp hu) hε
  have hz : ∀ ls : List (List α), (∀ x ∈ ls.flatten, w x ≠ 0) → ∀ x, normal w x = 0 → freq ls.flatten x = 0 := by
    intro ls hls x hx
    have hw : w x = 0 := by
      unfold normal at hx
      rcases div_eq_zero_iff.mp hx with h1 | h1
      · exact h1
      · exact absurd h1 h
    have : ls.flatten.count x = 0 := List.count_eq_zero.mpr fun hm => hls x hm hw
    unfold freq
    rw [this]
    simp
  refine ⟨δ, hδ, fun ls hne hls hd => ⟨?_, ?_⟩⟩
  · rintro ⟨R, K, B, x, solver, hs, hx, hfar⟩
    refine absurd (hcl _ (freq_prob hne) (hz ls hls) hd _ ?_) (not_lt.mpr hfar)
    exact solves_freq hx hne O E _ (C47_minSR_is_SR solver (fun s => O (x s)) (fun s => E (x s)) hs)
  · rintro ⟨R, K, B, x, solver, hs, hx, hfar⟩
    refine absurd (hcl _ (freq_prob hne) (hz ls hls) hd _ ?_) (not_lt.mpr hfar)
    exact solves_freq hx hne O E _ (C47_complex_parameters solver (fun s => O (x s)) (fun s => E (x s)) hs)

theorem close_real [DecidableEq α] {w : α → ℝ} (h0 : ∀ x, 0 ≤ w x) (h : ∑ x, w x ≠ 0) (O : α → Fin P → ℝ) (E : α → ℂ) {u : Fin P → ℝ}
    (hu : SRSolution w (fun x k => (O x k : ℂ)) (fun x => ((E x).re : ℂ)) fun k => (u k : ℂ)) {ε : ℝ} (hε : 0 < ε) :
    ∃ δ : ℝ, 0 < δ ∧ ∀ ls : List (List α), ls.flatten ≠ [] →
      (∀ x ∈ ls.flatten, w x ≠ 0) → (∀ c, |freq ls.flatten c - normal w c| < δ) → ls ∉ FarOffReal O E u ε := by
  have hp := normal_prob h0 h
  obtain ⟨δ, hδ, hcl⟩ := solution_continuous hp _ _ ((solution_normal h _ _ _).mp hu) hε
  refine ⟨δ, hδ, fun ls hne hls hd => ?_⟩
  rintro ⟨R, K, B, x, solver, hs, hx, hfar⟩
  refine absurd (hcl _ (freq_prob hne) ?_ hd _ (real_part (freq_prob hne)
    (solves_freq hx hne (fun x k => (O x k : ℂ)) E _ (C47_minSR_is_SR solver _ (fun s => E (x s)) hs)))) (not_lt.mpr (hfar.trans ?_))
  · intro x hx
    have hw : w x = 0 := by
      unfold normal at hx
      rcases div_eq_zero_iff.mp hx with h1 | h1
      · exact h1
      · exact absurd h1 h
    have : ls.flatten.count x = 0 := List.count_eq_zero.mpr fun hm => hls x hm hw
    unfold freq
    rw [this]
    simp
  · refine (pi_norm_le_iff_of_nonneg (norm_nonneg _)).mpr fun k => ?_
    refine le_trans (le_of_eq ?_) (norm_le_pi_norm _ k)
    rw [← Complex.norm_real]
    simp [castReal]

/-! ## Metropolis chains -/

/-- A property of the outcome that holds when all frequencies are close to the exact weights fails with a probability of at most `c / n`. -/
theorem rare [DecidableEq α] {T : Matrix α α ℝ} (hT : IsKernel T) {w : α → ℝ} (hw : ∀ x, 0 < w x) (hc : ∀ f : α → ℂ, Consistent T w f)
    (A : Set (List (List α))) {δ : ℝ} (hδ : 0 < δ)
    (hA : ∀ ls : List (List α), ls.flatten ≠ [] → (∀ x ∈ ls.flatten, w x ≠ 0) → (∀ c, |freq ls.flatten c - normal w c| < δ) → ls ∉ A)
    {m : ℕ} (hm : 0 < m) : ∃ c : ℝ, ∀ n : ℕ, 0 < n → ∀ starts : List α, starts.length = m →
      chainsExpect T n starts (Set.indicator A 1) ≤ c / n := by
  choose C hC using fun c : α => hc fun a => if a = c then 1 else 0
  refine ⟨m * ∑ c, C c / (δ / 2) ^ 2, fun n hn starts hl => ?_⟩
  have hn' : (0 : ℝ) < n := by exact_mod_cast hn
  cases starts with
  | nil => rw [← hl] at hm; exact absurd hm (by simp)
  | cons x0 xs =>
  have hW : ∑ x, w x ≠ 0 := (Finset.sum_pos (fun x _ => hw x) ⟨x0, Finset.mem_univ x0⟩).ne'
  set bad : Set (List α) := {l | ∃ c, l ∈ {l : List α | δ / 2 ≤ averageError w (fun a => if a = c then 1 else 0) l}} with hbad
  have h1 : ∀ x, pathExpect T n (Set.indicator bad 1) x ≤ ∑ c, C c / (n * (δ / 2) ^ 2) := fun x =>
    path_union hT n _ _ x fun c => (hC c n hn x).2 _ (half_pos hδ)
  have h2 := chains_union hT n bad _ h1 (x0 :: xs)
  refine le_trans (chainsExpect_mono hT n _ _ _ ?_) (h2.trans (le_of_eq ?_))
  · intro ls hls hlen
    have hne : ls ≠ [] := by
      intro h; rw [h] at hls; simp at hls
    by_cases hb : ∃ l ∈ ls, l ∈ bad
    · rw [Set.indicator_of_mem (show ls ∈ {ls | ∃ l ∈ ls, l ∈ bad} from hb)]
      exact Set.indicator_le_self' (fun _ _ => zero_le_one) ls
    · rw [Set.indicator_of_notMem (show ls ∉ {ls | ∃ l ∈ ls, l ∈ bad} from hb), Set.indicator_of_notMem]
      refine hA ls ?_ (fun x _ => (hw x).ne') fun c => ?_
      · obtain ⟨l, ls', rfl⟩ := List.exists_cons_of_ne_nil hne
        intro hf
        have := congrArg List.length hf
        rw [List.flatten_cons, List.length_append, hlen l List.mem_cons_self] at this
        simp at this
        omega
      · refine lt_of_le_of_lt (freq_flatten hn hne hlen (δ := δ / 2) fun l hl => ?_) (half_lt_self hδ)
        rw [← averageError_freq hW]
        by_contra hcon
        exact hb ⟨l, hl, c, (not_le.mp hcon).le⟩
  · rw [hl, mul_div_assoc, Finset.sum_div]
    congr 1
    exact Finset.sum_congr rfl fun c _ => by rw [div_div, mul_comm (n : ℝ)]

/-- **C183**, for every Markov chain whose averages are consistent with positive weights: with `m` independent chains, started anywhere, the
probability that the update of `minSRVMC` from `n` samples per chain differs from the exact one by `ε` or more is at most `c / n`.  Complex
parameters, mode `holomorphic`. -/
theorem C183_chains {T : Matrix α α ℝ} (hT : IsKernel T) {w : α → ℝ} (hw : ∀ x, 0 < w x) (hc : ∀ f : α → ℂ, Consistent T w f)
    (O : α → Fin P → ℂ) (E : α → ℂ) {u : Fin P → ℂ} (hu : SRSolution w O E u) {ε : ℝ} (hε : 0 < ε) {m : ℕ} (hm : 0 < m) :
    ∃ c : ℝ, ∀ n : ℕ, 0 < n → ∀ starts : List α, starts.length = m → chainsExpect T n starts (Set.indicator (FarOff O E u ε) 1) ≤ c / n := by
  classical
  rcases isEmpty_or_nonempty α with he | ⟨⟨x0⟩⟩
  · refine ⟨0, fun n hn starts hl => ?_⟩
    cases starts with
    | nil => rw [← hl] at hm; exact absurd hm (by simp)
    | cons x _ => exact he.elim x
  obtain ⟨δ, hδ, hcl⟩ := close (fun x => (hw x).le) (Finset.sum_pos (fun x _ => hw x) ⟨x0, Finset.mem_univ x0⟩).ne' O E hu hε
  exact rare hT hw hc _ hδ (fun ls h1 h2 h3 => (hcl ls h1 h2 h3).1) hm

/-- **C183**, complex parameters in mode `complex`. -/
theorem C183_chains_complex {T : Matrix α α ℝ} (hT : IsKernel T) {w : α → ℝ} (hw : ∀ x, 0 < w x) (hc : ∀ f : α → ℂ, Consistent T w f)
    (O : α → Fin P → ℂ) (E : α → ℂ) {u : Fin P → ℂ} (hu : SRSolution w O E u) {ε : ℝ} (hε : 0 < ε) {m : ℕ} (hm : 0 < m) :
    ∃ c : ℝ, ∀ n : ℕ, 0 < n → ∀ starts : List α, starts.length = m → chainsExpect T n starts (Set.indicator (FarOffComplex O E u ε) 1) ≤ c / n := by
  classical
  rcases isEmpty_or_nonempty α with he | ⟨⟨x0⟩⟩
  · refine ⟨0, fun n hn starts hl => ?_⟩
    cases starts with
    | nil => rw [← hl] at hm; exact absurd hm (by simp)
    | cons x _ => exact he.elim x
  obtain ⟨δ, hδ, hcl⟩ := close (fun x => (hw x).le) (Finset.sum_pos (fun x _ => hw x) ⟨x0, Finset.mem_univ x0⟩).ne' O E hu hε
  exact rare hT hw hc _ hδ (fun ls h1 h2 h3 => (hcl ls h1 h2 h3).2) hm

/-- **C183**, real parameters with real logarithmic derivatives: the applied real part tends to the solution of the real equation. -/
theorem C183_chains_real {T : Matrix α α ℝ} (hT : IsKernel T) {w : α → ℝ} (hw : ∀ x, 0 < w x) (hc : ∀ f : α → ℂ, Consistent T w f)
    (O : α → Fin P → ℝ) (E : α → ℂ) {u : Fin P → ℝ}
    (hu : SRSolution w (fun x k => (O x k : ℂ)) (fun x => ((E x).re : ℂ)) fun k => (u k : ℂ)) {ε : ℝ} (hε : 0 < ε) {m : ℕ} (hm : 0 < m) :
    ∃ c : ℝ, ∀ n : ℕ, 0 < n → ∀ starts : List α, starts.length = m → chainsExpect T n starts (Set.indicator (FarOffReal O E u ε) 1) ≤ c / n := by
  classical
  rcases isEmpty_or_nonempty α with he | ⟨⟨x0⟩⟩
  · refine ⟨0, fun n hn starts hl => ?_⟩
    cases starts with
    | nil => rw [← hl] at hm; exact absurd hm (by simp)
    | cons x _ => exact he.elim x
  obtain ⟨δ, hδ, hcl⟩ := close_real (fun x => (hw x).le) (Finset.sum_pos (fun x _ => hw x) ⟨x0, Finset.mem_univ x0⟩).ne' O E hu hε
  exact rare hT hw hc _ hδ hcl hm

/-- **C183** for the hopping sampler of electrons on at least three sites. -/
theorem C183_hopping {L nu nd : ℕ} (hn : 0 < nu + nd) (hL : 3 ≤ L) (logpsi : Arr L → ℂ) (pow : ℝ) {hop : ℝ} (h0 : 0 < hop) (h1 : hop ≤ 1)
    {sweep : ℕ} (hs : 0 < sweep) (O : HoppingChain.Sector L nu nd → Fin P → ℂ) (E : HoppingChain.Sector L nu nd → ℂ) {u : Fin P → ℂ}
    (hu : SRSolution (HoppingChain.target logpsi pow) O E u) {ε : ℝ} (hε : 0 < ε) {m : ℕ} (hm : 0 < m) :
    ∃ c : ℝ, ∀ n : ℕ, 0 < n → ∀ starts : List (HoppingChain.Sector L nu nd), starts.length = m →
      chainsExpect (HoppingChain.chain logpsi pow hop none ^ sweep) n starts (Set.indicator (FarOff O E u ε) 1) ≤ c / n :=
  C183_chains (Markov.pow_kernel (HoppingChain.C137_kernel hn logpsi pow h0.le h1 (T := none) trivial) sweep)
    (HoppingChain.target_pos logpsi pow) (fun f => SampledEnergy.C144_hopping hn hL logpsi pow h0 h1 hs f) O E hu hε hm

/-- **C183** for the exchange sampler. -/
theorem C183_exchange {S A : Type} [Fintype S] [DecidableEq S] [Fintype A] [DecidableEq A] {σ₀ : S → A} {clusters : List (S × S)}
    (hne : clusters ≠ []) (hc : ExchangeChain.Connected clusters) (logpsi : (S → A) → ℂ) (pow : ℝ) (hpair : ∃ i j, i ≠ j ∧ σ₀ i = σ₀ j)
    {sweep : ℕ} (hs : 0 < sweep) (O : ExchangeChain.Sector σ₀ → Fin P → ℂ) (E : ExchangeChain.Sector σ₀ → ℂ) {u : Fin P → ℂ}
    (hu : SRSolution (ExchangeChain.target σ₀ logpsi pow) O E u) {ε : ℝ} (hε : 0 < ε) {m : ℕ} (hm : 0 < m) :
    ∃ c : ℝ, ∀ n : ℕ, 0 < n → ∀ starts : List (ExchangeChain.Sector σ₀), starts.length = m →
      chainsExpect (ExchangeChain.chain σ₀ logpsi pow clusters ^ sweep) n starts (Set.indicator (FarOff O E u ε) 1) ≤ c / n :=
  C183_chains (Markov.pow_kernel (ExchangeChain.C140_kernel hne logpsi pow) sweep)
    (ExchangeChain.target_pos logpsi pow) (fun f => SampledEnergy.C144_exchange hne hc logpsi pow hpair hs f) O E hu hε hm

/-- The hypotheses are met: two chains of two electrons on three sites, started in different configurations; one parameter. -/
example (logpsi : Arr 3 → ℂ) (O : HoppingChain.Sector 3 1 1 → Fin 1 → ℂ) (E : HoppingChain.Sector 3 1 1 → ℂ) :
    ∃ u c, ∀ n : ℕ, 0 < n → chainsExpect (HoppingChain.chain logpsi 2 (1 / 2) none ^ 3) n [⟨![3, 0, 0], by decide⟩, ⟨![1, 2, 0], by decide⟩]
      (Set.indicator (FarOff O E u (1 / 100)) 1) ≤ c / n := by
  have hpos := HoppingChain.target_pos (nu := 1) (nd := 1) logpsi 2
  obtain ⟨u, hu, -⟩ := C183_exact (HoppingChain.target logpsi 2) (fun x => (hpos x).le)
    (Finset.sum_pos (fun x _ => hpos x) ⟨⟨![3, 0, 0], by decide⟩, Finset.mem_univ _⟩).ne' O E
  obtain ⟨c, hc⟩ := C183_hopping (by decide) (by decide) logpsi 2 (hop := 1 / 2) (by norm_num) (by norm_num) (sweep := 3) (by decide) O E hu
    (ε := 1 / 100) (by norm_num) (m := 2) (by decide)
  exact ⟨u, c, fun n hn => hc n hn _ rfl⟩

/-! ## The direct sampler -/

open GPSKet.AR

section direct

variable {L D M : ℕ} {ι : Type} [Fintype ι]

/-- The drawn samples, as one list per chain. -/
def lists {X : Type} {nc len : ℕ} (xs : Fin nc → Fin len → X) : List (List X) := List.ofFn fun c => List.ofFn (xs c)

theorem flatten_length {X : Type} {nc len : ℕ} (xs : Fin nc → Fin len → X) : (lists xs).flatten.length = nc * len := by
  unfold lists
  rw [List.length_flatten, List.map_ofFn, List.sum_ofFn]
  simp

theorem batchMean_freq {X : Type} [DecidableEq X] {nc len : ℕ} (xs : Fin nc → Fin len → X) (c : X) :
    batchMean (fun a => if a = c then 1 else 0) xs = (freq (lists xs).flatten c : ℂ) := by
  unfold batchMean freq
  rw [flatten_length]
  push_cast
  congr 1
  rw [← sum_indicator]
  unfold lists
  rw [List.map_flatten, List.sum_flatten, List.map_ofFn, List.map_ofFn, List.sum_ofFn]
  refine Finset.sum_congr rfl fun i _ => ?_
  simp only [Function.comp_apply, List.map_ofFn, List.sum_ofFn]

/-- The same for directly drawn samples, where the number of all samples counts. -/
theorem rare_direct [NeZero L] [NeZero D] [Nonempty ι] (m : Machine L D M) (hm : ProvidedAR m)
    (hn : m.fields.normalize = true) (hp : m.fields.machine_pow ≠ 0) (hc : Continuable m)
    (syms : ι → (Fin L → Fin D) → Fin L → Fin D) (inv : ι → ι) (hs : ClosedUnderInverse syms inv) (buffer : Fin L → Fin D)
    (A : Set (List (List (Fin L → Fin D)))) {δ : ℝ} (hδ : 0 < δ)
    (hA : ∀ ls : List (List (Fin L → Fin D)), ls.flatten ≠ [] →
      (∀ x ∈ ls.flatten, bornWeight m.fields.machine_pow (m.logPsi syms x) ≠ 0) →
      (∀ c, |freq ls.flatten c - normal (fun x => bornWeight m.fields.machine_pow (m.logPsi syms x)) c| < δ) → ls ∉ A) :
    ∃ c : ℝ, ∀ nc len : ℕ, 0 < nc → 0 < len →
      drawExpect (sampleBatch m syms buffer) (fun xs : Fin nc → Fin len → Fin L → Fin D => Set.indicator A (1 : List (List (Fin L → Fin D)) → ℝ) (lists xs)) ≤
        c / (nc * len : ℕ) := by
  set w : (Fin L → Fin D) → ℝ := fun x => bornWeight m.fields.machine_pow (m.logPsi syms x) with hw
  have hnn : ∀ x, 0 ≤ w x := fun x => by show 0 ≤ bornWeight _ _; rw [bornWeight_eq]; exact weight_nonneg _ _
  have hbij : ∀ t, Function.Bijective (syms t) := fun t => by
    have h2 : ∀ x, syms t (syms (inv t) x) = x := fun x => by
      have := hs.left (inv t) x
      rwa [hs.invol] at this
    exact ⟨Function.LeftInverse.injective (hs.left t), fun x => ⟨_, h2 x⟩⟩
  have hsum : ∑ x, w x = 1 := C28_normalised_of_continuable m hm hn hp hc syms hbij
  have hnormal : ∀ c, normal w c = w c := fun c => by unfold normal; rw [hsum, div_one]
  set V : (Fin L → Fin D) → ℝ := fun c => ∑ x, w x * ‖(if x = c then (1 : ℂ) else 0) - ∑ x, (w x : ℂ) * if x = c then 1 else 0‖ ^ 2 with hV
  refine ⟨(∑ c, V c) / δ ^ 2, fun nc len hnc hlen => ?_⟩
  have hN : 0 < nc * len := Nat.mul_pos hnc hlen
  have hmse := fun c => (DirectEnergy.C148_mean_and_error m hm hn hp hc syms inv hs buffer hnc hlen fun x => if x = c then (1 : ℂ) else 0).2
  have hmean : ∀ c, ∑ x, (w x : ℂ) * (if x = c then (1 : ℂ) else 0) = (w c : ℂ) := fun c => by simp
  have key : ∀ xs : Fin nc → Fin len → Fin L → Fin D,
      drawProb (sampleBatch m syms buffer) xs • Set.indicator A (1 : List (List (Fin L → Fin D)) → ℝ) (lists xs) ≤
        ∑ c, (1 / δ ^ 2) * (drawProb (sampleBatch m syms buffer) xs •
          ‖batchMean (fun x => if x = c then (1 : ℂ) else 0) xs - ∑ x, (w x : ℂ) * (if x = c then (1 : ℂ) else 0)‖ ^ 2) := by
    intro xs
    have hpr : 0 ≤ drawProb (sampleBatch m syms buffer) xs := ENNReal.toReal_nonneg
    have hrhs : ∀ c, 0 ≤ (1 / δ ^ 2) * (drawProb (sampleBatch m syms buffer) xs •
          ‖batchMean (fun x => if x = c then (1 : ℂ) else 0) xs - ∑ x, (w x : ℂ) * (if x = c then (1 : ℂ) else 0)‖ ^ 2) := fun c => by
      rw [smul_eq_mul]; positivity
    by_cases h0 : drawProb (sampleBatch m syms buffer) xs = 0
    · rw [h0, zero_smul]
      simp
    by_cases hmem : lists xs ∈ A
    · have hfar : ∃ c, δ ≤ |freq (lists xs).flatten c - normal w c| := by
        by_contra hcon
        push Not at hcon
        refine hA (lists xs) ?_ ?_ hcon hmem
        · intro hnil
          have := flatten_length xs
          rw [hnil] at this
          simp at this
          omega
        · intro x hx
          have hlaw := DirectEnergy.C148_batch_law m hm hn hp hc syms inv hs buffer xs
          rw [hlaw] at h0
          obtain ⟨l, hl, hxl⟩ := List.mem_flatten.mp hx
          obtain ⟨c, rfl⟩ := (List.mem_ofFn' _ _).mp hl
          obtain ⟨t, rfl⟩ := (List.mem_ofFn' _ _).mp hxl
          exact Finset.prod_ne_zero_iff.mp (Finset.prod_ne_zero_iff.mp h0 c (Finset.mem_univ c)) t (Finset.mem_univ t)
      obtain ⟨c, hcfar⟩ := hfar
      refine le_trans ?_ (Finset.single_le_sum (fun c _ => hrhs c) (Finset.mem_univ c))
      rw [Set.indicator_of_mem hmem, Pi.one_apply, smul_eq_mul, mul_one, hmean, batchMean_freq, smul_eq_mul, ← Complex.ofReal_sub,
        Complex.norm_real, Real.norm_eq_abs, ← hnormal c]
      have h1 : 1 ≤ (1 / δ ^ 2) * |freq (lists xs).flatten c - normal w c| ^ 2 := by
        rw [one_div, inv_mul_eq_div, le_div_iff₀ (by positivity), one_mul]
        exact pow_le_pow_left₀ hδ.le hcfar 2
      calc drawProb (sampleBatch m syms buffer) xs = drawProb (sampleBatch m syms buffer) xs * 1 := (mul_one _).symm
        _ ≤ drawProb (sampleBatch m syms buffer) xs * ((1 / δ ^ 2) * |freq (lists xs).flatten c - normal w c| ^ 2) :=
          mul_le_mul_of_nonneg_left h1 hpr
        _ = _ := by ring
    · rw [Set.indicator_of_notMem hmem, smul_zero]
      exact Finset.sum_nonneg fun c _ => hrhs c
  refine (Finset.sum_le_sum fun xs _ => key xs).trans ?_
  rw [Finset.sum_comm]
  simp only [← Finset.mul_sum]
  have hmse' : ∀ c, ∑ xs : Fin nc → Fin len → Fin L → Fin D, (drawProb (sampleBatch m syms buffer) xs •
      ‖batchMean (fun x => if x = c then (1 : ℂ) else 0) xs - ∑ x, (w x : ℂ) * (if x = c then (1 : ℂ) else 0)‖ ^ 2) = V c / (nc * len : ℕ) :=
    fun c => hmse c
  rw [Finset.sum_congr rfl fun c _ => hmse' c, ← Finset.sum_div]
  exact le_of_eq (by ring)

/-- **C183** for batches drawn directly from an autoregressive state: the probability that the update differs from the exact one by `ε` or more
is at most a constant divided by the number of all samples.  Complex parameters, mode `holomorphic`. -/
theorem C183_direct [NeZero L] [NeZero D] [Nonempty ι] (m : Machine L D M) (hm : ProvidedAR m)
    (hn : m.fields.normalize = true) (hp : m.fields.machine_pow ≠ 0) (hc : Continuable m)
    (syms : ι → (Fin L → Fin D) → Fin L → Fin D) (inv : ι → ι) (hs : ClosedUnderInverse syms inv) (buffer : Fin L → Fin D)
    (O : (Fin L → Fin D) → Fin P → ℂ) (E : (Fin L → Fin D) → ℂ) {u : Fin P → ℂ}
    (hu : SRSolution (fun x => bornWeight m.fields.machine_pow (m.logPsi syms x)) O E u) {ε : ℝ} (hε : 0 < ε) :
    ∃ c : ℝ, ∀ nc len : ℕ, 0 < nc → 0 < len →
      drawExpect (sampleBatch m syms buffer) (fun xs : Fin nc → Fin len → Fin L → Fin D =>
        Set.indicator (FarOff O E u ε) (1 : List (List (Fin L → Fin D)) → ℝ) (lists xs)) ≤ c / (nc * len : ℕ) := by
  have hbij : ∀ t, Function.Bijective (syms t) := fun t => by
    have h2 : ∀ x, syms t (syms (inv t) x) = x := fun x => by
      have := hs.left (inv t) x
      rwa [hs.invol] at this
    exact ⟨Function.LeftInverse.injective (hs.left t), fun x => ⟨_, h2 x⟩⟩
  have hsum : ∑ x, bornWeight m.fields.machine_pow (m.logPsi syms x) = 1 := C28_normalised_of_continuable m hm hn hp hc syms hbij
  obtain ⟨δ, hδ, hcl⟩ := close (fun x => by rw [bornWeight_eq]; exact weight_nonneg _ _) (by rw [hsum]; exact one_ne_zero) O E hu hε
  exact rare_direct m hm hn hp hc syms inv hs buffer _ hδ fun ls h1 h2 h3 => (hcl ls h1 h2 h3).1

/-- **C183** for batches drawn directly, real parameters with real logarithmic derivatives. -/
theorem C183_direct_real [NeZero L] [NeZero D] [Nonempty ι] (m : Machine L D M) (hm : ProvidedAR m)
    (hn : m.fields.normalize = true) (hp : m.fields.machine_pow ≠ 0) (hc : Continuable m)
    (syms : ι → (Fin L → Fin D) → Fin L → Fin D) (inv : ι → ι) (hs : ClosedUnderInverse syms inv) (buffer : Fin L → Fin D)
    (O : (Fin L → Fin D) → Fin P → ℝ) (E : (Fin L → Fin D) → ℂ) {u : Fin P → ℝ}
    (hu : SRSolution (fun x => bornWeight m.fields.machine_pow (m.logPsi syms x)) (fun x k => (O x k : ℂ)) (fun x => ((E x).re : ℂ))
      fun k => (u k : ℂ)) {ε : ℝ} (hε : 0 < ε) :
    ∃ c : ℝ, ∀ nc len : ℕ, 0 < nc → 0 < len →
      drawExpect (sampleBatch m syms buffer) (fun xs : Fin nc → Fin len → Fin L → Fin D =>
        Set.indicator (FarOffReal O E u ε) (1 : List (List (Fin L → Fin D)) → ℝ) (lists xs)) ≤ c / (nc * len : ℕ) := by
  have hbij : ∀ t, Function.Bijective (syms t) := fun t => by
    have h2 : ∀ x, syms t (syms (inv t) x) = x := fun x => by
      have := hs.left (inv t) x
      rwa [hs.invol] at this
    exact ⟨Function.LeftInverse.injective (hs.left t), fun x => ⟨_, h2 x⟩⟩
  have hsum : ∑ x, bornWeight m.fields.machine_pow (m.logPsi syms x) = 1 := C28_normalised_of_continuable m hm hn hp hc syms hbij
  obtain ⟨δ, hδ, hcl⟩ := close_real (fun x => by rw [bornWeight_eq]; exact weight_nonneg _ _) (by rw [hsum]; exact one_ne_zero) O E hu hε
  exact rare_direct m hm hn hp hc syms inv hs buffer _ hδ hcl

/-- The hypotheses are met: an autoregressive plaquette state of three electrons on three sites. -/
example (epsilon : Fin 4 → Fin 2 → Fin 3 → ℂ) (O : (Fin 3 → Fin 4) → Fin 1 → ℂ) (E : (Fin 3 → Fin 4) → ℂ) :
    let f : Fields 4 2 := ⟨2, true, true, countSpinsFermionic, renormalizeFermionic ((2 : ℕ), (1 : ℕ)) 3, sumOut⟩
    let m : Machine 3 4 2 := ARPlaquette.arPlaquette f epsilon (ARPlaquette.withMasks ARPlaquette.circulantPlaquettes)
    ∃ u c, ∀ nc len : ℕ, 0 < nc → 0 < len → drawExpect (sampleBatch m (fun (_ : Unit) y => y) (fun _ => 0))
      (fun xs : Fin nc → Fin len → Fin 3 → Fin 4 =>
        Set.indicator (FarOff O E u (1 / 100)) (1 : List (List (Fin 3 → Fin 4)) → ℝ) (lists xs)) ≤ c / (nc * len : ℕ) := by
  intro f m
  have hp : m.fields.machine_pow ≠ 0 := by change (2 : ℝ) ≠ 0; norm_num
  have hm : ProvidedAR m := .plaquette f epsilon _ (masks_hide _)
  have hc : Continuable m := fermi_continuable hm hp (n := (2, 1)) ⟨rfl, rfl, rfl⟩ (by norm_num) (by norm_num)
  have hsum : ∑ x, bornWeight m.fields.machine_pow (m.logPsi (fun (_ : Unit) y => y) x) = 1 :=
    C28_normalised_of_continuable m hm rfl hp hc _ fun _ => Function.bijective_id
  obtain ⟨u, hu, -⟩ := C183_exact (fun x => bornWeight m.fields.machine_pow (m.logPsi (fun (_ : Unit) y => y) x))
    (fun x => by rw [bornWeight_eq]; exact weight_nonneg _ _) (by rw [hsum]; exact one_ne_zero) O E
  obtain ⟨c, h⟩ := C183_direct m hm rfl hp hc _ id ⟨fun _ => rfl, fun _ _ => rfl⟩ (fun _ => 0) O E hu (ε := 1 / 100) (by norm_num)
  exact ⟨u, c, h⟩

end direct

end GPSKet.SampledUpdate
