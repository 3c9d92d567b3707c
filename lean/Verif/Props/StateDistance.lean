import Verif.Props.StateFitting
import Verif.Props.Autoreg
import Mathlib.Data.List.GetD

/-!
# C169: what a small loss of the state fitting means

The data set lists configurations with their amplitudes in a normalised state `y`, which is zero on all other configurations.  The model
is normalised, which C28 shows of the autoregressive models.
-/

namespace GPSKet.StateFitting
open GPSKet.Spec

variable {X : Type}

/-- The squared distance of two states. -/
noncomputable def distSq [Fintype X] (f g : X → ℂ) : ℝ := ∑ x, ‖f x - g x‖ ^ 2

/-! ## Lemmas -/

theorem mapM_some {α β : Type} (f : α → Option β) (g : α → β) (l : List α) (h : ∀ a ∈ l, f a = some (g a)) :
    l.mapM f = some (l.map g) := by
  induction l with
  | nil => rfl
  | cons a l ih =>
    rw [List.mapM_cons, h a (by simp), ih fun a ha => h a (by simp [ha])]
    rfl

/-- A mini-batch for any Gumbel numbers. -/
theorem batch_of_gumbel [Inhabited X] (gumbel : ℕ → ℝ) (b : ℕ) (data : List (X × ℂ)) (hb : b ≤ data.length) :
    ∃ batch rest : List (Fin data.length), (batch ++ rest).Perm (List.finRange data.length) ∧ batch.length = b ∧
      miniBatch gumbel b (data.map Prod.fst, data.map Prod.snd) = some (batch.map data.get) := by
  obtain ⟨batch, rest, h1, h2, h3, -⟩ := C76 (fun i => Real.exp (-gumbel i)) (fun i => Real.exp_pos _) b data hb
  refine ⟨batch, rest, h1, h2, ?_⟩
  have : (fun i => -Real.log (Real.exp (-gumbel i))) = gumbel := by
    funext i
    rw [Real.log_exp, neg_neg]
  rwa [this] at h3

theorem lossExt_nonneg (logpsi : X → Option ℂ) (batch : List (X × ℂ)) : 0 ≤ lossExt logpsi batch := by
  unfold lossExt
  refine div_nonneg (List.sum_nonneg ?_) (Nat.cast_nonneg _)
  intro a ha
  obtain ⟨c, -, rfl⟩ := List.mem_map.mp ha
  positivity

/-- Near the data, near everywhere. -/
theorem dist_of_data [Fintype X] (f y : X → ℂ) (hf : ∑ x, ‖f x‖ ^ 2 = 1) (hy : ∑ x, ‖y x‖ ^ 2 = 1) (S : Finset X)
    (hS : ∀ x, x ∉ S → y x = 0) :
    distSq f y ≤ 2 * Real.sqrt (∑ x ∈ S, ‖f x - y x‖ ^ 2) ∧
      1 - Real.sqrt (∑ x ∈ S, ‖f x - y x‖ ^ 2) ≤ ‖∑ x, (starRingEnd ℂ) (y x) * f x‖ := by
  classical
  set d := ∑ x ∈ S, ‖f x - y x‖ ^ 2 with hd
  have hyS : ∑ x ∈ S, ‖y x‖ ^ 2 = 1 := by
    rw [← hy]
    refine Finset.sum_subset (Finset.subset_univ S) fun x _ hx => ?_
    rw [hS x hx]; simp
  -- Cauchy-Schwarz
  have hcs : ∑ x ∈ S, ‖f x - y x‖ * ‖y x‖ ≤ Real.sqrt d := by
    have h := Finset.sum_mul_sq_le_sq_mul_sq S (fun x => ‖f x - y x‖) (fun x => ‖y x‖)
    rw [hyS, mul_one] at h
    exact Real.le_sqrt_of_sq_le h
  set ov := ∑ x, (starRingEnd ℂ) (y x) * f x with hov
  have hov2 : 1 - Real.sqrt d ≤ ov.re := by
    have e1 : ov = ∑ x ∈ S, (starRingEnd ℂ) (y x) * f x := by
      refine (Finset.sum_subset (Finset.subset_univ S) fun x _ hx => ?_).symm
      rw [hS x hx]; simp
    have e2 : ov = ∑ x ∈ S, (((‖y x‖ ^ 2 : ℝ) : ℂ) + (starRingEnd ℂ) (y x) * (f x - y x)) := by
      rw [e1]
      refine Finset.sum_congr rfl fun x _ => ?_
      rw [mul_sub, Complex.conj_mul']
      push_cast
      ring
    have e3 : ov.re = 1 + ∑ x ∈ S, ((starRingEnd ℂ) (y x) * (f x - y x)).re := by
      rw [e2, Complex.re_sum]
      simp only [Complex.add_re, Complex.ofReal_re, Finset.sum_add_distrib, hyS]
    have e4 : -(∑ x ∈ S, ‖f x - y x‖ * ‖y x‖) ≤ ∑ x ∈ S, ((starRingEnd ℂ) (y x) * (f x - y x)).re := by
      rw [← Finset.sum_neg_distrib]
      refine Finset.sum_le_sum fun x _ => ?_
      have h1 := Complex.abs_re_le_norm ((starRingEnd ℂ) (y x) * (f x - y x))
      rw [norm_mul, RCLike.norm_conj, mul_comm ‖y x‖] at h1
      exact neg_le_of_abs_le h1
    linarith
  refine ⟨?_, hov2.trans (Complex.re_le_norm ov)⟩
  have hex : distSq f y = 2 - 2 * ov.re := by
    have h1 : ∀ x, ‖f x - y x‖ ^ 2 = ‖f x‖ ^ 2 + ‖y x‖ ^ 2 - 2 * ((starRingEnd ℂ) (y x) * f x).re := by
      intro x
      rw [← Complex.normSq_eq_norm_sq, Complex.normSq_sub, Complex.normSq_eq_norm_sq, Complex.normSq_eq_norm_sq,
        mul_comm (f x)]
    unfold distSq
    simp only [h1, Finset.sum_sub_distrib, Finset.sum_add_distrib, hf, hy, ← Finset.mul_sum, hov, Complex.re_sum]
    ring
  rw [hex]
  linarith

theorem sum_amplitude [Fintype X] (logpsi : X → Option ℂ) (hnorm : ∑ x, bornWeight 2 (logpsi x) = 1) :
    ∑ x, ‖amplitude (logpsi x)‖ ^ 2 = 1 := by
  rw [← hnorm]
  refine Finset.sum_congr rfl fun x _ => ?_
  cases logpsi x with
  | none => simp [amplitude, bornWeight]
  | some z => simp only [amplitude, bornWeight]; exact (Real.rpow_two _).symm

/-! ## The claims -/

/-- C169: with mini-batches that take all the data (`b` on each of `nodes` processes), whatever the random numbers: the reported loss
times the number of data is at most the squared distance between model and target on the whole space, and this is at most twice the
square root of the former; the overlap is at least one minus this root; and the loss is zero exactly if the states are equal. -/
theorem C169 [Fintype X] [Inhabited X] (logpsi : X → Option ℂ) (hnorm : ∑ x, bornWeight 2 (logpsi x) = 1) (y : X → ℂ)
    (hy : ∑ x, ‖y x‖ ^ 2 = 1) (configs : List X) (hnodup : configs.Nodup) (hsupp : ∀ x, x ∉ configs → y x = 0)
    (nodes b : ℕ) (hnodes : 0 < nodes) (hb : 0 < b) (hlen : configs.length = nodes * b) (gumbel : ℕ → ℕ → ℝ) :
    ∃ l, stepLoss nodes b (configs, configs.map y) gumbel logpsi = some l ∧
      configs.length * l ≤ distSq (fun x => amplitude (logpsi x)) y ∧
      distSq (fun x => amplitude (logpsi x)) y ≤ 2 * Real.sqrt (configs.length * l) ∧
      1 - Real.sqrt (configs.length * l) ≤ ‖∑ x, (starRingEnd ℂ) (y x) * amplitude (logpsi x)‖ ∧
      (l = 0 ↔ ∀ x, amplitude (logpsi x) = y x) := by
  classical
  set data : List (X × ℂ) := configs.map fun x => (x, y x) with hdata
  have hd1 : data.map Prod.fst = configs := by simp [hdata, Function.comp_def]
  have hd2 : data.map Prod.snd = configs.map y := by simp [hdata, Function.comp_def]
  have hdl : data.length = nodes * b := by simp [hdata, hlen]
  obtain ⟨pieces, hp1, hp2, hp3, -⟩ := C75 nodes hnodes data
  have hpl : ∀ p ∈ arraySplit nodes data, p.length = b := by
    intro p hp
    have hs := sum_sectionSizes data.length nodes hnodes
    have h1 : p.length ∈ sectionSizes data.length nodes := by
      rw [← cut_sizes _ _ hs]
      exact List.mem_map_of_mem hp
    have hm : data.length % nodes = 0 := by rw [hdl]; exact Nat.mul_mod_right _ _
    rw [sectionSizes, hm, List.replicate_zero, List.nil_append] at h1
    rw [List.eq_of_mem_replicate h1, hdl]
    exact Nat.mul_div_cancel_left _ hnodes
  set P := arraySplit nodes data with hP
  have hPl : P.length = nodes := by rw [hP, arraySplit, cut_length, length_sectionSizes _ _ hnodes]
  have hPf : P.flatten = data := cut_flatten _ _ (sum_sectionSizes data.length nodes hnodes)
  have hshard : ∀ r, shard nodes (configs, configs.map y) r = P[r]?.map fun p => (p.map Prod.fst, p.map Prod.snd) := by
    intro r
    rw [← hd2]
    conv_lhs => rw [← hd1]
    simp only [shard, arraySplit, List.length_map, cut_map, List.zip_map', List.getElem?_map, hP]
  -- the batches
  have hbatch : ∀ r ∈ List.range nodes, ∃ batch : List (X × ℂ),
      (shard nodes (configs, configs.map y) r).bind (miniBatch (gumbel r) b) = some batch ∧ batch.Perm (P.getD r []) := by
    intro r hr
    have hr : r < P.length := by rw [hPl]; exact List.mem_range.mp hr
    have hl : (P[r]).length = b := hpl _ (List.getElem_mem hr)
    obtain ⟨batch, rest, h1, h2, h3⟩ := batch_of_gumbel (gumbel r) b P[r] (by rw [hl])
    refine ⟨batch.map (P[r]).get, ?_, ?_⟩
    · rw [hshard, List.getElem?_eq_getElem hr]
      exact h3
    · have hrest : rest = [] := by
        have := h1.length_eq
        rw [List.length_append, List.length_finRange, h2] at this
        exact List.length_eq_zero_iff.mp (by omega)
      rw [hrest, List.append_nil] at h1
      have h4 := h1.map (P[r]).get
      rw [List.getD_eq_getElem _ _ hr]
      refine h4.trans ?_
      rw [List.map_get_finRange]
  choose! batch hbat hperm using hbatch
  set res : X × ℂ → ℝ := fun a => ‖amplitude (logpsi a.1) - a.2‖ ^ 2 with hres
  have hloss : ∀ r ∈ List.range nodes, lossExt logpsi (batch r) = ((P.getD r []).map res).sum / b := by
    intro r hr
    have h := hperm r hr
    have hr' : r < P.length := by rw [hPl]; exact List.mem_range.mp hr
    unfold lossExt
    rw [h.length_eq, (h.map res).sum_eq, List.getD_eq_getElem _ _ hr', hpl _ (List.getElem_mem hr')]
  have hsum : ((List.range nodes).map fun r => lossExt logpsi (batch r)).sum = (data.map res).sum / b := by
    rw [List.map_congr_left hloss]
    have e1 : ((List.range nodes).map fun r => ((P.getD r []).map res).sum / (b : ℝ)).sum
        = (P.map fun p => (p.map res).sum / (b : ℝ)).sum := by
      congr 1
      refine List.ext_getElem (by simp [hPl]) ?_
      intro i h1 h2
      simp only [List.length_map, List.length_range] at h1 h2
      rw [List.getElem_map, List.getElem_map, List.getElem_range, List.getD_eq_getElem _ _ h2]
    rw [e1, ← hPf]
    have e2 : ∀ Q : List (List (X × ℂ)), (Q.map fun p => (p.map res).sum / (b : ℝ)).sum = (Q.flatten.map res).sum / b := by
      intro Q
      induction Q with
      | nil => simp
      | cons q Q ih => simp only [List.map_cons, List.sum_cons, ih, List.flatten_cons, List.map_append, List.sum_append, add_div]
    exact e2 P
  have hstep : stepLoss nodes b (configs, configs.map y) gumbel logpsi = some ((data.map res).sum / b / nodes) := by
    unfold stepLoss
    rw [mapM_some _ batch _ hbat, Option.map_some, List.map_map, List.length_map, List.length_range]
    exact congrArg some (congrArg (· / (nodes : ℝ)) hsum)
  have hdsum : (data.map res).sum = ∑ x ∈ configs.toFinset, ‖amplitude (logpsi x) - y x‖ ^ 2 := by
    rw [hdata, List.map_map, List.sum_toFinset _ hnodup]
    rfl
  refine ⟨_, hstep, ?_⟩
  have hNl : (configs.length : ℝ) * ((data.map res).sum / b / nodes) = ∑ x ∈ configs.toFinset, ‖amplitude (logpsi x) - y x‖ ^ 2 := by
    rw [hlen, hdsum]
    push_cast
    have h1 : (nodes : ℝ) ≠ 0 := by exact_mod_cast hnodes.ne'
    have h2 : (b : ℝ) ≠ 0 := by exact_mod_cast hb.ne'
    field_simp
  have hf : ∑ x, ‖amplitude (logpsi x)‖ ^ 2 = 1 := sum_amplitude logpsi hnorm
  have hdist := dist_of_data (fun x => amplitude (logpsi x)) y hf hy configs.toFinset (fun x hx => hsupp x (by simpa using hx))
  rw [hNl]
  refine ⟨?_, hdist.1, hdist.2, ?_⟩
  · exact Finset.sum_le_sum_of_subset_of_nonneg (Finset.subset_univ _) fun x _ _ => by positivity
  · have hpos : (0 : ℝ) < configs.length := by
      rw [hlen]; exact_mod_cast Nat.mul_pos hnodes hb
    constructor
    · intro h0 x
      rw [h0, mul_zero] at hNl
      have h1 := hdist.1
      rw [← hNl, Real.sqrt_zero, mul_zero] at h1
      have h2 : ∀ x ∈ Finset.univ, 0 ≤ ‖amplitude (logpsi x) - y x‖ ^ 2 := fun x _ => by positivity
      have h3 := (Finset.sum_eq_zero_iff_of_nonneg h2).mp (le_antisymm h1 (Finset.sum_nonneg h2)) x (Finset.mem_univ x)
      exact sub_eq_zero.mp (norm_eq_zero.mp (pow_eq_zero_iff two_ne_zero |>.mp h3))
    · intro h
      have h0 : ∑ x ∈ configs.toFinset, ‖amplitude (logpsi x) - y x‖ ^ 2 = 0 :=
        Finset.sum_eq_zero fun x _ => by rw [h x]; simp
      rw [h0] at hNl
      exact (mul_eq_zero.mp hNl).resolve_left hpos.ne'

/-- C169: with mini-batches of any size, if the model is not the target state there are random numbers for which the reported loss is
positive; so the losses vanish for all random numbers exactly if the states are equal. -/
theorem C169_minibatch [Fintype X] [Inhabited X] (logpsi : X → Option ℂ) (hnorm : ∑ x, bornWeight 2 (logpsi x) = 1) (y : X → ℂ)
    (hy : ∑ x, ‖y x‖ ^ 2 = 1) (configs : List X) (hnodup : configs.Nodup) (hsupp : ∀ x, x ∉ configs → y x = 0)
    (nodes b : ℕ) (hnodes : 0 < nodes) (hb : 0 < b) (hlen : nodes * b ≤ configs.length) :
    (∀ gumbel, stepLoss nodes b (configs, configs.map y) gumbel logpsi = some 0) ↔ ∀ x, amplitude (logpsi x) = y x := by
  classical
  set data : List (X × ℂ) := configs.map fun x => (x, y x) with hdata
  have hd1 : data.map Prod.fst = configs := by simp [hdata, Function.comp_def]
  have hd2 : data.map Prod.snd = configs.map y := by simp [hdata, Function.comp_def]
  have hdl : nodes * b ≤ data.length := by simpa [hdata] using hlen
  set P := arraySplit nodes data with hP
  have hPl : P.length = nodes := by rw [hP, arraySplit, cut_length, length_sectionSizes _ _ hnodes]
  have hPf : P.flatten = data := cut_flatten _ _ (sum_sectionSizes data.length nodes hnodes)
  have hpl : ∀ p ∈ P, b ≤ p.length := by
    intro p hp
    have hs := sum_sectionSizes data.length nodes hnodes
    have h1 : p.length ∈ sectionSizes data.length nodes := by
      rw [← cut_sizes _ _ hs]
      exact List.mem_map_of_mem hp
    have h2 : b ≤ data.length / nodes := (Nat.le_div_iff_mul_le hnodes).mpr (by rw [mul_comm]; exact hdl)
    rcases mem_sectionSizes h1 with h | h <;> omega
  have hshard : ∀ r, shard nodes (configs, configs.map y) r = P[r]?.map fun p => (p.map Prod.fst, p.map Prod.snd) := by
    intro r
    rw [← hd2]
    conv_lhs => rw [← hd1]
    simp only [shard, arraySplit, List.length_map, cut_map, List.zip_map', List.getElem?_map, hP]
  -- the batches
  have hbatch : ∀ gumbel : ℕ → ℕ → ℝ, ∀ r ∈ List.range nodes, ∃ batch : List (X × ℂ),
      (shard nodes (configs, configs.map y) r).bind (miniBatch (gumbel r) b) = some batch ∧ (∀ a ∈ batch, a ∈ P.getD r []) ∧
        batch.length = b := by
    intro gumbel r hr
    have hr : r < P.length := by rw [hPl]; exact List.mem_range.mp hr
    obtain ⟨batch, rest, h1, h2, h3⟩ := batch_of_gumbel (gumbel r) b P[r] (hpl _ (List.getElem_mem hr))
    refine ⟨batch.map (P[r]).get, ?_, ?_, by simpa using h2⟩
    · rw [hshard, List.getElem?_eq_getElem hr]
      exact h3
    · intro a ha
      rw [List.getD_eq_getElem _ _ hr]
      obtain ⟨i, -, rfl⟩ := List.mem_map.mp ha
      exact List.get_mem _ _
  have hin : ∀ r, ∀ a ∈ P.getD r [], a.2 = y a.1 := by
    intro r a ha
    by_cases hr : r < P.length
    · rw [List.getD_eq_getElem _ _ hr] at ha
      have : a ∈ data := by rw [← hPf]; exact List.mem_flatten.mpr ⟨_, List.getElem_mem hr, ha⟩
      rw [hdata] at this
      obtain ⟨x, -, rfl⟩ := List.mem_map.mp this
      rfl
    · rw [List.getD_eq_default _ _ (not_lt.mp hr)] at ha
      simp at ha
  constructor
  · intro hall
    -- the model agrees with the target wherever the target is not zero
    have key : ∀ x, y x ≠ 0 → amplitude (logpsi x) = y x := by
      intro x hx
      have hxc : x ∈ configs := by
        by_contra h
        exact hx (hsupp x h)
      have hxd : (x, y x) ∈ P.flatten := by
        rw [hPf, hdata]
        exact List.mem_map.mpr ⟨x, hxc, rfl⟩
      obtain ⟨p, hp, hxp⟩ := List.mem_flatten.mp hxd
      obtain ⟨r, hr, rfl⟩ := List.getElem_of_mem hp
      obtain ⟨i, hi⟩ := List.get_of_mem hxp
      -- random numbers that draw this place
      set E : ℕ → ℝ := fun k => if k = i.val then ‖y x‖ ^ 2 / 2 else 1 with hE
      have hy2 : 0 < ‖y x‖ ^ 2 := by positivity
      have hEpos : ∀ k, 0 < E k := by
        intro k
        simp only [hE]
        split_ifs
        · linarith
        · norm_num
      obtain ⟨batch, rest, h1, h2, h3, h4⟩ := C76 E hEpos b P[r] (hpl _ hp)
      have hib : i ∈ batch := by
        have hmem : i ∈ batch ++ rest := h1.mem_iff.mpr (List.mem_finRange i)
        rcases List.mem_append.mp hmem with h | h
        · exact h
        · exfalso
          obtain ⟨k, hk⟩ : ∃ k, k ∈ batch := List.exists_mem_of_length_pos (by omega)
          obtain ⟨h5, h6⟩ := h4 k hk i h
          rw [hi] at h5 h6
          have hyk : (P[r].get k).2 ≠ 0 := fun h0 => hx (h5 h0)
          have hki : k.val ≠ i.val := by
            intro hki
            have hki : k = i := Fin.ext hki
            subst hki
            have hnd : (batch ++ rest).Nodup := h1.nodup_iff.mpr (List.nodup_finRange _)
            exact (List.disjoint_of_nodup_append hnd) hk h
          have h7 := h6 hx
          simp only [hE, hki, if_false, if_true] at h7
          have hle : ‖(P[r].get k).2‖ ^ 2 ≤ 1 := by
            have hk' : P[r].get k ∈ P.getD r [] := by rw [List.getD_eq_getElem _ _ hr]; exact List.get_mem _ _
            rw [hin r _ hk', ← hy]
            exact Finset.single_le_sum (f := fun x => ‖y x‖ ^ 2) (fun x _ => by positivity) (Finset.mem_univ _)
          have hpos : 0 < ‖(P[r].get k).2‖ ^ 2 := by positivity
          have h8 : 1 ≤ 1 / ‖(P[r].get k).2‖ ^ 2 := by rw [le_div_iff₀ hpos]; linarith
          have h9 : ‖y x‖ ^ 2 / 2 / ‖y x‖ ^ 2 = 1 / 2 := by field_simp
          rw [h9] at h7
          linarith
      set gumbel : ℕ → ℕ → ℝ := fun _ k => -Real.log (E k) with hg
      have hbg := hbatch gumbel
      choose! B hB1 hB2 hB3 using hbg
      have hrn : r ∈ List.range nodes := List.mem_range.mpr (by rw [← hPl]; exact hr)
      have hBr : B r = batch.map P[r].get := by
        have e := hB1 r hrn
        rw [hshard, List.getElem?_eq_getElem hr] at e
        exact Option.some.inj (e.symm.trans h3)
      have h0 := hall gumbel
      unfold stepLoss at h0
      rw [mapM_some _ B _ hB1, Option.map_some, List.map_map, List.length_map, List.length_range] at h0
      have h0 := Option.some.inj h0
      have hn : (nodes : ℝ) ≠ 0 := by exact_mod_cast hnodes.ne'
      have hsum0 : ((List.range nodes).map (lossExt logpsi ∘ B)).sum = 0 := (div_eq_zero_iff.mp h0).resolve_right hn
      have hr0 : lossExt logpsi (B r) = 0 := by
        have hle : (lossExt logpsi ∘ B) r ≤ ((List.range nodes).map (lossExt logpsi ∘ B)).sum := by
          refine List.single_le_sum ?_ _ (List.mem_map_of_mem hrn)
          intro a ha
          obtain ⟨c, -, rfl⟩ := List.mem_map.mp ha
          exact lossExt_nonneg _ _
        rw [hsum0] at hle
        exact le_antisymm hle (lossExt_nonneg _ _)
      have hb0 : (b : ℝ) ≠ 0 := by exact_mod_cast hb.ne'
      unfold lossExt at hr0
      rw [hB3 r hrn] at hr0
      have hs0 := (div_eq_zero_iff.mp hr0).resolve_right hb0
      have hmem : (x, y x) ∈ B r := by
        rw [hBr, ← hi]
        exact List.mem_map_of_mem hib
      have hle : ‖amplitude (logpsi x) - y x‖ ^ 2 ≤ ((B r).map fun a => ‖amplitude (logpsi a.1) - a.2‖ ^ 2).sum := by
        refine List.single_le_sum ?_ _ (List.mem_map.mpr ⟨(x, y x), hmem, rfl⟩)
        intro a ha
        obtain ⟨c, -, rfl⟩ := List.mem_map.mp ha
        positivity
      rw [hs0] at hle
      have : ‖amplitude (logpsi x) - y x‖ = 0 := by
        have h := norm_nonneg (amplitude (logpsi x) - y x)
        nlinarith
      exact sub_eq_zero.mp (norm_eq_zero.mp this)
    -- and hence everywhere
    have hf : ∑ x, ‖amplitude (logpsi x)‖ ^ 2 = 1 := sum_amplitude logpsi hnorm
    have hdist := (dist_of_data (fun x => amplitude (logpsi x)) y hf hy (Finset.univ.filter fun x => y x ≠ 0)
      (fun x hx => by simpa using hx)).1
    have hz : ∑ x ∈ Finset.univ.filter (fun x => y x ≠ 0), ‖amplitude (logpsi x) - y x‖ ^ 2 = 0 :=
      Finset.sum_eq_zero fun x hx => by rw [key x (by simpa using hx)]; simp
    rw [hz, Real.sqrt_zero, mul_zero] at hdist
    intro x
    have h2 : ∀ x ∈ Finset.univ, 0 ≤ ‖amplitude (logpsi x) - y x‖ ^ 2 := fun x _ => by positivity
    have h3 := (Finset.sum_eq_zero_iff_of_nonneg h2).mp (le_antisymm hdist (Finset.sum_nonneg h2)) x (Finset.mem_univ x)
    exact sub_eq_zero.mp (norm_eq_zero.mp (pow_eq_zero_iff two_ne_zero |>.mp h3))
  · intro heq gumbel
    have hbg := hbatch gumbel
    choose! B hB1 hB2 hB3 using hbg
    unfold stepLoss
    rw [mapM_some _ B _ hB1, Option.map_some, List.map_map]
    congr 1
    have : ((List.range nodes).map (lossExt logpsi ∘ B)).sum = 0 := by
      apply List.sum_eq_zero
      intro a ha
      obtain ⟨r, hr, rfl⟩ := List.mem_map.mp ha
      show lossExt logpsi (B r) = 0
      unfold lossExt
      have h0 : ((B r).map fun a => ‖amplitude (logpsi a.1) - a.2‖ ^ 2).sum = 0 := by
        apply List.sum_eq_zero
        intro c hc
        obtain ⟨a, ha, rfl⟩ := List.mem_map.mp hc
        rw [heq a.1, hin r a (hB2 r hr a ha)]
        simp
      rw [h0, zero_div]
    rw [this, zero_div]

/-- C169 for the autoregressive models with given electron numbers, which C28 shows to be normalised. -/
theorem C169_fermionic {L M : ℕ} {ι : Type} [Fintype ι] [NeZero L] [Nonempty ι] (n : ℕ × ℕ) (m : AR.Machine L 4 M)
    (hm : Props.ProvidedAR m) (hn : m.fields.normalize = true) (hp : m.fields.machine_pow = 2) (hf : Props.Fermionic L n m.fields)
    (h1 : n.1 ≤ L) (h2 : n.2 ≤ L) (syms : ι → (Fin L → Fin 4) → Fin L → Fin 4) (hs : ∀ t, Function.Bijective (syms t))
    (y : (Fin L → Fin 4) → ℂ) (hy : ∑ x, ‖y x‖ ^ 2 = 1) (configs : List (Fin L → Fin 4)) (hnodup : configs.Nodup)
    (hsupp : ∀ x, x ∉ configs → y x = 0) (nodes b : ℕ) (hnodes : 0 < nodes) (hb : 0 < b) (hlen : nodes * b ≤ configs.length) :
    (∀ gumbel, stepLoss nodes b (configs, configs.map y) gumbel (m.logPsi syms) = some 0) ↔
      ∀ x, amplitude (m.logPsi syms x) = y x := by
  have h := Props.C28_normalised_fermionic n m hm hn (by rw [hp]; norm_num) hf h1 h2 syms hs
  rw [hp] at h
  exact C169_minibatch _ h y hy configs hnodup hsupp nodes b hnodes hb hlen

/-- A model with equal amplitudes and a target with one configuration: the hypotheses hold, and the states differ. -/
example : ∃ (logpsi : Bool → Option ℂ) (y : Bool → ℂ) (configs : List Bool), ∑ x, bornWeight 2 (logpsi x) = 1 ∧ ∑ x, ‖y x‖ ^ 2 = 1 ∧
    configs.Nodup ∧ (∀ x, x ∉ configs → y x = 0) ∧ configs.length = 1 * 1 ∧ amplitude (logpsi false) ≠ y false := by
  refine ⟨fun _ => some ((-(Real.log 2) / 2 : ℝ) : ℂ), fun x => if x then 1 else 0, [true], ?_, by simp, by simp, ?_, rfl, ?_⟩
  · have h : bornWeight 2 (some ((-(Real.log 2) / 2 : ℝ) : ℂ)) = 1 / 2 := by
      simp only [bornWeight]
      rw [Complex.norm_exp, Complex.ofReal_re, Real.rpow_two, ← Real.exp_nat_mul]
      push_cast
      rw [mul_div_cancel₀ _ (two_ne_zero), Real.exp_neg, Real.exp_log (by norm_num)]
      norm_num
    simp only [Fintype.sum_bool, h]
    norm_num
  · intro x hx
    cases x <;> simp_all
  · simp [amplitude]

end GPSKet.StateFitting
