import Verif.Model.Expect
import Verif.Props.Hubbard
import Verif.Props.J1J2
import Verif.Props.AbInitioSparse
import Verif.Props.DirectEnergy

/-!
# Property C163: expectation values do not depend on chunks, chains, ranks or fast updates
-/

namespace GPSKet.Expect

open GPSKet.Spec GPSKet.Props

variable {L ranks chains len : ℕ} {A Cache X Y : Type}

/-! ## Chunks and chains -/

theorem blocks_flatten_take (c : ℕ) (xs : List X) (k : ℕ) :
    ((List.range k).map fun i => (xs.drop (i * c)).take c).flatten = xs.take (k * c) := by
  induction k with
  | zero => simp
  | succ k ih =>
    rw [List.range_succ, List.map_append, List.flatten_append, ih, Nat.succ_mul, List.take_add]
    simp

theorem blocks_flatten (c : ℕ) (xs : List X) (h : xs.length % c = 0) : (blocks c xs).flatten = xs := by
  unfold blocks
  rw [blocks_flatten_take, Nat.div_mul_cancel (Nat.dvd_of_mod_eq_zero h), List.take_length]

theorem blocks_map (c : ℕ) (f : X → Y) (xs : List X) : (blocks c xs).map (fun b => b.map f) = blocks c (xs.map f) := by
  unfold blocks
  simp [List.map_take, List.map_drop]

/-- C163, chunks: for every positive chunk size, divisor of the number of samples or not, the kernel returns the value of every sample, in
the order of the samples. -/
theorem C163_chunks (f : X → Y) (chunk_size : Option ℕ) (hc : chunk_size ≠ some 0) (xs : List X) :
    vmapChunked f chunk_size xs = some (xs.map f) := by
  unfold vmapChunked
  cases chunk_size with
  | none => rfl
  | some c =>
    have h0 : c ≠ 0 := fun h => hc (by rw [h])
    dsimp only
    rw [if_neg h0]
    split_ifs with h1 h2
    · rfl
    · rw [blocks_map, h2, Nat.sub_zero, List.take_length, blocks_flatten]
      rwa [List.length_map]
    · rw [blocks_map, blocks_flatten, ← List.map_append, List.take_append_drop]
      have hle := Nat.mod_le xs.length c
      rw [List.length_map, List.length_take, min_eq_left (by omega)]
      have := Nat.div_add_mod xs.length c
      have e : xs.length - xs.length % c = c * (xs.length / c) := by omega
      rw [e]
      exact Nat.mul_mod_right _ _

theorem blocks_of_flatten (size : ℕ) (hs : 0 < size) (ls : List (List X)) (h : ∀ l ∈ ls, l.length = size) : blocks size ls.flatten = ls := by
  have hlen : ∀ ls : List (List X), (∀ l ∈ ls, l.length = size) → ls.flatten.length = ls.length * size := by
    intro ls h
    induction ls with
    | nil => simp
    | cons l ls ih =>
      rw [List.flatten_cons, List.length_append, ih fun m hm => h m (List.mem_cons_of_mem _ hm), h l List.mem_cons_self,
        List.length_cons]
      ring
  induction ls with
  | nil => simp [blocks]
  | cons l ls ih =>
    have hl := h l List.mem_cons_self
    have ht := ih fun m hm => h m (List.mem_cons_of_mem _ hm)
    unfold blocks at ht ⊢
    rw [hlen _ h, Nat.mul_div_cancel _ hs, List.length_cons, List.range_succ_eq_map, List.map_cons, List.map_map]
    rw [hlen _ fun m hm => h m (List.mem_cons_of_mem _ hm), Nat.mul_div_cancel _ hs] at ht
    congr 1
    · rw [Nat.zero_mul, List.drop_zero, List.flatten_cons, ← hl, List.take_left]
    · refine Eq.trans (List.map_congr_left fun i _ => ?_) ht
      show (((l :: ls).flatten).drop ((i + 1) * size)).take size = _
      rw [List.flatten_cons, show (i + 1) * size = l.length + i * size by rw [hl]; ring, List.drop_append,
        List.drop_of_length_le (by omega), List.nil_append, Nat.add_sub_cancel_left]

theorem collapse_length (vals : Fin chains → Fin len → X) : (collapse vals).length = chains * len := by
  unfold collapse
  simp [List.length_flatten, List.map_ofFn, Function.comp_def]

theorem collapse_map (f : X → Y) (vals : Fin chains → Fin len → X) : (collapse vals).map f = collapse fun c k => f (vals c k) := by
  unfold collapse
  rw [List.map_flatten, List.map_ofFn]
  congr 1
  congr 1
  funext c
  exact List.map_ofFn ..

theorem blocks_collapse (hc : 0 < chains) (hl : 0 < len) (vals : Fin chains → Fin len → X) :
    blocks ((collapse vals).length / chains) (collapse vals) = List.ofFn fun c => List.ofFn fun k => vals c k := by
  rw [collapse_length, Nat.mul_div_cancel_left _ hc]
  refine blocks_of_flatten len hl _ fun l hl' => ?_
  obtain ⟨c, rfl⟩ := (List.mem_ofFn' _ _).mp hl'
  exact List.length_ofFn

theorem collapse_sum {M : Type} [AddCommMonoid M] (vals : Fin chains → Fin len → M) : (collapse vals).sum = ∑ c, ∑ k, vals c k := by
  unfold collapse
  rw [List.sum_flatten, List.map_ofFn, List.sum_ofFn]
  exact Finset.sum_congr rfl fun c _ => List.sum_ofFn

/-- C163, statistics: for every number of ranks, chains and samples per chain and every positive chunk size, the reported mean is the average
of the local values over all samples of all ranks, the reported variance is their mean squared deviation, and NetKet's error estimates see the
values of each chain in their order. -/
theorem C163_statistics (hc : 0 < chains) (hl : 0 < len) (kernel : X → ℂ) (chunk_size : Option ℕ) (hs : chunk_size ≠ some 0)
    (samples : Fin ranks → Fin chains → Fin len → X) :
    let mean := (∑ r, ∑ c, ∑ k, kernel (samples r c k)) / ((ranks * (chains * len) : ℕ) : ℂ)
    expect kernel chunk_size samples = some
      { mean := mean
        variance := (∑ r, ∑ c, ∑ k, ‖kernel (samples r c k) - mean‖ ^ 2) / ((ranks * (chains * len) : ℕ) : ℝ)
        rows := fun r => List.ofFn fun c => List.ofFn fun k => kernel (samples r c k) } := by
  intro mean
  unfold expect
  have hv : ∀ r, vmapChunked kernel chunk_size (collapse (samples r)) = some (collapse fun c k => kernel (samples r c k)) := fun r => by
    rw [C163_chunks kernel chunk_size hs, collapse_map]
  simp only [hv]
  simp only [Option.isSome_some, implies_true, dite_true]
  unfold statistics
  have hlen : ∑ r : Fin ranks, (collapse fun c k => kernel (samples r c k)).length = ranks * (chains * len) := by
    simp [collapse_length]
  simp only [Option.get_some, hlen, collapse_sum, collapse_map, blocks_collapse hc hl]
  rfl

/-- A chunk size of zero is refused. -/
theorem C163_zero_chunk [NeZero ranks] (kernel : X → ℂ) (samples : Fin ranks → Fin chains → Fin len → X) :
    expect kernel (some 0) samples = none := by
  unfold expect
  rw [dif_neg]
  intro h
  have := h 0
  simp [vmapChunked] at this

/-! ## The operators -/

/-- The matrices of the fermionic operators. -/
inductive Represents : FermionOp L → (Cfg L → Cfg L → ℂ) → Prop
  | hubbard (U : ℂ) (edges : List ((Fin L × Fin L) × ℂ)) (hne : ∀ e ∈ edges, e.1.1 ≠ e.1.2) :
      Represents (.hubbard U edges) fun x y => hubbard U edges (occOf x) (occOf y)
  | abInitio (sparse : Bool) (h : Fin L → Fin L → ℂ) (e : Fin L → Fin L → Fin L → Fin L → ℂ) (hsym : ∀ p q r s, e p q r s = e r s p q) :
      Represents (.ofIntegrals sparse h e) fun x y => (1 / 2) * abInitioTwice h e (occOf x) (occOf y)

/-- If the state uses fast updates, these must be right at the configuration (C34, C36, C38, C39, C41, ...). -/
def FastOk (model : FastModel (Fin L) A Cache) (apply_fast_update : Option Bool) (x : Fin L → A) : Prop :=
  apply_fast_update = some true → model.CoherentOn fun y upd => y = x ∧ Padded y upd

theorem padded_of_nodup [DecidableEq A] (x : Fin L → A) (upd : List (Fin L × A)) (h : (upd.map Prod.fst).Nodup) : Padded x upd := by
  unfold Padded
  rw [List.nodup_iff_pairwise_ne, List.pairwise_map] at h
  exact h.imp fun hne he => absurd he hne

theorem source_logAmp (model : FastModel (Fin L) A Cache) (a : Option Bool) : (source model a).logAmp = model.full := by
  unfold source
  rcases a with _ | _ | _ <;> rfl

theorem source_padded (model : FastModel (Fin L) A Cache) (a : Option Bool) (x : Fin L → A) (h : FastOk model a x) :
    (source model a).OkPaddedAt x := by
  unfold source
  rcases a with _ | _ | _
  · trivial
  · trivial
  · exact h rfl

theorem source_ok [DecidableEq A] (model : FastModel (Fin L) A Cache) (a : Option Bool) (x : Fin L → A) (h : FastOk model a x) :
    (source model a).OkAt x := by
  unfold source
  rcases a with _ | _ | _
  · trivial
  · trivial
  · intro y upd hy
    exact h rfl y upd ⟨hy.1, padded_of_nodup y upd hy.2⟩

theorem kernel_eq (op : FermionOp L) (H : Cfg L → Cfg L → ℂ) (hH : Represents op H) (model : FastModel (Fin L) (Fin 4) Cache)
    (a : Option Bool) (n_elec : ℕ × ℕ) (x : Cfg L) (hx : numElec false x = n_elec.1 ∧ numElec true x = n_elec.2) (h : FastOk model a x) :
    op.kernel n_elec (source model a) x = localEnergy (H x) model.full x := by
  rw [← source_logAmp model a]
  cases hH with
  | hubbard U edges hne => exact (C07_local_energy_partial (source model a) U edges hne x (source_ok model a x h)).2
  | abInitio sparse t e hsym =>
    have e1 : n_elec = (numElec false x, numElec true x) := by rw [hx.1, hx.2]
    rw [e1]
    unfold FermionOp.ofIntegrals
    cases sparse
    · exact C14_local_energy_operator (source model a) t e hsym x (source_padded model a x h)
    · exact C16_local_energy_operator (source model a) t e hsym x (source_padded model a x h)

/-- C163, fermions: for the Hubbard, the dense and the sparse ab-initio Hamiltonians, `vstate.expect` reports the average of
`(Hψ)(x)/ψ(x)` over all samples, whatever the chunk size and whether or not the model offers or uses fast updates. -/
theorem C163_fermions (hc : 0 < chains) (hl : 0 < len) (vs : VState L (Fin 4) Cache ranks chains len) (op : FermionOp L)
    (H : Cfg L → Cfg L → ℂ) (hH : Represents op H) (chunk_size : Option ℕ) (hs : chunk_size ≠ some 0)
    (hn : ∀ r c k s, numElec s (vs.samples r c k) = if s then vs.n_elec.2 else vs.n_elec.1)
    (hf : ∀ r c k, FastOk vs.model vs.apply_fast_update (vs.samples r c k)) :
    ∃ st, expectFermion vs op chunk_size = some st ∧
      st.mean = (∑ r, ∑ c, ∑ k, localValue H (fun y => Complex.exp (vs.model.full y)) (vs.samples r c k)) / ((ranks * (chains * len) : ℕ) : ℂ) ∧
      ∀ r, st.rows r = List.ofFn fun c => List.ofFn fun k =>
        localValue H (fun y => Complex.exp (vs.model.full y)) (vs.samples r c k) := by
  have hk : ∀ r c k, op.kernel vs.n_elec (source vs.model vs.apply_fast_update) (vs.samples r c k) =
      localValue H (fun y => Complex.exp (vs.model.full y)) (vs.samples r c k) := by
    intro r c k
    rw [kernel_eq op H hH vs.model vs.apply_fast_update vs.n_elec _ ⟨by simpa using hn r c k false, by simpa using hn r c k true⟩ (hf r c k)]
    unfold localEnergy localValue
    rw [Finset.sum_div]
    exact Finset.sum_congr rfl fun y _ => by rw [mul_div_assoc]
  refine ⟨_, C163_statistics hc hl _ chunk_size hs vs.samples, ?_, fun r => ?_⟩
  · simp only [hk]
  · simp only [hk]

/-- C163, two settings: the reported statistics are the same for any two chunk sizes, with and without fast updates, and with the sparse and
the dense ab-initio Hamiltonian. -/
theorem C163_same (hc : 0 < chains) (hl : 0 < len) (vs vs' : VState L (Fin 4) Cache ranks chains len) (op op' : FermionOp L)
    (H : Cfg L → Cfg L → ℂ) (hH : Represents op H) (hH' : Represents op' H) (chunk_size chunk_size' : Option ℕ)
    (hs : chunk_size ≠ some 0) (hs' : chunk_size' ≠ some 0)
    (hn : ∀ r c k s, numElec s (vs.samples r c k) = if s then vs.n_elec.2 else vs.n_elec.1)
    (hm : vs'.model.full = vs.model.full) (hx : vs'.samples = vs.samples) (hN : vs'.n_elec = vs.n_elec)
    (hf : ∀ r c k, FastOk vs.model vs.apply_fast_update (vs.samples r c k))
    (hf' : ∀ r c k, FastOk vs'.model vs'.apply_fast_update (vs.samples r c k)) :
    expectFermion vs op chunk_size = expectFermion vs' op' chunk_size' := by
  have hk : ∀ r c k, op.kernel vs.n_elec (source vs.model vs.apply_fast_update) (vs.samples r c k) =
      op'.kernel vs'.n_elec (source vs'.model vs'.apply_fast_update) (vs'.samples r c k) := by
    intro r c k
    have he : numElec false (vs.samples r c k) = vs.n_elec.1 ∧ numElec true (vs.samples r c k) = vs.n_elec.2 :=
      ⟨by simpa using hn r c k false, by simpa using hn r c k true⟩
    rw [kernel_eq op H hH vs.model vs.apply_fast_update vs.n_elec _ he (hf r c k), hx, hN,
      kernel_eq op' H hH' vs'.model vs'.apply_fast_update vs.n_elec _ he (hf' r c k), hm]
  unfold expectFermion
  rw [C163_statistics hc hl _ chunk_size hs vs.samples, C163_statistics hc hl _ chunk_size' hs' vs'.samples]
  simp only [hk]

/-- C163, spins: the same for Heisenberg and J1-J2 Hamiltonians, with or without sign rule. -/
theorem C163_heisenberg (hc : 0 < chains) (hl : 0 < len) (vs : VState L ℤ Cache ranks chains len)
    (bonds : List ((Fin L × Fin L) × (ℂ × Bool))) (hd : ∀ b ∈ bonds, b.1.1 ≠ b.1.2) (chunk_size : Option ℕ) (hs : chunk_size ≠ some 0)
    (spins : Fin ranks → Fin chains → Fin len → Spins L) (hx : ∀ r c k, vs.samples r c k = fun i => spinVal (spins r c k i))
    (hf : ∀ r c k, FastOk vs.model vs.apply_fast_update (vs.samples r c k)) :
    let H := bonds.map fun b => (b.1, heisenbergBond b.2.1 b.2.2)
    let loc := localValue (bondOperator H) fun y => Complex.exp (vs.model.full fun i => spinVal (y i))
    ∃ st, expectHeisenberg vs H chunk_size = some st ∧
      st.mean = (∑ r, ∑ c, ∑ k, loc (spins r c k)) / ((ranks * (chains * len) : ℕ) : ℂ) ∧
      ∀ r, st.rows r = List.ofFn fun c => List.ofFn fun k => loc (spins r c k) := by
  intro H loc
  have hk : ∀ r c k, J1J2.localEn (source vs.model vs.apply_fast_update) H (vs.samples r c k) = loc (spins r c k) := by
    intro r c k
    have := C11_heisenberg (source vs.model vs.apply_fast_update) bonds hd (spins r c k)
      (by rw [← hx]; exact source_ok _ _ _ (hf r c k))
    rw [hx]
    refine this.trans ?_
    rw [source_logAmp]
    show localEnergy _ _ _ = localValue _ _ _
    unfold localEnergy localValue
    rw [Finset.sum_div]
    exact Finset.sum_congr rfl fun y _ => by rw [mul_div_assoc]
  refine ⟨_, C163_statistics hc hl _ chunk_size hs vs.samples, ?_, fun r => ?_⟩
  · simp only [hk]
  · simp only [hk]

/-! ## Unique-sample states -/

/-- C163, unique-sample states: the reported mean is the sum over all samples of all ranks of relative count times local value, for every
positive chunk size, so with C50 the average over everything that was drawn. -/
theorem C163_unique (kernel : X → ℂ) (chunk_size : Option ℕ) (hs : chunk_size ≠ some 0) (sw : Fin ranks → List (X × ℝ)) :
    expectUnique kernel chunk_size sw = some (∑ r, ((sw r).map fun e => (e.2 : ℂ) * kernel e.1).sum) := by
  unfold expectUnique
  simp only [C163_chunks kernel chunk_size hs]
  simp only [Option.isSome_some, implies_true, dite_true, Option.get_some, List.map_map]
  congr 1
  refine Finset.sum_congr rfl fun r _ => ?_
  rw [List.zip_map', List.map_map]
  rfl

/-- An instance: two ranks with one chain of five Hubbard samples (so chunks of two leave a remainder), and a model with fast updates. -/
example (logpsi : Cfg 2 → ℂ) : ∃ vs : VState 2 (Fin 4) (Cfg 2) 2 1 5, vs.apply_fast_update = some true ∧ vs.model.full = logpsi ∧
    (∀ r c k, FastOk vs.model vs.apply_fast_update (vs.samples r c k)) ∧
    (∀ r c k s, numElec s (vs.samples r c k) = if s then vs.n_elec.2 else vs.n_elec.1) ∧
    Represents (.hubbard (2 : ℂ) [((0, 1), 1)]) fun x y : Cfg 2 => hubbard 2 [((0, 1), 1)] (occOf x) (occOf y) := by
  refine ⟨⟨{ full := logpsi, cacheOf := id, fast := fun c upd => logpsi (applyUpdate c upd) }, some true, (1, 1),
    fun r c k => if k = 0 then ![3, 0] else ![1, 2]⟩, rfl, rfl, fun r c k _ y upd _ => rfl, fun r c k s => ?_, .hubbard _ _ (by simp)⟩
  have h1 : ∀ s, numElec s (![3, 0] : Cfg 2) = if s then 1 else 1 := by decide
  have h2 : ∀ s, numElec s (![1, 2] : Cfg 2) = if s then 1 else 1 := by decide
  dsimp only
  split_ifs <;> simp [h1, h2]

end GPSKet.Expect
