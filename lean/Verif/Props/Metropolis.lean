import Verif.Spec.Metropolis
import Verif.Spec.Occupation

/-! # Properties C23–C25: exchange rule and fast Metropolis sampler -/

namespace GPSKet
open Spec

/-! ## C23 -/

/-- **C23**: the proposal is the configuration with the two sites of the cluster swapped; the reported sites are those
of the cluster; the reported update denotes the proposal. -/
theorem C23_exchange_swaps {S A : Type} [DecidableEq S] (σ : S → A) (cl : S × S) :
    let r := exchangeUpdate σ cl
    r.1 = (fun j => σ (Equiv.swap cl.1 cl.2 j)) ∧ (r.2.1, r.2.2) = cl ∧
      applyUpdate σ [(r.2.1, r.1 r.2.1), (r.2.2, r.1 r.2.2)] = r.1 := by
  intro r
  have h1 : r.1 = (fun j => σ (Equiv.swap cl.1 cl.2 j)) := by
    funext j
    simp only [r, exchangeUpdate]
    by_cases hj : j = cl.2
    · subst hj; simp
    · by_cases hi : j = cl.1
      · subst hi; simp [hj]
      · rw [Equiv.swap_apply_of_ne_of_ne hi hj]
        simp [hj, hi]
  refine ⟨h1, rfl, ?_⟩
  have h2 : r.2.1 = cl.1 := rfl
  have h3 : r.2.2 = cl.2 := rfl
  rw [h2, h3]
  funext j
  unfold applyUpdate
  by_cases hi : cl.1 = j
  · subst hi; simp
  · by_cases hj : cl.2 = j
    · subst hj; simp [hi]
    · simp only [List.find?, hi, hj, decide_false, h1]
      rw [Equiv.swap_apply_of_ne_of_ne (Ne.symm hi) (Ne.symm hj)]

/-- **C23**: the number of sites in each local state is conserved, so e.g. the magnetisation or the electron numbers. -/
theorem C23_exchange_conserves {S A : Type} [DecidableEq S] [Fintype S] [DecidableEq A] (σ : S → A) (cl : S × S) (v : A) :
    (Finset.univ.filter fun j => (exchangeUpdate σ cl).1 j = v).card = (Finset.univ.filter fun j => σ j = v).card := by
  rw [(C23_exchange_swaps σ cl).1]
  apply Finset.card_bij (fun j _ => Equiv.swap cl.1 cl.2 j)
  · intro j hj; simpa using hj
  · intro j1 _ j2 _ h; exact (Equiv.swap cl.1 cl.2).injective h
  · intro j hj
    exact ⟨Equiv.swap cl.1 cl.2 j, by simpa using hj, by simp⟩

/-- **C23**: the proposal is symmetric: as many of the (uniformly drawn) clusters lead from `σ` to `σ'` as from
`σ'` to `σ`, for every list of clusters. -/
theorem C23_exchange_symmetric {S A : Type} [DecidableEq S] [DecidableEq (S → A)] (clusters : List (S × S)) (σ σ' : S → A) :
    (clusters.filter fun cl => (exchangeUpdate σ cl).1 = σ').length =
      (clusters.filter fun cl => (exchangeUpdate σ' cl).1 = σ).length := by
  congr 1
  apply List.filter_congr
  intro cl _
  have inv : ∀ τ : S → A, (exchangeUpdate (exchangeUpdate τ cl).1 cl).1 = τ := by
    intro τ
    have a := (C23_exchange_swaps τ cl).1
    have b := (C23_exchange_swaps (exchangeUpdate τ cl).1 cl).1
    rw [b, a]
    simp
  by_cases h : (exchangeUpdate σ cl).1 = σ'
  · have : (exchangeUpdate σ' cl).1 = σ := by rw [← h]; exact inv σ
    simp [h, this]
  · have : ¬ (exchangeUpdate σ' cl).1 = σ := by
      intro h'; apply h; rw [← h']; exact inv σ'
    simp [h, this]

example : exchangeUpdate ![10, 20, 30] ((0 : Fin 3), (2 : Fin 3)) = (![30, 20, 10], 0, 2) := by decide

/-! ## C24 -/

section
variable {S A Chain Cache : Type} [DecidableEq S] [Fintype Chain]

/-- What the sampler needs of rule and model along a run, on a set `Inv` of configurations (e.g. a sector of the
Hilbert space): proposals stay in the set; the reported sites with the proposal's occupations denote the proposal
(C21, C23 for the two rules of the package); and the model's fast update is coherent for exactly these updates. -/
def RuleModelOk (Inv : (S → A) → Prop) (machine : CachedModel S A Cache) (inp : StepInput Chain S A) : Prop :=
  ∀ (σ : Chain → S → A), (∀ c, Inv (σ c)) → ∀ c : Chain,
    let pr := inp.transition σ
    let upd := (pr.update_sites c).map fun j => (j, pr.σp c j)
    Inv (pr.σp c) ∧ applyUpdate (σ c) upd = pr.σp c ∧
    machine.fast (machine.cacheOf (σ c)) upd = machine.full (applyUpdate (σ c) upd) ∧
    machine.fastCache (machine.cacheOf (σ c)) upd = machine.cacheOf (applyUpdate (σ c) upd)

/-- **C24** (loop invariant): after any number of iterations with any random inputs the fast sampler holds the
configurations of the plain Metropolis–Hastings chain, the log-probabilities and intermediates of exactly these
configurations, and the number of accepted proposals of the plain chain. -/
theorem C24_fast_is_plain (Inv : (S → A) → Prop) (machine : CachedModel S A Cache) (pow : ℝ) (state : SamplerState Chain S A)
    (inputs : List (StepInput Chain S A)) (hinv : ∀ c, Inv (state.σ c))
    (hok : ∀ inp ∈ inputs, RuleModelOk Inv machine inp) :
    let s := runLoop machine pow state inputs
    let σ := mhRun machine.full pow state.σ inputs
    s.σ = σ ∧ (∀ c, s.log_prob c = pow * (machine.full (σ c)).re) ∧
      (∀ c, s.intermediates_cache c = machine.cacheOf (σ c)) ∧
      s.accepted = state.n_accepted_proc + mhAccepted machine.full pow state.σ inputs := by
  classical
  unfold runLoop
  have H : ∀ (s : FastState Chain S A Cache), (∀ c, Inv (s.σ c)) → (∀ c, s.log_prob c = pow * (machine.full (s.σ c)).re) →
      (∀ c, s.intermediates_cache c = machine.cacheOf (s.σ c)) →
      let s' := inputs.foldl (loopBody machine pow) s
      let σ := mhRun machine.full pow s.σ inputs
      s'.σ = σ ∧ (∀ c, s'.log_prob c = pow * (machine.full (σ c)).re) ∧
      (∀ c, s'.intermediates_cache c = machine.cacheOf (σ c)) ∧
      s'.accepted = s.accepted + mhAccepted machine.full pow s.σ inputs := by
    induction inputs with
    | nil =>
      intro s h0 h1 h2
      exact ⟨rfl, h1, h2, by simp [mhAccepted]⟩
    | cons inp rest ih =>
      intro s h0 h1 h2
      have hi := hok inp List.mem_cons_self s.σ h0
      -- what the accept flag means
      have hval : ∀ c, machine.fast (s.intermediates_cache c)
          (((inp.transition s.σ).update_sites c).map fun j => (j, (inp.transition s.σ).σp c j)) =
          machine.full ((inp.transition s.σ).σp c) := by
        intro c
        obtain ⟨_, e1, e2, _⟩ := hi c
        rw [h2 c, e2, e1]
      have hcache : ∀ c, machine.fastCache (s.intermediates_cache c)
          (((inp.transition s.σ).update_sites c).map fun j => (j, (inp.transition s.σ).σp c j)) =
          machine.cacheOf ((inp.transition s.σ).σp c) := by
        intro c
        obtain ⟨_, e1, _, e3⟩ := hi c
        rw [h2 c, e3, e1]
      have hacc : ∀ c, doAccept (inp.transition s.σ).log_prob_correction inp.uniform
          (fun c => pow * (machine.full ((inp.transition s.σ).σp c)).re) s.log_prob c ↔
          Accepts machine.full pow s.σ inp c := by
        intro c
        unfold Accepts doAccept
        rw [h1 c]
        dsimp only
        cases (inp.transition s.σ).log_prob_correction with
        | none => simp only [add_zero]
        | some corr => rfl
      have hs' : (loopBody machine pow s inp).σ = mhStep machine.full pow s.σ inp := by
        funext c
        simp only [loopBody, mhStep, hval, hacc]
      have hin : ∀ c, Inv ((loopBody machine pow s inp).σ c) := by
        intro c
        rw [hs']
        unfold mhStep
        split_ifs
        · exact (hi c).1
        · exact h0 c
      have hlp : ∀ c, (loopBody machine pow s inp).log_prob c =
          pow * (machine.full ((loopBody machine pow s inp).σ c)).re := by
        intro c
        rw [hs']
        simp only [loopBody, mhStep, hval, hacc]
        split_ifs
        · rfl
        · exact h1 c
      have hca : ∀ c, (loopBody machine pow s inp).intermediates_cache c =
          machine.cacheOf ((loopBody machine pow s inp).σ c) := by
        intro c
        rw [hs']
        simp only [loopBody, mhStep, hval, hacc, hcache]
        split_ifs
        · rfl
        · exact h2 c
      have hcount : (loopBody machine pow s inp).accepted = s.accepted +
          (Finset.univ.filter fun c => Accepts machine.full pow s.σ inp c).card := by
        simp only [loopBody, hval, hacc]
        rw [Finset.card_filter]
      have := ih (fun i h => hok i (List.mem_cons_of_mem _ h)) (loopBody machine pow s inp) hin hlp hca
      simp only [List.foldl_cons, mhRun, mhAccepted]
      simp only [hs', hcount] at this
      refine ⟨this.1, this.2.1, this.2.2.1, ?_⟩
      rw [this.2.2.2, add_assoc]
  exact H (initState machine pow state) hinv (fun _ => rfl) (fun _ => rfl)

private theorem mhRun_inv (Inv : (S → A) → Prop) (machine : CachedModel S A Cache) (pow : ℝ)
    (inputs : List (StepInput Chain S A)) (hok : ∀ inp ∈ inputs, RuleModelOk Inv machine inp) (σ : Chain → S → A)
    (hinv : ∀ c, Inv (σ c)) : ∀ c, Inv (mhRun machine.full pow σ inputs c) := by
  induction inputs generalizing σ with
  | nil => exact hinv
  | cons a l ih =>
    simp only [mhRun]
    apply ih (fun i h => hok i (List.mem_cons_of_mem _ h))
    intro c
    unfold mhStep
    split_ifs
    · exact (hok a List.mem_cons_self σ hinv c).1
    · exact hinv c

theorem sampleNext_inv (Inv : (S → A) → Prop) (machine : CachedModel S A Cache) (pow : ℝ)
    (inputs : List (StepInput Chain S A)) (hok : ∀ inp ∈ inputs, RuleModelOk Inv machine inp)
    (state : SamplerState Chain S A) (hinv : ∀ c, Inv (state.σ c)) :
    ∀ c, Inv ((sampleNext machine pow state inputs).σ c) := by
  rw [show (sampleNext machine pow state inputs).σ = (runLoop machine pow state inputs).σ from rfl,
    (C24_fast_is_plain Inv machine pow state inputs hinv hok).1]
  exact mhRun_inv Inv machine pow inputs hok state.σ hinv

/-- **C24** over histories: any number of calls of `_sample_next` (one list of inputs per call) leave the configurations
of the plain chain run on all the inputs. -/
theorem C24_history (Inv : (S → A) → Prop) (machine : CachedModel S A Cache) (pow : ℝ) (calls : List (List (StepInput Chain S A)))
    (hok : ∀ inputs ∈ calls, ∀ inp ∈ inputs, RuleModelOk Inv machine inp) (state : SamplerState Chain S A)
    (hinv : ∀ c, Inv (state.σ c)) :
    (calls.foldl (sampleNext machine pow) state).σ = mhRun machine.full pow state.σ calls.flatten := by
  have app : ∀ (l1 l2 : List (StepInput Chain S A)) (σ : Chain → S → A),
      mhRun machine.full pow σ (l1 ++ l2) = mhRun machine.full pow (mhRun machine.full pow σ l1) l2 := by
    intro l1
    induction l1 with
    | nil => intro l2 σ; rfl
    | cons a l ih => intro l2 σ; simp only [List.cons_append, mhRun]; exact ih _ _
  induction calls generalizing state with
  | nil => rfl
  | cons c cs ih =>
    have hn := sampleNext_inv Inv machine pow c (hok c List.mem_cons_self) state hinv
    rw [List.foldl_cons, ih (fun i h => hok i (List.mem_cons_of_mem _ h)) _ hn, List.flatten_cons, app]
    have := (C24_fast_is_plain Inv machine pow state c hinv (hok c List.mem_cons_self)).1
    rw [show (sampleNext machine pow state c).σ = (runLoop machine pow state c).σ from rfl, this]

/-- the hypotheses are met by the exchange rule with any coherent model (here one that caches the configuration) -/
example (A : Type) (logpsi : (Fin 3 → A) → ℂ) (cl : Fin 2 → Fin 3 × Fin 3) (u : Fin 2 → ℝ) :
    RuleModelOk (Chain := Fin 2) (fun _ => True) ⟨⟨logpsi, fun x => x, fun c upd => logpsi (applyUpdate c upd)⟩, fun c upd => applyUpdate c upd⟩
      ⟨fun σ => ⟨fun c => (exchangeUpdate (σ c) (cl c)).1, none, fun c => [(cl c).1, (cl c).2]⟩, u⟩ := by
  intro σ _ c
  refine ⟨trivial, (C23_exchange_swaps (σ c) (cl c)).2.2, rfl, rfl⟩

/-! ## C25 -/

/-- **C25**: after any history of calls, the step counter has grown by the total number of proposals (iterations times
chains) and the accept counter by the number of proposals the plain chain accepts, which is at most that. -/
theorem C25_counters (Inv : (S → A) → Prop) (machine : CachedModel S A Cache) (pow : ℝ) (calls : List (List (StepInput Chain S A)))
    (hok : ∀ inputs ∈ calls, ∀ inp ∈ inputs, RuleModelOk Inv machine inp) (state : SamplerState Chain S A)
    (hinv : ∀ c, Inv (state.σ c)) :
    let st := calls.foldl (sampleNext machine pow) state
    st.n_steps_proc = state.n_steps_proc + calls.flatten.length * Fintype.card Chain ∧
    st.n_accepted_proc = state.n_accepted_proc + mhAccepted machine.full pow state.σ calls.flatten ∧
    mhAccepted machine.full pow state.σ calls.flatten ≤ calls.flatten.length * Fintype.card Chain := by
  classical
  have bound : ∀ (l : List (StepInput Chain S A)) (σ : Chain → S → A),
      mhAccepted machine.full pow σ l ≤ l.length * Fintype.card Chain := by
    intro l
    induction l with
    | nil => intro σ; simp [mhAccepted]
    | cons a l ih =>
      intro σ
      simp only [mhAccepted, List.length_cons]
      have h1 := ih (mhStep machine.full pow σ a)
      have h2 : (Finset.univ.filter fun c => Accepts machine.full pow σ a c).card ≤ Fintype.card Chain :=
        Finset.card_le_univ _
      calc _ ≤ Fintype.card Chain + l.length * Fintype.card Chain := Nat.add_le_add h2 h1
        _ = _ := by ring
  have app : ∀ (l1 l2 : List (StepInput Chain S A)) (σ : Chain → S → A),
      mhAccepted machine.full pow σ (l1 ++ l2) =
        mhAccepted machine.full pow σ l1 + mhAccepted machine.full pow (mhRun machine.full pow σ l1) l2 := by
    intro l1
    induction l1 with
    | nil => intro l2 σ; simp [mhAccepted, mhRun]
    | cons a l ih => intro l2 σ; simp only [List.cons_append, mhRun, mhAccepted, ih]; ring
  refine ⟨?_, ?_, bound _ _⟩
  · clear bound app hok hinv
    induction calls generalizing state with
    | nil => simp
    | cons c cs ih =>
      rw [List.foldl_cons, ih, List.flatten_cons, List.length_append]
      simp only [sampleNext]
      ring
  · induction calls generalizing state with
    | nil => simp [mhAccepted]
    | cons c cs ih =>
      have hc := C24_fast_is_plain Inv machine pow state c hinv (hok c List.mem_cons_self)
      have hn := sampleNext_inv Inv machine pow c (hok c List.mem_cons_self) state hinv
      rw [List.foldl_cons, ih (fun i h => hok i (List.mem_cons_of_mem _ h)) _ hn, List.flatten_cons, app]
      have e1 : (sampleNext machine pow state c).n_accepted_proc = (runLoop machine pow state c).accepted := rfl
      have e2 : (sampleNext machine pow state c).σ = (runLoop machine pow state c).σ := rfl
      rw [e1, e2, hc.1, hc.2.2.2, add_assoc]

end

end GPSKet
