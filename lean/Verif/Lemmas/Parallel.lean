import Verif.Spec.Parallel
import Mathlib.Data.List.Basic
import Mathlib.Data.Fintype.Lattice
import Mathlib.Data.Fintype.EquivFin
import Mathlib.Tactic.Linarith

/-!
# Programs that keep together
-/

namespace GPSKet.Parallel

variable {n : ℕ} {V A B : Type}

/-- All ranks end in the same way, with results as described by `post`, or call the same operation and then keep together. -/
inductive Together (ops : Ops n V) : (Fin (n + 1) → Prog V A) → (Option (Fin (n + 1) → A) → Prop) → Prop where
  | done {post} (ps : Fin (n + 1) → Prog V A) (a : Fin (n + 1) → A) (h : ∀ r, ps r = .done (a r)) (hq : post (some a)) : Together ops ps post
  | raise {post} (ps : Fin (n + 1) → Prog V A) (h : ∀ r, ps r = .raise) (hq : post none) : Together ops ps post
  | call {post} (ps : Fin (n + 1) → Prog V A) (c : Coll) (xs : Fin (n + 1) → V) (ks : Fin (n + 1) → V → Prog V A)
      (h : ∀ r, ps r = .call c (xs r) (ks r)) (hk : Together ops (fun r => ks r (result ops c xs r)) post) : Together ops ps post

/-- A common history of `N` rounds: the programs before each round, the kinds of the calls and the contributions. -/
structure History (ops : Ops n V) (ps : Fin (n + 1) → Prog V A) (N : ℕ) where
  prog : ℕ → Fin (n + 1) → Prog V A
  kind : ℕ → Coll
  value : ℕ → Fin (n + 1) → V
  first : prog 0 = ps
  round : ∀ i, i < N → ∀ r, ∃ k, prog i r = .call (kind i) (value i r) k ∧ prog (i + 1) r = k (result ops (kind i) (value i) r)

/-- The history without rounds. -/
def History.nil [Inhabited V] (ops : Ops n V) (ps : Fin (n + 1) → Prog V A) : History ops ps 0 where
  prog := fun _ => ps
  kind := fun _ => .barrier
  value := fun _ _ => default
  first := rfl
  round := fun i hi => absurd hi (Nat.not_lt_zero i)

/-- One more round at the beginning. -/
def History.cons {ops : Ops n V} {ps : Fin (n + 1) → Prog V A} {N : ℕ} (c : Coll) (xs : Fin (n + 1) → V)
    (ks : Fin (n + 1) → V → Prog V A) (h : ∀ r, ps r = .call c (xs r) (ks r))
    (H : History ops (fun r => ks r (result ops c xs r)) N) : History ops ps (N + 1) where
  prog := fun i => match i with | 0 => ps | i + 1 => H.prog i
  kind := fun i => match i with | 0 => c | i + 1 => H.kind i
  value := fun i => match i with | 0 => xs | i + 1 => H.value i
  first := rfl
  round := by
    intro i hi r
    match i with
    | 0 => exact ⟨ks r, h r, congrFun H.first r⟩
    | i + 1 => exact H.round i (by omega) r

theorem Together.history [Inhabited V] {ops : Ops n V} {ps : Fin (n + 1) → Prog V A} {post} (h : Together ops ps post) :
    ∃ N, ∃ H : History ops ps N, ((∀ r, H.prog N r = .raise) ∧ post none) ∨ ∃ a, (∀ r, H.prog N r = .done (a r)) ∧ post (some a) := by
  induction h with
  | done ps a h hq => exact ⟨0, .nil ops ps, Or.inr ⟨a, h, hq⟩⟩
  | raise ps h hq => exact ⟨0, .nil ops ps, Or.inl ⟨h, hq⟩⟩
  | call ps c xs ks h hk ih =>
    obtain ⟨N, H, hH⟩ := ih
    exact ⟨N + 1, .cons c xs ks h H, hH⟩

theorem result_congr (ops : Ops n V) (c : Coll) {xs ys : Fin (n + 1) → V} (r : Fin (n + 1)) (h : ∀ s, Needs c r s → xs s = ys s) :
    result ops c xs r = result ops c ys r := by
  have hall : (∀ s, Needs c r s) → xs = ys := fun hn => funext fun s => h s (hn s)
  cases c with
  | bcast => exact h 0 rfl
  | scatter => unfold result; simp only; rw [h 0 rfl]
  | gather =>
    unfold result
    simp only
    by_cases hr : r = 0
    · rw [hall fun s => Or.inl hr]
    · rw [if_neg hr, if_neg hr]
      exact h r (Or.inr rfl)
  | allgather => rw [hall fun _ => trivial]
  | sum => rw [hall fun _ => trivial]
  | mean => rw [hall fun _ => trivial]
  | max => rw [hall fun _ => trivial]
  | barrier => rw [hall fun _ => trivial]

/-- After the common history every rank has ended or waits for one that has. -/
def History.Final {ops : Ops n V} {ps : Fin (n + 1) → Prog V A} {N : ℕ} (H : History ops ps N) : Prop :=
  ∀ r c x k, H.prog N r = .call c x k → ∃ s, Needs c r s ∧ Ended (H.prog N s)

theorem not_ended_call {c : Coll} {x : V} {k : V → Prog V A} : ¬ Ended (Prog.call c x k) := by
  rintro (⟨a, h⟩ | h) <;> cases h

/-- The invariant of all runs. -/
structure Inv {ops : Ops n V} {ps : Fin (n + 1) → Prog V A} {N : ℕ} (H : History ops ps N) (m : State n V A) : Prop where
  bound : ∀ r, m.returned r ≤ N
  prog : ∀ r, m.prog r = H.prog (m.returned r) r
  calls : ∀ r i, i < N → i < (m.entered r).length → (m.entered r)[i]? = some (H.kind i, H.value i r)
  lower : ∀ r, m.returned r ≤ (m.entered r).length
  upper : ∀ r, (m.entered r).length ≤ m.returned r + 1
  last : ∀ r, Ended (H.prog N r) → (m.entered r).length ≤ N

theorem Inv.start {ops : Ops n V} {ps : Fin (n + 1) → Prog V A} {N : ℕ} (H : History ops ps N) : Inv H (start ps) where
  bound := fun _ => Nat.zero_le _
  prog := fun r => (congrFun H.first r).symm
  calls := fun r i _ h => absurd h (Nat.not_lt_zero i)
  lower := fun _ => Nat.zero_le _
  upper := fun _ => Nat.zero_le _
  last := fun _ _ => Nat.zero_le _

theorem Inv.step {ops : Ops n V} {ps : Fin (n + 1) → Prog V A} {N : ℕ} {H : History ops ps N} (hF : H.Final) {m m' : State n V A}
    (hi : Inv H m) (hs : Step ops false m m') : Inv H m' := by
  cases hs with
  | enter r c x k hp hr =>
    have hpr : H.prog (m.returned r) r = .call c x k := by rw [← hi.prog r]; exact hp
    refine ⟨hi.bound, hi.prog, ?_, ?_, ?_, ?_⟩
    · intro s i hN hlt
      by_cases hsr : s = r
      · subst hsr
        simp only [Function.update_self, List.length_append, List.length_singleton] at hlt ⊢
        by_cases hold : i < (m.entered s).length
        · rw [List.getElem?_append_left hold]
          exact hi.calls s i hN hold
        · have hie : i = (m.entered s).length := by omega
          subst hie
          rw [List.getElem?_append_right le_rfl, Nat.sub_self]
          obtain ⟨k', hk', _⟩ := H.round _ hN s
          rw [hr] at hk' ⊢
          rw [hpr] at hk'
          injection hk' with h1 h2
          simp [h1, h2]
      · simp only [Function.update_of_ne hsr] at hlt ⊢
        exact hi.calls s i hN hlt
    · intro s
      by_cases hsr : s = r
      · subst hsr
        simp only [Function.update_self, List.length_append, List.length_singleton]
        have := hi.lower s
        omega
      · simp only [Function.update_of_ne hsr]
        exact hi.lower s
    · intro s
      by_cases hsr : s = r
      · subst hsr
        simp only [Function.update_self, List.length_append, List.length_singleton]
        omega
      · simp only [Function.update_of_ne hsr]
        exact hi.upper s
    · intro s he
      by_cases hsr : s = r
      · subst hsr
        simp only [Function.update_self, List.length_append, List.length_singleton]
        have hb := hi.bound s
        have hne : m.returned s ≠ N := by
          intro h
          rw [h] at hpr
          rw [hpr] at he
          exact not_ended_call he
        omega
      · simp only [Function.update_of_ne hsr]
        exact hi.last s he
  | leave r c x k xs hp hr hs =>
    have hpr : H.prog (m.returned r) r = .call c x k := by rw [← hi.prog r]; exact hp
    have hlt : m.returned r < N := by
      by_contra hge
      have hN : m.returned r = N := le_antisymm (hi.bound r) (by omega)
      obtain ⟨s, hn, he⟩ := hF r c x k (hN ▸ hpr)
      have h1 := hi.last s he
      have h2 := hs s (Or.inr hn)
      have h3 : m.returned r < (m.entered s).length := by
        by_contra hc
        rw [List.getElem?_eq_none (by omega)] at h2
        cases h2
      omega
    obtain ⟨k', hk', hnext⟩ := H.round _ hlt r
    rw [hpr] at hk'
    injection hk' with hc hx hk
    have hres : result ops c xs r = result ops (H.kind (m.returned r)) (H.value (m.returned r)) r := by
      rw [← hc]
      refine result_congr ops c r fun s hn => ?_
      have h2 := hs s (Or.inr hn)
      have h3 : m.returned r < (m.entered s).length := by
        by_contra hcc
        rw [List.getElem?_eq_none (by omega)] at h2
        cases h2
      rw [hi.calls s _ hlt h3] at h2
      injection h2 with h2
      injection h2 with _ h2
      exact h2.symm
    refine ⟨?_, ?_, hi.calls, ?_, ?_, hi.last⟩
    · intro s
      by_cases hsr : s = r
      · subst hsr; simp only [Function.update_self]; omega
      · simp only [Function.update_of_ne hsr]; exact hi.bound s
    · intro s
      by_cases hsr : s = r
      · subst hsr
        simp only [Function.update_self]
        rw [hnext, hres, hk]
      · simp only [Function.update_of_ne hsr]; exact hi.prog s
    · intro s
      by_cases hsr : s = r
      · subst hsr; simp only [Function.update_self]; omega
      · simp only [Function.update_of_ne hsr]; exact hi.lower s
    · intro s
      by_cases hsr : s = r
      · subst hsr; simp only [Function.update_self]; omega
      · simp only [Function.update_of_ne hsr]; exact hi.upper s

theorem Inv.reachable {ops : Ops n V} {ps : Fin (n + 1) → Prog V A} {N : ℕ} {H : History ops ps N} (hF : H.Final) {m : State n V A}
    (h : Reachable ops ps m) : Inv H m := by
  unfold Reachable at h
  induction h with
  | refl => exact Inv.start H
  | tail _ hs ih => exact ih.step hF hs

theorem History.not_ended {ops : Ops n V} {ps : Fin (n + 1) → Prog V A} {N : ℕ} (H : History ops ps N) {i : ℕ} (hi : i < N)
    (r : Fin (n + 1)) : ¬ Ended (H.prog i r) := by
  obtain ⟨k, h, _⟩ := H.round i hi r
  rw [h]
  exact not_ended_call

/-- Programs that keep together are safe. -/
theorem Together.safe [Inhabited V] {ops : Ops n V} {ps : Fin (n + 1) → Prog V A} {post} (h : Together ops ps post) : Safe ops ps post := by
  obtain ⟨N, H, hend⟩ := h.history
  have hended : ∀ r, Ended (H.prog N r) := by
    rcases hend with ⟨h, _⟩ | ⟨a, h, _⟩
    · exact fun r => Or.inr (h r)
    · exact fun r => Or.inl ⟨a r, h r⟩
  have hF : H.Final := by
    intro r c x k hc
    have := hended r
    rw [hc] at this
    exact absurd this not_ended_call
  refine ⟨?_, ⟨N, fun m hm r => (Inv.reachable hF hm).bound r⟩, ?_⟩
  · intro m hm
    have hi := Inv.reachable hF hm
    by_cases hall : ∀ r, Ended (m.prog r)
    · exact Or.inl hall
    right
    push Not at hall
    obtain ⟨r0, hr0⟩ := hall
    have hlt0 : m.returned r0 < N := by
      rcases lt_or_eq_of_le (hi.bound r0) with h | h
      · exact h
      · rw [hi.prog r0, h] at hr0
        exact absurd (hended r0) hr0
    obtain ⟨r, hmin⟩ := Finite.exists_min m.returned
    have hlt : m.returned r < N := lt_of_le_of_lt (hmin r0) hlt0
    by_cases hs : ∃ s, m.returned s = m.returned r ∧ (m.entered s).length = m.returned s
    · obtain ⟨s, hs1, hs2⟩ := hs
      obtain ⟨k, hk, _⟩ := H.round _ (hs1 ▸ hlt) s
      exact ⟨_, Step.enter m s _ _ k (by rw [hi.prog s]; exact hk) hs2⟩
    · push Not at hs
      obtain ⟨k, hk, _⟩ := H.round _ hlt r
      have hin : ∀ s, m.returned r < (m.entered s).length := by
        intro s
        have h1 := hmin s
        have h2 := hi.lower s
        rcases Nat.lt_or_eq_of_le h1 with h | h
        · omega
        · have := hs s h.symm
          omega
      refine ⟨_, Step.leave m r _ _ k (H.value (m.returned r)) (by rw [hi.prog r]; exact hk) ?_ fun s _ => hi.calls s _ hlt (hin s)⟩
      have h1 := hin r
      have h2 := hi.upper r
      omega
  · intro m hm hall
    have hi := Inv.reachable hF hm
    have hN : ∀ r, m.returned r = N := by
      intro r
      rcases lt_or_eq_of_le (hi.bound r) with h | h
      · exact absurd (hi.prog r ▸ hall r) (H.not_ended h r)
      · exact h
    have hprog : ∀ r, m.prog r = H.prog N r := fun r => by rw [hi.prog r, hN r]
    rcases hend with ⟨h, hq⟩ | ⟨a, h, hq⟩
    · exact Or.inl ⟨fun r => (hprog r).trans (h r), hq⟩
    · exact Or.inr ⟨a, fun r => (hprog r).trans (h r), hq⟩

/-- After a common history, ranks that need the contribution of an ended rank wait for ever. -/
theorem History.hangs {ops : Ops n V} {ps : Fin (n + 1) → Prog V A} {N : ℕ} (H : History ops ps N) (hF : H.Final) (r : Fin (n + 1))
    (hr : ¬ Ended (H.prog N r)) : Hangs ops ps r := by
  intro m hm he
  have hi := Inv.reachable hF hm
  rw [hi.prog r] at he
  rcases lt_or_eq_of_le (hi.bound r) with h | h
  · exact H.not_ended h r he
  · rw [h] at he
    exact hr he

/-! ## Rules -/

theorem Together.mono {ops : Ops n V} {ps : Fin (n + 1) → Prog V A} {post post' : Option (Fin (n + 1) → A) → Prop}
    (h : Together ops ps post) (hq : ∀ a, post a → post' a) : Together ops ps post' := by
  induction h with
  | done ps a h hp => exact .done ps a h (hq _ hp)
  | raise ps h hp => exact .raise ps h (hq _ hp)
  | call ps c xs ks h _ ih => exact .call ps c xs ks h (ih hq)

theorem Together.pure {ops : Ops n V} {post : Option (Fin (n + 1) → A) → Prop} (a : Fin (n + 1) → A) (h : post (some a)) :
    Together ops (fun r => Prog.done (a r)) post := .done _ a (fun _ => rfl) h

theorem Together.bind {ops : Ops n V} {ps : Fin (n + 1) → Prog V A} {fs : Fin (n + 1) → A → Prog V B} {post post'}
    (h : Together ops ps post) (hf : ∀ a, post (some a) → Together ops (fun r => fs r (a r)) post')
    (hn : post none → post' none) :
    Together ops (fun r => (ps r).bind (fs r)) post' := by
  induction h with
  | done ps a h hq =>
    have : (fun r => (ps r).bind (fs r)) = fun r => fs r (a r) := funext fun r => by rw [h r]; rfl
    rw [this]
    exact hf a hq
  | raise ps h hq => exact .raise _ (fun r => by rw [h r]; rfl) (hn hq)
  | call ps c xs ks h _ ih =>
    exact .call _ c xs (fun r v => (ks r v).bind (fs r)) (fun r => by rw [h r]; rfl) (ih hf hn)

/-- A single call. -/
theorem Together.coll {ops : Ops n V} (c : Coll) (xs : Fin (n + 1) → V) {post : Option (Fin (n + 1) → V) → Prop}
    (h : post (some (result ops c xs))) : Together ops (fun r => Prog.coll c (xs r)) post :=
  .call _ c xs (fun _ => .done) (fun _ => rfl) (.pure _ h)

/-- A call whose result is the same on all ranks. -/
def Coll.Shared (c : Coll) : Prop := c ≠ .scatter ∧ c ≠ .gather

theorem result_shared (ops : Ops n V) {c : Coll} (hc : c.Shared) (xs : Fin (n + 1) → V) (r : Fin (n + 1)) :
    result ops c xs r = result ops c xs 0 := by
  cases c with
  | scatter => exact absurd rfl hc.1
  | gather => exact absurd rfl hc.2
  | _ => rfl

theorem Together.shared {ops : Ops n V} {ps : Fin (n + 1) → Prog V A} {post} (c : Coll) (hc : c.Shared) (xs : Fin (n + 1) → V)
    (ks : Fin (n + 1) → V → Prog V A) (h : ∀ r, ps r = .call c (xs r) (ks r)) (hk : ∀ v, Together ops (fun r => ks r v) post) :
    Together ops ps post := by
  refine .call ps c xs ks h ?_
  have : (fun r => ks r (result ops c xs r)) = fun r => ks r (result ops c xs 0) := funext fun r => by rw [result_shared ops hc xs r]
  rw [this]
  exact hk _

theorem shared_sum : Coll.Shared .sum := ⟨by decide, by decide⟩
theorem shared_bcast : Coll.Shared .bcast := ⟨by decide, by decide⟩

/-! ## Waiting for ever -/

/-- After some common calls, rank `r` and all other ranks that have not ended need an ended rank. -/
inductive Stuck (ops : Ops n V) (r : Fin (n + 1)) : (Fin (n + 1) → Prog V A) → Prop where
  | here (ps : Fin (n + 1) → Prog V A) (hr : ¬ Ended (ps r))
      (hF : ∀ s c x k, ps s = .call c x k → ∃ t, Needs c s t ∧ Ended (ps t)) : Stuck ops r ps
  | call (ps : Fin (n + 1) → Prog V A) (c : Coll) (xs : Fin (n + 1) → V) (ks : Fin (n + 1) → V → Prog V A)
      (h : ∀ r, ps r = .call c (xs r) (ks r)) (hk : Stuck ops r (fun s => ks s (result ops c xs s))) : Stuck ops r ps

theorem Stuck.history [Inhabited V] {ops : Ops n V} {r : Fin (n + 1)} {ps : Fin (n + 1) → Prog V A} (h : Stuck ops r ps) :
    ∃ N, ∃ H : History ops ps N, H.Final ∧ ¬ Ended (H.prog N r) := by
  induction h with
  | here ps hr hF => exact ⟨0, .nil ops ps, hF, hr⟩
  | call ps c xs ks h _ ih =>
    obtain ⟨N, H, hF, hr⟩ := ih
    exact ⟨N + 1, .cons c xs ks h H, hF, hr⟩

theorem Stuck.hangs [Inhabited V] {ops : Ops n V} {r : Fin (n + 1)} {ps : Fin (n + 1) → Prog V A} (h : Stuck ops r ps) : Hangs ops ps r := by
  obtain ⟨N, H, hF, hr⟩ := h.history
  exact H.hangs hF r hr

theorem Together.bind_stuck {ops : Ops n V} {r : Fin (n + 1)} {ps : Fin (n + 1) → Prog V A} {fs : Fin (n + 1) → A → Prog V B} {post}
    (h : Together ops ps post) (hn : ¬ post none) (hf : ∀ a, post (some a) → Stuck ops r (fun s => fs s (a s))) :
    Stuck ops r (fun s => (ps s).bind (fs s)) := by
  induction h with
  | done ps a h hq =>
    have : (fun r => (ps r).bind (fs r)) = fun r => fs r (a r) := funext fun r => by rw [h r]; rfl
    rw [this]
    exact hf a hq
  | raise ps h hq => exact absurd hq hn
  | call ps c xs ks h _ ih =>
    exact .call _ c xs (fun r v => (ks r v).bind (fs r)) (fun r => by rw [h r]; rfl) (ih hn hf)

end GPSKet.Parallel
