import Verif.Lemmas.Autoreg

/-! # The three autoregressive models compute causal values, in one pass and through their caches -/

namespace GPSKet
open Spec AR

variable {L D M : ℕ}

namespace AR

/-- Product of the parameters of the sites before `k`. -/
def ctx (epsilon : Fin D → Fin M → Fin L → ℂ) (x : Fin L → Fin D) (k : ℕ) (m : Fin M) : ℂ :=
  ∏ j : Fin L, if j.val < k then epsilon (x j) m j else 1

theorem ctx_succ (epsilon : Fin D → Fin M → Fin L → ℂ) (x : Fin L → Fin D) (κ : Fin L) (m : Fin M) :
    ctx epsilon x (κ.val + 1) m = epsilon (x κ) m κ * ctx epsilon x κ m := by
  unfold ctx
  rw [← Finset.mul_prod_erase Finset.univ _ (Finset.mem_univ κ),
    ← Finset.mul_prod_erase Finset.univ (fun j : Fin L => if j.val < κ.val then epsilon (x j) m j else 1) (Finset.mem_univ κ)]
  rw [if_pos (Nat.lt_succ_self _), if_neg (Nat.lt_irrefl _), one_mul]
  congr 1
  apply Finset.prod_congr rfl
  intro i hi
  have hne' : i.val ≠ κ.val := fun h => Finset.ne_of_mem_erase hi (Fin.ext h)
  by_cases hik : i.val < κ.val
  · rw [if_pos (by omega), if_pos hik]
  · rw [if_neg (by omega), if_neg hik]

theorem ctx_causal (epsilon : Fin D → Fin M → Fin L → ℂ) (x y : Fin L → Fin D) (i : Fin L)
    (h : ∀ j, j < i → x j = y j) (m : Fin M) : ctx epsilon x i m = ctx epsilon y i m := by
  unfold ctx
  apply Finset.prod_congr rfl
  intro j _
  by_cases hj : j.val < i.val
  · rw [if_pos hj, if_pos hj, h j hj]
  · rw [if_neg hj, if_neg hj]

/-- The unmasked values of `ARqGPS`. -/
def qgpsVal (f : Fields D M) (epsilon : Fin D → Fin M → Fin L → ℂ) (i : Fin L) (x : Fin L → Fin D) (d : Fin D) : ℂ :=
  f.out_transformation fun m => epsilon d m i * ctx epsilon x i m

/-- The cached products before step `k`. -/
def cacheAt (epsilon : Fin D → Fin M → Fin L → ℂ) (x : Fin L → Fin D) : ℕ → Fin D → Fin M → ℂ
  | 0 => fun _ _ => 1
  | k + 1 => fun d m => if h : k < L then epsilon d m ⟨k, h⟩ * ctx epsilon x k m else 1

theorem cacheAt_read (epsilon : Fin D → Fin M → Fin L → ℂ) (x b : Fin L → Fin D) (i : Fin L)
    (h : ∀ j, j < i → b j = x j) (m : Fin M) : cacheAt epsilon x i (b (prevSite i)) m = ctx epsilon x i m := by
  rcases i with ⟨i, hi⟩
  cases i with
  | zero => simp [cacheAt, ctx]
  | succ k =>
    have hk : k < L := by omega
    have hp : prevSite ⟨k + 1, hi⟩ = ⟨k, hk⟩ := Fin.ext (prevSite_val (Nat.succ_pos k))
    have := ctx_succ epsilon x ⟨k, hk⟩ m
    rw [hp, h ⟨k, hk⟩ (Nat.lt_succ_self k)]
    simp only [cacheAt, hk, dif_pos]
    exact this.symm

theorem computeConditional_eq (f : Fields D M) (epsilon : Fin D → Fin M → Fin L → ℂ) (x b : Fin L → Fin D) (i : Fin L)
    (h : ∀ j, j < i → b j = x j) :
    computeConditional f epsilon ⟨cacheAt epsilon x i, storedSpins f x i⟩ b i =
      (⟨cacheAt epsilon x (i.val + 1), spinsAt f x i⟩, mask f (spinsAt f x i) i (qgpsVal f epsilon i x)) := by
  unfold computeConditional
  simp only [cacheAt_read epsilon x b i h]
  rw [bump_congr f _ b x i h, bump_stored]
  congr 2
  funext d m
  simp [cacheAt, i.isLt]

theorem arqGPS_good (f : Fields D M) (epsilon : Fin D → Fin M → Fin L → ℂ) :
    Good (arqGPS f epsilon) (qgpsVal f epsilon) := by
  refine ⟨?_, ?_, ?_⟩
  · intro x i
    have H : ∀ k, k ≤ L → scanState (scanStep f epsilon x) ⟨fun _ _ => 1, fun _ => 0⟩ k =
        ⟨cacheAt epsilon x k, storedSpins f x k⟩ := by
      intro k
      induction k with
      | zero => intro _; rw [stored_zero]; rfl
      | succ k ih =>
        intro hk
        rw [scanState_succ _ _ ⟨k, hk⟩, ih (by omega)]
        unfold scanStep
        have := computeConditional_eq f epsilon x x ⟨k, hk⟩ (fun _ _ => rfl)
        rw [this]
        dsimp only
        rw [stored_succ f x ⟨k, hk⟩]
    change scanOut (scanStep f epsilon x) _ i = _
    unfold scanOut
    change (scanStep f epsilon x (scanState (scanStep f epsilon x) ⟨fun _ _ => 1, fun _ => 0⟩ i) i).2 = _
    rw [H i (by omega)]
    unfold scanStep
    rw [computeConditional_eq f epsilon x x i (fun _ _ => rfl)]
    rfl
  · intro i x y h
    funext d
    unfold qgpsVal
    congr 1
    funext m
    rw [ctx_causal epsilon x y i h]
  · intro x bufs hb i
    have H : ∀ k, k ≤ L → scanState (fun c (i : Fin L) => conditional f epsilon c (bufs i) i)
        (fun _ _ => 1, if f.constrained then some fun _ => 0 else none) k =
        (cacheAt epsilon x k, if f.constrained then some (storedSpins f x k) else none) := by
      intro k
      induction k with
      | zero => intro _; rw [stored_zero]; rfl
      | succ k ih =>
        intro hk
        rw [scanState_succ _ _ ⟨k, hk⟩, ih (by omega)]
        have key := computeConditional_eq f epsilon x (bufs k) ⟨k, hk⟩ (hb ⟨k, hk⟩)
        have st := stored_succ f x ⟨k, hk⟩
        unfold conditional
        by_cases hc : f.constrained
        · rw [if_pos hc] at st
          simp only [hc, if_true]
          rw [key]
          dsimp only
          rw [st]
        · have h0 : storedSpins f x k = fun _ => 0 := by
            funext d; unfold storedSpins; rw [if_neg hc]
          simp only [hc]
          rw [h0] at key
          dsimp only at key ⊢
          rw [if_neg (by simp)]
          dsimp only
          rw [key]
          simp
    change scanOut (fun c (i : Fin L) => conditional f epsilon c (bufs i) i) _ i = _
    unfold scanOut
    change (conditional f epsilon (scanState (fun c (i : Fin L) => conditional f epsilon c (bufs i) i)
        (fun _ _ => 1, if f.constrained then some fun _ => 0 else none) i) (bufs i) i).2 = _
    rw [H i (by omega)]
    have key := computeConditional_eq f epsilon x (bufs i) i (hb i)
    unfold conditional
    by_cases hc : f.constrained
    · simp only [hc, if_true]
      rw [key]
      rfl
    · have h0 : storedSpins f x i = fun _ => 0 := by
        funext d; unfold storedSpins; rw [if_neg hc]
      rw [h0] at key
      simp only [hc]
      rw [if_neg (by simp)]
      dsimp only
      rw [key]
      rfl

end AR

namespace ARFull

/-- The unmasked values of `ARqGPSFull`. -/
def fullVal (f : Fields D M) (epsilon : Fin D → Fin M → ℕ → ℂ) (i : Fin L) (x : Fin L → Fin D) (d : Fin D) : ℂ :=
  f.out_transformation fun m => readPacked epsilon L d m (lowerIndex i + i.val) * contextProd epsilon x i m

theorem contextProd_causal (epsilon : Fin D → Fin M → ℕ → ℂ) (x y : Fin L → Fin D) (i : Fin L)
    (h : ∀ j, j < i → x j = y j) : contextProd epsilon x i = contextProd epsilon y i := by
  funext m
  unfold contextProd
  apply Finset.prod_congr rfl
  intro j _
  by_cases hj : j.val ≥ i.val
  · rw [if_pos hj, if_pos hj]
  · rw [if_neg hj, if_neg hj, h j (by rw [Fin.lt_def]; omega)]

theorem fullVal_causal (f : Fields D M) (epsilon : Fin D → Fin M → ℕ → ℂ) : Causal (L := L) (fullVal f epsilon) := by
  intro i x y h
  funext d
  unfold fullVal
  rw [contextProd_causal epsilon x y i h]

theorem arqGPSFull_good (f : Fields D M) (epsilon : Fin D → Fin M → ℕ → ℂ) :
    Good (L := L) (arqGPSFull f epsilon) (fullVal f epsilon) := by
  refine ⟨fun x i => ?_, fullVal_causal f epsilon, fun x bufs hb i => ?_⟩
  · exact stateless_log f (fullVal f epsilon) x i
  · exact stateless_cached f (fullVal f epsilon) (fullVal_causal f epsilon) x bufs hb i

end ARFull

namespace ARPlaquette

/-- The unmasked values of `ARPlaquetteqGPS`. -/
def plaqVal [NeZero L] (f : Fields D M) (epsilon : Fin D → Fin M → Fin L → ℂ) (pl : Plaquettes L) (i : Fin L)
    (x : Fin L → Fin D) (d : Fin D) : ℂ :=
  f.out_transformation fun m => epsilon d m 0 *
    ∏ k : Fin L, if pl.masks i k then epsilon (x (pl.plaquettes i k)) m k else 1

/-- The masks only keep filter positions that look back. -/
def Plaquettes.LookBack (pl : Plaquettes L) : Prop := ∀ i k, pl.masks i k = true → pl.plaquettes i k < i

theorem plaqVal_causal [NeZero L] (f : Fields D M) (epsilon : Fin D → Fin M → Fin L → ℂ) (pl : Plaquettes L)
    (hp : pl.LookBack) : Causal (plaqVal f epsilon pl) := by
  intro i x y h
  funext d
  unfold plaqVal
  congr 1
  funext m
  congr 1
  apply Finset.prod_congr rfl
  intro k _
  by_cases hk : pl.masks i k = true
  · rw [if_pos hk, if_pos hk, h _ (hp i k hk)]
  · rw [if_neg hk, if_neg hk]

theorem arPlaquette_good [NeZero L] (f : Fields D M) (epsilon : Fin D → Fin M → Fin L → ℂ) (pl : Plaquettes L)
    (hp : pl.LookBack) : Good (arPlaquette f epsilon pl) (plaqVal f epsilon pl) := by
  refine ⟨fun x i => ?_, plaqVal_causal f epsilon pl hp, fun x bufs hb i => ?_⟩
  · exact stateless_log f (plaqVal f epsilon pl) x i
  · exact stateless_cached f (plaqVal f epsilon pl) (plaqVal_causal f epsilon pl hp) x bufs hb i

theorem withMasks_lookBack (plaquettes : Fin L → Fin L → Fin L) : (withMasks plaquettes).LookBack := by
  intro i k h
  unfold withMasks at *
  dsimp only at *
  by_contra hc
  rw [Fin.lt_def] at hc
  rw [if_pos (by omega)] at h
  exact absurd h (by simp)

end ARPlaquette
end GPSKet
