import Verif.Lemmas.Reference

/-!
# C120: Pfaffian models are pair states

The amplitudes of the Pfaffian models are those of `(1/n!) (Σ_pq F_pq c†_p c†_q)ⁿ |0⟩`, with the creation operators in terms of which the
Hamiltonians are stated (C04, C13).
-/

namespace GPSKet.Reference
open Spec Pfaffian Backflow SlaterAmplitudes

variable {L n : ℕ}

/-- The spin-orbital with a number: the first `L` numbers are up orbitals, the others down orbitals. -/
def toMode : Fin L ⊕ Fin L → Mode L
  | .inl i => mode false i
  | .inr i => mode true i

/-- The matrix of a pairing function. -/
def pairingMatrix (F : Mode L → Mode L → ℂ) : Matrix (Fin L ⊕ Fin L) (Fin L ⊕ Fin L) ℂ := Matrix.of fun a b => F (toMode a) (toMode b)

theorem pf_pairState (F : Mode L → Mode L → ℂ) (s : Occ (Mode L)) (y : Fin (2 * n) → Fin L ⊕ Fin L)
    (hy : StrictMono fun i => toMode (y i)) (hs : ∀ p, s p = true ↔ ∃ i, toMode (y i) = p) :
    pfaffian (skewOcc (pairingMatrix F) y) = pairState F n s := by
  rw [pairState_pf F n s (fun i => toMode (y i)) hy hs]
  rfl

/-- **C120**, the Pfaffian of any pairing of spin-orbitals (`PfaffianState`), for any configuration with an even number of electrons
whose spin-orbitals are listed in ascending order: wherever the amplitude of the pair state is not zero, it is the amplitude of the model. -/
theorem C120_partial (F : Mode L → Mode L → ℂ) (x : Cfg L) (y : Fin (2 * n) → Fin L ⊕ Fin L)
    (hy : StrictMono fun i => toMode (y i)) (hx : ∀ p, occOf x p = true ↔ ∃ i, toMode (y i) = p)
    (h0 : pairState F n (occOf x) ≠ 0) :
    (stateVal (pairingMatrix F) y).amp = some (pairState F n (occOf x)) := by
  rw [← pf_pairState F (occOf x) y hy hx] at h0 ⊢
  exact stateVal_amp _ y h0

/-- **C120**, where the amplitude of the pair state vanishes: the model gives zero, or NaN if there are at least four electrons (see C42). -/
theorem C120_partial_zero (F : Mode L → Mode L → ℂ) (x : Cfg L) (y : Fin (2 * n) → Fin L ⊕ Fin L)
    (hy : StrictMono fun i => toMode (y i)) (hx : ∀ p, occOf x p = true ↔ ∃ i, toMode (y i) = p)
    (h0 : pairState F n (occOf x) = 0) :
    (stateVal (pairingMatrix F) y).amp = some 0 ∨ (stateVal (pairingMatrix F) y).amp = none ∧ 2 ≤ n := by
  rw [← pf_pairState F (occOf x) y hy hx] at h0
  rcases (logPfaffian_spec _ (skewOcc_skew (pairingMatrix F) y)).2 h0 with h | ⟨h, hn⟩
  · left; rw [stateVal, h]; rfl
  · right; exact ⟨by rw [stateVal, h]; rfl, hn⟩

theorem positions_toMode [NeZero L] {x : Cfg L} {up dn : Fin n → Fin L} (h : Enumerates x up dn) :
    (StrictMono fun i => toMode (positions n x i)) ∧ ∀ p, occOf x p = true ↔ ∃ i, toMode (positions n x i) = p := by
  have e : ∀ i : Fin (n + n), toMode (positions n x (finCongr (two_mul n).symm i)) = upDown up dn i := by
    intro i
    induction i using Fin.addCases with
    | left i =>
      have := positions_inl h i
      change positions n x (finCongr (two_mul n).symm (Fin.castAdd n i)) = _ at this
      rw [this]
      simp [upDown, toMode]
    | right i =>
      have := positions_inr h i
      change positions n x (finCongr (two_mul n).symm (Fin.natAdd n i)) = _ at this
      rw [this]
      simp [-Fin.natAdd_eq_addNat, upDown, toMode]
  constructor
  · intro a b hab
    obtain ⟨a, rfl⟩ := (finCongr (two_mul n).symm).surjective a
    obtain ⟨b, rfl⟩ := (finCongr (two_mul n).symm).surjective b
    dsimp only
    rw [e, e]
    exact upDown_strictMono h.up_mono h.dn_mono hab
  · intro p
    rw [upDown_occ x h.up_iff h.dn_iff p]
    constructor
    · rintro ⟨i, rfl⟩; exact ⟨_, e i⟩
    · rintro ⟨i, rfl⟩
      obtain ⟨i, rfl⟩ := (finCongr (two_mul n).symm).surjective i
      exact ⟨i, (e i).symm⟩

theorem rotated_pairing (f : Matrix (Fin L) (Fin L) ℂ) (θ : ℝ) : rotated f θ = pairingMatrix (rotatedPairs f θ) := by
  have h : ∀ a b, rotated f θ a b = rotatedPairs f θ (toMode a) (toMode b) := by
    intro a b
    rcases a with a | a <;> rcases b with b | b
    · change -f a b * Real.cos (θ / 2) * Real.sin (θ / 2) = Real.cos (θ / 2) * -Real.sin (θ / 2) * f a b
      ring
    · change f a b * Real.cos (θ / 2) * Real.cos (θ / 2) = Real.cos (θ / 2) * Real.cos (θ / 2) * f a b
      ring
    · change -f a b * Real.sin (θ / 2) * Real.sin (θ / 2) = Real.sin (θ / 2) * -Real.sin (θ / 2) * f a b
      ring
    · change f a b * Real.cos (θ / 2) * Real.sin (θ / 2) = Real.sin (θ / 2) * Real.cos (θ / 2) * f a b
      ring
  exact Matrix.ext h

/-- **C120** fails where the orbitals that are occupied, at least four, are not paired: the amplitude of the pair state is zero, that of the
model NaN. -/
theorem C120_fails (F : Mode L → Mode L → ℂ) (x : Cfg L) (y : Fin (2 * n) → Fin L ⊕ Fin L)
    (hy : StrictMono fun i => toMode (y i)) (hx : ∀ p, occOf x p = true ↔ ∃ i, toMode (y i) = p) (hn : 2 ≤ n)
    (h0 : ∀ p q, occOf x p = true → occOf x q = true → F p q = 0) :
    pairState F n (occOf x) = 0 ∧ (stateVal (pairingMatrix F) y).amp = none := by
  have e : skewOcc (pairingMatrix F) y = 0 := by
    ext i j
    have h : ∀ i j, F (toMode (y i)) (toMode (y j)) = 0 := fun i j => h0 _ _ ((hx _).mpr ⟨i, rfl⟩) ((hx _).mpr ⟨j, rfl⟩)
    have h1 := h i j
    have h2 := h j i
    show F _ _ - F _ _ = 0
    rw [h1, h2, sub_zero]
  obtain ⟨-, h1, h2⟩ := C42_singular_fails hn
  refine ⟨?_, ?_⟩
  · rw [← pf_pairState F (occOf x) y hy hx, e, h1]
  · rw [stateVal, e, h2]
    rfl

/-- **C120**, the zero-magnetisation Pfaffian of the scripts, for every configuration with `n` up and `n` down electrons: the amplitude is
that of the sum of the rotated pair states, with the characters of the spin projection as weights (non-negative characters, as those of
the Gauss-Legendre quadrature; non-zero amplitudes, see C42). -/
theorem C120_partial_zero_magnetization [NeZero L] (f : Matrix (Fin L) (Fin L) ℂ) (S2 : List (ℝ × ℝ)) (hc : ∀ ac ∈ S2, 0 ≤ ac.2)
    (x : Cfg L) (hx : numElec false x = n ∧ numElec true x = n)
    (h0 : ∀ ac ∈ S2, pairState (rotatedPairs f ac.1) n (occOf x) ≠ 0) :
    pfaffianPart n f S2 x = some (S2.map fun ac => (ac.2 : ℂ) * pairState (rotatedPairs f ac.1) n (occOf x)).sum := by
  obtain ⟨up, dn, h⟩ := exists_enumerates hx
  obtain ⟨h1, h2⟩ := positions_toMode h
  have hp : ∀ θ, pfaffian (skewOcc (rotated f θ) (positions n x)) = pairState (rotatedPairs f θ) n (occOf x) := fun θ => by
    rw [rotated_pairing, pf_pairState _ _ _ h1 h2]
  unfold pfaffianPart
  rw [C65_zero_magnetization f S2 hc _ (by simpa [hp] using h0)]
  simp [hp]

/-- **C120**: without spin projection the model is the state `(1/n!) (Σ_ij f_ij c†_{i↑} c†_{j↓})ⁿ |0⟩`. -/
theorem C120_partial_unprojected [NeZero L] (f : Matrix (Fin L) (Fin L) ℂ) (x : Cfg L) (hx : numElec false x = n ∧ numElec true x = n)
    (h0 : pairState (opposite f) n (occOf x) ≠ 0) : pfaffianPart n f [(0, 1)] x = some (pairState (opposite f) n (occOf x)) := by
  have e : rotatedPairs f 0 = opposite f := by
    funext p q
    unfold rotatedPairs opposite rotY
    rcases (ofLex p).1 <;> rcases (ofLex q).1 <;> simp
  rw [C120_partial_zero_magnetization f _ (by simp) x hx (by simpa [e] using h0)]
  simp [e]

end GPSKet.Reference
