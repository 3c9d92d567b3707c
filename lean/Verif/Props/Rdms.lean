import Verif.Model.Rdms
import Verif.Spec.Rdm
import Verif.Lemmas.FockAlg
import Verif.Props.AbInitioOnTheFly

/-!
# C93: the local reduced density matrices are local estimators of the density matrices
-/

namespace GPSKet.Rdms

open Spec

variable {L : ℕ} {Cache : Type}

theorem pairOp_eq (p q r s : Fin L) : pairOp p q r s = exc p q * exc r s - if q = r then exc p s else 0 := by
  unfold pairOp exc
  have hm : ∀ (σ τ : Bool) (i j : Fin L), mode σ i = mode τ j ↔ σ = τ ∧ i = j := by
    intro σ τ i j; unfold mode; rw [toLex_inj, Prod.mk.injEq]
  simp only [Finset.sum_mul_sum, bil_mul, hm, Finset.sum_add_distrib]
  by_cases h : q = r
  · simp [h]
  · simp [h]

theorem localEnergy_add {C : Type} [Fintype C] (a b : C → ℂ) (l : C → ℂ) (x : C) :
    localEnergy (fun x' => a x' + b x') l x = localEnergy a l x + localEnergy b l x := by
  unfold localEnergy; simp only [add_mul, Finset.sum_add_distrib]

/-- **C93**: the one-body array of a sample is the local estimator of `E_pq`, entry by entry, for every wave function and sample. -/
theorem C93_one (src : AmpSource L (Fin 4) Cache) (x : Cfg L) (hs : src.OkPaddedAt x) (p q : Fin L) :
    (abLocalRDMs src (numElec false x, numElec true x) x).1 (p, q)
      = localEnergy (fun x' => (exc p q (occOf x) (occOf x') : ℂ)) src.logAmp x := by
  have h := C15_contract_operator src (fun a b => if (a, b) = (p, q) then (1 : ℂ) else 0) (fun _ _ _ _ => 0) (fun _ _ _ _ => rfl) x hs
  simp only [abT, zero_mul, Finset.sum_const_zero, add_zero, mul_zero, sub_zero, Prod.mk.eta, ite_mul, one_mul,
    Finset.sum_ite_eq', Finset.mem_univ, if_true] at h
  rw [h]
  congr 1
  funext x'
  have : abInitioTwice (fun a b => if (a, b) = (p, q) then (1 : ℂ) else 0) (fun _ _ _ _ => 0) = (2 : ℂ) • toK ℂ (exc p q) := by
    unfold abInitioTwice
    simp only [zero_smul, Finset.sum_const_zero, add_zero, Prod.mk.injEq, mul_ite, mul_one, mul_zero, ite_smul]
    rw [Finset.sum_eq_single p, Finset.sum_eq_single q]
    · simp
    · intro b _ hb; simp [hb]
    · simp
    · intro b _ hb; simp [hb]
    · simp
  rw [this, Matrix.smul_apply, toK, Matrix.map_apply, smul_eq_mul]
  ring

theorem sum4_single (p q r s : Fin L) {M : Type} [AddCommMonoid M] (f : Fin L → Fin L → Fin L → Fin L → M) :
    (∑ a, ∑ b, ∑ c, ∑ d, if (a, b, c, d) = (p, q, r, s) then f a b c d else 0) = f p q r s := by
  rw [Finset.sum_eq_single p, Finset.sum_eq_single q, Finset.sum_eq_single r, Finset.sum_eq_single s]
  · simp
  · intro b _ hb; simp [hb]
  · simp
  · intro b _ hb; simp [hb]
  · simp
  · intro b _ hb; simp [hb]
  · simp
  · intro b _ hb; simp [hb]
  · simp

theorem toK_add' (A B : Op L) : toK ℂ B + toK ℂ (A - B) = toK ℂ A := by
  ext i j; simp [toK]

/-- With the one-body part that the interaction in the order `E_pq E_rs` needs, the Hamiltonian is `½ Σ (pq|rs) E_pq E_rs`. -/
theorem twice_products (e : Fin L → Fin L → Fin L → Fin L → ℂ) :
    abInitioTwice (fun a b => 1 / 2 * ∑ c, e a c c b) e = ∑ a, ∑ b, ∑ c, ∑ d, e a b c d • toK ℂ (exc a b * exc c d : Op L) := by
  unfold abInitioTwice
  have e1 : (∑ a, ∑ b, (2 * (1 / 2 * ∑ c, e a c c b)) • toK ℂ (exc a b : Op L))
      = ∑ a, ∑ b, ∑ c, ∑ d, e a b c d • toK ℂ (if b = c then exc a d else 0 : Op L) := by
    refine Finset.sum_congr rfl fun a _ => ?_
    have h1 : ∀ b, (2 * (1 / 2 * ∑ c, e a c c b)) • toK ℂ (exc a b : Op L) = ∑ c, e a c c b • toK ℂ (exc a b : Op L) := by
      intro b
      rw [← Finset.sum_smul]
      congr 1
      ring
    rw [Finset.sum_congr rfl fun b _ => h1 b, Finset.sum_comm]
    refine Finset.sum_congr rfl fun b _ => ?_
    rw [Finset.sum_comm]
    refine Finset.sum_congr rfl fun d _ => ?_
    rw [Finset.sum_eq_single b]
    · rw [if_pos rfl]
    · intro c _ hc
      rw [if_neg (Ne.symm hc)]
      ext i j
      simp [toK]
    · simp
  rw [e1, ← Finset.sum_add_distrib]
  refine Finset.sum_congr rfl fun a _ => ?_
  rw [← Finset.sum_add_distrib]
  refine Finset.sum_congr rfl fun b _ => ?_
  rw [← Finset.sum_add_distrib]
  refine Finset.sum_congr rfl fun c _ => ?_
  rw [← Finset.sum_add_distrib]
  refine Finset.sum_congr rfl fun d _ => ?_
  rw [← smul_add, toK_add']

/-- Contraction of the two-body array of a sample with a symmetric tensor. -/
theorem contract_two (src : AmpSource L (Fin 4) Cache) (x : Cfg L) (hs : src.OkPaddedAt x)
    (e : Fin L → Fin L → Fin L → Fin L → ℂ) (hsym : ∀ p q r s, e p q r s = e r s p q) :
    (∑ u : Fin L × Fin L × Fin L × Fin L, e u.1 u.2.1 u.2.2.1 u.2.2.2 * (abLocalRDMs src (numElec false x, numElec true x) x).2 u)
      = localEnergy (fun x' => 1 / 2 * (∑ a, ∑ b, ∑ c, ∑ d, e a b c d • toK ℂ (exc a b * exc c d : Op L)) (occOf x) (occOf x'))
          src.logAmp x := by
  have h := C15_contract_operator src (fun a b => 1 / 2 * ∑ c, e a c c b) e hsym x hs
  have hT : ∀ a b, abT (fun a b => 1 / 2 * ∑ c, e a c c b) e a b = 0 := fun a b => sub_self _
  rw [twice_products] at h
  rw [← h, right_eq_add]
  exact Finset.sum_eq_zero fun u _ => by rw [hT, zero_mul]

theorem tensor_sum (p q r s : Fin L) : (∑ a, ∑ b, ∑ c, ∑ d, ((if (a, b, c, d) = (p, q, r, s) then (1 : ℂ) else 0)
      + if (a, b, c, d) = (r, s, p, q) then 1 else 0) • toK ℂ (exc a b * exc c d : Op L))
      = toK ℂ (exc p q * exc r s + exc r s * exc p q) := by
  simp only [add_smul, ite_smul, one_smul, zero_smul, Finset.sum_add_distrib]
  rw [sum4_single p q r s (fun a b c d => toK ℂ (exc a b * exc c d)), sum4_single r s p q (fun a b c d => toK ℂ (exc a b * exc c d))]
  ext i j; simp [toK]

/-- **C93**: the symmetrised two-body array of a sample is the local estimator of `½ (E_pq E_rs + E_rs E_pq)`, entry by entry. -/
theorem C93_two (src : AmpSource L (Fin 4) Cache) (x : Cfg L) (hs : src.OkPaddedAt x) (p q r s : Fin L) :
    (abLocalRDMs src (numElec false x, numElec true x) x).2 (p, q, r, s)
      + (abLocalRDMs src (numElec false x, numElec true x) x).2 (r, s, p, q)
      = localEnergy (fun x' => 1 / 2 * ((exc p q * exc r s + exc r s * exc p q) (occOf x) (occOf x') : ℤ)) src.logAmp x := by
  have h := contract_two src x hs (fun a b c d =>
    (if (a, b, c, d) = (p, q, r, s) then 1 else 0) + if (a, b, c, d) = (r, s, p, q) then 1 else 0) (by
    intro a b c d
    simp only [Prod.mk.injEq]
    rw [add_comm]
    congr 1
    · exact if_congr ⟨fun h => ⟨h.2.2.1, h.2.2.2, h.1, h.2.1⟩, fun h => ⟨h.2.2.1, h.2.2.2, h.1, h.2.1⟩⟩ rfl rfl
    · exact if_congr ⟨fun h => ⟨h.2.2.1, h.2.2.2, h.1, h.2.1⟩, fun h => ⟨h.2.2.1, h.2.2.2, h.1, h.2.1⟩⟩ rfl rfl)
  rw [tensor_sum] at h
  rw [show (fun x' => 1 / 2 * (((exc p q * exc r s + exc r s * exc p q) (occOf x) (occOf x') : ℤ) : ℂ))
    = fun x' => 1 / 2 * toK ℂ (exc p q * exc r s + exc r s * exc p q) (occOf x) (occOf x') from rfl, ← h]
  simp only [Prod.mk.eta, add_mul, Finset.sum_add_distrib, ite_mul, one_mul, zero_mul, Finset.sum_ite_eq', Finset.mem_univ, if_true]

end GPSKet.Rdms
