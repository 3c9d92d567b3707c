import Verif.Model.BackflowScript
import Verif.Props.SlaterState
import Verif.Spec.HartreeFock

/-! # Lemmas: models built by the backflow script -/

namespace GPSKet.BackflowScript
open Spec

variable {L R N M K nu nd n : ℕ}

/-- The array that holds a matrix. -/
def toArr (c : Matrix (Fin L) (Fin L) ℂ) : Arr := ⟨L, L, fun i j => if h : i < L ∧ j < L then c ⟨i, h.1⟩ ⟨j, h.2⟩ else 0⟩

theorem toArr_get (c : Matrix (Fin L) (Fin L) ℂ) (i j : Fin L) : (toArr c).get i j = c i j := by
  simp [toArr]

theorem toArr_get' (c : Matrix (Fin L) (Fin L) ℂ) (i : Fin L) (j : ℕ) (h : j < L) : (toArr c).get i j = c i ⟨j, h⟩ := by
  simp [toArr, h]

theorem siteProd_init [NeZero L] {S : ℕ} (phi : Arr) (x : Cfg L) (m : Fin S) :
    QGPS.siteProd (gps (initEpsilon phi 0)) x m () =
      if m.val < phi.rows * phi.cols then phi.get (m.val / phi.cols) (m.val % phi.cols) else 0 := by
  unfold QGPS.siteProd gps initEpsilon
  rw [Finset.prod_eq_single (0 : Fin L)]
  · simp
  · intro i _ hi
    simp [hi]
  · simp

/-- At the start every correction is the orbital itself. -/
theorem correction_init [NeZero L] (hM : 0 < M) (phi : Arr) (hr : phi.rows = R) (hc : phi.cols = N) (x : Cfg L) (α : Fin R) (k : Fin N) :
    (correction (M := M) (initEpsilon phi 0)).full x α k () = phi.get α k := by
  unfold correction outTrafo
  simp only [siteProd_init, hr, hc]
  have hN : 0 < N := Fin.pos k
  rw [Finset.sum_eq_single (⟨0, hM⟩ : Fin M)]
  · have h1 : (finProdFinEquiv ((⟨0, hM⟩ : Fin M), finProdFinEquiv (α, k)) : Fin (M * (R * N))).val = k.val + N * α.val := by
      simp [finProdFinEquiv]
    have h2 : k.val + N * α.val < R * N := by
      have := (finProdFinEquiv (α, k) : Fin (R * N)).isLt
      simpa [finProdFinEquiv] using this
    rw [h1, if_pos h2, Nat.add_mul_div_left _ _ hN, Nat.div_eq_of_lt k.isLt, Nat.add_mul_mod_self_left, Nat.mod_eq_of_lt k.isLt, zero_add]
  · intro m _ hm
    have hm' : 0 < m.val := by
      rcases Nat.eq_zero_or_pos m.val with h | h
      · exact absurd (Fin.ext h) hm
      · exact h
    rw [if_neg]
    simp only [finProdFinEquiv, Equiv.coe_fn_mk, not_lt]
    calc R * N ≤ R * N * m.val := Nat.le_mul_of_pos_right _ hm'
      _ ≤ _ := Nat.le_add_left _ _
  · simp

theorem cutoffOrbitals_init [NeZero K] [NeZero M] (phi : Arr) (env : Fin L → Fin K → Fin L) (x : Cfg L) (α : Fin L) (k : Fin N) :
    cutoffOrbitals (M := M) (initCutoff phi 0) env x α k = phi.get α k := by
  unfold cutoffOrbitals initCutoff
  rw [Finset.sum_eq_single (0 : Fin M), Finset.prod_eq_single (0 : Fin K)]
  · simp
  · intro i _ hi
    simp [hi]
  · simp
  · intro m _ hm
    have hm' : m.val ≠ 0 := fun h => hm (Fin.ext h)
    rw [Finset.prod_eq_zero (i := (0 : Fin K)) (by simp)]
    simp [hm']
  · simp

/-- The model for orbitals of the right shape: restricted. -/
theorem full_restricted [NeZero L] (hM : 0 < M) (phi : Arr) (hr : phi.rows = L) (hc : phi.cols = n) (x : Cfg L)
    (hx : numElec false x = n ∧ numElec true x = n) :
    (Backflow.model (backflow (M := M) (.restricted n) (initEpsilon phi 0))).full x =
      Complex.log (upDownState (fun (i : Fin L) (k : Fin n) => phi.get i k) (fun (i : Fin L) (k : Fin n) => phi.get i k) (occOf x)) := by
  have := SlaterAmplitudes.C105_backflow_restricted (correction (M := M) (initEpsilon phi 0)) none (fun (_ : Unit) i => i) (fun _ i => i)
    (fun _ _ => rfl) x hx
  unfold backflow
  rw [this]
  simp [Backflow.correctedOrbital, correction_init hM phi hr hc]

/-- The model for orbitals of the right shape: unrestricted. -/
theorem full_unrestricted [NeZero L] (hM : 0 < M) (phi : Arr) (hr : phi.rows = L) (hc : phi.cols = nu + nd) (x : Cfg L)
    (hx : numElec false x = nu ∧ numElec true x = nd) :
    (Backflow.model (backflow (M := M) (.unrestricted nu nd) (initEpsilon phi 0))).full x =
      Complex.log (upDownState (fun (i : Fin L) (k : Fin nu) => phi.get i k) (fun (i : Fin L) (k : Fin nd) => phi.get i (nu + k.val)) (occOf x)) := by
  have := SlaterAmplitudes.C105_backflow_unrestricted (correction (M := M) (initEpsilon phi 0)) none (fun (_ : Unit) i => i) (fun _ i => i)
    (fun _ _ => rfl) x hx
  unfold backflow
  rw [this]
  simp [-Fin.natAdd_eq_addNat, Backflow.correctedOrbital, correction_init hM phi hr hc]

/-- The model for orbitals of the right shape: generalised. -/
theorem full_generalised [NeZero L] (hM : 0 < M) (phi : Arr) (hr : phi.rows = L + L) (hc : phi.cols = nu + nd) (x : Cfg L)
    (hx : numElec false x = nu ∧ numElec true x = nd) :
    (Backflow.model (backflow (M := M) (.generalised nu nd) (initEpsilon phi 0))).full x =
      Complex.log (slaterState (List.ofFn fun (k : Fin (nu + nd)) => stacked fun (r : Fin (L + L)) => phi.get r k) (occOf x)) := by
  have := SlaterAmplitudes.C105_backflow_generalised (correction (M := M) (initEpsilon phi 0)) none (fun (_ : Unit) i => i) (fun _ i => i)
    (fun _ _ => rfl) x hx
  unfold backflow
  rw [this]
  have hm : ∀ u : Fin (L + L) → ℂ, SlaterAmplitudes.movedBy (fun i : Fin L => i) u = u := by
    intro u
    funext r
    unfold SlaterAmplitudes.movedBy
    induction r using Fin.addCases with
    | left i => simp [-Fin.natAdd_eq_addNat]
    | right i => simp [-Fin.natAdd_eq_addNat]
  simp [-Fin.natAdd_eq_addNat, Backflow.correctedOrbital, correction_init hM phi hr hc, hm]

/-- The determinants of given orbitals, restricted. -/
theorem logDet_restricted [NeZero L] (o : Fin L → Fin n → ℂ) (x : Cfg L) (hx : numElec false x = n ∧ numElec true x = n) :
    CPDBackflow.logDet (.restricted n) o (Electrons.occupanciesToElectrons [x] n n 0) = Complex.log (upDownState o o (occOf x)) := by
  have h := SlaterAmplitudes.C105_cpd_restricted (M := 1) (fun α k _ _ β => if β = 0 then o α k else 1) x hx
  have e : ∀ α k, (∑ _m : Fin 1, ∏ β : Fin L, if β = 0 then o α k else 1) = o α k := by
    intro α k
    simp
  have e1 : CPDBackflow.cpdOrbital (M := 1) (fun α k _ _ β => if β = 0 then o α k else 1) x = o := by
    funext α k
    exact e α k
  have e2 : CPDBackflow.orbitals (CPDBackflow.siteProducts (M := 1) (fun α k _ _ β => if β = 0 then o α k else 1) x) = o := by
    funext α k
    exact e α k
  rw [e1] at h
  rw [← h]
  unfold CPDBackflow.model
  dsimp only
  rw [e2]

/-- The determinants of given orbitals, unrestricted. -/
theorem logDet_unrestricted [NeZero L] (o : Fin L → Fin (nu + nd) → ℂ) (x : Cfg L) (hx : numElec false x = nu ∧ numElec true x = nd) :
    CPDBackflow.logDet (.unrestricted nu nd) o (Electrons.occupanciesToElectrons [x] nu nd 0) =
      Complex.log (upDownState (fun i k => o i (Fin.castAdd nd k)) (fun i k => o i (Fin.natAdd nu k)) (occOf x)) := by
  have h := SlaterAmplitudes.C105_cpd_unrestricted (M := 1) (fun α k _ _ β => if β = 0 then o α k else 1) x hx
  have e : ∀ α k, (∑ _m : Fin 1, ∏ β : Fin L, if β = 0 then o α k else 1) = o α k := by
    intro α k
    simp
  have e1 : CPDBackflow.cpdOrbital (M := 1) (fun α k _ _ β => if β = 0 then o α k else 1) x = o := by
    funext α k
    exact e α k
  have e2 : CPDBackflow.orbitals (CPDBackflow.siteProducts (M := 1) (fun α k _ _ β => if β = 0 then o α k else 1) x) = o := by
    funext α k
    exact e α k
  rw [e1] at h
  rw [← h]
  unfold CPDBackflow.model
  dsimp only
  rw [e2]

end GPSKet.BackflowScript
