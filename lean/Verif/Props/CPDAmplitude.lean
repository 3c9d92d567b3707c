import Verif.Props.Backflow

/-!
# C71: amplitudes of the CPD backflow model
-/

namespace GPSKet.CPDBackflow
open Spec Electrons Backflow

variable {L R N M n n_up n_down : ℕ}

/-- Specification: the configuration-dependent orbital `k` at the (spin-)orbital `α`, a sum over `m` of products over the sites. -/
def cpdOrbital (eps : Eps L R N M) (x : Cfg L) (α : Fin R) (k : Fin N) : ℂ := ∑ m, ∏ β, eps α k (x β) m β

/-- **C71**, restricted orbitals: the returned value is the logarithm of the product of the up and the down determinant of the
orbitals at the electron positions. -/
theorem C71_restricted (eps : Eps L L n M) (x : Cfg L) (up dn : Fin n → Fin L) (h : Enumerates x up dn) :
    (model (.restricted n) eps).full x = Complex.log
      ((Matrix.of fun i j => cpdOrbital eps x (up i) j).det * (Matrix.of fun i j => cpdOrbital eps x (dn i) j).det) := by
  change logDet (.restricted n) (orbitals (siteProducts eps x)) (occupanciesToElectrons [x] n n 0) = _
  rw [h.electrons]
  unfold logDet
  dsimp only
  rw [List.take_left' (by simp), List.drop_left' (by simp)]
  congr 3
  · funext i j; exact take_ofFn' _ _ i j _ rfl
  · funext i j; exact take_ofFn' _ _ i j _ rfl

/-- **C71**, unrestricted orbitals: the first columns belong to the up, the others to the down electrons. -/
theorem C71_unrestricted (eps : Eps L L (n_up + n_down) M) (x : Cfg L) (up : Fin n_up → Fin L) (dn : Fin n_down → Fin L) (h : Enumerates x up dn) :
    (model (.unrestricted n_up n_down) eps).full x = Complex.log
      ((Matrix.of fun i j => cpdOrbital eps x (up i) (Fin.castAdd n_down j)).det *
        (Matrix.of fun i j => cpdOrbital eps x (dn i) (Fin.natAdd n_up j)).det) := by
  change logDet (.unrestricted n_up n_down) (orbitals (siteProducts eps x)) (occupanciesToElectrons [x] n_up n_down 0) = _
  rw [h.electrons]
  unfold logDet
  dsimp only
  rw [List.take_left' (by simp), List.drop_left' (by simp)]
  congr 3
  · funext i j; exact take_ofFn' _ _ i _ _ rfl
  · funext i j; exact take_ofFn' _ _ i _ _ rfl

/-- **C71**, generalised orbitals: one determinant over the occupied spin-orbitals. -/
theorem C71_generalised (eps : Eps L (L + L) (n_up + n_down) M) (x : Cfg L) (up : Fin n_up → Fin L) (dn : Fin n_down → Fin L)
    (h : Enumerates x up dn) :
    (model (.generalised n_up n_down) eps).full x = Complex.log (Matrix.of fun (i j : Fin (n_up + n_down)) => cpdOrbital eps x
      (Fin.addCases (motive := fun _ => Fin (L + L)) (fun i => Fin.castAdd L (up i)) (fun i => Fin.natAdd L (dn i)) i) j).det := by
  change logDet (.generalised n_up n_down) (orbitals (siteProducts eps x)) (occupanciesToElectrons [x] n_up n_down 0) = _
  rw [h.electrons]
  unfold logDet
  dsimp only
  rw [List.take_left' (by simp), List.drop_left' (by simp)]
  congr 3
  funext i j
  have e2 : (List.ofFn fun n => (dn n).val).map (· + L) = List.ofFn fun n => (dn n).val + L := by
    rw [List.map_ofFn]; rfl
  rw [e2]
  induction i using Fin.addCases with
  | left i =>
    rw [Fin.addCases_left]
    exact take_ofFn _ _ _ i j _ rfl
  | right i =>
    rw [Fin.addCases_right]
    unfold take
    have e : ((List.ofFn fun n => (up n).val) ++ List.ofFn fun n => (dn n).val + L).getD (Fin.natAdd n_up i).val 0 =
        (Fin.natAdd L (dn i)).val := by
      rw [List.getD_append_right _ _ _ _ (by simp), List.getD_eq_getElem _ _ (by simp), List.getElem_ofFn]
      simp [Nat.add_comm]
    rw [dif_pos (by rw [e]; exact Fin.isLt _)]
    change orbitals (siteProducts eps x) ⟨_, _⟩ j = orbitals (siteProducts eps x) (Fin.natAdd L (dn i)) j
    congr 1
    exact Fin.ext e

/-- Two sites, one electron of each spin: the hypotheses hold and the value is the logarithm of a non-trivial product. -/
example : (model (.restricted 1) (fun α _ d _ β => (α.val + d.val + β.val + 1 : ℕ) : Eps 2 2 1 1)).full ![3, 0] = Complex.log (8 * 8) := by
  rw [C71_restricted _ _ (fun _ => 0) (fun _ => 0) ⟨fun a b h => absurd h (by simp [Subsingleton.elim a b]),
    fun a b h => absurd h (by simp [Subsingleton.elim a b]), by decide, by decide⟩]
  simp [cpdOrbital, Fin.prod_univ_two]
  norm_num

end GPSKet.CPDBackflow
