import Verif.Model.Jastrow
import Verif.Props.Electrons
import Mathlib.Data.Fin.VecNotation

/-!
# C59: the Jastrow factor
-/

namespace GPSKet.Jastrow
open Spec Electrons

variable {L : ℕ} {ι : Type} [Fintype ι]

/-- Indicator that site `i` has no electron of spin `s`. -/
def hole (s : Bool) (x : Cfg L) (i : Fin L) : ℂ := if hasSpin s (x i) then 0 else 1

theorem one_sub_up (x : Cfg L) (i : Fin L) : 1 - (upOcc x i : ℂ) = hole false x i := by
  unfold upOcc hole; rw [show Electrons.bit false (x i) = hasSpin false (x i) from by generalize x i = v; revert v; decide]; split <;> simp

theorem one_sub_dn (x : Cfg L) (i : Fin L) : 1 - (dnOcc x i : ℂ) = hole true x i := by
  unfold dnOcc hole; rw [show Electrons.bit true (x i) = hasSpin true (x i) from by generalize x i = v; revert v; decide]; split <;> simp

/-- **C59**, closed form: the sum over the images of the configuration and over pairs of sites of the kernel entry for each
(no up electron here, no down electron there). -/
theorem C59_closed_form (mod : Module L ι) (x : Cfg L) :
    call mod x = ∑ t, ∑ i, ∑ j, mod.kernel i j *
      (hole false (mod.apply_symmetries x t) i * hole true (mod.apply_symmetries x t) j +
        hole true (mod.apply_symmetries x t) i * hole false (mod.apply_symmetries x t) j) := by
  unfold call
  refine Finset.sum_congr rfl fun t _ => ?_
  dsimp only
  simp only [one_sub_up, one_sub_dn]
  set u := hole false (mod.apply_symmetries x t)
  set d := hole true (mod.apply_symmetries x t)
  have h1 : ∑ i, ∑ j, u i * (mod.kernel i j + mod.kernel j i) * d j =
      ∑ i, ∑ j, u i * mod.kernel i j * d j + ∑ i, ∑ j, u i * mod.kernel j i * d j := by
    rw [← Finset.sum_add_distrib]
    refine Finset.sum_congr rfl fun i _ => ?_
    rw [← Finset.sum_add_distrib]
    refine Finset.sum_congr rfl fun j _ => ?_
    ring
  rw [h1, Finset.sum_comm (f := fun i j => u i * mod.kernel j i * d j), ← Finset.sum_add_distrib]
  refine Finset.sum_congr rfl fun i _ => ?_
  rw [← Finset.sum_add_distrib]
  refine Finset.sum_congr rfl fun j _ => ?_
  ring

/-- **C59**: only the symmetric part of the kernel matters. -/
theorem C59_symmetric_kernel (mod : Module L ι) (x : Cfg L) :
    call mod x = call { mod with kernel := fun i j => (mod.kernel i j + mod.kernel j i) / 2 } x ∧
    call mod x = call { mod with kernel := fun i j => mod.kernel j i } x := by
  unfold call
  dsimp only
  constructor
  · refine Finset.sum_congr rfl fun t _ => Finset.sum_congr rfl fun i _ => Finset.sum_congr rfl fun j _ => ?_
    ring
  · refine Finset.sum_congr rfl fun t _ => Finset.sum_congr rfl fun i _ => Finset.sum_congr rfl fun j _ => ?_
    ring

/-- **C59**: exchanging the spins of all electrons leaves the value unchanged, if the symmetry operations commute with the
exchange. -/
theorem C59_spin_flip (mod : Module L ι) (x y : Cfg L)
    (hxy : ∀ t s i, hasSpin s (mod.apply_symmetries y t i) = hasSpin (!s) (mod.apply_symmetries x t i)) : call mod y = call mod x := by
  rw [C59_closed_form, C59_closed_form]
  refine Finset.sum_congr rfl fun t _ => Finset.sum_congr rfl fun i _ => Finset.sum_congr rfl fun j _ => ?_
  have e : ∀ s i, hole s (mod.apply_symmetries y t) i = hole (!s) (mod.apply_symmetries x t) i := fun s i => by
    unfold hole; rw [hxy]
  simp only [e, Bool.not_false, Bool.not_true]
  ring

/-- **C59**: if the images of `y` are the images of `x` in another order, the values agree; in particular the value is invariant
under the group of operations it is symmetrised with. -/
theorem C59_symmetry (mod : Module L ι) (x y : Cfg L) (e : ι ≃ ι)
    (h : ∀ t, mod.apply_symmetries y t = mod.apply_symmetries x (e t)) : call mod y = call mod x := by
  unfold call
  dsimp only
  rw [← Equiv.sum_comp e fun t => ∑ i, ∑ j, (1 - (upOcc (mod.apply_symmetries x t) i : ℂ)) * (mod.kernel i j + mod.kernel j i) *
    (1 - (dnOcc (mod.apply_symmetries x t) j : ℂ))]
  simp only [h]

/-- **C59**: the value is a function of the sites without up and without down electrons alone. -/
theorem C59_densities (mod : Module L ι) (x y : Cfg L)
    (h : ∀ t s i, hasSpin s (mod.apply_symmetries x t i) = hasSpin s (mod.apply_symmetries y t i)) : call mod x = call mod y := by
  rw [C59_closed_form, C59_closed_form]
  unfold hole
  simp only [h]

/-- Without symmetries, the spin-exchanged configuration meets the hypothesis of `C59_spin_flip`. -/
example : call (⟨fun i j => (i.val : ℂ) + 2 * j.val, noSymmetries⟩ : Module 3 Unit) ![1, 3, 2] =
    call (⟨fun i j => (i.val : ℂ) + 2 * j.val, noSymmetries⟩ : Module 3 Unit) ![2, 3, 1] := by
  apply C59_spin_flip
  unfold noSymmetries
  decide

/-- Two-site translations: the shifted configuration meets the hypothesis of `C59_symmetry`. -/
example (K : Fin 2 → Fin 2 → ℂ) : call (⟨K, fun x (t : Fin 2) i => x (i + t)⟩ : Module 2 (Fin 2)) ![3, 0] =
    call (⟨K, fun x (t : Fin 2) i => x (i + t)⟩ : Module 2 (Fin 2)) ![0, 3] := by
  apply C59_symmetry _ _ _ (Equiv.swap 0 1)
  change ∀ t : Fin 2, (fun i => (![3, 0] : Cfg 2) (i + t)) = fun i => (![0, 3] : Cfg 2) (i + Equiv.swap 0 1 t)
  decide

/-- The value separates configurations: the closed form is not constant. -/
example : call (⟨fun _ _ => 1, noSymmetries⟩ : Module 1 Unit) ![0] = 2 ∧ call (⟨fun _ _ => 1, noSymmetries⟩ : Module 1 Unit) ![3] = 0 := by
  constructor <;> rw [C59_closed_form] <;> simp [noSymmetries, hole, hasSpin]
  norm_num

end GPSKet.Jastrow
