import Verif.Props.Electrons
import Mathlib.Data.List.Sort
import Mathlib.Data.List.OfFn

/-! # The list of electron positions from an enumeration of the electrons -/

namespace GPSKet.ElectronList
open Spec Electrons Props

variable {L nu nd : ℕ}

theorem isElectronList_ofFn (s : Bool) (x : Cfg L) (e : Fin nu → Fin L) (he : StrictMono e)
    (h : ∀ i, hasSpin s (x i) = true ↔ ∃ n, e n = i) : IsElectronList s x (List.ofFn fun n => (e n).val) := by
  refine ⟨?_, ?_⟩
  · rw [List.pairwise_ofFn]
    intro i j hij
    exact he hij
  · intro i
    rw [List.mem_ofFn]
    constructor
    · rintro ⟨n, rfl⟩
      exact ⟨(e n).isLt, (h _).2 ⟨n, rfl⟩⟩
    · rintro ⟨hi, hs⟩
      obtain ⟨n, hn⟩ := (h _).1 hs
      exact ⟨n, by rw [hn]⟩

theorem isElectronList_unique {s : Bool} {x : Cfg L} {l l' : List ℕ} (h : IsElectronList s x l) (h' : IsElectronList s x l') : l = l' := by
  have hp : l.Perm l' := (List.perm_ext_iff_of_nodup (h.1.imp (by intro a b; omega)) (h'.1.imp (by intro a b; omega))).2
    fun a => (h.2 a).trans (h'.2 a).symm
  exact hp.eq_of_pairwise (fun a b _ _ h1 h2 => by omega) h.1 h'.1

/-- The positions the code works with are the enumerated ones. -/
theorem occupanciesToElectrons_eq (x : Cfg L) (hx : numElec false x = nu ∧ numElec true x = nd) (up : Fin nu → Fin L) (dn : Fin nd → Fin L)
    (hup : StrictMono up) (hdn : StrictMono dn) (hu : ∀ i, hasSpin false (x i) = true ↔ ∃ n, up n = i)
    (hd : ∀ i, hasSpin true (x i) = true ↔ ∃ n, dn n = i) :
    occupanciesToElectrons [x] nu nd 0 = (List.ofFn fun n => (up n).val) ++ List.ofFn fun n => (dn n).val := by
  obtain ⟨lu, ld, h, -, -, h1, h2⟩ := C40_electron_positions [x] nu nd (by simpa using hx) 0 (by simp)
  rw [h, isElectronList_unique h1 (isElectronList_ofFn false x up hup hu), isElectronList_unique h2 (isElectronList_ofFn true x dn hdn hd)]

end GPSKet.ElectronList
