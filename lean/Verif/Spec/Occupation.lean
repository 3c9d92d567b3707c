import Verif.Spec.Fock

/-!
# Specification: configurations of the fermionic lattice

A configuration assigns to each site one of four local states:
`0` empty, `1` one spin-up electron, `2` one spin-down electron, `3` doubly occupied.
-/

namespace GPSKet

/-- A configuration of `L` sites (the local states of the fermionic Hilbert space are `{0,1,2,3}`). -/
abbrev Cfg (L : ℕ) := Fin L → Fin 4

namespace Spec

/-- Is there an electron of spin `s` (`false` = up, `true` = down) in local state `v`? -/
def hasSpin (s : Bool) (v : Fin 4) : Bool :=
  match s, v with
  | false, 1 => true
  | false, 3 => true
  | true, 2 => true
  | true, 3 => true
  | _, _ => false

/-- The Fock basis state of a configuration. -/
def occOf {L : ℕ} (x : Cfg L) : Occ (Mode L) := fun m => hasSpin (ofLex m).1 (x (ofLex m).2)

/-- Number of electrons of spin `s`. -/
def numElec {L : ℕ} (s : Bool) (x : Cfg L) : ℕ := (Finset.univ.filter fun i => hasSpin s (x i) = true).card

/-- The matrix element a list of (connected configuration, matrix element) pairs assigns to `x'`:
the sum of the entries listed for `x'`. -/
def rowElem {C K : Type} [DecidableEq C] [AddCommMonoid K] (row : List (C × K)) (x' : C) : K :=
  ((row.filter fun e => decide (e.1 = x')).map Prod.snd).sum

end Spec
end GPSKet
