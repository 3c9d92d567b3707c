import Verif.Spec.Occupation

/-!
# Specification: particles and holes

Nothing here refers to the code.
-/

namespace GPSKet.Spec

variable {L : ℕ}

/-- The local state with the given electrons. -/
def localState (up down : Bool) : Fin 4 := match up, down with
  | false, false => 0
  | true, false => 1
  | false, true => 2
  | true, true => 3

/-- Electrons and holes exchanged for the spins `s` with `S s` (`false` = up, `true` = down). -/
def holes (S : Bool → Bool) (x : Cfg L) : Cfg L :=
  fun i => localState (hasSpin false (x i) ^^ S false) (hasSpin true (x i) ^^ S true)

/-- Up and down exchanged. -/
def swapSpins (x : Cfg L) : Cfg L := fun i => localState (hasSpin true (x i)) (hasSpin false (x i))

/-- The product over all electrons of a sign of their spin and site. -/
def electronSigns (σ : Bool → Fin L → ℤ) (x : Cfg L) : ℤ := ∏ s : Bool, ∏ i, if hasSpin s (x i) = true then σ s i else 1

/-- The sign that goes with exchanging electrons and holes on a lattice with sites of two colours: the sites are counted along the order of
the electrons, and those of one colour get another minus sign. -/
def holeSign (S : Bool → Bool) (colour : Fin L → Bool) : Bool → Fin L → ℤ :=
  fun s i => if S s then (-1) ^ i.val * (if colour i then -1 else 1) else 1

/-- Edges with the sign of the amplitude changed by the signs of their two sites. -/
def regauge {K : Type} [Ring K] (φ : Fin L → ℤ) (edges : List ((Fin L × Fin L) × K)) : List ((Fin L × Fin L) × K) :=
  edges.map fun e => (e.1, (φ e.1.1 : K) * (φ e.1.2 : K) * e.2)

end GPSKet.Spec
