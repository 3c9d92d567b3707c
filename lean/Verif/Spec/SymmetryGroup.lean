import Mathlib.Algebra.Group.Subgroup.Basic
import Mathlib.GroupTheory.Perm.Basic
import Mathlib.Data.Fin.Basic
import Mathlib.Data.List.Nodup
import Mathlib.Data.List.Perm.Basic
import Mathlib.Data.List.FinRange

/-!
# Specification: symmetry groups of a spin lattice

Nothing here refers to the code.
-/

namespace GPSKet.Spec

variable {L D T : ℕ}

/-- Apply a permutation of the sites and a permutation of the local states to a configuration. -/
def act (h : Equiv.Perm (Fin L) × Equiv.Perm (Fin D)) (x : Fin L → Fin D) : Fin L → Fin D := fun i => h.2 (x (h.1 i))

/-- `rows` lists each element of `G`, as the table of its values, exactly once. -/
structure ListsGroup (rows : List (Fin L → Fin L)) (G : Subgroup (Equiv.Perm (Fin L))) : Prop where
  nodup : rows.Nodup
  mem : ∀ f, f ∈ rows ↔ ∃ g ∈ G, f = ⇑g

/-- The group generated by the lattice symmetries in `G` and, if `flip`, the exchange of the two states of a spin. -/
def spinGroup (G : Subgroup (Equiv.Perm (Fin L))) (flip : Bool) : Subgroup (Equiv.Perm (Fin L) × Equiv.Perm (Fin 2)) :=
  G.prod (if flip then ⊤ else ⊥)

/-- The lattice symmetries asked for: all automorphisms (`A`) for translations together with point symmetries, else the translations
(`T`), the point symmetries (`P`) or nothing. -/
def latticeGroup (A T P : Subgroup (Equiv.Perm (Fin L))) (translations point_symmetries : Bool) : Subgroup (Equiv.Perm (Fin L)) :=
  if translations && point_symmetries then A else if translations then T else if point_symmetries then P else ⊥

/-- A configuration asks for a kind of symmetries by listing it, or by beginning with `all` or `automorphisms`. -/
def asksFor (kind : String) (groups : List String) : Bool :=
  decide (kind ∈ groups ∨ groups.head? = some "all" ∨ groups.head? = some "automorphisms")

/-- `ops` lists each element of the group `H` exactly once. -/
structure ListsOps (ops : Fin T → Equiv.Perm (Fin L) × Equiv.Perm (Fin D))
    (H : Subgroup (Equiv.Perm (Fin L) × Equiv.Perm (Fin D))) : Prop where
  injective : Function.Injective ops
  mem : ∀ h, h ∈ H ↔ ∃ t, ops t = h

/-- A table of sites per site is a translation-like filter: position 0 of the filter of a site is the site itself, and the filter looks at
every site once. -/
structure IsFilter [NeZero L] (plaquettes : Fin L → Fin L → Fin L) : Prop where
  centre : ∀ i, plaquettes i 0 = i
  bijective : ∀ i, Function.Bijective (plaquettes i)

/-- The rows are a regular set of lattice translations: site 0 is moved to each site by exactly one of them, and each is a permutation. -/
structure Regular [NeZero L] (rows : List (Fin L → Fin L)) : Prop where
  first : (rows.map fun r => r 0).Perm (List.finRange L)
  bijective : ∀ r ∈ rows, Function.Bijective r

end GPSKet.Spec
