import Verif.Model.Hubbard
import Mathlib.Data.List.Infix

/-!
# Model of the Hubbard Hamiltonians of the scripts

`scripts/ARGPS/argps/systems.py` (`get_Hubbard_system`) and `scripts/cpd-backflow/cpd_backflow/systems.py`
(`get_FermiHubbard_system`).  The edges of NetKet's graphs are arguments.
-/

namespace GPSKet.HubbardScript

variable {L Lx Ly : ℕ} {K : Type} [Field K]

/-- `t[-1] *= -1.0` -/
def flipLast (ts : List K) : List K := ts.dropLast ++ (ts.getLast?.map fun t => -t).toList

/-- `edges = np.array([[i, (i + 1) % Lx] for i in range(Lx)])`.  `scripts/ARGPS/argps/systems.py` line 155. -/
def argpsEdges (L : ℕ) : List (Fin L × Fin L) :=
  (List.finRange L).map fun i => (i, ⟨(i.val + 1) % L, Nat.mod_lt _ i.pos⟩)

/-- The edges and amplitudes that `get_Hubbard_system` hands to the Hamiltonian.  `scripts/ARGPS/argps/systems.py` lines 143-159. -/
def argpsHubbard (L : ℕ) (t : K) (pbc : Bool) : Option (List ((Fin L × Fin L) × K)) :=
  let ts := List.replicate L t
  let ts := if pbc = true ∧ L % 4 = 0 then flipLast ts else ts
  hubbardInit (argpsEdges L) (.list ts)

/-- The edges and amplitudes of a chain; `edges` are those of `nk.graph.Chain(Lx, pbc=pbc)`.
`scripts/cpd-backflow/cpd_backflow/systems.py` lines 214 and 220-230. -/
def chainHubbard (edges : List (Fin L × Fin L)) (t : K) (pbc : Bool) : Option (List ((Fin L × Fin L) × K)) :=
  let ts := List.replicate edges.length t
  let ts := if pbc = true ∧ L % 4 = 0 then flipLast ts else ts
  hubbardInit edges (.list ts)

/-- `s in t` for strings. -/
def contains (s t : String) : Bool := decide (s.toList <:+: t.toList)

/-- The boundary conditions of the graph: which directions are closed (`none`: the variable is unbound).
`scripts/cpd-backflow/cpd_backflow/systems.py` lines 207-210. -/
def gridPbc (pbc : String) : Option (Bool × Bool) :=
  if pbc = "PBC" ∨ pbc = "PBC-PBC" ∨ pbc = "PBC-APBC" then some (true, true)
  else if contains "OBC" pbc then some (true, false) else none

/-- The edges and amplitudes of a rectangle; `edges` are those of `nk.graph.Grid([Lx, Ly], pbc=...)`.
`scripts/cpd-backflow/cpd_backflow/systems.py` lines 211 and 220-230. -/
def gridHubbard (Lx Ly : ℕ) (edges : List (Fin (Lx * Ly) × Fin (Lx * Ly))) (t : K) (pbc : String) :
    Option (List ((Fin (Lx * Ly) × Fin (Lx * Ly)) × K)) :=
  let ts := edges.map fun e =>
    if contains "APBC" pbc ∧ ((e.1.val : ℤ) - e.2.val).natAbs / Ly = Lx - 1 then -t else t
  hubbardInit edges (.list ts)

/-- The one-body matrix of the mean-field calculation: entries are set edge by edge.
`scripts/cpd-backflow/cpd_backflow/models.py` lines 140-143. -/
def coreMatrix (edges : List ((Fin L × Fin L) × K)) : Fin L → Fin L → K :=
  edges.foldl (fun h1 e => fun i j => if (i, j) = (e.1.2, e.1.1) then -e.2 else if (i, j) = (e.1.1, e.1.2) then -e.2 else h1 i j)
    fun _ _ => 0

/-- The two-body integrals of the mean-field calculation: `np.fill_diagonal(h2, U)`.
`scripts/cpd-backflow/cpd_backflow/models.py` lines 144-145. -/
def eriDiagonal (U : K) (i j k l : Fin L) : K := if i = j ∧ j = k ∧ k = l then U else 0

end GPSKet.HubbardScript
