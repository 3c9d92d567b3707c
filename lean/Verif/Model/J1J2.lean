import Verif.Model.PyCall
import Verif.Model.AmpSource
import Mathlib.Data.Matrix.Basic

/-! # Model of `GPSKet/operator/hamiltonian/J1J2.py` -/

namespace GPSKet.J1J2

variable {N : ℕ} {Cache : Type}

/-- NetKet's `states_to_local_indices` for spin 1/2: `-1. ↦ 0`, `1. ↦ 1` (used at J1J2.py:94). -/
def localIndex (s : ℤ) : ℕ := if s = 1 then 1 else 0

/-- `off_diag_connected` (J1J2.py:96-98). -/
def offDiagConnected : Fin 4 → Fin 4 := ![0, 2, 1, 3]

/-- `new_occ` (J1J2.py:102-104): the two local states, in NetKet's `±1` representation. -/
def newOcc (connected_index : Fin 4) : ℤ × ℤ :=
  (2 * ((connected_index.val % 2 : ℕ) : ℤ) - 1, 2 * ((connected_index.val / 2 : ℕ) : ℤ) - 1)

/-- `basis_index` (J1J2.py:94): `idx[0]*1 + idx[1]*2`. -/
def basisIndex (s₀ s₁ : ℤ) : Fin 4 := Fin.ofNat 4 (localIndex s₀ * 1 + localIndex s₁ * 2)

/-- `compute_element` (J1J2.py:100-114). -/
noncomputable def computeElement (src : AmpSource N ℤ Cache) (sample : Fin N → ℤ)
    (bond : (Fin N × Fin N) × Matrix (Fin 4) (Fin 4) ℂ) (basis_index connected_index : Fin 4) : ℂ :=
  let mel := bond.2 basis_index connected_index
  let new_occ := newOcc connected_index
  let log_amp_connected := src.conn sample [(bond.1.1, new_occ.1), (bond.1.2, new_occ.2)]
  mel * Complex.exp (log_amp_connected - src.logAmp sample)

/-- `inner_vmap` (J1J2.py:92-122). -/
noncomputable def bondTerm (src : AmpSource N ℤ Cache) (sample : Fin N → ℤ)
    (bond : (Fin N × Fin N) × Matrix (Fin 4) (Fin 4) ℂ) : ℂ :=
  let basis_index := basisIndex (sample bond.1.1) (sample bond.1.2)
  let off_diag :=
    if offDiagConnected basis_index ≠ basis_index then
      computeElement src sample bond basis_index (offDiagConnected basis_index)
    else 0
  off_diag + bond.2 basis_index basis_index

/-- `local_en_on_the_fly` for one sample (J1J2.py:80-124): sum over the listed operators. -/
noncomputable def localEn (src : AmpSource N ℤ Cache) (bonds : List ((Fin N × Fin N) × Matrix (Fin 4) (Fin 4) ℂ))
    (sample : Fin N → ℤ) : ℂ :=
  (bonds.map (bondTerm src sample)).sum

/-- The choice of couplings in `get_J1_J2_Hamiltonian` (J1J2.py:27-30 and 49-52): neighbour order of the graph and the
list of couplings handed to the Heisenberg operator. -/
noncomputable def couplings (J1 J2 : ℝ) : ℕ × List ℝ :=
  let nb_order := if J2 ≠ 0 then 2 else 1
  if J2 ≠ 0 then (nb_order, [J1 / 4, J2 / 4]) else (nb_order, [J1 / 4])

/-- The values that `get_J1_J2_Hamiltonian` hands to the constructor of the operator. -/
inductive Arg
  | hilbert
  | graph
  | coupling (J : List ℝ)
  | signRule (b : Bool)
  | default

/-- The parameters of NetKet's `Heisenberg(hilbert, graph, J=1, sign_rule=None, *, acting_on_subspace=None)`. -/
def heisenbergParams : List (PyCall.Param Arg) :=
  [("hilbert", none), ("graph", none), ("J", some .default), ("sign_rule", some .default), ("acting_on_subspace", some .default)]

/-- The parameters of NetKet's `LocalOperator(hilbert, operators=[], acting_on=[], constant=0, dtype=None)`.  `HeisenbergOnTheFly`
(J1J2.py:13-14) inherits its constructor. -/
def localOperatorParams : List (PyCall.Param Arg) :=
  [("hilbert", none), ("operators", some .default), ("acting_on", some .default), ("constant", some .default), ("dtype", some .default)]

/-- `get_J1_J2_Hamiltonian` (J1J2.py:17-55): the call of the constructor, `classtype(hilbert, g, J=..., sign_rule=sign_rule)`; `none`
is a `TypeError`.  (A single coupling is passed as a number, here a list of one.) -/
noncomputable def construct (J1 J2 : ℝ) (signRule onTheFly : Bool) : Option (String → Option Arg) :=
  PyCall.bind (if onTheFly then localOperatorParams else heisenbergParams) [.hilbert, .graph]
    [("J", .coupling (couplings J1 J2).2), ("sign_rule", .signRule signRule)]

/-- The bonds that `get_J1_J2_Hamiltonian` hands to the Heisenberg operator (J1J2.py:27-35, 49-52): the edges up to the neighbour order of
the graph, each with the coupling listed for its order.  The construction of the edges from the lattice is NetKet's and not modelled. -/
noncomputable def codeBonds (near far : List (Fin N × Fin N)) (J : ℝ × ℝ) : List ((Fin N × Fin N) × ℝ) :=
  (([near, far].take (couplings J.1 J.2).1).zip (couplings J.1 J.2).2).flatMap fun p => p.1.map fun b => (b, p.2)

end GPSKet.J1J2
