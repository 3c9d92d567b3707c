import Verif.Model.Hilbert
import Verif.Model.RMSProp

/-!
# Constructors of the drivers and the shapes of their steps

`GPSKet/driver/VMC_SRRMSProp.py` and `GPSKet/driver/minSR.py` on one rank, and the comparison of Hilbert spaces
(`GPSKet/hilbert/discrete_fermion.py`).  A raised exception is `Except.error` in constructors and `none` in steps.
-/

namespace GPSKet.DriverSetup
open RMSProp

/-- `FermionicSumConstraint.__eq__` (hilbert/discrete_fermion.py:34-37) for (size, n_elec). -/
def constraintEq (a b : ℕ × (ℕ × ℕ)) : Bool := a.1 == b.1 && a.2 == b.2

/-- `FermionicSumConstraint.__hash__` (hilbert/discrete_fermion.py:31-32), for any hash function of Python. -/
def constraintHash (hash : String × (ℕ × ℕ) → ℤ) (a : ℕ × (ℕ × ℕ)) : ℤ := hash ("FermionicSumConstraint", a.2)

/-- The constraint of a space (hilbert/discrete_fermion.py:44-47). -/
def constraintOf (h : FermionicHilbert) : Option (ℕ × (ℕ × ℕ)) := h.n_elec.map fun n => (h.size, n)

/-- `==` of two spaces: NetKet's `HomogeneousHilbert` compares size, local states (always the same here) and constraint. -/
def hilbertEq (a b : FermionicHilbert) : Bool :=
  a.size == b.size && match constraintOf a, constraintOf b with
    | none, none => true
    | some x, some y => constraintEq x y
    | _, _ => false

/-- The variational state: its space, the numbers of entries of its real and of its complex parameter arrays, whether its log-amplitudes are
complex, the number of samples of a rank and the chunk size. -/
structure VState where
  hilbert : FermionicHilbert
  nReal : ℕ
  nComplex : ℕ
  complexOutput : Bool
  samplesPerRank : ℕ
  chunkSize : Option ℕ

/-- `state.n_parameters`. -/
def VState.nParams (s : VState) : ℕ := s.nReal + s.nComplex

/-- NetKet's `jacobian_default_mode(..., holomorphic=holomorphic)`. -/
def defaultMode (s : VState) (holomorphic : Option Bool) : Except String String :=
  if holomorphic = some true then
    if s.nReal = 0 ∧ s.complexOutput = true then .ok "holomorphic" else .error "holomorphic"
  else .ok (if s.complexOutput then "complex" else "real")

/-- The number of columns of NetKet's dense Jacobian in the modes `real` and `complex`: derivatives with respect to the real and the
imaginary parts of the parameters. -/
def VState.columns (s : VState) : ℕ := s.nReal + (s.nComplex + s.nComplex)

/-! ## `VMC_SRRMSProp` -/

/-- What the constructor of `VMC_SRRMSProp` stores. -/
structure Driver where
  mode : String
  emaLength : ℕ

/-- The setter `jacobian_mode` (VMC_SRRMSProp.py:167-184). -/
def setMode (s : VState) (mode : Option String) : Except String String :=
  match (match mode with | none => defaultMode s none | some m => .ok m) with
  | .error e => .error e
  | .ok m => if m = "complex" ∨ m = "real" then .ok m else .error "ValueError"

/-- `VMC_SRRMSProp.__init__` (VMC_SRRMSProp.py:114-153). -/
def vmcInit (s : VState) (ham : FermionicHilbert) (jacobian_mode : Option String) : Except String Driver :=
  if !hilbertEq s.hilbert ham then .error "TypeError"
  else match setMode s jacobian_mode with
    | .error e => .error e
    | .ok m =>
      if ¬(s.nReal = 0 ∨ s.nComplex = 0) then .error "ValueError"
      else
        let n_params := if 0 < s.nComplex then 2 * s.nParams else s.nParams
        .ok ⟨m, n_params⟩

/-- `_unravel_params_fn` (VMC_SRRMSProp.py:152-153): raises unless the length is the number of parameters. -/
def unravel (s : VState) (updates : List ℂ) : Option (List ℂ) := if updates.length = s.nParams then some updates else none

/-- The end of a step (VMC_SRRMSProp.py:70-76, 231-233), for the solution `x` of the linear system, one entry per column of the Jacobian.
The average must have as many entries (VMC_SRRMSProp.py:54; arrays of length one, which would be broadcast, are treated as an error too). -/
noncomputable def vmcStep (s : VState) (d : Driver) (x : Fin s.columns → ℝ) : Option (List ℂ) :=
  if d.emaLength ≠ s.columns then none
  else unravel s (if d.mode = "complex" ∧ 0 < s.nComplex then repack x else List.ofFn fun k => ((-x k : ℝ) : ℂ))

/-! ## `minSRVMC` -/

/-- `minSRVMC.__init__` (minSR.py:22-45): the mode and the state with its new chunk size.  The constructor of NetKet's `VMC` compares the
Hilbert spaces; `check` is NetKet's `check_chunk_size`. -/
def minsrInit (check : ℕ → ℕ → Bool) (s : VState) (ham : FermionicHilbert) (mode : Option String) (holomorphic : Option Bool) :
    Except String (String × VState) :=
  if !hilbertEq s.hilbert ham then .error "TypeError"
  else if mode.isSome && holomorphic.isSome then .error "AssertionError"
  else match (match mode with | none => defaultMode s holomorphic | some m => .ok m) with
    | .error e => .error e
    | .ok m =>
      let chunk := s.chunkSize.getD s.samplesPerRank
      if check s.samplesPerRank chunk then .ok (m, { s with chunkSize := some chunk }) else .error "ValueError"

/-- The chunks of a step: `n_chunks = n_samples_per_rank // chunk_size`, and the positions `arange(n).reshape((n_chunks, chunk_size))`
(minSR.py:67-78); the reshape raises unless the sizes fit, and a missing chunk size cannot be divided by. -/
def minsrChunks (s : VState) : Option (List (List ℕ)) :=
  match s.chunkSize with
  | none => none
  | some c =>
    let n_chunks := s.samplesPerRank / c
    if n_chunks * c = s.samplesPerRank then some ((List.range n_chunks).map fun i => (List.range c).map fun j => i * c + j) else none

end GPSKet.DriverSetup
