import Verif.Model.Hubbard
import Verif.Model.AbInitio
import Verif.Model.Hilbert
import Mathlib.Analysis.SpecialFunctions.Exp

/-!
# Padded connected elements of the fermionic Hamiltonians

`nk.vqs.MCState.expect` and `expect_and_grad` read a discrete operator through NetKet's `DiscreteOperator.get_conn_padded`, which calls the
`get_conn_flattened` of `AbInitioHamiltonian` (ab_initio.py:39-46) or `FermiHubbard` (hubbard.py:39-43) with `pad=True`.
-/

namespace GPSKet.Padded

variable {L : ℕ} {K : Type} [Field K]

/-- `AbInitioHamiltonian.__init__` (ab_initio.py:18-27) only accepts spaces with fixed electron numbers (line 21). -/
def abInit (h : FermionicHilbert) : Except String FermionicHilbert :=
  match h.n_elec with
  | none => .error "AssertionError"
  | some _ => .ok h

/-- `AbInitioHamiltonian.get_conn_flattened` (ab_initio.py:39-46): the assertion, then the kernel; a Hilbert space is constrained if it was
built with electron numbers (hilbert/discrete_fermion.py:44-52). -/
def abConnFlattened (h : FermionicHilbert) (t : Fin h.size → Fin h.size → K)
    (eri : Fin h.size → Fin h.size → Fin h.size → Fin h.size → K) (pad : Bool) (xs : List (Cfg h.size)) :
    Except String (ConnBuf h.size K) :=
  if !pad || h.n_elec.isSome then .ok (abKernel t eri xs).buf else .error "AssertionError"

/-- `FermiHubbard.get_conn_flattened` (hubbard.py:39-43). -/
def hubbardConnFlattened (U : K) (edges : List ((Fin L × Fin L) × K)) (_pad : Bool) (xs : List (Cfg L)) :
    Except String (ConnBuf L K) :=
  .ok (hubbardKernel U edges xs)

/-- NetKet's `get_conn_padded` on the result of `get_conn_flattened` for a batch of `nBatch` configurations (NetKet is not part of the
repository and not installed here: this reading of its `DiscreteOperator` is an assumption of the model): the number of connected elements is read off
as `sections[0]`, and rows and matrix elements are reshaped to `(nBatch, sections[0])`.  The result is `none` if this raises (an empty batch
has no `sections[0]`, a reshape needs matching sizes) or reads memory nobody has written. -/
def padded (nBatch : ℕ) (b : ConnBuf L K) : Option (List (List (Cfg L × K))) :=
  if nBatch = 0 then none else
  match b.sections 0 with
  | none => none
  | some n => if nBatch * n = b.out.length then some ((List.range nBatch).map fun k => (b.out.drop (k * n)).take n) else none

/-- What NetKet's kernels make of one padded row: `Σ_k mels[k] · exp(logψ(x'_k) - logψ(x))`. -/
noncomputable def rowEnergy (logpsi : Cfg L → ℂ) (x : Cfg L) (row : List (Cfg L × ℂ)) : ℂ :=
  (row.map fun e => e.2 * Complex.exp (logpsi e.1 - logpsi x)).sum

end GPSKet.Padded
