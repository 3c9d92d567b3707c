import Verif.Model.Fermion

/-! # Model of `GPSKet/operator/hamiltonian/hubbard.py` (enumeration kernel) -/

namespace GPSKet

variable {L : ℕ} {K : Type} [Field K]

/-- The hopping amplitudes argument: a single number or a list (hubbard.py:20). -/
inductive HopArg (K : Type)
  | scalar (t : K)
  | list (ts : List K)

/-- `FermiHubbard.__init__` (hubbard.py:24-28): a scalar is broadcast to all edges, a list is taken as it is.
The kernel reads `t[edge_count]` for every edge, so a list shorter than the edge list is an out-of-bounds read;
the model pairs the two lists and returns `none` when the list is too short. -/
def hubbardInit (edges : List (Fin L × Fin L)) (t : HopArg K) : Option (List ((Fin L × Fin L) × K)) :=
  match t with
  | .scalar t => some (edges.map fun e => (e, t))
  | .list ts => if ts.length < edges.length then none else some (edges.zip ts)

/-- State of the kernel's output buffers: rows of `x_prime`/`mels` written so far (`count` is their number) and
`sections` (`none`: not written by this call). -/
structure ConnBuf (L : ℕ) (K : Type) where
  out : List (Cfg L × K)
  sections : ℕ → Option ℕ

/-- Writing one row and `count += 1`. -/
def ConnBuf.push (b : ConnBuf L K) (r : Cfg L × K) : ConnBuf L K := { b with out := b.out ++ [r] }

/-- One hopping row: copy `x`, call `apply_hopping` on the copy, store `-t * multiplicator`
(hubbard.py:70-73 and 75-91). -/
def hubbardHopRow (x : Cfg L) (t : K) (i a : Fin L) (spin_int : Fin 4) (count : ℕ → ℤ) : Cfg L × K :=
  let r := applyHopping i a x spin_int (some count)
  (r.2, -t * (r.1 : K))

/-- Body of the loop over edges (hubbard.py:66-93): four rows, then `sections[batch_id] = count`. -/
def hubbardEdgeStep (x : Cfg L) (batch_id : ℕ) (b : ConnBuf L K) (e : (Fin L × Fin L) × K) : ConnBuf L K :=
  let up_count := cumsum (isOcc x 1)
  let down_count := cumsum (isOcc x 2)
  let b := b.push (hubbardHopRow x e.2 e.1.1 e.1.2 1 up_count)
  let b := b.push (hubbardHopRow x e.2 e.1.2 e.1.1 1 up_count)
  let b := b.push (hubbardHopRow x e.2 e.1.1 e.1.2 2 down_count)
  let b := b.push (hubbardHopRow x e.2 e.1.2 e.1.1 2 down_count)
  { b with sections := fun k => if k = batch_id then some b.out.length else b.sections k }

/-- Body of the loop over the batch (hubbard.py:53-93): the diagonal row, then the edges. -/
def hubbardSampleStep (U : K) (edges : List ((Fin L × Fin L) × K)) (b : ConnBuf L K) (xb : Cfg L × ℕ) :
    ConnBuf L K :=
  let x := xb.1
  let b := b.push (x, U * ((Finset.univ.filter fun j => x j = 3).card : K))
  edges.foldl (hubbardEdgeStep x xb.2) b

/-- `_get_conn_flattened_kernel` (hubbard.py:47-94) on a batch. -/
def hubbardKernel (U : K) (edges : List ((Fin L × Fin L) × K)) (xs : List (Cfg L)) : ConnBuf L K :=
  xs.zipIdx.foldl (hubbardSampleStep U edges) { out := [], sections := fun _ => none }

/-- Number of rows the kernel allocates (hubbard.py:48). -/
def hubbardAlloc (nBatch nEdges : ℕ) : ℕ := nBatch * (1 + nEdges * 4)

/-- `FermiHubbard.is_hermitian` (hubbard.py:30-32). -/
def hubbardIsHermitian : Bool := true

end GPSKet
