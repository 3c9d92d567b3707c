import Verif.Model.Hubbard

/-! # Model of `AbInitioHamiltonian` in `GPSKet/operator/hamiltonian/ab_initio.py` (enumeration kernel) -/

namespace GPSKet

variable {L : ℕ} {K : Type} [Field K]

/-- `t_mat` (ab_initio.py:27). -/
def abT (h : Fin L → Fin L → K) (eri : Fin L → Fin L → Fin L → Fin L → K) (p q : Fin L) : K :=
  h p q - 1 / 2 * ∑ r, eri p r r q

/-- `range_indices[is_occ_up]`, `range_indices[is_occ_down]` (ab_initio.py:59-60, 68-69). -/
def occInds (x : Cfg L) (spin_int : Fin 4) : List (Fin L) := (List.finRange L).filter fun j => decide (¬ x j &&& spin_int = 0)

/-- `range_indices[is_empty_up]`, `range_indices[is_empty_down]` (ab_initio.py:65-66, 70-71). -/
def unoccInds (x : Cfg L) (spin_int : Fin 4) : List (Fin L) := (List.finRange L).filter fun j => decide (x j &&& spin_int = 0)

/-- `connected_con` (ab_initio.py:73-93).  The differences are Python integers, which may be `-1`. -/
def abConnectedCon (x : Cfg L) : ℤ :=
  let up : ℤ := (occInds x 1).length
  let dn : ℤ := (occInds x 2).length
  let up' : ℤ := (unoccInds x 1).length
  let dn' : ℤ := (unoccInds x 2).length
  1 + up * up' + dn * dn' + dn * dn' * (dn - 1) * (dn' - 1) + up * up' * (up - 1) * (up' - 1) + up * up' * dn * dn'

/-- `diag_element` (ab_initio.py:100-119). -/
def abDiag (t : Fin L → Fin L → K) (eri : Fin L → Fin L → Fin L → Fin L → K) (x : Cfg L) : K :=
  let up := occInds x 1
  let dn := occInds x 2
  let up' := unoccInds x 1
  let dn' := unoccInds x 2
  (up.map fun i => t i i).sum + (dn.map fun i => t i i).sum
    + (up.map fun i => (dn.map fun j => eri i i j j).sum).sum
    + (up.map fun i => (up.map fun j => 1 / 2 * eri i i j j).sum).sum
    + (up.map fun i => (up'.map fun a => 1 / 2 * eri i a a i).sum).sum
    + (dn.map fun i => (dn.map fun j => 1 / 2 * eri i i j j).sum).sum
    + (dn.map fun i => (dn'.map fun a => 1 / 2 * eri i a a i).sum).sum

/-- `value` of a one-body term (ab_initio.py:132-140, 149-157). -/
def abOneValue (t : Fin L → Fin L → K) (eri : Fin L → Fin L → Fin L → Fin L → K) (occ other unocc : List (Fin L)) (i a : Fin L) : K :=
  t i a + (occ.map fun k => eri i a k k).sum + (other.map fun k => eri i a k k).sum
    + (unocc.map fun k => 1 / 2 * eri i k k a).sum - (occ.map fun k => 1 / 2 * eri k a i k).sum

/-- One row of a one-body part (ab_initio.py:128-142, 145-159). -/
def abOneRow (t : Fin L → Fin L → K) (eri : Fin L → Fin L → Fin L → Fin L → K) (x : Cfg L) (spin_int : Fin 4) (count : ℕ → ℤ)
    (occ other unocc : List (Fin L)) (i a : Fin L) : Cfg L × K :=
  let r := applyHopping i a x spin_int (some count)
  (r.2, (r.1 : K) * abOneValue t eri occ other unocc i a)

/-- The one-body rows of one spin (ab_initio.py:126-142, 143-159). -/
def abOneRows (t : Fin L → Fin L → K) (eri : Fin L → Fin L → Fin L → Fin L → K) (x : Cfg L) (spin_int : Fin 4) (count : ℕ → ℤ)
    (occ other unocc : List (Fin L)) : List (Cfg L × K) :=
  occ.flatMap fun i => unocc.map fun a => abOneRow t eri x spin_int count occ other unocc i a

/-- One row with two hops of the same spin (ab_initio.py:167-183, 189-204). -/
def abSameRow (eri : Fin L → Fin L → Fin L → Fin L → K) (x : Cfg L) (spin_int : Fin 4) (count : ℕ → ℤ) (i a j b : Fin L) :
    Cfg L × K :=
  let r1 := applyHopping i a x spin_int (some count)
  let r2 := applyHopping j b r1.2 spin_int (some count)
  let left_limit := min j.val b.val
  let right_limit := max j.val b.val - 1
  let m := r1.1 * r2.1
  let m := if i.val ≤ right_limit ∧ i.val > left_limit then m * -1 else m
  let m := if a.val ≤ right_limit ∧ a.val > left_limit then m * -1 else m
  (r2.2, 1 / 2 * (m : K) * eri i a j b)

/-- The two-body rows of one spin (ab_initio.py:162-183, 184-204). -/
def abSameRows (eri : Fin L → Fin L → Fin L → Fin L → K) (x : Cfg L) (spin_int : Fin 4) (count : ℕ → ℤ) (occ unocc : List (Fin L)) :
    List (Cfg L × K) :=
  occ.flatMap fun i => unocc.flatMap fun a => occ.flatMap fun j => unocc.flatMap fun b =>
    if i ≠ j ∧ a ≠ b then [abSameRow eri x spin_int count i a j b] else []

/-- One row with a hop of each spin (ab_initio.py:209-217). -/
def abMixedRow (eri : Fin L → Fin L → Fin L → Fin L → K) (x : Cfg L) (up_count down_count : ℕ → ℤ) (i a j b : Fin L) : Cfg L × K :=
  let r1 := applyHopping i a x 1 (some up_count)
  let r2 := applyHopping j b r1.2 2 (some down_count)
  (r2.2, ((r1.1 * r2.1 : ℤ) : K) * eri i a j b)

/-- All rows of one configuration, in the order in which they are written (ab_initio.py:59-217). -/
def abRows (t : Fin L → Fin L → K) (eri : Fin L → Fin L → Fin L → Fin L → K) (x : Cfg L) : List (Cfg L × K) :=
  let up_count := cumsum (isOcc x 1)
  let down_count := cumsum (isOcc x 2)
  let up := occInds x 1
  let dn := occInds x 2
  let up' := unoccInds x 1
  let dn' := unoccInds x 2
  [(x, abDiag t eri x)]
    ++ abOneRows t eri x 1 up_count up dn up' ++ abOneRows t eri x 2 down_count dn up dn'
    ++ abSameRows eri x 1 up_count up up' ++ abSameRows eri x 2 down_count dn dn'
    ++ up.flatMap fun i => up'.flatMap fun a => dn.flatMap fun j => dn'.map fun b => abMixedRow eri x up_count down_count i a j b

/-- Body of the loop over the batch (ab_initio.py:58-218): `alloc` is the number of rows of the arrays `x_prime`/`mels`, which grow by
`connected_con` at the beginning of the body; the rows are then written one after the other at position `c`. -/
structure AbBuf (L : ℕ) (K : Type) where
  buf : ConnBuf L K
  alloc : ℤ

def abSampleStep (t : Fin L → Fin L → K) (eri : Fin L → Fin L → Fin L → Fin L → K) (b : AbBuf L K) (xb : Cfg L × ℕ) : AbBuf L K :=
  let out := b.buf.out ++ abRows t eri xb.1
  { buf := { out := out, sections := fun k => if k = xb.2 then some out.length else b.buf.sections k }
    alloc := b.alloc + abConnectedCon xb.1 }

/-- `_get_conn_flattened_kernel` (ab_initio.py:48-219). -/
def abKernel (t : Fin L → Fin L → K) (eri : Fin L → Fin L → Fin L → Fin L → K) (xs : List (Cfg L)) : AbBuf L K :=
  xs.zipIdx.foldl (abSampleStep t eri) { buf := { out := [], sections := fun _ => none }, alloc := 0 }

end GPSKet
