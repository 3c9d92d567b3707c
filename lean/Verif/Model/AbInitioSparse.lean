import Verif.Model.AbInitioOnTheFly

/-! # Model of `GPSKet/operator/hamiltonian/ab_initio_sparse.py` -/

namespace GPSKet

variable {L : ℕ} {Cache : Type} {K : Type} [Zero K] [DecidableEq K]

/-! ## Storage -/

/-- The arrays of the one-electron integrals (ab_initio_sparse.py:43-45). -/
structure Sparse1 (L : ℕ) (K : Type) where
  range : ℕ → ℕ
  ids : List (Fin L)
  vals : List K

/-- Body of the loop over `i` (ab_initio_sparse.py:48-54). -/
def sparse1Step (h : Fin L → Fin L → K) (s : Sparse1 L K) (i : Fin L) : Sparse1 L K :=
  let nonzeros := (List.finRange L).filter fun a => decide (h i a ≠ 0)
  { range := Function.update s.range (i.val + 1) (s.range i.val + nonzeros.length)
    ids := s.ids ++ nonzeros
    vals := s.vals ++ nonzeros.map fun a => h i a }

/-- The one-electron part of the constructor (ab_initio_sparse.py:43-54). -/
def sparse1 (h : Fin L → Fin L → K) : Sparse1 L K :=
  (List.finRange L).foldl (sparse1Step h) { range := fun _ => 0, ids := [], vals := [] }

/-- The arrays of the two-electron integrals (ab_initio_sparse.py:64-68). -/
structure Sparse2 (L : ℕ) (K : Type) where
  range : ℕ → ℕ → ℕ
  ids : List (Fin L × Fin L)
  vals : List K

/-- `np.nonzero(eri_mat[i, :, j, :])` (ab_initio_sparse.py:73): the index pairs in row-major order. -/
def nonzeros2 (eri : Fin L → Fin L → Fin L → Fin L → K) (i j : Fin L) : List (Fin L × Fin L) :=
  (List.finRange L).flatMap fun a => ((List.finRange L).filter fun b => decide (eri i a j b ≠ 0)).map fun b => (a, b)

/-- Body of the double loop (ab_initio_sparse.py:73-88). -/
def sparse2Step (eri : Fin L → Fin L → Fin L → Fin L → K) (i : Fin L) (s : Sparse2 L K) (j : Fin L) : Sparse2 L K :=
  let nonzeros := nonzeros2 eri i j
  let stop := s.range i.val j.val + nonzeros.length
  let range := Function.update s.range i.val (Function.update (s.range i.val) (j.val + 1) stop)
  let range := if j.val = L - 1 ∧ i.val ≠ L - 1 then
      Function.update range (i.val + 1) (Function.update (range (i.val + 1)) 0 stop) else range
  { range := range
    ids := s.ids ++ nonzeros
    vals := s.vals ++ nonzeros.map fun ab => eri i ab.1 j ab.2 }

/-- The two-electron part of the constructor (ab_initio_sparse.py:64-88). -/
def sparse2 (eri : Fin L → Fin L → Fin L → Fin L → K) : Sparse2 L K :=
  (List.finRange L).foldl (fun s i => (List.finRange L).foldl (sparse2Step eri i) s) { range := fun _ _ => 0, ids := [], vals := [] }

/-! ## Local energy -/

/-- The entries visited by `fori_loop(range[i], range[i + 1], ...)` (ab_initio_sparse.py:189-194): the ids and values at these
positions. -/
def slice {I V : Type} (ids : List I) (vals : List V) (start stop : ℕ) : List (I × V) :=
  ((ids.zip vals).take stop).drop start

/-- `compute_1B_up`, `compute_1B_down` (ab_initio_sparse.py:158-233). -/
noncomputable def sparseOne (src : AmpSource L (Fin 4) Cache) (x : Cfg L) (spin_int : Fin 4) (d : ℤ) (count : ℕ → ℤ)
    (s : Sparse1 L ℂ) (i : Fin L) : ℂ :=
  ((slice s.ids s.vals (s.range i.val) (s.range (i.val + 1))).map fun e =>
    e.2 * (if x e.1 &&& spin_int = 0 then oneRatio src x d count i e.1 else if i = e.1 then 1 else 0)).sum

/-- `update_config` (ab_initio_sparse.py:236-248): append the site with its old occupation and change the first entry of the site;
`valid` tells whether the spin could be created (destroyed) there. -/
def updateConfig (x : Cfg L) (site : Fin L) (upd : List (Fin L × Fin 4)) (spin_int : Fin 4) (d : ℤ) (create : Bool) :
    List (Fin L × Fin 4) × Bool :=
  let full := upd ++ [(site, x site)]
  let k := full.findIdx fun u => decide (u.1 = site)
  let bit : Bool := match full[k]? with
    | some u => decide (¬ u.2 &&& spin_int = 0)
    | none => false
  (full.modify k fun u => (u.1, occAdd u.2 (if create then d else -d)), if create then !bit else bit)

/-- `two_body_up_up_occ`, `two_body_down_down_occ` (ab_initio_sparse.py:250-298, 304-352). -/
noncomputable def sparseSame (src : AmpSource L (Fin 4) Cache) (x : Cfg L) (spin_int : Fin 4) (d : ℤ) (count : ℕ → ℤ)
    (s : Sparse2 L ℂ) (i j : Fin L) : ℂ :=
  let upd_ij := [(i, occAdd (x i) (-d)), (j, occAdd (x j) (-d))]
  let parity_count_ij := count i.val + count j.val - 2
  ((slice s.ids s.vals (s.range i.val j.val) (s.range i.val (j.val + 1))).map fun e =>
    let a := e.1.1
    let b := e.1.2
    let u1 := updateConfig x b upd_ij spin_int d true
    let u2 := updateConfig x a u1.1 spin_int d true
    if u2.2 && u1.2 then
      let parity_count := parity_count_ij + count a.val + count b.val
        - ((if a ≥ j then 1 else 0) + (if a ≥ i then 1 else 0) + (if b ≥ j then 1 else 0) + (if b ≥ i then 1 else 0)
            - (if a ≥ b then 1 else 0) + (if j > i then 1 else 0))
      e.2 * ampRatio src x u2.1 * ((-2 * (parity_count % 2) + 1 : ℤ) : ℂ)
    else 0).sum

/-- `two_body_up_down_occ` (ab_initio_sparse.py:360-404). -/
noncomputable def sparseMixed (src : AmpSource L (Fin 4) Cache) (x : Cfg L) (up_count down_count : ℕ → ℤ) (s : Sparse2 L ℂ)
    (i j : Fin L) : ℂ :=
  let upd_ij := (updateConfig x j [(i, occAdd (x i) (-1))] 2 2 false).1
  let parity_count_ij := up_count i.val + down_count j.val - 2
  ((slice s.ids s.vals (s.range i.val j.val) (s.range i.val (j.val + 1))).map fun e =>
    let a := e.1.1
    let b := e.1.2
    let u1 := updateConfig x b upd_ij 2 2 true
    let u2 := updateConfig x a u1.1 1 1 true
    if u2.2 && u1.2 then
      let parity_count := parity_count_ij + up_count a.val + down_count b.val
        - ((if a ≥ i then 1 else 0) + (if b ≥ j then 1 else 0))
      e.2 * ampRatio src x u2.1 * ((-2 * (parity_count % 2) + 1 : ℤ) : ℂ)
    else 0).sum

/-- The pairs `(l[k], l[m])` for `(k, m)` in `triu_indices(len(l), k=1)` (ab_initio_sparse.py:300-302, 354-358). -/
def triuPairs {α : Type} : List α → List (α × α)
  | [] => []
  | u :: l => (l.map fun v => (u, v)) ++ triuPairs l

/-- `local_en_on_the_fly` for one sample (ab_initio_sparse.py:90-413). -/
noncomputable def sparseLocalEn (src : AmpSource L (Fin 4) Cache) (n_elecs : ℕ × ℕ) (s1 : Sparse1 L ℂ) (s2 : Sparse2 L ℂ) (x : Cfg L) : ℂ :=
  let up_count := cumsum (isOcc x 1)
  let down_count := cumsum (isOcc x 2)
  let up := nonzeroSize (occInds x 1) n_elecs.1
  let dn := nonzeroSize (occInds x 2) n_elecs.2
  (up.map fun i => sparseOne src x 1 1 up_count s1 i).sum + (dn.map fun i => sparseOne src x 2 2 down_count s1 i).sum
    + ((triuPairs up).map fun ij => sparseSame src x 1 1 up_count s2 ij.1 ij.2).sum
    + ((triuPairs dn).map fun ij => sparseSame src x 2 2 down_count s2 ij.1 ij.2).sum
    + (up.map fun i => (dn.map fun j => sparseMixed src x up_count down_count s2 i j).sum).sum

end GPSKet
