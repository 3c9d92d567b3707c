import Verif.Model.FloatSelect
import Verif.Model.HubbardOnTheFly
import Verif.Model.J1J2
import Verif.Model.AbInitioSparse

/-!
# The on-the-fly local energies in floating-point numbers that can be infinite or NaN

The kernels of Model/HubbardOnTheFly, Model/J1J2, Model/AbInitioOnTheFly and Model/AbInitioSparse are written down once more for numbers of any type `K`, with `c` for the constants
and `ratio` for `jnp.exp(log_amp_connected - log_amp)`; that for complex numbers they are the earlier ones is `C179_same`.  With `K = FC` the logarithms of vanishing amplitudes are
`-inf`.  Only the evaluation of connected amplitudes without fast updates is modelled here.
-/

namespace GPSKet.ZeroEnergy
open Floats Floats.F

variable {L N : ℕ} {K : Type} [Add K] [Mul K] [Zero K]

/-- The complex logarithm of an amplitude, `-inf` for zero (e.g. models/slater.py:247-260, `jnp.log` of a sum elsewhere). -/
noncomputable def logOf (psi : ℂ) : FC := ⟨F.log (fin ‖psi‖), fin psi.arg⟩

/-- `jnp.exp(log_amp_connected - log_amp)` (hubbard.py:166, J1J2.py:114, ab_initio.py:427, ab_initio_sparse.py:175). -/
noncomputable def floatRatio (log_amp_connected log_amp : FC) : FC := FC.exp (log_amp_connected + -log_amp)

/-! ## Hubbard models -/

/-- The inner `apply_hopping` (hubbard.py:148-184). -/
def hopTerm (c : ℂ → K) (ratio : List (Fin L × Fin 4) → K) (sample : Cfg L) (spin_int : Fin 4) (count : ℕ → ℤ)
    (annihilate_site create_site : Fin L) : K :=
  let start_occ := sample annihilate_site
  let end_occ := sample create_site
  if start_occ &&& spin_int = 0 ∨ ¬ (end_occ &&& spin_int = 0) then c 0
  else c (parityMultiplicatorHop annihilate_site create_site count : ℂ)
    * ratio [(annihilate_site, start_occ - spin_int), (create_site, end_occ + spin_int)]

/-- `get_hopping_term` (hubbard.py:147-193). -/
def hoppingTerm (c : ℂ → K) (ratio : List (Fin L × Fin 4) → K) (edges : List ((Fin L × Fin L) × ℂ)) (sample : Cfg L) (spin_int : Fin 4)
    (count : ℕ → ℤ) : K :=
  (edges.map fun e => (hopTerm c ratio sample spin_int count e.1.1 e.1.2 + hopTerm c ratio sample spin_int count e.1.2 e.1.1) * c (-e.2)).sum

/-- `local_en_on_the_fly` for one sample (hubbard.py:111-199). -/
def hubbardEnergy (c : ℂ → K) (ratio : List (Fin L × Fin 4) → K) (U : ℂ) (edges : List ((Fin L × Fin L) × ℂ)) (sample : Cfg L) : K :=
  let up_count := cumsum (isOcc sample 1)
  let down_count := cumsum (isOcc sample 2)
  let local_en := c (U * ((Finset.univ.filter fun j => sample j = 3).card : ℂ))
  if edges.length > 0 then
    local_en + hoppingTerm c ratio edges sample 1 up_count + hoppingTerm c ratio edges sample 2 down_count
  else local_en

/-- The local energy of a model with amplitudes `psi` (hubbard.py:105-216, `use_fast_update=False`). -/
noncomputable def floatHubbard (psi : Cfg L → ℂ) (U : ℂ) (edges : List ((Fin L × Fin L) × ℂ)) (sample : Cfg L) : FC :=
  hubbardEnergy FC.ofC (fun upd => floatRatio (logOf (psi (setSites sample upd))) (logOf (psi sample))) U edges sample

/-! ## Spin models -/

/-- `inner_vmap` with `compute_element` (J1J2.py:92-122). -/
def bondEnergy (c : ℂ → K) (ratio : List (Fin N × ℤ) → K) (sample : Fin N → ℤ) (bond : (Fin N × Fin N) × Matrix (Fin 4) (Fin 4) ℂ) : K :=
  let basis_index := J1J2.basisIndex (sample bond.1.1) (sample bond.1.2)
  let connected_index := J1J2.offDiagConnected basis_index
  let off_diag :=
    if connected_index ≠ basis_index then
      c (bond.2 basis_index connected_index) *
        ratio [(bond.1.1, (J1J2.newOcc connected_index).1), (bond.1.2, (J1J2.newOcc connected_index).2)]
    else c 0
  off_diag + c (bond.2 basis_index basis_index)

/-- `local_en_on_the_fly` for one sample (J1J2.py:80-124). -/
def spinEnergy (c : ℂ → K) (ratio : List (Fin N × ℤ) → K) (bonds : List ((Fin N × Fin N) × Matrix (Fin 4) (Fin 4) ℂ)) (sample : Fin N → ℤ) : K :=
  (bonds.map (bondEnergy c ratio sample)).sum

/-- The local energy of a model with amplitudes `psi` (J1J2.py:76-129, `use_fast_update=False`). -/
noncomputable def floatSpin (psi : (Fin N → ℤ) → ℂ) (bonds : List ((Fin N × Fin N) × Matrix (Fin 4) (Fin 4) ℂ)) (sample : Fin N → ℤ) : FC :=
  spinEnergy FC.ofC (fun upd => floatRatio (logOf (psi (setSites sample upd))) (logOf (psi sample))) bonds sample

/-! ## Molecules -/

/-- `amp_ratio * parity_multiplicator` of a one-body term (ab_initio.py:417-427, 434, 464, 503-515). -/
def one (c : ℂ → K) (ratio : List (Fin L × Fin 4) → K) (x : Cfg L) (d : ℤ) (count : ℕ → ℤ) (i a : Fin L) : K :=
  ratio (hopUpdate x d i a) * c (parityMultiplicatorHop i a count : ℂ)

/-- Two hops of the same spin (ab_initio.py:602-652, 720-770). -/
def same (c : ℂ → K) (ratio : List (Fin L × Fin 4) → K) (x : Cfg L) (d : ℤ) (count : ℕ → ℤ) (i a j b : Fin L) : K :=
  let m := parityMultiplicatorHop i a count * parityMultiplicatorHop j b count
  let left_lim := min j.val b.val
  let right_lim := max j.val b.val - 1
  let m := if i.val ≤ right_lim ∧ i.val > left_lim then -m else m
  let m := if a.val ≤ right_lim ∧ a.val > left_lim then -m else m
  c (m : ℂ) * ratio (hopUpdate x d i a ++ hopUpdate x d j b)

/-- A hop of each spin (ab_initio.py:857-896). -/
def mixed (c : ℂ → K) (ratio : List (Fin L × Fin 4) → K) (x : Cfg L) (up_count down_count : ℕ → ℤ) (i a j b : Fin L) : K :=
  c ((parityMultiplicatorHop i a up_count * parityMultiplicatorHop j b down_count : ℤ) : ℂ)
    * ratio (prevMove x (prevMove x (hopUpdate x 1 i a) j (-2)) b 2)

/-- The terms with two hops of the same spin (ab_initio.py:590-706, 708-824). -/
noncomputable def sameTerms (c : ℂ → K) (ratio : List (Fin L × Fin 4) → K) (eri : Fin L → Fin L → Fin L → Fin L → ℂ) (x : Cfg L) (d : ℤ)
    (count : ℕ → ℤ) (occ unocc : List (Fin L)) : K :=
  (occ.map fun i => (unocc.map fun a => c (1 / 2) * ((occ.filter fun j => decide (j ≠ i)).map fun j =>
    ((unocc.filter fun b => decide (b ≠ a)).map fun b => c (eri i a j b) * same c ratio x d count i a j b).sum).sum).sum).sum

/-- `local_en_on_the_fly` for one sample (ab_initio.py:266-955) with `return_local_RDMs=False`.  The terms without amplitudes are one constant. -/
noncomputable def moleculeEnergy (c : ℂ → K) (ratio : List (Fin L × Fin 4) → K) (n_elecs : ℕ × ℕ) (t : Fin L → Fin L → ℂ)
    (eri : Fin L → Fin L → Fin L → Fin L → ℂ) (x : Cfg L) : K :=
  let up_count := cumsum (isOcc x 1)
  let down_count := cumsum (isOcc x 2)
  let up := nonzeroSize (occInds x 1) n_elecs.1
  let dn := nonzeroSize (occInds x 2) n_elecs.2
  let up' := nonzeroSize (unoccInds x 1) (L - n_elecs.1)
  let dn' := nonzeroSize (unoccInds x 2) (L - n_elecs.2)
  c ((up.map fun i => t i i).sum + (dn.map fun i => t i i).sum
    + (up.map fun i => (dn.map fun j => eri i i j j).sum).sum
    + 1 / 2 * (up.map fun i => (up.map fun j => eri i i j j).sum).sum
    + 1 / 2 * (up.map fun i => (up'.map fun a => eri i a a i).sum).sum
    + 1 / 2 * (dn.map fun i => (dn.map fun j => eri i i j j).sum).sum
    + 1 / 2 * (dn.map fun i => (dn'.map fun a => eri i a a i).sum).sum)
    + (up.map fun i => (up'.map fun a => c (abOneValue t eri up dn up' i a) * one c ratio x 1 up_count i a).sum).sum
    + (dn.map fun i => (dn'.map fun a => c (abOneValue t eri dn up dn' i a) * one c ratio x 2 down_count i a).sum).sum
    + sameTerms c ratio eri x 1 up_count up up' + sameTerms c ratio eri x 2 down_count dn dn'
    + (up.map fun i => (up'.map fun a => (dn.map fun j => (dn'.map fun b =>
        c (eri i a j b) * mixed c ratio x up_count down_count i a j b).sum).sum).sum).sum

/-- `get_connected_log_amp` without fast updates (ab_initio.py:400-415): the entries are written in reverse order. -/
def scanSites (x : Cfg L) (upd : List (Fin L × Fin 4)) : Cfg L := upd.reverse.foldl (fun y u => Function.update y u.1 u.2) x

/-- The local energy of a model with amplitudes `psi` (ab_initio.py:243-955, `use_fast_update=False`). -/
noncomputable def floatMolecule (psi : Cfg L → ℂ) (n_elecs : ℕ × ℕ) (t : Fin L → Fin L → ℂ) (eri : Fin L → Fin L → Fin L → Fin L → ℂ)
    (sample : Cfg L) : FC :=
  moleculeEnergy FC.ofC (fun upd => floatRatio (logOf (psi (scanSites sample upd))) (logOf (psi sample))) n_elecs t eri sample

/-- `compute_1B_up`, `compute_1B_down` (ab_initio_sparse.py:158-233). -/
def sparseOneBody (c : ℂ → K) (ratio : List (Fin L × Fin 4) → K) (x : Cfg L) (spin_int : Fin 4) (d : ℤ) (count : ℕ → ℤ)
    (s : Sparse1 L ℂ) (i : Fin L) : K :=
  ((slice s.ids s.vals (s.range i.val) (s.range (i.val + 1))).map fun e =>
    c e.2 * (if x e.1 &&& spin_int = 0 then one c ratio x d count i e.1 else if i = e.1 then c 1 else c 0)).sum

/-- `two_body_up_up_occ`, `two_body_down_down_occ` (ab_initio_sparse.py:250-298, 304-352). -/
def sparseSameSpin (c : ℂ → K) (ratio : List (Fin L × Fin 4) → K) (x : Cfg L) (spin_int : Fin 4) (d : ℤ) (count : ℕ → ℤ)
    (s : Sparse2 L ℂ) (i j : Fin L) : K :=
  let upd_ij := [(i, occAdd (x i) (-d)), (j, occAdd (x j) (-d))]
  let parity_count_ij := count i.val + count j.val - 2
  ((slice s.ids s.vals (s.range i.val j.val) (s.range i.val (j.val + 1))).map fun e =>
    let a := e.1.1
    let b := e.1.2
    let u1 := updateConfig x b upd_ij spin_int d true
    let u2 := updateConfig x a u1.1 spin_int d true
    if u2.2 && u1.2 then
      let parity_count := parity_count_ij + count a.val + count b.val
        - ((if a ≥ j then 1 else 0) + (if a ≥ i then 1 else 0) + (if b ≥ j then 1 else 0) + (if b ≥ i then 1 else 0)
            - (if a ≥ b then 1 else 0) + (if j > i then 1 else 0))
      c e.2 * ratio u2.1 * c ((-2 * (parity_count % 2) + 1 : ℤ) : ℂ)
    else c 0).sum

/-- `two_body_up_down_occ` (ab_initio_sparse.py:360-404). -/
def sparseBothSpins (c : ℂ → K) (ratio : List (Fin L × Fin 4) → K) (x : Cfg L) (up_count down_count : ℕ → ℤ) (s : Sparse2 L ℂ)
    (i j : Fin L) : K :=
  let upd_ij := (updateConfig x j [(i, occAdd (x i) (-1))] 2 2 false).1
  let parity_count_ij := up_count i.val + down_count j.val - 2
  ((slice s.ids s.vals (s.range i.val j.val) (s.range i.val (j.val + 1))).map fun e =>
    let a := e.1.1
    let b := e.1.2
    let u1 := updateConfig x b upd_ij 2 2 true
    let u2 := updateConfig x a u1.1 1 1 true
    if u2.2 && u1.2 then
      let parity_count := parity_count_ij + up_count a.val + down_count b.val
        - ((if a ≥ i then 1 else 0) + (if b ≥ j then 1 else 0))
      c e.2 * ratio u2.1 * c ((-2 * (parity_count % 2) + 1 : ℤ) : ℂ)
    else c 0).sum

/-- `local_en_on_the_fly` for one sample (ab_initio_sparse.py:90-413). -/
def sparseEnergy (c : ℂ → K) (ratio : List (Fin L × Fin 4) → K) (n_elecs : ℕ × ℕ) (s1 : Sparse1 L ℂ) (s2 : Sparse2 L ℂ) (x : Cfg L) : K :=
  let up_count := cumsum (isOcc x 1)
  let down_count := cumsum (isOcc x 2)
  let up := nonzeroSize (occInds x 1) n_elecs.1
  let dn := nonzeroSize (occInds x 2) n_elecs.2
  (up.map fun i => sparseOneBody c ratio x 1 1 up_count s1 i).sum + (dn.map fun i => sparseOneBody c ratio x 2 2 down_count s1 i).sum
    + ((triuPairs up).map fun ij => sparseSameSpin c ratio x 1 1 up_count s2 ij.1 ij.2).sum
    + ((triuPairs dn).map fun ij => sparseSameSpin c ratio x 2 2 down_count s2 ij.1 ij.2).sum
    + (up.map fun i => (dn.map fun j => sparseBothSpins c ratio x up_count down_count s2 i j).sum).sum

/-- The local energy of a model with amplitudes `psi` (ab_initio_sparse.py:90-413, `use_fast_update=False`). -/
noncomputable def floatSparse (psi : Cfg L → ℂ) (n_elecs : ℕ × ℕ) (s1 : Sparse1 L ℂ) (s2 : Sparse2 L ℂ) (sample : Cfg L) : FC :=
  sparseEnergy FC.ofC (fun upd => floatRatio (logOf (psi (scanSites sample upd))) (logOf (psi sample))) n_elecs s1 s2 sample

end GPSKet.ZeroEnergy
