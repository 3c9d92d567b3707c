import Verif.Spec.Asep
import Verif.Spec.Occupation

/-!
# Model of `GPSKet/operator/asep.py` and `GPSKet/operator/hamiltonian/asep.py`

Chains have `n+1 ≥ 1` sites; local states are `Fin 2` (the code's arrays hold `0`/`1`).  Floats are real numbers.
-/

namespace GPSKet.Asep
open Spec (Chain AsepRates)

variable {n : ℕ}

/-- `apply_creation` (operator/asep.py:5-11): returned multiplicator and array afterwards. -/
def applyCreation (create_site : Fin (n + 1)) (x_prime : Chain n) : ℤ × Chain n :=
  let multiplicator : ℤ := 1 - (x_prime create_site).val
  if multiplicator ≠ 0 then (multiplicator, Function.update x_prime create_site 1) else (multiplicator, x_prime)

/-- `apply_annihilation` (operator/asep.py:15-21). -/
def applyAnnihilation (annihilate_site : Fin (n + 1)) (x_prime : Chain n) : ℤ × Chain n :=
  let multiplicator : ℤ := (x_prime annihilate_site).val
  if multiplicator ≠ 0 then (multiplicator, Function.update x_prime annihilate_site 0) else (multiplicator, x_prime)

/-- `apply_hopping` (operator/asep.py:25-38). -/
def applyHop (annihilate_site create_site : Fin (n + 1)) (x_prime : Chain n) : ℤ × Chain n :=
  let start_occ := x_prime annihilate_site
  let final_occ := x_prime create_site
  let multiplicator : ℤ := if start_occ ≠ final_occ ∧ start_occ = 1 then 1 else 0
  if multiplicator ≠ 0 then
    (multiplicator, Function.update (Function.update x_prime annihilate_site final_occ) create_site start_occ)
  else (multiplicator, x_prime)

/-- `apply_particle_hole` (operator/asep.py:42-51); the array is not changed. -/
def applyParticleHole (particle_site hole_site : Fin (n + 1)) (x_prime : Chain n) : ℤ :=
  if x_prime particle_site ≠ x_prime hole_site ∧ x_prime particle_site = 1 then 1 else 0

/-- The rows written by one pass of the loop over `i in range(L - 1)` (hamiltonian/asep.py:109-126). -/
noncomputable def bondRows (r : AsepRates) (x : Chain n) (i : Fin n) : List (Chain n × ℝ) :=
  let h1 := applyHop i.castSucc i.succ x
  let h2 := applyHop i.succ i.castSucc x
  [ (h1.2, r.p * Real.exp r.lambd * h1.1),
    (x, -r.p * applyParticleHole i.castSucc i.succ x),
    (h2.2, r.q * Real.exp (-r.lambd) * h2.1),
    (x, -r.q * applyParticleHole i.succ i.castSucc x) ]

/-- The rows written for one sample before the loop over bonds (hamiltonian/asep.py:75-107). -/
noncomputable def boundaryRows (r : AsepRates) (x : Chain n) : List (Chain n × ℝ) :=
  let a := applyCreation 0 x
  let g := applyAnnihilation 0 x
  let b := applyCreation (Fin.last n) x
  let d := applyAnnihilation (Fin.last n) x
  [ (a.2, r.alpha * Real.exp r.lambd * a.1),
    (x, -r.alpha * (1 - ((x 0).val : ℝ))),
    (g.2, r.gamma * Real.exp (-r.lambd) * g.1),
    (x, -r.gamma * ((x 0).val : ℝ)),
    (b.2, r.beta * Real.exp (-r.lambd) * b.1),
    (x, -r.beta * (1 - ((x (Fin.last n)).val : ℝ))),
    (d.2, r.delta * Real.exp r.lambd * d.1),
    (x, -r.delta * ((x (Fin.last n)).val : ℝ)) ]

/-- Output buffers: rows written so far (`count` is their number) and `sections`. -/
structure Buf (n : ℕ) where
  out : List (Chain n × ℝ)
  sections : ℕ → Option ℕ

/-- Body of the loop over the batch (hamiltonian/asep.py:74-128). -/
noncomputable def sampleStep (r : AsepRates) (b : Buf n) (xb : Chain n × ℕ) : Buf n :=
  let out := b.out ++ boundaryRows r xb.1
  let out := (List.finRange n).foldl (fun o i => o ++ bondRows r xb.1 i) out
  { out := out, sections := fun k => if k = xb.2 then some out.length else b.sections k }

/-- `_get_conn_flattened_kernel` (hamiltonian/asep.py:64-129). -/
noncomputable def kernel (r : AsepRates) (xs : List (Chain n)) : Buf n :=
  xs.zipIdx.foldl (sampleStep r) { out := [], sections := fun _ => none }

/-- Rows allocated by the kernel, for a batch of `nBatch` samples of `L` sites (hamiltonian/asep.py:69). -/
def alloc (nBatch L : ℕ) : ℕ := nBatch * 4 * (1 + L)

/-- `is_hermitian` (hamiltonian/asep.py:36-41). -/
noncomputable def isHermitian (r : AsepRates) : Bool :=
  let params_equal := decide (r.alpha + r.beta + r.gamma + r.delta = 2)
  if r.lambd = 0 ∧ params_equal = true ∧ r.p = r.q then true else false

end GPSKet.Asep
