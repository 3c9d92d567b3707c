import Verif.Spec.Occupation

/-!
# Model of `GPSKet/operator/fermion.py`

Local occupations are modelled by `Fin 4` (the code uses `uint8` holding one of the Hilbert space's local
states `0,1,2,3`); `&` is `&&&`, and `-=`/`+=` on an occupation are subtraction/addition in `Fin 4`, which never
wrap around on the branches where the code performs them.
-/

namespace GPSKet

variable {L : ℕ}

/-- The integer the code uses for a spin: `1` for up, `2` for down
(e.g. operator/hamiltonian/hubbard.py:72,83). -/
def spinInt : Bool → Fin 4
  | false => 1
  | true => 2

/-- `(x & spin_int).astype(np.bool)` as `0/1` (operator/hamiltonian/hubbard.py:59-60). -/
def isOcc (x : Cfg L) (spin_int : Fin 4) (j : Fin L) : ℤ := if x j &&& spin_int = 0 then 0 else 1

/-- `np.cumsum(f)[k]`: inclusive prefix sum (operator/hamiltonian/hubbard.py:62-63). -/
def cumsum (f : Fin L → ℤ) (k : ℕ) : ℤ := ∑ j : Fin L, if j.val ≤ k then f j else 0

/-- `apply_hopping` (operator/fermion.py:11-47).  Returns the multiplicator and the content of the
array `x_prime` after the call.  `cummulative_count` is `none` for Python's `None`, otherwise the array as a
function of the index.  `parity_count & 1` is the remainder modulo 2. -/
def applyHopping (annihilate_site create_site : Fin L) (x_prime : Cfg L) (spin_int : Fin 4)
    (cummulative_count : Option (ℕ → ℤ)) : ℤ × Cfg L :=
  let start_occ := x_prime annihilate_site
  let final_occ := x_prime create_site
  let multiplicator : ℤ :=
    if start_occ &&& spin_int = 0 then 0
    else if create_site = annihilate_site then 1
    else if final_occ &&& spin_int = 0 then
      let left_limit := min annihilate_site.val create_site.val
      let right_limit := max annihilate_site.val create_site.val - 1
      let parity_count : ℤ :=
        match cummulative_count with
        | none => ∑ j : Fin L, if left_limit ≤ j.val ∧ j.val < right_limit then isOcc x_prime spin_int j else 0
        | some c => c right_limit - c left_limit
      if parity_count % 2 = 1 then -1 else 1
    else 0
  if multiplicator ≠ 0 then
    let x1 := Function.update x_prime annihilate_site (x_prime annihilate_site - spin_int)
    (multiplicator, Function.update x1 create_site (x1 create_site + spin_int))
  else (multiplicator, x_prime)

end GPSKet
