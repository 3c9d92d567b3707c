import Verif.Spec.Occupation

/-!
# Model of `occupancies_to_electrons` (`GPSKet/models/slater.py:22-44`)
-/

namespace GPSKet.Electrons

variable {L : ℕ}

/-- Bit test `x & 1` (up) or `(x & 2)/2` (down) being non-zero (slater.py:38-39). -/
def bit (s : Bool) (v : Fin 4) : Bool := if s then v.val / 2 % 2 == 1 else v.val % 2 == 1

/-- The column indices of `jnp.nonzero(a, size=size)` for a two-dimensional array `a` (slater.py:38-39): the non-zero entries in
row-major order, cut after `size` entries and filled up with 0. -/
def nonzeroCols (a : List (Fin L → Bool)) (size : ℕ) : List ℕ :=
  let found := (a.map fun row => ((List.finRange L).filter fun i => row i).map fun i => i.val).flatten
  found.take size ++ List.replicate (size - found.length) 0

/-- `jnp.reshape(y, (batch_size, -1))` for a list of length `batch_size * n`, entry `[b, k]` (slater.py:40-41). -/
def reshape (n : ℕ) (y : List ℕ) (b k : ℕ) : ℕ := y.getD (b * n + k) 0

/-- `occupancies_to_electrons(x, n_elec)` (slater.py:22-44): row `b` of the result, as a list of `n_up + n_down` sites. -/
def occupanciesToElectrons (x : List (Cfg L)) (n_up n_down : ℕ) (b : ℕ) : List ℕ :=
  let y_up := nonzeroCols (x.map fun c i => bit false (c i)) (x.length * n_up)
  let y_down := nonzeroCols (x.map fun c i => bit true (c i)) (x.length * n_down)
  (List.range n_up).map (reshape n_up y_up b) ++ (List.range n_down).map (reshape n_down y_down b)

end GPSKet.Electrons
