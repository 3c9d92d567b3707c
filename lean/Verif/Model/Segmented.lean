import Verif.Model.Hilbert
import Mathlib.Data.Complex.Basic
import Mathlib.Algebra.BigOperators.Fin

/-!
# Model of `GPSKet/models/segmented_qGPS.py`

One sample (the code carries a batch axis).
-/

namespace GPSKet.Seg

variable {L D M : ℕ}

/-- `jnp.cumsum`. -/
def cumsum (l : List ℕ) : List ℕ := (List.range l.length).map fun k => (l.take (k + 1)).sum

/-- `pad(cumsum(f(indices[:-1])))` (segmented_qGPS.py:26-29, 49-52). -/
def paddedCounts (f : ℕ → ℕ) (indices : List ℕ) : List ℕ := 0 :: cumsum (indices.dropLast.map f)

/-- `count_spins` (segmented_qGPS.py:12-30): the counts of up- and of down-spins. -/
def countSpins (indices : List ℕ) : List ℕ × List ℕ :=
  (paddedCounts (fun v => ((v + 1) &&& 2) / 2) indices, paddedCounts (fun v => (v + 1) &&& 1) indices)

/-- `count_fermions` (segmented_qGPS.py:32-53). -/
def countFermions (indices : List ℕ) : List ℕ × List ℕ :=
  (paddedCounts (fun v => v &&& 1) indices, paddedCounts (fun v => (v &&& 2) / 2) indices)

/-- The Hilbert spaces `SegGPS.setup` distinguishes. `Spin` carries twice the total magnetisation, if constrained. -/
inductive Space where
  | fermionic (n_elec : Option (ℕ × ℕ))
  | spinHalf (two_sz : Option ℤ)
  | other

/-- What `SegGPS.setup` computes: `max_up`, `max_dn` and the count function; `none` when it raises (segmented_qGPS.py:68-90).
For an even number of sites `_total_sz` is an integer and `int(_total_sz) = two_sz / 2`; for unconstrained spaces `_total_sz` and
`_n_elec` are `None` and `int(None)` (or unpacking `None`) raises. -/
def setup (L : ℕ) : Space → Option ((ℤ × ℤ) × (List ℕ → List ℕ × List ℕ))
  | .fermionic (some n) => some ((n.1, n.2), countFermions)
  | .fermionic none => none
  | .spinHalf (some m) =>
    if L % 2 = 0 then
      let l := m / 2
      let L_half : ℤ := L / 2
      some ((L_half + l, L_half - l), countSpins)
    else
      let L_half : ℤ := (L - |m|) / 2
      if m > 0 then some ((L_half + m, L_half), countSpins) else some ((L_half, L_half - m), countSpins)
  | .spinHalf none => none
  | .other => none

/-- `epsilon[sample[i], m, i, count[0][i], count[1][i]]` (segmented_qGPS.py:113-116); `none` (NaN) if the counts are outside the
array, as `jnp.take_along_axis` fills with NaN. -/
def lookup {U W : ℕ} (epsilon : Fin D → Fin M → Fin L → Fin (U + 1) → Fin (W + 1) → ℂ) (d : Fin D) (m : Fin M) (i : Fin L) (u w : ℕ) :
    Option ℂ :=
  if h : u < U + 1 ∧ w < W + 1 then some (epsilon d m i ⟨u, h.1⟩ ⟨w, h.2⟩) else none

/-- Product of the entries over the sites (NaN if one is NaN). -/
noncomputable def siteProduct (vals : Fin L → Option ℂ) : Option ℂ :=
  if ∀ i, (vals i).isSome then some (∏ i, (vals i).getD 0) else none

/-- `SegGPS.__call__` on one sample with local indices `x` (segmented_qGPS.py:93-124). -/
noncomputable def logPsi {U W : ℕ} (countFn : List ℕ → List ℕ × List ℕ)
    (epsilon : Fin D → Fin M → Fin L → Fin (U + 1) → Fin (W + 1) → ℂ) (x : Fin L → Fin D) : Option ℂ :=
  let counts := countFn (List.ofFn fun i => (x i).val)
  let site_products : Fin M → Option ℂ := fun m =>
    siteProduct fun i => lookup epsilon (x i) m i (counts.1.getD i 0) (counts.2.getD i 0)
  if ∀ m, (site_products m).isSome then some (∑ m, (site_products m).getD 0) else none

end GPSKet.Seg
