import Mathlib.Analysis.Complex.Norm
import Mathlib.Algebra.BigOperators.Fin
import Mathlib.Data.List.FinRange
import Mathlib.LinearAlgebra.Matrix.ConjTranspose
import Mathlib.Data.Matrix.Mul

/-!
# Model of `GPSKet/driver/minSR.py`

There are `R` MPI ranks with `K` chunks of `B` samples each; a sample is addressed by (rank, chunk, position in the chunk).  The
log-derivatives `O` and the local energies `E` of the samples are inputs.  MPI collectives are mathematical: `gather` stacks the
arrays of the ranks in the order of the ranks, `sum` adds them, `scatter` gives rank `r` the slice `r`.

The function `nk.jax.jacobian` is not part of the repository.  With `pdf` given, the versions of NetKet the code was written for
multiply row `s` by the square root of `pdf[s]` (as `QGTJacobianDenseUniqueSamples` needs); later ones return the plain rows.
The flag `rescale` tells which.
-/

namespace GPSKet.MinSR

/-- (rank, chunk, position). -/
abbrev Sample (R K B : ℕ) := Fin R × Fin K × Fin B

variable {R K B P : ℕ}

/-- A row of `nk.jax.jacobian(..., pdf=counts, dense=True, center=False)` (minSR.py:94-105, 128-137, 152-161, 192-204); the
two real components of mode `complex` are already combined. -/
noncomputable def jacobian (rescale : Bool) (O : Sample R K B → Fin P → ℂ) (counts : Sample R K B → ℝ) :
    Sample R K B → Fin P → ℂ :=
  fun s k => if rescale then (Real.sqrt (counts s) : ℂ) * O s k else O s k

/-- Sum over all samples the way the driver does it: chunk by chunk a sum over the ranks. -/
def chunkSum {α : Type} [AddCommMonoid α] (f : Sample R K B → α) : α := ∑ i, ∑ r, ∑ b, f (r, i, b)

/-- `_statistics(...).mean` (minSR.py:246). -/
noncomputable def energyMean (E : Sample R K B → ℂ) (counts : Sample R K B → ℝ) : ℂ :=
  ∑ r, ∑ s : Fin K × Fin B, E (r, s) * (counts (r, s) : ℂ)

/-- `loc_ens_centered` (minSR.py:65). -/
noncomputable def centred (E : Sample R K B → ℂ) (counts : Sample R K B → ℝ) (s : Sample R K B) : ℂ :=
  (E s - energyMean E counts) * (Real.sqrt (counts s) : ℂ)

/-- `O_avg` (minSR.py:113-117). -/
noncomputable def oAvg (J : Sample R K B → Fin P → ℂ) (counts : Sample R K B → ℝ) (k : Fin P) : ℂ :=
  chunkSum fun s => J s k * (counts s : ℂ)

/-- `loss_grad` (minSR.py:107-111). -/
noncomputable def lossGrad (J : Sample R K B → Fin P → ℂ) (e : Sample R K B → ℂ) (k : Fin P) : ℂ :=
  chunkSum fun s => J s k * e s

/-- `idx_i` / `idx_j` of a sample (minSR.py:71, 121-125, 145-149). -/
def index (s : Sample R K B) : ℕ :=
  (s.2.1 * B + s.2.2) + s.1 * B + s.2.1 * B * (R - 1)

/-- The order of the gathered rows of chunk `i` (minSR.py:126-127, 138-139). -/
def gathered (i : Fin K) : List (Sample R K B) :=
  (List.finRange R).flatMap fun r => (List.finRange B).map fun b => (r, i, b)

/-- All assignments `OO.at[ii, jj].set(...)` in the order in which they are done (minSR.py:120, 144, 168-169). -/
noncomputable def writes (C : Sample R K B → Fin P → ℂ) : List ((ℕ × ℕ) × ℂ) :=
  (List.finRange K).flatMap fun i => (List.finRange K).flatMap fun j =>
    (gathered i).flatMap fun s => (gathered j).map fun t =>
      ((index s, index t), ∑ k, C s k * (starRingEnd ℂ) (C t k))

/-- The neural tangent kernel `OO` on the root (minSR.py:81-84, 120-169); `C` are the centred rows (lines 143, 167). -/
noncomputable def kernel (C : Sample R K B → Fin P → ℂ) : Matrix (Fin (K * R * B)) (Fin (K * R * B)) ℂ :=
  fun p q => (writes C).foldl (fun (f : ℕ × ℕ → ℂ) w => Function.update f w.1 w.2) (fun _ => 0) (p.val, q.val)

/-- The sample at position `p` of the array of shape `(n_chunks, n_nodes, chunk_size)` flattened (minSR.py:172-177). -/
def restack (p : Fin (K * R * B)) : Sample R K B :=
  have hB : 0 < B := Nat.pos_of_ne_zero fun h => by have := p.isLt; simp [h] at this
  have hR : 0 < R := Nat.pos_of_ne_zero fun h => by have := p.isLt; simp [h] at this
  (⟨p.val / B % R, Nat.mod_lt _ hR⟩,
   ⟨p.val / B / R, by rw [Nat.div_lt_iff_lt_mul hR, Nat.div_lt_iff_lt_mul hB]; exact p.isLt⟩,
   ⟨p.val % B, Nat.mod_lt _ hB⟩)

/-- The entry of the solution that reaches a sample through `reshape((n_chunks, n_nodes, -1))`, `swapaxes` and `scatter`
(minSR.py:181-189). -/
def scattered (x : Fin (K * R * B) → ℂ) (s : Sample R K B) : ℂ :=
  if h : (s.2.1.val * R + s.1) * B + s.2.2 < K * R * B then x ⟨(s.2.1.val * R + s.1) * B + s.2.2, h⟩ else 0

/-- The dense update of `_forward_and_backward` (minSR.py:48-211); `solver` stands for `self.solver`. -/
noncomputable def update (rescale : Bool) (solver : Matrix (Fin (K * R * B)) (Fin (K * R * B)) ℂ → (Fin (K * R * B) → ℂ) →
    (Fin (K * R * B) → ℂ)) (O : Sample R K B → Fin P → ℂ) (E : Sample R K B → ℂ) (counts : Sample R K B → ℝ) : Fin P → ℂ :=
  let J := jacobian rescale O counts
  let C : Sample R K B → Fin P → ℂ := fun s k => J s k - oAvg J counts k
  let x := solver (kernel C) (fun p => centred E counts (restack p))
  fun k => chunkSum fun s => (starRingEnd ℂ) (C s k) * scattered x s

/-- The counts of a plain Monte-Carlo state (minSR.py:56-58). -/
noncomputable def uniformCounts : Sample R K B → ℝ := fun _ => 1 / ((R * (K * B) : ℕ) : ℝ)

/-- The cast of the update to real parameters (minSR.py:226-230). -/
def castReal (x : Fin P → ℂ) : Fin P → ℝ := fun k => (x k).re

/-- The dense Jacobian rows of complex parameters in mode `complex` (minSR.py:89-100): the derivatives with respect to all real parts,
followed by those with respect to all imaginary parts. -/
def splitRows {S : Type} (Ore Oim : S → Fin P → ℂ) : S → Fin (P + P) → ℂ := fun s => Fin.addCases (Ore s) (Oim s)

/-- `reassemble(unravel(dense_update))` for complex parameters in mode `complex` (minSR.py:213-221): NetKet's `tree_to_real` puts real part
plus `1j` times imaginary part; here the two parts of the update are complex numbers themselves, and nothing is cast (lines
226-230). -/
def reassemble (x : Fin (P + P) → ℂ) : Fin P → ℂ := fun k => x (Fin.castAdd P k) + Complex.I * x (Fin.natAdd P k)

end GPSKet.MinSR
