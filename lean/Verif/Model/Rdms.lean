import Verif.Model.AbInitioOnTheFly

/-! # Model of `scripts/cpd-backflow/cpd_backflow/rdms.py` and `corrfunc.py` -/

namespace GPSKet.Rdms

variable {L : ℕ} {Cache : Type}

/-- One- and two-body arrays. -/
abbrev Arr1 (L : ℕ) := Fin L → Fin L → ℂ
abbrev Arr2 (L : ℕ) := Fin L → Fin L → Fin L → Fin L → ℂ

/-- The numbers the script takes from the configuration and from MPI: the ranks, the chains of the sampler on each rank,
`config.evaluate.n_samples` and `config.evaluate.chunk_size` (rdms.py:75-79). -/
structure Setup where
  nodes : ℕ
  chains : ℕ
  nSamples : ℕ
  chunkSize : ℕ

/-- The samples on all ranks together that `vs.sample()` draws after `vs.n_samples = chunk_size` (rdms.py:82, 89).  NetKet's
`MCState.n_samples` is the total over all ranks; it is rounded up to a multiple of the total number of chains
(`chain_length = ceil(n_samples / n_chains)`). -/
def drawn (c : Setup) : ℕ := c.nodes * c.chains * ((c.chunkSize + c.nodes * c.chains - 1) / (c.nodes * c.chains))

/-- `n_chunks` (rdms.py:76-83); `none` for the two `ValueError`s.  A chunk size of zero raises as well (`%` by zero). -/
def nChunks (c : Setup) : Option ℕ :=
  if c.nSamples % c.nodes ≠ 0 then none
  else if c.chunkSize = 0 then none
  else if (c.nSamples / c.nodes) % c.chunkSize ≠ 0 then none
  else some ((c.nSamples / c.nodes) / c.chunkSize)

/-- The reordering at the end (rdms.py:113-115): `rdm2 *= 2`, then `rdm2[:, k, k, :] -= rdm1.T` for all `k`. -/
noncomputable def reorder (rdm1 : Arr1 L) (rdm2 : Arr2 L) : Arr2 L := fun p q r s =>
  (List.finRange L).foldl (fun v k => if q = k ∧ r = k then v - rdm1 s p else v) (2 * rdm2 p q r s)

/-- The two arrays `main` saves (rdms.py:84-120).  `samples i k` is the `k`-th of all samples of all ranks in the `i`-th chunk: the
sum over the samples of a rank and the MPI sum over the ranks are one sum.  The sampling itself and the logging are not modelled. -/
noncomputable def savedRDMs (src : AmpSource L (Fin 4) Cache) (n_elec : ℕ × ℕ) (c : Setup) (samples : ℕ → ℕ → Cfg L) :
    Option (Arr1 L × Arr2 L) :=
  match nChunks c with
  | none => none
  | some m =>
    let sum1 : Arr1 L := (List.range m).foldl (fun acc i => fun p q =>
      acc p q + ((List.range (drawn c)).map fun k => (abLocalRDMs src n_elec (samples i k)).1 (p, q)).sum) (fun _ _ => 0)
    let sum2 : Arr2 L := (List.range m).foldl (fun acc i => fun p q r s =>
      acc p q r s + ((List.range (drawn c)).map fun k => (abLocalRDMs src n_elec (samples i k)).2 (p, q, r, s)).sum)
      (fun _ _ _ _ => 0)
    let rdm1 : Arr1 L := fun p q => sum1 p q / c.nSamples
    let rdm2 : Arr2 L := fun p q r s => sum2 p q r s / c.nSamples
    some (rdm1, reorder rdm1 rdm2)

/-! ## `corrfunc.py`

The functions of scripts/cpd-backflow/plots/hsheet_corr.py:9-75 are copies of these. -/

/-- `spin_spin_correlation` before `.real` (corrfunc.py:18-27). -/
noncomputable def spinSpinC (rdm1 : Arr1 L) (rdm2 : Arr2 L) (PA PB : Arr1 L) : ℂ :=
  let g : Arr2 L := fun i j k l => -(rdm2 i j k l / 6 + rdm2 i l k j / 3)
  let one := ∑ i, ∑ j, ∑ k, PA i k * PB j k * rdm1 i j
  let two := ∑ i, ∑ j, ∑ k, ∑ l, PA i j * PB k l * g i j k l
  1 / 4 * one + 1 / 2 * two

/-- `spin_spin_correlation` (corrfunc.py:5-29, hsheet_corr.py:9-40) -/
noncomputable def spinSpin (rdm1 : Arr1 L) (rdm2 : Arr2 L) (PA PB : Arr1 L) : ℝ := (spinSpinC rdm1 rdm2 PA PB).re

/-- `my_proj[s]` (corrfunc.py:38-40) -/
def proj (s : Fin L) : Arr1 L := fun i j => if i = s ∧ j = s then 1 else 0

/-- `get_correlations` (corrfunc.py:41-47, hsheet_corr.py:42-55), for the two loaded arrays -/
noncomputable def correlations (rdm1 : Arr1 L) (rdm2 : Arr2 L) (a b : Fin L) : ℝ := spinSpin rdm1 rdm2 (proj a) (proj b)

/-- An index into an axis of length 36, where negative indices count from the end (numpy; no index here is outside of -36..35). -/
def at36 (i : ℤ) : Fin 36 := ⟨(i % 36).toNat, by omega⟩

/-- The loops over the bulk atoms and the offsets of a shell, and the division by 4 (corrfunc.py:55-69). -/
noncomputable def shell (corr : Fin 36 → Fin 36 → ℝ) (bulk offsets : List ℤ) : ℝ :=
  (bulk.foldl (fun c a => offsets.foldl (fun c d => c + corr (at36 a) (at36 (a + d))) c) 0) / 4

/-- `radial_correlations` (corrfunc.py:49-70, hsheet_corr.py:57-75) -/
noncomputable def radial (corr : Fin 36 → Fin 36 → ℝ) : List ℝ :=
  let bulk : List ℤ := [14, 15, 20, 21]
  let c0 := ((bulk.map fun a => corr (at36 a) (at36 a)).sum) / 4
  [c0, shell corr bulk [-6, -1, 6, 1], shell corr bulk [-7, 5, 7, -5], shell corr bulk [-12, -2, 12, 2]]

end GPSKet.Rdms
