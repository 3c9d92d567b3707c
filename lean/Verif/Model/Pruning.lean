import Verif.Model.AbInitioSparse

/-!
# Model of the removal of small integrals

`scripts/GPS_for_ab_initio/H_chain_timing_analysis.py` lines 58-63 and `get_molecular_system` in
`scripts/cpd-backflow/cpd_backflow/systems.py` lines 153-155 and 178-182.  The integrals are real numbers.
-/

namespace GPSKet.Pruning

variable {L : ℕ} {Cache : Type}

/-- `h1[abs(h1) < pruning_threshold] = 0.0` (systems.py:154, H_chain_timing_analysis.py:59) -/
noncomputable def prune1 (threshold : ℝ) (h1 : Fin L → Fin L → ℝ) : Fin L → Fin L → ℝ := fun p q =>
  if |h1 p q| < threshold then 0 else h1 p q

/-- `h2[abs(h2) < pruning_threshold] = 0.0` (systems.py:155, H_chain_timing_analysis.py:60) -/
noncomputable def prune2 (threshold : ℝ) (h2 : Fin L → Fin L → Fin L → Fin L → ℝ) : Fin L → Fin L → Fin L → Fin L → ℝ := fun p q r s =>
  if |h2 p q r s| < threshold then 0 else h2 p q r s

/-- The local energy of the Hamiltonian that the scripts construct: `AbInitioHamiltonianSparse` with the remaining integrals if a
threshold is given and not zero, otherwise `AbInitioHamiltonianOnTheFly` with all of them (systems.py:153-155, 178-182; in
H_chain_timing_analysis.py:58-63 there is always a threshold). -/
noncomputable def scriptLocalEn (src : AmpSource L (Fin 4) Cache) (n_elec : ℕ × ℕ) (threshold : Option ℝ) (h1 : Fin L → Fin L → ℝ)
    (h2 : Fin L → Fin L → Fin L → Fin L → ℝ) (x : Cfg L) : ℂ :=
  match threshold with
  | none => abLocalEn src n_elec (abT (fun p q => (h1 p q : ℂ)) fun p q r s => (h2 p q r s : ℂ)) (fun p q r s => (h2 p q r s : ℂ)) x
  | some t =>
    if t ≠ 0 then
      sparseLocalEn src n_elec (sparse1 fun p q => (prune1 t h1 p q : ℂ)) (sparse2 fun p q r s => (prune2 t h2 p q r s : ℂ)) x
    else abLocalEn src n_elec (abT (fun p q => (h1 p q : ℂ)) fun p q r s => (h2 p q r s : ℂ)) (fun p q r s => (h2 p q r s : ℂ)) x

end GPSKet.Pruning
