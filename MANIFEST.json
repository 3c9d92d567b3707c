{
 "claims": [
  {
   "property": "C01",
   "status": "proved",
   "theorems": [
    "GPSKet.C01_hop_sign",
    "GPSKet.C01_hop_zero_iff"
   ],
   "note": "matrix element of c†_a c_i in Fock space, all sizes"
  },
  {
   "property": "C02",
   "status": "partial",
   "theorems": [
    "GPSKet.C02_count_argument_fails",
    "GPSKet.C02_count_argument_partial"
   ],
   "note": "property is false of the code (off-by-one window without counts); proved: refutation and the exact agreement condition"
  },
  {
   "property": "C03",
   "status": "proved",
   "theorems": [
    "GPSKet.C03_hop_conserves",
    "GPSKet.C03_hop_local",
    "GPSKet.C03_hop_zero_unchanged",
    "GPSKet.C03_hops_conserve"
   ],
   "note": ""
  },
  {
   "property": "C04",
   "status": "proved",
   "theorems": [
    "GPSKet.C04_hubbard_row",
    "GPSKet.C04_constructor"
   ],
   "note": ""
  },
  {
   "property": "C05",
   "status": "proved",
   "theorems": [
    "GPSKet.C05_hubbard_symmetric",
    "GPSKet.C05_hubbard_conserves"
   ],
   "note": ""
  },
  {
   "property": "C06",
   "status": "partial",
   "theorems": [
    "GPSKet.C06_sections_partial",
    "GPSKet.C06_sections_empty_edges_fails"
   ],
   "note": "false for an empty edge list (sections unwritten); proved for every non-empty edge list"
  },
  {
   "property": "C07",
   "status": "partial",
   "theorems": [
    "GPSKet.C07_local_energy_partial",
    "GPSKet.C07_local_energy_self_loop_fails"
   ],
   "note": "false for self-loop edges; proved for all others"
  },
  {
   "property": "C08",
   "status": "proved",
   "theorems": [
    "GPSKet.C08_asep_probability",
    "GPSKet.C08_asep_nonneg"
   ],
   "note": ""
  },
  {
   "property": "C09",
   "status": "proved",
   "theorems": [
    "GPSKet.C09_asep_generator",
    "GPSKet.C09_asep_entries"
   ],
   "note": ""
  },
  {
   "property": "C10",
   "status": "partial",
   "theorems": [
    "GPSKet.C10_is_hermitian_fails",
    "GPSKet.C10_symmetric_iff_partial"
   ],
   "note": "false of the code in both directions; exact symmetry condition proved"
  },
  {
   "property": "C100",
   "status": "partial",
   "theorems": [
    "GPSKet.ArgpsRun.C100_saved",
    "GPSKet.ArgpsRun.C100_partial",
    "GPSKet.ArgpsRun.C100_fails"
   ],
   "note": "Proved for a file that is not empty, and that it is not empty once the running process has saved it.  Refuted after a kill while the file is being written (it is truncated first, in every start)."
  },
  {
   "property": "C101",
   "status": "partial",
   "theorems": [
    "GPSKet.BackflowRun.C101_partial",
    "GPSKet.BackflowRun.C101_labels",
    "GPSKet.BackflowRun.C101_exceptions",
    "GPSKet.BackflowRun.C101_not_killed",
    "GPSKet.BackflowRun.C101_fails",
    "GPSKet.BackflowRun.C101_restart_fails"
   ],
   "note": "Proved when no process is killed and total_steps is at least 2; for all histories at most one step is missing.  Refuted for total_steps = 1 and for restarts with one step left (the condition is initial_step < total_steps), and in restarted descent finishing."
  },
  {
   "property": "C102",
   "status": "partial",
   "theorems": [
    "GPSKet.BackflowRun.C102_partial",
    "GPSKet.BackflowRun.C102_exists",
    "GPSKet.BackflowRun.C102_parameters_fails",
    "GPSKet.BackflowRun.C102_energy_fails",
    "GPSKet.BackflowRun.C102_torn_fails"
   ],
   "note": "Proved: no step was seen with both a lower energy and a lower variance, and the parameters are the result of the step with the recorded statistics.  Refuted: they are those after the update, not those with this energy; the energy need not be the lowest; after a kill while the file is written the script cannot be continued."
  },
  {
   "property": "C103",
   "status": "partial",
   "theorems": [
    "GPSKet.BackflowRun.C103_partial",
    "GPSKet.BackflowRun.C103_restored",
    "GPSKet.BackflowRun.C103_fails"
   ],
   "note": "Proved for drivers without a running average and without descent finishing.  Refuted for VMC_SRRMSProp: its running average is not saved, so that a restart begins with a new one."
  },
  {
   "property": "C104",
   "status": "partial",
   "theorems": [
    "GPSKet.Timer.C104_format",
    "GPSKet.Timer.C104_partial",
    "GPSKet.Timer.C104_nonneg",
    "GPSKet.Timer.C104_restart_fails",
    "GPSKet.Timer.C104_descent_fails"
   ],
   "note": "Proved for loops that begin at step 1.  Refuted after a restart (the first time is divided by the number of the step) and in descent finishing (remaining time negative, printed as almost a day)."
  },
  {
   "property": "C105",
   "status": "proved",
   "theorems": [
    "GPSKet.SlaterAmplitudes.C105_slater",
    "GPSKet.SlaterAmplitudes.C105_slater_fixed",
    "GPSKet.SlaterAmplitudes.C105_cpd_restricted",
    "GPSKet.SlaterAmplitudes.C105_cpd_unrestricted",
    "GPSKet.SlaterAmplitudes.C105_cpd_generalised",
    "GPSKet.SlaterAmplitudes.C105_backflow_restricted",
    "GPSKet.SlaterAmplitudes.C105_backflow_unrestricted",
    "GPSKet.SlaterAmplitudes.C105_backflow_generalised"
   ],
   "note": "All kinds of orbitals; environments of CPDBackflow are treated in C106."
  },
  {
   "property": "C106",
   "status": "partial",
   "theorems": [
    "GPSKet.BackflowScript.C106_restricted",
    "GPSKet.BackflowScript.C106_unrestricted",
    "GPSKet.BackflowScript.C106_generalised_partial",
    "GPSKet.BackflowScript.C106_generalised_one_down",
    "GPSKet.BackflowScript.C106_generalised_fails",
    "GPSKet.BackflowScript.C106_generalised_no_up_fails",
    "GPSKet.BackflowScript.C106_cutoff_fails",
    "GPSKet.BackflowScript.C106_hubbard_restricted",
    "GPSKet.BackflowScript.C106_hubbard",
    "GPSKet.BackflowScript.C106_hubbard_fails"
   ],
   "note": "Proved for restricted and unrestricted orbitals, with and without cutoff, and for generalised orbitals of molecules with equal numbers of electrons or one down electron and of the Hubbard model with unrestricted mean field.  Refuted: generalised orbitals with different numbers of electrons (the second block begins at the wrong column; with one down electron numpy repeats it, which changes nothing unless there is no up electron), with cutoff, and with a restricted mean field of the Hubbard model: exceptions."
  },
  {
   "property": "C107",
   "status": "partial",
   "theorems": [
    "GPSKet.BackflowScript.C107_partial",
    "GPSKet.BackflowScript.C107_fails",
    "GPSKet.BackflowScript.C107_amplitudes"
   ],
   "note": "Proved for models without cutoff.  Refuted for all models with cutoff: they announce fast updates, which they refuse."
  },
  {
   "property": "C108",
   "status": "partial",
   "theorems": [
    "GPSKet.BackflowScript.C108_top",
    "GPSKet.BackflowScript.C108_zero",
    "GPSKet.BackflowScript.C108_partial",
    "GPSKet.BackflowScript.C108_fails"
   ],
   "note": "Proved: the environments are the most strongly coupled orbitals of the matrix that is sorted, and this is the matrix of the claim if the basis leaves it as it is.  Refuted in general: for local bases the matrix is transformed twice, for the canonical basis not at all."
  },
  {
   "property": "C109",
   "status": "partial",
   "theorems": [
    "GPSKet.HubbardScript.C109_partial",
    "GPSKet.HubbardScript.C109_fails"
   ],
   "note": "Proved for closed chains.  Refuted for open chains: the edge between the ends is always there."
  },
  {
   "property": "C11",
   "status": "partial",
   "theorems": [
    "GPSKet.C11_local_energy_partial",
    "GPSKet.C11_heisenberg",
    "GPSKet.C11_local_energy_fails",
    "GPSKet.C11_couplings"
   ],
   "note": "holds for every Heisenberg/J1-J2 operator; false for two-site operators that are not exchange invariant (matrix indices are read with the sites' roles swapped)"
  },
  {
   "property": "C110",
   "status": "partial",
   "theorems": [
    "GPSKet.HubbardScript.C110_chain",
    "GPSKet.HubbardScript.C110_grid",
    "GPSKet.HubbardScript.C110_settings",
    "GPSKet.HubbardScript.C110_open_fails"
   ],
   "note": "Proved for all chains and for all rectangles with at least three sites in every closed direction, for the settings the script describes.  A rectangle that is open in both directions cannot be set."
  },
  {
   "property": "C111",
   "status": "proved",
   "theorems": [
    "GPSKet.HubbardScript.C111_chain",
    "GPSKet.HubbardScript.C111_grid",
    "GPSKet.HubbardScript.C111_double_edge"
   ],
   "note": "Edges of the graphs of the script; a pair of sites that is named twice would break it."
  },
  {
   "property": "C112",
   "status": "partial",
   "theorems": [
    "GPSKet.ArgpsModel.C112_invariant",
    "GPSKet.ArgpsModel.C112_direct_sampling",
    "GPSKet.ArgpsModel.C112_fast_update",
    "GPSKet.ArgpsModel.C112_gps",
    "GPSKet.ArgpsModel.C112_filter_partial",
    "GPSKet.ArgpsModel.C112_filter_fails",
    "GPSKet.ArgpsModel.C112_filter_plaquettes",
    "GPSKet.ArgpsModel.C112_fermionic"
   ],
   "note": "Proved for all models except FilterGPS, which always and only has the translations as symmetries (refuted with symmetries = all)."
  },
  {
   "property": "C113",
   "status": "partial",
   "theorems": [
    "GPSKet.ArgpsModel.C113_partial",
    "GPSKet.ArgpsModel.C113_fails"
   ],
   "note": "Refuted: the check reads a configuration entry that no model uses.  Proved: the samples are those of the normalised model with the same parameters."
  },
  {
   "property": "C114",
   "status": "proved",
   "theorems": [
    "GPSKet.AbInitioRun.C114_uninterrupted",
    "GPSKet.AbInitioRun.C114_best",
    "GPSKet.AbInitioRun.C114_terminates"
   ],
   "note": "Uninterrupted run from an empty directory; the exception for best_pars.pickle of H4x4x4.py is in the statement of C114_uninterrupted."
  },
  {
   "property": "C115",
   "status": "partial",
   "theorems": [
    "GPSKet.AbInitioRun.C115_partial",
    "GPSKet.AbInitioRun.C115_one_process",
    "GPSKet.AbInitioRun.C115_fails"
   ],
   "note": "Exactly row i = step i fails (a kill between a row and the next write of parameters.pickle repeats a step); proved: the rows are evaluations that were done, row i was trained by at most i steps and by at least i minus the number of restarts, and so for parameters.pickle; exact for one process."
  },
  {
   "property": "C116",
   "status": "partial",
   "theorems": [
    "GPSKet.AbInitioRun.C116_partial",
    "GPSKet.AbInitioRun.C116_partial_exact",
    "GPSKet.AbInitioRun.C116_fails",
    "GPSKet.AbInitioRun.C116_fails_unlogged"
   ],
   "note": "Fails after a kill between an evaluation and its row (truncated file, or parameters of no row). Proved: whenever the file can be read, its parameters were evaluated with a variance that no row is below; the full claim holds if no kill falls between an evaluation and its row."
  },
  {
   "property": "C117",
   "status": "partial",
   "theorems": [
    "GPSKet.AbInitioRun.C117_partial",
    "GPSKet.AbInitioRun.C117_finished",
    "GPSKet.AbInitioRun.C117_partial_raises",
    "GPSKet.AbInitioRun.C117_stuck",
    "GPSKet.AbInitioRun.C117_fails",
    "GPSKet.AbInitioRun.C117_fails_unreadable",
    "GPSKet.AbInitioRun.C117_fails_one_row"
   ],
   "note": "Proved: a finished run stays finished; at the end there are at least max_count - 1 rows after the best; exceptions occur only if parameters.pickle cannot be read or there is exactly one row. Refuted: max_count rows (the count of a restarted run is one too large), continuing after a kill while parameters.pickle is written, continuing with exactly one row (genfromtxt returns a 1D array)."
  },
  {
   "property": "C118",
   "status": "proved",
   "theorems": [
    "GPSKet.AbInitioRun.C118"
   ],
   "note": "All histories."
  },
  {
   "property": "C119",
   "status": "partial",
   "theorems": [
    "GPSKet.AbInitioRun.C119_partial",
    "GPSKet.AbInitioRun.C119_fails_early",
    "GPSKet.AbInitioRun.C119_fails_best",
    "GPSKet.AbInitioRun.C119_fails_again"
   ],
   "note": "The condition on best_var_arg at restart is inverted, and best_pars.pickle is not written for the first row that counts. Proved: at the end there is always a row with at least max_count - 1 later rows none of which is better."
  },
  {
   "property": "C12",
   "status": "proved",
   "theorems": [
    "GPSKet.C12_alloc",
    "GPSKet.C12_rows"
   ],
   "note": "All batches, orbital and electron numbers."
  },
  {
   "property": "C120",
   "status": "partial",
   "theorems": [
    "GPSKet.Reference.C120_partial",
    "GPSKet.Reference.C120_partial_zero",
    "GPSKet.Reference.C120_partial_zero_magnetization",
    "GPSKet.Reference.C120_partial_unprojected",
    "GPSKet.SpinProjection.C120_partial_numbers",
    "GPSKet.Reference.C120_fails"
   ],
   "note": "All configurations with non-zero amplitudes, and all configurations for which the model gives a number.  Refuted where four or more occupied orbitals are not paired: the amplitude is zero, the model gives NaN (C42)."
  },
  {
   "property": "C121",
   "status": "proved",
   "theorems": [
    "GPSKet.Reference.C121_fast_update",
    "GPSKet.Reference.C121_history",
    "GPSKet.Reference.C121_value"
   ],
   "note": "With M > 0 the admissible updates are those of C34 (its restrictions are shown there to be needed)."
  },
  {
   "property": "C122",
   "status": "partial",
   "theorems": [
    "GPSKet.Reference.C122_determinants",
    "GPSKet.Reference.C122_partial",
    "GPSKet.Reference.C122_fails"
   ],
   "note": "Complete for the three determinants; for the two Pfaffians where the amplitude is not zero. Refuted for zero amplitudes: NaN instead of zero if no occupied site has weight in the orbitals."
  },
  {
   "property": "C123",
   "status": "proved",
   "theorems": [
    "GPSKet.Integrals.C123",
    "GPSKet.Integrals.C123_same"
   ],
   "note": ""
  },
  {
   "property": "C124",
   "status": "partial",
   "theorems": [
    "GPSKet.Integrals.C124_partial",
    "GPSKet.Integrals.C124_stuck",
    "GPSKet.Integrals.C124_fails",
    "GPSKet.Integrals.C124_fails_h2"
   ],
   "note": "Holds if no file was left truncated; refuted otherwise: after a kill while a file is written no process ever gets to work again in that directory."
  },
  {
   "property": "C125",
   "status": "partial",
   "theorems": [
    "GPSKet.Integrals.C125_partial",
    "GPSKet.Integrals.C125_fails",
    "GPSKet.Integrals.C125_fails_basis"
   ],
   "note": "Molecule: proved for H50_1D.py, refuted for the other scripts. Basis: refuted."
  },
  {
   "property": "C126",
   "status": "partial",
   "theorems": [
    "GPSKet.Integrals.C126_partial",
    "GPSKet.Integrals.C126_partial_exchange",
    "GPSKet.Integrals.C126_fails"
   ],
   "note": "Complete for hf_orbitals.npy; exchange.npy can stay truncated after a kill while it is written (refuted), and has the right content otherwise."
  },
  {
   "property": "C127",
   "status": "proved",
   "theorems": [
    "GPSKet.Integrals.C127"
   ],
   "note": ""
  },
  {
   "property": "C128",
   "status": "proved",
   "theorems": [
    "GPSKet.CrystalRdm.C128",
    "GPSKet.CrystalRdm.C128_local",
    "GPSKet.CrystalRdm.C128_diagonal",
    "GPSKet.CrystalRdm.C128_trace"
   ],
   "note": ""
  },
  {
   "property": "C129",
   "status": "proved",
   "theorems": [
    "GPSKet.Geometry.C129_divisors",
    "GPSKet.Geometry.C129_empty",
    "GPSKet.Geometry.C129_sheet",
    "GPSKet.Geometry.C129_sheet_apart",
    "GPSKet.Geometry.C129_chain"
   ],
   "note": "The square root is rounded exactly (roundSqrt_spec)."
  },
  {
   "property": "C13",
   "status": "proved",
   "theorems": [
    "GPSKet.C13_rows",
    "GPSKet.C13_conserves",
    "GPSKet.C13_symmetric",
    "GPSKet.C13_symmetry_needed"
   ],
   "note": "Needs (pq|rs)=(rs|pq), shown necessary; over any field of characteristic other than 2."
  },
  {
   "property": "C130",
   "status": "proved",
   "theorems": [
    "GPSKet.Pruning.C130_local",
    "GPSKet.Pruning.C130_mean",
    "GPSKet.Pruning.C130_shift",
    "GPSKet.Pruning.C130_zero",
    "GPSKet.Pruning.C130_real"
   ],
   "note": ""
  },
  {
   "property": "C131",
   "status": "partial",
   "theorems": [
    "GPSKet.Pairing.C131_minsr",
    "GPSKet.Pairing.C131_sr_rmsprop",
    "GPSKet.Pairing.C131_single",
    "GPSKet.Pairing.C131_fails",
    "GPSKet.Pairing.C131_gradient_fails"
   ],
   "note": "Each driver is right for one layout of the array returned by NetKet; no layout suits both, with several chains of several samples."
  },
  {
   "property": "C132",
   "status": "partial",
   "theorems": [
    "GPSKet.Pairing.C132_mean",
    "GPSKet.Pairing.C132_variance",
    "GPSKet.Pairing.C132_error_partial",
    "GPSKet.Pairing.C132_error_fails"
   ],
   "note": "Mean and variance are right; the error is the standard error only with one sample per rank, otherwise it is too large by the root of the number of samples per rank."
  },
  {
   "property": "C133",
   "status": "partial",
   "theorems": [
    "GPSKet.EnergyGradient.C133_mean",
    "GPSKet.EnergyGradient.C133_real_partial",
    "GPSKet.EnergyGradient.C133_complex_partial",
    "GPSKet.EnergyGradient.C133_zero_fails"
   ],
   "note": "Holds if the derivative vanishes with the amplitude; refuted where an amplitude vanishes and its derivative does not, as such a configuration is never drawn."
  },
  {
   "property": "C134",
   "status": "partial",
   "theorems": [
    "GPSKet.OrbitalBasis.C134_same_system",
    "GPSKet.OrbitalBasis.C134_energies",
    "GPSKet.OrbitalBasis.C134_canonical",
    "GPSKet.OrbitalBasis.C134_atomic",
    "GPSKet.OrbitalBasis.C134_symmetric",
    "GPSKet.OrbitalBasis.C134_pruned_fails"
   ],
   "note": "Proved for unpruned integrals; with a pruning threshold the energies depend on the basis (C134_pruned_fails)."
  },
  {
   "property": "C135",
   "status": "partial",
   "theorems": [
    "GPSKet.OrbitalBasis.C135_orthonormal",
    "GPSKet.OrbitalBasis.C135_single",
    "GPSKet.OrbitalBasis.C135_open_fails"
   ],
   "note": "Proved for equal numbers of up and down electrons; refuted otherwise, because half of the electrons, rounded down, is not the number of occupied orbitals of either spin."
  },
  {
   "property": "C136",
   "status": "partial",
   "theorems": [
    "GPSKet.OrbitalBasis.C136_names",
    "GPSKet.OrbitalBasis.C136_rejects_partial",
    "GPSKet.OrbitalBasis.C136_fails"
   ],
   "note": "Listed names work, names without the letters local are rejected; misspelt names with these letters are accepted silently."
  },
  {
   "property": "C137",
   "status": "proved",
   "theorems": [
    "GPSKet.HoppingChain.C137_kernel",
    "GPSKet.HoppingChain.C137_invariant",
    "GPSKet.HoppingChain.C137_unbalanced_fails"
   ],
   "note": "Proved without a table and for accepted non-negative tables with equal row sums. Refuted for accepted tables with unequal row sums (nearest neighbours of an open chain): the uniform distribution is not kept for equal amplitudes."
  },
  {
   "property": "C138",
   "status": "proved",
   "theorems": [
    "GPSKet.HoppingChain.C138_irreducible",
    "GPSKet.HoppingChain.C138_unique",
    "GPSKet.HoppingChain.C138_exchange_only_fails",
    "GPSKet.HoppingChain.C138_disconnected_fails"
   ],
   "note": "Proved for positive hop probability and connected tables; refuted for hop_probability=0 and for disconnected tables, both of which the constructors accept."
  },
  {
   "property": "C139",
   "status": "proved",
   "theorems": [
    "GPSKet.HoppingChain.C139_converges",
    "GPSKet.HoppingChain.C139_converges_table",
    "GPSKet.HoppingChain.C139_two_sites_fails"
   ],
   "note": "Proved as stated; without the stated conditions it is refuted: one electron on two sites with equal amplitudes is back at its start after every even number of steps."
  },
  {
   "property": "C14",
   "status": "proved",
   "theorems": [
    "GPSKet.C14_local_energy",
    "GPSKet.C14_local_energy_operator"
   ],
   "note": "Plain re-evaluation and any fast update coherent on padded updates."
  },
  {
   "property": "C140",
   "status": "proved",
   "theorems": [
    "GPSKet.ExchangeChain.C140_kernel",
    "GPSKet.ExchangeChain.C140_invariant",
    "GPSKet.ExchangeChain.C140_irreducible",
    "GPSKet.ExchangeChain.C140_unique",
    "GPSKet.ExchangeChain.C140_converges",
    "GPSKet.ExchangeChain.C140_disconnected_fails"
   ],
   "note": "Proved as stated; for clusters that do not connect the sites reachability is refuted."
  },
  {
   "property": "C141",
   "status": "proved",
   "theorems": [
    "GPSKet.UniqueBias.C141_total",
    "GPSKet.UniqueBias.C141_unbiased",
    "GPSKet.UniqueBias.C141_biased_fails"
   ],
   "note": "The remark in brackets is proved too: for two configurations with probabilities p and 1-p, n_samples=2, batches of one and at most three batches, the expected share of the first is p + p(1-p)(1-2p)/3."
  },
  {
   "property": "C142",
   "status": "proved",
   "theorems": [
    "GPSKet.ZeroVariance.C142_hubbard",
    "GPSKet.ZeroVariance.C142_heisenberg",
    "GPSKet.ZeroVariance.C142_ab_initio",
    "GPSKet.ZeroVariance.C142_reports",
    "GPSKet.ZeroVariance.C142_minSR",
    "GPSKet.ZeroVariance.C142_sr_rmsprop"
   ],
   "note": ""
  },
  {
   "property": "C143",
   "status": "proved",
   "theorems": [
    "GPSKet.ZeroVariance.C143_variance",
    "GPSKet.ZeroVariance.C143_zero_iff",
    "GPSKet.ZeroVariance.C143_variational",
    "GPSKet.ZeroVariance.C143_error_bar",
    "GPSKet.ZeroVariance.C143_zeros_fails"
   ],
   "note": "C143_zeros_fails shows that the condition on vanishing amplitudes is needed."
  },
  {
   "property": "C144",
   "status": "proved",
   "theorems": [
    "GPSKet.SampledEnergy.C144_hopping",
    "GPSKet.SampledEnergy.C144_hopping_table",
    "GPSKet.SampledEnergy.C144_hopping_every_step",
    "GPSKet.SampledEnergy.C144_exchange",
    "GPSKet.SampledEnergy.C144_two_sites_fails"
   ],
   "note": "The remark in brackets is C144_two_sites_fails."
  },
  {
   "property": "C145",
   "status": "proved",
   "theorems": [
    "GPSKet.SampledEnergy.C145_hubbard",
    "GPSKet.SampledEnergy.C145_ab_initio",
    "GPSKet.SampledEnergy.C145_heisenberg"
   ],
   "note": "The on-the-fly evaluation assumes what C07/C11/C14 assume about a caching model (its update agrees with a full evaluation)."
  },
  {
   "property": "C146",
   "status": "proved",
   "theorems": [
    "GPSKet.Descent.C146_sr_rmsprop",
    "GPSKet.Descent.C146_minSR_holomorphic",
    "GPSKet.Descent.C146_minSR_real",
    "GPSKet.Descent.C146_minSR_complex_fails"
   ],
   "note": "The remark in brackets is C146_minSR_complex_fails."
  },
  {
   "property": "C147",
   "status": "proved",
   "theorems": [
    "GPSKet.Gauge.C147_hubbard",
    "GPSKet.Gauge.C147_ab_initio",
    "GPSKet.Gauge.C147_heisenberg",
    "GPSKet.Gauge.C147_sampler",
    "GPSKet.Gauge.C147_unique_gradient",
    "GPSKet.Gauge.C147_sr_rmsprop",
    "GPSKet.Gauge.C147_minSR",
    "GPSKet.Gauge.C147_training_sr_rmsprop",
    "GPSKet.Gauge.C147_training_minSR",
    "GPSKet.Gauge.C147_minSR_weighted_fails"
   ],
   "note": "The remark in brackets is C147_minSR_weighted_fails."
  },
  {
   "property": "C148",
   "status": "proved",
   "theorems": [
    "GPSKet.DirectEnergy.C148_batch_law",
    "GPSKet.DirectEnergy.C148_mean_and_error",
    "GPSKet.DirectEnergy.C148_energy",
    "GPSKet.DirectEnergy.C148_eigenstate",
    "GPSKet.DirectEnergy.C148_hubbard",
    "GPSKet.DirectEnergy.C148_ab_initio",
    "GPSKet.DirectEnergy.C148_heisenberg"
   ],
   "note": ""
  },
  {
   "property": "C149",
   "status": "partial",
   "theorems": [
    "GPSKet.DirectEnergy.C149_single_chain_partial",
    "GPSKet.DirectEnergy.C149_fails"
   ],
   "note": "False with two or more chains: the axis that is squeezed is the axis of the chains, so the call raises (C149_fails). Proved for one chain, which is the default."
  },
  {
   "property": "C15",
   "status": "proved",
   "theorems": [
    "GPSKet.C15_contract",
    "GPSKet.C15_contract_operator"
   ],
   "note": ""
  },
  {
   "property": "C150",
   "status": "proved",
   "theorems": [
    "GPSKet.SRPrecond.C150_roundtrip",
    "GPSKet.SRPrecond.C150_product",
    "GPSKet.SRPrecond.C150_solve",
    "GPSKet.SRPrecond.C150_preconditioner",
    "GPSKet.SRPrecond.C150_no_step_fails",
    "GPSKet.SRPrecond.C150_shift_refused"
   ],
   "note": "The remarks in brackets are C150_no_step_fails and the definition of initialAverage in C150_preconditioner."
  },
  {
   "property": "C151",
   "status": "partial",
   "theorems": [
    "GPSKet.UniqueCache.C151_current_partial",
    "GPSKet.UniqueCache.C151_settings",
    "GPSKet.UniqueCache.C151_same_samples",
    "GPSKet.UniqueCache.C151_fresh",
    "GPSKet.UniqueCache.C151_fails"
   ],
   "note": "Proved for parameters, sampler and number of samples. False for batch_size and max_sampling_steps, whose assignment keeps the cached samples, for the default batch size after a change of the number of samples, and after sample() (C151_fails)."
  },
  {
   "property": "C152",
   "status": "partial",
   "theorems": [
    "GPSKet.Keys.C152_exchange_sampler",
    "GPSKet.Keys.C152_hopping_sampler",
    "GPSKet.Keys.C152_direct_sampler",
    "GPSKet.Keys.C152_initializers",
    "GPSKet.Keys.C152_random_state_partial",
    "GPSKet.Keys.C152_random_state_fails",
    "GPSKet.Keys.C152_fitting_partial",
    "GPSKet.Keys.C152_fitting_fails"
   ],
   "note": "Proved for both Metropolis rules, the direct sampler, the initialisers and the unconstrained random states. False for random states with given electron numbers (two or more states) and for the state fitting (two or more steps): there a key is drawn from and then split; no two draws share a key."
  },
  {
   "property": "C153",
   "status": "partial",
   "theorems": [
    "GPSKet.Keys.C153_one_batch_partial",
    "GPSKet.Keys.C153_fails",
    "GPSKet.Keys.C153_next_estimate_fails",
    "GPSKet.Keys.C153_electrons"
   ],
   "note": "False: each further batch of proposals is the previous one shifted by one place, so the configurations that replace rejected ones are copies (C153_fails, for every generator); and the next estimate repeats all but as many configurations as the sampler made steps (C153_next_estimate_fails). Proved for a first batch without rejections, whose states use different keys by C152_random_state_partial."
  },
  {
   "property": "C154",
   "status": "proved",
   "theorems": [
    "GPSKet.TotalSpin.C154_hubbard",
    "GPSKet.TotalSpin.C154_hubbard_spin",
    "GPSKet.TotalSpin.C154_ab_initio",
    "GPSKet.TotalSpin.C154_ab_initio_spin"
   ],
   "note": ""
  },
  {
   "property": "C155",
   "status": "proved",
   "theorems": [
    "GPSKet.SignRule.C155_local_energy",
    "GPSKet.SignRule.C155_energy",
    "GPSKet.SignRule.C155_positive",
    "GPSKet.SignRule.C155_triangle_fails"
   ],
   "note": "The bond matrices are NetKet's, trusted as in C11. C155_triangle_fails shows that the colouring is needed."
  },
  {
   "property": "C156",
   "status": "proved",
   "theorems": [
    "GPSKet.LatticeSymmetry.C156_hubbard",
    "GPSKet.LatticeSymmetry.C156_ab_initio",
    "GPSKet.LatticeSymmetry.C156_heisenberg",
    "GPSKet.LatticeSymmetry.C156_without_signs_fails"
   ],
   "note": "Hubbard without self-loops (see C07), molecules with the eightfold-type symmetry C13 needs; the bracketed exception is C156_without_signs_fails (three sites, two electrons)."
  },
  {
   "property": "C157",
   "status": "partial",
   "theorems": [
    "GPSKet.SymmetricDet.C157_determinants",
    "GPSKet.SymmetricDet.C157_slater",
    "GPSKet.SymmetricDet.C157_local_energy",
    "GPSKet.SymmetricDet.closed_of_group",
    "GPSKet.SymmetricDet.C157_asymm_prod",
    "GPSKet.SymmetricDet.C157_asymm_partial",
    "GPSKet.SymmetricDet.C157_asymm_fails"
   ],
   "note": "Missing: ASymmqGPS with different coefficients, for which the property is false (C157_asymm_fails, a consequence of C67). C157_local_energy assumes that no amplitude of the sector vanishes (the code's logarithm is then finite)."
  },
  {
   "property": "C158",
   "status": "proved",
   "theorems": [
    "GPSKet.SpinProjection.C158_slater",
    "GPSKet.SpinProjection.C158_pfaffian",
    "GPSKet.SpinProjection.C158_water",
    "GPSKet.SpinProjection.C158_two_sites",
    "GPSKet.SpinProjection.C158_too_few_fails"
   ],
   "note": "leggauss enters through its documented property (exact for polynomials of degree below twice the number of points), proved for one and for three points. C158_too_few_fails: one point, two up and two down electrons."
  },
  {
   "property": "C159",
   "status": "proved",
   "theorems": [
    "GPSKet.ImagTime.C159_lowers",
    "GPSKet.ImagTime.C159_strict",
    "GPSKet.ImagTime.C159_values",
    "GPSKet.ImagTime.C159_long_step_fails"
   ],
   "note": "Stated for the exact amplitudes, wherever the returned state can be evaluated (see C52 for real models)."
  },
  {
   "property": "C16",
   "status": "proved",
   "theorems": [
    "GPSKet.C16_local_energy_operator",
    "GPSKet.C16_sparse_eq_dense"
   ],
   "note": "Needs (pq|rs)=(rs|pq) (see C13_symmetry_needed); plain re-evaluation and any fast update coherent on padded updates."
  },
  {
   "property": "C160",
   "status": "proved",
   "theorems": [
    "GPSKet.Expressive.C160_qgps",
    "GPSKet.Expressive.C160_qgps_linear",
    "GPSKet.Expressive.C160_qgps_monotone",
    "GPSKet.Expressive.C160_ar_full",
    "GPSKet.Expressive.C160_ar",
    "GPSKet.Expressive.C160_spin",
    "GPSKet.Expressive.C160_free",
    "GPSKet.Expressive.C160_fermions",
    "GPSKet.Expressive.C160_ar_monotone",
    "GPSKet.Expressive.C160_ar_full_monotone"
   ],
   "note": "C160_ar and C160_ar_full are stated for every constraint without dead ends; C160_spin, C160_free and C160_fermions are the constraints of the library."
  },
  {
   "property": "C161",
   "status": "proved",
   "theorems": [
    "GPSKet.OnTheFly.C161_product",
    "GPSKet.OnTheFly.C161_metric",
    "GPSKet.OnTheFly.C161_symmetric",
    "GPSKet.OnTheFly.C161_positive",
    "GPSKet.OnTheFly.C161_solve",
    "GPSKet.OnTheFly.C161_complex_average_fails",
    "GPSKet.OnTheFly.C161_real",
    "GPSKet.OnTheFly.C161_agrees_dense",
    "GPSKet.OnTheFly.C161_agrees_dense_unshifted",
    "GPSKet.OnTheFly.C161_to_dense_real",
    "GPSKet.OnTheFly.C161_array",
    "GPSKet.OnTheFly.C161_construct",
    "GPSKet.OnTheFly.C161_to_dense_holomorphic",
    "GPSKet.OnTheFly.C161_false_declaration_fails"
   ],
   "note": "C161_agrees_dense takes the rows of the Jacobian over the square root of the number of samples, as NetKet's centred jacobian returns them."
  },
  {
   "property": "C162",
   "status": "proved",
   "theorems": [
    "GPSKet.ModPhase.C162_modulus_and_phase",
    "GPSKet.ModPhase.C162_probability",
    "GPSKet.ModPhase.C162_spin",
    "GPSKet.ModPhase.C162_free",
    "GPSKet.ModPhase.C162_fermionic",
    "GPSKet.ModPhase.C162_sampling",
    "GPSKet.ModPhase.C162_energy",
    "GPSKet.ModPhase.C162_symmetry",
    "GPSKet.ModPhase.C162_symmetric_state_fails",
    "GPSKet.ModPhase.C162_local_energy_calls",
    "GPSKet.ModPhase.C162_default_full_fails"
   ],
   "note": "The bracketed exceptions are C162_symmetric_state_fails and C162_default_full_fails."
  },
  {
   "property": "C163",
   "status": "proved",
   "theorems": [
    "GPSKet.Expect.C163_chunks",
    "GPSKet.Expect.C163_statistics",
    "GPSKet.Expect.C163_zero_chunk",
    "GPSKet.Expect.C163_fermions",
    "GPSKet.Expect.C163_same",
    "GPSKet.Expect.C163_heisenberg",
    "GPSKet.Expect.C163_unique"
   ],
   "note": "NetKet's vmap_chunked and the forward pass of its expect are modelled as documented there; edges (i,i) and integrals without (pq|rs)=(rs|pq) are excluded as in C07, C14, C16."
  },
  {
   "property": "C164",
   "status": "proved",
   "theorems": [
    "GPSKet.ImagProjection.C164_minSR_holomorphic",
    "GPSKet.ImagProjection.C164_minSR_real",
    "GPSKet.ImagProjection.C164_exact",
    "GPSKet.ImagProjection.C164_sr_rmsprop",
    "GPSKet.ImagProjection.C164_minSR_complex_fails"
   ],
   "note": "The bracketed exception is refuted by C164_minSR_complex_fails (same mechanism as C47_complex_mode_fails and C146)."
  },
  {
   "property": "C165",
   "status": "proved",
   "theorems": [
    "GPSKet.DetExpressive.C165_slater",
    "GPSKet.DetExpressive.C165_slater_generalised",
    "GPSKet.DetExpressive.C165_slater_monotone",
    "GPSKet.DetExpressive.C165_cpd_restricted",
    "GPSKet.DetExpressive.C165_cpd_unrestricted",
    "GPSKet.DetExpressive.C165_cpd_generalised",
    "GPSKet.DetExpressive.C165_restricted_fails"
   ],
   "note": "The bracketed exception is C165_restricted_fails."
  },
  {
   "property": "C166",
   "status": "proved",
   "theorems": [
    "GPSKet.ExpectGrad.C166_formula",
    "GPSKet.ExpectGrad.C166_ranks",
    "GPSKet.ExpectGrad.C166_zero_chunk",
    "GPSKet.ExpectGrad.C166_energy",
    "GPSKet.ExpectGrad.C166_descent",
    "GPSKet.ExpectGrad.C166_fermions"
   ],
   "note": "NetKet's vjp and vjp_chunked are modelled as documented there; the condition on vanishing amplitudes is needed (C133_zero_fails)."
  },
  {
   "property": "C167",
   "status": "proved",
   "theorems": [
    "GPSKet.SupervisedSweep.C167_log",
    "GPSKet.SupervisedSweep.C167_log_real",
    "GPSKet.SupervisedSweep.C167_log_bias",
    "GPSKet.SupervisedSweep.C167_log_expand",
    "GPSKet.SupervisedSweep.C167_exp",
    "GPSKet.SupervisedSweep.C167_small_fails"
   ],
   "note": "opt_alpha = opt_noise = False; noise of exponential fits estimated from the targets, exponential fits for complex parameters without expansion and bias. The condition on small weights is needed (C167_small_fails)."
  },
  {
   "property": "C168",
   "status": "proved",
   "theorems": [
    "GPSKet.AsepSpectrum.C168_upper",
    "GPSKet.AsepSpectrum.C168_lower",
    "GPSKet.AsepSpectrum.C168_top",
    "GPSKet.AsepSpectrum.C168_stationary",
    "GPSKet.AsepSpectrum.C168_perron",
    "GPSKet.AsepSpectrum.C168_fluctuation"
   ],
   "note": "The matrix is that of the entries the operator returns. The part of the Perron-Frobenius theorem that is used is proved in Lemmas/PerronFrobenius."
  },
  {
   "property": "C169",
   "status": "proved",
   "theorems": [
    "GPSKet.StateFitting.C169",
    "GPSKet.StateFitting.C169_minibatch",
    "GPSKet.StateFitting.C169_fermionic"
   ],
   "note": "The bound on the distance for mini-batches that take all the data of equally large shards. Normalisation is that of C28 (C169_fermionic spells this out for given electron numbers)."
  },
  {
   "property": "C17",
   "status": "proved",
   "theorems": [
    "GPSKet.C17_one",
    "GPSKet.C17_two",
    "GPSKet.C17_nothing_else"
   ],
   "note": ""
  },
  {
   "property": "C170",
   "status": "proved",
   "theorems": [
    "GPSKet.GroundSpins.C170_lower",
    "GPSKet.GroundSpins.C170_upper",
    "GPSKet.GroundSpins.C170_ground",
    "GPSKet.GroundHubbard.C170_hubbard_lower",
    "GPSKet.GroundHubbard.C170_hubbard_upper",
    "GPSKet.GroundHubbard.C170_hubbard_ground",
    "GPSKet.GroundHubbard.C170_argps"
   ],
   "note": "The excluded case (remainder 1) has an even number of electrons of each spin on a periodic ring, where the signs do not fit."
  },
  {
   "property": "C171",
   "status": "proved",
   "theorems": [
    "GPSKet.FloatSelect.C171_select",
    "GPSKet.FloatSelect.C171_probabilities",
    "GPSKet.FloatSelect.C171_value",
    "GPSKet.FloatSelect.C171_zero_magnetisation",
    "GPSKet.FloatSelect.C171_init_cache",
    "GPSKet.FloatSelect.C171_outside_fails"
   ],
   "note": "The bracketed exception is proved for every even size by C171_zero_magnetisation and exhibited on two sites by C171_outside_fails."
  },
  {
   "property": "C172",
   "status": "partial",
   "theorems": [
    "GPSKet.DriverHistory.C172_weighted_mean_partial",
    "GPSKet.DriverHistory.C172_weights",
    "GPSKet.DriverHistory.C172_constant",
    "GPSKet.DriverHistory.C172_reset_fails",
    "GPSKet.DriverHistory.C172_restart_fails"
   ],
   "note": "Proved as long as the driver is not reset or restarted after its first step; for all histories the sum of the weights is given in closed form. Refuted after reset() (up to 1/(1-decay) times too large) and after a restart from a checkpoint (too small), since only one of average and step count starts again."
  },
  {
   "property": "C173",
   "status": "proved",
   "theorems": [
    "GPSKet.ImagTime.C173_state",
    "GPSKet.ImagTime.C173_energy",
    "GPSKet.ImagTime.C173_positive",
    "GPSKet.ImagTime.C173_long_step_fails"
   ],
   "note": "Exact arithmetic and exact fits; errors of the fits are not covered."
  },
  {
   "property": "C174",
   "status": "partial",
   "theorems": [
    "GPSKet.DriverSetup.C174_accepts",
    "GPSKet.DriverSetup.C174_step_partial",
    "GPSKet.DriverSetup.C174_real_mode_fails",
    "GPSKet.DriverSetup.C174_hash",
    "GPSKet.DriverSetup.C174_minsr_first",
    "GPSKet.DriverSetup.C174_minsr_chunks",
    "GPSKet.DriverSetup.C174_minsr_resize_fails"
   ],
   "note": "One rank (see C49 for the broadcast). Refuted for complex parameters in mode 'real', where no step can be made, and for minSR after a change of the number of samples, since the constructor fixes the chunk size of a state without one."
  },
  {
   "property": "C175",
   "status": "partial",
   "theorems": [
    "GPSKet.Systems.C175_molecule_partial",
    "GPSKet.Systems.C175_molecule_default",
    "GPSKet.Systems.C175_argps_molecule",
    "GPSKet.Systems.C175_parity",
    "GPSKet.Systems.C175_ion_fails",
    "GPSKet.Systems.C175_hubbard",
    "GPSKet.Systems.C175_half_filling_partial",
    "GPSKet.Systems.C175_half_filling_fails",
    "GPSKet.Systems.C175_heisenberg_fails",
    "GPSKet.Systems.C175_names",
    "GPSKet.Systems.C175_argps_names",
    "GPSKet.Systems.C175_argps_unknown"
   ],
   "note": "Refuted for ions (n_elec of a molecule is only used for the spin), for half filling of an odd number of sites, and for Heisenberg models (see C79). PySCF's rule for electron numbers and spin is assumed. The autoregressive script returns None for unknown names."
  },
  {
   "property": "C176",
   "status": "partial",
   "theorems": [
    "GPSKet.Parallel.C176_minsr",
    "GPSKet.Parallel.C176_srrmsprop_partial",
    "GPSKet.Parallel.C176_srrmsprop_complex_fails",
    "GPSKet.Parallel.C176_statefit_partial",
    "GPSKet.Parallel.C176_statefit_fails",
    "GPSKet.Parallel.C176_stratified",
    "GPSKet.Parallel.C176_unique",
    "GPSKet.Parallel.C176_fit_partial",
    "GPSKet.Parallel.C176_fit_flag_fails",
    "GPSKet.Parallel.C176_fit_serial_fails",
    "GPSKet.Parallel.C176_genlin",
    "GPSKet.Parallel.C176_molecule_partial",
    "GPSKet.Parallel.C176_molecule_fails",
    "GPSKet.Parallel.C176_run_partial",
    "GPSKet.Parallel.C176_run_fails",
    "GPSKet.Parallel.C176_judge"
   ],
   "note": "An operational semantics of collective calls (Spec/Parallel) with all interleavings; minSR, both sampled states and the generalised linear fit are safe without conditions; the SR-RMSProp driver, the state fitting, the linear fits, get_molecular_system and the ab-initio runs are safe under the stated conditions, and each condition is shown necessary by a theorem that a process waits for ever (or raises without mpi4py). The collectives within NetKet are taken to be the same on all processes."
  },
  {
   "property": "C177",
   "status": "partial",
   "theorems": [
    "GPSKet.SharedFiles.C177_checkpoint",
    "GPSKet.SharedFiles.C177_config_partial",
    "GPSKet.SharedFiles.C177_config_fails",
    "GPSKet.SharedFiles.C177_evaluate_root",
    "GPSKet.SharedFiles.C177_evaluate_partial",
    "GPSKet.SharedFiles.C177_evaluate_fails"
   ],
   "note": "A small-step semantics of processes with a shared directory, reductions and broadcasts (Spec/SharedFiles). The checkpoint is the same on all processes without conditions; the root always reads the old configuration and evaluates the last best parameters it wrote; the others do too if the last step wrote none. The two races are theorems with schedules."
  },
  {
   "property": "C178",
   "status": "partial",
   "theorems": [
    "GPSKet.ZeroSampler.C178_same",
    "GPSKet.ZeroSampler.C178_invariant",
    "GPSKet.ZeroSampler.C178_support",
    "GPSKet.ZeroSampler.C178_enter",
    "GPSKet.ZeroSampler.C178_converges_partial",
    "GPSKet.ZeroSampler.C178_frozen",
    "GPSKet.ZeroSampler.C178_zero_start_fails",
    "GPSKet.ZeroSampler.C178_disconnected_fails",
    "GPSKet.ZeroSampler.C178_inverse_partial",
    "GPSKet.ZeroSampler.C178_inverse_fails",
    "GPSKet.ZeroSampler.C178_exchange_invariant",
    "GPSKet.ZeroSampler.C178_exchange_converges_partial"
   ],
   "note": "The accept test in floating-point numbers with infinities and NaN; the chain agrees with the one of C137-C140 if there are no zeros. Convergence holds if single moves connect the support and the start is in the support or next to it; it is false otherwise, with witnesses, so the property without conditions is not provable."
  },
  {
   "property": "C179",
   "status": "partial",
   "theorems": [
    "GPSKet.ZeroEnergy.C179_same",
    "GPSKet.ZeroEnergy.C179_hubbard_partial",
    "GPSKet.ZeroEnergy.C179_ab_initio_partial",
    "GPSKet.ZeroEnergy.C179_heisenberg_partial",
    "GPSKet.ZeroEnergy.C179_zero_sample_fails"
   ],
   "note": "The kernels of C07, C11, C14 and C16 once more over floating-point numbers with infinities and NaN (no rounding), connected amplitudes without fast updates. Partial because moves have to connect the support and the start has to be inside; outside the values are infinite or NaN (C179_zero_sample_fails) and the chain may stay there (C178)."
  },
  {
   "property": "C18",
   "status": "proved",
   "theorems": [
    "GPSKet.C18_first_wins",
    "GPSKet.C18_compose",
    "GPSKet.C18_two_moves"
   ],
   "note": ""
  },
  {
   "property": "C180",
   "status": "partial",
   "theorems": [
    "GPSKet.FrozenRun.C180_single",
    "GPSKet.FrozenRun.C180_rows",
    "GPSKet.FrozenRun.C180_elsewhere",
    "GPSKet.FrozenRun.C180_progress_fails",
    "GPSKet.FrozenRun.own_split",
    "GPSKet.FrozenRun.equal_samples",
    "GPSKet.FrozenRun.bad_sample",
    "GPSKet.FrozenRun.evaluates_exists"
   ],
   "note": "The rows are right (C180_rows) and the progress is refuted for every run that starts at the reference configuration (C180_progress_fails). NetKet's estimators and SR are written down from their documentation; one process with one chain; no rounding, while orbitals converged by PySCF have small components in the virtual space. The Pfaffian references are not covered."
  },
  {
   "property": "C181",
   "status": "partial",
   "theorems": [
    "GPSKet.AsepMaximum.C181_reached",
    "GPSKet.AsepMaximum.C181_iff",
    "GPSKet.AsepMaximum.C181_symmetric_partial",
    "GPSKet.AsepMaximum.C181_equal_partial",
    "GPSKet.AsepMaximum.C181_no_field",
    "GPSKet.AsepMaximum.C181_tutorial_fails"
   ],
   "note": "False of the tutorial for every number of sites from two on and every non-zero counting field (C181_tutorial_fails); the exact condition is C181_iff."
  },
  {
   "property": "C182",
   "status": "proved",
   "theorems": [
    "GPSKet.SupervisedSweep.C182_exists",
    "GPSKet.SupervisedSweep.C182_changes",
    "GPSKet.SupervisedSweep.C182_bounded",
    "GPSKet.SupervisedSweep.C182_settles",
    "GPSKet.SupervisedSweep.C182_accumulates",
    "GPSKet.SupervisedSweep.C182_objective",
    "GPSKet.SupervisedSweep.C182_stationary"
   ],
   "note": "Complex parameters without bias, without optimisation of the precisions and of the noise."
  },
  {
   "property": "C183",
   "status": "proved",
   "theorems": [
    "GPSKet.SampledUpdate.C183_exact",
    "GPSKet.SampledUpdate.C183_chains",
    "GPSKet.SampledUpdate.C183_chains_complex",
    "GPSKet.SampledUpdate.C183_chains_real",
    "GPSKet.SampledUpdate.C183_hopping",
    "GPSKet.SampledUpdate.C183_exchange",
    "GPSKet.SampledUpdate.C183_direct",
    "GPSKet.SampledUpdate.C183_direct_real"
   ],
   "note": "NetKet's Jacobian rows weighted as in C47; plain rows are covered by C47_plain_rows."
  },
  {
   "property": "C184",
   "status": "proved",
   "theorems": [
    "GPSKet.SampledUpdate.C184_holomorphic",
    "GPSKet.SampledUpdate.C184_real",
    "GPSKet.SampledUpdate.C184_hopping",
    "GPSKet.SampledUpdate.C184_exchange",
    "GPSKet.SampledUpdate.C184_direct"
   ],
   "note": ""
  },
  {
   "property": "C185",
   "status": "proved",
   "theorems": [
    "GPSKet.SampledUpdate.C185_exact",
    "GPSKet.SampledUpdate.C185_regular",
    "GPSKet.SampledUpdate.C185_chains",
    "GPSKet.SampledUpdate.C185_hopping",
    "GPSKet.SampledUpdate.C185_exchange",
    "GPSKet.SampledUpdate.C185_energy"
   ],
   "note": "One process, mode complex. Where the exact equation is singular nothing is claimed (the regularisers of parameters without gradient vanish at rates that depend on the noise)."
  },
  {
   "property": "C186",
   "status": "partial",
   "theorems": [
    "GPSKet.Options.C186_options_partial",
    "GPSKet.Options.C186_all_flags",
    "GPSKet.Options.C186_shared_fails",
    "GPSKet.Options.C186_fails"
   ],
   "note": "False for heisenberg2d with GPS, FilterGPS, MaskedGPS or MaskedFilterGPS: sampler.n_sweeps and system.Lx are one cell (C186_shared_fails), so --config.sampler.n_sweeps=n simulates an n x Ly lattice (C186_fails). Proved for every other configuration with every command line (C186_all_flags) and for heisenberg2d without a flag for the number of sweeps (C186_options_partial). References are modelled after the documentation of ml_collections (get_ref is two-way, an expression of it is not); types of fields are not modelled."
  },
  {
   "property": "C187",
   "status": "proved",
   "theorems": [
    "GPSKet.DirectBias.C187_covariance",
    "GPSKet.DirectBias.C187_expect",
    "GPSKet.DirectBias.C187_unique",
    "GPSKet.DirectBias.C187_gradient",
    "GPSKet.DirectBias.C187_single"
   ],
   "note": "Unique-sample states that keep fewer samples than they draw are biased in other ways (C141)."
  },
  {
   "property": "C188",
   "status": "partial",
   "theorems": [
    "GPSKet.AutoregDescent.C188_real_partial",
    "GPSKet.AutoregDescent.C188_complex_fails"
   ],
   "note": "Proved for real parameters; refuted for complex ones."
  },
  {
   "property": "C189",
   "status": "partial",
   "theorems": [
    "GPSKet.SupervisedError.C189_squared_error",
    "GPSKet.SupervisedError.C189_distribution",
    "GPSKet.SupervisedError.C189_zero",
    "GPSKet.SupervisedError.C189_log_zero",
    "GPSKet.SupervisedError.C189_log_partial",
    "GPSKet.SupervisedError.C189_log_fails",
    "GPSKet.SupervisedError.C189_logSpace_fails",
    "GPSKet.SupervisedError.C189_empty_fails"
   ],
   "note": "Log-space errors: proved where the phases, as numbers in (-pi, pi], differ by less than pi; refuted otherwise and for QGPSLogSpaceFit."
  },
  {
   "property": "C19",
   "status": "proved",
   "theorems": [
    "GPSKet.C19_constraint_iff",
    "GPSKet.C19_random_state_valid",
    "GPSKet.C19_random_state_support"
   ],
   "note": ""
  },
  {
   "property": "C190",
   "status": "partial",
   "theorems": [
    "GPSKet.Padded.C190_hubbard",
    "GPSKet.Padded.C190_no_edges_fails",
    "GPSKet.Padded.C190_abInitio",
    "GPSKet.Padded.C190_local_energies",
    "GPSKet.Padded.C190_mixed_sectors"
   ],
   "note": "Refuted for FermiHubbard without edges; proved otherwise. NetKet's get_conn_padded is not part of the repository; its reshape by sections[0] is an assumption of the model."
  },
  {
   "property": "C191",
   "status": "proved",
   "theorems": [
    "GPSKet.Holomorphic.C191_qgps",
    "GPSKet.Holomorphic.C191_slater",
    "GPSKet.Holomorphic.C191_pfaffian",
    "GPSKet.Holomorphic.C191_slater_qgps",
    "GPSKet.Holomorphic.C191_pfaffian_qgps",
    "GPSKet.Holomorphic.C191_qgps_gradient",
    "GPSKet.Holomorphic.C191_autoreg",
    "GPSKet.Holomorphic.C191_arqgps_not_holomorphic",
    "GPSKet.Holomorphic.C191_arqgps_provided"
   ],
   "note": "Pfaffians: for the configurations with n up and n down electrons, wherever the model gives a number and not NaN (see C120)."
  },
  {
   "property": "C192",
   "status": "proved",
   "theorems": [
    "GPSKet.ShiftLimits.C192_one",
    "GPSKet.ShiftLimits.C192_bounded",
    "GPSKet.ShiftLimits.C192_limit",
    "GPSKet.ShiftLimits.C192_outside",
    "GPSKet.ShiftLimits.C192_driver",
    "GPSKet.ShiftLimits.C192_driver_bounded"
   ],
   "note": ""
  },
  {
   "property": "C193",
   "status": "proved",
   "theorems": [
    "GPSKet.RealRuns.C193_minSR",
    "GPSKet.RealRuns.C193_sr_rmsprop",
    "GPSKet.RealRuns.C193_run",
    "GPSKet.RealRuns.C193_qgps",
    "GPSKet.RealRuns.C193_qgps_positive",
    "GPSKet.RealRuns.C193_slater",
    "GPSKet.RealRuns.C193_product",
    "GPSKet.RealRuns.C193_real_needed"
   ],
   "note": "optax's Sgd and NetKet's driver loop are modelled as theta - lr*update"
  },
  {
   "property": "C194",
   "status": "proved",
   "theorems": [
    "GPSKet.Balance.C194_log_derivatives",
    "GPSKet.Balance.C194_gradient",
    "GPSKet.Balance.C194_minSR",
    "GPSKet.Balance.C194_sr",
    "GPSKet.Balance.C194_pinv",
    "GPSKet.Balance.C194_norms"
   ],
   "note": ""
  },
  {
   "property": "C195",
   "status": "proved",
   "theorems": [
    "GPSKet.Containment.C195_ar_in_full",
    "GPSKet.Containment.C195_plaquette_in_full",
    "GPSKet.Containment.C195_filter_in_full",
    "GPSKet.Containment.C195_plaquette_in_qgps",
    "GPSKet.Containment.C195_qgps_in_plaquette",
    "GPSKet.Containment.C195_product",
    "GPSKet.Containment.C195_slater_in_backflow",
    "GPSKet.Containment.C195_restricted_in_backflow",
    "GPSKet.Containment.C195_generalised_in_backflow"
   ],
   "note": "Amplitudes as returned by the models evaluated from scratch; that the cached evaluations agree with them is C01 and the properties of the individual models."
  },
  {
   "property": "C196",
   "status": "proved",
   "theorems": [
    "GPSKet.ParticleHole.C196_gauge",
    "GPSKet.ParticleHole.C196_negated_hopping",
    "GPSKet.ParticleHole.C196_particle_hole",
    "GPSKet.ParticleHole.C196_attractive",
    "GPSKet.ParticleHole.C196_spin_exchange",
    "GPSKet.ParticleHole.C196_partner"
   ],
   "note": "The relation between the two states is only asked for on the sector of the configuration. Amplitude sources are those of C07 (full evaluation, or a cache that is right at the configuration)."
  },
  {
   "property": "C197",
   "status": "proved",
   "theorems": [
    "GPSKet.SizeConsistency.C197_hubbard",
    "GPSKet.SizeConsistency.C197_molecules",
    "GPSKet.SizeConsistency.C197_spins",
    "GPSKet.SizeConsistency.C197_qgps",
    "GPSKet.SizeConsistency.C197_autoregressive",
    "GPSKet.SizeConsistency.C197_slater"
   ],
   "note": "Local energies are taken from any amplitude source that works at the configuration (full evaluation or caches, as in C07 and C11)."
  },
  {
   "property": "C198",
   "status": "proved",
   "theorems": [
    "GPSKet.OrbitalSigns.C198_orbital_signs",
    "GPSKet.OrbitalSigns.C198_spin_exchange"
   ],
   "note": "That every state has a partner is C196_partner."
  },
  {
   "property": "C199",
   "status": "partial",
   "theorems": [
    "GPSKet.AfterSetup.C199_log",
    "GPSKet.AfterSetup.C199_log_partial",
    "GPSKet.AfterSetup.C199_log_prior_fails",
    "GPSKet.AfterSetup.C199_log_residuals",
    "GPSKet.AfterSetup.C199_bias",
    "GPSKet.AfterSetup.C199_bias_partial",
    "GPSKet.AfterSetup.C199_expand_fails",
    "GPSKet.AfterSetup.C199_genlin",
    "GPSKet.AfterSetup.C199_genlin_partial",
    "GPSKet.AfterSetup.C199_genlin_prior_fails",
    "GPSKet.AfterSetup.C199_genlin_complex",
    "GPSKet.AfterSetup.C199_genlin_complex_partial",
    "GPSKet.AfterSetup.C199_genlin_complex_step"
   ],
   "note": "Proved for all data and options without a prior mean (QGPSLogSpaceFit without complex_expand, with and without a bias; QGPSGenLinMod with real and complex parameters). With a prior mean the code leaves its contribution out, exactly: the predictions are wrong for every datum to which it contributes. For complex QGPSLogSpaceFit learners with complex_expand the method always raises. Hypothesis: features that are ignored in the fit because of the cutoff of 1e-10 are zero on all data."
  },
  {
   "property": "C20",
   "status": "partial",
   "theorems": [
    "GPSKet.C20_pow_fails",
    "GPSKet.C20_pow_unconstrained_partial"
   ],
   "note": "false for constrained spaces (electron numbers dropped); proved for unconstrained ones"
  },
  {
   "property": "C200",
   "status": "proved",
   "theorems": [
    "GPSKet.HeisenbergExact.C200_polarised",
    "GPSKet.HeisenbergExact.C200_dimers",
    "GPSKet.HeisenbergExact.C200_majumdar_ghosh",
    "GPSKet.HeisenbergExact.C200_multiplets",
    "GPSKet.HeisenbergExact.C200_bounds",
    "GPSKet.HeisenbergExact.C200_ring_bound"
   ],
   "note": "The bond matrices are those NetKet's Heisenberg operator stores (see C11); amplitudes are re-evaluated without fast updates (C34-C41 show that these agree)."
  },
  {
   "property": "C201",
   "status": "proved",
   "theorems": [
    "GPSKet.FreeElectrons.C201_hubbard",
    "GPSKet.FreeElectrons.C201_orbitals",
    "GPSKet.FreeElectrons.C201_projected",
    "GPSKet.FreeElectrons.C201_polarised",
    "GPSKet.FreeElectrons.C201_molecule",
    "GPSKet.FreeElectrons.C201_ring",
    "GPSKet.FreeElectrons.C201_lowest",
    "GPSKet.FreeElectrons.C201_ground"
   ],
   "note": "The amplitudes may vanish at connected configurations. No self-loops among the edges (C07). The output transformation is the sum."
  },
  {
   "property": "C202",
   "status": "proved",
   "theorems": [
    "GPSKet.Interaction.C202_local",
    "GPSKet.Interaction.C202_units",
    "GPSKet.Interaction.C202_reported",
    "GPSKet.Interaction.C202_states",
    "GPSKet.Interaction.C202_bounds",
    "GPSKet.Interaction.C202_tangent",
    "GPSKet.Interaction.C202_growth",
    "GPSKet.Interaction.C202_decreases",
    "GPSKet.Interaction.C202_differences",
    "GPSKet.Interaction.C202_derivative",
    "GPSKet.Interaction.C202_concave",
    "GPSKet.Interaction.C202_exists",
    "GPSKet.Interaction.C202_free",
    "GPSKet.Interaction.C202_bracket"
   ],
   "note": "Energies of states are those of the specified Hubbard Hamiltonian, whose rows and local energies the code computes (C04, C07, C143)."
  },
  {
   "property": "C203",
   "status": "proved",
   "theorems": [
    "GPSKet.Response.C203_local",
    "GPSKet.Response.C203_units",
    "GPSKet.Response.C203_held",
    "GPSKet.Response.C203_states",
    "GPSKet.Response.C203_bound",
    "GPSKet.Response.C203_concave",
    "GPSKet.Response.C203_derivative",
    "GPSKet.Response.C203_exists",
    "GPSKet.Response.C203_files",
    "GPSKet.Response.C203_file_response"
   ],
   "note": "Energies of states are those of the specified molecular Hamiltonian, whose rows and local energies the code computes (C13, C14); what the local density matrices average to is C93."
  },
  {
   "property": "C204",
   "status": "proved",
   "theorems": [
    "GPSKet.HeisenbergExact.C204_local",
    "GPSKet.HeisenbergExact.C204_code",
    "GPSKet.HeisenbergExact.C204_states",
    "GPSKet.HeisenbergExact.C204_reported",
    "GPSKet.HeisenbergExact.C204_bounds",
    "GPSKet.HeisenbergExact.C204_tangent",
    "GPSKet.HeisenbergExact.C204_decreases",
    "GPSKet.HeisenbergExact.C204_growth",
    "GPSKet.HeisenbergExact.C204_concave",
    "GPSKet.HeisenbergExact.C204_derivative",
    "GPSKet.HeisenbergExact.C204_exists"
   ],
   "note": "Without the sign rule, whose effect is C155. Amplitudes may vanish at connected configurations."
  },
  {
   "property": "C21",
   "status": "partial",
   "theorems": [
    "GPSKet.C21_stays_in_space_fails",
    "GPSKet.C21_stays_in_space_partial"
   ],
   "note": "false for the empty state (no electron at all); proved for every reachable draw otherwise"
  },
  {
   "property": "C22",
   "status": "partial",
   "theorems": [
    "GPSKet.C22_draws_normalised",
    "GPSKet.C22_symmetric_partial",
    "GPSKet.C22_detailed_balance_partial",
    "GPSKet.C22_symmetric_fails"
   ],
   "note": "false for neighbour tables with unequal row sums; proved for balanced tables"
  },
  {
   "property": "C23",
   "status": "proved",
   "theorems": [
    "GPSKet.C23_exchange_swaps",
    "GPSKet.C23_exchange_conserves",
    "GPSKet.C23_exchange_symmetric"
   ],
   "note": ""
  },
  {
   "property": "C24",
   "status": "proved",
   "theorems": [
    "GPSKet.C24_fast_is_plain",
    "GPSKet.C24_history"
   ],
   "note": ""
  },
  {
   "property": "C25",
   "status": "proved",
   "theorems": [
    "GPSKet.C25_counters"
   ],
   "note": ""
  },
  {
   "property": "C26",
   "status": "proved",
   "theorems": [
    "GPSKet.Props.C26_batch_choice",
    "GPSKet.Props.C26_zero_weight",
    "GPSKet.Props.C26_zero_variate"
   ],
   "note": "probabilities are Lebesgue measures of sets of variates in [0,1)"
  },
  {
   "property": "C27",
   "status": "proved",
   "theorems": [
    "GPSKet.Props.C27_direct_sampling",
    "GPSKet.Props.sampleSites_eq_iff",
    "GPSKet.Props.spin_continuable",
    "GPSKet.Props.fermi_continuable"
   ],
   "note": "normalize=True; symmetry families closed under inverses; Continuable is proved for the provided constraints"
  },
  {
   "property": "C28",
   "status": "proved",
   "theorems": [
    "GPSKet.Props.C28_normalised_of_continuable",
    "GPSKet.Props.C28_normalised_spin",
    "GPSKet.Props.C28_normalised_free",
    "GPSKet.Props.C28_normalised_fermionic"
   ],
   "note": "normalisation fails for a single unconstrained site, see C32_small_fails"
  },
  {
   "property": "C29",
   "status": "proved",
   "theorems": [
    "GPSKet.Props.C29_causal",
    "GPSKet.Props.masks_hide"
   ],
   "note": ""
  },
  {
   "property": "C30",
   "status": "proved",
   "theorems": [
    "GPSKet.Props.C30_cached_eq_batched"
   ],
   "note": ""
  },
  {
   "property": "C31",
   "status": "proved",
   "theorems": [
    "GPSKet.Props.C31_zero_magnetisation",
    "GPSKet.Props.balanced_perm",
    "GPSKet.Props.balanced_flip"
   ],
   "note": ""
  },
  {
   "property": "C32",
   "status": "partial",
   "theorems": [
    "GPSKet.Props.C32_full_support_partial",
    "GPSKet.Props.C32_small_fails"
   ],
   "note": "true from four sites on; false for 1, 2 and 3 sites, proved for all parameters"
  },
  {
   "property": "C33",
   "status": "proved",
   "theorems": [
    "GPSKet.Props.C33_fermionic_constraint",
    "GPSKet.Props.C33_tutorial"
   ],
   "note": ""
  },
  {
   "property": "C34",
   "status": "proved",
   "theorems": [
    "GPSKet.C34_fast_update",
    "GPSKet.C34_history",
    "GPSKet.C34_zero_fails",
    "GPSKet.C34_repeated_site_fails",
    "GPSKet.C24_qGPS_exchange"
   ],
   "note": "C34_zero_fails and C34_repeated_site_fails show that the two restrictions of the quantifier (non-zero factors, repeats only as dummies) are needed"
  },
  {
   "property": "C35",
   "status": "proved",
   "theorems": [
    "GPSKet.C35_syms_consistent",
    "GPSKet.C35_inverse",
    "GPSKet.C35_symmetric",
    "GPSKet.C35_spin_flip"
   ],
   "note": ""
  },
  {
   "property": "C36",
   "status": "proved",
   "theorems": [
    "GPSKet.Props.C36_fast_update",
    "GPSKet.Props.C36_history",
    "GPSKet.Props.callFull_eq"
   ],
   "note": ""
  },
  {
   "property": "C37",
   "status": "proved",
   "theorems": [
    "GPSKet.Props.C37_triangular_layout",
    "GPSKet.Props.C37_own_parameters"
   ],
   "note": ""
  },
  {
   "property": "C38",
   "status": "partial",
   "theorems": [
    "GPSKet.Props.C38_fast_update_partial",
    "GPSKet.Props.C38_history_partial",
    "GPSKet.Props.C38_dummy_cache_fails",
    "GPSKet.Props.C38_repeated_plaquette_site_fails"
   ],
   "note": "values right for padded updates of non-zero parameters; the cached configuration after an update with dummies, and plaquettes listing a site twice, are refuted"
  },
  {
   "property": "C39",
   "status": "partial",
   "theorems": [
    "GPSKet.Props.C39_fast_update_partial",
    "GPSKet.Props.C39_history_partial",
    "GPSKet.Props.C39_dummy_fails"
   ],
   "note": "right when no changed site is listed twice; refuted for the dummies sent by the ab-initio operators"
  },
  {
   "property": "C40",
   "status": "proved",
   "theorems": [
    "GPSKet.Props.C40_electron_positions",
    "GPSKet.Props.C40_injective"
   ],
   "note": ""
  },
  {
   "property": "C41",
   "status": "proved",
   "theorems": [
    "GPSKet.Props.C41_full",
    "GPSKet.Props.C41_fast_update",
    "GPSKet.Props.C41_fast_value",
    "GPSKet.Props.C41_history"
   ],
   "note": ""
  },
  {
   "property": "C42",
   "status": "partial",
   "theorems": [
    "GPSKet.Pfaffian.C42_log",
    "GPSKet.Pfaffian.C42_square",
    "GPSKet.Pfaffian.C42_singular_partial",
    "GPSKet.Pfaffian.C42_singular_fails",
    "GPSKet.Pfaffian.C42_jvp"
   ],
   "note": "Non-zero Pfaffian: full statement incl. the custom derivative rule. Singular matrices of size >= 4 give NaN instead of -inf (refuted)."
  },
  {
   "property": "C43",
   "status": "partial",
   "theorems": [
    "GPSKet.PixelCNN.C43_causal_partial",
    "GPSKet.PixelCNN.C43_normalised_partial",
    "GPSKet.PixelCNN.C43_even_fails",
    "GPSKet.PixelCNN.C43_gauge"
   ],
   "note": "Proved for every odd kernel size (causality and normalisation); refuted for every even kernel size."
  },
  {
   "property": "C44",
   "status": "proved",
   "theorems": [
    "GPSKet.Seg.C44_spins",
    "GPSKet.Seg.C44_fermions",
    "GPSKet.Seg.C44_unconstrained"
   ],
   "note": "Unconstrained spaces are rejected at set-up."
  },
  {
   "property": "C45",
   "status": "proved",
   "theorems": [
    "GPSKet.Props.C45_lazy_eq_dense",
    "GPSKet.Props.C45_positive",
    "GPSKet.Props.C45_on_the_fly",
    "GPSKet.Props.C45_on_the_fly_dense",
    "GPSKet.Props.C45_on_the_fly_complex_fails"
   ],
   "note": "Dense RMSProp tensor for all Jacobians; the on-the-fly variant is right for real averages and shown non-Hermitian for the complex averages it is given with complex parameters."
  },
  {
   "property": "C46",
   "status": "proved",
   "theorems": [
    "GPSKet.Props.C46_closed_form",
    "GPSKet.Props.C46_nonneg",
    "GPSKet.Props.C46_weighted_mean",
    "GPSKet.Props.C46_constant_gradient",
    "GPSKet.Props.C46_complex"
   ],
   "note": "All gradient histories."
  },
  {
   "property": "C47",
   "status": "partial",
   "theorems": [
    "GPSKet.Props.C47_normal_equation",
    "GPSKet.Props.C47_minSR_is_SR",
    "GPSKet.Props.C47_complex_parameters",
    "GPSKet.Props.C47_plain_rows",
    "GPSKet.Props.C47_real_mode",
    "GPSKet.Props.C47_loss_grad_real",
    "GPSKet.Props.C47_weighted_samples_fails",
    "GPSKet.Props.C47_complex_mode_fails",
    "GPSKet.Props.C47_loss_grad_fails"
   ],
   "note": "Right for plain Monte Carlo states in real and holomorphic mode, and in the default mode complex for complex parameters of holomorphic wave functions; refuted for weighted samples and for mode complex with real parameters; the reported loss gradient lacks a conjugation."
  },
  {
   "property": "C48",
   "status": "proved",
   "theorems": [
    "GPSKet.Props.C48_index_map"
   ],
   "note": "All process grids."
  },
  {
   "property": "C49",
   "status": "partial",
   "theorems": [
    "GPSKet.Props.C49_sr_equation",
    "GPSKet.Props.C49_unscaled",
    "GPSKet.Props.C49_sr_equation_real",
    "GPSKet.Props.C49_repack",
    "GPSKet.Props.C49_broadcast_lengths",
    "GPSKet.Props.C49_broadcast_fails"
   ],
   "note": "The root's update and its repacking are right; the broadcast to the other ranks is refuted (buffer of the wrong length)."
  },
  {
   "property": "C50",
   "status": "proved",
   "theorems": [
    "GPSKet.Props.C50_unique_samples"
   ],
   "note": ""
  },
  {
   "property": "C51",
   "status": "proved",
   "theorems": [
    "GPSKet.Props.C51_outside_deterministic_set",
    "GPSKet.Props.C51_random_samples",
    "GPSKet.Props.C51_detailed_balance",
    "GPSKet.Props.C51_weights",
    "GPSKet.Props.C51_shift",
    "GPSKet.Props.C51_distribution",
    "GPSKet.Props.C51_exact",
    "GPSKet.Props.C51_unbiased",
    "GPSKet.Props.C51_norm_unbiased",
    "GPSKet.Props.C51_array_split",
    "GPSKet.Props.C51_no_overflow"
   ],
   "note": ""
  },
  {
   "property": "C52",
   "status": "partial",
   "theorems": [
    "GPSKet.ImagTime.C52_imag_time_step",
    "GPSKet.ImagTime.C52_real_fails",
    "GPSKet.ImagTime.C52_exception_fails",
    "GPSKet.ImagTime.C52_vstate_partial",
    "GPSKet.ImagTime.C52_vstate_value",
    "GPSKet.ImagTime.C52_vstate_fails"
   ],
   "note": "Both branches give (1 - tau H) psi where psi is non-zero; the state-based branch needs tau > 0 (NaN otherwise, refuted), and samples are not restored when the evaluation raises (refuted). With a real model and Hamiltonian the value is NaN where the step changes the sign of the amplitude (C52_real_fails)."
  },
  {
   "property": "C53",
   "status": "proved",
   "theorems": [
    "GPSKet.H2O.C53_to_config",
    "GPSKet.H2O.C53_injective",
    "GPSKet.H2O.C53_all_configs",
    "GPSKet.H2O.C53_select",
    "GPSKet.H2O.C53_select_zero"
   ],
   "note": "k > 0; select_largest=0 returns everything."
  },
  {
   "property": "C54",
   "status": "proved",
   "theorems": [
    "GPSKet.Supervised.C54"
   ],
   "note": "After any history (of the kind of C55), for any reference sites set afterwards, predictions are the exponential of the full sum of products."
  },
  {
   "property": "C55",
   "status": "partial",
   "theorems": [
    "GPSKet.Supervised.C55_partial",
    "GPSKet.Supervised.C55_features_partial",
    "GPSKet.Supervised.C55_data_fails",
    "GPSKet.Supervised.C55_refs_fails",
    "GPSKet.Supervised.C55_parameters_fails"
   ],
   "note": "Proved for all histories that do not overwrite in place an array held by the learner (data set, vector of reference sites, or the parameters behind the getter). For each of the three kinds of in-place writes a history with a stale prediction is exhibited."
  },
  {
   "property": "C56",
   "status": "proved",
   "theorems": [
    "GPSKet.SupervisedFit.C56",
    "GPSKet.SupervisedFit.C56_expand",
    "GPSKet.SupervisedFit.C56_bias",
    "GPSKet.SupervisedFit.C56_bias_fails"
   ],
   "note": "For fixed precisions and noise (or the last evaluation of their optimisation). With a bias the total weight of the data must exceed the cut-off, otherwise the bias is reset (C56_bias_fails)."
  },
  {
   "property": "C57",
   "status": "partial",
   "theorems": [
    "GPSKet.GenLin.C57_minimise_partial",
    "GPSKet.GenLin.C57_newton_fails",
    "GPSKet.GenLin.C57_reevaluation_fails",
    "GPSKet.GenLin.C57_growing_fails",
    "GPSKet.GenLin.C57_growing_zero",
    "GPSKet.SupervisedAlpha.C57_alpha_set",
    "GPSKet.SupervisedAlpha.C57_alpha_set_other",
    "GPSKet.SupervisedAlpha.C57_alpha_site",
    "GPSKet.SupervisedAlpha.C57_alpha_reset_fails",
    "GPSKet.SupervisedAlpha.C57_alpha_reset_partial",
    "GPSKet.SupervisedAlpha.C57_pairing_partial",
    "GPSKet.SupervisedAlpha.C57_pairing_fails"
   ],
   "note": "The prior mean of log-space and exponential fits is right (C56, C74). The code violates the rest: the Newton step, the reset of the precisions and the prior mean of the growing fit have no effect; re-evaluation zeroes the weights; precisions are misaligned with expanded complex weights and a bias."
  },
  {
   "property": "C58",
   "status": "partial",
   "theorems": [
    "GPSKet.Composite.C58_slater_qgps",
    "GPSKet.Composite.C58_slater_jastrow",
    "GPSKet.Composite.C58_calls_partial",
    "GPSKet.Composite.C58_calls_fails",
    "GPSKet.Backflow.C58_backflow_direct",
    "GPSKet.Backflow.C58_backflow_jastrow_fails",
    "GPSKet.Backflow.C58_backflow_jastrow_swapped",
    "GPSKet.Solvers.C58_srdense_default_fails",
    "GPSKet.Solvers.C58_srdense_tuple_fails",
    "GPSKet.Solvers.C58_srdense_array",
    "GPSKet.PyCall.C58_positional",
    "GPSKet.PyCall.C58_rejected"
   ],
   "note": "Holds for qGPS, Slater, SlaterqGPS, Backflow, CPDBackflow. Refuted: SlaterJastrow, ASymmqGPS, ASymmqGPSProd, BackflowJastrow advertise fast updates but reject the arguments; BackflowJastrow exchanges orbitals and correction module; SRDense raises with its default solver."
  },
  {
   "property": "C59",
   "status": "proved",
   "theorems": [
    "GPSKet.Jastrow.C59_closed_form",
    "GPSKet.Jastrow.C59_symmetric_kernel",
    "GPSKet.Jastrow.C59_spin_flip",
    "GPSKet.Jastrow.C59_symmetry",
    "GPSKet.Jastrow.C59_densities"
   ],
   "note": ""
  },
  {
   "property": "C60",
   "status": "proved",
   "theorems": [
    "GPSKet.Composite.C60_asymm",
    "GPSKet.Composite.C60_asymm_prod",
    "GPSKet.Composite.C60_asymm_prod_even",
    "GPSKet.Composite.C60_pauli"
   ],
   "note": "Stated for the amplitude, whose logarithm the code returns."
  },
  {
   "property": "C61",
   "status": "proved",
   "theorems": [
    "GPSKet.Props.C61_rotation",
    "GPSKet.Props.C61_general_fails"
   ],
   "note": ""
  },
  {
   "property": "C62",
   "status": "proved",
   "theorems": [
    "GPSKet.Props.C62_unique_samples_qgt"
   ],
   "note": "All sample streams."
  },
  {
   "property": "C63",
   "status": "proved",
   "theorems": [
    "GPSKet.Pfaffian.C63_antisymmetric",
    "GPSKet.Pfaffian.C63_exclusion"
   ],
   "note": ""
  },
  {
   "property": "C64",
   "status": "proved",
   "theorems": [
    "GPSKet.Pfaffian.C64_rotation",
    "GPSKet.Pfaffian.C64_default",
    "GPSKet.Pfaffian.spinRotation_orthogonal"
   ],
   "note": ""
  },
  {
   "property": "C65",
   "status": "partial",
   "theorems": [
    "GPSKet.Pfaffian.C65_zero_magnetization",
    "GPSKet.Pfaffian.C65_negative_character",
    "GPSKet.Pfaffian.C65_general_partial",
    "GPSKet.Pfaffian.C65_general_fails"
   ],
   "note": "Holds for the zero-magnetization state with non-negative characters and non-zero Pfaffians; the general Pfaffian state sums over the batch with its default output transformation (refuted)."
  },
  {
   "property": "C66",
   "status": "partial",
   "theorems": [
    "GPSKet.ImagTime.C66_nesting_fails",
    "GPSKet.ImagTime.C66_tau_fails"
   ],
   "note": "Refuted: nested imaginary-time states cannot be evaluated."
  },
  {
   "property": "C67",
   "status": "partial",
   "theorems": [
    "GPSKet.Composite.C67_single_partial",
    "GPSKet.Composite.C67_ones_partial",
    "GPSKet.Composite.C67_actual",
    "GPSKet.Composite.C67_actual_projective",
    "GPSKet.Composite.C67_actual_matched",
    "GPSKet.Composite.C67_fails",
    "GPSKet.Composite.C67_raises"
   ],
   "note": "Holds for one determinant; refuted for several: broadcasting attaches the coefficients to the axis of the symmetry operations."
  },
  {
   "property": "C68",
   "status": "proved",
   "theorems": [
    "GPSKet.Backflow.C68_restricted",
    "GPSKet.Backflow.C68_unrestricted",
    "GPSKet.Backflow.C68_generalised",
    "GPSKet.Backflow.C68_fast_update",
    "GPSKet.Backflow.C68_history"
   ],
   "note": ""
  },
  {
   "property": "C69",
   "status": "partial",
   "theorems": [
    "GPSKet.Solvers.C69_penrose",
    "GPSKet.Solvers.C69_solution",
    "GPSKet.Solvers.C69_invertible",
    "GPSKet.Solvers.C69_general_fails"
   ],
   "note": "Needs the non-zero eigenvalues to lie above the relative cut-off rcond; refuted otherwise."
  },
  {
   "property": "C70",
   "status": "proved",
   "theorems": [
    "GPSKet.Composite.C70_fast_update",
    "GPSKet.Composite.C70_history"
   ],
   "note": ""
  },
  {
   "property": "C71",
   "status": "proved",
   "theorems": [
    "GPSKet.CPDBackflow.C71_restricted",
    "GPSKet.CPDBackflow.C71_unrestricted",
    "GPSKet.CPDBackflow.C71_generalised"
   ],
   "note": "environments=None"
  },
  {
   "property": "C72",
   "status": "partial",
   "theorems": [
    "GPSKet.GenLin.C72_weightings",
    "GPSKet.GenLin.C72_partial",
    "GPSKet.GenLin.C72_fails"
   ],
   "note": "The weightings array of the caller is multiplied in place by the squared prefactor; unchanged only for prior mean zero (prefactor of modulus 1)."
  },
  {
   "property": "C73",
   "status": "partial",
   "theorems": [
    "GPSKet.GenLin.C73_grad_partial",
    "GPSKet.GenLin.C73_hessian",
    "GPSKet.GenLin.C73_fails"
   ],
   "note": "Proved for active features; the gradient has a penalty term for inactive features that the loss lacks."
  },
  {
   "property": "C74",
   "status": "proved",
   "theorems": [
    "GPSKet.SupervisedFit.C74",
    "GPSKet.SupervisedFit.C74_weights"
   ],
   "note": "For fixed precisions and noise, noise estimated from the targets, parameters not expanded."
  },
  {
   "property": "C75",
   "status": "proved",
   "theorems": [
    "GPSKet.StateFitting.C75"
   ],
   "note": ""
  },
  {
   "property": "C76",
   "status": "proved",
   "theorems": [
    "GPSKet.StateFitting.C76",
    "GPSKet.StateFitting.C76_first",
    "GPSKet.StateFitting.C76_small",
    "GPSKet.StateFitting.C76_scale",
    "GPSKet.StateFitting.C76_reset",
    "GPSKet.StateFitting.C76_steps"
   ],
   "note": "JAX's choice without replacement is modelled as a sort by Gumbel keys.  The reset needs a given seed."
  },
  {
   "property": "C77",
   "status": "partial",
   "theorems": [
    "GPSKet.StateFitting.C77_sum",
    "GPSKet.StateFitting.C77_loss",
    "GPSKet.StateFitting.C77_partial",
    "GPSKet.StateFitting.C77_fails"
   ],
   "note": "True on one process.  On n processes the code sums the gradients but averages the losses: the vector is n times the gradient."
  },
  {
   "property": "C78",
   "status": "partial",
   "theorems": [
    "GPSKet.Initializers.C78_complex",
    "GPSKet.Initializers.C78_real",
    "GPSKet.Initializers.C78_bound",
    "GPSKet.Initializers.C78_orthogonal",
    "GPSKet.Initializers.C78_shape",
    "GPSKet.Initializers.C78_default_fails",
    "GPSKet.Initializers.C78_cast_fails"
   ],
   "note": "The kind of the dtype given to normal() decides, not the one of the parameter: refuted where the two differ, as for complex composite and Pfaffian states with the default initialiser."
  },
  {
   "property": "C79",
   "status": "partial",
   "theorems": [
    "GPSKet.C79_partial",
    "GPSKet.C79_on_the_fly_fails"
   ],
   "note": "on_the_fly_en=True raises a TypeError: the class used is a bare LocalOperator, whose constructor takes neither J nor sign_rule (its signature in NetKet 3 is assumed)."
  },
  {
   "property": "C80",
   "status": "proved",
   "theorems": [
    "GPSKet.MargLik.C80_zeros",
    "GPSKet.MargLik.C80_real",
    "GPSKet.MargLik.C80_complex",
    "GPSKet.MargLik.C80_expand",
    "GPSKet.MargLik.C80_real_modes",
    "GPSKet.MargLik.C80_complex_modes",
    "GPSKet.MargLik.C80_expand_modes",
    "GPSKet.MargLik.C80_logspace_real",
    "GPSKet.MargLik.C80_logspace_complex",
    "GPSKet.MargLik.C80_logspace_expand"
   ],
   "note": "Without weightings (see C81).  The specification is a Lebesgue integral over the weights.  The Cholesky decomposition is any function with its documented behaviour; such a function exists (MargLik.exists_choleskySpec)."
  },
  {
   "property": "C81",
   "status": "partial",
   "theorems": [
    "GPSKet.MargLik.C81_exp_partial",
    "GPSKet.MargLik.C81_zero_fails",
    "GPSKet.MargLik.C81_logspace_partial",
    "GPSKet.MargLik.C81_logspace_fails"
   ],
   "note": "True for the learner of exponentials and nonzero amplitudes.  It raises for weighted data with zero amplitudes, and the learner of log-amplitudes does not weight the squares of the data."
  },
  {
   "property": "C82",
   "status": "partial",
   "theorems": [
    "GPSKet.MargLik.C82_exp_partial",
    "GPSKet.MargLik.C82_expand_partial",
    "GPSKet.MargLik.C82_logspace_partial",
    "GPSKet.MargLik.C82_logspace_expand_partial",
    "GPSKet.MargLik.C82_absent_fails"
   ],
   "note": "True for the features that occur in the data and whose precision is below the cutoff.  For a feature that does not occur the evidence does not depend on the precision, but the reported derivative is not zero."
  },
  {
   "property": "C83",
   "status": "partial",
   "theorems": [
    "GPSKet.MargLik.C83_difference_partial",
    "GPSKet.MargLik.C83_partial",
    "GPSKet.MargLik.C83_fails",
    "GPSKet.MargLik.C83_expand_difference_partial",
    "GPSKet.MargLik.C83_expand_fails",
    "GPSKet.MargLik.C83_reweighted_fails"
   ],
   "note": "The trace term has the wrong sign: the reported value is strictly smaller than the derivative whenever a feature takes part, also with complex_expand; the exact difference is proved.  With iterative_noise_est and noise_reweighting it is wrong even without features."
  },
  {
   "property": "C84",
   "status": "partial",
   "theorems": [
    "GPSKet.MargLik.C84_partial",
    "GPSKet.MargLik.C84_fails",
    "GPSKet.MargLik.C84_weighted_partial",
    "GPSKet.MargLik.C84_expand_partial"
   ],
   "note": "The reported value is the derivative times the fourth power of the noise (a factor noise^2 in place of 1/noise^2), and this only for the parameters of the present fit; with weightings there is a further difference, since log_marg_lik does not weight the squares of the data (exact difference proved, also with complex_expand)."
  },
  {
   "property": "C85",
   "status": "proved",
   "theorems": [
    "GPSKet.OptAlpha.C85_logspace_rvm",
    "GPSKet.OptAlpha.C85_exp_rvm",
    "GPSKet.OptAlpha.C85_logspace_shared",
    "GPSKet.OptAlpha.C85_exp_shared",
    "GPSKet.OptAlpha.C85_exp_expand_rvm",
    "GPSKet.OptAlpha.C85_exp_expand_shared",
    "GPSKet.OptAlpha.C85_logspace_expand_rvm",
    "GPSKet.OptAlpha.C85_logspace_expand_shared",
    "GPSKet.OptAlpha.C85_noise"
   ],
   "note": "For features that take part.  With weightings the evidence of the log-space learner is the one of C81, so the noise is covered without weightings."
  },
  {
   "property": "C86",
   "status": "partial",
   "theorems": [
    "GPSKet.OptAlpha.C86_partial",
    "GPSKet.OptAlpha.C86_exp_partial",
    "GPSKet.OptAlpha.C86_weightings_fails",
    "GPSKet.OptAlpha.C86_expand_fails"
   ],
   "note": "Proved for log-amplitudes without weightings and data that are not all zero, and for exponentials.  Refuted with weightings (the noise can become negative) and with complex_expand (the optimisation of the noise raises)."
  },
  {
   "property": "C87",
   "status": "partial",
   "theorems": [
    "GPSKet.OptAlpha.C87_partial",
    "GPSKet.OptAlpha.C87_fails"
   ],
   "note": "The weights are not recomputed after the last update of the precisions: true up to a relative change of 1e-7 of the precisions if the iteration ended by itself, refuted if it was limited."
  },
  {
   "property": "C88",
   "status": "partial",
   "theorems": [
    "GPSKet.GrowingRVM.C88_logspace_partial",
    "GPSKet.GrowingRVM.C88_logspace_best_partial",
    "GPSKet.GrowingRVM.C88_exp_partial",
    "GPSKet.GrowingRVM.C88_exp_best_partial",
    "GPSKet.GrowingRVM.C88_complex_fails",
    "GPSKet.GrowingRVM.C88_expand_fails"
   ],
   "note": "Proved for real parameters while precisions do not reach the cutoff, for both learners.  Refuted for complex parameters (only the real part of a complex quantity is kept) and with complex_expand (a factor 2 is missing): an iteration removes a feature that is needed."
  },
  {
   "property": "C89",
   "status": "partial",
   "theorems": [
    "GPSKet.GrowingRVM.C89_partial",
    "GPSKet.GrowingRVM.C89_exp_partial",
    "GPSKet.GrowingRVM.C89_small_fails",
    "GPSKet.GrowingRVM.C89_expand_fails"
   ],
   "note": "Proved for both learners, real and complex parameters, if each feature occurs with weight at least 2^-23 and the precision is below the cutoff.  Refuted if a feature hardly occurs (the code then takes the feature 0) and with complex_expand (a factor 2 is missing in the precision)."
  },
  {
   "property": "C90",
   "status": "proved",
   "theorems": [
    "GPSKet.GenLinFit.C90",
    "GPSKet.GenLinFit.C90_complex"
   ],
   "note": "For features without a bias and one process; lstsq solves a system with a positive definite matrix exactly (rcond is not modelled).  Real parameters need positive amplitudes: the logarithm of a negative real number is nan."
  },
  {
   "property": "C91",
   "status": "proved",
   "theorems": [
    "GPSKet.GenLinFit.C91",
    "GPSKet.GenLinFit.C91_fixed",
    "GPSKet.GenLinFit.C91_steps"
   ],
   "note": "The last two parts need that parameters which do not take part are at the prior mean (or belong to features that are zero on the data); otherwise predictions are made with parameters that the update then replaces."
  },
  {
   "property": "C92",
   "status": "partial",
   "theorems": [
    "GPSKet.GenLinFit.C92_partial",
    "GPSKet.GenLinFit.C92_value",
    "GPSKet.GenLinFit.C92_value_complex",
    "GPSKet.GenLinFit.C92_complex",
    "GPSKet.GenLinFit.C92_fails"
   ],
   "note": "Proved for real parameters.  For complex parameters the term of the Hessian enters the reported derivative twice; refuted with one configuration and one feature."
  },
  {
   "property": "C93",
   "status": "partial",
   "theorems": [
    "GPSKet.Rdms.C93_one",
    "GPSKet.Rdms.C93_two",
    "GPSKet.Rdms.C93_mean_one",
    "GPSKet.Rdms.C93_mean_two",
    "GPSKet.Rdms.C93_entries_fail"
   ],
   "note": "The two-body statement is proved for integrals with the symmetries of real orbitals and for the symmetrised array; a single entry of the local two-body array is not the estimator of the operator with the same indices (refuted with a witness)."
  },
  {
   "property": "C94",
   "status": "partial",
   "theorems": [
    "GPSKet.Rdms.C94_partial",
    "GPSKet.Rdms.C94_mean_one",
    "GPSKet.Rdms.C94_mean_two",
    "GPSKet.Rdms.C94_traces",
    "GPSKet.Rdms.C94_ranks_fail",
    "GPSKet.Rdms.C94_complex_fails"
   ],
   "note": "Proved on one process, for real amplitudes and if the number of chains divides the chunk size.  On n processes the arrays are divided by n once too often; for complex states a transpose replaces the one-body matrix by its conjugate in the correction of rdm2."
  },
  {
   "property": "C95",
   "status": "partial",
   "theorems": [
    "GPSKet.Rdms.C95_partial",
    "GPSKet.Rdms.C95_isotropic",
    "GPSKet.Rdms.C95_sites",
    "GPSKet.Rdms.C95_saved",
    "GPSKet.Rdms.C95_fails"
   ],
   "note": "Proved for singlets, including every entry computed from the saved arrays (up to the factor of C94 on several processes).  For other states the result is a third of the full scalar product of the spins; refuted with two parallel spins."
  },
  {
   "property": "C96",
   "status": "proved",
   "theorems": [
    "GPSKet.Rdms.C96"
   ],
   "note": ""
  },
  {
   "property": "C97",
   "status": "proved",
   "theorems": [
    "GPSKet.ArgpsRun.C97_checkpoints",
    "GPSKet.ArgpsRun.C97_finished",
    "GPSKet.ArgpsRun.C97_completes"
   ],
   "note": "The sampler is not part of a checkpoint: between two steps it may be replaced by a new one (see C98)."
  },
  {
   "property": "C98",
   "status": "partial",
   "theorems": [
    "GPSKet.ArgpsRun.C98_partial",
    "GPSKet.ArgpsRun.C98_not_killed",
    "GPSKet.ArgpsRun.C98_fails"
   ],
   "note": "Proved when no process is killed, and for all histories if the samples have no influence on the steps.  Otherwise refuted: the state of the sampler is not saved, and a restarted run draws the same samples again."
  },
  {
   "property": "C99",
   "status": "partial",
   "theorems": [
    "GPSKet.ArgpsRun.C99_partial",
    "GPSKet.ArgpsRun.C99_complete",
    "GPSKet.ArgpsRun.C99_checkpoints",
    "GPSKet.ArgpsRun.C99_not_killed",
    "GPSKet.ArgpsRun.C99_rows_fails",
    "GPSKet.ArgpsRun.C99_header_fails"
   ],
   "note": "Proved when no process is killed; for all histories no step is missing.  Refuted otherwise: rows after the last checkpoint are repeated, and the header is missing for ever after a kill between the creation of the file and its header."
  }
 ]
}