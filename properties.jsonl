{"id": "C01", "title": "Fermionic hop carries the Jordan-Wigner sign", "statement": "apply_hopping(i, a, x, spin, cummulative_count=cumsum of that spin) returns 0 exactly when c†_{a,spin} c_{i,spin} annihilates |x>, and otherwise returns the fermionic sign of that operator product and leaves in x the configuration it maps to (modes ordered all-up before all-down, by site).", "quantifier": "every lattice size, configuration, ordered pair of sites (equal or not) and both spins", "why_tests_cant": "there are 4^L configurations for each L and all pairs of sites; sign errors show only for particular fillings between the two sites", "anchors": ["GPSKet/operator/fermion.py:apply_hopping"]}
{"id": "C02", "title": "Hop sign does not depend on how the counts are supplied", "statement": "apply_hopping gives the same multiplicator with and without the optional cummulative_count argument.", "quantifier": "every configuration, pair of sites and spin", "why_tests_cant": "agreement on sampled fillings says nothing about the others; the off-by-one only shows for special occupations of two boundary sites", "anchors": ["GPSKet/operator/fermion.py:apply_hopping"]}
{"id": "C03", "title": "Hops conserve particles and are local", "statement": "A hop never changes the number of spin-up or of spin-down electrons, changes no site other than the two named, and leaves the configuration untouched when it returns 0.", "quantifier": "every configuration, pair of sites and spin, and every finite sequence of hops", "why_tests_cant": "a conservation law ranges over all histories of hops", "anchors": ["GPSKet/operator/fermion.py:apply_hopping"]}
{"id": "C04", "title": "FermiHubbard rows are the rows of the Hubbard Hamiltonian", "statement": "Summing the matrix elements FermiHubbard.get_conn_flattened returns for x over the entries equal to x' gives <x|H|x'> with H = -sum_e t_e sum_spin (c†_i c_j + c†_j c_i) + U sum_i n_up n_down.", "quantifier": "every edge list (repeated edges and self loops included), t, U, lattice size, and every pair (x,x')", "why_tests_cant": "matrix elements over a 4^L-dimensional space for every graph cannot be enumerated", "anchors": ["GPSKet/operator/hamiltonian/hubbard.py:FermiHubbard._get_conn_flattened_kernel", "GPSKet/operator/fermion.py:apply_hopping"]}
{"id": "C05", "title": "FermiHubbard is Hermitian as it claims", "statement": "The matrix given by get_conn_flattened is symmetric (real), as is_hermitian = True promises; it conserves N_up and N_down.", "quantifier": "every edge list, t, U and pair of configurations", "why_tests_cant": "symmetry is a statement about all pairs of configurations of all lattices", "anchors": ["GPSKet/operator/hamiltonian/hubbard.py:FermiHubbard.is_hermitian", "GPSKet/operator/hamiltonian/hubbard.py:FermiHubbard._get_conn_flattened_kernel"]}
{"id": "C06", "title": "Sections delimit each sample's connected elements", "statement": "get_conn_flattened on a batch writes every row of its output exactly once and sections[b] is the end offset of sample b, so splitting at sections recovers the per-sample rows.", "quantifier": "every batch size, lattice and edge list, including the empty edge list", "why_tests_cant": "needs all batch/edge counts; with no edges the buffer is simply left unwritten, which a test may not notice", "anchors": ["GPSKet/operator/hamiltonian/hubbard.py:FermiHubbard._get_conn_flattened_kernel"]}
{"id": "C07", "title": "On-the-fly Hubbard local energy equals the kernel's", "statement": "local_en_on_the_fly returns sum_{x'} <x|H|x'> psi(x')/psi(x) for the same operator that get_conn_flattened enumerates.", "quantifier": "every wave function, configuration, edge list, t and U", "why_tests_cant": "the two code paths must agree for every wave function and graph, including degenerate graphs", "anchors": ["GPSKet/operator/hamiltonian/hubbard.py:local_en_on_the_fly", "GPSKet/operator/hamiltonian/ab_initio.py:get_parity_multiplicator_hop"]}
{"id": "C08", "title": "ASEP generator conserves probability", "statement": "At lambda = 0 the matrix elements AsymmetricSimpleExclusionProcess returns sum to zero over the final states of every initial state, and off-diagonal rates are non-negative when the rates are.", "quantifier": "every chain length, all rates and every configuration", "why_tests_cant": "2^L configurations for every L and continuous rates", "anchors": ["GPSKet/operator/hamiltonian/asep.py:AsymmetricSimpleExclusionProcess", "GPSKet/operator/asep.py"]}
{"id": "C09", "title": "ASEP rows are the tilted ASEP generator", "statement": "get_conn_flattened returns exactly 4(L+1) entries per configuration, and the entries equal to x' sum to the tilted generator's element: boundary injection/ejection alpha, beta, gamma, delta, bulk hops p, q, and the counting factors exp(+-lambda).", "quantifier": "every chain length >= 1, rates, lambda and pair of configurations", "why_tests_cant": "2^L states for every L and continuous parameters", "anchors": ["GPSKet/operator/hamiltonian/asep.py:AsymmetricSimpleExclusionProcess.get_conn_flattened", "GPSKet/operator/asep.py:apply_creation", "GPSKet/operator/asep.py:apply_annihilation", "GPSKet/operator/asep.py:apply_hopping", "GPSKet/operator/asep.py:apply_particle_hole"]}
{"id": "C10", "title": "ASEP is_hermitian tells the truth", "statement": "is_hermitian is True exactly when the operator's matrix is symmetric.", "quantifier": "all rates and lambda", "why_tests_cant": "an equivalence over continuous parameters; wrong verdicts occur only on measure-zero parameter sets", "anchors": ["GPSKet/operator/hamiltonian/asep.py:AsymmetricSimpleExclusionProcess.is_hermitian"]}
{"id": "C11", "title": "On-the-fly Heisenberg local energy is the operator's local energy", "statement": "The J1-J2 / Heisenberg on-the-fly kernel returns sum_{x'} <x|H|x'> psi(x')/psi(x), where H is the sum of the given two-site 4x4 matrices over the listed bonds of a spin-1/2 lattice with at most one off-diagonal partner |01> <-> |10>.", "quantifier": "every bond list, every bond matrix of that shape, every +-1 configuration and wave function", "why_tests_cant": "every wave function, lattice and configuration", "anchors": ["GPSKet/operator/hamiltonian/J1J2.py:local_en_on_the_fly", "GPSKet/operator/hamiltonian/J1J2.py:HeisenbergOnTheFly"]}
{"id": "C12", "title": "Ab-initio kernel writes exactly the rows it allocates", "statement": "AbInitioHamiltonian.get_conn_flattened allocates its output from the electron numbers alone and its loops write exactly that many rows for every sample, with sections[b] the matching end offset.", "quantifier": "every orbital number, electron numbers and batch of configurations in the Hilbert space", "why_tests_cant": "the closed-form count must match nested loops over occupied/unoccupied sets for all sizes; a mismatch is silent memory corruption or uninitialised output", "anchors": ["GPSKet/operator/hamiltonian/ab_initio.py:AbInitioHamiltonian._get_conn_flattened_kernel"]}
{"id": "C13", "title": "Ab-initio rows are the second-quantised Hamiltonian", "statement": "The entries returned for x sum, per x', to <x|H|x'> with H = sum h_pq E_pq + 1/2 sum (pq|rs) (E_pq E_rs - delta_qr E_ps).", "quantifier": "every h, every eri with the particle-exchange symmetry (pq|rs) = (rs|pq), every orbital number, and every pair of configurations", "why_tests_cant": "signs of double excitations depend on all occupations in between, over 4^L configurations", "anchors": ["GPSKet/operator/hamiltonian/ab_initio.py:AbInitioHamiltonian", "GPSKet/operator/hamiltonian/ab_initio.py:get_parity_multiplicator_hop"]}
{"id": "C14", "title": "On-the-fly ab-initio local energy equals the kernel's", "statement": "local_en_on_the_fly returns sum_{x'} <x|H|x'> psi(x')/psi(x), with fast update or without it.", "quantifier": "every wave function, configuration and integrals", "why_tests_cant": "every wave function and every configuration of every size", "anchors": ["GPSKet/operator/hamiltonian/ab_initio.py:local_en_on_the_fly"]}
{"id": "C15", "title": "Local RDMs contract to the local energy", "statement": "With return_local_RDMs, contracting the returned one- and two-body local RDMs with the one- and two-electron integrals the operator holds reproduces the local energy.", "quantifier": "every wave function, configuration and integrals", "why_tests_cant": "identity over all inputs of a tensor contraction", "anchors": ["GPSKet/operator/hamiltonian/ab_initio.py:local_en_on_the_fly (return_local_RDMs)"]}
{"id": "C16", "title": "Sparse and dense ab-initio operators agree", "statement": "The sparse on-the-fly local energy equals the dense one for the same integrals.", "quantifier": "all integrals with (pq|rs) = (rs|pq), configurations and wave functions", "why_tests_cant": "two independently written sign conventions must agree on every configuration", "anchors": ["GPSKet/operator/hamiltonian/ab_initio_sparse.py", "GPSKet/operator/hamiltonian/ab_initio.py:local_en_on_the_fly"]}
{"id": "C17", "title": "Sparse integral storage loses nothing", "statement": "The range/index/value arrays built for the one- and two-electron integrals enumerate, for each left index, exactly the non-zero integrals, each once.", "quantifier": "every integral tensor and size, including all-zero rows", "why_tests_cant": "boundary rows and empty rows across all sizes", "anchors": ["GPSKet/operator/hamiltonian/ab_initio_sparse.py:AbInitioHamiltonianSparse"]}
{"id": "C18", "title": "Dummy-site updates denote the intended configuration", "statement": "A list of (site, occupation) updates in which a site is repeated denotes the configuration in which the first listed occupation wins; composing a second move with get_updated_occ_previous_move yields the list denoting the move applied to the already moved configuration.", "quantifier": "every configuration and every pair of moves, including moves sharing one or both sites", "why_tests_cant": "the overlaps matter only on special index coincidences", "anchors": ["GPSKet/operator/hamiltonian/ab_initio.py:get_connected_log_amp", "GPSKet/operator/hamiltonian/ab_initio.py:get_updated_occ_previous_move"]}
{"id": "C19", "title": "Fermionic Hilbert space constraint and random states", "statement": "FermionicDiscreteHilbert(N, n_elec) accepts exactly configurations with n_elec[0] spin-up and n_elec[1] spin-down electrons; random_state only returns such configurations and every one of them has positive probability.", "quantifier": "every size, filling and key", "why_tests_cant": "all random outcomes of all sizes", "anchors": ["GPSKet/hilbert/discrete_fermion.py:FermionicSumConstraint", "GPSKet/hilbert/random/discrete_fermion.py"]}
{"id": "C20", "title": "Powers of a fermionic Hilbert space", "statement": "hilbert ** n is the n-fold product: n*size sites and n times the electron numbers.", "quantifier": "every Hilbert space and n", "why_tests_cant": "a branch taken only for constrained spaces", "anchors": ["GPSKet/hilbert/discrete_fermion.py:FermionicDiscreteHilbert.__pow__"]}
{"id": "C21", "title": "Hopping rule stays in the Hilbert space", "statement": "Every proposal of the fermionic hopping/exchange rule has the same numbers of spin-up and spin-down electrons as the current state, differs from it only on the two sites it reports as updated and holds there the reported occupations.", "quantifier": "every configuration, every random outcome, every hopping table and hop probability", "why_tests_cant": "random outcomes and configurations cannot be enumerated", "anchors": ["GPSKet/sampler/rules/fermionic_hopping.py:transition_function"]}
{"id": "C22", "title": "Hopping rule proposes symmetrically", "statement": "The probability of proposing x' from x equals that of proposing x from x' (the rule returns no log-probability correction), so Metropolis acceptance leaves |psi|^2 invariant.", "quantifier": "every configuration pair, hop probability and user-supplied transition probabilities the rule accepts", "why_tests_cant": "a statement about exact probabilities for all configurations; sampling tests cannot detect small asymmetries", "anchors": ["GPSKet/sampler/rules/fermionic_hopping.py:FermionicHoppingRule", "GPSKet/sampler/metropolis_fast.py:MetropolisFastSampler"]}
{"id": "C23", "title": "Exchange rule reports its update", "statement": "ExchangeRuleWithUpdate proposes the configuration with the two sites of the drawn cluster swapped, and reports precisely those sites; the proposal is symmetric and conserves every on-site occupation count.", "quantifier": "every cluster list, draw and configuration", "why_tests_cant": "all draws and configurations", "anchors": ["GPSKet/sampler/rules/exchange_with_update.py:ExchangeRuleWithUpdate"]}
{"id": "C24", "title": "Fast Metropolis sampler is the plain Metropolis sampler", "statement": "With a model whose cached fast evaluation is coherent, after any number of sweeps with any random inputs the fast sampler holds the same configurations, log-probabilities and accept counters as the plain Metropolis-Hastings loop that re-evaluates the model, and its cache belongs to the configuration it holds.", "quantifier": "every sequence of proposals and uniforms, chain number and sweep length", "why_tests_cant": "an invariant over all histories; a stale cache after a rejected move appears only after particular accept/reject sequences", "anchors": ["GPSKet/sampler/metropolis_fast.py:MetropolisFastSampler._sample_next"]}
{"id": "C25", "title": "Sampler counters", "statement": "After k calls n_steps has grown by k*sweep_size*n_chains and the accept counter by the number of accepted proposals, never exceeding it.", "quantifier": "every history", "why_tests_cant": "an invariant over histories", "anchors": ["GPSKet/sampler/metropolis_fast.py:MetropolisFastSampler._sample_next"]}
{"id": "C26", "title": "batch_choice draws with the given probabilities", "statement": "For non-negative p with positive total, batch_choice maps the uniform variate u in [0,1) to index k exactly for u in a set of length p_k/total, never beyond the last index, and never to a zero-probability index except on a null set.", "quantifier": "all probability vectors and all uniforms", "why_tests_cant": "boundary values of the uniform variate have probability zero and are never sampled", "anchors": ["GPSKet/sampler/autoreg.py:batch_choice"]}
{"id": "C27", "title": "Autoregressive sampling draws from |psi|^2", "statement": "For autoregressive models with normalize=True and constraints that always leave a choice, ARDirectSampler returns a configuration x with probability |psi(x)|^2, with and without symmetries.", "quantifier": "all conditionals, sizes and configurations; all finite groups of site permutations", "why_tests_cant": "equality of two distributions on an exponentially large space", "anchors": ["GPSKet/sampler/autoreg.py:ARDirectSampler._sample_chain", "GPSKet/models/autoreg_qGPS.py:AbstractARqGPS"]}
{"id": "C28", "title": "Autoregressive wave functions are normalised", "statement": "sum over all configurations of |psi(x)|^2 is 1 for the autoregressive qGPS models with normalize=True, symmetrised or not (constrained spaces, or unconstrained ones with at least two sites).", "quantifier": "all parameters, sizes, local dimensions, and permutation symmetry sets", "why_tests_cant": "exponentially many terms for each of infinitely many parameter values", "anchors": ["GPSKet/models/autoreg_qGPS.py:ARqGPS", "GPSKet/models/autoreg_qGPS_full.py:ARqGPSFull", "GPSKet/models/autoreg_plaquetteqGPS.py:ARPlaquetteqGPS"]}
{"id": "C29", "title": "Autoregressive conditionals are causal", "statement": "The i-th conditional does not change when occupations at sites i, i+1, ... change.", "quantifier": "all parameters, inputs and sites; for the plaquette variant, all masks that hide plaquette entries >= i", "why_tests_cant": "non-interference over all pairs of inputs", "anchors": ["GPSKet/models/autoreg_qGPS.py:_compute_conditional", "GPSKet/models/autoreg_qGPS_full.py:_compute_conditional", "GPSKet/models/autoreg_plaquetteqGPS.py:_compute_conditional"]}
{"id": "C30", "title": "Cached and batched conditionals agree", "statement": "Calling _conditional for sites 0,1,...,L-1 with the mutable cache yields the same probabilities as conditionals evaluated in one pass.", "quantifier": "all parameters, inputs and sizes", "why_tests_cant": "the cache is carried through an unbounded sequence of calls", "anchors": ["GPSKet/models/autoreg_qGPS.py:ARqGPS._conditional", "GPSKet/models/autoreg_qGPS.py:ARqGPS._conditionals"]}
{"id": "C31", "title": "Zero-magnetisation constraint is exact", "statement": "On a spin-1/2 space with total_sz = 0 the autoregressive model gives non-zero probability exactly to configurations with equally many up and down spins, and each prefix leaves at least one allowed continuation.", "quantifier": "every even size and all parameters", "why_tests_cant": "support over 2^L configurations for all L", "anchors": ["GPSKet/models/autoreg_qGPS.py:_compute_conditional", "GPSKet/models/autoreg_qGPS.py:renormalize_log_psi", "GPSKet/models/autoreg_qGPS.py:gpu_cond"]}
{"id": "C32", "title": "Unconstrained autoregressive models have full support", "statement": "On an unconstrained spin-1/2 space every configuration has positive probability.", "quantifier": "every size and all parameters", "why_tests_cant": "fails only for a few tiny sizes through a dtype/counter coincidence", "anchors": ["GPSKet/models/autoreg_qGPS.py:_compute_conditional"]}
{"id": "C33", "title": "Fermionic constraint of the AR models is exact", "statement": "With count_spins_fermionic / renormalize_log_psi_fermionic the autoregressive model gives non-zero probability exactly to configurations with n_elec electrons of each spin.", "quantifier": "every size and filling and all parameters", "why_tests_cant": "support over 4^L configurations for all L", "anchors": ["scripts/ARGPS/argps/models.py:renormalize_log_psi_fermionic", "scripts/ARGPS/argps/models.py:count_spins_fermionic"]}
{"id": "C34", "title": "qGPS fast update equals re-evaluation", "statement": "Evaluating qGPS with update_sites on top of a cached configuration equals evaluating the updated configuration from scratch, and after any chain of cached updates the cache is the one a fresh evaluation would store.", "quantifier": "all parameters with non-zero factors, symmetries given as site permutations with optional spin flip, update lists (a site may be repeated as a padding dummy that lists its old occupation, the convention of ab_initio.py) and update sequences", "why_tests_cant": "an invariant over unbounded update histories", "anchors": ["GPSKet/models/qGPS.py:qGPS.__call__"]}
{"id": "C35", "title": "Symmetrised qGPS is symmetric", "statement": "The inverse symmetry function maps an update at a site to the update each transformed configuration sees, and log psi is invariant under every symmetry of the group used.", "quantifier": "every permutation table and group, with and without spin flip, all parameters", "why_tests_cant": "all configurations and group elements", "anchors": ["GPSKet/models/qGPS.py:get_sym_transformation_spin", "GPSKet/models/qGPS.py:qGPS.__call__"]}
{"id": "C36", "title": "ARqGPSFull fast update equals re-evaluation", "statement": "ARqGPSFull's fast update returns the amplitude of the updated configuration and stores the cache a fresh evaluation would.", "quantifier": "all parameters with non-zero factors, update lists (a site may be repeated as a padding dummy) and sequences", "why_tests_cant": "an invariant over unbounded histories", "anchors": ["GPSKet/models/autoreg_qGPS_full.py:ARqGPSFull.__call__"]}
{"id": "C37", "title": "Triangular parameter layout", "statement": "The packed triangular parameter array of ARqGPSFull gives site i its own i+1 entries: slices of different sites never overlap, cover the array and never run past its end.", "quantifier": "every size and site", "why_tests_cant": "all sizes", "anchors": ["GPSKet/models/autoreg_qGPS_full.py:ARqGPSFull"]}
{"id": "C38", "title": "Plaquette qGPS fast update equals re-evaluation", "statement": "As for qGPS, for the plaquette/filter variant.", "quantifier": "all parameters, plaquettes, update lists (also with repeated sites) and sequences", "why_tests_cant": "unbounded histories; repeated sites occur only for coinciding orbital indices", "anchors": ["GPSKet/models/plaquetteqGPS.py:PlaquetteqGPS.__call__"]}
{"id": "C39", "title": "CPD backflow fast update equals re-evaluation", "statement": "The CPD correction evaluated by fast update equals the one evaluated from scratch on the updated configuration.", "quantifier": "all parameters with non-zero factors and all update lists an operator of this package sends (also with repeated sites)", "why_tests_cant": "repeated sites occur only for coinciding orbital indices", "anchors": ["GPSKet/models/cpd_backflow.py:CPDBackflow"]}
{"id": "C40", "title": "Occupations and electron positions correspond", "statement": "occupancies_to_electrons lists, for each configuration of the batch, exactly the sites of its spin-up electrons in increasing order followed by those of its spin-down electrons.", "quantifier": "every batch of configurations in the constrained Hilbert space", "why_tests_cant": "all batches and fillings; a single row with a wrong electron number shifts all later rows", "anchors": ["GPSKet/models/slater.py:occupancies_to_electrons"]}
{"id": "C41", "title": "Slater fast update equals re-evaluation", "statement": "Updating a Slater determinant by the low-rank formula with padded update lists gives the determinant (with sign in the site order) of the updated configuration, and the updated inverse is the inverse of the updated orbital matrix.", "quantifier": "all orbitals with non-singular current and updated submatrix, all update lists conserving electrons, and update sequences", "why_tests_cant": "unbounded histories and all sizes; signs depend on every occupation in between", "anchors": ["GPSKet/models/slater.py:Slater", "GPSKet/models/slater.py:SlaterFast"]}
{"id": "C42", "title": "Pfaffian routine", "statement": "log_pfaffian(A) returns log of a number whose square is det A and which equals the Pfaffian, for antisymmetric A of even size.", "quantifier": "every even size and antisymmetric matrix", "why_tests_cant": "all sizes and pivot orders", "anchors": ["GPSKet/models/pfaffian.py:log_pfaffian"]}
{"id": "C43", "title": "PixelCNN is autoregressive", "statement": "The conditional at site i of the PixelCNN model depends only on sites before i in raster order.", "quantifier": "every kernel size, depth, weights and inputs", "why_tests_cant": "non-interference over all pairs of inputs; kernel-size parity matters", "anchors": ["GPSKet/nn/causal_conv.py", "GPSKet/models/pixelcnn.py:PixelCNN"]}
{"id": "C44", "title": "Segmented qGPS counts", "statement": "The spin/fermion counts used to select a segment are the exclusive prefix counts and stay within the table of parameters.", "quantifier": "every configuration of the constrained space", "why_tests_cant": "index bounds for all configurations and sizes", "anchors": ["GPSKet/models/segmented_qGPS.py:SegGPS"]}
{"id": "C45", "title": "RMSProp-regularised geometric tensor: lazy equals dense", "statement": "QGTJacobianDenseRMSProp @ v equals to_dense() @ v = ((1-s) O^H O + s diag(sqrt(ema)+eps)) v, and the matrix is Hermitian positive semi-definite for 0 <= s <= 1, positive definite for s, eps > 0.", "quantifier": "every Jacobian, ema, shift and vector", "why_tests_cant": "identity over all matrices", "anchors": ["GPSKet/optimizer/qgt/qgt_jacobian_dense_rmsprop.py:QGTJacobianDenseRMSPropT"]}
{"id": "C46", "title": "Running second-moment average", "statement": "After k gradients the exponential moving average is (1-d) sum d^(k-i) g_i^2, it is non-negative, and the bias-corrected value is a weighted mean of the squared gradients (exactly g^2 for constant g).", "quantifier": "every gradient history and decay in [0,1)", "why_tests_cant": "closed form over all histories", "anchors": ["GPSKet/optimizer/sr_rmsprop.py:SRRMSProp", "GPSKet/driver/VMC_SRRMSProp.py"]}
{"id": "C47", "title": "minSR equals SR", "statement": "The update minSR computes in sample space, O^H (O O^H)^+ e, is the minimum-norm solution of the parameter-space SR equation S x = F.", "quantifier": "every Jacobian, local energies, number of ranks and chunks", "why_tests_cant": "all matrices", "anchors": ["GPSKet/driver/minSR.py:minSR"]}
{"id": "C48", "title": "minSR assembles samples consistently across ranks and chunks", "statement": "The index map used to restack per-rank chunked rows is a bijection that puts every global sample's row at the position of its local energy.", "quantifier": "every number of ranks, chunks and chunk sizes", "why_tests_cant": "all process grids", "anchors": ["GPSKet/driver/minSR.py"]}
{"id": "C49", "title": "SR-RMSProp driver repacks complex updates", "statement": "For complex parameters solved in real mode, the update applied has as real/imaginary part the solution components of the corresponding real/imaginary parameter, and all ranks receive the root's solution.", "quantifier": "every parameter count and rank number", "why_tests_cant": "all sizes", "anchors": ["GPSKet/driver/VMC_SRRMSProp.py:VMC_SRRMSProp"]}
{"id": "C50", "title": "Unique-sample states", "statement": "MCStateUniqueSamples ends with pairwise distinct samples whose weights are non-negative, sum to one and equal the relative frequency among the processed samples, so expectation values equal those over the raw sample stream; padding samples have weight 0; at most max_sampling_steps batches are drawn.", "quantifier": "every sample stream, batch size, target number and rank count", "why_tests_cant": "all histories of samples", "anchors": ["GPSKet/vqs/mc/mc_state/state_unique_samples.py:MCStateUniqueSamples"]}
{"id": "C51", "title": "Stratified sampling states", "statement": "Chains never enter the deterministic set, weights are non-negative and sum to one, are unchanged by a constant shift of log psi, and the estimator is exact when the deterministic set is everything relevant.", "quantifier": "every proposal history and wave function", "why_tests_cant": "all histories", "anchors": ["GPSKet/vqs/mc/mc_state/state_stratified_sampling.py:MCStateStratifiedSampling"]}
{"id": "C52", "title": "Imaginary-time target", "statement": "ImagTimeStep.log_imag_time_step and the state returned by get_imag_time_step_vstate give log of ((1 - tau H) psi)(x), and the former leaves the state's samples as they were.", "quantifier": "every psi, tau and configuration", "why_tests_cant": "all wave functions", "anchors": ["GPSKet/supervised/imag_time_step.py"]}
{"id": "C53", "title": "H2O dataset decoding", "statement": "Bit strings decode to the configuration with occupation alpha_i + 2 beta_i on orbital i; select_largest keeps the k largest amplitudes by magnitude.", "quantifier": "every determinant and k", "why_tests_cant": "all bit strings and sizes", "anchors": ["GPSKet/datasets/h2o.py"]}
{"id": "C54", "title": "Supervised qGPS prediction does not depend on the reference site", "statement": "After any history of API calls that does not overwrite in place an array the learner holds, predict(x) equals exp of the sum over symmetries and support of the full site product, whichever reference sites are set.", "quantifier": "all parameters, configurations and reference-site choices per support index", "why_tests_cant": "all parameter values and reference choices", "anchors": ["GPSKet/supervised/supervised_qgps.py:QGPSLearning.set_kernel_mat", "GPSKet/supervised/supervised_qgps.py:QGPSLearningExp.predict"]}
{"id": "C55", "title": "Cached site products survive any fitting history", "statement": "After any sequence of fit steps at any reference sites, predictions, and epsilon assignments, the cached site products and kernel matrix equal the ones computed from scratch for the current parameters.", "quantifier": "all histories of API calls", "why_tests_cant": "stale caches appear only for particular call sequences", "anchors": ["GPSKet/supervised/supervised_qgps.py:QGPSLearning.set_kernel_mat", "GPSKet/supervised/supervised_qgps.py:QGPSLearning.update_epsilon_with_weights"]}
{"id": "C56", "title": "Supervised fit solves the regularised least-squares problem", "statement": "The weights of a log-space fit step on the active features minimise beta sum_i w_i |y_i - K w|^2 + sum alpha |w|^2 and inactive features have weight zero; parameters whose feature does not occur in the data keep their value. (With a bias the total weight of the data must exceed the cut-off, otherwise the bias is reset.)", "quantifier": "all kernels, data, weightings and positive alpha", "why_tests_cant": "all data sets", "anchors": ["GPSKet/supervised/supervised_qgps.py:QGPSLogSpaceFit", "GPSKet/supervised/supervised_qgps.py:QGPSLearning.setup_fit_alpha_dep"]}
{"id": "C57", "title": "Supervised fit: prior mean, alpha reset and Newton step take effect", "statement": "A fit step returns parameters prior_mean + weights; restoring alpha before each likelihood evaluation restores it; the Newton step of the generalised linear model is applied; prior precisions pair with the weights they regularise.", "quantifier": "all inputs", "why_tests_cant": "silent no-ops leave plausible results", "anchors": ["GPSKet/supervised/supervised_qgps.py:fit_step_growing_RVM", "GPSKet/supervised/supervised_qgps.py:QGPSLearningExp.fit_step", "GPSKet/supervised/supervised_qgps.py:QGPSGenLinMod.setup_fit_alpha_dep", "GPSKet/supervised/supervised_qgps.py:QGPSLearning.alpha_mat_ref_sites"]}
{"id": "C58", "title": "Model composition passes arguments as declared", "statement": "Composite models hand each sub-model the argument it declares, and models advertising fast updates accept the fast-update arguments; SRDense works with its default solver.", "quantifier": "every configuration of the composite models", "why_tests_cant": "wiring errors are invisible to the tests of the parts", "anchors": ["GPSKet/models/backflow_jastrow.py", "GPSKet/models/backflow.py", "GPSKet/models/slater_jastrow.py", "GPSKet/models/asymm_qGPS.py", "GPSKet/optimizer/sr_dense.py", "GPSKet/optimizer/solvers.py"]}
{"id": "C59", "title": "Jastrow factor symmetry", "statement": "The Jastrow model's value depends only on densities through a symmetric kernel and its expected closed form.", "quantifier": "all kernels and configurations", "why_tests_cant": "identity over all inputs", "anchors": ["GPSKet/models/jastrow.py:Jastrow"]}
{"id": "C60", "title": "Antisymmetric qGPS is antisymmetric", "statement": "Exchanging two same-spin electrons in the list of electron positions flips the sign of the ASymmqGPS and ASymmqGPSProd amplitudes.", "quantifier": "every number of determinants (odd for the product form), orbitals and electron positions", "why_tests_cant": "all inputs", "anchors": ["GPSKet/models/asymm_qGPS.py:ASymmqGPS", "GPSKet/models/asymm_qGPS.py:ASymmqGPSProd"]}
{"id": "C61", "title": "Spin rotations of the S^2 projection", "statement": "The orbital matrices a Slater model with S2_projection evaluates are the user's orbitals rotated by the given angles in spin space: (u,d) -> (cos u - sin d, sin u + cos d) with half angles, in every column.", "quantifier": "all orbitals, angles, sites and electron numbers", "why_tests_cant": "all inputs; a sign error is invisible for symmetric states", "anchors": ["GPSKet/models/slater.py:Slater.__call__"]}
{"id": "C62", "title": "Geometric tensor of unique-sample states", "statement": "The quantum geometric tensor of a unique-sample state (QGTJacobianDenseUniqueSamples) equals the covariance matrix of the log-derivatives over the plain stream of drawn samples.", "quantifier": "every sample stream, number of ranks, batch and wave function", "why_tests_cant": "identity over all histories of samples", "anchors": ["GPSKet/optimizer/qgt/qgt_jacobian_dense_unique_samples.py:QGTJacobianDenseUniqueSamples", "GPSKet/vqs/mc/mc_state/state_unique_samples.py"]}
{"id": "C63", "title": "Pfaffian amplitudes are antisymmetric", "statement": "Relabelling the electrons of a configuration handed to the Pfaffian state multiplies its amplitude by the sign of the permutation; with two electrons in the same spin-orbital the log-amplitude is not finite (-inf, or NaN from four electrons on).", "quantifier": "every pairing matrix, even number of electrons, configuration and permutation", "why_tests_cant": "all permutations and matrices of all sizes", "anchors": ["GPSKet/models/pfaffian.py:PfaffianState"]}
{"id": "C64", "title": "Spin rotation of the Pfaffian pairing matrix", "statement": "For an angle t the zero-magnetization Pfaffian uses the pairing matrix obtained by rotating both electrons of every pair about the y axis by t; angle zero leaves the state unchanged.", "quantifier": "every pairing matrix and angle", "why_tests_cant": "continuous parameters", "anchors": ["GPSKet/models/pfaffian.py:ZeroMagnetizationPfaffian"]}
{"id": "C65", "title": "Pfaffian states evaluate a batch configuration by configuration", "statement": "The value returned for a configuration is the character-weighted sum of the Pfaffians over rotation angles and symmetry images of that configuration, whatever else is in the batch.", "quantifier": "every batch, pairing matrix, list of angles with characters and list of symmetry images", "why_tests_cant": "ranges over all batches; the result for one configuration must not depend on the others", "anchors": ["GPSKet/models/pfaffian.py:PfaffianState.__call__", "GPSKet/models/pfaffian.py:ZeroMagnetizationPfaffian.__call__"]}
{"id": "C66", "title": "Imaginary-time states can be nested", "statement": "get_imag_time_step_vstate applied to a state returned by get_imag_time_step_vstate gives the state (1 - tau' H')(1 - tau H) psi.", "quantifier": "every state, pair of Hamiltonians and time steps", "why_tests_cant": "ranges over all states and nestings", "anchors": ["GPSKet/supervised/imag_time_step.py:get_imag_time_step_vstate"]}
{"id": "C67", "title": "Coefficients of the antisymmetric qGPS", "statement": "The amplitude of an ASymmqGPS is sinh of the linear combination of its Slater determinants in which the m-th determinant is weighted by the m-th entry of coeffs (summed over symmetry operations inside or outside the sinh according to the symmetrization).", "quantifier": "every number of determinants, coefficients, symmetry operations and orbitals", "why_tests_cant": "holds for the default single determinant, so no test with it can see the difference", "anchors": ["GPSKet/models/asymm_qGPS.py:ASymmqGPS"]}
{"id": "C68", "title": "Backflow amplitudes and their fast updates", "statement": "The amplitude of a Backflow state is the sum over symmetry operations of the (products of) determinants of the mean-field orbitals plus corrections at the electron positions; evaluated through fast updates it agrees with evaluation from scratch whenever the correction module does, over any chain of updates.", "quantifier": "every correction module, orbitals (restricted, unrestricted, generalised), configuration, update list (also with repeated sites) and history", "why_tests_cant": "unbounded histories, all sizes and modules", "anchors": ["GPSKet/models/backflow.py:Backflow"]}
{"id": "C69", "title": "Pseudo-inverse solver", "statement": "The pinv solver returns the minimum-norm solution of a solvable Hermitian system, that is the Moore-Penrose inverse applied to the right-hand side.", "quantifier": "every size, Hermitian matrix and right-hand side", "why_tests_cant": "identity over all matrices, singular ones included", "anchors": ["GPSKet/optimizer/solvers.py:pinv"]}
{"id": "C70", "title": "Fast updates of a Slater determinant times a qGPS", "statement": "A SlaterqGPS evaluated through fast updates agrees with evaluation from scratch on the updated configuration, and so do the stored intermediates, over any chain of updates.", "quantifier": "all parameters, configurations, admissible updates and histories", "why_tests_cant": "unbounded histories", "anchors": ["GPSKet/models/slater_qGPS.py:SlaterqGPS"]}
{"id": "C71", "title": "CPD backflow amplitudes", "statement": "The log-amplitude of a CPDBackflow state is the logarithm of the determinant(s) of its configuration-dependent orbitals (sum over m of products over sites) at the electron positions, for restricted, unrestricted and generalised orbitals.", "quantifier": "every size, parameters and configuration with the given electron numbers", "why_tests_cant": "identity over all inputs and sizes", "anchors": ["GPSKet/models/cpd_backflow.py:CPDBackflow"]}
{"id": "C72", "title": "Supervised fits leave the caller's arrays alone", "statement": "A fit step of the generalised linear model solves the problem with the weightings given, and the arrays passed to it are unchanged afterwards, so that repeating the call with the same arrays poses the same problem.", "quantifier": "all data, weightings and prior means", "why_tests_cant": "the change is silent and its size depends on the data and the prior mean", "anchors": ["GPSKet/supervised/supervised_qgps.py:QGPSGenLinMod.setup_fit"]}
{"id": "C73", "title": "Gradient and Hessian of the generalised linear model are the derivatives of its loss", "statement": "The gradient and Hessian functions handed to minimisers and line searches are the partial derivatives of the loss function handed to them, for real parameters and for complex parameters split into real and imaginary parts.", "quantifier": "all features, data, weightings, precisions and weights", "why_tests_cant": "a derivative is a statement about all points", "anchors": ["GPSKet/supervised/supervised_qgps.py:QGPSGenLinMod.setup_fit_alpha_dep"]}
{"id": "C74", "title": "Exponential fits: noise-weighted log loss with zero amplitudes", "statement": "A fit step of the exponential model minimises the squared errors of the log-amplitudes with inverse variance log(1 + noise/|amp|^2) over the nonzero targets, plus the predicted log-amplitudes of the zero targets, plus the penalty around the prior mean; noise weights are positive for nonzero targets and zero for zero targets.", "quantifier": "all features, target amplitudes (including zero), weightings, positive noise and positive precisions", "why_tests_cant": "all data sets", "anchors": ["GPSKet/supervised/supervised_qgps.py:QGPSLearningExp.setup_fit_noise_dep", "GPSKet/supervised/supervised_qgps.py:QGPSLearningExp.setup_fit"]}
{"id": "C75", "title": "State fitting: shards of the data set", "statement": "When an autoregressive state is fitted to a data set on several processes, every process gets a consecutive piece of the data with each amplitude next to its configuration, the pieces together are the data set, and their sizes differ by at most one.", "quantifier": "all data sets and numbers of processes", "why_tests_cant": "all lengths and process counts, including lengths that are not multiples and data sets smaller than the number of processes", "anchors": ["GPSKet/driver/abstract_state_fitting.py:AbstractStateFittingDriver.__init__"]}
{"id": "C76", "title": "State fitting: mini-batches", "statement": "Each step draws a mini-batch of the requested size without repetition from the data of the process, the first one with probability proportional to its squared amplitude; zero amplitudes are drawn only if all others are; the normalisation of the amplitudes does not matter; too large a mini-batch is an error; after a reset the same mini-batches are drawn again.", "quantifier": "all data sets, mini-batch sizes, random numbers, and histories of steps and resets", "why_tests_cant": "all random outcomes and histories", "anchors": ["GPSKet/driver/autoreg_state_fitting.py:ARStateFitting._forward_and_backward", "GPSKet/driver/abstract_state_fitting.py:AbstractStateFittingDriver.reset"]}
{"id": "C77", "title": "State fitting: the update direction is the gradient of the reported loss", "statement": "The vector that the state-fitting driver hands to the optimiser is the gradient of the loss it reports, for real and complex parameters and any number of processes.", "quantifier": "all differentiable models, parameters, mini-batches and numbers of processes", "why_tests_cant": "a derivative is a statement about all points and directions", "anchors": ["GPSKet/driver/autoreg_state_fitting.py:_loss_and_grad"]}
{"id": "C78", "title": "Initial parameters", "statement": "The qGPS initialiser gives real parameters 1 + sigma z and complex parameters of modulus one with phase sigma z, so that the log-amplitudes of a complex qGPS are bounded by its support dimension; the orthogonal initialiser gives for every matrix of the stack orthogonal columns and rejects other shapes.", "quantifier": "all shapes, dtypes, widths and random numbers", "why_tests_cant": "all random outcomes", "anchors": ["GPSKet/nn/initializers.py:normal", "GPSKet/nn/initializers.py:orthogonal"]}
{"id": "C79", "title": "J1-J2 Hamiltonians are constructed in both evaluation modes", "statement": "get_J1_J2_Hamiltonian returns an operator on the lattice with couplings J1/4 and J2/4 and the sign rule asked for, whether or not the local energy is to be evaluated on the fly.", "quantifier": "all lattices, couplings, sign rules and both modes", "why_tests_cant": "a statement about all argument combinations", "anchors": ["GPSKet/operator/hamiltonian/J1J2.py:get_J1_J2_Hamiltonian"]}
{"id": "C80", "title": "Supervised learning: the reported evidence is the marginal likelihood", "statement": "log_marg_lik returns the logarithm of the probability density of the given log-amplitudes under the model in which every log-amplitude is a linear combination of the features plus independent normal noise of the assumed precision and the weights are independent and normal with the given precisions; features that do not occur in the data or whose precision reaches the cutoff do not count.", "quantifier": "all features, nonzero amplitudes, positive precisions and noise levels; real, complex and real-and-imaginary-part weights; both learners", "why_tests_cant": "the value is an integral over all weights, for all inputs", "anchors": ["GPSKet/supervised/supervised_qgps.py:QGPSLearningExp.log_marg_lik", "GPSKet/supervised/supervised_qgps.py:QGPSLogSpaceFit.log_marg_lik"]}
{"id": "C81", "title": "Supervised learning: integer weightings count as repetitions", "statement": "To give a datum an integer weighting has the same effect on the reported evidence as to list the datum that many times, and log_marg_lik returns a value for every weighted data set.", "quantifier": "all features, data, weightings and precisions, both learners", "why_tests_cant": "all inputs", "anchors": ["GPSKet/supervised/supervised_qgps.py:QGPSLearningExp.log_marg_lik", "GPSKet/supervised/supervised_qgps.py:QGPSLogSpaceFit.log_marg_lik"]}
{"id": "C82", "title": "Supervised learning: the reported derivative with respect to the precisions", "statement": "log_marg_lik_alpha_der is, for every feature, the derivative of log_marg_lik with respect to the precision of this feature.", "quantifier": "all features, data, positive precisions, weightings and noise levels; real, complex and expanded parameters; both learners", "why_tests_cant": "a derivative is a statement about all points near the current one, for all inputs", "anchors": ["GPSKet/supervised/supervised_qgps.py:QGPSLearning.log_marg_lik_alpha_der", "GPSKet/supervised/supervised_qgps.py:QGPSLearningExp.log_marg_lik"]}
{"id": "C83", "title": "Supervised learning: the reported derivative with respect to the noise of the exponential fit", "statement": "QGPSLearningExp.log_marg_lik_noise_der is the derivative of log_marg_lik with respect to the assumed noise.", "quantifier": "all features, nonzero amplitudes, positive precisions, weightings and noise levels, real and complex parameters", "why_tests_cant": "a derivative is a statement about all points near the current one, for all inputs", "anchors": ["GPSKet/supervised/supervised_qgps.py:QGPSLearningExp.log_marg_lik_noise_der", "GPSKet/supervised/supervised_qgps.py:QGPSLearningExp.log_marg_lik"]}
{"id": "C84", "title": "Supervised learning: the reported derivative with respect to the noise of the log-space fit", "statement": "QGPSLogSpaceFit.log_marg_lik_noise_der is the derivative of log_marg_lik with respect to the assumed noise.", "quantifier": "all features, data, positive precisions and noise levels, real and complex parameters", "why_tests_cant": "a derivative is a statement about all points near the current one, for all inputs", "anchors": ["GPSKet/supervised/supervised_qgps.py:QGPSLogSpaceFit.log_marg_lik_noise_der", "GPSKet/supervised/supervised_qgps.py:QGPSLogSpaceFit.log_marg_lik"]}
{"id": "C85", "title": "Supervised learning: the optimisation of precisions and noise climbs the evidence", "statement": "One iteration of the optimisation of the precisions (separate or shared) of the features that take part and of the noise raises a value if log_marg_lik increases with it, lowers it if log_marg_lik decreases with it, and leaves it alone exactly if the derivative is zero; so the values at which the optimisation rests are the stationary points of the evidence.", "quantifier": "all features, data, positive precisions and noise levels; real, complex and expanded parameters; both learners; the noise for log-amplitudes that are not all zero, without weightings and without expansion of complex parameters", "why_tests_cant": "a statement about derivatives for all inputs", "anchors": ["GPSKet/supervised/supervised_qgps.py:QGPSLearning.opt_alpha_beta", "GPSKet/supervised/supervised_qgps.py:QGPSLearningExp.log_marg_lik", "GPSKet/supervised/supervised_qgps.py:QGPSLogSpaceFit.log_marg_lik"]}
{"id": "C86", "title": "Supervised learning: the optimisation keeps precisions and noise positive", "statement": "For any number of iterations, the optimisation of precisions and noise in a fit step returns without an exception, the precisions stay positive and at most at the cutoff, and the noise stays positive.", "quantifier": "all features, data, weightings, positive initial precisions and noise levels and all numbers of iterations", "why_tests_cant": "all inputs and unboundedly many iterations", "anchors": ["GPSKet/supervised/supervised_qgps.py:QGPSLearning.opt_alpha_beta", "GPSKet/supervised/supervised_qgps.py:QGPSLogSpaceFit.fit_step", "GPSKet/supervised/supervised_qgps.py:QGPSLearningExp.fit_step"]}
{"id": "C87", "title": "Supervised learning: the parameters belong to the precisions", "statement": "After a fit step the parameters are the regularised least-squares solution for the precisions and the noise that the learner then holds.", "quantifier": "all features, data, precisions, noise levels and limits of the number of iterations", "why_tests_cant": "all inputs and histories of the optimisation", "anchors": ["GPSKet/supervised/supervised_qgps.py:QGPSLearning.opt_alpha_beta", "GPSKet/supervised/supervised_qgps.py:QGPSLogSpaceFit.fit_step"]}
{"id": "C88", "title": "Supervised learning: the growing relevance vector machine climbs the evidence", "statement": "An iteration of fit_step_growing_RVM does not decrease log_marg_lik; and once two features are part of the model, no other change of a single precision (adding a feature, removing one, or another value) would have increased it more.", "quantifier": "all features, data, weightings, positive precisions and noise levels, all numbers of iterations, both learners", "why_tests_cant": "all inputs and unboundedly many iterations; a maximum over a continuum of precisions", "anchors": ["GPSKet/supervised/supervised_qgps.py:QGPSLearningExp.fit_step_growing_RVM", "GPSKet/supervised/supervised_qgps.py:QGPSLearningExp.update_precisions", "GPSKet/supervised/supervised_qgps.py:QGPSLearningExp.compute_sparsity_quantities"]}
{"id": "C89", "title": "Supervised learning: the first feature of the growing relevance vector machine", "statement": "If no feature is part of the model, fit_step_growing_RVM starts with the feature and the precision of the largest log_marg_lik among all models with one feature.", "quantifier": "all features, data, weightings and noise levels for which some feature improves log_marg_lik", "why_tests_cant": "a maximum over a continuum of precisions, for all inputs", "anchors": ["GPSKet/supervised/supervised_qgps.py:QGPSLearningExp.fit_step_growing_RVM"]}
{"id": "C90", "title": "Generalised linear model: the initial fit of log-amplitudes", "statement": "A fit step with log_fit_init and without further options sets the parameters to the minimiser of the squared errors of the log-amplitudes, each weighted with the precision that the noise level implies relative to the prior mean, plus the penalty; parameters of features that do not occur keep their values, those whose precision reaches the cutoff take the value of the prior mean.", "quantifier": "all features, nonzero amplitudes (positive for real parameters), weightings, positive precisions and noise levels, real prior means", "why_tests_cant": "a minimum over a continuum of parameters, for all inputs", "anchors": ["GPSKet/supervised/supervised_qgps.py:QGPSGenLinMod.setup_fit_alpha_dep", "GPSKet/supervised/supervised_qgps.py:QGPSGenLinMod.fit_step"]}
{"id": "C91", "title": "Generalised linear model: reweighted least squares", "statement": "A fit step with one step of reweighted least squares minimises the loss with the predicted amplitudes linearised around the present parameters; k + 1 steps are the same as k steps and one more; and parameters stay the same exactly if they are a stationary point of the loss.", "quantifier": "all real features, amplitudes, weightings, positive precisions and noise levels, prior means and numbers of steps", "why_tests_cant": "minima and derivatives over a continuum of parameters, for all inputs", "anchors": ["GPSKet/supervised/supervised_qgps.py:QGPSGenLinMod.setup_fit_alpha_dep", "GPSKet/supervised/supervised_qgps.py:QGPSGenLinMod.fit_step"]}
{"id": "C92", "title": "Generalised linear model: the reported derivative of the evidence", "statement": "log_marg_lik_beta_der is the derivative of log_marg_lik with respect to the inverse noise, for fixed parameters and precisions.", "quantifier": "all features, data, weightings, precisions and parameters for which the Cholesky decomposition of the Hessian succeeds; real and complex parameters", "why_tests_cant": "a derivative is a statement about all points near the current one, for all inputs", "anchors": ["GPSKet/supervised/supervised_qgps.py:QGPSGenLinMod.log_marg_lik", "GPSKet/supervised/supervised_qgps.py:QGPSGenLinMod.log_marg_lik_beta_der"]}
{"id": "C93", "title": "Reduced density matrices: the local matrices are local estimators", "statement": "Contracting the local one- and two-body matrices of the density-matrix script with integrals gives the local estimators of the one-body operator and of the two-body operator; so their averages over the distribution of a state of fixed electron numbers are its spin-summed reduced density matrices, entry by entry.", "quantifier": "all numbers of orbitals, configurations, amplitudes that vanish nowhere in the sector, and all integrals", "why_tests_cant": "all system sizes, states and integrals", "anchors": ["scripts/cpd-backflow/cpd_backflow/rdms.py:main", "GPSKet/operator/hamiltonian/ab_initio.py:local_en_on_the_fly"]}
{"id": "C94", "title": "Reduced density matrices: the saved files", "statement": "If the samples are distributed like the state, the script's saved arrays rdm1 and rdm2 are the one- and two-body reduced density matrices of the state; their traces are the electron number N and N(N-1) for every set of samples.", "quantifier": "all numbers of processes, chains, samples and chunk sizes; all states of fixed electron numbers", "why_tests_cant": "all numbers of processes, samples and states", "anchors": ["scripts/cpd-backflow/cpd_backflow/rdms.py:main"]}
{"id": "C95", "title": "Spin correlations from density matrices", "statement": "spin_spin_correlation of the one- and two-body density matrices of a state returns the correlation of the z components of the spins of the two atoms, for every projector of the first and every symmetric projector of the second atom; and the expectation of every entry of get_correlations, computed from the saved arrays, is this correlation of two sites.", "quantifier": "all numbers of orbitals, states and projectors; all sample histories", "why_tests_cant": "all system sizes, states and projectors", "anchors": ["scripts/cpd-backflow/cpd_backflow/corrfunc.py:spin_spin_correlation", "scripts/cpd-backflow/cpd_backflow/corrfunc.py:get_correlations", "scripts/cpd-backflow/plots/hsheet_corr.py:spin_spin_correlation", "scripts/cpd-backflow/plots/hsheet_corr.py:get_correlations"]}
{"id": "C96", "title": "Radial spin correlations of the sheet", "statement": "radial_correlations returns, for the distances 0, 1, sqrt(2) and 2 on a 6 x 6 sheet, the sum of the correlations of a bulk atom with all atoms at this distance, averaged over the bulk atoms.", "quantifier": "all arrays of correlations", "why_tests_cant": "all real arrays", "anchors": ["scripts/cpd-backflow/cpd_backflow/corrfunc.py:radial_correlations", "scripts/cpd-backflow/plots/hsheet_corr.py:radial_correlations"]}
{"id": "C97", "title": "ARGPS training: no step is lost or done twice", "statement": "However often the training script is killed and started again on the same work directory, a checkpoint labelled k holds variables, optimiser state and running average after exactly k optimisation steps, each continuing from the previous one, and the step count k. When main returns, exactly max_steps steps have been done and their result is the latest checkpoint. A process that is not killed comes to its end.", "quantifier": "all numbers of steps and checkpoint periods, all optimisations, and all histories of a work directory: any number of processes started one after the other, each killed at any point", "why_tests_cant": "crash points and histories of restarts", "anchors": ["scripts/ARGPS/argps/vmc.py:main", "scripts/ARGPS/argps/vmc.py:serialize_VMC", "scripts/ARGPS/argps/vmc.py:deserialize_VMC"]}
{"id": "C98", "title": "ARGPS training: a continued run equals an uninterrupted one", "statement": "With a fixed seed, the parameters at the end of training do not depend on whether and when the script was killed and started again.", "quantifier": "all numbers of steps and checkpoint periods, all optimisations, and all histories of a work directory: any number of processes started one after the other, each killed at any point", "why_tests_cant": "crash points and histories of restarts", "anchors": ["scripts/ARGPS/argps/vmc.py:main"]}
{"id": "C99", "title": "ARGPS training: the log of metrics", "statement": "When training is complete, metrics.csv is a header followed by one row for each of the steps 1 to max_steps, in this order, whatever the history.", "quantifier": "all numbers of steps and checkpoint periods, all optimisations, and all histories of a work directory: any number of processes started one after the other, each killed at any point", "why_tests_cant": "crash points and histories of restarts", "anchors": ["scripts/ARGPS/argps/vmc.py:main", "scripts/ARGPS/argps/utils.py:CSVLogger"]}
{"id": "C100", "title": "Training scripts: the saved configuration", "statement": "Once config.yaml exists in the work directory, the script can be started again without a configuration and continues with the same one, including the seed.", "quantifier": "all numbers of steps and checkpoint periods, all optimisations, and all histories of a work directory: any number of processes started one after the other, each killed at any point", "why_tests_cant": "crash points and histories of restarts", "anchors": ["scripts/ARGPS/argps/vmc.py:main", "scripts/ARGPS/argps/utils.py:save_config", "scripts/ARGPS/argps/utils.py:read_config", "scripts/ARGPS/argps/configs/common.py:resolve"]}
{"id": "C101", "title": "Backflow training: the number of steps", "statement": "Whatever the history, when the training script for backflow states reaches its evaluation, total_steps steps of training and descent_finishing.total_steps steps of descent finishing have been done, and the checkpoint with the label of the last step holds their result.", "quantifier": "all numbers of steps and checkpoint periods, all optimisations, and all histories of a work directory: any number of processes started one after the other, each killed at any point", "why_tests_cant": "crash points and histories of restarts", "anchors": ["scripts/cpd-backflow/cpd_backflow/vmc.py:main"]}
{"id": "C102", "title": "Backflow training: the best parameters", "statement": "In every history, best_params.mpack holds the parameters with the lowest energy seen, together with this energy and its variance, and the script can be started again.", "quantifier": "all numbers of steps and checkpoint periods, all optimisations, and all histories of a work directory: any number of processes started one after the other, each killed at any point", "why_tests_cant": "crash points and histories of restarts; all sequences of energies", "anchors": ["scripts/cpd-backflow/cpd_backflow/vmc.py:main", "scripts/cpd-backflow/cpd_backflow/utils.py:save_best_params", "scripts/cpd-backflow/cpd_backflow/utils.py:restore_best_params"]}
{"id": "C103", "title": "Backflow training: checkpoints are complete", "statement": "Whatever the history, a checkpoint of the training loop labelled k holds variables and optimiser state after exactly k optimisation steps, each continuing from the previous one with everything that the driver keeps from step to step.", "quantifier": "all numbers of steps and checkpoint periods, all optimisations, and all histories of a work directory: any number of processes started one after the other, each killed at any point", "why_tests_cant": "crash points and histories of restarts", "anchors": ["scripts/cpd-backflow/cpd_backflow/vmc.py:serialize_VMC", "scripts/cpd-backflow/cpd_backflow/vmc.py:deserialize_VMC", "scripts/cpd-backflow/cpd_backflow/vmc.py:main"]}
{"id": "C104", "title": "Timer of the training scripts", "statement": "After every step of a loop the timer reports the time since its construction, the time that this step took and this time multiplied by the number of steps left, and prints them as days, hours, minutes and seconds.", "quantifier": "all numbers of steps, all times, all loops including those of restarted runs and of descent finishing", "why_tests_cant": "all sequences of times and steps", "anchors": ["scripts/ARGPS/argps/utils.py:Timer", "scripts/cpd-backflow/cpd_backflow/utils.py:Timer"]}
{"id": "C105", "title": "Determinant models follow the sign convention of the Hamiltonians", "statement": "The amplitudes of the Slater, Backflow and CPDBackflow models are those of a product of creation operators of orbitals applied to the vacuum, with the same creation operators, and thus the same fermionic signs, as in the Hamiltonians.", "quantifier": "all numbers of sites and electrons, all orbitals, symmetry operations and corrections, all configurations in the sector", "why_tests_cant": "signs of determinants for all configurations and all numbers of electrons", "anchors": ["GPSKet/models/slater.py:Slater", "GPSKet/models/backflow.py:Backflow", "GPSKet/models/cpd_backflow.py:CPDBackflow", "GPSKet/operator/fermion.py:FermionicDiscreteOperator"]}
{"id": "C106", "title": "Training of the backflow script starts from the Hartree-Fock state", "statement": "Without noise the amplitudes of the freshly initialised model are those of the Hartree-Fock determinant, whose orbitals are loaded from the file of the molecule or come from the mean-field calculation of the Hubbard model, for restricted, unrestricted and generalised orbitals.", "quantifier": "all bases, numbers of orbitals and electrons, support dimensions, environments and configurations", "why_tests_cant": "all numbers of electrons and all configurations", "anchors": ["scripts/cpd-backflow/cpd_backflow/models.py:get_model", "scripts/cpd-backflow/cpd_backflow/models.py:get_hf_orbitals", "scripts/cpd-backflow/cpd_backflow/models.py:get_hf_orbitals_from_file", "scripts/cpd-backflow/cpd_backflow/models.py:get_backflow_out_transformation"]}
{"id": "C107", "title": "Models of the backflow script can be used with its Hamiltonians", "statement": "For every model that the script builds, the Hamiltonian of the script computes the amplitudes of the model and raises no exception.", "quantifier": "all models the script builds, all parameters, all configurations", "why_tests_cant": "all parameters and configurations", "anchors": ["scripts/cpd-backflow/cpd_backflow/models.py:get_model", "GPSKet/models/cpd_backflow.py:CPDBackflow", "GPSKet/operator/hamiltonian/ab_initio.py:local_en_on_the_fly"]}
{"id": "C108", "title": "Environments hold the most strongly coupled orbitals", "statement": "With exchange cutoff k the environment of every orbital lists the k orbitals to which the exchange matrix, in the basis of these orbitals, couples it most strongly, the strongest first.", "quantifier": "all bases, exchange matrices and cutoffs, every order that sorting may return", "why_tests_cant": "all matrices and cutoffs", "anchors": ["scripts/cpd-backflow/cpd_backflow/models.py:get_top_k_orbital_indices", "scripts/cpd-backflow/cpd_backflow/systems.py:get_molecular_system"]}
{"id": "C109", "title": "Hubbard chain of the autoregressive script", "statement": "The Hamiltonian that get_Hubbard_system returns is that of the Hubbard chain with the configured boundary condition: open, or closed, and then antiperiodic if the number of sites is a multiple of four.", "quantifier": "all numbers of sites from three on, all amplitudes and interactions", "why_tests_cant": "equality of operators for all numbers of sites", "anchors": ["scripts/ARGPS/argps/systems.py:get_Hubbard_system", "GPSKet/operator/hamiltonian/hubbard.py:FermiHubbardOnTheFly"]}
{"id": "C110", "title": "Hubbard chains and rectangles of the backflow script", "statement": "The Hamiltonian that get_FermiHubbard_system returns is that of the Hubbard model on the chain or rectangle with the configured boundary conditions, periodic, antiperiodic or open, for a closed chain up to the signs of sites.", "quantifier": "all numbers of sites, all amplitudes and interactions, every order and direction in which the graph lists its edges", "why_tests_cant": "equality of operators for all sizes and edge orders", "anchors": ["scripts/cpd-backflow/cpd_backflow/systems.py:get_FermiHubbard_system", "GPSKet/operator/hamiltonian/hubbard.py:FermiHubbardOnTheFly"]}
{"id": "C111", "title": "Mean-field calculation for the Hubbard model uses its Hamiltonian", "statement": "The one- and two-electron integrals from which the script computes mean-field orbitals of a Hubbard system define the same Hamiltonian as the one that is optimised.", "quantifier": "all chains and rectangles, all amplitudes and interactions", "why_tests_cant": "equality of operators for all sizes", "anchors": ["scripts/cpd-backflow/cpd_backflow/models.py:get_hf_orbitals", "scripts/cpd-backflow/cpd_backflow/systems.py:get_FermiHubbard_system"]}
{"id": "C112", "title": "Symmetries configured for the autoregressive script", "statement": "Whichever symmetries the configuration asks for (translations, point symmetries, spin flips, all or none), the models of the script assign the same log-amplitude to configurations related by these symmetries; those with AR in the name are normalised, supported on the configurations with the right numbers of spins or electrons, and sampled by the direct sampler with exactly their probabilities; fast updates with these symmetries equal evaluations from scratch after any history of updates.", "quantifier": "all models by name, all lists of symmetries, all graphs (with any symmetry groups), all parameters, configurations and update histories", "why_tests_cant": "all groups, parameters, configurations and histories", "anchors": ["scripts/ARGPS/argps/models.py:get_model", "scripts/ARGPS/argps/models.py:get_symmetry_transformation_spin", "scripts/ARGPS/argps/models.py:get_plaquettes_and_masks", "GPSKet/sampler/autoreg.py:ARDirectSampler"]}
{"id": "C113", "title": "Direct sampling is refused for models that are not normalised", "statement": "get_sampler raises an error if the direct sampler is configured for a model of the script that is not normalised; so the samples of every run of the script are distributed according to the state.", "quantifier": "all configurations of the script, all parameters", "why_tests_cant": "equality of distributions for all parameters", "anchors": ["scripts/ARGPS/argps/samplers.py:get_sampler", "scripts/ARGPS/argps/models.py:get_model"]}
{"id": "C114", "title": "Uninterrupted ab-initio optimisation", "statement": "A run of H2O.py, H50_1D.py or H4x4x4.py that is not interrupted writes one row of out.txt per optimisation step, in order; ends if and only if there are max_count rows after the row with the smallest variance (counted from row min_global_count in H4x4x4.py), at the first such moment; leaves in parameters.pickle the parameters of the last row; and leaves in best_pars.pickle those of the best row (with the exception of C119 in H4x4x4.py).", "quantifier": "All evaluators of energies, variances and updates, all initial parameters and sampler states, all max_count and min_global_count.", "why_tests_cant": "The run has no bound on its number of steps and the moment of stopping depends on the whole sequence of variances.", "anchors": ["scripts/GPS_for_ab_initio/H2O.py", "scripts/GPS_for_ab_initio/H50_1D.py", "scripts/GPS_for_ab_initio/H4x4x4.py"]}
{"id": "C115", "title": "Rows of interrupted ab-initio optimisations", "statement": "In every history of kills and restarts of the three scripts, row i of out.txt belongs to an evaluation of parameters that were trained by exactly i steps, and parameters.pickle has the parameters of the step to come.", "quantifier": "All histories: any number of processes, each killed between any two file operations; all evaluators.", "why_tests_cant": "A test fixes a few crash points; the claim is about all of them and all their combinations.", "anchors": ["scripts/GPS_for_ab_initio/H2O.py", "scripts/GPS_for_ab_initio/H50_1D.py", "scripts/GPS_for_ab_initio/H4x4x4.py"]}
{"id": "C116", "title": "Best parameters of interrupted ab-initio optimisations", "statement": "In every history of kills and restarts of H2O.py and H50_1D.py, best_pars.pickle can be read once there is a row, and has the parameters of the row with the smallest variance.", "quantifier": "All histories of kills between any two file operations, all evaluators.", "why_tests_cant": "Depends on the crash point relative to three file operations and on all variances before and after.", "anchors": ["scripts/GPS_for_ab_initio/H2O.py", "scripts/GPS_for_ab_initio/H50_1D.py"]}
{"id": "C117", "title": "Restarts of ab-initio optimisations", "statement": "A killed run of H2O.py or H50_1D.py can always be continued by starting it again; it ends, as an uninterrupted one, when max_count rows after the best one have not improved on it; and once it has ended, starting it again ends at once and changes no file.", "quantifier": "All histories of kills between any two file operations, all evaluators, all max_count.", "why_tests_cant": "All crash points and all positions of the best row.", "anchors": ["scripts/GPS_for_ab_initio/H2O.py", "scripts/GPS_for_ab_initio/H50_1D.py"]}
{"id": "C118", "title": "Density-matrix files of H4x4x4.py", "statement": "In every history of kills and restarts of H4x4x4.py, for every row i of out.txt the file oneBRDM_i.npy can be read and contains the density matrix of the same evaluation.", "quantifier": "All histories of kills between any two file operations, all evaluators, all rows.", "why_tests_cant": "A kill may leave a truncated file or a file without a row; only a proof covers all orders of such events.", "anchors": ["scripts/GPS_for_ab_initio/H4x4x4.py"]}
{"id": "C119", "title": "Equilibration phase of H4x4x4.py", "statement": "H4x4x4.py ignores the first min_global_count rows when it looks for the best row, however often it is killed and started again: it does not end before min_global_count + max_count rows, keeps the parameters of the best row that counts, and once it has ended starting it again ends at once.", "quantifier": "All histories of kills and restarts, all evaluators, all max_count and min_global_count.", "why_tests_cant": "min_global_count is 1000 steps of a large calculation; the claim is about all sequences of variances and crash points.", "anchors": ["scripts/GPS_for_ab_initio/H4x4x4.py"]}
{"id": "C120", "title": "Pfaffian models are pair states", "statement": "The amplitudes of the Pfaffian models are those of (1/n!) (Σ F_pq c†_p c†_q)^n |0>, with F the pairing matrix, in the operators in terms of which the Hamiltonians act; for the zero-magnetization model with spin projection they are those of the sum of the rotated pair states weighted with the characters.", "quantifier": "All pairing matrices, all numbers of pairs and sites, all configurations with matching electron numbers, all angles and characters.", "why_tests_cant": "Signs and prefactors depend on the positions of all electrons; a numerical check covers a few configurations of small systems and cannot see a convention mismatch in general.", "anchors": ["GPSKet/models/pfaffian.py", "scripts/GPS_for_ab_initio/H2O.py"]}
{"id": "C121", "title": "Fast updates of the Pfaffian-qGPS model of H2O.py", "statement": "For the model PfaffianqGPS of H2O.py the evaluation with update_sites on a cache gives the amplitude of the updated configuration and leaves the cache of that configuration, after any chain of updates; with M = 0 there is no restriction, otherwise the updates must be admissible for the qGPS.", "quantifier": "All parameters, configurations, updates (padded, repeated for M = 0) and all histories of updates.", "why_tests_cant": "Caches carry over arbitrarily long chains of updates.", "anchors": ["scripts/GPS_for_ab_initio/H2O.py", "GPSKet/models/pfaffian.py", "GPSKet/models/qGPS.py"]}
{"id": "C122", "title": "All reference states of H2O.py start in the same state", "statement": "With the initial parameters H2O.py computes from the orbitals of a mean-field calculation, the Slater determinant, the spin-projected Slater determinant, the Pfaffian, the spin-projected Pfaffian and the generalised Slater determinant have the same amplitudes up to a factor independent of the configuration: those of the determinant with both spins in the given orbitals.", "quantifier": "All orbitals, all numbers of sites and electrons, all configurations, all rotation angles and characters.", "why_tests_cant": "The equality of a determinant, a Pfaffian and their rotated versions is an identity in all sizes; tests see finitely many.", "anchors": ["scripts/GPS_for_ab_initio/H2O.py", "GPSKet/models/slater.py", "GPSKet/models/pfaffian.py"]}
{"id": "C123", "title": "One Hamiltonian for all processes of a directory", "statement": "If all processes started in a directory have the same molecule, every process that gets to work uses the integrals of that molecule in one and the same orthonormal basis, the one in basis.npy, wherever earlier processes were killed and whatever basis each of them would have computed.", "quantifier": "All molecules, all bases the localisation may return, all histories of kills between two file operations and restarts, all scripts that keep integrals.", "why_tests_cant": "The number of crash points and restarts is unbounded, and the localisation gives a different basis in each process.", "anchors": ["scripts/GPS_for_ab_initio/H2O.py", "scripts/GPS_for_ab_initio/H4x4x4.py", "scripts/GPS_for_ab_initio/H50_1D.py", "scripts/cpd-backflow/cpd_backflow/systems.py"]}
{"id": "C124", "title": "A script can be started again after a kill", "statement": "After any history of kills and restarts with one molecule a newly started process gets to work.", "quantifier": "All molecules and all histories of kills and restarts.", "why_tests_cant": "Crash points between file operations are not reached by tests.", "anchors": ["scripts/GPS_for_ab_initio/H2O.py", "scripts/GPS_for_ab_initio/H4x4x4.py", "scripts/GPS_for_ab_initio/H50_1D.py", "scripts/cpd-backflow/cpd_backflow/systems.py"]}
{"id": "C125", "title": "A process uses the molecule and basis of its arguments", "statement": "A process that gets to work uses the integrals of the molecule and the basis that its arguments or configuration ask for, whatever was run in the directory before.", "quantifier": "All pairs of molecules and bases and all histories of runs in the directory.", "why_tests_cant": "The effect depends on the runs made earlier in the directory.", "anchors": ["scripts/GPS_for_ab_initio/H2O.py", "scripts/GPS_for_ab_initio/H4x4x4.py", "scripts/GPS_for_ab_initio/H50_1D.py", "scripts/cpd-backflow/cpd_backflow/systems.py"]}
{"id": "C126", "title": "The orbital and exchange files of the backflow scripts fit the basis", "statement": "When a process of the backflow scripts gets to work, hf_orbitals.npy has the Hartree-Fock orbitals in the basis it works in, and exchange.npy, if it needs it, the exchange matrix in this basis.", "quantifier": "All molecules, and all histories of kills and restarts with and without need of the exchange matrix.", "why_tests_cant": "Crash points between file operations are not reached by tests.", "anchors": ["scripts/cpd-backflow/cpd_backflow/systems.py"]}
{"id": "C127", "title": "Every rank gets the two-electron integrals of rank 0", "statement": "After the integrals have been broadcast slice by slice, every rank has exactly the two-electron integrals of rank 0, whatever was in its buffer.", "quantifier": "All numbers of orbitals, all ranks, all initial contents of the buffers.", "why_tests_cant": "Tests run on a fixed number of ranks and sizes.", "anchors": ["scripts/GPS_for_ab_initio/H2O.py", "scripts/GPS_for_ab_initio/H4x4x4.py", "scripts/GPS_for_ab_initio/H50_1D.py", "scripts/cpd-backflow/cpd_backflow/systems.py"]}
{"id": "C128", "title": "The density matrix of the hydrogen cluster script is unbiased", "statement": "The array saved as oneBRDM by H4x4x4.py has the expected value <c†_{iσ} c_{jσ}> for samples drawn from |ψ|²; its diagonal is the share of samples in which the orbital is occupied, and its trace is the number of electrons of the spin.", "quantifier": "All wave functions (with zeros or without), all numbers of ranks and of samples on each rank, all correlations between samples, all pairs of orbitals; diagonal and trace for every set of samples.", "why_tests_cant": "An average over all samples with signs that depend on the positions of all electrons; a numerical comparison has statistical errors.", "anchors": ["scripts/GPS_for_ab_initio/H4x4x4.py", "GPSKet/operator/fermion.py"]}
{"id": "C129", "title": "Geometries of hydrogen chains and sheets", "statement": "For every number of atoms n ≥ 1 a sheet has exactly n atoms, arranged as the rectangle with the most equal integer sides, the shorter one first, row by row; a chain has n atoms in a row; no two atoms are closer than the given distance. A sheet of 0 atoms raises an exception.", "quantifier": "All numbers of atoms and all distances.", "why_tests_cant": "The search for divisors depends on the factorisation of n and on rounding of its root.", "anchors": ["scripts/ARGPS/argps/configs/hydrogen.py:closest_divisors", "scripts/ARGPS/argps/configs/hydrogen.py:sheet", "scripts/ARGPS/argps/configs/hydrogen.py:chain", "scripts/cpd-backflow/cpd_backflow/configs/hsheet.py:closest_divisors"]}
{"id": "C130", "title": "Removing small integrals", "statement": "With a pruning threshold t the local energies are those of the molecular Hamiltonian with the remaining integrals, whichever operator class is chosen; energies stay real, no state's energy changes by more than t(2L²+2L⁴) for L orbitals, and a threshold of zero or none changes nothing.", "quantifier": "All integrals with the usual symmetries, all thresholds, all states, all numbers of orbitals.", "why_tests_cant": "The bound is for every state in a space of exponential dimension.", "anchors": ["scripts/GPS_for_ab_initio/H_chain_timing_analysis.py", "scripts/cpd-backflow/cpd_backflow/systems.py:get_molecular_system", "GPSKet/operator/hamiltonian/ab_initio_sparse.py"]}
{"id": "C131", "title": "Drivers pair every sample with its own local energy", "statement": "The optimisation drivers combine the log-derivatives of a sample with the local energy of the same sample, whatever the numbers of chains and of samples per chain.", "quantifier": "All arrangements of samples in chains, all local energies, both layouts of the array of local energies that versions of NetKet return.", "why_tests_cant": "With a single chain, or a layout that fits by accident, everything looks right; otherwise the optimisation only gets worse.", "anchors": ["GPSKet/driver/minSR.py:minSRVMC._forward_and_backward", "GPSKet/driver/VMC_SRRMSProp.py:VMC_SRRMSProp._forward_and_backward", "GPSKet/driver/VMC_SRRMSProp.py:SRRMSProp"]}
{"id": "C132", "title": "Statistics reported by the minSR driver", "statement": "The mean, variance and error of the mean that the minSR driver reports for a plain Monte-Carlo state are the mean of the local energies over all samples of all ranks, their mean squared deviation and the standard error of that mean.", "quantifier": "All numbers of ranks, samples and all local energies.", "why_tests_cant": "The numbers look plausible for every single run.", "anchors": ["GPSKet/driver/minSR.py:_statistics"]}
{"id": "C133", "title": "The reported gradient is the gradient of the energy", "statement": "If the weights of the samples of a unique-sample state are the Born probabilities, the reported mean is the energy, and the reported gradient is the derivative of the energy with respect to a real parameter, or half the gradient with respect to the two components of a complex parameter on which the state depends holomorphically.", "quantifier": "All Hermitian operators, all differentiable families of states on all finite configuration spaces, all numbers of ranks.", "why_tests_cant": "It is a statement on derivatives at every parameter.", "anchors": ["GPSKet/vqs/mc/mc_state/state_unique_samples.py:grad_expect_hermitian_chunked", "GPSKet/vqs/mc/mc_state/state_unique_samples.py:expect_and_grad"]}
{"id": "C134", "title": "The choice of the orbital basis does not change the molecule", "statement": "In all bases that pass the script's check of orthonormality, the integrals and Hartree-Fock orbitals it computes describe the same molecule: the same energies for any numbers of electrons, the same energy of the Hartree-Fock state, and a unitary map between the states that respects Hamiltonian, numbers of electrons and Hartree-Fock state.", "quantifier": "All integrals over atomic orbitals, all pairs of orthonormal bases, all numbers of orbitals and electrons, all states.", "why_tests_cant": "The statement is about the action of a rotation of orbitals on a Fock space of exponential size, for all rotations.", "anchors": ["scripts/cpd-backflow/cpd_backflow/systems.py:get_molecular_system", "scripts/ARGPS/argps/systems.py:get_molecular_system", "scripts/GPS_for_ab_initio/H10_amplitudes.py"]}
{"id": "C135", "title": "Split-localised orbitals keep the Hartree-Fock state simple", "statement": "In the basis local-split the Hartree-Fock state is one configuration, the one in which the occupied orbitals come first, and the basis is orthonormal.", "quantifier": "All molecules, all localisations of occupied and of virtual orbitals, all configurations.", "why_tests_cant": "All amplitudes of a determinant after an arbitrary rotation among occupied and among virtual orbitals.", "anchors": ["scripts/cpd-backflow/cpd_backflow/systems.py:get_molecular_system", "scripts/GPS_for_ab_initio/H10_amplitudes.py"]}
{"id": "C136", "title": "Names of orbital bases are checked", "statement": "The names that the script lists choose the bases they describe; every other name is rejected.", "quantifier": "All names.", "why_tests_cant": "There are infinitely many names.", "anchors": ["scripts/cpd-backflow/cpd_backflow/systems.py:get_molecular_system"]}
{"id": "C137", "title": "The hopping samplers keep |psi|^p", "statement": "A chain of MetropolisFastHopping/MetropolisHopping is a Markov chain on the configurations with the electron numbers it starts with, and one step leaves the distribution proportional to |psi|^machine_pow unchanged (no table, or an accepted table whose rows have equal sums).", "quantifier": "every number of sites and electrons (at least one), wave function without zeros, machine_pow, hop probability in [0,1] and non-negative table", "why_tests_cant": "a statement about the exact law of a random process over all configurations; finite sampling cannot establish it", "anchors": ["GPSKet/sampler/fermionic_hopping.py:MetropolisFastHopping", "GPSKet/sampler/fermionic_hopping.py:MetropolisHopping", "GPSKet/sampler/rules/fermionic_hopping.py:transition_function", "GPSKet/sampler/metropolis_fast.py:MetropolisFastSampler._sample_next"]}
{"id": "C138", "title": "The hopping samplers reach everything", "statement": "If hops are proposed with positive probability and the table (if any) connects all sites, every configuration with the same electron numbers is reached from every other, and |psi|^machine_pow is the only distribution the chain leaves invariant.", "quantifier": "every number of sites and electrons, every pair of configurations, every connected table, every wave function without zeros", "why_tests_cant": "reachability between all pairs of exponentially many configurations, for every table", "anchors": ["GPSKet/sampler/fermionic_hopping.py:MetropolisFastHopping", "GPSKet/sampler/fermionic_hopping.py:MetropolisHopping", "GPSKet/sampler/rules/fermionic_hopping.py:transition_function", "GPSKet/sampler/metropolis_fast.py:MetropolisFastSampler._sample_next"]}
{"id": "C139", "title": "The hopping samplers converge", "statement": "Wherever it is started, the probability that the chain is at a configuration tends to the configuration's share of |psi|^machine_pow as the number of steps grows: always on three or more sites without a table, and with any connected balanced table if |psi| is not constant.", "quantifier": "every start, wave function without zeros, number of electrons, hop probability in (0,1]", "why_tests_cant": "a limit of exact probabilities; a periodic chain looks converged in any finite test that pools steps", "anchors": ["GPSKet/sampler/fermionic_hopping.py:MetropolisFastHopping", "GPSKet/sampler/fermionic_hopping.py:MetropolisHopping", "GPSKet/sampler/rules/fermionic_hopping.py:transition_function", "GPSKet/sampler/metropolis_fast.py:MetropolisFastSampler._sample_next"]}
{"id": "C140", "title": "Exchange sampler: invariance, reachability, convergence", "statement": "With the exchange rule the Metropolis chain stays on the configurations with the same number of sites in each local state and leaves |psi|^machine_pow invariant; if the clusters connect all sites it is the only invariant distribution, and if two sites share a local state the law of the chain converges to it from every start.", "quantifier": "every finite set of sites and local states, every non-empty list of clusters, every wave function without zeros and machine_pow", "why_tests_cant": "all configurations, cluster lists and infinitely many steps", "anchors": ["GPSKet/sampler/rules/exchange_with_update.py:ExchangeRuleWithUpdate", "GPSKet/sampler/metropolis_fast.py:MetropolisFastSampler._sample_next"]}
{"id": "C141", "title": "Expected value reported by unique-sample states", "statement": "With a limit on the number of batches MCStateUniqueSamples always ends up with samples, and if n_samples exceeds the number of configurations, or is at least the number of samples in the permitted batches, the expected reported mean equals the average over the law of the sampler's single draws.  (If sampling can stop early because n_samples different configurations are known, this is false.)", "quantifier": "every sampler (any joint law of the draws whose single draws have a common law), number of ranks, batch size, limit of batches, local values", "why_tests_cant": "an expectation over all random histories of the sampler; the bias is of the order of the statistical noise of a test", "anchors": ["GPSKet/vqs/mc/mc_state/state_unique_samples.py:MCStateUniqueSamples.samples_with_counts", "GPSKet/vqs/mc/mc_state/state_unique_samples.py:grad_expect_hermitian_chunked"]}
{"id": "C142", "title": "Eigenstates have zero variance and zero updates", "statement": "The local energy computed on the fly for a configuration is E exactly when the eigenvalue equation of the Hamiltonian holds there (Hubbard without self-loops, Heisenberg, molecules dense and sparse).  If it holds on all sampled configurations, the reported mean is E, the variance 0, all gradients are 0, and the updates of minSRVMC and VMC_SRRMSProp vanish.", "quantifier": "every lattice or molecule, eigenvalue, wave function without zeros, sample history, number of ranks and chunks, log-derivatives, solver", "why_tests_cant": "all Hamiltonians, all eigenstates and all sample histories", "anchors": ["GPSKet/operator/hamiltonian/hubbard.py:local_en_on_the_fly", "GPSKet/operator/hamiltonian/J1J2.py:local_en_on_the_fly", "GPSKet/operator/hamiltonian/ab_initio.py:local_en_on_the_fly", "GPSKet/driver/minSR.py:minSRVMC", "GPSKet/driver/VMC_SRRMSProp.py:SRRMSProp", "GPSKet/vqs/mc/mc_state/state_unique_samples.py:MCStateUniqueSamples.samples_with_counts", "GPSKet/vqs/mc/mc_state/state_unique_samples.py:grad_expect_hermitian_chunked"]}
{"id": "C143", "title": "Variational principle and error bar", "statement": "If the weights of the samples are the Born probabilities, the reported mean of a Hermitian Hamiltonian is real and not below its lowest eigenvalue.  If moreover no amplitude vanishes, the reported variance is ||(H-<H>)psi||^2/||psi||^2, it is zero only for eigenstates, and some eigenvalue lies within its square root of the mean.", "quantifier": "every finite configuration space, Hermitian matrix, state and distribution of the samples over ranks", "why_tests_cant": "all Hamiltonians and states; a test sees finitely many", "anchors": ["GPSKet/vqs/mc/mc_state/state_unique_samples.py:MCStateUniqueSamples.samples_with_counts", "GPSKet/vqs/mc/mc_state/state_unique_samples.py:grad_expect_hermitian_chunked"]}
{"id": "C144", "title": "Averages over Metropolis samples are consistent", "statement": "The average of any local quantity over n successive samples of MetropolisFastHopping (at least three sites, default table) tends to its |psi|^machine_pow-weighted mean over the configurations with the given electron numbers: wherever the chain is started, the mean squared error is at most c/n, and the probability of an error of eps at most c/(n eps^2).  The same holds for connected balanced tables if |psi| is not constant or a sample is taken after every step, and for exchange sampling on connected clusters if two sites share a local state.  (It is false for one electron on two sites with two steps per sample.)", "quantifier": "every lattice, electron numbers, wave function without zeros, machine_pow, number of steps per sample, hop probability, start, number of samples, local quantity", "why_tests_cant": "a statement about all random histories of unbounded length", "anchors": ["GPSKet/sampler/metropolis_fast.py:MetropolisFastSampler", "GPSKet/sampler/fermionic_hopping.py:FermionicHoppingRule"]}
{"id": "C145", "title": "Sampled energies converge to the energy of the state", "statement": "The averages of the on-the-fly local energies over the samples of the Metropolis sampler (machine_pow 2) tend to <psi|H|psi>/<psi|psi> for the state with the electron numbers (or magnetisation) of the Hilbert space: Hubbard models without self-loops, molecules with the dense and the sparse evaluation, Heisenberg models.", "quantifier": "every lattice or molecule with symmetric integrals, wave function without zeros, electron numbers, start, number of steps per sample", "why_tests_cant": "links the whole chain proposal, acceptance, local energy and Hamiltonian for all wave functions and sample histories", "anchors": ["GPSKet/sampler/metropolis_fast.py:MetropolisFastSampler", "GPSKet/sampler/fermionic_hopping.py:FermionicHoppingRule", "GPSKet/operator/hamiltonian/hubbard.py:local_en_on_the_fly", "GPSKet/operator/hamiltonian/J1J2.py:local_en_on_the_fly", "GPSKet/operator/hamiltonian/ab_initio.py:local_en_on_the_fly"]}
{"id": "C146", "title": "The drivers' updates lower the energy", "statement": "If the relative frequencies of the samples are the Born probabilities of the state, then the updates computed by VMC_SRRMSProp (for any moving average, step, shift and decay) and by minSRVMC (holomorphic amplitudes, or real parameters with real amplitudes) are zero exactly where the gradient of the energy <psi|H|psi>/<psi|psi> is zero, and otherwise every sufficiently small step against the update strictly lowers the energy.  (For minSRVMC with real parameters and complex amplitudes this is false: there are states at which every small step raises it.)", "quantifier": "every Hermitian Hamiltonian on a finite basis, differentiable parametrised state without zeros, parameters, moving average, number of samples, ranks and chunks, linear solver meeting its specification", "why_tests_cant": "quantifies over all states and Hamiltonians and over all small step sizes", "anchors": ["GPSKet/driver/VMC_SRRMSProp.py:SRRMSProp", "GPSKet/driver/minSR.py:minSRVMC"]}
{"id": "C147", "title": "Normalisation and global phase of the state have no effect", "statement": "Two models whose log-amplitudes differ by a number that does not depend on the configuration (it may depend on the parameters) give the same results: the same local energies (Hubbard, Heisenberg, molecules with dense and sparse evaluation), with the same random numbers the same samples and acceptance counts, the same gradients on unique samples, the same updates of VMC_SRRMSProp and minSRVMC, and therefore the same whole training history.  (It is false for minSRVMC on states of unique samples with unequal weights.)", "quantifier": "every pair of such models with or without caches, Hamiltonian, random numbers, solver, optimiser, number of iterations", "why_tests_cant": "training histories of unbounded length and all pairs of models", "anchors": ["GPSKet/operator/hamiltonian/hubbard.py:local_en_on_the_fly", "GPSKet/operator/hamiltonian/J1J2.py:local_en_on_the_fly", "GPSKet/operator/hamiltonian/ab_initio.py:local_en_on_the_fly", "GPSKet/sampler/metropolis_fast.py:MetropolisFastSampler", "GPSKet/vqs/mc/mc_state/state_unique_samples.py:MCStateUniqueSamples", "GPSKet/driver/VMC_SRRMSProp.py:VMC_SRRMSProp", "GPSKet/driver/minSR.py:minSRVMC"]}
{"id": "C148", "title": "Directly sampled energies are unbiased and their error is the variance over the number of samples", "statement": "A batch drawn by the direct sampler from an autoregressive state consists of independent configurations, each with probability |psi|^machine_pow.  So with machine_pow = 2 the average of the local energies over the batch has the energy <psi|H|psi>/<psi|psi> as its expected value and the variance of the local energies divided by the number of samples as its mean squared error, for every number of chains and chain length, for Hubbard models, molecules and Heisenberg models; for an eigenstate every batch that can be drawn gives exactly the eigenvalue.", "quantifier": "every provided autoregressive model with normalised conditionals, parameters, symmetry operations closed under inverses, Hamiltonian, number of chains, chain length", "why_tests_cant": "a statement about exact expectations over all random numbers", "anchors": ["GPSKet/sampler/autoreg.py:ARDirectSampler", "GPSKet/sampler/autoreg.py:_sample_chain", "GPSKet/operator/hamiltonian/hubbard.py:local_en_on_the_fly", "GPSKet/operator/hamiltonian/J1J2.py:local_en_on_the_fly", "GPSKet/operator/hamiltonian/ab_initio.py:local_en_on_the_fly"]}
{"id": "C149", "title": "sample_next of the direct sampler gives one configuration per chain", "statement": "Asking the direct sampler for the next samples returns one configuration for each chain, each with probability |psi|^machine_pow.", "quantifier": "every provided autoregressive model with normalised conditionals, symmetry operations closed under inverses, number of chains, random numbers", "why_tests_cant": "all numbers of chains and all random numbers; a law, not a value", "anchors": ["GPSKet/sampler/autoreg.py:ARDirectSampler._sample_next"]}
{"id": "C150", "title": "The SRRMSProp preconditioner solves the regularised equation for trees of parameters", "statement": "However it was called before, a call of the preconditioner with a gradient and a step returns a tree with the structure of the parameters whose real coordinates (real entries, real and imaginary parts of complex entries) solve ((1-s) O^T O + s diag(sqrt(ema_hat)+eps)) x = gradient, where ema_hat is, coordinate by coordinate, the bias-corrected moving average of the squares of all gradients passed so far; it does not matter whether the solver uses products or the dense matrix, nor how the tree is laid out in memory.  (A call without a step raises even for a constant shift, and the average has been updated by then; the imaginary parts' averages start from 0, not from initial_scale.)", "quantifier": "every tree of real and complex parameters, layout, history of calls including failed ones, Jacobian, number of ranks, shift in (0,1] constant or scheduled, decay, eps > 0, solver that solves positive definite systems", "why_tests_cant": "histories of unbounded length and all tree structures", "anchors": ["GPSKet/optimizer/sr_rmsprop.py:SRRMSProp", "GPSKet/optimizer/qgt/qgt_jacobian_dense_rmsprop.py:QGTJacobianDenseRMSPropT", "GPSKet/optimizer/qgt/qgt_jacobian_dense_rmsprop.py:convert_tree_to_dense_format"]}
{"id": "C151", "title": "Samples of MCStateUniqueSamples are never stale", "statement": "After any history of assignments, resets, sampling and readings, the samples used for expectation values were drawn with the settings (parameters, sampler, number of samples, batch size, maximal number of sampling steps) that are set at the moment; between two changes all expectation values and gradients use the same samples; after a change they use new ones.", "quantifier": "every history of assignments, resets, sample() calls and readings", "why_tests_cant": "histories of unbounded length", "anchors": ["GPSKet/vqs/mc/mc_state/state_unique_samples.py:MCStateUniqueSamples"]}
{"id": "C152", "title": "No random key is used twice", "statement": "Whatever is called with whatever sizes, and however often, every random key is used at most once, for a split or for a draw: Metropolis sampling with the exchange and hopping rules, direct sampling, initial parameters, random states, mini-batches of the state fitting.", "quantifier": "every seed, number of calls, sweep size, number of chains, sites, random states and fitting steps", "why_tests_cant": "a statement about unbounded histories; correlated random numbers look like random numbers in a test", "anchors": ["GPSKet/sampler/metropolis_fast.py:MetropolisFastSampler._sample_next", "GPSKet/sampler/rules/fermionic_hopping.py:transition_function", "GPSKet/sampler/rules/exchange_with_update.py:ExchangeRuleWithUpdate.transition", "GPSKet/sampler/autoreg.py:_sample_chain", "GPSKet/nn/initializers.py:orthogonal", "GPSKet/hilbert/random/discrete_fermion.py:random_state", "GPSKet/driver/autoreg_state_fitting.py:ARStateFitting._forward_and_backward"]}
{"id": "C153", "title": "The norm of the complement is estimated from independent random states", "statement": "The configurations from which MCStateStratifiedSampling estimates the norm of the complement are made from different random numbers: within one estimate, and from one estimate to the next.", "quantifier": "every random number generator, deterministic set, electron numbers, number of random samples, steps of the sampler", "why_tests_cant": "a statement about all generators and all histories; repeated configurations also occur by chance", "anchors": ["GPSKet/vqs/mc/mc_state/state_stratified_sampling.py:MCStateStratifiedSampling.samples_with_counts", "GPSKet/hilbert/random/discrete_fermion.py:random_state"]}
{"id": "C154", "title": "The fermionic Hamiltonians conserve the total spin", "statement": "For every wave function, applying the Hubbard or the molecular Hamiltonian (the rows of matrix elements the operators return) and then the raising, lowering or z component of the total spin, or its square, gives the same as in the other order. In particular states of a total spin, and singlets, are taken to such states.", "quantifier": "every number of sites, graph, hopping and interaction; all integrals that are symmetric in the two electrons; all wave functions", "why_tests_cant": "a statement about all wave functions and integrals; rests on the fermionic signs of all matrix elements", "anchors": ["GPSKet/operator/hamiltonian/hubbard.py:FermiHubbard.get_conn_flattened", "GPSKet/operator/hamiltonian/ab_initio.py:AbInitioHamiltonian.get_conn_flattened"]}
{"id": "C155", "title": "The sign rule of Heisenberg models only changes signs of amplitudes", "statement": "On a lattice whose sites can be coloured so that every bond joins two colours, the local energies with the sign rule are those without it for the amplitudes with Marshall's signs, so all energies agree (on lattices without such a colouring they do not: on a triangle the sign rule reaches energies below all those of the Heisenberg model). With the sign rule and antiferromagnetic couplings, the moduli of the amplitudes have an energy not above that of any choice of phases.", "quantifier": "every number of sites, list of bonds, colouring, couplings, wave function and configuration", "why_tests_cant": "a statement about all wave functions of a model; a wrong sign leaves plausible energies", "anchors": ["GPSKet/operator/hamiltonian/J1J2.py:get_J1_J2_Hamiltonian", "GPSKet/operator/hamiltonian/J1J2.py:local_en_on_the_fly"]}
{"id": "C156", "title": "Local energies of symmetric states are symmetric", "statement": "Let a permutation of the sites leave the Hamiltonian unchanged (the hopping amplitudes between sites, the integrals, or the exchange couplings with and without sign rule). If moving the particles of a configuration by it multiplies the amplitude by a constant character (and, for electrons, by the sign of the electrons passing each other), then the local energies computed on the fly by the Hubbard, molecular (dense and sparse) and Heisenberg/J1-J2 kernels are the same at a configuration and at the moved one. [Amplitudes that are symmetric without the fermionic signs, as a symmetrised Gaussian process state alone gives, do not have this property.]", "quantifier": "all lattices, symmetries, couplings, characters, amplitude functions with or without fast updates, and configurations (for electrons amplitudes only of the sector of the configuration)", "why_tests_cant": "the kernels compute parities from cumulative counts of the configuration at hand; that these parities combine to the sign of the permutation has to hold for every lattice, permutation and configuration", "anchors": ["GPSKet/operator/hamiltonian/hubbard.py:local_en_on_the_fly", "GPSKet/operator/hamiltonian/ab_initio.py:local_en_on_the_fly", "GPSKet/operator/hamiltonian/ab_initio_sparse.py:local_en_on_the_fly", "GPSKet/operator/hamiltonian/J1J2.py:local_en_on_the_fly", "GPSKet/operator/fermion.py:apply_hopping"]}
{"id": "C157", "title": "Symmetrised determinants carry the fermionic signs", "statement": "When the symmetry operations of a Slater state form a group, or are otherwise closed under composition with a permutation g of the sites, moving the electrons of a configuration by g multiplies the symmetrised amplitude by the sign of the electrons passing each other, for restricted, spin-projected and generalised orbitals; the same holds for ASymmqGPSProd and, with equal coefficients, for ASymmqGPS. Hence on a lattice with the symmetry g the local energies of such a state, alone or multiplied by a symmetric correlator, are the same at symmetry-related configurations. [ASymmqGPS with different coefficients and as many symmetry operations as determinants is not symmetric.]", "quantifier": "all orbitals, sets of symmetry operations, electron numbers, configurations, numbers of determinants and rotations", "why_tests_cant": "the sign comes from the sorting of electron positions inside the model and the parity of the operator's counts; both must agree for every permutation and configuration", "anchors": ["GPSKet/models/slater.py:Slater.__call__", "GPSKet/models/slater.py:occupancies_to_electrons", "GPSKet/models/asymm_qGPS.py:ASymmqGPS", "GPSKet/models/asymm_qGPS.py:ASymmqGPSProd", "GPSKet/models/slater_qGPS.py:SlaterqGPS"]}
{"id": "C158", "title": "Spin projections with enough quadrature points give singlets", "statement": "A Slater state (any number of determinants and symmetry operations) or a zero-magnetisation Pfaffian with n up and n down electrons, whose S2_projection is the output of get_gauss_leg_elements_Sy with more than n/2 points, has total spin zero: the raising and the lowering operator of the total spin, with the signs of the Hamiltonians, annihilate the state, and S^2 gives zero. This holds for all orbitals and pairing matrices [for the Pfaffian: wherever the model returns numbers, see C42]. [With n/2 points or fewer it is false in general.] In particular the three points used for the water molecule suffice for its five up and five down electrons.", "quantifier": "all orbitals, pairing matrices, lattices, electron numbers, numbers of quadrature points larger than n/2, symmetry operations and configurations", "why_tests_cant": "the property is about the exact sum over the rotation angles and about all amplitudes of a sector at once; a test sees rounded amplitudes of a few configurations", "anchors": ["GPSKet/models/pfaffian.py:get_gauss_leg_elements_Sy", "GPSKet/models/pfaffian.py:ZeroMagnetizationPfaffian", "GPSKet/models/slater.py:Slater.__call__", "scripts/GPS_for_ab_initio/H2O.py"]}
{"id": "C159", "title": "Imaginary-time steps lower the energy", "statement": "For every Hermitian Hamiltonian and every state without zero amplitudes, the state returned by get_imag_time_step_vstate(tau, hamiltonian, vstate) has an energy <H> not above that of vstate, if tau > 0 is at most the inverse of the largest energy of any state (and tau <H> <= 1 for all states); if tau is smaller than that, the energy is strictly lower unless vstate is an eigenstate. The same holds for the amplitudes returned by ImagTimeStep.log_imag_time_step for all configurations. [For longer steps it is false.]", "quantifier": "all finite configuration spaces, Hermitian Hamiltonians, states without zeros and time steps up to the bound", "why_tests_cant": "the energy is a sum over the whole configuration space, and the claim is an inequality for all states and Hamiltonians", "anchors": ["GPSKet/supervised/imag_time_step.py:get_imag_time_step_vstate", "GPSKet/supervised/imag_time_step.py:ImagTimeStep"]}
{"id": "C160", "title": "Enough support points represent every state", "statement": "With complex parameters and the default output transformation, qGPS with a support dimension M of at least D^(L-1) (L sites, D local states) can represent every state without zeros that is invariant under the symmetry operations of the model; with output transformation log(sum) also states with zeros. ARqGPSFull with M >= D^(L-1) and ARqGPS with M >= 1 + D + ... + D^(L-1), normalised, can represent every normalised state that is invariant under the symmetry operations of the model and whose non-zero amplitudes are those of the sector of the Hilbert space (total_sz = 0, fixed numbers of electrons, or all configurations of four or more spins). Increasing M never loses states: the parameters of any model with support dimension M can be extended to any larger one without changing an amplitude.", "quantifier": "all numbers of sites and local states, all states, symmetry operations and support dimensions above the bound", "why_tests_cant": "existence of parameters for every state; a test can fit a few states approximately", "anchors": ["GPSKet/models/qGPS.py:qGPS", "GPSKet/models/autoreg_qGPS.py:ARqGPS", "GPSKet/models/autoreg_qGPS_full.py:ARqGPSFull"]}
{"id": "C161", "title": "The on-the-fly geometric tensor is the regularised real metric of any model", "statement": "QGTOnTheFlyRMSProp @ v is ((1-s) M + s diag(sqrt(ema)+eps)) v in the real coordinates of the parameters, where M is the real part of the covariance matrix of the derivatives of the log-amplitudes: for real parameters with real or complex amplitudes, for complex parameters of holomorphic and non-holomorphic models and for mixtures (with real non-negative averages). It is symmetric in the real inner product, positive definite for s, eps > 0, so that the linear system has exactly one solution, whatever the averages. For real parameters it is the same operator as QGTJacobianDenseRMSProp; to_dense returns a symmetric matrix with the same products, also for array arguments, which must be one-dimensional with one entry per parameter. to_dense is refused exactly for complex parameters that are not declared holomorphic and otherwise gives the operator if the declaration is true. The constructor returns exactly for ordinary sampled states, shifts in [0, 1], no chunk size and no holomorphic declaration for real parameters. (The averages re^2 + i im^2 of complex gradients make the operator non-symmetric; a false declaration of holomorphicity makes to_dense another operator.)", "quantifier": "every model given by its derivatives, every number of ranks and samples, mixture of real and complex parameters, shift, eps, averages and vector", "why_tests_cant": "an identity of operators over all models and vectors; a test sees a few vectors of a few models", "anchors": ["GPSKet/optimizer/qgt/qgt_onthefly_rmsprop.py:QGTOnTheFlyRMSProp", "GPSKet/optimizer/qgt/qgt_onthefly_rmsprop.py:mat_vec", "GPSKet/optimizer/qgt/qgt_onthefly_rmsprop.py:QGTOnTheFlyRMSPropT", "GPSKet/optimizer/qgt/qgt_onthefly_rmsprop.py:onthefly_mat_treevec"]}
{"id": "C162", "title": "Autoregressive models with a separate phase keep the probabilities of the autoregressive part", "statement": "The amplitude returned by ARqGPSModPhase and ARqGPSModPhaseFull is the (non-negative) amplitude of the autoregressive model with the same parameters times exp(i phi), where phi is a sum of as many products of real site factors as there are sites. So the states are normalised (zero magnetisation, unconstrained spins of at least two sites, fixed electron numbers), have non-zero amplitudes exactly where the constraint allows, and the direct sampler, which only uses the conditionals of the autoregressive part, draws every entry of a batch independently with probability |psi|^2; energies estimated from a batch are unbiased with mean squared error variance/number of samples, phases included. Probabilities have the symmetries given to the model. [The amplitudes do not: symmetrisation does not reach the phase, and amplitudes of equivalent configurations agree exactly if their phases do. ARqGPSModPhaseFull inherits apply_fast_update=True but its call takes no caching arguments: with the default setting local energies of all on-the-fly Hamiltonians raise TypeError, and the fast Metropolis sampler never works.]", "quantifier": "every number of sites, bond dimension, real parameters of both parts, real output layer, symmetry operations, configuration, number and length of chains", "why_tests_cant": "an identity of amplitudes and of laws over all parameters; a test samples a few", "anchors": ["GPSKet/models/autoreg_qGPS.py:ARqGPSModPhase", "GPSKet/models/autoreg_qGPS_full.py:ARqGPSModPhaseFull", "GPSKet/sampler/autoreg.py:ARDirectSampler"]}
{"id": "C163", "title": "Expectation values do not depend on chunks, chains, ranks or fast updates", "statement": "vstate.expect(H) for the Hubbard, dense and sparse ab-initio and Heisenberg/J1-J2 on-the-fly Hamiltonians returns, for every positive chunk size (whether or not it divides the number of samples) and without one, for models with, without and with disabled fast updates, the average of (H psi)(x)/psi(x) over all samples of all ranks and their mean squared deviation, and the error estimates see the values of each chain separately and in order. Sparse and dense Hamiltonians report the same statistics. Unique-sample states report the sum of relative count times local value. A chunk size of zero is refused.", "quantifier": "every operator, number of ranks, chains and samples per chain, samples of the sector, wave function, coherent fast update and chunk size", "why_tests_cant": "an equality over all chunk sizes, layouts and models; a test compares a few divisors", "anchors": ["GPSKet/vqs/mc/mc_state/expect.py:expect", "GPSKet/vqs/mc/mc_state/expect.py:expect_chunked", "GPSKet/vqs/mc/mc_state/expect.py:_expect", "GPSKet/vqs/mc/mc_state/state_unique_samples.py:expect", "GPSKet/operator/hamiltonian/hubbard.py:get_local_kernel", "GPSKet/operator/hamiltonian/ab_initio.py:get_local_kernel", "GPSKet/operator/hamiltonian/ab_initio_sparse.py:get_local_kernel_arguments", "GPSKet/operator/hamiltonian/J1J2.py:get_local_kernel"]}
{"id": "C164", "title": "The updates of the drivers are the best parameter changes for a step of imaginary time", "statement": "If the samples occur with the relative frequencies of the Born distribution, then, among all changes of the parameters together with a change of norm and phase, none changes the state more nearly like a step of imaginary time (along -H psi) than a step against the update of minSRVMC, and every other equally good change is longer (complex parameters with holomorphic amplitudes; real parameters with real logarithmic derivatives). In particular the step is reproduced exactly to first order if any change reproduces it. The update of VMC_SRRMSProp is the only minimiser of N^2 times the squared distance to twice that step plus the penalty shift*(sqrt(ema)+eps) times the squares of the changes [with real parameters and complex amplitudes the update of minSRVMC need not be the best one].", "quantifier": "every Hamiltonian matrix, differentiable wave function, parameters, samples with Born frequencies, number of ranks, chunks and samples, least-squares solver, moving average and step", "why_tests_cant": "a minimality statement over all directions of the parameter space", "anchors": ["GPSKet/driver/minSR.py:minSRVMC", "GPSKet/driver/VMC_SRRMSProp.py:VMC_SRRMSProp", "GPSKet/driver/VMC_SRRMSProp.py:SRRMSProp"]}
{"id": "C165", "title": "Enough determinants represent every electronic state", "statement": "With at least one electron and as many determinants as there are configurations with the given numbers of electrons, Slater (default output transformation, fixed magnetisation or generalised orbitals) can represent every state of these electrons that is invariant, signs of exchanged electrons included, under the symmetry operations of the model; more determinants never lose states. CPDBackflow with a support dimension of at least 4^(L-1) represents every state of the electrons on L sites with restricted, unrestricted and generalised orbitals. [Slater with spin_symmetry_by_structure does not, with any number of determinants.]", "quantifier": "all numbers of sites, electrons, determinants above the bound, permutations of the sites as symmetry operations and states", "why_tests_cant": "existence of parameters for every state; a test can fit a few states approximately", "anchors": ["GPSKet/models/slater.py:Slater", "GPSKet/models/cpd_backflow.py:CPDBackflow"]}
{"id": "C166", "title": "expect_and_grad of unique-sample states reports the gradient of the energy", "statement": "expect_and_grad of MCStateUniqueSamples returns the same mean, variance and gradient for every positive chunk size and without one, and however the samples are ordered and distributed over ranks. If the weights are the Born probabilities (and derivatives vanish where amplitudes do), the mean is the energy and the gradient of any tree of real and complex parameters is the gradient of the energy: the derivative for real entries, half of d/dx + i d/dy for complex entries, whether or not the amplitudes depend holomorphically on them; in particular for the Hubbard and both ab-initio Hamiltonians, with and without fast updates. It vanishes exactly at stationary points, and otherwise small steps against it lower the energy. A chunk size of zero is refused.", "quantifier": "every Hermitian operator, finite configuration space, differentiable model, tree of real and complex parameters, distribution over ranks, chunk size", "why_tests_cant": "a statement about derivatives of all models and about all ways to divide all sets of samples", "anchors": ["GPSKet/vqs/mc/mc_state/state_unique_samples.py:expect_and_grad", "GPSKet/vqs/mc/mc_state/state_unique_samples.py:grad_expect_hermitian_chunked"]}
{"id": "C167", "title": "Supervised fits: sweeps never increase the penalised error", "statement": "A sequence of fit steps with fixed precisions and noise on one data set, at any reference sites (also different ones per support index) and in any order, mixed with predictions, after any earlier use of the learner, never increases the error of the whole model (weighted squared errors of the log-amplitudes times inverse noise, plus predicted log-amplitudes of zero targets for exponential fits) plus precision times squared deviation from the prior mean summed over all parameters; either the parameters do not change or it gets strictly smaller. This needs that no parameter of a step occurs in the data with a positive weight of at most 1e-10 and that parameters with precisions at the cut-off 1e10 start at the prior mean.", "quantifier": "every data set, weighting, positive precisions and noise, prior mean, parameters, history and sequence of reference sites; real, complex and expanded complex parameters, with and without bias", "why_tests_cant": "a statement about all sequences of fit steps and all data sets", "anchors": ["GPSKet/supervised/supervised_qgps.py:QGPSLogSpaceFit.fit_step", "GPSKet/supervised/supervised_qgps.py:QGPSLearningExp.fit_step", "GPSKet/supervised/supervised_qgps.py:QGPSLearning.set_kernel_mat", "GPSKet/supervised/supervised_qgps.py:QGPSLearning.update_epsilon_with_weights"]}
{"id": "C168", "title": "Exclusion process: local energies bound the spectrum, and the fluctuation theorem holds", "statement": "For nonnegative rates and any counting field, the local energies of any positive amplitudes bound the spectrum of the exclusion-process operator: no eigenvalue has a real part above the largest local energy, an eigenvalue with a nonnegative left eigenvector is not below the smallest, and amplitudes with constant local energy belong to the eigenvalue with the largest real part (the cumulant generating function). For positive rates this eigenvalue exists, is real, has positive amplitudes with constant local energy, and lies between the smallest and the largest local energy of every positive amplitudes. Without counting field constant amplitudes have local energy zero and all eigenvalues have nonpositive real parts. For positive rates the operators with counting fields lambda and E - lambda have the same characteristic polynomial, where E is the logarithm of the ratio of the products of rates against and along the current divided by L + 1.", "quantifier": "every number of sites, rates, counting field and positive amplitudes", "why_tests_cant": "a statement about all amplitudes and the whole spectrum of matrices of every size", "anchors": ["GPSKet/operator/hamiltonian/asep.py:AsymmetricSimpleExclusionProcess.get_conn_flattened", "GPSKet/operator/hamiltonian/asep.py:AsymmetricSimpleExclusionProcess._get_conn_flattened_kernel"]}
{"id": "C169", "title": "State fitting: what a small loss means", "statement": "For a normalised autoregressive model and a data set that lists configurations with their amplitudes in a normalised state (zero elsewhere): if the mini-batches take all the data, the reported loss times the number of data is at most the squared distance of model and target over the whole Hilbert space, this is at most twice the square root of the former, the overlap is at least one minus this root, and the loss is zero exactly if the states are equal. With mini-batches of any size the loss vanishes for all random numbers exactly if the states are equal.", "quantifier": "every model, target state, data set, number of processes, mini-batch size and random numbers", "why_tests_cant": "a statement about all states on Hilbert spaces of every size and all random numbers", "anchors": ["GPSKet/driver/autoreg_state_fitting.py:ARStateFitting", "GPSKet/driver/autoreg_state_fitting.py:_loss", "GPSKet/driver/abstract_state_fitting.py:AbstractStateFittingDriver"]}
{"id": "C170", "title": "Positive models bound ground-state energies", "statement": "For a Heisenberg operator whose bonds all have J >= 0 and join two sublattices, built with the sign rule, and for a Hubbard chain whose boundary condition suits the numbers of electrons (open, periodic with odd, antiperiodic with even numbers), the on-the-fly local energies of any model with positive amplitudes enclose the ground-state energy of the sector (fixed number of up spins; fixed numbers of up and down electrons): no state of the sector has an energy below the smallest of them, and the model's own energy (with Marshall's signs for spins) is not above the largest. If all couplings are non-zero and connect all sites, the ground state of the sector is unique up to a factor, its amplitudes are positive (times Marshall's sign for spins), and a model with these amplitudes has the ground-state energy as local energy everywhere. The Hubbard chain of the autoregressive script (closed, t > 0) has such a ground state for all numbers of sites except those with remainder 1 modulo 4.", "quantifier": "all numbers of sites, all bond and edge lists of the described kind with all couplings, all sectors, all U, all models with positive amplitudes (with and without fast updates), all states of the sector", "why_tests_cant": "The claim compares local energies with the energies of all states of an exponentially large space, and asserts uniqueness of the minimum; tests can only diagonalise small examples.", "anchors": ["GPSKet/operator/hamiltonian/J1J2.py:HeisenbergOnTheFly", "GPSKet/operator/hamiltonian/J1J2.py:get_J1_J2_Hamiltonian", "GPSKet/operator/hamiltonian/hubbard.py:FermiHubbardOnTheFly", "GPSKet/operator/hamiltonian/hubbard.py:FermiHubbard", "scripts/ARGPS/argps/systems.py:get_Hubbard_system"]}
{"id": "C171", "title": "Autoregressive models: masks and arithmetic selection do not produce NaN", "statement": "The autoregressive models select branches by arithmetic (pred * x + (1 - pred) * y) and forbid states by adding -inf. With IEEE infinities and NaN (0 * inf = NaN), the conditional probabilities are nevertheless those of an exact selection wherever some state is allowed, every configuration that satisfies the constraint together with its symmetry images gets the same finite log-amplitude as with exact selection, and the call with index -1 that creates the cache of the direct sampler leaves the fresh cache. [Exception: for complex parameters a configuration outside a zero-magnetisation space gets NaN as its log-amplitude, not -inf; for real parameters it gets -inf.]", "quantifier": "all parameters, sizes, local dimensions, constraint functions, symmetry sets and configurations; the zero-magnetisation statement for all even sizes", "why_tests_cant": "NaN arises only for particular combinations of masks and dtypes, and spreads through sums over sites and symmetry images; tests see a few configurations inside the space.", "anchors": ["GPSKet/models/autoreg_qGPS.py: gpu_cond, _compute_conditional, _normalize, ARqGPS.__call__", "GPSKet/models/autoreg_qGPS_full.py: _compute_conditional", "GPSKet/models/autoreg_plaquetteqGPS.py: _compute_conditional", "GPSKet/sampler/autoreg.py: ARDirectSampler._init_cache"]}
{"id": "C172", "title": "Regularisation of the SR-RMSProp driver over the life of a driver", "statement": "In every step of a VMC_SRRMSProp driver, whatever happened to the driver before (steps, reset(), continuation from a checkpoint of the training script), the squared regulariser of a parameter is a weighted mean of squared gradients of this parameter.", "quantifier": "all histories of steps with any gradients, resets and restarts, and all decays in [0,1)", "why_tests_cant": "The bias correction is right only if the step count and the average have the same history; the number of histories is unbounded and a test sees one of them.", "anchors": ["GPSKet/driver/VMC_SRRMSProp.py: SRRMSProp, VMC_SRRMSProp.__init__, _forward_and_backward", "scripts/cpd-backflow/cpd_backflow/vmc.py: serialize_VMC, deserialize_VMC, main"]}
{"id": "C173", "title": "Repeated imaginary-time steps converge to the ground state", "statement": "If a state is fitted again and again to the values of ImagTimeStep.log_imag_time_step (on all configurations, exactly up to a factor), then its energies converge to the ground-state energy and, up to factors, its amplitudes to a ground state, provided that the first state overlaps with a ground state and that tau (E + E0) < 2 for the energies E of all states. If the Hamiltonian is real and symmetric, has no positive off-diagonal element and connects all configurations, and tau H(x,x) < 1 for all x, then this holds from all positive amplitudes, and no step gives NaN, with real and with complex log-amplitudes. [For longer steps it is false.]", "quantifier": "all finite configuration spaces, Hermitian Hamiltonians, steps below the bound, initial states and sequences of normalisation factors", "why_tests_cant": "It is a statement about the limit of infinitely many steps for every Hamiltonian and initial state.", "anchors": ["GPSKet/supervised/imag_time_step.py: ImagTimeStep.log_imag_time_step, get_local_energies"]}
{"id": "C174", "title": "Drivers that can be constructed can make steps", "statement": "VMC_SRRMSProp accepts exactly the combinations where state and Hamiltonian have the same numbers of sites and electrons, the Jacobian mode is 'real', 'complex' or left out, and the parameters are all real or all complex; every step of an accepted driver then changes every parameter by its part of the solution. minSRVMC accepts a state with or without chunk size, and its steps use every sample exactly once, also after the number of samples of the state was changed.", "quantifier": "all Hilbert spaces, numbers of parameters, modes, numbers of samples and chunk sizes", "why_tests_cant": "A test checks some of the combinations of types, modes and sizes; the claim is about all of them.", "anchors": ["GPSKet/driver/VMC_SRRMSProp.py: VMC_SRRMSProp.__init__, jacobian_mode, SRRMSProp", "GPSKet/driver/minSR.py: minSRVMC.__init__, _forward_and_backward", "GPSKet/hilbert/discrete_fermion.py: FermionicSumConstraint.__eq__, __hash__"]}
{"id": "C175", "title": "The systems of the scripts have the electrons of the configuration", "statement": "get_system returns the system that the configuration names, in the sector of the numbers of electrons (or of the magnetisation) that it asks for: the configured n_elec, or else the closed shell of the neutral molecule or half filling; what cannot be had raises an exception.", "quantifier": "all molecules, lattices, electron numbers and system names", "why_tests_cant": "A test builds a few systems; the claim is about all combinations of nuclei, sites and electron numbers.", "anchors": ["scripts/cpd-backflow/cpd_backflow/systems.py: get_system, build_molecule, get_molecular_system, get_FermiHubbard_system", "scripts/ARGPS/argps/systems.py: get_system, get_Heisenberg_system, get_molecular_system, get_Hubbard_system"]}
{"id": "C176", "title": "Parallel runs neither hang nor diverge", "statement": "When the drivers, the sampled states, the supervised fits and the ab-initio scripts run on several MPI processes, then no process waits for ever in a collective operation, and all processes end together: they get the same update or fit state (each process its part of the unique samples), stop after the same step, or all raise an exception. This holds for any number of processes, any data of each and any timing. (Exceptions, see the findings: the SR-RMSProp driver in complex mode on several processes; state fitting with mini-batches larger than the smallest part of the data; a Cholesky factorisation that succeeds on some processes only; an exception on the root before a broadcast.)", "quantifier": "all numbers of processes, all data and contributions of each process, all minimisers and line searches, all numbers of rounds and all interleavings of the entries and returns of collective calls, whether these return as early as their result is known or as late as all have entered", "why_tests_cant": "A test runs with one process or a few and with one timing; a process that leaves a loop one round earlier, or raises an exception by itself, shows up only with particular data, and then as a job that never ends.", "anchors": ["GPSKet/driver/minSR.py:minSRVMC._forward_and_backward", "GPSKet/driver/VMC_SRRMSProp.py:SRRMSProp", "GPSKet/driver/autoreg_state_fitting.py:ARStateFitting._forward_and_backward", "GPSKet/vqs/mc/mc_state/state_unique_samples.py:MCStateUniqueSamples.samples_with_counts", "GPSKet/vqs/mc/mc_state/state_stratified_sampling.py:MCStateStratifiedSampling.samples_with_counts", "GPSKet/supervised/supervised_qgps.py:QGPSLearning.setup_fit_alpha_dep, opt_alpha_beta, QGPSGenLinMod.setup_fit_alpha_dep", "scripts/cpd-backflow/cpd_backflow/systems.py:get_molecular_system", "scripts/GPS_for_ab_initio/H2O.py", "scripts/GPS_for_ab_initio/H50_1D.py", "scripts/GPS_for_ab_initio/H4x4x4.py"]}
{"id": "C177", "title": "All processes of a training run work with the same files", "statement": "When a training script runs on several MPI processes that share the work directory, all processes continue from the same checkpoint, read the same configuration and evaluate the same best parameters, whatever their relative speed. (Exceptions, see the findings: a process that is late may read a truncated config.yaml when a run is continued; and if the last training step is the best one, processes may evaluate the earlier best parameters, or fail on a truncated file.)", "quantifier": "all numbers of processes, all interleavings of their file operations and collective calls, with and without a given configuration, all collective calls of the setup, all training loops and steps with any best parameters and checkpoints written by the root, with and without evaluation, and all contents of the work directory at the beginning", "why_tests_cant": "A test runs on one machine with processes in step; whether a process reads a file before or after the root has rewritten it depends on timing and the file system.", "anchors": ["scripts/cpd-backflow/cpd_backflow/vmc.py:main", "scripts/cpd-backflow/cpd_backflow/utils.py:save_config, read_config, save_best_params, restore_best_params", "scripts/ARGPS/argps/vmc.py:main", "scripts/ARGPS/argps/utils.py:save_config, read_config", "scripts/cpd-backflow/cpd_backflow/configs/common.py:resolve"]}
{"id": "C178", "title": "Metropolis samplers with wave functions that vanish somewhere", "statement": "A Metropolis sampler of the package remains a sampler of |psi|^machine_pow for wave functions that are zero for some configurations (determinants, pairing wave functions, backflow models): the distribution is invariant, configurations of zero amplitude are left as soon as a configuration with a non-zero amplitude is proposed and never entered again, and the law of the samples tends to |psi|^machine_pow whatever the random initial configuration. (Exceptions, see the findings: the sampler never moves if neither its initial configuration nor any configuration proposed from it has a non-zero amplitude, it does not leave a part of the support that single moves do not connect to the rest, and the fast sampler with a determinant model never leaves an initial configuration of zero amplitude.)", "quantifier": "all wave functions with any zeros, all positive machine_pow, all sizes and particle numbers, all hop probabilities and tables, all lists of clusters for spins, all initial configurations and all numbers of steps", "why_tests_cant": "That a chain started at an unlucky configuration returns it for ever, or that half of the support is never visited, is a statement on all seeds and infinitely many steps; a test with a fixed seed starts from one configuration.", "anchors": ["GPSKet/sampler/metropolis_fast.py:MetropolisFastSampler._sample_next", "GPSKet/sampler/fermionic_hopping.py:FermionicHoppingRule, MetropolisHopping, MetropolisFastHopping", "GPSKet/sampler/rules/exchange_with_update.py:ExchangeRuleWithUpdate.transition", "GPSKet/models/slater.py:Slater.__call__", "GPSKet/hilbert/random/discrete_fermion.py:random_state"]}
{"id": "C179", "title": "Energies of wave functions that vanish somewhere", "statement": "Local energies evaluated on the fly are right also for wave functions with zeros: at every sample of non-zero amplitude the value is finite and equals (H psi)(x)/psi(x), although some connected amplitudes have the logarithm -inf; every sample of a chain that starts at a non-zero amplitude is such a sample, the averages of the local energies over the samples tend to the energy <psi|H|psi>/<psi|psi> in mean square and in probability, whatever the number of steps between samples. (Exceptions, see C178: moves have to connect the configurations of non-zero amplitude, and a chain that stays at a configuration of zero amplitude reports an energy that is infinite or NaN.)", "quantifier": "all wave functions with at least one zero, all Hubbard models without self-loops, all molecular integrals with exchange symmetry (dense and sparse evaluation), all Heisenberg models on any bonds, all sizes and particle numbers, all hop probabilities and tables, all starts in the support and all numbers of samples", "why_tests_cant": "It is a statement on all zero patterns of a wave function and on the limit of infinitely many samples; a test checks a random state, which has no zeros.", "anchors": ["GPSKet/operator/hamiltonian/hubbard.py:local_en_on_the_fly", "GPSKet/operator/hamiltonian/ab_initio.py:local_en_on_the_fly", "GPSKet/operator/hamiltonian/ab_initio_sparse.py:local_en_on_the_fly", "GPSKet/operator/hamiltonian/J1J2.py:local_en_on_the_fly", "GPSKet/sampler/metropolis_fast.py:MetropolisFastSampler._sample_next", "GPSKet/models/slater.py:Slater.__call__"]}
{"id": "C180", "title": "Optimisation from a determinant in its own orbitals", "statement": "The optimisation of H2O.py that starts from a Slater determinant (fixed, spin-projected or with broken magnetisation) in a basis in which it is a single configuration (basis_type 1 or 2, exactly converged orbitals) makes progress unless the state is an eigenstate, and what it writes is right: as long as the parameters are the initial ones, a row of out.txt has the exact energy of the state and variance zero, or no number at all. (Only the second half holds. If the chain starts at the reference configuration all samples are equal, no parameter ever changes, and the run ends after max_count + 1 equal rows with the initial parameters as the best ones; if it starts more than one hop away, no row has numbers.)", "quantifier": "all molecules and integrals with exchange symmetry, all numbers of orbitals and electrons with empty orbitals, all orbitals spanning the first basis orbitals, all parameters of the qGPS, all numbers of samples, sweeps and discarded samples, all draws of the sampler, all solvers that map zero to zero, all max_count", "why_tests_cant": "It is a statement on all random numbers of a whole run, in exact arithmetic; a test run has rounding errors in the orbitals and one seed.", "anchors": ["scripts/GPS_for_ab_initio/H2O.py:slater_init", "scripts/GPS_for_ab_initio/H2O.py:SlaterqGPS", "scripts/GPS_for_ab_initio/H2O.py:full_slater_init", "GPSKet/operator/hamiltonian/ab_initio.py:local_en_on_the_fly", "GPSKet/sampler/fermionic_hopping.py:MetropolisHopping"]}
{"id": "C181", "title": "Exclusion process: maximising the energy gives the cumulant generating function", "statement": "Maximising the energy of the exclusion-process operator over all amplitudes, which the tutorial does with a negative learning rate, gives the eigenvalue with the largest real part, with which the tutorial compares. [For positive rates the maximum is never below it, and it is equal to it exactly if some positive amplitudes are an eigenvector of the operator and of its transpose: for symmetric operators, and without counting field exactly if alpha + beta = gamma + delta and 2(alpha - gamma) = p - q. It is false for the tutorial: with equal rates, two or more sites and any non-zero counting field some positive amplitudes have a larger energy, so the printed error does not go to zero at the optimum.]", "quantifier": "every number of sites, all positive rates, every counting field, all real and complex amplitudes", "why_tests_cant": "a run of the tutorial prints a small error that looks like noise or lack of convergence; whether the optimum itself is off is a statement about all amplitudes", "anchors": ["tutorials/asep_example.py", "GPSKet/operator/hamiltonian/asep.py:AsymmetricSimpleExclusionProcess"]}
{"id": "C182", "title": "Supervised fits: sweeps settle where no fit step improves", "statement": "When log-space fit steps of complex parameters without bias are repeated for ever on one data set, with precisions and noise held fixed, none of the calls fails, the objective (weighted squared error plus penalty) never rises and converges, the parameters stay bounded, their changes tend to zero (with a sum of squares bounded by the initial objective), and they accumulate somewhere. At every accumulation point the objective cannot be lowered by changing the parameters of any reference sites that the sweep comes back to within a bounded number of calls, as far as the fit step changes them at all: those with a precision below the cutoff and a weight in the data above the threshold.", "quantifier": "every data set, target, weighting, precisions, prior mean, history before the sweep, infinite sequence of fit steps, predictions and assignments of reference sites, and accumulation point; for weights that are zero or above the threshold", "why_tests_cant": "a sweep can only be run finitely long, and a test cannot tell slow convergence from stalling at a point that is not optimal", "anchors": ["GPSKet/supervised/supervised_qgps.py:QGPSLogSpaceFit.fit_step", "GPSKet/supervised/supervised_qgps.py:QGPSLearning.fit_step", "GPSKet/supervised/supervised_qgps.py:QGPSLogSpaceFit.setup_fit"]}
{"id": "C183", "title": "Updates from more and more samples tend to the exact update", "statement": "With a fixed state, the update that minSRVMC computes from n samples of each of several independent chains tends in probability to the solution of smallest norm of the stochastic-reconfiguration equation with exact averages: for every eps the probability of a difference of eps or more is at most c/n, wherever the chains are started, however the samples are distributed over ranks and chunks, and whatever least-squares solver is used. This holds for the hopping sampler (at least three sites), the exchange sampler and every other consistent chain, for complex parameters of holomorphic amplitudes (both modes) and for real parameters with real logarithmic derivatives. For batches drawn directly from a normalised autoregressive state the bound is c divided by the number of all samples.", "quantifier": "every state without zeros (autoregressive ones may have zeros), log-derivatives, local energies, number of parameters (also more than samples, also redundant ones), chains, starting points, samples, ranks, chunks, least-squares solver", "why_tests_cant": "a limit over the number of samples, uniform in the starting points; single runs fluctuate, and the equation is singular whenever parameters are redundant, where solutions of smallest norm need not depend continuously on the data", "anchors": ["GPSKet/driver/minSR.py:minSRVMC._forward_and_backward", "GPSKet/sampler/metropolis_fast.py:MetropolisFastSampler._sample_next", "GPSKet/sampler/fermionic_hopping.py", "GPSKet/sampler/autoreg.py:ARDirectSampler._sample_chain"]}
{"id": "C184", "title": "With enough samples the updates lower the energy", "statement": "At parameters where the gradient of the energy does not vanish, the probability that small steps against the update which minSRVMC computes from n samples of each of several independent chains do not lower the exact energy <psi|H|psi>/<psi|psi> is at most c/n, wherever the chains are started, however the samples are distributed over ranks and chunks, and whatever least-squares solver is used (complex parameters of holomorphic amplitudes; real parameters with real logarithmic derivatives). This holds for the hopping sampler, the exchange sampler and every other consistent chain; for batches drawn directly from a normalised autoregressive state with real parameters the bound is c divided by the number of all samples.", "quantifier": "every Hermitian Hamiltonian on a finite basis, differentiable state without zeros, parameters, consistent chain (in particular the hopping sampler on at least three sites), number of chains, starting points, samples, ranks, chunks, least-squares solver", "why_tests_cant": "it is a statement about all random outcomes and about the exact energy, which cannot be evaluated in the systems the driver is meant for", "anchors": ["GPSKet/driver/minSR.py:minSRVMC._forward_and_backward", "GPSKet/sampler/metropolis_fast.py:MetropolisFastSampler._sample_next"]}
{"id": "C185", "title": "Updates of VMC_SRRMSProp from more and more samples tend to an exact update and lower the energy", "statement": "With a fixed state and a fixed history of gradients in units of the squared number of samples, the update that VMC_SRRMSProp computes from n samples of each of several independent chains tends in probability to the solution of (Re S + diag_shift sqrt(v)) u = 2 Re F with exact averages, in which eps does not occur: for every threshold the probability of a difference of at least this size is at most c/n, wherever the chains are started. If the gradient of the energy does not vanish, the probability that small steps against the update do not lower the exact energy is at most c/n as well. The exact equation must have no singular direction; this is the case in particular if every parameter has a gradient, now or in its history.", "quantifier": "every state without zeros, log-derivatives (complex, with respect to real coordinates), local energies, parameters, diag_shift and eps > 0, decay, step, history, consistent chain (hopping sampler on at least three sites, exchange sampler), starting points, number of samples, solver of positive definite systems", "why_tests_cant": "a limit over the number of samples, uniform in the starting points, of an update whose ingredients grow with the second and fourth power of the number of samples; single runs fluctuate", "anchors": ["GPSKet/driver/VMC_SRRMSProp.py:VMC_SRRMSProp._forward_and_backward", "GPSKet/driver/VMC_SRRMSProp.py:SRRMSProp", "GPSKet/sampler/metropolis_fast.py:MetropolisFastSampler._sample_next"]}
{"id": "C186", "title": "Options given to the training scripts", "statement": "A training script runs with the options of its command line: an option given as a flag has the value of its last flag, an option that is not given has the value of the configuration, and where the configuration writes an option in terms of another one (a tenth of the samples, half of the lattice) it follows that one, also if that one is given as a flag. Flags for options that do not exist are refused. [False for heisenberg2d with a model sampled by Markov chains: the number of sweeps is a two-way reference to the length of the lattice, so that a flag for the number of sweeps changes the lattice.]", "quantifier": "every configuration of the two scripts, every argument of it, every list of flags in every order", "why_tests_cant": "the flags are combined freely and the effect of one flag on other options depends on all of them; tests run the configurations as they are", "anchors": ["scripts/ARGPS/argps/configs/heisenberg2d.py:get_config", "scripts/ARGPS/argps/configs/hubbard1d.py:get_config", "scripts/ARGPS/argps/configs/hydrogen.py:get_config", "scripts/cpd-backflow/cpd_backflow/configs/fermi_hubbard.py:get_config", "scripts/cpd-backflow/cpd_backflow/configs/h2o.py:get_config", "scripts/cpd-backflow/cpd_backflow/configs/hsheet.py:get_config", "scripts/ARGPS/argps/configs/common.py:resolve"]}
{"id": "C187", "title": "Bias of variances, gradients and metrics from direct samples", "statement": "If N samples are drawn directly from a normalised autoregressive state, the reported energy is unbiased, and the reported variance, the gradient and the geometric tensor have the exact values times 1 - 1/N as their expected values: the gradient points, on average, along the exact gradient of the energy, and a single sample shows no variance and no gradient at all. This holds for plain states and for unique-sample states that keep all samples, on any number of ranks, in any number of batches and for every chunk size.", "quantifier": "every provided autoregressive model whose conditionals can always be continued, with or without symmetries, every number of chains, samples, ranks, batches and every chunk size, all local values, log-derivatives, Hermitian operators and differentiable families of states (derivatives vanish with the amplitudes)", "why_tests_cant": "expected values over all random draws; any finite number of runs fluctuates around them, and the factor 1 - 1/N is within the noise", "anchors": ["GPSKet/sampler/autoreg.py:ARDirectSampler", "GPSKet/vqs/mc/mc_state/expect.py:expect", "GPSKet/vqs/mc/mc_state/state_unique_samples.py:MCStateUniqueSamples", "GPSKet/optimizer/qgt/qgt_jacobian_dense_unique_samples.py:QGTJacobianDenseUniqueSamples"]}
{"id": "C188", "title": "minSRVMC updates for autoregressive models", "statement": "If the samples of an autoregressive model occur with their Born frequencies, the update of minSRVMC is zero exactly where the gradient of the energy vanishes, and otherwise every small enough step against it lowers the energy [true for models with real parameters; false for complex parameters, the default of the models: the amplitudes of a normalised model are not holomorphic, the driver chooses the mode 'complex', and there is a normalised two-spin model where every step, small or large, raises the energy].", "quantifier": "every ARqGPS, ARqGPSFull and ARPlaquetteqGPS with real parameters, with or without normalisation, constraints and symmetries, every Hermitian Hamiltonian, all samples with the Born frequencies, any number of ranks, chunks and samples, every least-squares solver", "why_tests_cant": "whether an update is a descent direction is a statement about all models, Hamiltonians and parameters; a test sees one decrease or increase of a noisy energy", "anchors": ["GPSKet/driver/minSR.py:minSRVMC", "GPSKet/models/autoreg_qGPS.py:ARqGPS", "GPSKet/models/autoreg_qGPS_full.py:ARqGPSFull", "GPSKet/models/autoreg_plaquetteqGPS.py:ARPlaquetteqGPS"]}
{"id": "C189", "title": "Supervised learning: the reported errors", "statement": "squared_error(confs, targets, weightings) returns on every process the weighted sum, over the data of all processes, of the squared distances between predictions and targets, after any history of calls that overwrites no array the learner holds, however the data are distributed and ordered; it is zero exactly if all data of positive weighting are reproduced, and computing it changes neither parameters nor later predictions [a process without data raises an AssertionError]. squared_error_log_space returns the same for the logarithms of the ratios of predicted and target amplitudes [false next to the negative real axis: principal logarithms are subtracted, so predictions arbitrarily close to the target can have an error above 9; and false for QGPSLogSpaceFit, whose predictions are log-amplitudes already].", "quantifier": "every learner after every clean history of calls, every number of processes, all data, weightings (none, or any numbers; not negative for the statement about zero), all nonzero targets for the second method", "why_tests_cant": "a statement about all histories and all distributions over processes; the branch cut is met only by particular phases", "anchors": ["GPSKet/supervised/supervised_qgps.py:QGPSLearning.squared_error", "GPSKet/supervised/supervised_qgps.py:QGPSLearning.squared_error_log_space", "GPSKet/supervised/supervised_qgps.py:QGPSLearningExp.predict", "GPSKet/supervised/supervised_qgps.py:QGPSLogSpaceFit.predict"]}
{"id": "C190", "title": "Padded connected elements of the fermionic Hamiltonians", "statement": "Reading AbInitioHamiltonian or FermiHubbard through get_conn_padded, as nk.vqs.MCState.expect does, gives every configuration of a batch its own row of connected elements, all rows of one length, whose entries sum for every x' to the matrix element <x|H|x'>, and local energies computed from the rows are those of the operator [false for FermiHubbard without edges: the number of connected elements is read from memory that is never written]. The ab-initio operator can be built only on a Hilbert space with fixed electron numbers, and gives this for every batch of configurations of that space; batches mixing electron numbers can be cut up wrongly without an exception.", "quantifier": "every non-empty batch of configurations (of the Hilbert space, for the ab-initio operator), all integrals with exchange symmetry, all U, hopping amplitudes and non-empty edge lists, all wave functions", "why_tests_cant": "ranges over all batches, integrals and graphs; the reshape relies on a count being the same for all configurations of a sector", "anchors": ["GPSKet/operator/hamiltonian/ab_initio.py:AbInitioHamiltonian.get_conn_flattened", "GPSKet/operator/hamiltonian/ab_initio.py:AbInitioHamiltonian.__init__", "GPSKet/operator/hamiltonian/hubbard.py:FermiHubbard.get_conn_flattened", "GPSKet/hilbert/discrete_fermion.py:FermionicDiscreteHilbert"]}
{"id": "C191", "title": "Which models are holomorphic functions of their parameters", "statement": "For qGPS, for determinants and Pfaffians with or without spin projection, and for their products with a qGPS, the amplitude of every configuration is an entire holomorphic function of all complex parameters together (for the Pfaffians: wherever the model gives a number), as QGTJacobianDense(holomorphic=True) in the scripts and tutorials assumes; for a qGPS with any symmetry operations the log-amplitude itself is, and the gradient formed from its holomorphic derivatives predicts the change of the energy for a step of any parameter in every direction of the complex plane. The autoregressive models are not: an ARqGPS with normalised conditionals has an amplitude that is not holomorphic, and any family of normalised autoregressive models that depends holomorphically on parameters does not depend on them at all, so for these models holomorphic=True would be wrong and the j1j2 tutorial is right to switch it off.", "quantifier": "all parameters, lattice sizes, support dimensions, numbers of orbitals, symmetry operations, configurations, Hermitian operators, constraints without dead ends", "why_tests_cant": "differentiability in every complex direction at every parameter is not a statement about finitely many evaluations", "anchors": ["GPSKet/models/qGPS.py:qGPS", "GPSKet/models/slater.py:Slater", "GPSKet/models/pfaffian.py:ZeroMagnetizationPfaffian", "GPSKet/models/autoreg_qGPS.py:ARqGPS", "scripts/GPS_for_ab_initio/H2O.py", "tutorials/j1j2_example.py"]}
{"id": "C192", "title": "What the shift of the SR-RMSProp optimisers interpolates between", "statement": "With diag_shift = 1 the preconditioner SRRMSProp divides every real coordinate of the gradient by sqrt(ema)+eps, whatever the samples: it is RMSProp. For any gradient that is a combination of the rows of the Jacobian, its result tends, as diag_shift tends to 0, to the shortest solution of O^T O z = gradient in the norm weighted with sqrt(ema)+eps, with an error of the order of the square root of the shift, even if O^T O is singular; for other gradients it grows like 1/diag_shift. At every shift it is at most 1/(diag_shift*eps) times as long as the gradient. The update of VMC_SRRMSProp tends in the same way to the shortest solution of the SR equation Re(S) z = 2 Re(F) as its shift tends to 0, for every set of samples, and obeys the same bound.", "quantifier": "all Jacobians (also of deficient rank), gradients, moving averages, numbers of ranks, samples and parameters, real and complex parameters, all shifts, all solvers that solve positive definite systems", "why_tests_cant": "limits and bounds over all shifts and all possibly singular matrices", "anchors": ["GPSKet/optimizer/sr_rmsprop.py:SRRMSProp", "GPSKet/optimizer/qgt/qgt_jacobian_dense_rmsprop.py:QGTJacobianDenseRMSPropT", "GPSKet/driver/VMC_SRRMSProp.py:SRRMSProp"]}
{"id": "C193", "title": "An optimisation that starts with real parameters stays real", "statement": "If the Hamiltonian has real matrix elements and all complex parameters of a qGPS, of a Slater state with real characters, or of a product of them start with zero imaginary parts, then after any number of steps of minSRVMC (modes complex and holomorphic) or VMC_SRRMSProp with Sgd and any learning rates, all parameters, amplitudes and local energies are still real, whatever was sampled. The amplitudes of such a qGPS are positive at every step, so it never represents a state with a sign structure. [With a Hamiltonian that is Hermitian but not real, local energies need not be real.]", "quantifier": "all real Hamiltonians, models, symmetry operations, parameter layouts, real starting parameters, samples, learning rates, numbers of steps, moving averages, and solvers that solve their equations", "why_tests_cant": "an invariant of whole histories with unbounded numbers of steps and arbitrary samples", "anchors": ["GPSKet/driver/minSR.py:minSRVMC", "GPSKet/driver/VMC_SRRMSProp.py:SRRMSProp", "GPSKet/models/qGPS.py:qGPS", "GPSKet/models/slater.py:Slater"]}
{"id": "C194", "title": "Updates keep the balance between the sites of a qGPS", "statement": "Multiplying the parameters of a support point at one site by a number and dividing those at another site by it does not change a qGPS, and no update moves in this direction: for any samples, Hamiltonian and symmetry operations, the sum over the local states of the conjugated parameter times the update has the same value at all sites, for each support point. This holds for the gradient of expect_and_grad, for stochastic reconfiguration with any diagonal shift or with the solver pinv [provided no eigenvalue lies in its cut-off], and for minSRVMC in modes complex and holomorphic, also when other parameters are optimised at the same time. Therefore the difference between the squared norms of the parameters of a support point at two sites changes in a step of Sgd only by the square of the learning rate times the difference of the squared norms of the update.", "quantifier": "all qGPS with complex parameters, symmetry operations, samples, weights, local energies, ranks, chunks, parameter layouts, learning rates, and all solvers that solve the least-squares problem", "why_tests_cant": "an invariant of all updates for arbitrary samples and energies", "anchors": ["GPSKet/models/qGPS.py:qGPS", "GPSKet/driver/minSR.py:minSRVMC", "GPSKet/vqs/mc/mc_state/state_unique_samples.py:MCStateUniqueSamples", "GPSKet/optimizer/solvers.py:pinv"]}
{"id": "C195", "title": "The ansätze are contained in each other as advertised", "statement": "Switching to a more general ansatz never loses a state: (a) every ARqGPS state and every ARPlaquetteqGPS state whose filters look only at earlier sites (as those made by get_plaquettes_and_masks do) is also an ARqGPSFull state with the same support dimension, normalisation, constraints, output transformation and symmetry operations: for suitable parameters the log-amplitudes of all configurations agree; (b) PlaquetteqGPS with P plaquettes and M support points is contained in qGPS with P*M support points, and qGPS in PlaquetteqGPS with one plaquette that lists all sites; (c) products of qGPS states are qGPS states whose support dimensions add; (d) every single Slater determinant (restricted, unrestricted or generalised) is contained in the CPD backflow model of the same kind for every support dimension of at least 1.", "quantifier": "all numbers of sites, local dimensions and support dimensions, all parameters of the smaller model, all symmetry operations, all filters that look back, all plaquettes (with repeated sites too), all configurations", "why_tests_cant": "A test can compare two models for some parameters and configurations, not show that for every set of parameters of one there are parameters of the other that agree on every configuration.", "anchors": ["GPSKet/models/autoreg_qGPS.py:ARqGPS", "GPSKet/models/autoreg_qGPS_full.py:ARqGPSFull", "GPSKet/models/autoreg_plaquetteqGPS.py:ARPlaquetteqGPS", "GPSKet/models/qGPS.py:qGPS", "GPSKet/models/plaquetteqGPS.py:PlaquetteqGPS", "GPSKet/models/cpd_backflow.py:CPDBackflow", "GPSKet/models/slater.py:Slater"]}
{"id": "C196", "title": "Hubbard models related by a change of signs, of electrons and holes or of the spins have the energies the textbook says", "statement": "For the local energies computed on the fly from a Hubbard Hamiltonian whose edges join different sites: (a) multiplying the amplitudes by a sign for every electron that depends on its site, and every hopping amplitude by the signs of both its ends, changes no local energy; so on a lattice with two colours of sites such that edges join different colours the sign of the hopping does not matter (b) (a minus sign for every electron on a site of one colour); (c) on such a lattice exchanging electrons and holes, with the signs (-1)^site and those of the colours, gives the same Hubbard model, the local energies growing by U(L - N), so not at all at half filling; (d) exchanging electrons and holes of the down spins only turns U into -U, the local energies changing by -U N_up; (e) exchanging up and down spins in the state and in the configuration leaves the local energies as they are. Every state has such a partner.", "quantifier": "all numbers of sites, all lists of edges with complex amplitudes (not joining a site to itself, and joining different colours where colours are mentioned), all U, all states related in the way described on the configurations of one sector, all configurations and kinds of amplitude evaluation that work there", "why_tests_cant": "The relations tie together two runs with different Hamiltonians, states and sectors, for all states and configurations; a wrong fermionic sign can cancel or not occur in the samples of a test.", "anchors": ["GPSKet/operator/hamiltonian/hubbard.py:local_en_on_the_fly", "GPSKet/operator/hamiltonian/hubbard.py:FermiHubbardOnTheFly", "GPSKet/operator/hamiltonian/ab_initio.py:get_parity_multiplicator_hop"]}
{"id": "C197", "title": "Size consistency: subsystems that do not interact contribute their energies, and the ansätze describe them together", "statement": "If a system consists of two subsystems (the sites of one listed after those of the other) between which nothing hops and no bond acts, and if its amplitudes are, up to a constant, the products of amplitudes of the subsystems, then every local energy computed on the fly is the sum of the local energies of the subsystems, for Hubbard models (a), for spin models with any bond operators (b) and, dense and sparse, for molecules without integrals between them. Such product states are available: (c) the product of two qGPS states is a qGPS state whose support dimension is the sum of theirs; (d) the product of two ARqGPSFull states is an ARqGPSFull state of the same support dimension and normalisation, when the magnetisation is not constrained; (e) a Slater determinant with the orbitals of both subsystems has the product of their amplitudes wherever the subsystems hold their own numbers of electrons.", "quantifier": "all sizes of the subsystems, all edges and bonds inside them (joining different sites), all hopping amplitudes, U and bond operators, all states that factorise on the sector, all configurations, all parameters of the ansätze", "why_tests_cant": "The sum must hold for every configuration and every pair of states; fermionic signs that wrongly count the electrons of the other subsystem show only for some configurations.", "anchors": ["GPSKet/operator/hamiltonian/hubbard.py:local_en_on_the_fly", "GPSKet/operator/hamiltonian/J1J2.py:local_en_on_the_fly", "GPSKet/models/qGPS.py:qGPS", "GPSKet/models/autoreg_qGPS_full.py:ARqGPSFull", "GPSKet/models/slater.py:Slater"]}
{"id": "C198", "title": "The signs of molecular orbitals and the names of the spins are arbitrary", "statement": "For molecules, with dense and with sparse integrals: (a) if some orbitals change their sign, so that the integrals over them change accordingly, and the amplitudes of the state change by the product of the signs of the occupied orbitals, then all local energies computed on the fly are as before; (b) if up and down are exchanged in the state, in the configuration and in the numbers of electrons, all local energies are as before. [Two-electron integrals are symmetric under exchange of the two electrons.]", "quantifier": "all numbers of orbitals, all choices of signs, all one- and two-electron integrals with that symmetry, all states related in the way described on the sector of the configuration, all configurations", "why_tests_cant": "Eigensolvers return orbitals with arbitrary signs, so that two runs are compared only through such a change; it has to cancel in the sum of all single and double hops for every configuration.", "anchors": ["GPSKet/operator/hamiltonian/ab_initio.py:local_en_on_the_fly", "GPSKet/operator/hamiltonian/ab_initio_sparse.py:local_en_on_the_fly", "GPSKet/operator/hamiltonian/ab_initio.py:AbInitioHamiltonianOnTheFly"]}
{"id": "C199", "title": "Supervised learning: predictions from the weights of a fit", "statement": "After a fit step of QGPSLogSpaceFit or QGPSGenLinMod, prediction_after_setup() gives, for the configurations of the fit, the predictions that predict() gives with the updated parameters, with real and complex parameters, with and without a bias, a prior mean and complex_expand.", "quantifier": "all feature matrices, targets, weightings, precisions, noises, prior means, previous parameters and biases, results of the pseudo-inverse or least-squares fall-back, Newton directions, minimisers and numbers of evaluations in the optimisation of precisions and noise", "why_tests_cant": "The agreement is an identity between two ways of evaluating the model which must hold for every data set and every history; a test checks it for one data set with the options the author thought of.", "anchors": ["GPSKet/supervised/supervised_qgps.py: QGPSLogSpaceFit.prediction_after_setup, QGPSGenLinMod.prediction_after_setup, update_epsilon_with_weights, predict"]}
{"id": "C200", "title": "Heisenberg models: energies that are known exactly", "statement": "For Heisenberg operators without sign rule (H = sum of J sigma_i.sigma_j over the bonds), the local energies evaluated on the fly, at every configuration of non-zero amplitude, are: the sum of the couplings for states whose amplitudes do not change when the spins of a bond are exchanged; -3 times the sum of the couplings of the dimers for states with singlets on the dimers, if all other bonds come in pairs of equal couplings from the two sites of a dimer to a third site; -3J for each singlet, for the dimer states of an even ring with J2 = J1/2. An eigenvalue is also the local energy, everywhere, of the state with the total spin raised or lowered. With couplings that are not negative, the mean of the local energies of any state lies between -3 and +1 times the sum of the couplings, and on a ring with J2 = J1/2 not below -3J/2 for each site, so that the dimer states are ground states.", "quantifier": "every number of sites, list of bonds and couplings as described, every wave function, which may vanish somewhere, every configuration", "why_tests_cant": "Exact energies of lattices of any size and of all states with a symmetry; a test would compare one small lattice with one state, and zeros of the amplitudes have infinite logarithms.", "anchors": ["GPSKet/operator/hamiltonian/J1J2.py:local_en_on_the_fly", "GPSKet/operator/hamiltonian/J1J2.py:HeisenbergOnTheFly", "GPSKet/operator/hamiltonian/J1J2.py:get_J1_J2_Hamiltonian"]}
{"id": "C201", "title": "Determinants solve electrons that do not interact", "statement": "If the orbitals of every determinant of a Slater model (fixed magnetisation, projected on total spin or generalised; with symmetry operations of the lattice) span a space that the hopping does not leave, then the local energy of a Hubbard model at every configuration with a nonzero amplitude is the energy of the orbitals plus U times the number of doubly occupied sites, so without interaction the variance is zero; electrons of one spin have the energy of the orbitals for every U; molecules with vanishing two-electron integrals have it, too. On a ring plane waves have the energies -2 t cos(2 pi q / L). For U >= 0 no state has an energy below that of the lowest orbitals, and for U = 0 the determinant of these orbitals has it.", "quantifier": "All numbers of sites and electrons, edges, amplitudes, U, orbitals, numbers of determinants, angles and characters of the projection and symmetry operations, configurations with nonzero amplitude, and all states for the lower bound", "why_tests_cant": "A test compares energies of a few small systems; the equality holds at every configuration and the bound for every state", "anchors": ["GPSKet/operator/hamiltonian/hubbard.py:local_en_on_the_fly", "GPSKet/operator/hamiltonian/ab_initio.py:local_en_on_the_fly", "GPSKet/models/slater.py:Slater"]}
{"id": "C202", "title": "How energies of the Hubbard model depend on the interaction", "statement": "Changing U of FermiHubbard changes every local energy by the change times the number of doubly occupied sites of the configuration, for every model and with or without fast updates, so energies reported for the same samples differ by the change times the reported double occupancy; multiplying U and all hopping amplitudes by a number multiplies the local energies by it. The energy of every state is linear in U, its double occupancy lies between max(0, electrons - sites) and the smaller number of electrons, the lowest energy for given numbers of electrons exists, is concave and grows with U with slopes between these bounds, its slope is the double occupancy of the ground state (Hellmann-Feynman; differences of lowest energies bracket it), and this double occupancy never increases with U. Without interaction the lowest energy is the sum of the lowest orbital energies, and for U >= 0 the lowest energy exceeds it by at least U times max(0, electrons - sites) and at most U times the smaller number of electrons (for U <= 0 correspondingly).", "quantifier": "All lattices, amplitudes, U, numbers of sites and electrons, models, configurations, samples and states", "why_tests_cant": "Tests compare energies of a few lattices at a few interactions; the relations hold for every state and every pair of interactions", "anchors": ["GPSKet/operator/hamiltonian/hubbard.py:FermiHubbard", "GPSKet/operator/hamiltonian/hubbard.py:local_en_on_the_fly"]}
{"id": "C203", "title": "Density matrices give the response of energies to the integrals", "statement": "When the integrals of an AbInitioHamiltonian change, the local energy of every model at every sample changes by the changes contracted with the local density matrices (local_en_on_the_fly with return_local_RDMs=True), multiplying all integrals multiplies the energies, and the integrals the operator holds depend linearly on those it is given. The energy from the two files that rdms.py saves is, for integrals of real orbitals and whatever the samples are, the sum of the local energies of its samples divided by the configured number of samples. The energy of every state is the contraction of the integrals with its one- and two-body density matrices; for given numbers of electrons a lowest energy exists, is concave in the integrals, is bounded from above by the contraction with the density matrices of the ground state of any other molecule, and its derivative with respect to a parameter of the integrals (a field, a position) is the contraction of their derivatives with the density matrices of any ground state (Hellmann-Feynman).", "quantifier": "All numbers of orbitals and electrons, integrals, curves of integrals, models, samples and states", "why_tests_cant": "Tests compare a few molecules; the relations hold for every state and every change of the integrals", "anchors": ["GPSKet/operator/hamiltonian/ab_initio.py:local_en_on_the_fly", "GPSKet/operator/hamiltonian/ab_initio.py:AbInitioHamiltonianOnTheFly", "scripts/cpd-backflow/cpd_backflow/rdms.py:main"]}
{"id": "C204", "title": "How energies of J1-J2 models depend on the couplings", "statement": "Without the sign rule, the local energies of the model of get_J1_J2_Hamiltonian are J1 times those at (1, 0) plus J2 times those at (0, 1), also for J2 = 0 where the next-nearest neighbours are left out; reported energies tend to J1 and J2 times the spin correlations over nearest and next-nearest neighbours, each between -3/4 and 1/4 for every pair. For every number of up spins the lowest energy exists, is concave in the couplings, changes with J2 within these bounds, has the correlation over next-nearest neighbours in the ground state as its derivative (Hellmann-Feynman), and this correlation never increases with J2.", "quantifier": "All lattices (lists of pairs of different sites), couplings, amplitudes, configurations with nonzero amplitude, numbers of up spins and states", "why_tests_cant": "Tests compare energies of a few lattices at a few couplings; the relations hold for every state and every pair of couplings", "anchors": ["GPSKet/operator/hamiltonian/J1J2.py:get_J1_J2_Hamiltonian", "GPSKet/operator/hamiltonian/J1J2.py:local_en_on_the_fly"]}
