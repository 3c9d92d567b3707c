# Formal model of GPSKet: design

## 1. Layout

* `lean/Verif/Spec/*` – small specifications, written without the code's helpers: the fermionic Fock space with creation and
  annihilation operators, the ASEP generator, spin operators, sampling laws, autoregressive chain rule, Pfaffian, ridge regression.
* `lean/Verif/Model/*` – the model: the code of `/repo`, function by function.  Each definition cites file and lines and says where
  it simplifies.
* `lean/Verif/Lemmas/*` – auxiliary lemmas.
* `lean/Verif/Props/*` – the property theorems, named after the property (`C34_...`).  Beside them are `example`s which show that a
  non-trivial case meets the hypotheses.  Where the code violates a property there is a refutation `..._fails` with a witness, and what
  does hold is proved as `..._partial` or under the hypotheses that are needed.
* `properties.jsonl`, `MANIFEST.json` – the properties, and the theorems that settle them.
* `seeded/LOG.jsonl` – the wrong programs the theorems were tested against, one edit of a definition of the model per line.

## 2. Modelling conventions

* Floating-point numbers are elements of a field, `ℝ` or `ℂ`: rounding and overflow are not modelled.  Infinities and NaN are modelled
  only where the code itself produces them (`log 0`, `0/0`): by an explicit case, an `Option`, or by working with amplitudes instead of
  their logarithms; each definition says which.
* Arrays are functions on `Fin n` or lists.  Buffers filled through a running counter are lists built by appending.  Where NumPy aliasing
  matters (arrays of the caller held by an object, views, in-place operators) arrays are addresses in a heap.
* Random numbers are arguments.  Where the property is about a distribution, the law of the draws is given as a finite distribution or as
  a measure (uniform variates on `[0,1)`, exponential clocks for Gumbel numbers).
* `vmap` means "apply to every row", `scan` and `fori_loop` are folds, `while_loop` is an iteration with an explicit condition, `jit`
  and chunking have no meaning of their own.  The order of JAX scatter updates with repeated indices is unspecified, and is left
  arbitrary in the model where repeated indices can occur.
* MPI collectives are their mathematical meaning on the list of the processes' values.
* Exceptions are values (`Option`, `Except`, or an inductive type of outcomes).
* NetKet, Flax, SciPy and JAX functions that the code calls are modelled by what their documentation says they return, only as far as the
  code uses them; where a property depends on such a contract the theorem has it as a hypothesis or the model's comment states it.

## 3. Trusted base

* The kernel of Lean 4.33.0.
* The axioms `propext`, `Classical.choice` and `Quot.sound` (section 7).
* Mathlib as installed: its definitions occur in the statements (matrices, determinants, derivatives, measures).
* The reading of `/repo` recorded in the comments of `lean/Verif/Model/*`, including the conventions of section 2.  The code was read, not
  run.

## 4. Property by property

For each property: the model modules that carry it, how it is proved, and its status.  The full statement is in `properties.jsonl`; the theorem names are in `MANIFEST.json`.

| id | property | status | modelled in `Model/` | proof | restrictions and findings |
|---|---|---|---|---|---|
| C01 | Fermionic hop carries the Jordan-Wigner sign | proved | Fermion | parity of the electrons strictly between the sites from the cumulative counts; matrix element in `Spec/Fock` | matrix element of c†_a c_i in Fock space, all sizes |
| C02 | Hop sign does not depend on how the counts are supplied | partial | Fermion | witness; exact condition of agreement | property is false of the code (off-by-one window without counts); proved: refutation and the exact agreement condition |
| C03 | Hops conserve particles and are local | proved | Fermion | case split; induction over lists of hops |  |
| C04 | FermiHubbard rows are the rows of the Hubbard Hamiltonian | proved | Hubbard | row sum = matrix element of the Hamiltonian of `Spec/Fock` |  |
| C05 | FermiHubbard is Hermitian as it claims | proved | Hubbard | symmetry of the specification |  |
| C06 | Sections delimit each sample's connected elements | partial | Hubbard | induction over the batch with the running counter | false for an empty edge list (sections unwritten); proved for every non-empty edge list |
| C07 | On-the-fly Hubbard local energy equals the kernel's | partial | HubbardOnTheFly, AmpSource | equality of sums over bonds | false for self-loop edges; proved for all others |
| C08 | ASEP generator conserves probability | proved | Asep | row-sum algebra |  |
| C09 | ASEP rows are the tilted ASEP generator | proved | Asep | entry by entry against `Spec/Asep` |  |
| C10 | ASEP is_hermitian tells the truth | partial | Asep | witnesses; characterisation of symmetry | false of the code in both directions; exact symmetry condition proved |
| C11 | On-the-fly Heisenberg local energy is the operator's local energy | partial | J1J2, AmpSource | sum over bonds against `Spec/Spins` | holds for every Heisenberg/J1-J2 operator; false for two-site operators that are not exchange invariant (matrix indices are read with the sites' roles swapped) |
| C12 | Ab-initio kernel writes exactly the rows it allocates | proved | AbInitio | counting induction over the loop nest | All batches, orbital and electron numbers. |
| C13 | Ab-initio rows are the second-quantised Hamiltonian | proved | AbInitio | signs from C01, sums over excitations against `Spec/Fock` | Needs (pq/rs)=(rs/pq), shown necessary; over any field of characteristic other than 2. |
| C14 | On-the-fly ab-initio local energy equals the kernel's | proved | AbInitioOnTheFly | equality of sums; coherence of the fast update | Plain re-evaluation and any fast update coherent on padded updates. |
| C15 | Local RDMs contract to the local energy | proved | AbInitioOnTheFly | exchange of sums |  |
| C16 | Sparse and dense ab-initio operators agree | proved | AbInitioSparse | sum over the stored non-zero integrals | Needs (pq/rs)=(rs/pq) (see C13_symmetry_needed); plain re-evaluation and any fast update coherent on padded updates. |
| C17 | Sparse integral storage loses nothing | proved | AbInitioSparse | list induction over the compressed rows |  |
| C18 | Dummy-site updates denote the intended configuration | proved | AbInitioOnTheFly | list induction, semantics of `Spec/Updates` |  |
| C19 | Fermionic Hilbert space constraint and random states | proved | Hilbert | counting |  |
| C20 | Powers of a fermionic Hilbert space | partial | Hilbert | witness | false for constrained spaces (electron numbers dropped); proved for unconstrained ones |
| C21 | Hopping rule stays in the Hilbert space | partial | HoppingRule | case analysis over all draws | false for the empty state (no electron at all); proved for every reachable draw otherwise |
| C22 | Hopping rule proposes symmetrically | partial | HoppingRule | bijection between the draws of a move and of its reverse | false for neighbour tables with unequal row sums; proved for balanced tables |
| C23 | Exchange rule reports its update | proved | Metropolis | permutation algebra |  |
| C24 | Fast Metropolis sampler is the plain Metropolis sampler | proved | Metropolis | simulation relation, induction over sweeps |  |
| C25 | Sampler counters | proved | Metropolis | invariant by induction over steps |  |
| C26 | batch_choice draws with the given probabilities | proved | ARSampler | monotone cumulative sums; Lebesgue measure of an interval | probabilities are Lebesgue measures of sets of variates in [0,1) |
| C27 | Autoregressive sampling draws from |psi|^2 | proved | ARSampler, Autoreg | chain rule, measure of the set of variates | normalize=True; symmetry families closed under inverses; Continuable is proved for the provided constraints |
| C28 | Autoregressive wave functions are normalised | proved | Autoreg, AutoregFermion | induction over the sites from the last to the first | normalisation fails for a single unconstrained site, see C32_small_fails |
| C29 | Autoregressive conditionals are causal | proved | Autoreg | masks depend on the past only |  |
| C30 | Cached and batched conditionals agree | proved | Autoreg | invariant of the cache |  |
| C31 | Zero-magnetisation constraint is exact | proved | Autoreg | prefix counts |  |
| C32 | Unconstrained autoregressive models have full support | partial | Autoreg | prefix counts; small sizes refuted | true from four sites on; false for 1, 2 and 3 sites, proved for all parameters |
| C33 | Fermionic constraint of the AR models is exact | proved | AutoregFermion, AutoregTutorial | prefix counts for two species; the function of the tutorial sets the same entries |  |
| C34 | qGPS fast update equals re-evaluation | proved | QGPS | product ratio; induction over histories | C34_zero_fails and C34_repeated_site_fails show that the two restrictions of the quantifier (non-zero factors, repeats only as dummies) are needed |
| C35 | Symmetrised qGPS is symmetric | proved | QGPS | reindexing by a group |  |
| C36 | ARqGPSFull fast update equals re-evaluation | proved | AutoregFull | invariant of the cache |  |
| C37 | Triangular parameter layout | proved | AutoregFull | index arithmetic |  |
| C38 | Plaquette qGPS fast update equals re-evaluation | partial | PlaquetteQGPS | product ratio; witnesses | values right for padded updates of non-zero parameters; the cached configuration after an update with dummies, and plaquettes listing a site twice, are refuted |
| C39 | CPD backflow fast update equals re-evaluation | partial | CPDBackflow | invariant; witness | right when no changed site is listed twice; refuted for the dummies sent by the ab-initio operators |
| C40 | Occupations and electron positions correspond | proved | Electrons | list induction |  |
| C41 | Slater fast update equals re-evaluation | proved | Slater | matrix determinant lemma, Sherman-Morrison-Woodbury; induction over histories |  |
| C42 | Pfaffian routine | partial | Pfaffian | Parlett-Reid elimination invariant over all pivots; derivative of the Pfaffian | Non-zero Pfaffian: full statement incl. the custom derivative rule. Singular matrices of size >= 4 give NaN instead of -inf (refuted). |
| C43 | PixelCNN is autoregressive | partial | PixelCNN | non-interference through the layers | Proved for every odd kernel size (causality and normalisation); refuted for every even kernel size. |
| C44 | Segmented qGPS counts | proved | Segmented | induction over prefixes | Unconstrained spaces are rejected at set-up. |
| C45 | RMSProp-regularised geometric tensor: lazy equals dense | proved | RMSProp | matrix algebra | Dense RMSProp tensor for all Jacobians; the on-the-fly variant is right for real averages and shown non-Hermitian for the complex averages it is given with complex parameters. |
| C46 | Running second-moment average | proved | RMSProp | closed form by induction over steps | All gradient histories. |
| C47 | minSR equals SR | partial | MinSR | push-through identity | Right for plain Monte Carlo states in real and holomorphic mode, and in the default mode complex for complex parameters of holomorphic wave functions; refuted for weighted samples and for mode complex with real parameters; the reported loss gradient lacks a conjugation. |
| C48 | minSR assembles samples consistently across ranks and chunks | proved | MinSR | index arithmetic | All process grids. |
| C49 | SR-RMSProp driver repacks complex updates | partial | RMSProp | block matrices; lengths of buffers | The root's update and its repacking are right; the broadcast to the other ranks is refuted (buffer of the wrong length). |
| C50 | Unique-sample states | proved | UniqueSamples | invariant of the sampling loop |  |
| C51 | Stratified sampling states | proved | Stratified | detailed balance; expectation values |  |
| C52 | Imaginary-time target | partial | ImagTime | case analysis | Both branches give (1 - tau H) psi where psi is non-zero; the state-based branch needs tau > 0 (NaN otherwise, refuted), and samples are not restored when the evaluation raises (refuted). With a real model and Hamiltonian the value is NaN where the step changes the sign of the amplitude (C52_real_fails). |
| C53 | H2O dataset decoding | proved | H2O | list induction; sorting | k > 0; select_largest=0 returns everything. |
| C54 | Supervised qGPS prediction does not depend on the reference site | proved | Supervised | invariant of the caches | After any history (of the kind of C55), for any reference sites set afterwards, predictions are the exponential of the full sum of products. |
| C55 | Cached site products survive any fitting history | partial | Supervised | state machine with a heap, induction over histories | Proved for all histories that do not overwrite in place an array held by the learner (data set, vector of reference sites, or the parameters behind the getter). For each of the three kinds of in-place writes a history with a stale prediction is exhibited. |
| C56 | Supervised fit solves the regularised least-squares problem | proved | SupervisedFit | completing the square, positive definiteness | For fixed precisions and noise (or the last evaluation of their optimisation). With a bias the total weight of the data must exceed the cut-off, otherwise the bias is reset (C56_bias_fails). |
| C57 | Supervised fit: prior mean, alpha reset and Newton step take effect | partial | GenLin, SupervisedAlpha | execution of the aliasing assignments | The prior mean of log-space and exponential fits is right (C56, C74). The code violates the rest: the Newton step, the reset of the precisions and the prior mean of the growing fit have no effect; re-evaluation zeroes the weights; precisions are misaligned with expanded complex weights and a bias. |
| C58 | Model composition passes arguments as declared | partial | Composite, Backflow, Solvers, PyCall | Python call semantics on signatures | Holds for qGPS, Slater, SlaterqGPS, Backflow, CPDBackflow. Refuted: SlaterJastrow, ASymmqGPS, ASymmqGPSProd, BackflowJastrow advertise fast updates but reject the arguments; BackflowJastrow exchanges orbitals and correction module; SRDense raises with its default solver. |
| C59 | Jastrow factor symmetry | proved | Jastrow | algebra |  |
| C60 | Antisymmetric qGPS is antisymmetric | proved | Composite | permutations of rows of determinants | Stated for the amplitude, whose logarithm the code returns. |
| C61 | Spin rotations of the S^2 projection | proved | Slater | trigonometric identities; determinant of rotated orbitals |  |
| C62 | Geometric tensor of unique-sample states | proved | UniqueSamples | regrouping of sums | All sample streams. |
| C63 | Pfaffian amplitudes are antisymmetric | proved | Pfaffian | permutation of rows and columns |  |
| C64 | Spin rotation of the Pfaffian pairing matrix | proved | Pfaffian | block matrices |  |
| C65 | Pfaffian states evaluate a batch configuration by configuration | partial | Pfaffian | axis of the sum; witness | Holds for the zero-magnetization state with non-negative characters and non-zero Pfaffians; the general Pfaffian state sums over the batch with its default output transformation (refuted). |
| C66 | Imaginary-time states can be nested | partial | ImagTime | execution | Refuted: nested imaginary-time states cannot be evaluated. |
| C67 | Coefficients of the antisymmetric qGPS | partial | Composite | broadcasting rules; witnesses | Holds for one determinant; refuted for several: broadcasting attaches the coefficients to the axis of the symmetry operations. |
| C68 | Backflow amplitudes and their fast updates | proved | Backflow | determinants; induction over histories |  |
| C69 | Pseudo-inverse solver | partial | Solvers | spectral theorem, Penrose equations | Needs the non-zero eigenvalues to lie above the relative cut-off rcond; refuted otherwise. |
| C70 | Fast updates of a Slater determinant times a qGPS | proved | Composite | product of C34 and C41 |  |
| C71 | CPD backflow amplitudes | proved | CPDBackflow | reindexing | environments=None |
| C72 | Supervised fits leave the caller's arrays alone | partial | GenLin | execution | The weightings array of the caller is multiplied in place by the squared prefactor; unchanged only for prior mean zero (prefactor of modulus 1). |
| C73 | Gradient and Hessian of the generalised linear model are the derivatives of its loss | partial | GenLin | derivatives | Proved for active features; the gradient has a penalty term for inactive features that the loss lacks. |
| C74 | Exponential fits: noise-weighted log loss with zero amplitudes | proved | SupervisedFit | completing the square with a linear term | For fixed precisions and noise, noise estimated from the targets, parameters not expanded. |
| C75 | State fitting: shards of the data set | proved | StateFitting | list induction |  |
| C76 | State fitting: mini-batches | proved | StateFitting | sorting; first of independent exponential clocks (`Lemmas/Clocks`) | JAX's choice without replacement is modelled as a sort by Gumbel keys.  The reset needs a given seed. |
| C77 | State fitting: the update direction is the gradient of the reported loss | partial | StateFitting | Fréchet derivatives | True on one process.  On n processes the code sums the gradients but averages the losses: the vector is n times the gradient. |
| C78 | Initial parameters | partial | Initializers | algebra | The kind of the dtype given to normal() decides, not the one of the parameter: refuted where the two differ, as for complex composite and Pfaffian states with the default initialiser. |
| C79 | J1-J2 Hamiltonians are constructed in both evaluation modes | partial | J1J2, PyCall | Python call semantics | on_the_fly_en=True raises a TypeError: the class used is a bare LocalOperator, whose constructor takes neither J nor sign_rule (its signature in NetKet 3 is assumed). |
| C80 | Supervised learning: the reported evidence is the marginal likelihood | proved | MargLik, SupervisedFit | Gaussian integrals: factorise the positive definite matrix, change variables, complete the square; compare with the Cholesky formulae of the code | Without weightings (see C81).  The specification is a Lebesgue integral over the weights.  The Cholesky decomposition is any function with its documented behaviour; such a function exists (MargLik.exists_choleskySpec). |
| C81 | Supervised learning: integer weightings count as repetitions | partial | MargLik | sums over repeated data; exact difference for the log-space learner | True for the learner of exponentials and nonzero amplitudes.  It raises for weighted data with zero amplitudes, and the learner of log-amplitudes does not weight the squares of the data. |
| C82 | Supervised learning: the reported derivative with respect to the precisions | partial | MargLik | exact change of the evidence under a change of one precision (determinant and inverse after a rank-one change), then calculus | True for the features that occur in the data and whose precision is below the cutoff.  For a feature that does not occur the evidence does not depend on the precision, but the reported derivative is not zero. |
| C83 | Supervised learning: the reported derivative with respect to the noise of the exponential fit | partial | MargLik | derivatives of the logarithm of the determinant and of the quadratic form along a path of matrices (Jacobi); exact difference to the reported value | The trace term has the wrong sign: the reported value is strictly smaller than the derivative whenever a feature takes part, also with complex_expand; the exact difference is proved.  With iterative_noise_est and noise_reweighting it is wrong even without features. |
| C84 | Supervised learning: the reported derivative with respect to the noise of the log-space fit | partial | MargLik | as C83; the reported value equals the derivative times the fourth power of the noise | The reported value is the derivative times the fourth power of the noise (a factor noise^2 in place of 1/noise^2), and this only for the parameters of the present fit; with weightings there is a further difference, since log_marg_lik does not weight the squares of the data (exact difference proved, also with complex_expand). |
| C85 | Supervised learning: the optimisation of precisions and noise climbs the evidence | proved | OptAlpha | the new value minus the old one has the sign of gamma - alpha |w|^2, which is a positive multiple of the derivative (C82; for a shared precision and the noise by the derivatives of C83) | For features that take part.  With weightings the evidence of the log-space learner is the one of C81, so the noise is covered without weightings. |
| C86 | Supervised learning: the optimisation keeps precisions and noise positive | partial | OptAlpha | invariant of the loop by induction over the iterations: gamma lies in (0,1), the trace of the unexplained part is positive (Woodbury), the residual vanishes only for zero data; counterexamples computed for one feature | Proved for log-amplitudes without weightings and data that are not all zero, and for exponentials.  Refuted with weightings (the noise can become negative) and with complex_expand (the optimisation of the noise raises). |
| C87 | Supervised learning: the parameters belong to the precisions | partial | OptAlpha | induction over the iterations with the values of the last setup in the state; counterexample computed | The weights are not recomputed after the last update of the precisions: true up to a relative change of 1e-7 of the precisions if the iteration ended by itself, refuted if it was limited. |
| C88 | Supervised learning: the growing relevance vector machine climbs the evidence | partial | GrowingRVM | the change of the evidence by one precision in closed form from the Schur complement (Lemmas/Border, Lemmas/Growing), maximised; induction over the iterations; counterexamples with orthogonal features | Proved for real parameters while precisions do not reach the cutoff, for both learners.  Refuted for complex parameters (only the real part of a complex quantity is kept) and with complex_expand (a factor 2 is missing): an iteration removes a feature that is needed. |
| C89 | Supervised learning: the first feature of the growing relevance vector machine | partial | GrowingRVM | the same closed form with no active feature: the gain is monotone in the quantity that the code maximises | Proved for both learners, real and complex parameters, if each feature occurs with weight at least 2^-23 and the precision is below the cutoff.  Refuted if a feature hardly occurs (the code then takes the feature 0) and with complex_expand (a factor 2 is missing in the precision). |
| C90 | Generalised linear model: the initial fit of log-amplitudes | proved | GenLinFit | normal equations on the active block; a positive definite quadratic form has one minimiser; complex parameters as real and imaginary parts | For features without a bias and one process; lstsq solves a system with a positive definite matrix exactly (rcond is not modelled).  Real parameters need positive amplitudes: the logarithm of a negative real number is nan. |
| C91 | Generalised linear model: reweighted least squares | proved | GenLinFit | the reweighted problem is the loss with linearised predictions; uniqueness of the solution and the derivative of the loss give the fixed points; several steps by unfolding the iteration | The last two parts need that parameters which do not take part are at the prior mean (or belong to features that are zero on the data); otherwise predictions are made with parameters that the update then replaces. |
| C92 | Generalised linear model: the reported derivative of the evidence | partial | GenLinFit | derivative of the log-determinant along a line of matrices; positive definiteness is an open condition; refuted by a witness for complex parameters | Proved for real parameters.  For complex parameters the term of the Hessian enters the reported derivative twice; refuted with one configuration and one feature. |
| C93 | Reduced density matrices: the local matrices are local estimators | partial | Rdms | expand the on-the-fly loops over orbitals; the symmetrisation of the two-body array by the symmetries of the integrals; averages by the local-estimator lemma in the sector of fixed electron numbers; refuted entry by entry with a witness | The two-body statement is proved for integrals with the symmetries of real orbitals and for the symmetrised array; a single entry of the local two-body array is not the estimator of the operator with the same indices (refuted with a witness). |
| C94 | Reduced density matrices: the saved files | partial | Rdms | sum over chunks and chains; average of the local matrices; commutation relation turns the product of excitations into the pair operator; witnesses with two processes and with a complex state | Proved on one process, for real amplitudes and if the number of chains divides the chunk size.  On n processes the arrays are divided by n once too often; for complex states a transpose replaces the one-body matrix by its conjugate in the correction of rdm2. |
| C95 | Spin correlations from density matrices | partial | Rdms | exchange identity in the algebra of creation and annihilation operators; commutators with the total spin vanish in a singlet; entries of the local two-body array; witness with two parallel spins | Proved for singlets, including every entry computed from the saved arrays (up to the factor of C94 on several processes).  For other states the result is a third of the full scalar product of the spins; refuted with two parallel spins. |
| C96 | Radial spin correlations of the sheet | proved | Rdms | enumeration of the shells of the four bulk atoms, for arbitrary arrays |  |
| C97 | ARGPS training: no step is lost or done twice | proved | Workdir, ArgpsRun | transition system with kill and restart at every file operation; invariant of checkpoints and process by induction on histories; termination by induction on the steps left | The sampler is not part of a checkpoint: between two steps it may be replaced by a new one (see C98). |
| C98 | ARGPS training: a continued run equals an uninterrupted one | partial | ArgpsRun | induction on lineages when samples do not matter; invariant of histories without kills; refutation by a two-step history | Proved when no process is killed, and for all histories if the samples have no influence on the steps.  Otherwise refuted: the state of the sampler is not saved, and a restarted run draws the same samples again. |
| C99 | ARGPS training: the log of metrics | partial | ArgpsRun | invariant of rows and header by induction on histories; refutation by two histories with one kill | Proved when no process is killed; for all histories no step is missing.  Refuted otherwise: rows after the last checkpoint are repeated, and the header is missing for ever after a kill between the creation of the file and its header. |
| C100 | Training scripts: the saved configuration | partial | Workdir, ArgpsRun | invariant by induction on histories; refutation by a kill between truncation and writing | Proved for a file that is not empty, and that it is not empty once the running process has saved it.  Refuted after a kill while the file is being written (it is truncated first, in every start). |
| C101 | Backflow training: the number of steps | partial | Workdir, BackflowRun | invariant relating labels and step counts, by induction on histories; refutation by short histories | Proved when no process is killed and total_steps is at least 2; for all histories at most one step is missing.  Refuted for total_steps = 1 and for restarts with one step left (the condition is initial_step < total_steps), and in restarted descent finishing. |
| C102 | Backflow training: the best parameters | partial | BackflowRun | invariant over the list of statistics compared so far, by induction on histories; refutation by short histories | Proved: no step was seen with both a lower energy and a lower variance, and the parameters are the result of the step with the recorded statistics.  Refuted: they are those after the update, not those with this energy; the energy need not be the lowest; after a kill while the file is written the script cannot be continued. |
| C103 | Backflow training: checkpoints are complete | partial | BackflowRun | lineage invariant by induction on histories; refutation with an average that counts steps | Proved for drivers without a running average and without descent finishing.  Refuted for VMC_SRRMSProp: its running average is not saved, so that a restart begins with a new one. |
| C104 | Timer of the training scripts | partial | Timer | floor arithmetic; induction on the list of update times; refutation with single updates | Proved for loops that begin at step 1.  Refuted after a restart (the first time is divided by the number of the step) and in descent finishing (remaining time negative, printed as almost a day). |
| C105 | Determinant models follow the sign convention of the Hamiltonians | proved | SlaterState (spec), Slater, Backflow, CPDBackflow | Leibniz formula for products of creation operators by induction on the number of orbitals; Jordan-Wigner signs by inserting positions | All kinds of orbitals; environments of CPDBackflow are treated in C106. |
| C106 | Training of the backflow script starts from the Hartree-Fock state | partial | BackflowScript | the product over sites collapses to the first site, the sum over the support dimension to its first term; then C105 | Proved for restricted and unrestricted orbitals, with and without cutoff, and for generalised orbitals of molecules with equal numbers of electrons or one down electron and of the Hubbard model with unrestricted mean field.  Refuted: generalised orbitals with different numbers of electrons (the second block begins at the wrong column; with one down electron numpy repeats it, which changes nothing unless there is no up electron), with cutoff, and with a restricted mean field of the Hubbard model: exceptions. |
| C107 | Models of the backflow script can be used with its Hamiltonians | partial | BackflowScript | evaluation of the calls; refutation for all parameters | Proved for models without cutoff.  Refuted for all models with cutoff: they announce fast updates, which they refuse. |
| C108 | Environments hold the most strongly coupled orbitals | partial | BackflowScript | any order that argsort may return; refutation with two exchanged orbitals | Proved: the environments are the most strongly coupled orbitals of the matrix that is sorted, and this is the matrix of the claim if the basis leaves it as it is.  Refuted in general: for local bases the matrix is transformed twice, for the canonical basis not at all. |
| C109 | Hubbard chain of the autoregressive script | partial | HubbardScript | Hamiltonians depend on the edges only through amplitudes between sites, which one-electron states recover | Proved for closed chains.  Refuted for open chains: the edge between the ends is always there. |
| C110 | Hubbard chains and rectangles of the backflow script | partial | HubbardScript | as C109; gauge transformations move a change of sign to the boundary; arithmetic of site numbers | Proved for all chains and for all rectangles with at least three sites in every closed direction, for the settings the script describes.  A rectangle that is open in both directions cannot be set. |
| C111 | Mean-field calculation for the Hubbard model uses its Hamiltonian | proved | HubbardScript | induction on the edges; number operators | Edges of the graphs of the script; a pair of sites that is named twice would break it. |
| C112 | Symmetries configured for the autoregressive script | partial | ArgpsModel, QGPS, AutoregFull, AutoregPlaquette, ARSampler | the functions list a group of pairs of permutations; reindexing of sums; C27, C28, C31, C33, C34, C36 | Proved for all models except FilterGPS, which always and only has the translations as symmetries (refuted with symmetries = all). |
| C113 | Direct sampling is refused for models that are not normalised | partial | ArgpsModel, ARSampler | scaling of the cumulative sums; witness with two sites | Refuted: the check reads a configuration entry that no model uses.  Proved: the samples are those of the normalised model with the same parameters. |
| C114 | Uninterrupted ab-initio optimisation | proved | Spec/EarlyStopping, Model/AbInitioRun, Lemmas/AbInitioRun, Props/AbInitioUninterrupted | Invariant of an uninterrupted process relating files and variables to the trajectory of the optimisation; progress by induction on rows. | Uninterrupted run from an empty directory; the exception for best_pars.pickle of H4x4x4.py is in the statement of C114_uninterrupted. |
| C115 | Rows of interrupted ab-initio optimisations | partial | Spec/EarlyStopping, Model/AbInitioRun, Lemmas/AbInitioRun, Props/AbInitioHistories, Props/AbInitioFails | Invariant of all histories with the depth of training of the process and of the file; refuted in full by a concrete history. | Exactly row i = step i fails (a kill between a row and the next write of parameters.pickle repeats a step); proved: the rows are evaluations that were done, row i was trained by at most i steps and by at least i minus the number of restarts, and so for parameters.pickle; exact for one process. |
| C116 | Best parameters of interrupted ab-initio optimisations | partial | Spec/EarlyStopping, Model/AbInitioRun, Lemmas/AbInitioRun, Props/AbInitioBest, Props/AbInitioFails | Invariant relating best_var to the minimum of the rows and best_pars.pickle to the evaluations; second invariant for histories with kills at safe points. | Fails after a kill between an evaluation and its row (truncated file, or parameters of no row). Proved: whenever the file can be read, its parameters were evaluated with a variance that no row is below; the full claim holds if no kill falls between an evaluation and its row. |
| C117 | Restarts of ab-initio optimisations | partial | Spec/EarlyStopping, Model/AbInitioRun, Lemmas/AbInitioRun, Props/AbInitioBest, Props/AbInitioFails | From the invariants of C115 and C116; refuted in full by families of histories for every max_count. | Proved: a finished run stays finished; at the end there are at least max_count - 1 rows after the best; exceptions occur only if parameters.pickle cannot be read or there is exactly one row. Refuted: max_count rows (the count of a restarted run is one too large), continuing after a kill while parameters.pickle is written, continuing with exactly one row (genfromtxt returns a 1D array). |
| C118 | Density-matrix files of H4x4x4.py | proved | Spec/EarlyStopping, Model/AbInitioRun, Lemmas/AbInitioRun, Props/AbInitioHistories | Part of the invariant of C115. | All histories. |
| C119 | Equilibration phase of H4x4x4.py | partial | Spec/EarlyStopping, Model/AbInitioRun, Lemmas/AbInitioRun, Props/AbInitioCrystal | Invariant on the rows since best_var; refuted in full by families of histories for every max_count and min_global_count. | The condition on best_var_arg at restart is inverted, and best_pars.pickle is not written for the first row that counts. Proved: at the end there is always a row with at least max_count - 1 later rows none of which is better. |
| C120 | Pfaffian models are pair states | partial | Spec/PairState, Lemmas/PairState, Model/Reference, Props/PairState | The power of the pair operator is expanded over sequences of pairs; the amplitude is a signed sum over permutations, that is the Pfaffian of the antisymmetrised pairing matrix (C42 gives its evaluation). | All configurations with non-zero amplitudes, and all configurations for which the model gives a number.  Refuted where four or more occupied orbitals are not paired: the amplitude is zero, the model gives NaN (C42). |
| C121 | Fast updates of the Pfaffian-qGPS model of H2O.py | proved | Model/Reference, Props/Reference | Coherence of the qGPS (C34) and the identity of the scan over updates with the update of the configuration; induction on histories. | With M > 0 the admissible updates are those of C34 (its restrictions are shown there to be needed). |
| C122 | All reference states of H2O.py start in the same state | partial | Model/Reference, Lemmas/Reference, Props/Reference | Pf(B J Bᵀ) = det B Pf J; the symmetric pairing is not changed by rotations; the rotation of the columns has determinant one. Refuted for zero amplitudes by the zero matrix of C42. | Complete for the three determinants; for the two Pfaffians where the amplitude is not zero. Refuted for zero amplitudes: NaN instead of zero if no occupied site has weight in the orbitals. |
| C123 | One Hamiltonian for all processes of a directory | proved | Model/Integrals, Props/Integrals | Invariants on the files and the program point for each of the three ways of using the files; the basis is never overwritten once complete. |  |
| C124 | A script can be started again after a kill | partial | Model/Integrals, Props/Integrals | The invariants of C123 leave finitely many forms of the directory; each is run to the end. Truncated files are never repaired. | Holds if no file was left truncated; refuted otherwise: after a kill while a file is written no process ever gets to work again in that directory. |
| C125 | A process uses the molecule and basis of its arguments | partial | Model/Integrals, Props/Integrals | Invariant for H50_1D.py; explicit histories with two molecules or two bases for the refutations. | Molecule: proved for H50_1D.py, refuted for the other scripts. Basis: refuted. |
| C126 | The orbital and exchange files of the backflow scripts fit the basis | partial | Model/Integrals, Props/Integrals | Invariant on hf_orbitals.npy and exchange.npy; explicit history for the refutation. | Complete for hf_orbitals.npy; exchange.npy can stay truncated after a kill while it is written (refuted), and has the right content otherwise. |
| C127 | Every rank gets the two-electron integrals of rank 0 | proved | Model/Integrals, Props/Integrals | Induction on the list of slices. |  |
| C128 | The density matrix of the hydrogen cluster script is unbiased | proved | Model/CrystalRdm, Props/CrystalRdm | The row of c†_i c_j is the one entry that the counted hop gives (C01's lemma on hops); linearity of the mean over ranks and samples. |  |
| C129 | Geometries of hydrogen chains and sheets | proved | Model/Geometry, Props/Geometry | A divisor that is at most the rounded root is at most the root; induction on the loop; the list of atoms is indexed by x b + y. | The square root is rounded exactly (roundSqrt_spec). |
| C130 | Removing small integrals | proved | Model/Pruning, Spec/Energy, Props/Pruning | C14 and C16 for the local energies; the Hamiltonian as one sum over terms whose operators have row and column sums of at most 2 and 4. |  |
| C131 | Drivers pair every sample with its own local energy | partial | Model/Pairing, Props/Pairing | Flattened arrays as lists; the layout of NetKet's array is a parameter; refuted for every array with two rows and columns. | Each driver is right for one layout of the array returned by NetKet; no layout suits both, with several chains of several samples. |
| C132 | Statistics reported by the minSR driver | partial | Model/Pairing, Props/Pairing | Sums over ranks; the batch size is the number of ranks since the data has one row. | Mean and variance are right; the error is the standard error only with one sample per rank, otherwise it is too large by the root of the number of samples per rank. |
| C133 | The reported gradient is the gradient of the energy | partial | Model/UniqueSamples, Spec/Rayleigh, Props/EnergyGradient | Quotient rule for the energy along a path of states; regrouping of weighted samples by configuration. | Holds if the derivative vanishes with the amplitude; refuted where an amplitude vanishes and its derivative does not, as such a configuration is never drawn. |
| C134 | The choice of the orbital basis does not change the molecule | partial | Model/OrbitalBasis, Spec/SameSystem, Lemmas/OrbitalRotation, Lemmas/BasisChange, Props/OrbitalBasis | The rotation between two orthonormal bases is lifted to the Fock space by filling rotated orbitals in the order of the modes; it intertwines creators and annihilators with those of the rotated orbitals (induction over sorted lists of modes), so it is orthogonal, carries one Hamiltonian into the other and determinants into determinants. | Proved for unpruned integrals; with a pruning threshold the energies depend on the basis (C134_pruned_fails). |
| C135 | Split-localised orbitals keep the Hartree-Fock state simple | partial | Model/SplitBasis, Props/SplitBasis | The stored orbitals are a block-diagonal orthogonal matrix; every amplitude is a product of two determinants, which vanish unless the first orbitals are occupied and whose product is then the square of a sign. | Proved for equal numbers of up and down electrons; refuted otherwise, because half of the electrons, rounded down, is not the number of occupied orbitals of either spin. |
| C136 | Names of orbital bases are checked | partial | Model/SplitBasis, Props/SplitBasis | Case distinction on substrings. | Listed names work, names without the letters local are rejected; misspelt names with these letters are accepted silently. |
| C137 | The hopping samplers keep |psi|^p | proved | Model/SamplerChain, Spec/Markov, Lemmas/Markov, Lemmas/SamplerChain, Lemmas/HoppingChain, Props/HoppingChain | one step as a matrix of probabilities: the law of the rule's draws (C22) times the Lebesgue measure of the uniform variates that accept; detailed balance from C22; transport of electrons along paths of the table; max principle for uniqueness; Doeblin contraction for convergence | Proved without a table and for accepted non-negative tables with equal row sums. Refuted for accepted tables with unequal row sums (nearest neighbours of an open chain): the uniform distribution is not kept for equal amplitudes. |
| C138 | The hopping samplers reach everything | proved | Model/SamplerChain, Spec/Markov, Lemmas/Markov, Lemmas/SamplerChain, Lemmas/HoppingChain, Props/HoppingChain | one step as a matrix of probabilities: the law of the rule's draws (C22) times the Lebesgue measure of the uniform variates that accept; detailed balance from C22; transport of electrons along paths of the table; max principle for uniqueness; Doeblin contraction for convergence | Proved for positive hop probability and connected tables; refuted for hop_probability=0 and for disconnected tables, both of which the constructors accept. |
| C139 | The hopping samplers converge | proved | Model/SamplerChain, Spec/Markov, Lemmas/Markov, Lemmas/SamplerChain, Lemmas/HoppingChain, Props/HoppingChain | one step as a matrix of probabilities: the law of the rule's draws (C22) times the Lebesgue measure of the uniform variates that accept; detailed balance from C22; transport of electrons along paths of the table; max principle for uniqueness; Doeblin contraction for convergence | Proved as stated; without the stated conditions it is refuted: one electron on two sites with equal amplitudes is back at its start after every even number of steps. |
| C140 | Exchange sampler: invariance, reachability, convergence | proved | Model/SamplerChain, Lemmas/SamplerChain, Props/ExchangeChain | same chain construction; permutations generated by the transpositions of a connected graph | Proved as stated; for clusters that do not connect the sites reachability is refuted. |
| C141 | Expected value reported by unique-sample states | proved | Model/UniqueSamples, Props/UniqueBias | finite probability space of draws with given marginals; the stopping rule through C50; witness computed for all p | The remark in brackets is proved too: for two configurations with probabilities p and 1-p, n_samples=2, batches of one and at most three batches, the expected share of the first is p + p(1-p)(1-2p)/3. |
| C142 | Eigenstates have zero variance and zero updates | proved | Props/ZeroVariance | the on-the-fly theorems C07/C11/C14/C16 turn local energies into rows of the Hamiltonian; C50, C47, C49 for what is reported |  |
| C143 | Variational principle and error bar | proved | Spec/Rayleigh, Props/ZeroVariance | C133 for the mean, Mathlib's spectral theorem for Hermitian matrices and Parseval's identity | C143_zeros_fails shows that the condition on vanishing amplitudes is needed. |
| C144 | Averages over Metropolis samples are consistent | proved | Spec/MarkovPath, Lemmas/MarkovPath, Props/SampledEnergy | Poisson equation of a finite irreducible chain by a dimension count, hence a bound c/n on the mean squared error; irreducibility and invariance from C137-C140 | The remark in brackets is C144_two_sites_fails. |
| C145 | Sampled energies converge to the energy of the state | proved | Props/SampledEnergy | C144 with C07/C11/C14/C16; particle numbers are conserved by the Hamiltonians | The on-the-fly evaluation assumes what C07/C11/C14 assume about a caching model (its update agrees with a full evaluation). |
| C146 | The drivers' updates lower the energy | proved | Props/Descent | the updates solve the equations of C47/C49; the derivative of the energy along the update is minus a positive semidefinite form (C133), which vanishes only with the force | The remark in brackets is C146_minSR_complex_fails. |
| C147 | Normalisation and global phase of the state have no effect | proved | Props/Gauge | ratios of amplitudes and centred log-derivatives do not change; histories by induction over iterations | The remark in brackets is C147_minSR_weighted_fails. |
| C148 | Directly sampled energies are unbiased and their error is the variance over the number of samples | proved | Spec/Direct, Model/ARSampler, Lemmas/Iid, Props/DirectEnergy | the law of a batch is a product of the laws of C27 (product measure); mean and mean squared error of averages of independent draws; C07, C11, C14 for the local energies |  |
| C149 | sample_next of the direct sampler gives one configuration per chain | partial | Model/ARSampler, Props/DirectEnergy | shapes of arrays as lists; squeezing an axis of length other than one is an error | False with two or more chains: the axis that is squeezed is the axis of the chains, so the call raises (C149_fails). Proved for one chain, which is the default. |
| C150 | The SRRMSProp preconditioner solves the regularised equation for trees of parameters | proved | Model/SRPrecond, Props/SRPrecond | trees as real and complex entries with an arbitrary layout; induction over the history of calls; the matrix is positive definite | The remarks in brackets are C150_no_step_fails and the definition of initialAverage in C150_preconditioner. |
| C151 | Samples of MCStateUniqueSamples are never stale | partial | Model/UniqueCache, Props/UniqueCache | the state as a transition system; invariant on the cached samples by induction over histories | Proved for parameters, sampler and number of samples. False for batch_size and max_sampling_steps, whose assignment keeps the cached samples, for the default batch size after a change of the number of samples, and after sample() (C151_fails). |
| C152 | No random key is used twice | partial | Model/Keys, Props/Keys | keys as paths of splits; the keys used by each function as a list; steps that only use descendants of their key and hand on an unused one compose, by induction | Proved for both Metropolis rules, the direct sampler, the initialisers and the unconstrained random states. False for random states with given electron numbers (two or more states) and for the state fitting (two or more steps): there a key is drawn from and then split; no two draws share a key. |
| C153 | The norm of the complement is estimated from independent random states | partial | Model/Keys, Model/Stratified, Model/Hilbert, Props/Keys | random states as functions of keys; random states of the first half of a split key are those of the key without the first | False: each further batch of proposals is the previous one shifted by one place, so the configurations that replace rejected ones are copies (C153_fails, for every generator); and the next estimate repeats all but as many configurations as the sampler made steps (C153_next_estimate_fails). Proved for a first batch without rejections, whose states use different keys by C152_random_state_partial. |
| C154 | The fermionic Hamiltonians conserve the total spin | proved | Spec/TotalSpin, Props/TotalSpin | commutators of the spin operators with the excitation operators from the canonical anticommutation relations; both Hamiltonians are polynomials in the excitation operators; C04 and C13 connect them to the rows |  |
| C155 | The sign rule of Heisenberg models only changes signs of amplitudes | proved | Spec/SignRule, Props/SignRule | Marshall's signs are moved through each bond matrix; energies of moduli by comparing term by term; the triangle by an explicit sum of squares | The bond matrices are NetKet's, trusted as in C11. C155_triangle_fails shows that the colouring is needed. |
| C156 | Local energies of symmetric states are symmetric | proved | Spec/LatticeSymmetry, Lemmas/ModePerm, Props/LatticeSymmetry | Specification: moved configuration, sign of the electrons passing each other (a count of pairs), total amplitude between two sites. A permutation of the modes acts on Fock space by a signed permutation that carries c_p to c_(g p) (proved by removing one particle at a time); so the Hamiltonians commute with it, their matrix elements transform with the signs, and the sum defining the local energy can be re-indexed. | Hubbard without self-loops (see C07), molecules with the eightfold-type symmetry C13 needs; the bracketed exception is C156_without_signs_fails (three sites, two electrons). |
| C157 | Symmetrised determinants carry the fermionic signs | partial | Props/SymmetricDet (Model/Slater, Model/Composite) | The sorted electron positions of the moved configuration are a relabelling of the moved positions; the sign of that relabelling (a product over pairs) is the count of pairs that pass each other; permuting the rows of the determinant gives the sign; closure re-indexes the sum over operations. C156 then gives the local energies. | Missing: ASymmqGPS with different coefficients, for which the property is false (C157_asymm_fails, a consequence of C67). C157_local_energy assumes that no amplitude of the sector vanishes (the code's logarithm is then finite). |
| C158 | Spin projections with enough quadrature points give singlets | proved | Spec/SpinProjection, Model/GaussLegendre, Lemmas/OneBody, Lemmas/SpinProjection, Props/SpinProjection | Slater determinants are multilinear in the orbitals, so a rotated determinant is a sum over assignments of spins to its orbitals; S+ flips one orbital at a time, and what it leaves in front of each assignment is the quadrature of the derivative of ((1+x)/2)^u ((1-x)/2)^d with u, d >= 1, which the quadrature integrates exactly to zero. The norm of S- psi is then an expectation value of S_z, which vanishes. Pair states are sums of such determinants. | leggauss enters through its documented property (exact for polynomials of degree below twice the number of points), proved for one and for three points. C158_too_few_fails: one point, two up and two down electrons. |
| C159 | Imaginary-time steps lower the energy | proved | Model/ImagTime, Props/ImagTimeEnergy | The drop of the energy is computed exactly in terms of the part of H psi orthogonal to psi: both contributions are non-negative because tau <H> <= 1 for psi and for that part. | Stated for the exact amplitudes, wherever the returned state can be evaluated (see C52 for real models). |
| C160 | Enough support points represent every state | proved | Lemmas/Expressive, Props/Expressive | Support points encode prefixes of configurations: products of indicator functions select one of them. The conditional amplitudes of a state are roots of ratios of prefix weights, whose logarithms telescope; in ARqGPS the points of longer prefixes add a constant to the shorter ones, which is subtracted. | C160_ar and C160_ar_full are stated for every constraint without dead ends; C160_spin, C160_free and C160_fermions are the constraints of the library. |
| C161 | The on-the-fly geometric tensor is the regularised real metric of any model | proved | Model/OnTheFly, Props/OnTheFly | jvp is real-linear with separate derivatives for real parameters and the two Wirtinger derivatives for complex ones; the transpose follows JAX's rules. Each real coordinate of the product is the covariance with the derivative along that coordinate. | C161_agrees_dense takes the rows of the Jacobian over the square root of the number of samples, as NetKet's centred jacobian returns them. |
| C162 | Autoregressive models with a separate phase keep the probabilities of the autoregressive part | proved | Model/ModPhase, Props/ModPhase | With real parameters all log-conditionals are real, so the symmetrised log-amplitude is; the phase is the qGPS model without symmetries. Laws and energies follow from C27, C28, C31, C33 and C148. | The bracketed exceptions are C162_symmetric_state_fails and C162_default_full_fails. |
| C163 | Expectation values do not depend on chunks, chains, ranks or fast updates | proved | Model/Expect, Props/Expect | Blocks of a list concatenate to the list, also with a remainder; reshaping the flattened chains gives back the chains. Local values by C07, C11, C14, C16. | NetKet's vmap_chunked and the forward pass of its expect are modelled as documented there; edges (i,i) and integrals without (pq/rs)=(rs/pq) are excluded as in C07, C14, C16. |
| C164 | The updates of the drivers are the best parameter changes for a step of imaginary time | proved | Props/ImagProjection (models: MinSR, RMSProp) | The tensor and force averages are inner products of tangent vectors with Born frequencies (C146's force_eq for the operator |D><psi|); the SR equation (C47, C49) says that the residual is orthogonal to the tangent space; Pythagoras; minimum-norm solutions are unique by the parallelogram law. | The bracketed exception is refuted by C164_minSR_complex_fails (same mechanism as C47_complex_mode_fails and C146). |
| C165 | Enough determinants represent every electronic state | proved | Props/DetExpressive (models: Slater, CPDBackflow) | One determinant of site orbitals per configuration, scaled by a root of the amplitude; symmetry operations by C157's relation of determinants at moved configurations. CPD backflow: each orbital value can be any function of the configuration (C160's construction), Vandermonde orbitals have non-zero minors, and a common factor adjusts the product of the determinants. | The bracketed exception is C165_restricted_fails. |
| C166 | expect_and_grad of unique-sample states reports the gradient of the energy | proved | Model/ExpectGrad, Props/ExpectGrad | Vector-Jacobian products are additive over concatenation, so blocks and remainder add up to the product of the whole list; the complex entries of the product are written with the two Wirtinger derivatives; the derivative along every direction of the parameters is that of C133 for a real parameter. | NetKet's vjp and vjp_chunked are modelled as documented there; the condition on vanishing amplitudes is needed (C133_zero_fails). |
| C167 | Supervised fits: sweeps never increase the penalised error | proved | Model/SupervisedSweep, Spec/Sweep, Lemmas/Sweep, Props/Sweep | Each step minimises exactly over the parameters at the reference sites (C56, C74), in which the log-amplitude is linear with coefficients that do not depend on them; parameters that are ignored do not enter the error, or enter it additively; the caches never matter (C55); induction over the calls. | opt_alpha = opt_noise = False; noise of exponential fits estimated from the targets, exponential fits for complex parameters without expansion and bias. The condition on small weights is needed (C167_small_fails). |
| C168 | Exclusion process: local energies bound the spectrum, and the fluctuation theorem holds | proved | Lemmas/PerronFrobenius, Lemmas/AsepSpectrum, Props/AsepSpectrum | Largest component of an eigenvector relative to the amplitudes (Collatz-Wielandt); pairing with the left eigenvector; eigenvectors of nonnegative matrices by compactness of the simplex, positive because moves connect all configurations; a diagonal similarity by exponentials of site-dependent levels maps the operator to the transpose of the one with the reflected counting field. | The matrix is that of the entries the operator returns. The part of the Perron-Frobenius theorem that is used is proved in Lemmas/PerronFrobenius. |
| C169 | State fitting: what a small loss means | proved | Model/StateFitting, Props/StateDistance | Full batches are permutations of the shards (C75, C76); the distance follows from the residuals on the data by the normalisation of both states and the Cauchy-Schwarz inequality; every place with non-zero amplitude can be drawn first (C76). | The bound on the distance for mini-batches that take all the data of equally large shards. Normalisation is that of C28 (C169_fermionic spells this out for given electron numbers). |
| C170 | Positive models bound ground-state energies | proved | Lemmas/PerronFrobenius, Lemmas/Stoquastic, Props/GroundSpins, Props/GroundHubbard | The matrices are real, symmetric and have no positive elements off the diagonal within the sector (SignRule lemmas; Jordan-Wigner signs of hops between neighbours and between the two ends); the energy is the average of the local energies plus a sum of squares with positive weights; a positive eigenvector exists by Perron-Frobenius and the squares vanish only for its multiples because exchanges and hops connect the sector (C140). | The excluded case (remainder 1) has an even number of electrons of each spin on a periodic ring, where the signs do not fit. |
| C171 | Autoregressive models: masks and arithmetic selection do not produce NaN | proved | Model/FloatSelect, Lemmas/FloatSelect, Props/FloatSelect | a second model of the evaluation over reals with infinities and NaN (no rounding); a relation between its numbers and the log-amplitudes of the exact model is carried through mask, normalisation, sum over sites and symmetrisation, and through the scan of ARqGPS. | The bracketed exception is proved for every even size by C171_zero_magnetisation and exhibited on two sites by C171_outside_fails. |
| C172 | Regularisation of the SR-RMSProp driver over the life of a driver | partial | Model/DriverHistory, Props/DriverHistory | events folded over the pair of average and step count; induction on the history gives the average of the gradients since the last restart and the count since the last reset; C46 then gives the weights. | Proved as long as the driver is not reset or restarted after its first step; for all histories the sum of the weights is given in closed form. Refuted after reset() (up to 1/(1-decay) times too large) and after a restart from a checkpoint (too small), since only one of average and step count starts again. |
| C173 | Repeated imaginary-time steps converge to the ground state | proved | Model/ImagTime, Props/ImagTimeConvergence | every run has the components C_k (1 - tau E_i)^k c_i in the basis of eigenstates; the ratios to the component of the ground state tend to zero. For positive Hamiltonians the existence and uniqueness of the positive ground state (Lemmas/Stoquastic) gives the overlap, and the diagonal bound gives both positivity and the bound on the spectrum. | Exact arithmetic and exact fits; errors of the fits are not covered. |
| C174 | Drivers that can be constructed can make steps | partial | Model/DriverSetup, Props/DriverSetup | the constructors are case distinctions over exceptions; the lengths of Jacobian, average and update follow from the numbers of real and complex parameters. | One rank (see C49 for the broadcast). Refuted for complex parameters in mode 'real', where no step can be made, and for minSR after a change of the number of samples, since the constructor fixes the chunk size of a state without one. |
| C175 | The systems of the scripts have the electrons of the configuration | partial | Model/Systems, Props/Systems | arithmetic of electron numbers with Python's floor division; case distinctions over the names. | Refuted for ions (n_elec of a molecule is only used for the spin), for half filling of an odd number of sites, and for Heisenberg models (see C79). PySCF's rule for electron numbers and spin is assumed. The autoregressive script returns None for unknown names. |
| C176 | Parallel runs neither hang nor diverge | partial | Spec/Parallel, Lemmas/Parallel, Model/Parallel, Props/Parallel | small-step semantics; invariant along a common history; programs that keep together are safe, programs stuck on an ended rank hang | An operational semantics of collective calls (Spec/Parallel) with all interleavings; minSR, both sampled states and the generalised linear fit are safe without conditions; the SR-RMSProp driver, the state fitting, the linear fits, get_molecular_system and the ab-initio runs are safe under the stated conditions, and each condition is shown necessary by a theorem that a process waits for ever (or raises without mpi4py). The collectives within NetKet are taken to be the same on all processes. |
| C177 | All processes of a training run work with the same files | partial | Spec/SharedFiles, Lemmas/SharedFiles, Model/SharedFiles, Props/SharedFiles | invariant: the directory is the effect of the root's completed actions, and a passed reduction has been entered by all; counting of the calls before the reading and writing actions; schedules for the races | A small-step semantics of processes with a shared directory, reductions and broadcasts (Spec/SharedFiles). The checkpoint is the same on all processes without conditions; the root always reads the old configuration and evaluates the last best parameters it wrote; the others do too if the last step wrote none. The two races are theorems with schedules. |
| C178 | Metropolis samplers with wave functions that vanish somewhere | partial | Spec/ZeroSampler, Model/ZeroSampler, Lemmas/ZeroSampler, Props/ZeroSampler | the accept probability computed for -inf and NaN; restriction of the chain to the support, to which the convergence theorem of C139 applies because a rejected move into a zero is a loop; a geometric argument for starts next to the support | The accept test in floating-point numbers with infinities and NaN; the chain agrees with the one of C137-C140 if there are no zeros. Convergence holds if single moves connect the support and the start is in the support or next to it; it is false otherwise, with witnesses, so the property without conditions is not provable. |
| C179 | Energies of wave functions that vanish somewhere | partial | Spec/ZeroEnergy, Model/ZeroEnergy, Lemmas/ZeroEnergy, Props/ZeroEnergy | the kernels commute with the embedding of complex numbers, because exp(-inf - a) is 0; they are affine in the ratios, so that the theorems for states without zeros (C07, C11, C14, C16) carry over by a mixture with the constant state; consistency by restriction of the chain to the support (C178) | The kernels of C07, C11, C14 and C16 once more over floating-point numbers with infinities and NaN (no rounding), connected amplitudes without fast updates. Partial because moves have to connect the support and the start has to be inside; outside the values are infinite or NaN (C179_zero_sample_fails) and the chain may stay there (C178). |
| C180 | Optimisation from a determinant in its own orbitals | partial | Spec/FrozenRun, Model/FrozenRun, Props/FrozenRun | the determinant has zeros at all other configurations (Cauchy-Binet is not needed, a row of the matrix vanishes); by C178 the chain is frozen; equal samples have zero centred energies, so that forces and updates vanish; induction over the loop with the theorems of C114 | The rows are right (C180_rows) and the progress is refuted for every run that starts at the reference configuration (C180_progress_fails). NetKet's estimators and SR are written down from their documentation; one process with one chain; no rounding, while orbitals converged by PySCF have small components in the virtual space. The Pfaffian references are not covered. |
| C181 | Exclusion process: maximising the energy gives the cumulant generating function | partial | Model/AsepTutorial, Lemmas/AsepMaximum, Props/AsepMaximum | Rayleigh quotients of the operator's entries. A positive right eigenvector (C168) that is not a left eigenvector can be improved along the residual of the transposed equation; one that is both bounds all quotients. For equal rates the equations at four configurations contradict each other. | False of the tutorial for every number of sites from two on and every non-zero counting field (C181_tutorial_fails); the exact condition is C181_iff. |
| C182 | Supervised fits: sweeps settle where no fit step improves | proved | Lemmas/SweepLimit, Props/SweepLimit | Each step minimises a quadratic objective in the parameters it changes, so it lowers the objective by at least half the penalty of the change; the changes are then square summable. At an accumulation point the minimality of the recurring steps passes to the limit by continuity. | Complex parameters without bias, without optimisation of the precisions and of the noise. |
| C183 | Updates from more and more samples tend to the exact update | proved | Spec/SampledUpdate, Lemmas/SampledUpdate, Lemmas/ChainFrequency, Props/SampledUpdate | On weights with the same zeros the kernel of the metric is the same, so that adding a fixed matrix that penalises the kernel makes it invertible; the solution of smallest norm is the product of this inverse with the force, hence continuous in the weights. The relative frequencies converge in probability by C144 (or C148) and a union bound over configurations and chains. | NetKet's Jacobian rows weighted as in C47; plain rows are covered by C47_plain_rows. |
| C184 | With enough samples the updates lower the energy | proved | Props/SampledDescent | The exact force is the gradient; its scalar product with the exact update is the variance of the change, which is positive unless the gradient vanishes, and stays positive in a neighbourhood; C183 bounds the probability to leave it. |  |
| C185 | Updates of VMC_SRRMSProp from more and more samples tend to an exact update and lower the energy | proved | Props/SampledRMSProp | By C49_unscaled the update solves the equation with the relative frequencies as weights and eps/N^2 as regulariser; matrix and right-hand side are continuous in the frequencies and 1/N^2, and the limiting matrix is invertible. Frequencies converge as in C183. | One process, mode complex. Where the exact equation is singular nothing is claimed (the regularisers of parameters without gradient vanish at rates that depend on the noise). |
| C186 | Options given to the training scripts | partial | Model/Options, Spec/Options, Lemmas/Options, Props/Options | A ConfigDict is a table of names and cells; flags write cells. Invariant over the statements: the last statement about an option is in its cell, and only references share cells. The expected value is an independent relation on the list of statements. | False for heisenberg2d with GPS, FilterGPS, MaskedGPS or MaskedFilterGPS: sampler.n_sweeps and system.Lx are one cell (C186_shared_fails), so --config.sampler.n_sweeps=n simulates an n x Ly lattice (C186_fails). Proved for every other configuration with every command line (C186_all_flags) and for heisenberg2d without a flag for the number of sweeps (C186_options_partial). References are modelled after the documentation of ml_collections (get_ref is two-way, an expression of it is not); types of fields are not modelled. |
| C187 | Bias of variances, gradients and metrics from direct samples | proved | Spec/Direct, Lemmas/Iid, Props/DirectBias | The law of a batch is a product (C148); the expected product of two averages is computed from it. The reported quantities are covariances over the batch (C163, C50). | Unique-sample states that keep fewer samples than they draw are biased in other ways (C141). |
| C188 | minSRVMC updates for autoregressive models | partial | Model/MinSR, Model/Autoreg, Props/AutoregDescent | Real parameters give non-negative amplitudes, so their logarithmic derivatives are real and derivatives vanish with the amplitudes; then C146. For complex parameters the update of a two-spin model is computed exactly (solution of smallest norm of C47) and the energy along it is written down. | Proved for real parameters; refuted for complex ones. |
| C189 | Supervised learning: the reported errors | partial | Model/SupervisedError, Props/SupervisedError | Predictions after any clean history are those of the parameters (C55); the sums over processes are sums over all data. | Log-space errors: proved where the phases, as numbers in (-pi, pi], differ by less than pi; refuted otherwise and for QGPSLogSpaceFit. |
| C190 | Padded connected elements of the fermionic Hamiltonians | partial | Model/Padded, Props/Padded | Rows of one sector have equal length (C12, C06), so the reshape by sections[0] cuts the flattened buffer at the right places. | Refuted for FermiHubbard without edges; proved otherwise. NetKet's get_conn_padded is not part of the repository; its reshape by sections[0] is an assumption of the model. |
| C191 | Which models are holomorphic functions of their parameters | proved | Props/Holomorphic | Differentiability of sums, products, determinants and Pfaffians; the maximum modulus principle for maps into a Hilbert space, applied to normalised amplitudes (C28). | Pfaffians: for the configurations with n up and n down electrons, wherever the model gives a number and not NaN (see C120). |
| C192 | What the shift of the SR-RMSProp optimisers interpolates between | proved | Props/ShiftLimits | The weighted shortest solution has D z in the range of the rows; the difference to the regularised solution is bounded by completing a square. |  |
| C193 | An optimisation that starts with real parameters stays real | proved | Model/Runs, Props/RealRuns | The solution of smallest norm of a real system is real; the regularised equation of SR-RMSProp decouples real from imaginary parts; amplitudes commute with conjugation, so derivatives at real parameters are real; induction over the steps. | optax's Sgd and NetKet's driver loop are modelled as theta - lr*update |
| C194 | Updates keep the balance between the sites of a qGPS | proved | Props/Balance | Scaling the parameters of a support point at either of two sites gives the same site products, so the weighted log-derivatives agree at all sites; all updates are combinations of conjugated rows. |  |
| C195 | The ansätze are contained in each other as advertised | proved | Props/Containment.lean (models: Autoreg, AutoregFull, AutoregPlaquette, QGPS, PlaquetteQGPS, CPDBackflow, Slater) | Explicit parameters: the packed triangle is filled with the parameters of the smaller autoregressive model (the factors of filter positions that show the same site are multiplied), plaquettes become support points with factor 1 outside, a constant orbital sits on the first site of the first support point. Equality of the conditionals gives equality of the log-amplitudes, whatever is done with them. | Amplitudes as returned by the models evaluated from scratch; that the cached evaluations agree with them is C01 and the properties of the individual models. |
| C196 | Hubbard models related by a change of signs, of electrons and holes or of the spins have the energies the textbook says | proved | Props/ParticleHole.lean, Lemmas/ParticleHole.lean, Spec/ParticleHole.lean (model: HubbardOnTheFly) | The exchange of electrons and holes on a set of modes with signs is a matrix that intertwines creation and annihilation operators up to signs counted in the Jordan-Wigner order; so it intertwines the hopping of every edge. Spin exchange is a permutation of the modes, as for lattice symmetries. C07 turns the matrix elements into the energies the code computes. | The relation between the two states is only asked for on the sector of the configuration. Amplitude sources are those of C07 (full evaluation, or a cache that is right at the configuration). |
| C197 | Size consistency: subsystems that do not interact contribute their energies, and the ansätze describe them together | proved | Props/SizeConsistency.lean (models: HubbardOnTheFly, J1J2, QGPS, AutoregFull, Slater) | A hop or bond within a block of consecutive sites gives the same term as in the block alone: the electrons passed over are those of the block, and the ratio of amplitudes is that of the block. Explicit parameters for the ansätze: factors 1 for the other subsystem; block-diagonal orbitals. | Local energies are taken from any amplitude source that works at the configuration (full evaluation or caches, as in C07 and C11). |
| C198 | The signs of molecular orbitals and the names of the spins are arbitrary | proved | Props/OrbitalSigns.lean (models: AbInitioOnTheFly, AbInitioSparse) | The diagonal matrix of the signs, and the permutation of the modes that exchanges the spins, intertwine the excitation operators of which the Hamiltonian consists (C13); C14 and C16 turn matrix elements into the computed energies. | That every state has a partner is C196_partner. |
| C199 | Supervised learning: predictions from the weights of a fit | partial | Model/AfterSetup, Props/AfterSetup | Model prediction_after_setup of both classes on top of the fit models; compare with the sum of features times updated parameters feature by feature; equivalence with a vanishing contribution of the prior mean for the refutation. | Proved for all data and options without a prior mean (QGPSLogSpaceFit without complex_expand, with and without a bias; QGPSGenLinMod with real and complex parameters). With a prior mean the code leaves its contribution out, exactly: the predictions are wrong for every datum to which it contributes. For complex QGPSLogSpaceFit learners with complex_expand the method always raises. Hypothesis: features that are ignored in the fit because of the cutoff of 1e-10 are zero on all data. |
| C200 | Heisenberg models: energies that are known exactly | proved | Lemmas/HeisenbergExact, Props/HeisenbergExact (model: ZeroEnergy.floatSpin, J1J2) | The local energy is the sum over the bonds of J (2 psi(exchanged)/psi - 1) (from C179/C11); of three spins two are equal, so the antisymmetric combination of the six permutations vanishes, which gives the cancellation of bonds at a singlet and, with the projector on cyclic invariance, the bound for triangles. | The bond matrices are those NetKet's Heisenberg operator stores (see C11); amplitudes are re-evaluated without fast updates (C34-C41 show that these agree). |
| C201 | Determinants solve electrons that do not interact | proved | Spec/FreeElectrons, Lemmas/FreeElectrons, Props/FreeElectrons, Props/FreeGround | One-body operators act on one orbital of a determinant at a time (C105 and the lemmas on spin projection), and a column that is a combination of the others gives the trace; the bound by the change to the basis of the orbitals, in which the hopping is diagonal | The amplitudes may vanish at connected configurations. No self-loops among the edges (C07). The output transformation is the sum. |
| C202 | How energies of the Hubbard model depend on the interaction | proved | Spec/Interaction, Props/Interaction, Props/FreeBracket | The interaction is diagonal in the configurations; a ground state at one interaction is a trial state at every other one; existence by compactness of the normalised states of a sector | Energies of states are those of the specified Hubbard Hamiltonian, whose rows and local energies the code computes (C04, C07, C143). |
| C203 | Density matrices give the response of energies to the integrals | proved | Spec/Response, Props/Response, Props/SavedEnergy | Local energies are contractions (C15); a ground state of one molecule is a trial state of every other one; existence by compactness | Energies of states are those of the specified molecular Hamiltonian, whose rows and local energies the code computes (C13, C14); what the local density matrices average to is C93. |
| C204 | How energies of J1-J2 models depend on the couplings | proved | Spec/SpinGround, Props/SpinResponse | Each bond contributes its coupling times the exchange of two spins (C200); a ground state at some couplings is a trial state at all others; existence by compactness | Without the sign rule, whose effect is C155. Amplitudes may vanish at connected configurations. |

## 5. Where the code departs from a property

Each item has a refutation in Lean unless it says otherwise.

* C02: without counts the sign window of `apply_hopping` is off by one.
* C06: with an empty edge list the Hubbard kernel leaves `sections` unwritten.
* C07: self-loop edges are counted differently by the on-the-fly local energy.
* C10: `is_hermitian` of the ASEP generator is wrong in both directions.
* C11: the on-the-fly local energy reads two-site matrices with the roles of the sites exchanged (harmless for exchange-invariant ones).
* C13: the ab-initio kernel needs `(pq|rs) = (rs|pq)`.
* C20: powers of a constrained fermionic space drop the electron numbers.
* C21, C22: the hopping rule leaves the space when a spin species is empty; its proposals are not symmetric for unbalanced neighbour
  tables.
* C32: unconstrained autoregressive qGPS of one, two and three sites do not have full support.
* C38, C39: padded (dummy) updates corrupt the cached configuration of the plaquette qGPS and the value of the CPD backflow.
* C42: singular matrices from size four on give NaN instead of minus infinity.
* C43: even kernel sizes of the PixelCNN look at the future.
* C45, C47, C49: complex averages in the on-the-fly RMSProp tensor; weighted samples, mode "complex" and the reported gradient of minSR;
  length of the broadcast buffer of the SR-RMSProp driver.
* C52, C66: non-positive time steps; samples not restored after an exception; nested imaginary-time states.
* C53: `select_largest=0` selects everything.
* C55: caches of the supervised learner go stale when an array it holds is overwritten in place.
* C56, C57, C72, C73: bias reset for weightless data; Newton step, reset of precisions, prior mean of the growing fit and re-evaluation
  of the generalised linear model without effect or with the wrong one; misaligned precisions; the caller's weightings multiplied in place;
  penalty of inactive features in the gradient only.
* C58: four models reject the arguments of fast updates they advertise; BackflowJastrow exchanges two arguments; SRDense raises with its
  default solver.
* C61: the rotation identity needs equal orbitals for both spins.
* C65: the general Pfaffian state sums over the batch.
* C67: coefficients of the antisymmetric qGPS are broadcast along the wrong axis.
* C69: eigenvalues below the cut-off.
* C77: on several processes the state-fitting gradient is the number of processes times the gradient of the reported loss.
* C78: the kind of the dtype given to the initialiser, not that of the parameter, decides about the distribution.
* C82: `log_marg_lik_alpha_der` is 1/alpha (or half of it) for features that do not occur in the data; the evidence does not depend on their precision.
* C83: `QGPSLearningExp.log_marg_lik_noise_der` adds the trace term that it should subtract (supervised_qgps.py:773-778).
* C84: `QGPSLogSpaceFit.log_marg_lik_noise_der` multiplies by -noise**2 in place of -1/noise**2, and uses the prediction of the parameters before the fit.
* C86: with weightings the update of the noise in `opt_alpha_beta` uses the sum of the weightings as number of data: for normalised weightings the noise becomes negative.  With `complex_expand`, `QGPSLogSpaceFit.prediction_after_setup` multiplies arrays of different shapes and raises, so `fit_step` fails with its default arguments.
* C87: `opt_alpha_beta` does not recompute the weights after its last update of the precisions.
* C88: `compute_sparsity_quantities` keeps only the real part of `Q` (supervised_qgps.py:915), and with `complex_expand` does not rescale it: an iteration can remove a feature and decrease the evidence.
* C92: for complex parameters `log_marg_lik_beta_der` contains the term of the Hessian twice (supervised_qgps.py:1687-1691): `log_marg_lik` has the factor 0.5 in front of the log-determinant.
* C91: reweighted least squares predicts with the old parameters of features that are cut off, although the update sets them to the prior mean.
* C93: the local two-body array is an estimator only after symmetrisation; single entries differ from the estimators of the operators with the same indices (rdms.py).
* C94: NetKet's `n_samples` is the total over all processes, and the script divides the mean over processes of the sums by it once more: with n processes the saved arrays are 1/n of the density matrices.  For complex states `.T` conjugates the one-body matrix in the correction of rdm2.
* C95: `spin_spin_correlation` is the correlation of the z components only for singlets; in general it is a third of the scalar product (two parallel spins: 1/12 in place of 1/4).
* C98, C99, C100: a restarted ARGPS run draws the samples of the first run again (the sampler is not checkpointed); rows of `metrics.csv` are repeated, its header is lost by a kill at the wrong moment, and so is `config.yaml`, which every start truncates.
* C101: `cpd_backflow/vmc.py` tests `initial_step < config.total_steps` where `<=` is needed: with `total_steps = 1`, or one step left, that step is not done; a restart in descent finishing skips one step number, so that labels and step counts differ and one step is missing at the end.
* C102: `best_params.mpack` pairs the energy of a step with the parameters after its update; it needs both energy and variance to fall; a kill while it is written makes every later start raise.
* C103: `VMC_SRRMSProp` is registered with `serialize_VMC`, which does not save the running average `_ema` (the functions written for it are not registered, and read a `preconditioner` that this driver does not have).
* C104: the timer divides the time of the first step by its number, which is wrong after a restart; in descent finishing the remaining time is negative and is printed as almost a day.
* C106: with generalised orbitals and different numbers of up and down electrons `get_hf_orbitals_from_file` writes the down block from column `n_elec[1]` on instead of `n_elec[0]`, which raises an exception; generalised orbitals cannot be combined with an exchange cutoff, nor with a restricted mean field for the Hubbard model.
* C107: `CPDBackflow` with environments announces fast updates (`apply_fast_update` is `True` by default) and refuses them, so that every energy evaluation of a model with exchange cutoff raises an exception.
* C108: the exchange matrix of local bases is transformed to the basis both when it is stored and when it is loaded; for the canonical basis it is not transformed at all.
* C109: `get_Hubbard_system` of the autoregressive script closes the chain even if `pbc` is `False`.
* C110: every setting that contains OBC closes the first direction.
* C112: `FilterGPS` always uses the translations and ignores the configured symmetries (`scripts/ARGPS/argps/models.py` lines 104-109).
* C113: `get_sampler` checks `config.model.normalize`, which no configuration sets and `get_model` does not read (it uses `"AR" in name`); so the direct sampler is accepted for `MaskedGPS` and `MaskedFilterGPS` and returns samples of the normalised model with the same parameters, not of the state.
* C115: in H2O.py, H50_1D.py and H4x4x4.py a kill between the row of a step and the next write of parameters.pickle loses the update, so the next row repeats the parameters.
* C116: in H2O.py and H50_1D.py a kill between the evaluation of an improvement and its row leaves best_pars.pickle truncated, or with parameters that no row reports; a truncated file stays truncated until the next improvement.
* C117: in the same scripts (i) the count of a restarted run is one too large, (ii) with exactly one row every restart ends with an IndexError, since genfromtxt returns a 1D array, (iii) a kill while parameters.pickle is written, or before its first write, makes every restart fail.
* C119: H4x4x4.py (i) started again within the first min_global_count rows ends at once if the best row is max_count rows ago, (ii) started again after the end continues if the best row is not among the first min_global_count — the condition is inverted — and (iii) keeps the initial parameters as best ones if the first row that counts remains the best.
* C122: with canonical orbitals (basis_type 1) the initial Pfaffian of H2O.py is NaN on every configuration with at least two pairs all of whose electrons are in virtual orbitals, where its amplitude is zero.
* C124: a kill while basis.npy, h2.npy or (backflow scripts) hf_orbitals.npy is being written makes the directory unusable: every later process raises an exception.
* C125: H2O.py, H4x4x4.py and the backflow scripts silently use the integrals found in the directory, also when they are started for another geometry; the argument for the basis is ignored if basis.npy exists.
* C126: exchange.npy truncated by a kill is not recomputed, since only its existence is tested.
* C131: VMC_SRRMSProp uses the array of local energies as it is, minSRVMC its transpose; whatever NetKet returns, one of them combines the log-derivatives of one sample with the local energy of another one if there are several chains of several samples.
* C132: the error of the mean reported by minSRVMC is divided by the root of the number of ranks instead of the number of samples.
* C133: configurations with vanishing amplitude but non-vanishing derivative are missing from the gradient (a property of the estimator).
* C134: `get_molecular_system` prunes integrals after the transformation to the chosen basis, so the pruned molecule depends on the basis.
* C135: For open-shell molecules `local-split` mixes singly occupied orbitals with empty ones (it separates the first `nelec//2` orbitals), so the Hartree-Fock state is not a single configuration.
* C136: `config.basis` values such as `local-pipek` are accepted and give Löwdin orbitals without localisation.
* C137: with the nearest-neighbour table of an open chain (accepted by the constructors) the sampler does not sample |psi|^2: even for equal amplitudes the uniform distribution is not stationary
* C138: hop_probability=0 never changes doubly occupied and empty sites, and a disconnected table never moves electrons between its components; both are accepted without warning
* C139: two sites, one electron, equal amplitudes: every step moves the electron, so with the default sweep of two steps the sampler returns its initial configuration forever
* C141: stopping at n_samples unique configurations biases the mean: the last configuration is always a new one, so rare configurations are over-represented
* C143: where an amplitude vanishes, a state that is not an eigenstate can have a reported variance of zero
* C144: one electron on two sites with constant |psi| and the default sweep of two steps always returns the starting configuration, so averages do not converge
* C146: minSR with real parameters and complex amplitudes (default mode complex) takes the real part of the complex solution, which need not be a descent direction: there is a state where every small step raises the energy
* C147: with unique samples of unequal weights minSRVMC's centring does not remove configuration-independent shifts of the log-derivatives, so a mere change of normalisation changes the update
* C83: with `iterative_noise_est` and `noise_reweighting`, the estimate of the noise ignores the reweighting but its derivative does not.
* C149: ARDirectSampler._sample_next squeezes axis 0 of an array of shape (n_chains_per_rank, 1, size), so sample_next raises whenever there is more than one chain per rank
* C150: SRRMSProp.__call__ evaluates step + 1 for every kind of shift, so the documented default step=None always raises TypeError, after the moving average has already been updated; a retry counts the gradient twice
* C151: assigning batch_size or max_sampling_steps of MCStateUniqueSamples, or calling sample(), does not invalidate the cached unique samples; the default batch size stays at the number of samples of the construction
* C152: random_state of the fermionic Hilbert space and the mini-batches of ARStateFitting draw from a key and split the same key afterwards
* C153: random states with given electron numbers hand on the first half of the split key, and MCStateStratifiedSampling does the same between batches and takes its key from the sampler's chain of first halves: batches overlap in all but one configuration, within an estimate and between estimates
* C155: get_J1_J2_Hamiltonian applies the sign rule by default; on lattices without a two-colouring (odd periodic chains, and the second neighbours of J2) the rule gives a different model, not a change of basis (whether NetKet rejects such calls is not modelled)
* C156: amplitudes symmetric without the fermionic signs (e.g. a symmetrised qGPS used alone for electrons) give local energies that differ between symmetry-related configurations (C156_without_signs_fails); determinant models get the signs right (C157).
* C157: ASymmqGPS with as many symmetry operations as determinants and different coefficients breaks the lattice symmetry it is given, because the coefficients are broadcast over the operations (C157_asymm_fails, cf. C67).
* C158: get_gauss_leg_elements_Sy(g) gives exact singlets only for fewer than 2 g electrons of each spin; nothing in the models checks this (C158_too_few_fails).
* C52: with a real model and a real Hamiltonian, log_imag_time_step returns NaN wherever the step changes the sign of an amplitude (C52_real_fails).
* C161: with complex parameters `ema` is the complex number re^2 + i im^2 and `mat_vec` takes its complex square root: the operator is not symmetric, although conjugate gradients are the default solver (C161_complex_average_fails).
* C162: ARqGPSModPhase(Full) does not pass the symmetries on to the phase qGPS, so a model given the translations is not translation symmetric (C162_symmetric_state_fails).
* C162: ARqGPSModPhaseFull overrides `__call__(self, inputs)` without `cache_intermediates`/`update_sites` but keeps `apply_fast_update = True`: local energies raise TypeError unless fast updates are switched off by hand (C162_default_full_fails).
* C164: minSRVMC with real parameters and complex amplitudes: the real part of the complex solution need not be the best approximation of the imaginary-time step; its negative can be better (C164_minSR_complex_fails).
* C89: `fit_step_growing_RVM` takes the feature 0 as soon as any feature occurs with weight below 2^-23 (supervised_qgps.py:1036-1037), even if the feature 0 does not occur; with `complex_expand` the precision of the first feature is not the one of the largest evidence.
* C167: A parameter whose weight in the data is positive but not above 1e-10 keeps its value while the step fits the others as if it were at the prior mean, so that a step can raise the error it minimises (C167_small_fails).
* C171: for complex parameters gpu_cond multiplies -inf by 1+0j, which makes the imaginary part NaN; the symmetrisation spreads it to the real part, so the log-amplitude of a configuration outside the constrained space is NaN instead of -inf. Amplitudes inside the space and the probabilities used for sampling are not affected.
* C172: VMC_SRRMSProp does not override reset(): the step count starts again but the running average is kept, so that the bias correction makes the regulariser up to 1/(1-decay) (ten) times too large in the following steps. A restart from a checkpoint does the opposite.
* C174: VMC_SRRMSProp accepts jacobian_mode='real' (or chooses it, if the output of the model is real) with complex parameters, but then the update has twice as many entries as there are parameters and unravelling it raises.
* C174: Constructing minSRVMC sets the chunk size of a state that had none to its present number of samples per rank; after state.n_samples is changed to a number that is not a multiple, every step raises.
* C175: build_molecule uses the configured n_elec only for the spin and passes no charge: a configuration for a dication silently gives the neutral molecule.
* C175: get_Hubbard_system, and get_FermiHubbard_system without n_elec, take sites//2 electrons of each spin: for an odd number of sites this is not half filling.
* C175: get_Heisenberg_system does not read the configured total_sz.
* C176: `VMC_SRRMSProp` in complex mode works on a single process only: `mpi_gather_jax` returns the array unchanged on all ranks but the root, so `O_L.reshape(-1, *O_L.shape[2:])` removes the sample axis there and `jnp.transpose(O_L, (1, 0, 2))` raises an exception, while the root waits in the gather for ever.
* C176: `ARStateFitting` on R processes with N configurations: if R does not divide N and the mini-batch is as large as the larger shards, `jax.random.choice(..., replace=False)` raises an exception on the ranks with the smaller shards, and the others wait in `mpi_mean` for ever.
* C176: `QGPSLearning.setup_fit_alpha_dep` broadcasts the weights and the matrix 'to ensure that each rank does the same update', but not the flag `cholesky` (`QGPSGenLinMod` does): if the factorisation fails on some ranks only, the ranks disagree about the flag, about what the broadcast matrix is, and, with `opt_noise`, about whether to compute the sums over all ranks.
* C176: Exceptions on the root only (`get_molecular_system`: charge and spin that do not fit, an unknown basis, a basis that is not orthonormal, a truncated `.npy` file; the ab-initio scripts: unreadable `parameters.pickle` or `out.txt`) leave the other ranks waiting in `bcast` for ever.
* C176: Without `mpi4py` (`_MPI_comm` is `None`) every linear supervised fit with an active element raises an exception: the broadcasts are not guarded, and the bare `except` around the first one only leads to the second.
* C177: When a run of the training scripts is continued on several processes (`--workdir` only), the root rewrites `config.yaml` as soon as the broadcast of the seed has returned, which does not wait for the other processes: a process that is late reads a truncated configuration and fails, and the others wait for it (`C177_config_fails`).
* C177: In `cpd_backflow/vmc.py` every process reads `best_params.mpack` after the last training step, but the root writes this file after the last reduction: if the last step is the best one, the other processes may read the earlier best parameters, so that the evaluation averages over different states, or read a truncated file and fail (`C177_evaluate_fails`).
* C178: The initial configurations are drawn without regard to the wave function. If its amplitude and those of all configurations proposed from it are zero, the accept test compares with NaN and the chain never moves: every sample then is a configuration of probability zero (`C178_zero_start_fails`).
* C178: If single moves do not connect the configurations of non-zero amplitude, the sampler only visits the part it starts in (`C178_disconnected_fails`).
* C178: `MetropolisFastHopping` with a determinant model never leaves an initial configuration of zero amplitude, even if proposals with non-zero amplitudes are at hand, because the cached inverse is that of a singular matrix; the plain sampler does leave it (`C178_inverse_fails`, `C178_enter`).
* C179: A sample of zero amplitude, which the samplers can return for ever (C178), has a local energy that is infinite or NaN, and so have the mean, the gradient and the next parameters (`C179_zero_sample_fails`).
* C180: With a determinant as reference and basis_type 1 (canonical) or 2 (split), H2O.py starts in a state with a single non-zero amplitude: the lines adding noise to the initial orbitals are commented out (H2O.py:220-237). In exact arithmetic the optimisation then never changes a parameter (`C180_progress_fails`) or has no numbers in its rows (`C180_elsewhere`); in floating-point arithmetic everything rests on the convergence errors of the orbitals.
* C181: The exclusion-process tutorial maximises the energy and compares it with the eigenvalue of largest real part. The operator with a counting field is not symmetric, and the maximum of the energy is the largest eigenvalue of its symmetric part, which is larger for the tutorial's rates, for every number of sites from two on.
* C186: the configuration heisenberg2d binds sampler.n_sweeps to system.Lx with get_ref, which is two-way: a flag for the number of sweeps changes the length of the lattice.
* C188: `minSRVMC` with the default (complex) parameters of a normalised autoregressive model can move uphill: the dense update of mode `complex` has complex entries for the real and for the imaginary parts of the parameters, and `reassemble` (minSR.py:213-221) adds `1j` times the second to the first without taking real parts. For a two-spin ARqGPS with total_sz = 0 every step against the update raises the energy.
* C189: `squared_error_log_space` subtracts principal logarithms: a prediction just below the negative real axis has an error of almost (2 pi)^2 relative to a target on it. For `QGPSLogSpaceFit`, whose `predict` returns log-amplitudes, it takes the logarithm of a logarithm.
* C190: `FermiHubbard` without edges cannot be used in `MCState.expect`: `sections` stays uninitialised. `AbInitioHamiltonian.get_conn_flattened` does not check the electron numbers of a batch: a batch of mixed sectors can be reshaped into rows belonging to other configurations.
* C199: prediction_after_setup() of QGPSLogSpaceFit and QGPSGenLinMod leaves out the contribution of prior_mean, and of QGPSLogSpaceFit with complex_expand and complex parameters always fails with a shape mismatch.
* C81: `QGPSLearningExp.log_marg_lik` raises for weighted data with zero amplitudes (shapes differ); `QGPSLogSpaceFit.log_marg_lik` omits the weightings in the square of the data.
* C79: `get_J1_J2_Hamiltonian(on_the_fly_en=True)` raises.
* Seen in the text, not modelled: `hilbert/random/discrete_asep.py` imports a class that does not exist; the ab-initio on-the-fly kernel computes an array size of -1 for empty or
  full spin shells; `StratifiedSampling` loops forever without a complement.

## 6. What is modelled and what is not

| file of `GPSKet/` | modelled | not modelled |
|---|---|---|
| operator/fermion.py | `apply_hopping` | |
| operator/hamiltonian/hubbard.py | constructor checks, kernels, on-the-fly local energy | Numba typing, padding utilities of NetKet |
| operator/hamiltonian/asep.py, operator/asep.py | kernel, `is_hermitian`, matrix of local operators | |
| operator/hamiltonian/J1J2.py | bond lists, local energy on the fly | NetKet's `LocalOperator` construction beyond its matrix elements |
| operator/hamiltonian/ab_initio.py | kernel, allocation, on-the-fly local energy and local RDMs | chunking, PySCF interface |
| operator/hamiltonian/ab_initio_sparse.py | sparse storage, local energy | as above |
| hilbert/discrete_fermion.py, hilbert/random/discrete_fermion.py | constraint, local states, `__pow__`, random states | caching of NetKet's index tables |
| hilbert/random/discrete_asep.py | | cannot be imported |
| sampler/rules/*, sampler/fermionic_hopping.py, sampler/metropolis_fast.py | transitions, proposal law, the loop with cached updates, counters | NetKet's sampler base classes |
| sampler/autoreg.py | `batch_choice`, the sampling loop, symmetry draw | key splitting |
| models/qGPS.py, plaquetteqGPS.py, segmented_qGPS.py | all of `__call__`, caches, symmetries | Flax module machinery |
| models/autoreg_qGPS.py, autoreg_qGPS_full.py, autoreg_plaquetteqGPS.py | conditionals, masks, constraints, caches, gauge | Flax machinery |
| models/slater.py, backflow.py, cpd_backflow.py, pfaffian.py, jastrow.py | amplitudes, fast updates, Pfaffian elimination and its derivative rule | numerical pivoting thresholds |
| models/asymm_qGPS.py, slater_qGPS.py, slater_jastrow.py, backflow_jastrow.py | composition, call signatures, coefficients | |
| models/pixelcnn.py, nn/causal_conv.py | masks, layers, normalisation | the convolution primitive beyond its index sets |
| nn/initializers.py | all | JAX's orthogonal initialiser (contract as hypothesis) |
| optimizer/* | geometric tensors, running averages, solvers, dense SR | pytree raveling except where lengths matter; NetKet's Jacobian (rescaling contract stated in the comments) |
| driver/minSR.py, VMC_SRRMSProp.py, abstract_state_fitting.py, autoreg_state_fitting.py | updates, assembly over processes, mini-batches, gradients | logging, the run loop of NetKet |
| vqs/mc/mc_state/state_unique_samples.py, state_stratified_sampling.py | sampling loops, weights, statistics | |
| vqs/mc/mc_state/expect.py | | hands over to NetKet's `expect`; no logic of its own |
| datasets/h2o.py | decoding, selection | download and file access |
| supervised/imag_time_step.py | all | |
| supervised/supervised_qgps.py | features, caches, precisions, log-space and exponential fits, marginal likelihoods and their derivatives, optimisation of precisions and noise, growing relevance vector machine, weights and derivatives of the generalised linear model | see the notes of C54–C57, C72–C74; line searches, SciPy's minimisers |

Scripts, tutorials and tests are not modelled, except the constraint functions of `scripts/ARGPS/argps/models.py` that C28 and C33 use, and the density matrices of `scripts/cpd-backflow/cpd_backflow/rdms.py` (C93, C94) and the correlations of `corrfunc.py` (C95, C96), and the training loops, work directories and timers of `scripts/ARGPS/argps/{vmc,utils}.py` and `scripts/cpd-backflow/cpd_backflow/{vmc,utils}.py` (C97 to C104), without their evaluation and logging of progress, and the construction of models in `scripts/cpd-backflow/cpd_backflow/models.py` (C106 to C108, C111), without the mean-field calculations, and the Hubbard systems of both scripts (C109, C110), and the construction of models and samplers in `scripts/ARGPS/argps/{models,samplers}.py` (C112, C113), and the optimisation loops of GPS_for_ab_initio/H2O.py, H50_1D.py and H4x4x4.py (C114-C119), and the reference states of GPS_for_ab_initio/H2O.py (C120-C122), and the files with integrals of GPS_for_ab_initio and cpd-backflow (C123-C127), and the density matrix of GPS_for_ab_initio/H4x4x4.py (C128), and the geometries and pruned integrals of the scripts (C129, C130), and the constraint functions of tutorials/autoreg_state_fitting_example.py (C33), and the collective calls of the ab-initio scripts and of `get_molecular_system` (C176), and the files that the processes of the training scripts share (C177), and the configurations of both scripts (C186).

## 7. Axioms of each theorem

`#print axioms` was run on all 966 theorems named in `MANIFEST.json`.  All depend on exactly `propext`, `Classical.choice` and `Quot.sound`, except these, which depend on less:

* `GPSKet.C04_constructor`: propext, Quot.sound
* `GPSKet.C17_one`: propext, Quot.sound
* `GPSKet.C18_first_wins`: propext, Quot.sound
* `GPSKet.C20_pow_fails`: propext
* `GPSKet.Props.masks_hide`: none
* `GPSKet.C35_inverse`: propext, Quot.sound
* `GPSKet.Props.C40_injective`: propext, Quot.sound
* `GPSKet.Seg.C44_unconstrained`: propext
* `GPSKet.Props.C49_broadcast_lengths`: propext
* `GPSKet.Props.C49_broadcast_fails`: none
* `GPSKet.Props.C51_outside_deterministic_set`: propext, Quot.sound
* `GPSKet.Props.C51_random_samples`: propext, Quot.sound
* `GPSKet.H2O.C53_select_zero`: propext
* `GPSKet.GenLin.C57_minimise_partial`: propext, Quot.sound
* `GPSKet.GenLin.C57_newton_fails`: propext, Quot.sound
* `GPSKet.GenLin.C57_reevaluation_fails`: propext, Quot.sound
* `GPSKet.GenLin.C57_growing_fails`: propext, Quot.sound
* `GPSKet.GenLin.C57_growing_zero`: propext, Quot.sound
* `GPSKet.SupervisedAlpha.C57_alpha_site`: propext, Quot.sound
* `GPSKet.Composite.C58_calls_partial`: propext
* `GPSKet.Composite.C58_calls_fails`: propext
* `GPSKet.StateFitting.C75`: propext, Quot.sound
* `GPSKet.StateFitting.C76_reset`: propext
* `GPSKet.StateFitting.C76_steps`: propext, Quot.sound
* `GPSKet.ArgpsRun.C97_checkpoints`: propext, Quot.sound
* `GPSKet.ArgpsRun.C97_finished`: propext, Quot.sound
* `GPSKet.ArgpsRun.C97_completes`: propext, Quot.sound
* `GPSKet.ArgpsRun.C98_partial`: propext, Quot.sound
* `GPSKet.ArgpsRun.C98_fails`: propext
* `GPSKet.ArgpsRun.C99_rows_fails`: propext
* `GPSKet.ArgpsRun.C99_header_fails`: propext
* `GPSKet.ArgpsRun.C100_saved`: propext, Quot.sound
* `GPSKet.ArgpsRun.C100_partial`: propext, Quot.sound
* `GPSKet.ArgpsRun.C100_fails`: propext
* `GPSKet.BackflowRun.C101_partial`: propext, Quot.sound
* `GPSKet.BackflowRun.C101_labels`: propext, Quot.sound
* `GPSKet.BackflowRun.C101_exceptions`: propext, Quot.sound
* `GPSKet.BackflowRun.C101_fails`: propext
* `GPSKet.BackflowRun.C102_partial`: propext
* `GPSKet.BackflowRun.C102_exists`: propext
* `GPSKet.BackflowRun.C102_parameters_fails`: propext
* `GPSKet.BackflowRun.C102_energy_fails`: propext
* `GPSKet.BackflowRun.C102_torn_fails`: propext
* `GPSKet.BackflowRun.C103_partial`: propext, Quot.sound
* `GPSKet.BackflowScript.C108_zero`: propext
* `GPSKet.AbInitioRun.C115_fails`: propext, Quot.sound
* `GPSKet.AbInitioRun.C116_fails`: propext, Quot.sound
* `GPSKet.AbInitioRun.C116_fails_unlogged`: propext, Quot.sound
* `GPSKet.AbInitioRun.C117_stuck`: propext
* `GPSKet.AbInitioRun.C117_fails_unreadable`: propext, Quot.sound
* `GPSKet.AbInitioRun.C117_fails_one_row`: propext, Quot.sound
* `GPSKet.Integrals.C123`: propext
* `GPSKet.Integrals.C123_same`: propext
* `GPSKet.Integrals.C124_partial`: propext, Quot.sound
* `GPSKet.Integrals.C124_stuck`: propext
* `GPSKet.Integrals.C124_fails`: propext
* `GPSKet.Integrals.C124_fails_h2`: propext
* `GPSKet.Integrals.C125_partial`: propext
* `GPSKet.Integrals.C125_fails`: propext
* `GPSKet.Integrals.C125_fails_basis`: propext
* `GPSKet.Integrals.C126_partial`: propext
* `GPSKet.Integrals.C126_fails`: propext
* `GPSKet.Integrals.C127`: propext, Quot.sound
* `GPSKet.UniqueCache.C151_current_partial`: propext
* `GPSKet.UniqueCache.C151_settings`: propext, Quot.sound
* `GPSKet.UniqueCache.C151_same_samples`: propext, Quot.sound
* `GPSKet.UniqueCache.C151_fresh`: propext, Quot.sound
* `GPSKet.UniqueCache.C151_fails`: propext
* `GPSKet.Keys.C152_random_state_fails`: propext, Quot.sound
* `GPSKet.Keys.C152_fitting_fails`: propext, Quot.sound
* `GPSKet.ModPhase.C162_local_energy_calls`: none
* `GPSKet.ModPhase.C162_default_full_fails`: none
* `GPSKet.DriverSetup.C174_hash`: propext, Quot.sound
* `GPSKet.DriverSetup.C174_minsr_first`: propext, Quot.sound
* `GPSKet.DriverSetup.C174_minsr_chunks`: propext, Quot.sound
* `GPSKet.DriverSetup.C174_minsr_resize_fails`: propext, Quot.sound
* `GPSKet.Systems.C175_hubbard`: none
* `GPSKet.Systems.C175_half_filling_partial`: propext, Quot.sound
* `GPSKet.Systems.C175_names`: propext
* `GPSKet.SharedFiles.C177_config_fails`: propext
* `GPSKet.SharedFiles.C177_evaluate_fails`: propext

No axiom is declared in `lean/Verif`; there is no `sorry`, `admit`, `native_decide` or `bv_decide`.
