# Formal model of bayesmix in Lean 4: design

The source in `/repo` is read as text; nothing of it is compiled or run.  The
Lean development in `lean/Verif` contains a hand-written model of parts of it,
a small specification for each property in `properties.jsonl`, and proofs.

## Trusted base

* Lean 4.33.0's kernel, and Mathlib as installed.
* Axioms: at most `propext`, `Classical.choice`, `Quot.sound`
  (`Verif/Axioms.lean` prints them for each property theorem during the build).
  No axiom is added, there is no `sorry`, `native_decide` or `bv_decide`.
* The reading of the C++ text.  Each definition cites file and lines.
* The documented meaning of the Stan Math and Eigen functions the code calls, none
  of which are in `/repo`: log densities (`Hier/Dist.lean`, checked against
  Mathlib's densities where Mathlib has them), argument checks that throw,
  `cov_matrix_free`/`cov_matrix_constrain` (`Hier/Uncon.lean`), and Cholesky
  factors (`Hier/Chol.lean`, existence and uniqueness proved).
* C++ language facts used in the reading: an out-of-range `operator[]`, a read
  of an uninitialised variable, a failed `assert` are *faults* in the model
  (`Fault.ub`, `Fault.assertFail`), distinct from a thrown exception
  (`Fault.throw`), from a loop that has not ended within its fuel
  (`Fault.outOfFuel`) and from normal results.

## Modelling conventions

* **Randomness.**  Each random draw is a value taken from an arbitrary stream.
  A categorical draw over `k` outcomes is `r % k` for an arbitrary natural `r`:
  every outcome `0..k-1` and nothing else can happen (and `k = 0` is a fault).
  Theorems quantify over all streams, so they hold for every RNG, seed and
  weight vector.  That the right *probabilities* are passed to the draw is the
  subject of separate, real-valued theorems.  Where the claim is about a law,
  a draw with finitely many outcomes is the list of its outcomes with their
  probabilities (`Algo/CondAlloc.lean`), and a draw of a value is a measure
  on the values (`Hier/NigLaw.lean`, `Hier/GaussLaw.lean`).
* **Numbers.**  Densities, masses, hyperparameters are exact reals (`ℝ`), not
  IEEE doubles.  Rounding, overflow and NaN are not modelled.  Cardinalities are
  integers; indexes are naturals; `int` overflow is not modelled.
* **Aliasing.**  Hyperparameters and prior messages shared through
  `std::shared_ptr` by clones are modelled as one global cell where aliasing
  matters (C05, C06, C40).
* **Faults.**  A function that can fault returns `Except Fault α`; a theorem
  "the sweep is safe" says that the result is `.ok` of a consistent state.  The functions that a
  hierarchy supplies to the algorithms (`Env`) return values and never throw; hierarchies in which
  they throw are the subject of C79 (hyperprior updates) and C146 (updaters).

## Not modelled

Protobuf's encoding of message *bodies* (bodies are opaque byte strings; only
the length-delimited framing is modelled), the file system beyond "a file is a
sequence of bytes" (for the wrappers: a string), Eigen's memory layout beyond indexes, stan-math's samplers,
threads of the OS (the parallel loops are modelled by any order of
execution of independent slots), the R package beyond `run_mcmc` and the chain reader, CMake and
plotting back ends (modelled are the numbers handed to them).
The split-merge sampler passes no covariates to its hierarchies (Neal's samplers
do), so its model is only meaningful for hierarchies without covariates.

## Plan per property

| Id | What is modelled | How it is proved |
|---|---|---|
| C01,C02,C03,C04 | `BaseLikelihood::add/remove_datum`, `BaseHierarchy::clone`, `remove_singleton`, `sample_allocations` of Neal2/3/8, one iteration | invariant by induction on the observations of a sweep and on iterations; faults shown impossible; the n = 1 and n_aux = 0 defects proved as theorems |
| C05,C06 | updater cache (`saved_posterior_hypers`) inside the same objects, posterior update as a parameter | invariant relating cache and members; counterexample for the initial object |
| C07 | blocked Gibbs sweep on the same objects | invariant |
| C08 | slice sampler iteration, sticks as reals | invariant + inequality on remaining mass |
| C09-C11 | split-merge functions on the same objects | invariant, explicit before/after partitions |
| C12,C13 | `BaseAlgorithm::initialize` | decision table + invariant; defects as theorems |
| C14 | `BaseAlgorithm::run` | induction on the loop |
| C15,C16,C21 | memory collector | refinement to (list, cursor) |
| C17 | file collector with chunked buffer | refinement to (list, cursor) for each chunk size |
| C18-C20 | varint framing on byte lists, C++ and Python decoders | round trip + prefix theorem for each cut |
| C22-C24 | `eval_lpdf*` over an abstract collector | list equalities; permutation counterexample |
| C25-C29 | mixing masses over ℝ | field algebra, induction on cluster lists; EPPF product formula |
| C30-C33 | stick-breaking over ℝ | induction on sticks |
| C34 | add/remove on an additive group of statistics, instances for each likelihood | invariant / algebra |
| C35-C39,C44 | hyperparameter updates, densities over ℝ with Mathlib's Gamma and matrices | algebra, induction on data |
| C40 | clone/deep_clone with a heap of hyperparameter cells | refinement |
| C41,C42 | state messages, log/exp and Cholesky round trips | algebra |
| C43 | acceptance rule, law of the state after a draw | detailed balance identity, counterexample; the operator of a draw is self-adjoint for the likelihood, a density that it keeps has truncations that it keeps, so the prior is flat |
| C45 | FA state with derived fields | invariant counterexample |
| C46-C52 | utilities on lists/arrays | list lemmas |
| C53 | factory as association list | refinement to a partial map |
| C54, C84 | `marginalLpdf`, `conditionalLpdf` (`Algo/Density.lean`) vs mixtures of densities | log-sum-exp identity; weights from C25-C30; integrals |
| C55 | `neal3Probas` (`Algo/Gibbs.lean`) vs the posterior over partitions | product-form weights, exactly one choice per partition, equal normalizers before and after |
| C56-C58, C85-C87 | semi-HDP sampler: `initialize`, `step`, `run`, state message (`Algo/SemiHdp*.lean`) | invariant through the six sub-steps, induction on iterations; counterexamples |
| C88-C92 | semi-HDP weights and counts (`Algo/SemiHdpWeights.lean`) | bounds on floors of logarithms; Beta and Dirichlet updates; counterexamples |
| C93 | `neal8Probas` (`Algo/GibbsVals.lean`), auxiliary values as independent draws of a probability measure | reversibility of choosing from exchangeable offers; factorization of the joint density over places; mixtures of finite mixtures in `Algo/PropsGibbsMore.lean` |
| C94 | `neal2Probas`, laws of the values as measures (`Hier/NigLaw.lean`) | Bayes' rule for one row as an identity of measures; normalization of the Normal-inverse-Gamma density; the linear regression in `Algo/PropsGibbsMore.lean`; `Algo/PropsGibbsMulti.lean`: the update is right only if the marginal is the integral of the likelihood |
| C95 | `Like.lean`, `Conj.lean`, `FA.lean` log densities | Lebesgue integrals: Gaussian by the Cholesky factor, inverse Gamma by inversion, Wishart by induction on the dimension with the Schur complement (`SymCoord`, `Border`, `WishartLaw`) |
| C96 | `nnigMargLpdf`, `linRegMargLpdf`, `nnwMargLpdf` | Bayes' rule of C35, C37, C73 integrated with the normalizations of C95; the t density also as a Gamma mixture of Normal densities; `Hier/NwLaw.lean`: law of mean and precision as a measure, Cholesky factors depend measurably on the matrix; `Hier/PropsNwLaw.lean`: det(LᵀL + λLLᵀ) > det((1+λ)LLᵀ) in dimension two |
| C97 | `Like.lean`, `nwSample`, `FA.lean` | moments of the Normal and Laplace densities; the multivariate ones by the affine map of the Cholesky factor (`Hier/MomentLemmas.lean`) |
| C98 | `Algo/CondAlloc.lean`: `blockedLaw` | the law of a sweep as a list of outcomes with probabilities; a sweep over independent rows has the product law (`Algo/CondLemmas.lean`) |
| C99 | `Algo/CondAlloc.lean`: `sliceLaw` | levels integrated over the unit cube, the product law given the levels, and a substitution in each row |
| C100 | `Algo/BlockedIter.lean`: `blockedRest`; `Algo/BlockedKernel.lean` | the laws of the draws of an iteration are read off the code (C98, C71, C06); conjugacy in each component and Beta conjugacy in each stick give products of conditional laws; a test function and Gaussian integrals refute invariance with a hyperprior |
| C101 | `Algo/Neal3Chain.lean`: `neal3Row`, `neal3Iter`, `neal3Chain`; `Algo/FinChain.lean` | C55 makes the update of a row a Gibbs kernel on the finite set of partitions; a sweep reaches every partition, so its matrix is positive; Doeblin's bound gives the rate; conjugacy gives the integrated likelihoods (`Algo/PropsNeal3Multi.lean`: Normal-Wishart) |
| C102 | `Algo/Neal3Avg.lean`: `neal3Run`; `Algo/FinChainAvg.lean` | second moment of the sum along the chain by recursion, bounded with C101's contraction; Chebyshev's inequality |
| C103, C104 | `Utils/Plots.lean`: `toMesh`, `numClusBar` | loop invariants over tables; shape invariant for the converse |
| C105 | `Utils/Wrappers.lean`: `Prints5`, `ReadsFloat` | nearest multiples and nearest floats, ties left open |
| C106, C107, C108 | `Utils/Wrappers.lean`: `pyRun`, `rRun`, `loadtxtShape` | file systems as functions, the program an arbitrary function of arguments and files |
| C109, C110 | `Algo/BlockedRun.lean`: `iterMean`, `sumMean`; `Algo/BlockedStart.lean`: `blockedInit`; `Algo/BlockedConv.lean` | means over all draws of an iteration of the code are those of a kernel that depends on the state through the labels drawn only; its matrix on labels is positive, so Doeblin's bound (`Algo/FinChain.lean`) gives the rate; covariances decay geometrically and Chebyshev's inequality gives the averages; initialization is run to get its saved hyperparameters |
| C111 | `Hier/MixDistMulti.lean` | the product of two normal densities is a normal density times a constant (completing the square with the parallel sum of the precisions), integrated with C95 |
| C112 | `Utils/TruncBeta.lean` | the distribution function is continuous and strictly increasing on the unit interval; the quantile function is any inverse of it |
| C113 | `Algo/PartKernel.lean`, `PartState.lean`, `Neal2Run.lean`, `PartValues.lean`, `SpotConv.lean`, `PropsNeal2Chain.lean` | the state is read as partition, values of the rows and rows of clusters with stored hyperparameters; means over all draws of an iteration are an operator on functions of these; drawing the values anew makes the chain a finite one on partitions and marks, and the partition into single rows without marks is reached from everywhere in one sweep |
| C114 | same | each row update draws from the conditional law (C94), the posterior arranged by partitions of the other rows is invariant |
| C115, C116 | `Algo/Neal8Op.lean`, `Neal8Run.lean`, `Neal8Iter.lean`, `PropsNeal8Chain.lean` | given the auxiliary values a row update is that of C113 with their empirical law in place of the prior; the auxiliary values and the new one are exchangeable, so the mean over them keeps the target; the rest as for C113 |
| C117 | `Algo/Predictive.lean`, `DensRun.lean`, `PredTwo.lean`, `PropsPredictive.lean` | partitions of one more row are a partition and a choice of a block or none; the weights of `lpdf_from_state` (C54) are the conditional prior probabilities of the choice; values of clusters are integrated, so that the unbounded density becomes a bounded function on partitions, and C113, C115 apply |
| C118 | `Algo/DiscAvg.lean`, `DiscDraw.lean`, `AvgRun.lean`, `PropsAverage.lean` | second moment of the centered sum over a chain with finitely many places, by induction over the steps with the mean of the sum as correction; draws used by estimates become part of the values; conjugacy gives densities all moments |
| C119 | `Algo/Neal3Mean.lean`, `PropsNeal3Density.lean` | the values stored by Neal3 are drawn after the sweep from the conditional law, so each iteration is a step of the partition chain followed by independent draws; the limits follow from convergence of the partition alone, for functions with finite means; averages by the bound for C118 |
| C120-C124 | `Program/Argparse.lean`, `Main.lean`, `ArgLemmas.lean`, `MainLemmas.lean`, `PropsProgram.lean`, `PropsPython.lean` | the parser state after options and values is a function of them, and every accepted command line has that form; `main` as a program on file systems with messages, sampler and densities arbitrary; a frame rule for files that are not outputs, inversion of runs that end well stage by stage |
| C125, C63 violation | `Mixing/Trunc.lean`, `PropsTrunc.lean` | the last term is at most 1e-8 of the sum and later ones at least halve, so the tail is bounded by a geometric series; for the violations the loop is unfolded to exactly two terms |
| C126 | `Example/Gamma.lean`, `PropsGamma.lean`: the hierarchy of `examples/gamma_hierarchy` | a `Conjugate` instance, then the convergence theorems for Neal8 with the initialization of the example's program |
| C127 | `Mixing/Serial.lean`, `Hier/HyperSerial.lean`: messages of mixings and hyperparameters | an object is what its queries answer: source and restored object agree on all queries, or a query that differs is exhibited |
| C128 | `Hier/HyperSerial.lean`: `set_fa_hyperparams_from_data` | the scales are characterised by minimisation (`inv_diag_least`), not by the inverse; their lack of effect by equality of later states and draws |
| C129 | `Algo/SMLaw.lean` (laws of the draws of split-merge), `Algo/SMLawLemmas.lean`, `Algo/SMKernel.lean`, `Algo/SMChain.lean`, `Algo/SMThree.lean` | the limit is `mixPosterior`, prior of the partition times integrals of likelihoods; probabilities are of partitions (`Setoid (Fin n)`), not of labels |
| C130 | `Utils/Wrappers.lean` | the program is an arbitrary function of arguments and files; `Starts` fixes what it is given by what the call does with every program |
| C131 | `Algo/SMAvg.lean` (the loop of `run` with burn-in) | bound on the error probability for all functions of the partition, with the mean under `mixPosterior` |
| C132 | `Algo/MassRun.lean` (the update of a row with `get_cluster_prior_mass`, mutable members included) | the run with masses beside the run without; a sweep that puts each row alone in turn |
| C133 | `Algo/SemiHdpMoves.lean` (`update_rest_allocs`, `lpdf_for_group`, `_compute_mixture_distance` with the probabilities of the draws) | detailed balance for symmetric proposals; three restaurants as counterexample |
| C134 | `Algo/SemiHdpPseudo.lean` (`sample_pseudo_prior`, `perturb`) | sums of counts; gives the hypothesis on the pseudo-prior that C85 has |
| C135 | `Algo/SemiHdpPseudo.lean` (`get_state_as_proto` with the types of its messages) | the collected states of C85 have tables |
| C136 | `Collect/RReader.lean`: positions in a raw vector, 32-bit `bitops` | the decoder inverts the varint by induction on its bytes; the loop by induction on the messages |
| C137 | `Program/Plot.lean`: `plot_mcmc` on command line and file system | the blocks are run one after the other on files that C51 reads back; the mean does not depend on the order of the rows; C103, C104 |
| C138 | `Algo/MeanHyper.lean`: the update of the hyperparameters as an operator on partition, values and mean; Normal draws as a law on seeds | at a fixed mean the sweep and the values keep the conditional posterior (C115, C114 operators); the values handed to the update are one per block; the base measures at all means have densities with respect to the one at mean zero, so the mean can be disintegrated; summed over partitions. Violation for total mass other than one: the two priors differ by a power of the mass in the number of blocks, and all rows can be alone after an iteration, so one function cannot have both means kept |
| C139 | `Algo/TotalMass.lean`: the mean of a function of the total mass after an update, with laws for the two generators | the probability of the labels is a power of the mass times a Beta function; the pair of mass and auxiliary variable has a density whose conditionals are a Beta distribution and the mixture of two Gamma distributions in the code; the tail of a Gamma distribution with shape above one is at least that of the exponential one |
| C140 | `Algo/BlockedDens.lean`, `Algo/BlockedDensTail.lean`, `Algo/PropsBlockedDens.lean` | `conditionalAt` is `lpdf_from_state` on a state of the run; its mean given the labels is the mixture of predictive densities (`condMean_pred`), so the matrix on labellings of C109 governs it although it is unbounded; tails of the predictive density show that the limit from initialize is not the posterior predictive density |
| C141 | `Algo/BlockedDensAvg.lean`, `Algo/PropsBlockedAvg.lean`: the run of C118 with the iteration of blocked Gibbs | a density with a finite mean is a bounded function plus one with a small mean; the sum of the bounded part over a run is that of C110, the mean of the rest is small after every step |
| C142 | `Algo/SMMass.lean`: split-merge with masses asked from the mixing (`MixOps`), whose table may be missing or too short | wherever the mixing answers, the iteration is the one with these numbers (`stepM_follow`); a move depends on a new mixing object only through its answer to the first question (`mhUpdateM_swap`, `mhUpdateM_error`) |
| C143 | slice sampler iteration with `infinite_mixture` false | with the last component in use the last stick is one and the loop does not start; otherwise draws are given for each number of components |
| C144 | `initialize` of the five mixings | accepted parameters against predictive probabilities of all partitions, and against the domains of the Beta and normal distributions |
| C59 | Woodbury | Mathlib matrix inverse and determinant lemmas |
| C60 | hyperprior updates | algebra / counterexample |
| C61 | file collector counters | algebra / counterexample |
| C62 | output loops of `run_mcmc.cc` | composition of C22-C24 lemmas; counterexample |
| C63 | coefficient series of the finite mixture (`Mixing/Series.lean`) | recursion of the exact series, product form |
| C64 | coefficient table as mutable state | invariant on the table, counterexample |
| C65,C66 | full conditional, gradient and acceptance ratio of the logit stick-breaking update | derivative along lines, algebra, counterexample |
| C67 | total mass update | inequalities; draws for which it throws |
| C68 | one re-allocation inside a sweep (`Alloc/PropsMoves.lean`) | before/after description of labels and cluster values; reachability of each option |
| C69 | `update_hypers` step of each sampler | the argument is exactly the list of occupied clusters' states |
| C70 | initial labels and draws | description of both loops; the last cluster's missing draw as a theorem |
| C71 | stick and total mass draws | the Beta parameters passed to the generator, as functions of the counts |
| C72 | `draw` of the semi-conjugate updater | the arguments handed to the generators; witness |
| C73 | Normal-Wishart densities over matrices of any dimension | matrix determinant lemma, Cholesky specification |
| C74 | Normal likelihood through the stored Cholesky factor | exact condition on the factor; witness |
| C75 | derivative of the constraining maps | Fréchet derivative and determinant; the multivariate function always throws |
| C76 | Metropolis updaters of the Laplace hierarchy | every execution with the Langevin updater throws, none with the random walk |
| C145 | `lpdf_from_unconstrained` of the prior models | change of variables between states and unconstrained coordinates |
| C146 | iterations with updaters whose draws may throw (`neal8StepE`, `blockedStepE`, `sliceStepE`), Laplace hierarchy | runs from initialization, for all noise |
| C147 | `initialize_hypers` of the prior models | integrals of the kernels, over vectors and symmetric matrices |
| C148 | `Program/Build.lean`: `build_bayesmix` of both packages, the file of variables, processes | induction over sequences of events |
| C149 | `Mixing/LogitUpdate.lean`: `LogitSBMixing::update_state` with its random numbers | flows into and out of a value, continuity, Gaussian integrals, a scaled ball |
| C150 | `Algo/HyperLaw.lean`: hyperparameters from their prior, values given them, `NIGPriorModel::update_hypers` | second moments of the new mean given the variances; disintegration for the Normal prior |
| C151 | `Algo/SemiConjLaw.lean`: likelihood times prior of a cluster as a measure, `SemiConjugateUpdater::draw` with random generators | if the law were kept, the conditional second moment of the mean would not depend on the variance; Tonelli for the product law; positive transition densities for its uniqueness (`Algo/PositiveKernel.lean`) |
| C152 | `Algo/PropsBlockedLs.lean`: the iteration of blocked Gibbs with `SemiConjugateUpdater::draw` for each component | functions that vanish unless all rows are in the first component turn the posterior of the chain into that of one cluster; then C151 |
| C153 | `Algo/PropsNeal8Ls.lean`: the iteration of Neal8 with `SemiConjugateUpdater::draw` for each cluster | as C152 with functions that vanish unless all rows are together; the sweep is monotone, so the draw is bounded by measurable functions that differ from it only where a variance is not positive |
| C154 | `Algo/PropsNggIter.lean`: iterations of Neal2 and Neal8 with `NIGPriorModel::update_hypers` for the Normal-Gamma-Gamma prior | allocations and values keep the posterior for fixed hyperparameters; functions that vanish unless all rows are together, divided by the likelihood, reduce the rest to C150 with one cluster |
| C155 | `Algo/PropsBlockedNgg.lean`: the iteration of blocked Gibbs with `NIGPriorModel::update_hypers` for the Normal-Gamma-Gamma prior | as C154 with functions that vanish unless all rows are in one component |
| C156 | `Algo/PropsNeal3Hyper.lean`: the iteration of Neal3 followed by `NIGPriorModel::update_hypers` for the Normal prior on the mean | states in which all clusters hold posterior hyperparameters, as in `Neal3Mean.lean`; `Neal3Ok.keeps` is stationarity with fixed hyperparameters |
| C77 | factor-analytic Gibbs blocks | completing squares; exact conditions where the code is off |
| C78 | multivariate normal generators | characteristic functions, Mathlib's `multivariateGaussian` |
| C79 | `initialize_hypers`, `update_hypers` | induction on rounds; checks of the generators modelled |
| C80 | `gaussian_mixture_dist` | Gaussian product integral |
| C81 | prior models' `sample` and `lpdf` | parameters of each generator call, chain rule |
| C82 | `SemiConjugateUpdater::draw` | C81 with the Bayes rules C35, C37, C73 and one for Gamma-Gamma |
| C83 | launch, final scan, ratios, proposal of split-merge; `Mixing/SeriesMono.lean` | posterior in closed form (C29), chain of predictive densities, opposite rates; for finite mixtures the quotients of neighbouring coefficients grow with the number of clusters and fall with the number of rows (Chebyshev's sum inequality on the series) |

## Code that disagrees with the properties

Each item is proved in Lean with a general or concrete witness.

| Property | Disagreement | Theorem |
|---|---|---|
| C02 | Neal8 with zero auxiliary blocks draws from an empty vector | `c02_no_aux_is_ub` |
| C03 | Neal2/3 with a single row erase the last cluster, then read cluster 0 | `c03_single_row_is_ub` |
| C05 | the initial hierarchy object ignores its data when drawing in Neal2/8 | `c05_neal2_violated` |
| C06 | cached posterior hyperparameters go stale under a hyperprior | `c06_violated_with_hyperprior` |
| C12 | more initial clusters than rows reads rows that do not exist; a second `initialize` fails | `c12_too_many_clusters_is_ub`, `c12_second_initialize_throws` |
| C16, C17, C20, C22, C23 | collectors and evaluation at degenerate sizes (see theorem comments) | `c16_*`, `c17_*`, `c20_*`, `c22_empty_chain_is_ub`, `c23_zero_chunk_never_ends` |
| C24, C62 | parallel density evaluation with several jobs permutes the rows | `c24_full_memory_violated`, `c62_run_mcmc_outputs_violated` |
| C26 | the log mass of a new cluster of the DP is always that of total mass one while sampling | `c26_dirichlet_log_mass_violated` |
| C28 | finite mixture with as many clusters as data reads its table out of bounds | `c28_finite_mixture_violated` |
| C30 | initial truncated stick-breaking weights sum to less than one | `c30_initial_weights_violated` |
| C32 | accepted priors with non-positive Beta parameters | `c32_shape_parameters_violated` |
| C33 | logit stick-breaking weights sum to less than one | `c33_logit_weights_violated` |
| C61 | a reused or reopened file collector reports a wrong size | `c61_file_size_violated` |
| C64 | finite-mixture coefficients are reused for other numbers of data | `c64_masses_independent_of_history_violated` |
| C65 | wrong backward proposal density in the logit stick-breaking update | `c65_acceptance_ratio_violated` |
| C67 | the total mass update can throw | `c67_total_mass_update_violated` |
| C70 | initialization never draws a value for the last cluster | `c70_last_cluster_not_drawn_violated` |
| C46 | matrices without rows or without columns come back from a message as 0 x 0 | `c46_empty_matrix_violated` |
| C47 | 2d grids with axes of different lengths write out of range or leave rows unwritten | `c47_grid_violated` |
| C50 | the cluster estimate accumulates errors into uninitialised memory | `c50_uninitialised_violated` |
| C51 | matrices without entries come back from a file as 0 x 0; longer lines are written out of range | `c51_empty_matrix_violated`, `c51_ragged` |
| C53 | creating by an unknown name uses an uninitialised identifier | `c53_unknown_name_violated` |
| C40 | deep clones start from the prior's initial hyperparameters | `c40_deep_clone_hypers_violated` |
| C72 | semi-conjugate draws evaluate both full conditionals at the old state | `c72_semi_conjugate_draw_violated` |
| C74 | Normal-Wishart draws store the upper Cholesky factor, the likelihood uses the lower one | `c74_multi_normal_likelihood_violated` |
| C43 | Metropolis updaters omit the prior and add to an uninitialised accumulator | `c43_full_conditional_violated`, `c43_kernel_violated`, `c43_proper_prior_violated`, `c43_laplace_violated`, `c43_nnig_violated`, `c43_uninitialised_violated` |
| C75 | `log_det_jac` of the multivariate state throws | `c75_multi_ls_violated` |
| C76, C145 | `NxIGPriorModel` has no `lpdf_from_unconstrained`, which the Langevin updater calls: with this updater, the default one of the Laplace hierarchy, every draw throws; the default step size is zero besides | `c76_default_laplace_updater_violated`, `c145_nxig_violated` |
| C45 | factor-analytic draws leave `psi_inverse`, `cov_wood`, `cov_logdet` stale; states drawn from the prior never get them | `c45_stale_after_draws`, `c45_prior_draw_unusable`, `c45_in_sync_violated` |
| C77 | `phi` used as a precision; `card / 2` in integers | `c77_means_violated`, `c77_noise_violated` |
| C60 | Normal-Gamma-Gamma: variance passed as standard deviation, stale mean; Normal-Gamma-Inverse-Wishart: shape misses the factor `dim`, stale mean | `c60_ngg_mean_violated`, `c60_ngg_scaling_violated`, `c60_ngiw_scaling_violated` |
| C79 | variance of the Normal prior on the mean is not checked | `c79_normal_mean_violated` |
| C80 | sum of variances passed as standard deviation | `c80_l2_distance_violated` |
| C08 | the truncation is made for the slice levels of the previous iteration; zero components are accepted and then read out of range; Beta priors throw when a stick is needed | `c08_truncation_violated`, `c08_zero_components_violated`, `c08_beta_priors_violated` |
| C69 | the slice sampler never updates the hyperparameters | `c69_slice_violated` |
| C83 | the split-merge prior ratio always uses the new-cluster mass next to two clusters; the log total mass of a Dirichlet process is 0 | `c83_pitman_yor_violated`, `c83_dirichlet_violated`, `c83_finite_mixture_violated` |
| C11 | with one row the split-merge sampler throws | `c11_single_row_throws` |
| C55 | Neal3 with a Dirichlet process samples the posterior of total mass one | `c55_dirichlet_violated` |
| C54 | the density estimate of a finite mixture reads outside of its table when all data are alone; an algorithm without data clones a missing unique value | `c54_finite_mixture_violated`, `c54_reader_violated` |
| C84 | the weights of the slice sampler and of the logit mixing sum to less than one | `c84_infinite_violated`, `c84_logit_violated` |
| C56 | `relabel` with an empty group takes the maximum of an empty range | `c56_empty_group_violated` |
| C57 | semi-HDP thinning collects all iterations or none | `c57_violated`, `c57_run_violated` |
| C58 | semi-HDP messages repeat the shared values once per group | `c58_violated` |
| C85 | semi-HDP runs index out of range for small groups and multivariate data, divide by zero for thinning 0 | `c85_small_group_violated`, `c85_multivariate_violated`, `c85_thin_violated` |
| C87 | relinked tables keep the value of the old shared value | `c87_shared_violated` |
| C88 | log counts stored as integers; empty tables convert minus infinity | `c88_table_weight_violated`, `c88_first_step_violated` |
| C89 | counts of shared values drop when one observation leaves | `c89_cnt_violated`, `c89_log_m_violated` |
| C90 | data passed as covariates to the prior predictive density | `c90_violated` |
| C91 | counts not updated after a group moves; empty tables weigh one | `c91_stale_counts_violated`, `c91_empty_table_violated` |
| C93 | Neal8 with a Dirichlet process: a new cluster always has prior weight one | `c93_neal8_dirichlet_violated` |
| C94 | Neal2 with a Dirichlet process: a new cluster always has prior weight one | `c94_neal2_dirichlet_violated` |
| C94, C96 | multivariate Normal hierarchy: the marginal density used for new clusters is not the integral of the likelihood evaluated at drawn states (which use the wrong triangular factor, C74) | `c96_nnw_violated`, `c94_neal2_nnw_violated` |
| C97 | multivariate Normal: the covariance of a drawn state is not the inverse of its precision | `c97_multi_norm_violated` |
| C98 | logit stick breaking: labels are drawn with a last stick of sigmoid(1) instead of one | `c98_blocked_logit_violated` |
| C99 | slice levels are at least 1e-16: rows leave components of smaller weight and cannot return | `c99_floor_violated` |
| C100 | blocked Gibbs draws the hyperparameters given the components in use and keeps the values of the empty ones, drawn with the previous hyperparameters: the joint posterior is not invariant ; initialization saves the prior hyperparameters as posterior ones of the first component, whose value is drawn with them for ever | `c100_blocked_hyperprior_violated`, `c100_blocked_stale_violated` |
| C101 | with a Dirichlet process of total mass other than one, runs of Neal3 converge to the posterior with total mass one | `c101_neal3_dirichlet_violated` |
| C102 | with a Dirichlet process of total mass other than one, averages over the stored iterations of Neal3 estimate the posterior with total mass one | `c102_neal3_dirichlet_violated` |
| C103 | `to_mesh` writes outside its tables unless both axes have the same number of points, and reads past the grid if the first axis has one point | `c103_mesh_violated` |
| C105 | the Python wrapper prints five decimals; `read_eigen_matrix` reads single precision | `c105_python_violated`, `c105_file_violated` |
| C106 | the Python wrapper ignores the exit status and returns old or empty results | `c106_python_violated`, `c106_python_empty_violated` |
| C107 | the R wrapper deletes the user's directory on failure and empties files that were not asked for | `c107_r_violated` |
| C108 | `np.loadtxt` drops axes of length one | `c108_shapes_violated` |
| C109, C110 | runs of blocked Gibbs with a conjugate hierarchy converge to a limit in which the value of the first component has the law of the prior, for all data | `c109_blocked_first_violated`, `c109_blocked_nnig_violated`, `c110_blocked_first_violated`, `c110_blocked_nnig_violated` |
| C111 | the distance of cluster states reads the first state of an empty mixture | `c111_empty_violated` |
| C113, C114 | with a Dirichlet process Neal2 ignores the total mass: runs converge to the posterior for total mass one, and the posterior of the configured model is not invariant | `c113_neal2_dirichlet_violated`, `c114_neal2_dirichlet_violated` |
| C115, C116 | with a Dirichlet process Neal8 ignores the total mass, like Neal2 | `c115_neal8_dirichlet_violated`, `c116_neal8_dirichlet_violated` |
| C138 | the same with a Normal prior on the mean of the base measure: the joint posterior of the configured model is not kept unless the total mass is one | `c138_dirichlet_violated` |
| C117 | with a Dirichlet process density estimates use the configured total mass, the partitions total mass one | `c117_dirichlet_violated`, `c117_nnig_dirichlet_violated` |
| C118 | with a Dirichlet process averages over stored states converge to posterior means for total mass one | `c118_dirichlet_violated` |
| C119 | with a Dirichlet process Neal3 averages and density estimates are those for total mass one; with the multivariate Normal-Wishart hierarchy density estimates converge to something smaller than the predictive density at the prior mean | `c119_dirichlet_violated`, `c119_density_dirichlet_violated`, `c119_nnw_violated` |
| C120-C124 | without `--coll-name` the program dies (`default_value("memory")` is stored as `const char *` and compared as `std::string`); an optional option without value at the end is ignored; `--dens-file` without `--grid-file` leaves an empty file with status 0; `check_file_is_writeable` empties outputs before anything is read or checked; failures of `read_proto_from_file` are only printed; the Python package splits its command at white space |
| C63, C125 | `compute_V_t` stops when the last term is small compared with the sum, which can happen before the bulk of the series; the coefficients no longer satisfy the recursion of the exact ones | `c63_truncated_violated`, `c125_truncation_violated` |
| C126 | the example hierarchy declares itself conjugate although `marg_lpdf` only throws, so that Neal2 accepts it and fails at the first row | `c126_neal2_throws` |
| C127 | restoring a Dirichlet mixing computes `logtotmass`, which `initialize` and `update_state` do not, so that the restored object differs from its source; restoring a mixture of finite mixtures its table `V`, restoring a logit mixing `num_components`, restoring regression hyperparameters `var_scaling_inv`, restoring factor-analytic hyperparameters `dim` of the object that is overwritten | `c127_dirichlet_violated`, `c127_finite_mixture_violated`, `c127_logit_sb_violated`, `c127_lin_reg_violated`, `c127_fa_violated` |
| C128 | `set_fa_hyperparams_from_data` does not set `dim`, is undone by `initialize`, and divides wrongly for `alpha0 <= 1` | `c128_draws_violated`, `c128_run_violated`, `c128_scales_violated`, `c128_no_data_is_ub` |
| C129 | Metropolis-Hastings updates of split-merge: wrong limit with a positive discount, also with full scans on three rows; no limit for some strengths; omitting `splitmerge_n_full_gs_updates` gives no full scan; Dirichlet process: limit has total mass one | `c129_discount_violated`, `c129_three_rows_violated`, `c129_no_full_scan_violated`, `c129_dirichlet_violated` |
| C130 | a parameter file in the output directory whose name the wrapper uses for something else is overwritten before the program reads it | `c130_taken_violated` |
| C131 | averages over split-merge runs with a Dirichlet process estimate the posterior with total mass one; with a positive discount averages on three rows do not estimate the posterior | `c131_dirichlet_violated`, `c131_three_rows_violated` |
| C132 | Neal2, Neal3 and Neal8 with a mixture of finite mixtures read `V[n]` of a table with `n` entries when a row is moved while the others are all alone | `c132_finite_mixture_violated`, `c132_finite_mixture_neal8_violated` |
| C133 | `metro_dist` has no Hastings correction for its proposal, which is not symmetric; unknown names of moves are accepted | `c133_metro_dist_violated`, `c133_unknown_name_violated` |
| C134 | the values of the pseudo-prior are not perturbed (line 496 is a comment, against `semihdp_sampler.h` 24); weights above one throw; `perturb` can return negative variances | `c134_pseudo_prior`, `c134_weight_violated`, `c134_perturb_violated` |
| C135 | `get_state_as_proto` has its messages cast to another message type | `c135_save_violated`, `c135_run_violated` |
| C136 | the R reader leaves out or misreads empty messages and completes cut messages with zeros | `c136_last_empty_violated`, `c136_empty_inside_violated`, `c136_cut_body_violated` |
| C137 | `plot_mcmc` fails for rectangular grids; figures are emptied before the inputs are read | `c137_rectangle_violated`, `c137_dimension_violated`, `c137_name_violated` |
| C139 | the auxiliary variable of the total mass update has a gamma instead of a beta law; long runs throw with probability one | `c139_total_mass_violated`, `c139_run_violated` |
| C140 | the first object keeps the prior hyperparameters saved by `initialize`, so density estimates of blocked Gibbs keep a share of the prior predictive density: all of it with one component | `c140_single_violated`, `c140_share_violated`, `c140_nnig_violated` |
| C141 | the same for averages over the stored states: they converge, but not to the posterior predictive density | `c141_single_violated`, `c141_nnig_violated` |
| C142 | with a mixture of finite mixtures, the first move makes the table of coefficients for the rows of the clusters of its pair; with three such rows it reads past the end at once, otherwise later full scans can | `c142_finite_mixture_move_violated`, `c142_finite_mixture_scan_violated`, `c142_finite_mixture_coefficients` |
| C143 | the slice sampler drops the sticks after the largest label in use and breaks new ones without regard to the configured number of components of a finite mixture | `c143_violated` |
| C144 | `TruncatedSBMixing::initialize_state` does not look at the number of components nor at the last pair of shapes, and its Pitman-Yor check allows a first shape that is not positive | `c144_truncated_violated` |
| C144 | `LogitSBMixing::initialize_state` does not reject a prior with no components: `num_components - 1` wraps around | `c144_logit_violated` |
| C146 | with the default updater of the Laplace hierarchy all algorithms that accept it throw in their first iteration | `c146_laplace_runs_violated` |
| C147 | `NIGPriorModel::initialize_hypers` does not check the variance of the prior on the mean | `c147_normal_mean_violated` |
| C147 | `NWPriorModel::initialize_hypers` requires the degrees of freedom of the inverse Wishart prior to be positive only | `c147_ngiw_violated` |
| C148 | `build_bayesmix.py` never learns that a build failed; `run.py` keeps the variable of the process | `c148_python_failed_build_violated`, `c148_python_same_process_violated` |
| C149 | the acceptance test of `LogitSBMixing::update_state` does not keep the distribution of the coefficients | `c149_empty_column`, `c149_update_violated` |
| C150 | with the Normal-Gamma-Gamma prior `NIGPriorModel::update_hypers` does not keep the joint law of hyperparameters and cluster parameters | `c150_ngg_violated` |
| C151 | the draw of a Normal x inverse Gamma cluster with rows does not keep the posterior law of its state; it makes mean and variance independent | `c151_violated`, `c151_product_law`, `c151_unique_law` |
| C152 | blocked Gibbs with the Normal x inverse Gamma hierarchy does not keep the posterior law, for any data and any number of components | `c152_violated` |
| C153 | Neal8 with the Normal x inverse Gamma hierarchy does not keep the posterior law, for any data and any number of auxiliary blocks | `c153_violated`, `c153_dirichlet_violated` |
| C154 | with the Normal-Gamma-Gamma hyperprior an iteration of Neal2 or Neal8 does not keep the joint posterior of hyperparameters, partition and values | `c154_pitman_yor_violated`, `c154_dirichlet_violated` |
| C155 | with the Normal-Gamma-Gamma hyperprior an iteration of blocked Gibbs does not keep the joint posterior of labels, values, sticks and hyperparameters | `c155_violated` |
| C156 | with a Normal prior on the mean an iteration of Neal3 keeps the joint posterior from states with saved hyperparameters for the current mean; after it no cluster has such hyperparameters, almost surely | `c156_pitman_yor_partial`, `c156_dirichlet_partial`, `c156_violated` |

## Reading `seeded/LOG.jsonl`

`theorems_failed` lists theorems whose own proof broke under the edit, and
`dependent_theorems` the property theorems that use one of those.  The first 128
lines have no second field: there `theorems_failed` is the union of the two.  A
dependent theorem need not be false under the edit; it only no longer follows from
a lemma that is.
