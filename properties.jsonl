{"id": "C01", "title": "Marginal Gibbs sweeps keep allocations and clusters consistent", "statement": "After any number of iterations of Neal2 or Neal3 on a data set with at least two rows, every saved state has one label per row, every label names an existing cluster, no cluster is empty, and each cluster's reported cardinality, set of data indexes and summary statistics are exactly those of the rows carrying its label. The number of cluster states saved equals the number of distinct labels.", "quantifier": "every data set size >= 2, every consistent starting state, every sequence of categorical draws, every number of sweeps", "why_tests_cant": "The reachable labelings grow super-exponentially with the number of rows and depend on random draws; a test sees a handful of seeds.", "anchors": ["src/algorithms/neal2_algorithm.cc:Neal2Algorithm::sample_allocations", "src/algorithms/marginal_algorithm.cc:MarginalAlgorithm::remove_singleton", "src/hierarchies/likelihoods/base_likelihood.h:add_datum,remove_datum"]}
{"id": "C02", "title": "Neal8 sweeps keep allocations and clusters consistent", "statement": "With at least one auxiliary block, the same consistency as C01 holds after any number of Neal8 iterations, for every data set with at least one row. Configuring zero auxiliary blocks through the parameter message is not safe: the first singleton met by the sweep accesses an element of an empty vector.", "quantifier": "every data set size >= 1, every number of auxiliary blocks >= 1, every draw sequence", "why_tests_cant": "Unsafe parameter combinations only show up on particular partitions (singletons), and the reachable states are unbounded.", "anchors": ["src/algorithms/neal8_algorithm.cc:Neal8Algorithm::sample_allocations,read_params_from_proto", "src/algorithms/neal8_algorithm.h:set_n_aux"]}
{"id": "C03", "title": "A marginal sampler never touches a non-existing cluster", "statement": "Running one sweep of Neal2/Neal3 from a consistent state never reads a cluster that does not exist. (Violated when the data set has exactly one row: removing its singleton leaves no cluster to evaluate the prior predictive on.)", "quantifier": "every consistent state, every draw sequence", "why_tests_cant": "Memory errors need the exact boundary data set; absence for all others needs an invariant.", "anchors": ["src/algorithms/neal2_algorithm.cc:get_cluster_lpdf,sample_allocations", "src/algorithms/neal3_algorithm.cc:get_cluster_lpdf"]}
{"id": "C04", "title": "Re-allocating one observation does not regroup the others", "statement": "The update of observation i in a marginal Gibbs sweep (including the label compaction performed when its old cluster disappears) leaves the co-clustering relation among all other observations unchanged.", "quantifier": "every consistent state, every observation i, every draw, every pair of other observations", "why_tests_cant": "A relabeling slip shows up only for particular label orders; there are unboundedly many.", "anchors": ["src/algorithms/marginal_algorithm.cc:remove_singleton", "src/algorithms/neal2_algorithm.cc:sample_allocations", "src/algorithms/neal8_algorithm.cc:sample_allocations"]}
{"id": "C05", "title": "Unique values are drawn from the posterior of the data currently in the cluster", "statement": "At the end of each iteration every cluster's parameters have been drawn with hyperparameters that are the posterior update of the prior hyperparameters by the data currently allocated to it. (Violated: the first hierarchy object handed to a Neal2, blocked Gibbs or slice run keeps the prior hyperparameters stored at initialization as its 'saved posterior', so its full conditional draws ignore its data; objects created by cloning are correct, and Neal3/SplitMerge refresh the saved value on each insertion and removal.)", "quantifier": "every consistent state, every draw sequence, every conjugate hierarchy", "why_tests_cant": "The draw is random, so a wrong source distribution is invisible to a single-run test; the staleness depends on object history.", "anchors": ["src/hierarchies/updaters/semi_conjugate_updater.h:draw,get_posterior_hypers", "src/hierarchies/base_hierarchy.h:initialize,add_datum,remove_datum,clone", "src/hierarchies/updaters/abstract_updater.h:save_posterior_hypers,clear_hypers"]}
{"id": "C06", "title": "Collapsed predictive weights use current posterior hyperparameters", "statement": "In Neal3, at every evaluation of the conditional predictive density of a cluster, the posterior hyperparameters used are those implied by the cluster's current members and the current prior hyperparameters. (Holds with fixed hyperparameters; with a hyperprior the cached value is out of date between the hyperparameter update and the first re-insertion in that cluster.)", "quantifier": "every sweep, every observation, every cluster, every draw sequence", "why_tests_cant": "Cache staleness depends on the history of insertions and hyperparameter updates.", "anchors": ["src/algorithms/neal3_algorithm.cc:get_cluster_lpdf", "src/hierarchies/base_hierarchy.h:conditional_pred_lpdf,save_posterior_hypers", "src/algorithms/base_algorithm.h:step"]}
{"id": "C07", "title": "Blocked Gibbs keeps components and allocations consistent", "statement": "After any number of blocked Gibbs iterations the number of components is unchanged, every label is smaller than it, and each component's cardinality, index set and summary statistics are exactly those of the rows carrying its label (components may be empty).", "quantifier": "every consistent state, every number of components, every draw sequence, every number of sweeps", "why_tests_cant": "Unbounded reachable state space driven by random draws.", "anchors": ["src/algorithms/blocked_gibbs_algorithm.cc:sample_allocations,sample_unique_values", "src/algorithms/conditional_algorithm.h:step"]}
{"id": "C08", "title": "Slice sampler keeps sticks, components and allocations aligned", "statement": "After every slice sampler iteration the number of component objects equals the number of sticks, every label is in range, components carry exactly their members, and no component that could be selected at the current slice levels is missing from the truncation.", "quantifier": "every consistent state, all stick draws and slice draws, every number of iterations", "why_tests_cant": "The number of components changes with random draws without bound; coverage of the truncation is a for-all statement over the infinite remaining sticks.", "anchors": ["src/algorithms/slice_sampler.cc:sample_weights,sample_slice,sample_allocations", "src/mixings/truncated_sb_mixing.cc:keep_breaking,set_sticks"]}
{"id": "C09", "title": "Split-merge moves keep allocations and clusters consistent", "statement": "Every Metropolis-Hastings split or merge proposal, accepted or rejected, every restricted scan and every full scan of the split-merge sampler leaves labels, cluster index sets, cardinalities and summary statistics consistent, with no empty cluster, on data sets with at least two rows.", "quantifier": "every consistent state with n >= 2, every pair of selected observations, every draw sequence", "why_tests_cant": "The bookkeeping moves data between two live clusters while relabeling; errors need specific label orders.", "anchors": ["src/algorithms/split_and_merge_algorithm.cc:proposal_update_allocations,split_or_merge,restricted_gs,full_gs,compute_restricted_gs_unique_values"]}
{"id": "C10", "title": "Split and merge proposals do what they say", "statement": "An accepted merge of observations i and j puts exactly the union of their two clusters in one cluster and leaves every other cluster unchanged; an accepted split distributes exactly the members of the common cluster over two clusters with i and j in different ones and leaves every other cluster unchanged.", "quantifier": "every consistent state, every pair i,j, every launch state", "why_tests_cant": "Requires comparing the whole partition before and after for every possible configuration.", "anchors": ["src/algorithms/split_and_merge_algorithm.cc:proposal_update_allocations,split_or_merge"]}
{"id": "C11", "title": "Split-merge picks two distinct observations", "statement": "The two observations selected for a split-merge update are always two different valid row indexes, and every ordered pair of different rows can be selected, whenever there are at least two rows.", "quantifier": "every n >= 2 and every pair of categorical outcomes", "why_tests_cant": "The off-by-one shift of the second index must be right for all n and all draws.", "anchors": ["src/algorithms/split_and_merge_algorithm.cc:sample_allocations"]}
{"id": "C12", "title": "Initialization allocates every row and fills every cluster", "statement": "A successful initialization gives each row exactly one label; with K initial clusters, K <= number of rows, exactly K clusters exist, all non-empty, and consistent with the labels; K = 0 means one cluster per row. (Violated when K exceeds the number of rows, which reads rows that do not exist, and when the same algorithm object is initialized a second time, which always fails.)", "quantifier": "every data size, every K, every sequence of random allocations, every history of earlier runs", "why_tests_cant": "Parameter combinations and object histories are unbounded.", "anchors": ["src/algorithms/base_algorithm.cc:BaseAlgorithm::initialize", "src/algorithms/base_algorithm.h:run,set_hierarchy"]}
{"id": "C13", "title": "Initialization accepts exactly the valid configurations", "statement": "Initialization throws an invalid-argument exception if and only if: there are no data; or no hierarchy; or a conjugate-only algorithm has a non-conjugate hierarchy; or multivariate data meet a univariate hierarchy; or hierarchy covariates are given to a non-dependent hierarchy or have a different number of rows than the data; or no mixing; or the algorithm and the mixing differ in being conditional; or mixing covariates are given to a non-dependent mixing or have the wrong number of rows; or the mixing or hierarchy prior itself is rejected. When it accepts, covariates have one row per datum.", "quantifier": "every combination of algorithm, hierarchy, mixing, data and covariates", "why_tests_cant": "The decision table has too many combinations to enumerate with concrete data shapes.", "anchors": ["src/algorithms/base_algorithm.cc:BaseAlgorithm::initialize"]}
{"id": "C14", "title": "A run saves exactly the post burn-in iterations, in order", "statement": "Running an algorithm hands to the collector exactly max(0, iterations - burn-in) states, whose iteration numbers are burn-in, burn-in+1, ..., iterations-1 in this order, each being the sampler state after that many plus one steps; the collector is started before the first and finished after the last.", "quantifier": "every number of iterations, every burn-in, every step function", "why_tests_cant": "Unbounded parameters and boundary cases (burn-in >= iterations, zero iterations).", "anchors": ["src/algorithms/base_algorithm.h:BaseAlgorithm::run,save_state"]}
{"id": "C15", "title": "The memory collector is a replayable log", "statement": "After any interleaving of collect, get_next_state, get_state, get_chunk, reset, start/finish, the memory collector behaves as a list of collected states with a read cursor: states come back in collection order, unchanged, each exactly once per pass; reset restarts the pass; get_size is the number collected; after the end get_next_state keeps returning false.", "quantifier": "every sequence of collector operations and every list of states", "why_tests_cant": "All histories of operations must be covered.", "anchors": ["src/collectors/memory_collector.cc", "src/collectors/memory_collector.h", "src/collectors/base_collector.h:get_next_state,get_chunk,get_whole_chain"]}
{"id": "C16", "title": "Loading a memory collector from file replaces its contents", "statement": "After reading a chain from file a memory collector contains exactly the states of the file, reports their number and starts reading from the first. (Violated when the collector was not empty or had been read: the old size and cursor are kept and later reads run past the end of the storage.)", "quantifier": "every prior content and cursor, every file content", "why_tests_cant": "Needs all object histories; the failure is undefined behaviour that may not crash.", "anchors": ["src/collectors/memory_collector.h:read_from_file,write_to_file"]}
{"id": "C17", "title": "The file collector returns the stored sequence for every chunk size", "statement": "For every chunk size >= 1, reading a closed collection file with get_next_state yields exactly the written states in order, then false; after that false, or after reset, the next read starts again from the first state. The result does not depend on the chunk size.", "quantifier": "every list of states, every chunk size >= 1, every number of reads and resets", "why_tests_cant": "Chunk boundaries interact with the list length; all combinations are needed.", "anchors": ["src/collectors/file_collector.cc:next_state,populate_buffer,read_one,reset,open_for_reading,close_reading"]}
{"id": "C18", "title": "The chain file is a faithful, self-delimiting encoding", "statement": "Decoding the bytes written for any list of messages returns the same list, for messages of any length; no other byte string of a different list collides.", "quantifier": "every list of byte strings (serialized messages) of length below 2^31", "why_tests_cant": "Length prefixes are variable-length; correctness must hold at all lengths.", "anchors": ["src/collectors/file_collector.cc:collect,read_one", "src/collectors/memory_collector.h:write_to_file,read_from_file", "python/bayesmixpy/io_utils.py:read_many_protos_from_file"]}
{"id": "C19", "title": "A chain file cut at any byte yields a prefix of the chain", "statement": "If the process dies while writing and the file holds only the first k bytes of what would have been written, the C++ reader returns exactly the states whose bytes are entirely present, in order, and nothing else.", "quantifier": "every list of messages and every cut point k", "why_tests_cant": "Crash points are arbitrary; a test cannot cut at all of them for all chains.", "anchors": ["src/collectors/file_collector.cc:read_one,next_state", "src/collectors/memory_collector.h:read_from_file"]}
{"id": "C20", "title": "The Python chain reader agrees with the C++ reader", "statement": "On a complete chain file the Python reader returns the same list of messages as the C++ collector. (On a file cut in the middle of a message it may return an additional, truncated message, because the slice of the missing bytes is parsed without checking its length.)", "quantifier": "every list of messages; every cut point", "why_tests_cant": "Needs all files and all cut points.", "anchors": ["python/bayesmixpy/io_utils.py:read_many_protos_from_file", "src/collectors/file_collector.cc:read_one"]}
{"id": "C21", "title": "Chunked and whole-chain reads are the same sequence", "statement": "Concatenating the chunks returned by successive chunk reads of any positive sizes gives the same sequence as single reads; a whole-chain read returns all remaining states; the keep flag becomes false exactly when fewer states than asked remained.", "quantifier": "every chain, every sequence of positive chunk sizes, every collector kind", "why_tests_cant": "All chunkings of all chains.", "anchors": ["src/collectors/base_collector.h:get_chunk,get_whole_chain", "src/utils/eval_like.cc:eval_lpdf_parallel_lowmemory"]}
{"id": "C22", "title": "Density evaluation has one row per saved state, in order, and is repeatable", "statement": "Evaluating the log density over a fully rewound non-empty collector returns a matrix whose i-th row is the log density under the i-th saved state; it leaves the collector rewound, so that a second evaluation returns the same matrix. (An empty chain is undefined behaviour.)", "quantifier": "every non-empty chain, every grid, every state evaluation function", "why_tests_cant": "All chains; the empty-chain boundary is undefined behaviour.", "anchors": ["src/algorithms/base_algorithm.cc:eval_lpdf", "src/utils/eigen_utils.h:stack_vectors"]}
{"id": "C23", "title": "Low-memory parallel evaluation equals sequential evaluation", "statement": "For every chunk size >= 1 and number of jobs, the low-memory parallel evaluation returns the same rows in the same order as the sequential one.", "quantifier": "every chain, chunk size, number of jobs and thread schedule", "why_tests_cant": "Chunk boundaries and schedules are unbounded.", "anchors": ["src/utils/eval_like.cc:eval_lpdf_parallel_lowmemory"]}
{"id": "C24", "title": "Full-memory parallel evaluation returns rows in chain order", "statement": "The full-memory parallel evaluation returns the same rows in the same order as the sequential one. (Violated for two or more jobs: states are dealt round-robin to the jobs and the results concatenated job by job, so rows are a permutation of the right ones.)", "quantifier": "every chain and number of jobs", "why_tests_cant": "All chain lengths and job counts.", "anchors": ["src/utils/eval_like.cc:eval_lpdf_parallel_fullmemory", "src/utils/eval_like.h:gen_even_slices"]}
{"id": "C25", "title": "Dirichlet process predictive masses form a probability distribution", "statement": "With non-proportional masses, the masses of all existing clusters plus the mass of a new cluster are non-negative and sum to one, for every total mass > 0 and every clustering of n data, and the proportional masses are the same numbers times n + total mass.", "quantifier": "every total mass > 0, every list of positive cluster sizes", "why_tests_cant": "Real parameters and all partitions.", "anchors": ["src/mixings/dirichlet_mixing.cc:mass_existing_cluster,mass_new_cluster"]}
{"id": "C26", "title": "Log masses are the logarithms of the masses", "statement": "For every mixing and both proportional modes, asking for the log mass gives the logarithm of the mass. (Violated by the Dirichlet process: the log total mass is not set at initialization nor refreshed when the total mass is updated; it is right only after a state is read from a message.)", "quantifier": "every mixing state reachable through initialize, update and set-from-message; every cluster configuration", "why_tests_cant": "Object histories and real parameters.", "anchors": ["src/mixings/dirichlet_mixing.cc:mass_new_cluster,initialize_state,update_state,set_state_from_proto", "src/mixings/pityor_mixing.cc", "src/mixings/mixture_finite_mixing.cc"]}
{"id": "C27", "title": "Pitman-Yor predictive masses form a probability distribution", "statement": "For every discount in [0,1) and strength > -discount accepted at initialization and every clustering into non-empty clusters, the masses of existing and new clusters are non-negative and sum to one; with discount zero they coincide with the Dirichlet process masses.", "quantifier": "all accepted parameters, every list of positive cluster sizes", "why_tests_cant": "Real parameters and all partitions.", "anchors": ["src/mixings/pityor_mixing.cc:mass_existing_cluster,mass_new_cluster,initialize_state"]}
{"id": "C28", "title": "Mixture-of-finite-mixtures masses form a probability distribution", "statement": "For every gamma > 0 and positive ratio of the V coefficients the masses of existing clusters plus that of a new cluster sum to one. The coefficient table read by these functions is always inside its bounds. (Violated when the number of clusters equals the number of data considered, which is the default initial state.)", "quantifier": "all parameters, every list of positive cluster sizes", "why_tests_cant": "Real parameters and all partitions; out-of-bounds reads may go unnoticed.", "anchors": ["src/mixings/mixture_finite_mixing.cc:mass_existing_cluster,mass_new_cluster,get_V_t,init_V_and_C"]}
{"id": "C29", "title": "Sequential predictive masses are exchangeable", "statement": "The probability that the Dirichlet process / Pitman-Yor predictive scheme gives to a sequence of allocations depends only on the sizes of the resulting clusters, not on the order of the observations.", "quantifier": "all accepted parameters, every allocation sequence and every permutation of it", "why_tests_cant": "All sequences and permutations.", "anchors": ["src/mixings/dirichlet_mixing.cc", "src/mixings/pityor_mixing.cc:mass_existing_cluster,mass_new_cluster"]}
{"id": "C30", "title": "Truncated stick-breaking weights are a probability vector", "statement": "For sticks in [0,1] the weights are non-negative and sum to one minus the product of the complements of the sticks; after an update of a finite mixture the last stick is one and the weights sum exactly to one. (At initialization the last stick is not set to one, so the initial weights sum to less than one.)", "quantifier": "every number of components, every vector of sticks", "why_tests_cant": "All lengths and real values.", "anchors": ["src/mixings/truncated_sb_mixing.cc:logweights_from_sticks,update_state,initialize_state,mixing_weights"]}
{"id": "C31", "title": "Breaking further sticks refines the remaining mass", "statement": "Breaking k more sticks keeps the existing weights unchanged, appends k weights, and returns exactly the total weight of the appended components.", "quantifier": "every stick vector, every number of new sticks, every draw", "why_tests_cant": "All lengths and real values.", "anchors": ["src/mixings/truncated_sb_mixing.cc:keep_breaking,set_sticks"]}
{"id": "C32", "title": "Stick-breaking shape parameters are always valid", "statement": "Every accepted truncated stick-breaking prior yields strictly positive Beta parameters for every component index it is asked for. (Violated for a Pitman-Yor prior with non-positive strength, where the first component gets a non-positive second parameter, and for a Beta prior whose last pair is never checked.)", "quantifier": "every accepted prior, every component index, every cardinality vector", "why_tests_cant": "Real parameters, all indexes.", "anchors": ["src/mixings/truncated_sb_mixing.cc:get_beta_params,initialize_state,update_state"]}
{"id": "C33", "title": "Logit stick-breaking weights are a probability vector", "statement": "The weights for any covariate are positive and sum to one. (Violated: the last stick is the logistic function of one instead of one, so the sum is strictly less than one.)", "quantifier": "every coefficient matrix and covariate", "why_tests_cant": "Real values; the defect is a small numeric deficit.", "anchors": ["src/mixings/logit_sb_mixing.cc:mixing_weights"]}
{"id": "C34", "title": "Summary statistics depend only on the current members", "statement": "After any sequence of insertions and removals that is legal (no double insertion, no removal of an absent index) cardinality, index set and summary statistics of a cluster equal those obtained by inserting its final members into an empty cluster, in any order; inserting and then removing a datum is the identity; cloning gives an empty cluster.", "quantifier": "every legal operation sequence, every data set, every likelihood with additive statistics", "why_tests_cant": "All operation histories.", "anchors": ["src/hierarchies/likelihoods/base_likelihood.h:add_datum,remove_datum,clone,clear_data", "src/hierarchies/likelihoods/uni_norm_likelihood.cc", "src/hierarchies/likelihoods/multi_norm_likelihood.cc", "src/hierarchies/likelihoods/uni_lin_reg_likelihood.cc", "src/hierarchies/likelihoods/fa_likelihood.cc"]}
{"id": "C35", "title": "Normal-NIG posterior update obeys Bayes' rule", "statement": "For every datum, every valid hyperparameters and every (mean, variance > 0): likelihood x prior density = marginal density x posterior density, with the library's likelihood, prior, marginal and posterior update. Updating with a batch equals updating one datum at a time, in any order.", "quantifier": "all real data, all valid hyperparameters, all parameter values", "why_tests_cant": "Identity over the reals in 6 variables and unbounded batches.", "anchors": ["src/hierarchies/updaters/nnig_updater.cc:compute_posterior_hypers", "src/hierarchies/nnig_hierarchy.h:marg_lpdf", "src/hierarchies/priors/nig_prior_model.cc:lpdf", "src/hierarchies/likelihoods/uni_norm_likelihood.cc:compute_lpdf"]}
{"id": "C36", "title": "Posterior updates of valid hyperparameters are valid", "statement": "For every valid Normal-NIG, Normal x NIG or Gamma-Gamma hyperparameters and every data set the posterior hyperparameters satisfy the same validity checks that initialization imposes.", "quantifier": "all data sets and all valid hyperparameters", "why_tests_cant": "Positivity of the posterior scale is a sum-of-squares inequality over unbounded data.", "anchors": ["src/hierarchies/updaters/nnig_updater.cc", "src/hierarchies/updaters/nnxig_updater.cc", "src/hierarchies/priors/nig_prior_model.cc:initialize_hypers", "examples/gamma_hierarchy/gammagamma_updater.h"]}
{"id": "C37", "title": "Linear regression posterior update obeys Bayes' rule", "statement": "For every response, covariate vector, valid hyperparameters and parameter value, likelihood x prior = marginal x posterior, and batch updating equals sequential updating.", "quantifier": "all dimensions, all real data, all symmetric positive definite scalings", "why_tests_cant": "Matrix identity in any dimension.", "anchors": ["src/hierarchies/updaters/mnig_updater.cc", "src/hierarchies/lin_reg_uni_hierarchy.h:marg_lpdf", "src/hierarchies/priors/mnig_prior_model.cc:lpdf"]}
{"id": "C38", "title": "Normal-Wishart posterior update is order independent", "statement": "Updating the Normal-Wishart hyperparameters with a batch of multivariate data equals updating one datum at a time, in any order, for mean, scaling, degrees of freedom and inverse scale.", "quantifier": "all dimensions, all data sets", "why_tests_cant": "Matrix identity in any dimension and batch size.", "anchors": ["src/hierarchies/updaters/nnw_updater.cc"]}
{"id": "C39", "title": "Semi-conjugate Normal x NIG updates are the two full conditionals", "statement": "The posterior mean/variance returned for the mean given the variance, and shape/scale for the variance given the mean, make likelihood x prior proportional to the returned densities, for every data set.", "quantifier": "all data sets, all valid hyperparameters, all parameter values", "why_tests_cant": "Identity over the reals for unbounded data.", "anchors": ["src/hierarchies/updaters/nnxig_updater.cc"]}
{"id": "C40", "title": "Cloning shares hyperparameters, deep cloning does not lose them", "statement": "A clone has the same state and hyperparameters, no data, and keeps sharing the hyperparameters; a deep clone has equal but independent hyperparameters. (Violated: deep cloning re-initializes the copy from the prior, discarding hyperparameters updated since.)", "quantifier": "every sequence of operations on a family of clones and deep clones", "why_tests_cant": "Aliasing depends on object histories.", "anchors": ["src/hierarchies/base_hierarchy.h:clone,deep_clone", "src/hierarchies/priors/base_prior_model.h:clone,deep_clone,initialize"]}
{"id": "C41", "title": "Cluster states survive serialization", "statement": "Writing the state of a cluster to a message and reading it into another cluster of the same type reproduces the parameters and the cardinality; reading also restores derived quantities.", "quantifier": "every state of every state type", "why_tests_cant": "All real values and dimensions.", "anchors": ["src/hierarchies/likelihoods/base_likelihood.h:write_state_to_proto,set_state_from_proto", "src/hierarchies/likelihoods/states/*.h"]}
{"id": "C42", "title": "Unconstrained representations are bijective", "statement": "For every state with positive variance, converting to the unconstrained representation and back gives the same state, and every unconstrained vector is reached; the dimension recovered for the multivariate state is right for every dimension.", "quantifier": "all states, all dimensions", "why_tests_cant": "All reals and dimensions.", "anchors": ["src/hierarchies/likelihoods/states/uni_ls_state.h", "src/hierarchies/likelihoods/states/uni_lin_reg_ls_state.h", "src/hierarchies/likelihoods/states/multi_ls_state.h"]}
{"id": "C43", "title": "Metropolis updaters leave the full conditional invariant", "statement": "For every current and proposed value, the acceptance rule satisfies detailed balance with respect to the full conditional, likelihood x prior, and a state that has this distribution has it after a draw. (Violated: the acceptance ratio omits the prior, so detailed balance holds with respect to the likelihood alone, and a full conditional of finite mass is kept exactly if the prior is flat, so never for the Laplace hierarchy nor for a normal likelihood with a normal-inverse-Gamma prior; the proposal log densities moreover start from an uninitialised accumulator.)", "quantifier": "all pairs of states, likelihoods, priors and proposal kernels", "why_tests_cant": "A stationary-distribution claim; statistical tests cannot settle it.", "anchors": ["src/hierarchies/updaters/metropolis_updater.h:draw", "src/hierarchies/updaters/random_walk_updater.h", "src/hierarchies/updaters/mala_updater.h", "src/hierarchies/updaters/target_lpdf_unconstrained.h"]}
{"id": "C44", "title": "Cluster log-likelihood from summary statistics is exact", "statement": "The log-likelihood of a whole cluster computed from the summary statistics equals the sum of the log-likelihoods of its members, for every mean and variance > 0.", "quantifier": "every data set, every parameter value", "why_tests_cant": "Unbounded data.", "anchors": ["src/hierarchies/likelihoods/uni_norm_likelihood.h:cluster_lpdf_from_unconstrained"]}
{"id": "C45", "title": "Factor-analytic states keep their derived quantities in sync", "statement": "Whenever a factor-analytic likelihood is evaluated, its stored inverse noise variances are the inverses of the current noise variances. (Violated after sampling from the prior or the full conditional, which update the variances only.)", "quantifier": "every sequence of draws and state readings", "why_tests_cant": "Histories of draws.", "anchors": ["src/hierarchies/updaters/fa_updater.cc:draw,sample_psi", "src/hierarchies/priors/fa_prior_model.cc:sample", "src/hierarchies/likelihoods/states/fa_state.h"]}
{"id": "C46", "title": "Vectors and matrices survive message conversion", "statement": "Converting a vector or a non-empty matrix to a message and back is the identity, in both storage orders. (A matrix with zero rows or zero columns comes back as 0 x 0, losing its other dimension.)", "quantifier": "all sizes and contents", "why_tests_cant": "All shapes.", "anchors": ["src/utils/proto_utils.cc:to_proto,to_eigen"]}
{"id": "C47", "title": "Two-dimensional grids enumerate the Cartesian product", "statement": "The grid built from two axes contains every pair of coordinates exactly once, x-major. (Violated when the two axes have different lengths: some rows are never written or writes fall outside the matrix.)", "quantifier": "all axis lengths and values", "why_tests_cant": "All shapes.", "anchors": ["src/utils/eigen_utils.cc:get_2d_grid"]}
{"id": "C48", "title": "Matrix stacking is concatenation", "statement": "Stacking matrices vertically or appending one to another yields the rows of the operands in order when their column counts agree, throws otherwise, treats an operand without rows as neutral when appending, and appending is associative.", "quantifier": "all lists of matrices", "why_tests_cant": "All shapes.", "anchors": ["src/utils/eigen_utils.cc:vstack,append_by_row", "src/utils/eigen_utils.h:stack_vectors"]}
{"id": "C49", "title": "Posterior similarity counts co-clusterings", "statement": "Each entry below the diagonal of the posterior similarity matrix is the fraction of iterations in which the two observations share a label; it lies in [0,1] and does not change if labels are renamed within any iteration.", "quantifier": "every chain of allocations, every relabeling", "why_tests_cant": "All chains and relabelings.", "anchors": ["src/utils/cluster_utils.cc:posterior_similarity"]}
{"id": "C50", "title": "The cluster estimate minimises the Binder loss over the visited partitions", "statement": "The returned allocation is the first row of the chain minimising the squared distance between its co-clustering indicators and the posterior similarity. (Holds provided the uninitialised error accumulator happens to start at zero.)", "quantifier": "every chain of allocations", "why_tests_cant": "All chains; uninitialised memory often happens to be zero in tests.", "anchors": ["src/utils/cluster_utils.cc:cluster_estimate"]}
{"id": "C51", "title": "Numeric tables survive writing and reading", "statement": "Reading a matrix file written by the library gives a matrix of the same shape whose entries are the re-read printed entries; ragged files with a longer row are undefined behaviour.", "quantifier": "all shapes and contents", "why_tests_cant": "All shapes.", "anchors": ["src/utils/io_utils.cc:read_eigen_matrix,write_matrix_to_file"]}
{"id": "C52", "title": "Covariate lookup", "statement": "With no covariates an empty row is used, with a single row that row is used for all data, otherwise row i is used for datum i; grid evaluations agree with pointwise evaluations.", "quantifier": "all covariate matrices and indexes", "why_tests_cant": "All shapes.", "anchors": ["src/utils/covariates_getter.h", "src/hierarchies/likelihoods/base_likelihood.h:lpdf_grid", "src/hierarchies/base_hierarchy.h:prior_pred_lpdf_grid"]}
{"id": "C53", "title": "The object factory is a map with first registration winning", "statement": "Creating by identifier succeeds exactly for registered identifiers and builds what was registered first; registering is idempotent; the list of known builders is sorted and duplicate-free. (Creating by an unknown name uses an uninitialised identifier.)", "quantifier": "every sequence of registrations and requests", "why_tests_cant": "All histories.", "anchors": ["src/runtime/factory.h"]}
{"id": "C54", "title": "Marginal density estimates are mixtures", "statement": "For every saved marginal state the evaluated log density at each grid point is the logarithm of the weighted sum of the component densities plus the new-cluster component, with weights that sum to one.", "quantifier": "every saved state, every grid", "why_tests_cant": "All states and real values.", "anchors": ["src/algorithms/marginal_algorithm.cc:lpdf_from_state", "src/algorithms/conditional_algorithm.cc:lpdf_from_state"]}
{"id": "C55", "title": "Collapsed Gibbs updates leave the posterior over partitions invariant", "statement": "In Neal3 the probability with which observation i is moved to each cluster is the conditional distribution of its allocation given all others under the Pitman-Yor/Dirichlet prior on partitions times the product of the clusters' marginal likelihoods; the update therefore satisfies detailed balance.", "quantifier": "every partition, observation, data set and accepted mixing parameters", "why_tests_cant": "A stationary-distribution claim over all partitions.", "anchors": ["src/algorithms/neal3_algorithm.cc:get_cluster_lpdf", "src/algorithms/neal2_algorithm.cc:get_cluster_prior_mass,sample_allocations", "src/mixings/pityor_mixing.cc", "src/mixings/dirichlet_mixing.cc"]}
{"id": "C56", "title": "Semi-HDP relabeling preserves the model state", "statement": "Removing unused tables leaves every observation seated at the same table object, keeps no unused private or shared table, and keeps all indexes in range.", "quantifier": "every state of the semi-HDP sampler", "why_tests_cant": "Nested index maps over groups, tables and dishes; all configurations.", "anchors": ["src/algorithms/semihdp_sampler.cc:relabel"]}
{"id": "C57", "title": "Semi-HDP thinning collects every thin-th iteration", "statement": "A semi-HDP run with thinning t over the collection phase hands the collector the iterations at multiples of t. (Violated: the test uses a constant instead of the loop counter, so either every iteration or none is collected.)", "quantifier": "every number of iterations, burn-in and thinning", "why_tests_cant": "All parameters.", "anchors": ["src/algorithms/semihdp_sampler.h:run"]}
{"id": "C58", "title": "Semi-HDP states list each shared value once", "statement": "A saved semi-HDP state contains each shared unique value exactly once. (Violated with two or more groups: the list is repeated once per group.)", "quantifier": "every number of groups and shared values", "why_tests_cant": "All sizes.", "anchors": ["src/algorithms/semihdp_sampler.cc:get_state_as_proto"]}
{"id": "C59", "title": "Woodbury evaluation equals direct evaluation", "statement": "The quadratic form and log determinant computed through the low-rank factors equal those of the full covariance matrix, for every positive noise and loading matrix.", "quantifier": "all dimensions and values", "why_tests_cant": "Matrix identity in any dimension.", "anchors": ["src/utils/distributions.cc:compute_wood_chol_and_logdet,multi_normal_lpdf_woodbury_chol"]}
{"id": "C60", "title": "Hyperprior updates target the right full conditional", "statement": "With a Normal prior on the mean of the base measure, the mean is redrawn from its full conditional given the cluster parameters; with the Normal-Gamma-Gamma prior likewise. (Violated for the latter: the variance is passed where a standard deviation is expected.)", "quantifier": "every collection of cluster states, all hyperprior values", "why_tests_cant": "A distributional claim; one seed cannot tell a variance from a standard deviation.", "anchors": ["src/hierarchies/priors/nig_prior_model.cc:update_hypers"]}
{"id": "C61", "title": "A file collector reports the number of states it holds", "statement": "The size reported by a file collector equals the number of states that reading it returns. (Violated when the collector is reused for a second run, whose start truncates the file but not the counter, and when it is opened on an existing chain file, where it reports zero.)", "quantifier": "every sequence of runs, every previous file content", "why_tests_cant": "Needs all histories of the collector object.", "anchors": ["src/collectors/file_collector.cc:start_collecting,collect", "src/collectors/base_collector.h:get_size"]}
{"id": "C62", "title": "Row i of every output file of the command-line program refers to saved state i", "statement": "The clustering file and the density file written by one invocation of the program have one row per saved state, and row i of both refers to the i-th saved state. (Violated for the density file whenever more than four states are saved, see C24.)", "quantifier": "every chain", "why_tests_cant": "Relates two outputs of one run over all chains.", "anchors": ["executables/run_mcmc.cc:main", "src/utils/eval_like.cc:eval_lpdf_parallel"]}
{"id": "C63", "title": "Finite-mixture allocations are exchangeable", "statement": "The probability that the masses of the mixture of finite mixtures give to a sequence of allocations depends only on the cluster sizes. (Proved for the exact coefficients; violated for the truncated ones the code computes.)", "quantifier": "all parameters > 0, all pairs of label sequences with the same cluster sizes", "why_tests_cant": "Needs the recursion of an infinite series and all sequences.", "anchors": ["src/mixings/mixture_finite_mixing.cc:compute_V_t,mass_existing_cluster,mass_new_cluster"]}
{"id": "C64", "title": "Finite-mixture masses depend only on the current parameters and counts", "statement": "The mass returned for given parameters, number of data, number of clusters and cluster size does not depend on earlier queries. (Violated: the coefficient table is made for the number of data of the first query and reused for any other.)", "quantifier": "every history of queries", "why_tests_cant": "Needs all histories of one object.", "anchors": ["src/mixings/mixture_finite_mixing.cc:get_V_t,init_V_and_C"]}
{"id": "C65", "title": "The logit stick-breaking update uses the Metropolis-Hastings ratio of its proposal", "statement": "The log acceptance ratio equals the log ratio of the target plus that of the backward and forward proposal densities. (Violated: the backward density is evaluated around the proposal mean of the current value.)", "quantifier": "every state, proposal, step and target", "why_tests_cant": "Only visible as a wrong stationary distribution.", "anchors": ["src/mixings/logit_sb_mixing.cc:update_state"]}
{"id": "C66", "title": "Full conditional and gradient of the logit stick-breaking coefficients", "statement": "Differences of the full conditional log density of a coefficient vector equal those of the log posterior implied by the mixing weights, and the gradient used in the proposal is its gradient.", "quantifier": "every dimension, data set, allocation, component, coefficient value and direction", "why_tests_cant": "A calculus identity over all inputs.", "anchors": ["src/mixings/logit_sb_mixing.cc:full_cond_lpdf,grad_full_cond_lpdf,mixing_weights"]}
{"id": "C67", "title": "The total mass update of the Dirichlet process always has valid parameters", "statement": "For every accepted gamma prior and every clustering, updating the total mass never fails and the update mixes its two gamma distributions with a probability in (0,1). (Violated: the auxiliary variable is drawn from a gamma instead of a beta distribution, so it can exceed one and make the rate negative, which throws.)", "quantifier": "every prior, clustering and draw", "why_tests_cant": "Fails only for rare draws.", "anchors": ["src/mixings/dirichlet_mixing.cc:update_state"]}
{"id": "C68", "title": "Re-allocating one datum offers exactly the existing clusters and a new one", "statement": "When Neal2, Neal3 or Neal8 re-allocates a row, each cluster of the other rows and a new cluster can be chosen; joining a cluster takes over its unique value, a new cluster of Neal2/Neal3 gets a posterior draw given this row, a new cluster of Neal8 the chosen auxiliary value (prior draws, the first one being the row's own value if it was alone); no other row's unique value changes.", "quantifier": "every consistent state, row and random draws", "why_tests_cant": "The new value depends on which of many branches and draws was taken; tests check single transitions.", "anchors": ["src/algorithms/neal2_algorithm.cc:sample_allocations", "src/algorithms/neal8_algorithm.cc:sample_allocations", "src/algorithms/marginal_algorithm.cc:remove_singleton"]}
{"id": "C69", "title": "Hyperparameters are updated from the occupied clusters of the current state", "statement": "After each iteration of any Gibbs sampler the hyperparameters are the hyperprior update of the previous ones given exactly the values and sizes of the occupied clusters of the state that the iteration ends in.", "quantifier": "every consistent state and random draws, any hyperprior", "why_tests_cant": "Empty components and stale values only matter in particular states.", "anchors": ["src/algorithms/base_algorithm.cc:update_hierarchy_hypers", "src/algorithms/base_algorithm.h:step"]}
{"id": "C70", "title": "Initial labels and values are drawn as documented", "statement": "After initialization with K components, row i < K has label i, every further row one of the K labels as drawn, and every cluster's value is its own prior draw. (Violated for the last cluster: with K <= 2 it keeps the deterministic initial state, with K >= 3 it is a copy of the first cluster's value.)", "quantifier": "every setup, K and random draws", "why_tests_cant": "Needs all draws: equality of two values is only suspicious if it holds for every seed.", "anchors": ["src/algorithms/base_algorithm.cc:initialize"]}
{"id": "C71", "title": "Stick updates use the posterior Beta distributions", "statement": "When the truncated stick-breaking weights are updated given the labels, stick i (except the last one of a finite mixture) is drawn from a Beta distribution whose shapes are the prior's plus the number of data in component i, and plus the number of data in later components; when more sticks are broken, the old ones stay and the new ones are drawn from the prior's Beta distribution of their position.", "quantifier": "every prior, number of components, labels and draws", "why_tests_cant": "A wrong count only changes the distribution of a random draw.", "anchors": ["src/mixings/truncated_sb_mixing.cc:update_state,keep_breaking,get_beta_params"]}
{"id": "C72", "title": "Semi-conjugate draws are Gibbs sweeps", "statement": "Drawing a Normal x inverse-Gamma cluster draws one parameter from its full conditional given the other, and the other from its full conditional given the value just drawn. (Violated: both full conditionals are evaluated at the parameters before the draw, so the chain does not have the posterior as its stationary distribution.)", "quantifier": "all clusters, hyperparameters and random draws", "why_tests_cant": "A distributional claim; marginal means and variances look right.", "anchors": ["src/hierarchies/updaters/semi_conjugate_updater.h:draw", "src/hierarchies/updaters/nnxig_updater.cc:compute_posterior_hypers", "src/hierarchies/priors/nxig_prior_model.cc:sample"]}
{"id": "C73", "title": "Normal-Wishart updates obey Bayes' rule", "statement": "For every datum, valid hyperparameters, mean and positive definite precision: multivariate Normal density x prior density = marginal density x posterior density, with the library's prior, marginal (a multivariate t through the stored Cholesky factor) and posterior update; for whole clusters likelihood x prior is proportional to the posterior.", "quantifier": "all dimensions, data, valid hyperparameters, means and precisions", "why_tests_cant": "The code says 'TODO check Bayes rule for this hierarchy'; a matrix identity in any dimension.", "anchors": ["src/hierarchies/nnw_hierarchy.h:marg_lpdf,get_predictive_t_parameters", "src/hierarchies/updaters/nnw_updater.cc:compute_posterior_hypers", "src/hierarchies/priors/nw_prior_model.cc:lpdf"]}
{"id": "C74", "title": "The multivariate Normal likelihood is the Normal density of the stored mean and precision", "statement": "For every state a multivariate Normal cluster can hold, the evaluated likelihood is the Normal density with the stored mean and precision; evaluating a grid equals evaluating its points. (Violated: states drawn by the Normal-Wishart model store the upper Cholesky factor while the density expects the lower one, which gives a wrong density unless the factor commutes with its transpose.)", "quantifier": "all dimensions, precisions, means, data", "why_tests_cant": "The unit test evaluates a state that stores the lower factor; with one dimension or a diagonal precision both agree.", "anchors": ["src/utils/distributions.cc:multi_normal_prec_lpdf,multi_normal_prec_lpdf_grid", "src/hierarchies/priors/nw_prior_model.cc:write_prec_to_state,sample", "src/hierarchies/likelihoods/multi_norm_likelihood.cc:compute_lpdf", "src/hierarchies/likelihoods/states/multi_ls_state.h:set_from_constrained"]}
{"id": "C75", "title": "Jacobians of unconstrained representations", "statement": "log_det_jac of a state is the logarithm of the absolute determinant of the derivative, at its unconstrained representation, of the map back to the constrained parameters. (Violated for the multivariate state: log_det_jac throws, because the accumulator is passed as the dimension.)", "quantifier": "all states, all dimensions", "why_tests_cant": "A derivative identity at every real point; the multivariate function is never called by the tests.", "anchors": ["src/hierarchies/likelihoods/states/uni_ls_state.h:uni_ls_log_det_jac", "src/hierarchies/likelihoods/states/uni_lin_reg_ls_state.h:uni_lin_reg_log_det_jac", "src/hierarchies/likelihoods/states/multi_ls_state.h:multi_ls_log_det_jac"]}
{"id": "C76", "title": "Metropolis updaters can draw for a Laplace hierarchy", "statement": "A Laplace hierarchy can draw from its full conditional with its default updater, with a Langevin updater and with a random walk of positive step size. (Violated: the prior of the hierarchy does not implement the log density that the Langevin updater differentiates, so with this updater every draw throws for every step size; the default updater is one, and has step size zero besides. With a random walk of positive step size no draw fails; nor with the Langevin updater for a normal likelihood and a normal-inverse-Gamma prior.)", "quantifier": "every state, data set, step size and draw", "why_tests_cant": "Holds or fails for every execution, not only for sampled ones.", "anchors": ["src/hierarchies/lapnig_hierarchy.h:set_default_updater", "src/hierarchies/updaters/mala_updater.h", "src/hierarchies/priors/nxig_prior_model.h", "src/hierarchies/priors/prior_model_internal.h:lpdf_from_unconstrained"]}
{"id": "C77", "title": "Factor-analytic draws come from the full conditionals", "statement": "Each block of the factor-analytic Gibbs sampler (scores, means, noise variances, loadings) is drawn with the parameters of its full conditional under the model whose prior the library documents and evaluates; integrating the scores out gives the density the likelihood evaluates. (Violated for the means, where the prior variance phi is used as a precision, unless phi is one; and for the noise variances, where half of an odd cardinality is rounded down.)", "quantifier": "all dimensions, numbers of factors, data, states and hyperparameters", "why_tests_cant": "A distributional claim; the unit test uses phi = 1 and an even number of data would hide the rounding.", "anchors": ["src/hierarchies/updaters/fa_updater.cc:draw,sample_eta,sample_mu,sample_psi,sample_lambda", "src/hierarchies/priors/fa_prior_model.cc:lpdf,sample"]}
{"id": "C78", "title": "Multivariate normal generators have the right law", "statement": "Given independent standard normal draws, multi_normal_prec_chol_rng returns a multivariate normal vector with the given mean and the inverse of the given precision as covariance matrix, and multi_normal_diag_rng one with the given mean and variances.", "quantifier": "all dimensions, means, positive definite precisions, nonnegative variances", "why_tests_cant": "A statement on the law of a random vector; a transposed factor gives right marginals for diagonal matrices only.", "anchors": ["src/utils/distributions.cc:multi_normal_prec_chol_rng,multi_normal_diag_rng"]}
{"id": "C79", "title": "Hyperparameter updates of accepted priors never fail", "statement": "If the hyperparameters of a Normal-Inverse-Gamma or Normal-Wishart prior were accepted at initialisation, no sequence of update_hypers calls with valid cluster states fails, and the hyperparameters stay valid (positive, positive definite, stored inverse and factor of the scale in sync). (Violated for the Normal prior on the mean of the Normal-Inverse-Gamma model, whose variance is not checked.)", "quantifier": "every prior, every sequence of collections of cluster states and of random draws", "why_tests_cant": "Quantifies over unbounded sequences of updates and all draws.", "anchors": ["src/hierarchies/priors/nig_prior_model.cc:initialize_hypers,update_hypers", "src/hierarchies/priors/nw_prior_model.cc:initialize_hypers,update_hypers"]}
{"id": "C80", "title": "The distance of Gaussian mixtures is the L2 distance", "statement": "gaussian_mixture_dist of two univariate mixtures is the integral of the squared difference of their densities. (Violated: the variance of the difference of two components is passed as a standard deviation; the values agree when all variances are one half.)", "quantifier": "all numbers of components, means, positive variances and weights", "why_tests_cant": "An integral identity for all parameters; the unit test only checks the sign and the distance of a mixture to itself.", "anchors": ["src/utils/distributions.cc:gaussian_mixture_dist"]}
{"id": "C81", "title": "Prior draws follow the prior density", "statement": "The draws made by PriorModel::sample and the density computed by PriorModel::lpdf describe the same distribution: the log density is the sum of the log densities of the successive draws, each with the parameters (and the values drawn before) that the generator was called with. For Normal-Inverse-Gamma, independent Normal and Inverse-Gamma, Normal-Wishart, multivariate Normal-Inverse-Gamma, factor-analytic and Gamma priors.", "quantifier": "all hyperparameters, all states, arbitrary random generators", "why_tests_cant": "Tests compare single draws or moments; a wrong conditioning (for example a scale that does not use the variance just drawn) passes them.", "anchors": ["src/hierarchies/priors/nig_prior_model.cc:sample,lpdf", "src/hierarchies/priors/nxig_prior_model.cc:sample,lpdf", "src/hierarchies/priors/nw_prior_model.cc:sample,lpdf", "src/hierarchies/priors/mnig_prior_model.cc:sample,lpdf", "src/hierarchies/priors/fa_prior_model.cc:sample,lpdf", "examples/gamma_hierarchy/gamma_prior_model.h:sample,lpdf"]}
{"id": "C82", "title": "Conjugate draws are draws from the full conditional", "statement": "After any insertions and removals of data, sample_full_cond of a conjugate hierarchy draws the unique value from the distribution whose density is proportional to the likelihood of the cluster members times the prior, and changes nothing else in the cluster; an empty cluster gets a prior draw.", "quantifier": "all accepted priors, all data, all sequences of insertions and removals, arbitrary random generators", "why_tests_cant": "An identity of densities for all parameter values and all histories of a cluster.", "anchors": ["src/hierarchies/updaters/semi_conjugate_updater.h:draw", "src/hierarchies/updaters/nnig_updater.cc", "src/hierarchies/updaters/nnw_updater.cc", "src/hierarchies/updaters/mnig_updater.cc", "examples/gamma_hierarchy/gammagamma_updater.h"]}
{"id": "C83", "title": "Split-merge acceptance satisfies detailed balance", "statement": "For every split move of the split-merge sampler the merge from the same launch state undoes it, and posterior(before) * proposal probability * acceptance probability of the split equals posterior(after) * acceptance probability of the merge, where the posterior is the partition prior of the configured mixing times the marginal likelihoods of the clusters. (Violated: for the Dirichlet process unless the total mass is one, because the log total mass is zero; for the Pitman-Yor process unless the discount is zero or the state has two clusters, because the mass of a new cluster is always asked for two clusters.)", "quantifier": "every consistent state, pair of rows, launch state, final scan, accepted mixing parameters, every hierarchy with a marginal likelihood", "why_tests_cant": "A stationary-distribution claim over all partitions and all data; runs with a wrong acceptance ratio look plausible.", "anchors": ["src/algorithms/split_and_merge_algorithm.cc:compute_log_ratios,compute_log_arate,restricted_gs,split_or_merge", "src/mixings/pityor_mixing.cc:mass_new_cluster", "src/mixings/dirichlet_mixing.cc:mass_new_cluster"]}
{"id": "C84", "title": "Conditional density estimates are mixtures", "statement": "For every state saved by a conditional algorithm the evaluated log density at each grid point is the logarithm of the weighted sum of the component densities, with nonnegative weights that sum to one, so that the estimate integrates to one. (Violated for the infinite mixture of the slice sampler, whose truncated weights sum to less than one, and for the logit stick-breaking mixing.)", "quantifier": "every saved state, every grid, all component densities", "why_tests_cant": "All states and real values; an estimate that is a few percent too small looks plausible.", "anchors": ["src/algorithms/conditional_algorithm.cc:lpdf_from_state", "src/mixings/truncated_sb_mixing.cc:mixing_weights", "src/mixings/logit_sb_mixing.cc:mixing_weights"]}
{"id": "C85", "title": "Semi-HDP runs never index out of range", "statement": "A semi-HDP run ends normally, whatever is drawn: no vector is indexed out of range, no row is read that does not exist. (Violated for groups with fewer than five entries, for multivariate data and for thinning zero.)", "quantifier": "all groups, all draws, every number of iterations", "why_tests_cant": "Four levels of index maps change in each of the six sub-steps of an iteration; all reachable configurations.", "anchors": ["src/algorithms/semihdp_sampler.cc:initialize", "src/algorithms/semihdp_sampler.cc:update_table_allocs", "src/algorithms/semihdp_sampler.cc:update_to_shared", "src/algorithms/semihdp_sampler.h:run"]}
{"id": "C86", "title": "Semi-HDP unique values are updated with the observations that carry them", "statement": "Each private or shared unique value is updated with exactly the observations whose table is linked to it, each once, and with none the value is drawn from the prior.", "quantifier": "every state of the semi-HDP sampler", "why_tests_cant": "All seatings over groups, restaurants and tables.", "anchors": ["src/algorithms/semihdp_sampler.cc:update_unique_vals"]}
{"id": "C87", "title": "Saved semi-HDP tables hold the values they are linked to", "statement": "In a saved semi-HDP state the value of a table equals the private or shared value its link points to. (Violated for shared values: relinking a table leaves the value of the table as it was.)", "quantifier": "every saved state of every run", "why_tests_cant": "All draws; the copy of a value in the table and the value itself are kept apart.", "anchors": ["src/algorithms/semihdp_sampler.cc:update_to_shared", "src/algorithms/semihdp_sampler.cc:update_unique_vals", "src/algorithms/semihdp_sampler.cc:get_state_as_proto"]}
{"id": "C88", "title": "Semi-HDP tables are weighted by their number of observations", "statement": "In the draw of the table of an observation, a table has weight proportional to the number of observations at it times the likelihood. (Violated: the logarithms of the counts are stored as integers; empty tables give an undefined conversion.)", "quantifier": "all counts, all likelihoods", "why_tests_cant": "All counts; the weights are off by a factor below e, which no single draw shows.", "anchors": ["src/algorithms/semihdp_sampler.cc:update_table_allocs"]}
{"id": "C89", "title": "Semi-HDP counts of shared values stay right while seating", "statement": "While observations move between tables, the count of tables linked to each shared value is kept right and so is its logarithm used as weight. (Violated: the count drops when any observation leaves a shared table, and the logarithm is then set from the other vector.)", "quantifier": "all states, all moves", "why_tests_cant": "All states; the wrong weights change probabilities only.", "anchors": ["src/algorithms/semihdp_sampler.cc:update_table_allocs"]}
{"id": "C90", "title": "The weight of a new shared value uses the data of the table", "statement": "When a table is linked to a shared value, the weight of a new value is the prior predictive density of the data at the table. (Violated: the arguments of prior_pred_lpdf_grid are swapped, so the data are passed as covariates.)", "quantifier": "all data at the table, all hierarchies", "why_tests_cant": "All real data; the weight is a number in any case.", "anchors": ["src/algorithms/semihdp_sampler.cc:update_to_shared"]}
{"id": "C91", "title": "Semi-HDP restaurant moves use the counts of the restaurants", "statement": "When a group moves between restaurants, the counts of tables follow it, and an empty table has weight zero in the weights of a restaurant. (Violated: the counts are not updated after a move, and the logarithm of the count of an empty table is 1e-20, that is weight one.)", "quantifier": "all states, all moves", "why_tests_cant": "All states; the wrong weights change probabilities only.", "anchors": ["src/algorithms/semihdp_sampler.cc:update_rest_allocs", "src/algorithms/semihdp_sampler.cc:reassign_group"]}
{"id": "C92", "title": "Semi-HDP weight and restaurant probabilities come from their full conditionals", "statement": "The weight of the group-specific component is drawn from the Beta law updated by the numbers of tables with private and with shared values, and the restaurant probabilities from the Dirichlet law updated by the numbers of groups in each restaurant.", "quantifier": "all states, all hyperparameters", "why_tests_cant": "All counts; a swapped or missing count shows only in the distribution.", "anchors": ["src/algorithms/semihdp_sampler.cc:update_semihdp_weight", "src/algorithms/semihdp_sampler.cc:update_dirichlet_concentration"]}
{"id": "C93", "title": "Neal8 updates leave the joint law of labels and unique values invariant", "statement": "With auxiliary unique values drawn from the base measure (the first one being the value of the removed singleton, if there is one), the update of one row by Neal8 is reversible with respect to the posterior of labels and unique values given everything else, so it leaves it invariant, for any number of auxiliary blocks. (Violated for the Dirichlet process unless its total mass is one.)", "quantifier": "all states a run can reach, rows, numbers of auxiliary blocks, likelihoods, base measures, accepted mixing parameters", "why_tests_cant": "An identity between integrals over all draws of all auxiliary values in every state.", "anchors": ["src/algorithms/neal8_algorithm.cc:get_cluster_prior_mass", "src/algorithms/neal8_algorithm.cc:get_cluster_lpdf", "src/algorithms/neal8_algorithm.cc:sample_allocations"]}
{"id": "C94", "title": "Neal2 updates draw the place of a row from its conditional distribution", "statement": "With a conjugate hierarchy, the update of one row by Neal2 draws the label of the row, and the unique value if the label is new, from their conditional distribution given all other labels, values and the data. (Violated for the Dirichlet process unless its total mass is one, and for the multivariate Normal hierarchy, whose likelihood of drawn states does not fit its marginal density.)", "quantifier": "all states a run can reach, rows, conjugate hierarchies, accepted mixing parameters and hyperparameters", "why_tests_cant": "An identity between measures in every state; the marginal density, the posterior and the prior must fit together.", "anchors": ["src/algorithms/neal2_algorithm.cc:get_cluster_prior_mass", "src/algorithms/neal2_algorithm.cc:get_cluster_lpdf", "src/algorithms/neal2_algorithm.cc:sample_allocations"]}
{"id": "C95", "title": "Log densities are normalized", "statement": "The exponential of every likelihood log density integrates to one over the data (univariate and multivariate Normal, Laplace, linear regression, factor-analytic, Gamma), and the exponential of every prior log density integrates to one over the parameters (Normal inverse Gamma, independent Normal and inverse Gamma, multivariate Normal inverse Gamma, Normal Wishart, factor-analytic, Gamma).", "quantifier": "all states with positive variances or positive definite precisions, all hyperparameters that initialization accepts, all dimensions", "why_tests_cant": "An integral over all data or all parameters; a wrong additive constant changes allocation probabilities and posterior odds only.", "anchors": ["src/hierarchies/likelihoods/uni_norm_likelihood.cc:compute_lpdf", "src/hierarchies/likelihoods/laplace_likelihood.cc:compute_lpdf", "src/hierarchies/likelihoods/multi_norm_likelihood.cc:compute_lpdf", "src/hierarchies/likelihoods/uni_lin_reg_likelihood.cc:compute_lpdf", "src/hierarchies/likelihoods/fa_likelihood.cc:compute_lpdf", "src/hierarchies/priors/nig_prior_model.cc:lpdf", "src/hierarchies/priors/nxig_prior_model.cc:lpdf", "src/hierarchies/priors/mnig_prior_model.cc:lpdf", "src/hierarchies/priors/nw_prior_model.cc:lpdf", "src/hierarchies/priors/fa_prior_model.cc:lpdf"]}
{"id": "C96", "title": "Marginal log densities are the predictive densities of the model", "statement": "For a conjugate hierarchy, the prior predictive and, after any sequence of insertions and removals, the conditional predictive density of a new datum is the ratio of the integral over all parameters of likelihood of the new datum times likelihood of the members times prior to the integral without the new datum. It integrates to one. (Violated for the multivariate Normal hierarchy if the likelihood is the one the library evaluates at drawn states; it holds for the Normal density with the drawn mean and precision.)", "quantifier": "all hyperparameters that initialization accepts, all data, all sequences of calls, all dimensions", "why_tests_cant": "An identity between integrals over all parameters for all data.", "anchors": ["src/hierarchies/nnig_hierarchy.h:marg_lpdf", "src/hierarchies/lin_reg_uni_hierarchy.h:marg_lpdf", "src/hierarchies/nnw_hierarchy.h:marg_lpdf", "src/hierarchies/base_hierarchy.h:conditional_pred_lpdf"]}
{"id": "C97", "title": "The state of a cluster holds the moments of its likelihood", "statement": "Mean and variance in the state of a cluster are the mean and the variance of the density the library evaluates for it: for the Normal and the Laplace likelihood, for the linear regression at any covariates, for the multivariate Normal (covariance the inverse of the precision) and for the factor-analytic likelihood (covariance diag(psi) + Lambda Lambda^T). (Violated for multivariate Normal states drawn by the library: the covariance is the inverse of the reversed product of the Cholesky factors.)", "quantifier": "all states with positive variance or positive definite precision, all covariates, all dimensions", "why_tests_cant": "An integral over all data; a scale given as a variance, or a transposed factor, still gives a normalized density.", "anchors": ["src/hierarchies/likelihoods/uni_norm_likelihood.cc:compute_lpdf", "src/hierarchies/likelihoods/laplace_likelihood.cc:compute_lpdf", "src/hierarchies/likelihoods/multi_norm_likelihood.cc:compute_lpdf", "src/hierarchies/likelihoods/uni_lin_reg_likelihood.cc:compute_lpdf", "src/hierarchies/likelihoods/fa_likelihood.cc:compute_lpdf", "src/hierarchies/priors/nw_prior_model.cc:write_prec_to_state"]}
{"id": "C98", "title": "Blocked Gibbs draws the labels from their joint conditional distribution", "statement": "One call of sample_allocations of the blocked Gibbs sampler draws all labels jointly from their conditional distribution given the values of the components and the mixing weights: the probability of labels c is proportional to the product over the rows of the weight of component c_i for that row times the likelihood of the row under the value of c_i. The values of the components stay as they were. (Violated for the logit stick-breaking mixing with respect to its documented weights.)", "quantifier": "all states a run can reach, numbers of rows and components, likelihoods, sticks, regression coefficients and covariates", "why_tests_cant": "An identity between distributions on all labellings; a missing weight or a label off by one shows only in frequencies.", "anchors": ["src/algorithms/blocked_gibbs_algorithm.cc:sample_allocations", "src/mixings/truncated_sb_mixing.cc:mixing_weights", "src/mixings/logit_sb_mixing.cc:mixing_weights"]}
{"id": "C99", "title": "The slice sampler updates the labels reversibly", "statement": "Drawing the slice levels and then the labels is reversible with respect to the joint conditional distribution of the labels given the values of the components and the weights, hence leaves it invariant: row i in component k counts the weight of k times the likelihood of the row under the value of k. (Violated for components whose weight is at most 1e-16, because the levels are floored.)", "quantifier": "all states a run can reach, numbers of rows and components, likelihoods, sticks, labellings", "why_tests_cant": "An integral over all slice levels for each pair of labellings.", "anchors": ["src/algorithms/slice_sampler.cc:sample_slice", "src/algorithms/slice_sampler.cc:sample_allocations"]}
{"id": "C100", "title": "An iteration of blocked Gibbs leaves the posterior distribution invariant", "statement": "With a conjugate hierarchy and truncated stick-breaking weights, one iteration of the blocked Gibbs sampler (labels, values of all components, hyperparameters, sticks) maps the joint posterior distribution of labels, values, sticks and hyperparameters to itself. (Violated with a prior on the hyperparameters: they are drawn given the values of the components in use only, while the values of the other components, drawn with the previous hyperparameters, are kept and used for the next labels. Violated also for fixed hyperparameters: initialization stores the prior's hyperparameters as the posterior ones of the first component, and the value of this component is drawn with them in every iteration. Holds for fixed hyperparameters if nothing is stored.)", "quantifier": "all data sets, numbers of rows and components, hyperparameters that initialization accepts, priors on the sticks, states", "why_tests_cant": "A statement about the law of the next state integrated over the posterior; a Markov chain with a wrong invariant law looks like one that mixes.", "anchors": ["src/algorithms/conditional_algorithm.h:step", "src/algorithms/blocked_gibbs_algorithm.cc:sample_allocations", "src/algorithms/blocked_gibbs_algorithm.cc:sample_weights", "src/algorithms/base_algorithm.cc:update_hierarchy_hypers", "src/mixings/truncated_sb_mixing.cc:update_state"]}
{"id": "C101", "title": "Runs of Neal3 converge to the posterior over partitions", "statement": "With a conjugate hierarchy and fixed hyperparameters, from every initial labelling, no iteration of Neal3 fails and the law of the partition of the rows after k iterations converges to the posterior over partitions given the data, geometrically in total variation: prior probability of the partition under the mixing times the product over its clusters of the likelihood of their rows integrated over the law of the unique values. (Violated for the Dirichlet process with a total mass other than one: the limit is the posterior with total mass one.)", "quantifier": "all data sets with at least two rows, initial numbers of clusters, initial labels, hyperparameters that initialization accepts, Pitman-Yor parameters, random draws, sets of partitions", "why_tests_cant": "A limit over runs of any length; a chain that converges to another law looks just as stationary.", "anchors": ["src/algorithms/base_algorithm.h:run", "src/algorithms/base_algorithm.h:step", "src/algorithms/neal2_algorithm.cc:sample_allocations", "src/algorithms/neal3_algorithm.cc:get_cluster_lpdf", "src/mixings/pityor_mixing.cc:mass_new_cluster", "src/mixings/dirichlet_mixing.cc:mass_new_cluster"]}
{"id": "C102", "title": "Averages over the stored iterations of Neal3 are consistent estimates", "statement": "With a conjugate hierarchy and fixed hyperparameters, for every burn-in and from every initial labelling, the average of a function of the partition over the stored iterations of Neal3 converges in probability to its posterior mean as the number of stored iterations grows, with error probability at most 2 C^2 / (delta k eps^2); in particular the share of stored iterations in which two rows have the same label estimates the posterior probability that they are clustered together. (Violated for the Dirichlet process with a total mass other than one: averages estimate the posterior with total mass one.)", "quantifier": "all data sets with at least two rows, burn-ins, numbers of iterations, initial labels, hyperparameters that initialization accepts, functions of the partition", "why_tests_cant": "A law of large numbers over all runs; dependent draws make any finite test inconclusive.", "anchors": ["src/algorithms/base_algorithm.h:run", "src/algorithms/base_algorithm.h:save_state", "src/algorithms/neal2_algorithm.cc:sample_allocations", "src/algorithms/neal3_algorithm.cc:get_cluster_lpdf"]}
{"id": "C103", "title": "Contour plots show the density at the grid points", "statement": "For every rectangular grid and the values at its rows, to_mesh returns three tables that hold, at position (i, j), the first coordinate, the second coordinate and the value of grid point (i, j). (Violated unless both axes have the same number of points, at least two: other grids write outside the tables or read past the grid.)", "quantifier": "all rectangular grids, all numbers of points on the two axes, all values; all grids for which tables are returned", "why_tests_cant": "All shapes of grids; on the square grids used in examples the bug does not show, and out-of-range writes need not crash.", "anchors": ["src/plots/plot_utils.cc:to_mesh", "src/plots/plot_utils.cc:density_plot_2d"]}
{"id": "C104", "title": "The bar plot of the number of clusters shows relative frequencies", "statement": "For every nonempty chain the bars stand at all integers from the smallest to the largest number of clusters, the height at k is the share of iterations with k clusters, and the heights add up to one.", "quantifier": "all nonempty chains of numbers of clusters", "why_tests_cant": "All chains; the numbers are handed to the plotting library and not visible to a test.", "anchors": ["src/plots/plot_utils.cc:num_clus_bar", "executables/plot_mcmc.cc"]}
{"id": "C105", "title": "The sampler runs on the numbers that it is given", "statement": "The data passed to the Python function are the data that the sampler works with. (Violated: the wrapper prints five decimals, so every data set multiplied by a small enough number becomes constant zero; read_eigen_matrix reads single-precision numbers, so odd whole numbers above 2^24 change. They stay within 5e-6 plus a relative 2^-24, and whole numbers below 2^24 are unchanged.)", "quantifier": "all numbers up to 2^125 in absolute value, all ways to break ties when printing and reading", "why_tests_cant": "Data of every scale; on data of order one the loss looks like rounding noise.", "anchors": ["python/bayesmixpy/run.py:run_mcmc", "src/utils/io_utils.cc:read_eigen_matrix"]}
{"id": "C106", "title": "A failed run is reported", "statement": "If the program exits with a failure, the wrapper raises an error instead of returning results. (Holds for R. Violated for Python, which ignores the exit status: it returns the results that an earlier run left in the output directory, or empty results if the program had opened its output files.)", "quantifier": "all arguments, programs and file systems", "why_tests_cant": "All contents of the output directory; needs a failing program after a successful one.", "anchors": ["python/bayesmixpy/run.py:run_mcmc", "python/bayesmixpy/shell_utils.py:run_shell", "R/bayesmixr/R/run_mcmc.R:run_mcmc"]}
{"id": "C107", "title": "A run leaves the other files of the output directory alone", "statement": "With a given output directory, all files except the inputs of the run and the outputs that were asked for are after the run what they were before. (Holds for Python. Violated for R: if the program fails, the whole directory chosen by the user is deleted, and a chain stored by an earlier run is emptied even if no chain is asked for.)", "quantifier": "all arguments, file systems and programs that write only their outputs", "why_tests_cant": "All contents of the directory, and failing programs.", "anchors": ["R/bayesmixr/R/run_mcmc.R:run_mcmc", "python/bayesmixpy/run.py:run_mcmc"]}
{"id": "C108", "title": "The Python function returns arrays of the documented shapes", "statement": "For s stored iterations, n observations and g grid points the returned arrays have the shapes (s, g), (s,), (s, n) and (n,). (Violated exactly if one of the three numbers is one: axes of length one are dropped.)", "quantifier": "all numbers of iterations, observations and grid points", "why_tests_cant": "All sizes; degenerate sizes are not in the tests.", "anchors": ["python/bayesmixpy/run.py:run_mcmc"]}
{"id": "C109", "title": "Runs of blocked Gibbs converge to the posterior", "statement": "With a conjugate hierarchy, fixed hyperparameters and truncated stick-breaking weights, a run of blocked Gibbs started by initialize never fails, and the distribution of labels, values and sticks after k iterations converges to the posterior as k grows, geometrically and whatever the starting labels. (Runs do converge geometrically to a limit that does not depend on the start, and the limit is the posterior if no object has stored hyperparameters. Violated from initialize: the value of the first component has the law of the prior after every number of iterations and for all data.)", "quantifier": "all data sets, numbers of components, priors on the sticks, starting states, numbers of iterations and bounded functions of labels, values and sticks", "why_tests_cant": "Limits over infinitely many iterations and all starting states; the wrong limit differs in one component of the mixture only.", "anchors": ["src/algorithms/conditional_algorithm.h:step", "src/algorithms/base_algorithm.cc:initialize", "src/hierarchies/base_hierarchy.h:initialize", "src/hierarchies/updaters/semi_conjugate_updater.h:draw"]}
{"id": "C110", "title": "Averages over stored iterations of blocked Gibbs are consistent", "statement": "With a conjugate hierarchy, fixed hyperparameters and truncated stick-breaking weights, the probability that the average of a bounded function of labels, values and sticks over N stored iterations is off its posterior mean by a given amount is at most a constant divided by N, whatever the burn-in. (Holds with the limit of the run in place of the posterior mean. Violated from initialize: averages of functions of the value of the first component are consistent for the prior mean, whatever the data.)", "quantifier": "all data sets, numbers of components, priors on the sticks, starting states, burn-ins, numbers of stored iterations and tolerances", "why_tests_cant": "A statement about probabilities over all runs of all lengths.", "anchors": ["src/algorithms/base_algorithm.h:run", "src/algorithms/conditional_algorithm.h:step", "src/hierarchies/base_hierarchy.h:initialize"]}
{"id": "C111", "title": "The distance of multivariate Gaussian mixtures is the L2 distance", "statement": "gaussian_mixture_dist of the cluster states of two mixtures of multivariate normal distributions returns the integral of the squared difference of their densities: it is nonnegative, symmetric and zero only for equal densities. A distance is returned only if all states are of one type with valid parameters and there is a weight for each. (Univariate states get the value of C80; an empty first mixture is undefined behaviour.)", "quantifier": "all numbers of components, dimensions, means, positive definite precision matrices and weights; all lists of states for which a distance is returned", "why_tests_cant": "An integral over all points, for all mixtures; the tests compare with zero and with one number.", "anchors": ["src/utils/distributions.cc:gaussian_mixture_dist"]}
{"id": "C112", "title": "Draws from a truncated Beta distribution lie between the bounds and have its law", "statement": "sample_truncated_beta returns a number between the two bounds, and the probability that it is at most x is that of the Beta distribution conditioned on the interval; it throws exactly for shapes that are not positive or bounds outside the unit interval.", "quantifier": "all shapes, bounds and uniform draws, with an exact distribution function and its inverse", "why_tests_cant": "A law over all draws of the generator; the test looks at one draw.", "anchors": ["src/utils/distributions.cc:sample_truncated_beta"]}
{"id": "C113", "title": "Runs of Neal2 converge to the posterior over partitions and unique values", "statement": "With a conjugate hierarchy and fixed hyperparameters, a run of Neal2 started by initialize never fails, and the joint distribution of the partition and of the unique values after k iterations converges to the posterior as k grows, geometrically and whatever the starting labels, although the first object starts with stored hyperparameters. (Holds for the Pitman-Yor process. Violated by the Dirichlet process with a total mass other than one: the limit is the posterior for total mass one.)", "quantifier": "all data sets, numbers of rows and initial clusters, hyperparameters, random choices, numbers of iterations and bounded functions of partition and values", "why_tests_cant": "Limits over infinitely many iterations, all starting states and all functions of the state.", "anchors": ["src/algorithms/neal2_algorithm.cc:sample_allocations", "src/algorithms/neal2_algorithm.cc:sample_unique_values", "src/algorithms/base_algorithm.cc:initialize", "src/hierarchies/updaters/semi_conjugate_updater.h:draw"]}
{"id": "C114", "title": "An iteration of Neal2 keeps the posterior", "statement": "With a conjugate hierarchy and fixed hyperparameters, if partition and unique values have the posterior law before an iteration of Neal2 and no object has stored hyperparameters, they have it afterwards. (Holds for the Pitman-Yor process. Violated by the Dirichlet process with a total mass other than one.)", "quantifier": "all data sets, numbers of rows, hyperparameters and functions of partition and values", "why_tests_cant": "A statement about a law over all states.", "anchors": ["src/algorithms/neal2_algorithm.cc:sample_allocations", "src/algorithms/neal2_algorithm.cc:sample_unique_values", "src/mixings/dirichlet_mixing.cc:mass_new_cluster"]}
{"id": "C115", "title": "Runs of Neal8 converge to the posterior over partitions and unique values", "statement": "With a conjugate hierarchy, fixed hyperparameters and any positive number of auxiliary blocks, a run of Neal8 started by initialize never fails, and the joint distribution of the partition and of the unique values after k iterations converges to the posterior as k grows, geometrically and whatever the starting labels and auxiliary blocks. (Holds for the Pitman-Yor process. Violated by the Dirichlet process with a total mass other than one: the limit is the posterior for total mass one.)", "quantifier": "all data sets, numbers of rows, initial clusters and auxiliary blocks, hyperparameters, random choices, numbers of iterations and bounded functions of partition and values", "why_tests_cant": "Limits over infinitely many iterations, all starting states and all functions of the state.", "anchors": ["src/algorithms/neal8_algorithm.cc:sample_allocations", "src/algorithms/neal8_algorithm.cc:get_cluster_lpdf", "src/algorithms/neal8_algorithm.cc:get_cluster_prior_mass", "src/algorithms/neal2_algorithm.cc:sample_unique_values", "src/algorithms/base_algorithm.cc:initialize"]}
{"id": "C116", "title": "An iteration of Neal8 keeps the posterior", "statement": "With a conjugate hierarchy, fixed hyperparameters and any positive number of auxiliary blocks, if partition and unique values have the posterior law before an iteration of Neal8 and no object has stored hyperparameters, they have it afterwards. (Holds for the Pitman-Yor process. Violated by the Dirichlet process with a total mass other than one.)", "quantifier": "all data sets, numbers of rows and auxiliary blocks, hyperparameters and functions of partition and values", "why_tests_cant": "A statement about a law over all states.", "anchors": ["src/algorithms/neal8_algorithm.cc:sample_allocations", "src/algorithms/neal2_algorithm.cc:sample_unique_values", "src/mixings/dirichlet_mixing.cc:mass_new_cluster"]}
{"id": "C117", "title": "Density estimates converge to the posterior predictive density", "statement": "With a conjugate hierarchy and fixed hyperparameters, the mean of the density estimate that Neal2 or Neal8 computes at a grid point from the state after k iterations is finite and converges, as k grows, to the posterior predictive density at that point: the marginal density of the data together with the grid point over that of the data. For Neal8 the mean is also over the values drawn from the prior for the estimate. (Holds for the Pitman-Yor process. Violated by the Dirichlet process with a total mass other than one.)", "quantifier": "all data sets, grid points, numbers of rows, initial clusters and auxiliary blocks, hyperparameters, random choices and numbers of iterations", "why_tests_cant": "A limit over infinitely many iterations and a mean over all random choices; the target is an integral over all partitions and values.", "anchors": ["src/algorithms/marginal_algorithm.cc:lpdf_from_state", "src/algorithms/neal2_algorithm.cc:lpdf_marginal_component", "src/algorithms/neal8_algorithm.cc:lpdf_marginal_component", "src/algorithms/base_algorithm.cc:eval_lpdf"]}
{"id": "C118", "title": "Averages over the stored states of Neal2 and Neal8 are consistent", "statement": "With a conjugate hierarchy and fixed hyperparameters, the average over the states stored by a run of Neal2 or Neal8 of any bounded function of partition and unique values converges in probability to its posterior mean, and the average of the density estimates at a grid point converges in probability to the posterior predictive density, from every initialization and with any burn-in: the probability of an error of at least e is at most C / (N e^2), where N is the number of stored states. For Neal8 this includes the randomness of the values drawn for the estimates. (Holds for the Pitman-Yor process. Violated by the Dirichlet process with a total mass other than one: the probability of coming close to the right answer goes to zero.)", "quantifier": "all data sets, grid points, numbers of rows, initial clusters and auxiliary blocks, hyperparameters, random choices, numbers of iterations and burn-ins", "why_tests_cant": "A law of large numbers over dependent states; a test sees one average of one run.", "anchors": ["src/algorithms/base_algorithm.h:run", "src/algorithms/base_algorithm.cc:eval_lpdf", "src/algorithms/marginal_algorithm.cc:lpdf_from_state", "src/algorithms/neal8_algorithm.cc:lpdf_marginal_component"]}
{"id": "C119", "title": "Runs of Neal3 converge, with their density estimates and averages", "statement": "With a conjugate hierarchy and fixed hyperparameters, a run of Neal3 started by initialize never fails; the joint distribution of partition and unique values after k iterations converges to the posterior geometrically; the density estimate at a grid point converges in the mean to the posterior predictive density; and averages over the stored states, of bounded functions and of density estimates, are consistent with an error probability of at most C / (N e^2). (Holds for the Pitman-Yor process with the normal and the regression hierarchy. Violated by the Dirichlet process with a total mass other than one, and by density estimates of the multivariate Normal-Wishart hierarchy, which evaluate a wrong Cholesky factor.)", "quantifier": "all data sets, grid points, numbers of rows and initial clusters, hyperparameters, random choices, numbers of iterations and burn-ins", "why_tests_cant": "Limits over infinitely many iterations and means over all random choices.", "anchors": ["src/algorithms/neal2_algorithm.cc:sample_allocations", "src/algorithms/neal2_algorithm.cc:sample_unique_values", "src/algorithms/neal3_algorithm.cc:get_cluster_lpdf", "src/algorithms/marginal_algorithm.cc:lpdf_from_state", "src/algorithms/base_algorithm.h:run"]}
{"id": "C120", "title": "Options of the programs have the values given on the command line", "statement": "run_mcmc and plot_mcmc accept a command line exactly if it lists known options, each at most once and with a value that does not look like an option (it does not begin with a minus, is a minus alone, or is a negative decimal number that is not an integer with leading zeros), and all required ones; every option then has the value that follows it, or its documented default, whatever the order. (Violated: without --coll-name run_mcmc dies from an exception although memory is the documented default, and an optional option at the end without value is ignored.)", "quantifier": "all command lines, values and orders of options", "why_tests_cant": "All command lines; the tests do not run the programs.", "anchors": ["executables/run_mcmc.cc:main", "executables/plot_mcmc.cc:main", "lib/argparse/argparse.h:parse_args", "lib/argparse/argparse.h:consume"]}
{"id": "C121", "title": "Outputs of a run of run_mcmc are made from the states of one run on the files given", "statement": "If run_mcmc ends with status 0, it ran the sampler on the parameters, data and covariates in the files given, and every output asked for is made from the states saved by that run: the chain file, the densities on the grid, the numbers of clusters, the allocations of all rows and the best clustering; no other file changed. (Violated: densities asked for without a grid leave an empty file; a file that is read and written is emptied before it is read.)", "quantifier": "all command lines, file systems, messages, samplers and states", "why_tests_cant": "All command lines and contents of files; the tests do not run the programs.", "anchors": ["executables/run_mcmc.cc:main", "executables/run_mcmc.cc:check_args", "src/utils/io_utils.cc:check_file_is_writeable"]}
{"id": "C122", "title": "run_mcmc leaves other files and earlier results alone", "statement": "However it ends, run_mcmc changes no file whose name is not on the command line and no file that is not named as output; a run that is refused or fails before sampling leaves the results of earlier runs. (Second part violated: check_args empties all outputs before anything else is looked at.)", "quantifier": "all command lines, file systems, samplers and ways to end", "why_tests_cant": "All ways to fail, at every stage.", "anchors": ["executables/run_mcmc.cc:main", "executables/run_mcmc.cc:check_args", "src/utils/io_utils.cc:check_file_is_writeable"]}
{"id": "C123", "title": "Input files that cannot be read end run_mcmc", "statement": "If a file of parameters, data, grid or covariates is missing or malformed, run_mcmc does not end with status 0. (Holds for matrices. Violated for parameters: the answer of the parser is printed, and the run continues with what was parsed.)", "quantifier": "all command lines, file systems and contents of files", "why_tests_cant": "All contents of files.", "anchors": ["executables/run_mcmc.cc:main", "src/utils/proto_utils.cc:read_proto_from_file", "src/utils/io_utils.cc:read_eigen_matrix"]}
{"id": "C124", "title": "The Python package passes its files and names to the program", "statement": "The command that bayesmixpy.run_mcmc runs starts the configured program with the options and values of the call, whatever the directory and the names are. (Violated for paths with white space: the command is split at white space, so that the program refuses it, or another program is started.)", "quantifier": "all directories, names and paths of the program", "why_tests_cant": "All strings; the tests use one directory.", "anchors": ["python/bayesmixpy/run.py:run_mcmc", "python/bayesmixpy/shell_utils.py:run_shell", "lib/argparse/argparse.h:parse_args"]}
{"id": "C125", "title": "Finite-mixture masses are those of the mixture of finite mixtures", "statement": "The masses of existing and new clusters of the mixture of finite mixtures are, up to the relative accuracy 1e-8 of the stopping rule, the probabilities that the next datum joins each cluster or a new one when the number of components is one plus Poisson and the weights are symmetric Dirichlet. (Holds for Poisson means up to 1/4. Violated for large means: the loop can stop at its second term although the bulk of the series is still to come; the mass of a new cluster is then below 1e-15 instead of above 0.49.)", "quantifier": "all parameters > 0, all clusterings, all states reached by queries", "why_tests_cant": "Needs an infinite series as reference and all parameters; typical parameters hide the early stop.", "anchors": ["src/mixings/mixture_finite_mixing.cc:compute_V_t,get_V_t,mass_existing_cluster,mass_new_cluster"]}
{"id": "C126", "title": "The gamma-gamma example hierarchy samples its posterior", "statement": "The hierarchy of the examples refuses parameters that are not positive; its statistics are sum and number of the members after any additions and removals; its posterior hyperparameters obey Bayes' rule; states and hyperparameters survive messages; with Neal8, a Dirichlet process of total mass one and positive data, the run of the example starts, never fails, converges geometrically to the posterior over partitions and rates, and averages and density estimates converge to posterior means and the predictive density. With Neal2, whose check for conjugacy it passes, the update of every row throws.", "quantifier": "all shapes, hyperparameters, positive data, numbers of rows, clusters and auxiliary blocks, all noise", "why_tests_cant": "The example has no test; convergence is about the law of unbounded runs.", "anchors": ["examples/gamma_hierarchy/gamma_likelihood.h", "examples/gamma_hierarchy/gamma_prior_model.h", "examples/gamma_hierarchy/gammagamma_hierarchy.h", "examples/gamma_hierarchy/gammagamma_updater.h", "examples/gamma_hierarchy/run_gamma_gamma.cc"]}
{"id": "C127", "title": "Saved hyperparameters and mixing states can be restored", "statement": "Writing the hyperparameters of a prior model or the state of a mixing to a message and reading it into another object gives an object that answers all queries like the source. (Holds for the normal priors, the Pitman-Yor and truncated stick-breaking mixings. Violated: a restored Dirichlet mixing has the right log mass of a new cluster, which the source does not have; a mixture of finite mixtures keeps the table of coefficients of the object that is overwritten, a logit mixing its number of components, regression hyperparameters its inverse of the scaling, factor-analytic hyperparameters its dimension, so that prior draws are constant.)", "quantifier": "all states, target objects, counts, covariates and random numbers", "why_tests_cant": "All states and all targets; the tests restore into copies that were initialized with the same values.", "anchors": ["src/mixings/dirichlet_mixing.cc:set_state_from_proto", "src/mixings/mixture_finite_mixing.cc:set_state_from_proto", "src/mixings/logit_sb_mixing.cc:set_state_from_proto", "src/mixings/truncated_sb_mixing.cc:set_state_from_proto", "src/mixings/pityor_mixing.cc:set_state_from_proto", "src/hierarchies/priors/nw_prior_model.cc:set_hypers_from_proto", "src/hierarchies/priors/mnig_prior_model.cc:set_hypers_from_proto", "src/hierarchies/priors/fa_prior_model.cc:set_hypers_from_proto", "src/hierarchies/priors/fa_prior_model.cc:sample"]}
{"id": "C128", "title": "Empirical-Bayes initialization of factor-analytic hierarchies takes effect", "statement": "Called with data and without dimension and scales, set_fa_hyperparams_from_data sets the prior mean to the sample means and the scales to alpha0 - 1 times the residual variances, and the hierarchy then draws from the prior with these hyperparameters. (The values hold. Violated: the dimension stays zero, so that draws are constant; initialize, called by every run after the data are set, restores the old ones; alpha0 below one gives negative scales; without data a null pointer is followed.)", "quantifier": "all data sets with nonsingular covariance, hyperparameters and random numbers", "why_tests_cant": "Least residual variances over all linear combinations; all runs.", "anchors": ["src/hierarchies/fa_hierarchy.h:set_fa_hyperparams_from_data", "src/hierarchies/priors/fa_prior_model.cc:initialize_hypers", "src/hierarchies/priors/fa_prior_model.cc:sample"]}
{"id": "C129", "title": "Split-merge runs converge to the posterior over partitions", "statement": "With a conjugate hierarchy and fixed hyperparameters, from any initial labels and for any numbers of restricted scans and Metropolis-Hastings updates, no iteration of the split-merge algorithm fails, and the law of the partition converges geometrically in total variation to the posterior of the configured mixture. (Holds for the Pitman-Yor process with discount zero and at least one full scan per iteration, and for two rows with any discount and at least one full scan. Violated: with a Dirichlet process the limit has total mass one whatever the configured mass; with a positive discount the Metropolis-Hastings updates alone do not converge to the posterior, and on three rows full scans do not repair this; with no full scan, which is what a file that omits the number gets although the header says 1, the partition may alternate for ever.)", "quantifier": "all conjugate models, data, hyperparameters, numbers of rows, initial clusters, scans and updates, all numbers of iterations", "why_tests_cant": "About the law of unbounded runs over all partitions.", "anchors": ["src/algorithms/split_and_merge_algorithm.cc:read_params_from_proto,sample_allocations,compute_restricted_gs_unique_values,split_or_merge,restricted_gs,full_gs", "src/algorithms/base_algorithm.h:step,run"]}
{"id": "C130", "title": "The wrappers hand the program the inputs of the call and return what it wrote", "statement": "run_mcmc of the Python and of the R package start the program exactly once. At that moment the files named in its arguments hold the prior of the hierarchy, the prior of the mixing and the algorithm parameters of the call (the content of the file if the argument names one, the text otherwise), the data and the grid; the outputs asked for, and no others, are named, they are different files and none of them is an input. If the call returns, it returns what the program wrote into these files. This holds if the arguments name none of the ten files that are written in the working directory for another purpose. (Violated otherwise: a prior of the mixing in hier_params.asciipb of the output directory is overwritten by the prior of the hierarchy.)", "quantifier": "all arguments, directories, file systems and programs", "why_tests_cant": "All combinations of files that exist, texts and results that are asked for; the tests run one combination.", "anchors": ["python/bayesmixpy/run.py:run_mcmc", "python/bayesmixpy/io_utils.py:maybe_print_proto_to_file", "R/bayesmixr/R/run_mcmc.R:run_mcmc", "R/bayesmixr/R/utils.R:maybe_print_proto_to_file"]}
{"id": "C131", "title": "Averages over the stored iterations of split-merge runs are consistent estimates", "statement": "With a conjugate hierarchy, fixed hyperparameters and at least one full scan per iteration, from any initial labels and for any burn-in, a run of the split-merge algorithm does not fail and stores every iteration from the burn-in on; the average of any function of the partition over the stored iterations, for instance the share of iterations in which two rows are in one cluster, differs from its posterior mean by epsilon or more with probability at most 2 C^2 / (delta k epsilon^2), where k is the number of stored iterations. (Proved for discount zero and for two rows. Violated: with a Dirichlet process averages estimate the posterior with total mass one, whatever the configured mass; with a positive discount averages on three rows do not estimate the posterior.)", "quantifier": "all conjugate models, data, hyperparameters, numbers of rows, initial clusters, scans, updates, burn-ins and iterations, all functions of the partition", "why_tests_cant": "About the law of unbounded runs.", "anchors": ["src/algorithms/split_and_merge_algorithm.cc:sample_allocations", "src/algorithms/base_algorithm.h:step,run"]}
{"id": "C132", "title": "A run can always evaluate the masses of its mixing", "statement": "With every mixing that the marginal samplers accept, from any initialization, for any draws and any number of iterations, asking the mixing for the masses of the existing clusters and of a new one never fails and does not change what the iteration does to labels and clusters. (Holds for the Dirichlet and the Pitman-Yor process. Violated for the mixture of finite mixtures: when a row is moved while all other rows are alone, the table of coefficients, which has one entry less than needed, is read out of bounds; for every data set with at least two rows and every state there are labels, each drawn with positive probability, for which the first iteration does so, and with two rows every iteration does.)", "quantifier": "all hierarchies, data, numbers of rows, states, draws and numbers of iterations; Neal2, Neal3 and Neal8", "why_tests_cant": "The failing states have small probability in tests with many rows and few clusters, and reading one entry past the end of a vector is often not noticed.", "anchors": ["src/mixings/mixture_finite_mixing.cc:get_V_t,init_V_and_C", "src/algorithms/neal2_algorithm.cc:get_cluster_prior_mass,sample_allocations", "src/algorithms/neal8_algorithm.cc:get_cluster_prior_mass,sample_allocations"]}
{"id": "C133", "title": "The three ways to move a semi-HDP group have the same stationary distribution", "statement": "Whatever rest_allocs_update is set to (full, metro_base, metro_dist), moving a group between restaurants leaves the distribution as it is in which restaurant r has probability proportional to its concentration times the likelihood of the group under the mixture of the tables of r. (Holds for full and metro_base. Violated for metro_dist, which draws from a proposal that is not symmetric and does not correct for it; it holds for two restaurants. Any other value of the setting is not rejected, and groups never move.)", "quantifier": "all numbers of restaurants, tables, counts, observations and concentrations; restaurants in which no other group eats have the tables of the pseudo-prior", "why_tests_cant": "About the law of a move; the effect of a wrong acceptance probability is a small bias.", "anchors": ["src/algorithms/semihdp_sampler.cc:update_rest_allocs,lpdf_for_group,_compute_mixture_distance,reassign_group"]}
{"id": "C134", "title": "The semi-HDP pseudo-prior is a saved iteration with redrawn counts", "statement": "sample_pseudo_prior takes the tables of all restaurants from one saved iteration, perturbs their values as configured, and draws for each restaurant as many seats as the group has observations, with probabilities that mix the frequencies of the saved clusters with the uniform distribution. (The values are not perturbed: the call is commented out. A weight card_weight above one makes the draw throw, collectors of different lengths are read out of range, and perturb can return negative variances.)", "quantifier": "all saved states whose allocations point to their clusters, all weights, group sizes and draws", "why_tests_cant": "The outcome is random and the settings are unchecked real numbers.", "anchors": ["src/algorithms/semihdp_sampler.cc:sample_pseudo_prior,perturb"]}
{"id": "C135", "title": "Semi-HDP states can be saved", "statement": "A run of the semi-HDP sampler that collects states writes them to messages and ends normally. (Violated for every such run: get_state_as_proto passes messages of the type SemiHdpState::ClusterState, which the likelihoods cast to AlgorithmState::ClusterState; this fails an assertion, or is undefined behaviour in release builds.)", "quantifier": "all data, draws and numbers of iterations", "why_tests_cant": "In release builds the cast is not checked and the memory layouts of the two types happen to agree, so tests pass.", "anchors": ["src/algorithms/semihdp_sampler.cc:get_state_as_proto", "src/hierarchies/likelihoods/base_likelihood.h:write_state_to_proto,downcast_state"]}
{"id": "C136", "title": "The R chain reader agrees with the C++ reader", "statement": "read_many_proto_from_file of the R package returns for every chain file the same messages as the C++ collector. (Holds for complete files of messages that are not empty. Violated for an empty message at the end of the file, which is left out; for an empty message before another one, for which two other bytes are parsed; and for files cut in the middle of a message, whose missing bytes are taken to be zeros.)", "quantifier": "every list of messages of at most 2 GiB, every cut point inside a message", "why_tests_cant": "Needs all lengths and all cut points; files written by complete runs contain no empty messages.", "anchors": ["R/bayesmixr/R/utils.R:read_many_proto_from_file", "R/bayesmixr/R/decoder.R:VarintDecoder"]}
{"id": "C137", "title": "plot_mcmc shows the posterior it was given", "statement": "For every chain and grid whose outputs run_mcmc has written, plot_mcmc ends normally, draws at every grid point the mean over the states of the density (its logarithm in two dimensions), whatever the number of jobs that evaluated the densities, the number of clusters of every iteration in order, and their relative frequencies, and changes no other file. (Holds for grids of one column, and for square grids of two columns. Violated for rectangular grids, for grids of more columns, where an older figure is removed without a new one, and if a figure is given the name of the density file.)", "quantifier": "all chains, densities, one-dimensional grids and square grids, all command lines with distinct writable outputs", "why_tests_cant": "The chain, the grid and the file names are arbitrary; the figures are not compared with anything in tests.", "anchors": ["executables/plot_mcmc.cc:main", "src/plots/plot_utils.cc:density_plot_1d,density_plot_2d,num_clus_trace,num_clus_bar"]}
{"id": "C138", "title": "A prior on the mean of the base measure is sampled correctly along with the clusters", "statement": "With the Normal - Normal-inverse-Gamma hierarchy and a Normal prior on the mean of its base measure, an iteration of Neal2 or Neal8 (allocations, unique values, hyperparameters) keeps the joint posterior of that mean, the partition and the unique values: if the state has this law before the iteration, it has it afterwards, and no cluster object then holds saved hyperparameters. (Proved for the Pitman-Yor process. With a Dirichlet process the law that is kept is the one for total mass one, whatever the configured mass.)", "quantifier": "all data, hyperparameters, numbers of rows and auxiliary blocks, all measurable functions of mean, partition and values, all states without saved hyperparameters", "why_tests_cant": "About the law of random variables over all states; the update of the mean is only right if the values it gets are one per cluster, from the current iteration, and if all clusters use the new mean afterwards.", "anchors": ["src/algorithms/base_algorithm.h:step", "src/algorithms/base_algorithm.cc:update_hierarchy_hypers", "src/algorithms/neal2_algorithm.cc:sample_allocations", "src/algorithms/neal8_algorithm.cc:sample_allocations", "src/hierarchies/priors/nig_prior_model.cc:update_hypers"]}
{"id": "C139", "title": "The total mass of a Dirichlet process follows its full conditional", "statement": "With a gamma prior on the total mass, update_state leaves the full conditional of the total mass given the labels unchanged, that is the gamma prior times the probability of the labels under a Dirichlet process with that mass; and runs of any length do not fail. (Violated for every prior and all labels: the auxiliary variable is drawn from a gamma instead of a beta distribution. With a beta variable the rest of the function would be right. Whatever the rest of the iteration does, the probability that N updates do not throw is at most (1 - exp(-n exp(b)))^N, where n is the number of rows and b the rate of the prior.)", "quantifier": "all priors, labels, numbers of rows, states, measurable functions and numbers of iterations, every kernel for the rest of an iteration", "why_tests_cant": "About the law of the update; the exception is rare for many rows.", "anchors": ["src/mixings/dirichlet_mixing.cc:update_state", "src/algorithms/base_algorithm.h:step"]}
{"id": "C140", "title": "Density estimates of blocked Gibbs converge to the posterior predictive density", "statement": "With a conjugate hierarchy, fixed hyperparameters and truncated stick-breaking weights, the mean of the density estimate that lpdf_from_state of a conditional algorithm computes at a grid point from the state after k iterations of blocked Gibbs is finite and converges, as k grows, to the posterior predictive density at that point: the marginal density of the data together with the grid point over that of the data. (The means do converge geometrically to a limit that does not depend on the start, and the limit is the posterior predictive density if no object has stored hyperparameters. Violated from initialize: with one component the mean is the predictive density of the prior whatever the data; with two components the mean exceeds the posterior predictive density by a fixed amount far from the data, at every iteration.)", "quantifier": "all data sets, grid points, numbers of components, priors on the sticks, starting states and numbers of iterations", "why_tests_cant": "A limit over infinitely many iterations and a mean over all random choices; the target is a sum over all labellings of integrals over values and sticks.", "anchors": ["src/algorithms/conditional_algorithm.cc:lpdf_from_state", "src/algorithms/blocked_gibbs_algorithm.cc", "src/hierarchies/base_hierarchy.h:initialize", "src/mixings/truncated_sb_mixing.cc"]}
{"id": "C141", "title": "Averages of density estimates over a run of blocked Gibbs are consistent", "statement": "With a conjugate hierarchy, fixed hyperparameters and truncated stick-breaking weights, the average of the density estimates at a grid point over the states stored by a run of blocked Gibbs converges in probability, as more states are stored, to the posterior predictive density at that point, whatever the burn-in and the start. (The averages do converge, uniformly in start and burn-in, and to the posterior predictive density if no object has stored hyperparameters. Violated from initialize: with one component the limit is the predictive density of the prior; with two components, far from the data, the probability that the average is close to the posterior predictive density vanishes as the run gets longer.)", "quantifier": "all data sets, grid points, numbers of components, priors on the sticks, starting states, burn-ins, errors and probabilities", "why_tests_cant": "A limit over runs of unbounded length; densities are unbounded functions of the state, so no finite set of runs bounds the error.", "anchors": ["src/algorithms/base_algorithm.h:run", "src/algorithms/base_algorithm.cc:eval_lpdf", "src/algorithms/conditional_algorithm.cc:lpdf_from_state", "src/algorithms/blocked_gibbs_algorithm.cc", "src/hierarchies/base_hierarchy.h:initialize"]}
{"id": "C142", "title": "The split-merge sampler can run with every mixing", "statement": "The split-merge sampler asks its mixing for masses of existing and new clusters in the restricted scans, in the acceptance ratio and in the full scans. With a Dirichlet process, a Pitman-Yor process or a mixture of finite mixtures, an iteration from a consistent state never reads outside of the memory of the mixing object, and the numbers it uses are those of the configured prior for the number of rows of the data.", "quantifier": "all data sets of two rows or more, states that the sampler keeps, numbers of moves and scans, rows and labels drawn, states of the mixing", "why_tests_cant": "The mixing caches a table whose length depends on which pair of rows the first move of the run happens to draw; reading past its end is undefined behaviour, which a test need not notice.", "anchors": ["src/algorithms/split_and_merge_algorithm.cc:restricted_gs", "src/algorithms/split_and_merge_algorithm.cc:compute_log_ratios", "src/algorithms/split_and_merge_algorithm.cc:full_gs", "src/mixings/mixture_finite_mixing.cc:get_V_t"]}
{"id": "C143", "title": "A finite mixture keeps its number of components in the slice sampler", "statement": "When the slice sampler runs with a stick-breaking mixture that is configured as finite (infinite_mixture false), every iteration ends with the configured number of components, weights that sum to one, and each row in one of these components. (True of an iteration that starts with a row in the last component. Violated otherwise: the sticks after the largest label in use are dropped and broken again without bound, so the iteration can end with any number of components above the labels in use, with weights that sum to less than one and with rows in components that the mixture does not have.)", "quantifier": "all data sets, priors on the sticks, numbers of components, states that the sampler keeps, draws", "why_tests_cant": "The number of components after an iteration depends on real-valued draws without bound; a test would have to hit an empty last component and can only look at some numbers of components.", "anchors": ["src/algorithms/slice_sampler.cc:sample_weights", "src/mixings/truncated_sb_mixing.cc:update_state", "src/mixings/truncated_sb_mixing.cc:keep_breaking"]}
{"id": "C144", "title": "Mixings accept exactly the parameters of a probability model", "statement": "Initializing a mixing succeeds exactly with the parameters for which its prior is a probability model, throws otherwise, and leaves the object with the given parameters: for the Dirichlet and Pitman-Yor processes those with which the predictive probabilities are positive and sum to one for every partition, for the mixture of finite mixtures a positive Poisson mean and a positive Dirichlet parameter, for truncated stick-breaking one Beta distribution for each component, for logit stick-breaking at least one component, a normal prior of consistent size with positive definite variance and a positive step. (True of the first three. Violated by truncated stick-breaking, which accepts no components, a last pair of shapes with any sign, and a Pitman-Yor strength that is not positive, and whose updates then throw; and by logit stick-breaking, which does not reject a prior without components and then runs into signed overflow.)", "quantifier": "all parameters, numbers of components, sizes of vectors and matrices", "why_tests_cant": "The domains of the parameters are continua; that the accepted ones are exactly those with which all partitions of all data sizes have predictive probabilities is a statement about infinitely many partitions.", "anchors": ["src/mixings/base_mixing.h:initialize", "src/mixings/dirichlet_mixing.cc:initialize_state", "src/mixings/pityor_mixing.cc:initialize_state", "src/mixings/mixture_finite_mixing.cc:initialize_state", "src/mixings/truncated_sb_mixing.cc:initialize_state", "src/mixings/logit_sb_mixing.cc:initialize_state"]}
{"id": "C145", "title": "Prior models report the density of unconstrained parameters", "statement": "The log density that a prior model reports for unconstrained parameters is the log density of the unconstrained coordinates of a state that has the law of the prior, so it includes the change of variables. (True of the normal-inverse-Gamma prior. Violated by the prior of the Laplace hierarchy, which throws.)", "quantifier": "all hyperparameters and all unconstrained parameters", "why_tests_cant": "An equality of two measures on the plane; a test can compare two formulas at some points but not a density with a law.", "anchors": ["src/hierarchies/priors/nig_prior_model.h:lpdf_from_unconstrained", "src/hierarchies/priors/nxig_prior_model.h", "src/hierarchies/priors/prior_model_internal.h:lpdf_from_unconstrained", "src/hierarchies/likelihoods/states/uni_ls_state.h:get_unconstrained"]}
{"id": "C146", "title": "The Laplace hierarchy runs with the updater that the program gives it", "statement": "With the Laplace hierarchy, algorithms that need a conjugate hierarchy refuse to start and all others run: initialization succeeds, every iteration completes and leaves a consistent state. (True of Neal8 and blocked Gibbs if the updater is a random walk with positive step. Violated with the Langevin updater, which is the default one, whatever its step: initialization succeeds and then the first iteration of Neal8, of blocked Gibbs and of the slice sampler throws, for all data and all draws.)", "quantifier": "all data sets, initial numbers of clusters, step sizes, gradients, draws, numbers of iterations", "why_tests_cant": "That a run fails for every data set and every stream of random numbers, or completes for every one, cannot be seen from some runs.", "anchors": ["src/hierarchies/lapnig_hierarchy.h", "src/hierarchies/updaters/mala_updater.h", "src/hierarchies/priors/nxig_prior_model.h", "src/algorithms/neal8_algorithm.cc", "src/algorithms/blocked_gibbs_algorithm.cc", "src/algorithms/slice_sampler.cc"]}
{"id": "C147", "title": "Prior models accept exactly proper priors", "statement": "Initializing a prior model succeeds exactly with parameters for which the prior is proper (its kernel has a finite integral), throws otherwise, and takes the given parameters as hyperparameters. (True of all fixed priors, of the normal-Gamma-Gamma prior, of the factor-analytic prior and of the Normal-Wishart prior with a normal mean. Violated by the normal-inverse-Gamma prior with a normal mean, which does not look at the variance of the mean, and by the Normal-Wishart prior with a random scale, which accepts an inverse Wishart prior with any positive number of degrees of freedom.)", "quantifier": "all dimensions, real parameters and symmetric matrices", "why_tests_cant": "The parameters form continua, and whether a kernel on the space of symmetric matrices of any dimension has a finite integral is not something that a run of the program can show.", "anchors": ["src/hierarchies/priors/nig_prior_model.cc:initialize_hypers", "src/hierarchies/priors/nxig_prior_model.cc:initialize_hypers", "src/hierarchies/priors/nw_prior_model.cc:initialize_hypers", "src/hierarchies/priors/mnig_prior_model.cc:initialize_hypers", "src/hierarchies/priors/fa_prior_model.cc:initialize_hypers", "examples/gamma_hierarchy/gamma_prior_model.h:initialize_hypers"]}
{"id": "C148", "title": "Runs use the executable of the last successful build", "statement": "After any sequence of builds, runs and restarts, run_mcmc of the Python and R packages calls the executable of the last build that succeeded; a build that fails reports an error and leaves the configured executable as it was. (True of R: whatever the variables of the processes are, and before the first successful build runs are refused. Violated by Python: the exit status of cmake and make is dropped, so a failed build returns True and new processes call an executable that was never built; and within a process that has run once, later builds make no difference.)", "quantifier": "all sequences of builds, runs, restarts, all exit statuses, directories and environments", "why_tests_cant": "About every sequence of calls across processes; build failures are not exercised by tests.", "anchors": ["python/bayesmixpy/build_bayesmix.py:build_bayesmix", "python/bayesmixpy/shell_utils.py:run_shell", "python/bayesmixpy/run.py:run_mcmc", "R/bayesmixr/R/build_bayesmix.R:build_bayesmix", "R/bayesmixr/R/run_mcmc.R:run_mcmc", "R/bayesmixr/R/zzz.R"]}
{"id": "C149", "title": "Updating the logit stick-breaking coefficients keeps their distribution given the labels", "statement": "If the coefficient columns of the logit stick-breaking mixing have their distribution given the labels and the random numbers are independent, the columns have this distribution after update_state. (Violated: the acceptance test evaluates the backward proposal density around the wrong mean. For a column that no row reaches, whose target is its prior with independent normal coefficients of one variance, the distribution is kept exactly if the step size is this variance; with any other step the coefficients take another distribution.)", "quantifier": "all step sizes, prior means and variances, numbers of components, covariates and labels, with real-valued coefficients", "why_tests_cant": "Equality of two distributions; a run shows only one sample path, and the deviation is a bias that no finite number of draws separates from noise for all step sizes.", "anchors": ["src/mixings/logit_sb_mixing.cc:update_state", "src/mixings/logit_sb_mixing.cc:full_cond_lpdf", "src/mixings/logit_sb_mixing.cc:grad_full_cond_lpdf"]}
{"id": "C150", "title": "Updates of Normal-inverse-Gamma hyperparameters keep their law together with the clusters", "statement": "If the hyperparameters of a Normal-inverse-Gamma prior are drawn from their configured prior and the parameters of the clusters independently from the base measure with these hyperparameters, the joint distribution is the same after update_hypers. (Proved with fixed values and with a Normal prior on the mean, for any number of clusters. With the Normal-Gamma-Gamma prior the distribution changes, for every accepted prior and every positive number of clusters.)", "quantifier": "all priors with positive parameters, all numbers of clusters, all measurable functions of hyperparameters and cluster parameters, all generators with the right laws", "why_tests_cant": "About the law of random variables; a sampler that draws the mean with a wrong spread, or the scaling given an outdated mean, produces plausible values in every single run.", "anchors": ["src/hierarchies/priors/nig_prior_model.cc:update_hypers", "src/hierarchies/priors/nig_prior_model.cc:initialize_hypers", "src/algorithms/base_algorithm.cc:update_hierarchy_hypers"]}
{"id": "C151", "title": "Drawing the state of a Normal x inverse Gamma cluster keeps its posterior law", "statement": "If mean and variance of a cluster of the NNxIG hierarchy have the distribution proportional to likelihood of its rows times prior, they have this distribution after a draw of the full conditional. (Violated for every accepted prior, every data set and every cluster with at least one row: both parameters are drawn given the old state. The only law that the draw keeps is the one under which mean and variance have their posterior laws but are independent. Proved for clusters without rows.)", "quantifier": "all priors accepted by initialize_hypers, all data, all sequences of added and removed rows, all measurable functions of the state, all generators with the right laws", "why_tests_cant": "About the stationary law of the sampler: the marginal histograms of a run agree with the posterior, only the dependence between mean and variance is lost, and no single draw shows it.", "anchors": ["src/hierarchies/updaters/semi_conjugate_updater.h:draw", "src/hierarchies/updaters/nnxig_updater.cc:compute_posterior_hypers", "src/hierarchies/priors/nxig_prior_model.cc:sample"]}
{"id": "C152", "title": "Blocked Gibbs with the Normal x inverse Gamma hierarchy has the posterior as stationary law", "statement": "With the NNxIG hierarchy and a truncated stick-breaking mixing, if labels, component parameters and sticks have the posterior distribution given the data, they have it after one iteration of the blocked Gibbs algorithm. (Violated for every accepted prior, every data set with at least one row and every number of components: the component parameters are drawn with SemiConjugateUpdater::draw, which loses the dependence between mean and variance. For the conjugate hierarchies the property is C100.)", "quantifier": "all priors accepted by initialize_hypers, all data, all numbers of rows and components, all stick parameters, all measurable functions of labels, values and sticks, all generators with the right laws", "why_tests_cant": "About the stationary law of a Markov chain on an infinite state space; every single iteration looks plausible.", "anchors": ["src/algorithms/blocked_gibbs_algorithm.cc:sample_unique_values", "src/algorithms/conditional_algorithm.h:step", "src/hierarchies/updaters/semi_conjugate_updater.h:draw", "src/hierarchies/updaters/nnxig_updater.cc:compute_posterior_hypers"]}
{"id": "C153", "title": "Neal8 with the Normal x inverse Gamma hierarchy has the posterior as stationary law", "statement": "With the NNxIG hierarchy, if partition and unique values have the posterior distribution given the data, they have it after one iteration of Neal8. (Violated for every accepted prior, every data set with at least two rows and every number of auxiliary blocks: the sweep over the rows keeps the posterior, the following draw of the unique values does not. For the conjugate hierarchies the property is C116.)", "quantifier": "all priors accepted by initialize_hypers, all Pitman-Yor parameters accepted, all data, all numbers of rows and auxiliary blocks, all measurable functions of partition and values, all generators with the right laws", "why_tests_cant": "About the stationary law of a Markov chain on an infinite state space; every single iteration looks plausible.", "anchors": ["src/algorithms/neal2_algorithm.cc:sample_unique_values", "src/algorithms/neal8_algorithm.cc:sample_allocations", "src/hierarchies/updaters/semi_conjugate_updater.h:draw", "src/hierarchies/updaters/nnxig_updater.cc:compute_posterior_hypers"]}
{"id": "C154", "title": "With the Normal-Gamma-Gamma hyperprior the marginal samplers have the joint posterior as stationary law", "statement": "With the NNIG hierarchy and a Normal-Gamma-Gamma prior on its hyperparameters, if hyperparameters, partition and unique values have their joint posterior distribution given the data, they have it after one iteration of Neal2 or Neal8. (Violated for every accepted prior, every data set with at least two rows and every number of auxiliary blocks: the steps for allocations and unique values keep it, the step for the hyperparameters does not. With a Normal prior on the mean the property is C138.)", "quantifier": "all priors with positive parameters, all Pitman-Yor parameters accepted, all data, all numbers of rows and auxiliary blocks, all generators with the right laws", "why_tests_cant": "About the stationary law of a Markov chain on an infinite state space; the drawn hyperparameters look plausible in every iteration.", "anchors": ["src/algorithms/base_algorithm.h:step", "src/hierarchies/priors/nig_prior_model.cc:update_hypers", "src/algorithms/neal2_algorithm.cc:sample_allocations", "src/algorithms/neal8_algorithm.cc:sample_allocations"]}
{"id": "C155", "title": "With the Normal-Gamma-Gamma hyperprior blocked Gibbs has the joint posterior as stationary law", "statement": "With the NNIG hierarchy, a truncated stick-breaking mixing and a Normal-Gamma-Gamma prior on the hyperparameters, if labels, unique values, sticks and hyperparameters have their joint posterior distribution given the data, they have it after one iteration of blocked Gibbs. (Violated for every accepted prior, every data set and every number of components, also for a single one.)", "quantifier": "all priors with positive parameters, all data, all numbers of rows and components, all generators with the right laws", "why_tests_cant": "About the stationary law of a Markov chain on an infinite state space; the drawn hyperparameters look plausible in every iteration.", "anchors": ["src/algorithms/base_algorithm.h:step", "src/algorithms/blocked_gibbs_algorithm.cc:sample_allocations", "src/hierarchies/priors/nig_prior_model.cc:update_hypers", "src/mixings/truncated_sb_mixing.cc:update_state"]}
{"id": "C156", "title": "With a Normal prior on the mean of the base measure Neal3 has the joint posterior as stationary law", "statement": "With the NNIG hierarchy and a Normal prior on the mean of the base measure, if mean, partition and unique values have their joint posterior distribution given the data, they have it after every iteration of Neal3. (Proved for an iteration from states in which all clusters hold the posterior hyperparameters for the current mean. The update of the mean leaves, with probability one, every cluster with saved hyperparameters that are not those for the new mean, so that the next iteration does not start from such a state. With a Dirichlet process the posterior is that for total mass one.)", "quantifier": "all Normal priors on the mean with positive variance, all base measures, all Pitman-Yor parameters accepted, all data, all numbers of rows, all measurable functions of mean, partition and values, all generators with the right laws", "why_tests_cant": "About the stationary law of a Markov chain on an infinite state space; outdated saved hyperparameters give plausible draws.", "anchors": ["src/algorithms/base_algorithm.h:step", "src/algorithms/neal3_algorithm.cc:get_cluster_lpdf", "src/algorithms/base_algorithm.cc:update_hierarchy_hypers", "src/hierarchies/priors/nig_prior_model.cc:update_hypers"]}
