{"id": "C01", "title": "Random permutation is a uniform permutation", "statement": "uniform_permutation(N) returns, for every outcome of its random draws, a rearrangement of 0..N-1, and every one of the N! rearrangements is produced by exactly one of the N! equally likely draw sequences, so the output is uniform.", "quantifier": "every N and every sequence of draws j_i in [0,i]", "why_tests_cant": "there are N! outcomes; a test samples a few of them for small N and can only check uniformity statistically", "anchors": ["dppy/exotic_dpps_core.py:uniform_permutation"]}
{"id": "C02", "title": "RSK returns a pair of tableaux of the same shape", "statement": "RSK(sequence) returns P and Q of the same shape; row lengths are positive and non-increasing; rows of P are weakly increasing and its columns strictly increasing; Q is a standard tableau: rows and columns strictly increasing and entries exactly 1..n; the entries of P are exactly the entries of the input, with multiplicity.", "quantifier": "every finite sequence of numbers, including repeated values", "why_tests_cant": "the insertion touches an unbounded number of rows; only an induction over the insertion covers every input", "anchors": ["dppy/exotic_dpps_core.py:RSK"]}
{"id": "C03", "title": "RSK loses no information", "statement": "Two different sequences never give the same pair (P, Q): the sequence can be recovered from the two tableaux.", "quantifier": "every pair of finite sequences", "why_tests_cant": "injectivity is a statement over pairs of unbounded inputs", "anchors": ["dppy/exotic_dpps_core.py:RSK"]}
{"id": "C04", "title": "First row of RSK measures the longest non-decreasing subsequence (Schensted)", "statement": "The length of the first row of the tableau returned by RSK(sequence) equals the length of a longest non-decreasing subsequence of the sequence.", "quantifier": "every finite sequence", "why_tests_cant": "the maximum ranges over all 2^n subsequences of every input", "anchors": ["dppy/exotic_dpps_core.py:RSK"]}
{"id": "C05", "title": "Carries process samples the positions of carries", "statement": "CarriesProcess.sample returns, in increasing order, exactly the positions i in 1..size-1 at which a carry is produced when the column of drawn digits is added in the given base.", "quantifier": "every base >= 1, every size and every sequence of digits", "why_tests_cant": "holds for all digit strings; tests sample", "anchors": ["dppy/exotic_dpps.py:CarriesProcess.sample"]}
{"id": "C06", "title": "Descent process samples the descent set", "statement": "DescentProcess.sample returns, in increasing order, exactly the 1-based descent positions of the drawn permutation.", "quantifier": "every size and every permutation", "why_tests_cant": "n! permutations", "anchors": ["dppy/exotic_dpps.py:DescentProcess.sample"]}
{"id": "C07", "title": "Virtual descent process stays in its ground set and degenerates correctly", "statement": "VirtualDescentProcess(x_0) is rejected with ValueError iff x_0 is outside [0,1]; otherwise every sample is a strictly increasing list of indices below size, and position i belongs to it exactly when the auxiliary coin at i is off and either the coin at i+1 is on or i is a descent of the permutation.", "quantifier": "every x_0, size, permutation and coin sequence", "why_tests_cant": "combinatorially many coin/permutation pairs", "anchors": ["dppy/exotic_dpps.py:VirtualDescentProcess.__init__", "dppy/exotic_dpps.py:VirtualDescentProcess.sample"]}
{"id": "C08", "title": "Poissonised Plancherel sample encodes a Young diagram without collision", "statement": "PoissonizedPlancherel.sample returns a strictly decreasing sequence of half-integers (lambda_i - i + 1/2) from which the Young diagram can be recovered, so two different diagrams give different samples.", "quantifier": "every permutation drawn", "why_tests_cant": "unbounded diagrams", "anchors": ["dppy/exotic_dpps.py:PoissonizedPlancherel.sample"]}
{"id": "C09", "title": "Multivariate Jacobi ordering enumerates multi-indices by layers", "statement": "compute_ordering(N, d) returns exactly N pairwise distinct multi-indices of N^d; maximal degree never decreases along the list; before any index of maximal degree m, every multi-index of smaller maximal degree has appeared; and the list for N is a prefix of the list for any N' >= N.", "quantifier": "every N >= 1 and d >= 1", "why_tests_cant": "infinite family of (N, d); tests use small values and miss the int16 cast", "anchors": ["dppy/multivariate_jacobi_ope.py:compute_ordering"]}
{"id": "C10", "title": "Degrees of 1D polynomials cover the ordering tightly", "statement": "compute_degrees_1D_polynomials(max_degrees) gives per-dimension evaluation degrees such that every multi-index of the ordering only uses 1D polynomials that are evaluated, and the recorded max degree is attained.", "quantifier": "every ordering", "why_tests_cant": "all orderings", "anchors": ["dppy/multivariate_jacobi_ope.py:compute_degrees_1D_polynomials"]}
{"id": "C11", "title": "Wilson's algorithm returns a spanning tree", "statement": "Whenever UST.sample(mode='Wilson') (ust_sampler_wilson) returns on a connected graph with at least two nodes, the returned graph uses only edges of the input graph and is a spanning tree of it (connected, acyclic, n-1 edges), whatever the sequence of random neighbour choices and restarts.", "quantifier": "every connected simple graph and every terminating sequence of random choices", "why_tests_cant": "the random walk is unbounded and its loop-erasure has unboundedly many histories", "anchors": ["dppy/exotic_dpps_core.py:ust_sampler_wilson", "dppy/exotic_dpps.py:UST.sample"]}
{"id": "C12", "title": "Aldous-Broder returns a spanning tree", "statement": "Whenever ust_sampler_aldous_broder returns on a graph, the returned edges are edges of the graph and form a spanning tree, whatever the walk.", "quantifier": "every graph and every covering walk", "why_tests_cant": "unbounded walks", "anchors": ["dppy/exotic_dpps_core.py:ust_sampler_aldous_broder"]}
{"id": "C13", "title": "UST mode dispatch", "statement": "UST.sample accepts exactly Wilson, Aldous-Broder, GS, Schur and Chol, records exactly one new sample per successful call, and rejects any other mode with ValueError leaving the recorded samples unchanged.", "quantifier": "every mode string and history of calls", "why_tests_cant": "all strings and call histories", "anchors": ["dppy/exotic_dpps.py:UST.sample"]}
{"id": "C14", "title": "Elementary symmetric polynomial table", "statement": "elementary_symmetric_polynomials(lambda, k)[l, n] equals the l-th elementary symmetric polynomial of the first n values, for all l <= k and n <= N.", "quantifier": "every vector of values over any commutative ring and every k", "why_tests_cant": "infinitely many vectors/sizes", "anchors": ["dppy/exact_sampling.py:elementary_symmetric_polynomials"]}
{"id": "C15", "title": "k-DPP eigenvector selection has exactly k distinct indices", "statement": "For non-negative eigenvalues with at least k positive ones and 1 <= k <= N, k_dpp_eig_vecs_selector returns exactly k strictly increasing valid indices for every value of the uniform draws in [0,1); if fewer than k eigenvalues exceed the tolerance it raises ValueError.", "quantifier": "every eigenvalue vector, every k, every draw sequence", "why_tests_cant": "the draws are a continuum; the last-chance boundary (ratio exactly 1) is rarely hit", "anchors": ["dppy/exact_sampling.py:k_dpp_eig_vecs_selector"]}
{"id": "C16", "title": "k-DPP eigenvector selection has the right law", "statement": "k_dpp_eig_vecs_selector selects J with probability prod_{j in J} lambda_j / e_k(lambda) for every J of size k.", "quantifier": "every non-negative spectrum with e_k>0 and every J", "why_tests_cant": "a probability law can only be checked statistically", "anchors": ["dppy/exact_sampling.py:k_dpp_eig_vecs_selector"]}
{"id": "C17", "title": "DPP eigenvector selection has the right law", "statement": "dpp_eig_vecs_selector keeps the set J of eigenvectors with probability prod_{j in J} lambda_j prod_{j notin J} (1-lambda_j); the probabilities over all J sum to one.", "quantifier": "every spectrum in [0,1]", "why_tests_cant": "probability law", "anchors": ["dppy/exact_sampling.py:dpp_eig_vecs_selector"]}
{"id": "C18", "title": "Generic-kernel sampler: exact law of the output set", "statement": "dpp_sampler_generic_kernel(K) outputs the set S with probability |det(K - I_{S^c})| for every S, and these sum to one, for every correlation kernel K whose conditional inclusion probabilities stay in [0,1] (no zero pivot), Hermitian or not.", "quantifier": "every kernel and every subset", "why_tests_cant": "2^N outcomes with real probabilities", "anchors": ["dppy/exact_sampling.py:dpp_sampler_generic_kernel"]}
{"id": "C19", "title": "Generic-kernel sampler: inclusion probabilities", "statement": "For the set X returned by dpp_sampler_generic_kernel(K), P(T subset of X) = det K_T for every T: it is the DPP with correlation kernel K.", "quantifier": "every kernel and every T", "why_tests_cant": "probability law", "anchors": ["dppy/exact_sampling.py:dpp_sampler_generic_kernel"]}
{"id": "C20", "title": "Projection DPP sampler (GS) outputs size distinct items", "statement": "proj_dpp_sampler_kernel in GS mode returns exactly size distinct items of the ground set for every outcome of positive probability, and at every step the candidate weights it passes to the random choice are non-negative and sum to one.", "quantifier": "every orthogonal projection kernel, every requested size = rank, every outcome", "why_tests_cant": "continuum of kernels/outcomes", "anchors": ["dppy/exact_sampling.py:proj_dpp_sampler_kernel_GS"]}
{"id": "C21", "title": "Projection DPP sampler (GS) has the right law", "statement": "For an orthogonal projection kernel K of rank r the GS sampler returns the set S with |S|=r with probability det K_S.", "quantifier": "every projection kernel and S", "why_tests_cant": "probability law", "anchors": ["dppy/exact_sampling.py:proj_dpp_sampler_kernel_GS"]}
{"id": "C22", "title": "Schur and Chol modes compute the same conditionals as GS", "statement": "For the same history of selected items, modes 'Schur' and 'Chol' of the projection sampler use the same conditional probabilities as 'GS', namely det K_{Y+i} / det K_Y, hence the three modes have the same law.", "quantifier": "every Hermitian kernel and every selection history with non-zero minors", "why_tests_cant": "equality of real-valued functions over all histories", "anchors": ["dppy/exact_sampling.py:proj_dpp_sampler_kernel_Schur", "dppy/exact_sampling.py:proj_dpp_sampler_kernel_Chol"]}
{"id": "C23", "title": "Eigenvector-based samplers compute the same conditionals", "statement": "proj_dpp_sampler_eig modes GS and GS_bis, given orthonormal eigenvectors V, use the conditional probabilities of the projection DPP with kernel V V^*, so drawing from eigenvectors or from the kernel is the same.", "quantifier": "every V with orthonormal columns and every history", "why_tests_cant": "equality over all histories", "anchors": ["dppy/exact_sampling.py:proj_dpp_sampler_eig_GS", "dppy/exact_sampling.py:proj_dpp_sampler_eig_GS_bis"]}
{"id": "C24", "title": "Spectral two-step sampling is the DPP", "statement": "Selecting eigenvectors with dpp_eig_vecs_selector and then running the projection sampler on them yields the set S with probability det(L_S)/det(I+L), equivalently the DPP with kernel K = L(I+L)^{-1}; with k_dpp_eig_vecs_selector it yields the k-DPP law det(L_S)/e_k.", "quantifier": "every spectral decomposition and every S", "why_tests_cant": "probability law", "anchors": ["dppy/finite_dpps.py:FiniteDPP.sample_exact", "dppy/exact_sampling.py:dpp_eig_vecs_selector", "dppy/exact_sampling.py:proj_dpp_sampler_eig"]}
{"id": "C25", "title": "Mode and size validation of projection samplers", "statement": "proj_dpp_sampler_kernel raises ValueError exactly when size exceeds the rank or the mode is not one of GS, Chol, Schur; proj_dpp_sampler_eig raises ValueError exactly when the mode is not GS, GS_bis or KuTa12.", "quantifier": "every size, rank, mode string", "why_tests_cant": "all strings", "anchors": ["dppy/exact_sampling.py:proj_dpp_sampler_kernel", "dppy/exact_sampling.py:proj_dpp_sampler_eig"]}
{"id": "C26", "title": "Correlation and likelihood kernels correspond", "statement": "compute_L after compute_K (and vice versa) recovers the original kernel: K = L(I+L)^{-1} and L = K(I-K)^{-1} are mutually inverse, K eigenvalues lie in [0,1), and a correlation projection kernel has no likelihood kernel and raises ValueError.", "quantifier": "every admissible kernel", "why_tests_cant": "continuum", "anchors": ["dppy/finite_dpps.py:FiniteDPP.compute_K", "dppy/finite_dpps.py:FiniteDPP.compute_L"]}
{"id": "C27", "title": "Dual representation gives the same spectrum", "statement": "With L = Phi^T Phi given by L_gram_factor, the eigenvectors reconstructed from the dual kernel Phi Phi^T are orthonormal eigenvectors of L for its non-zero eigenvalues and L is recovered from them.", "quantifier": "every feature matrix Phi with positive dual eigenvalues", "why_tests_cant": "continuum", "anchors": ["dppy/finite_dpps.py:FiniteDPP.sample_exact", "dppy/finite_dpps.py:FiniteDPP.compute_L"]}
{"id": "C28", "title": "FiniteDPP constructor decision logic", "statement": "FiniteDPP(kernel_type, projection, **params) accepts exactly the documented combinations of kernel type and parameter keys, raises ValueError otherwise, and a non-boolean projection raises ValueError.", "quantifier": "every combination of arguments", "why_tests_cant": "the combinations of keys are exponentially many", "anchors": ["dppy/finite_dpps.py:FiniteDPP.__init__", "dppy/finite_dpps.py:FiniteDPP.__check_args_coherence"]}
{"id": "C29", "title": "One recorded sample per successful call", "statement": "Over any history of sample_exact, sample_exact_k_dpp, sample_mcmc, sample_mcmc_k_dpp and flush_samples calls, list_of_samples holds exactly the samples returned since the last flush, in order, and a failing call records nothing.", "quantifier": "every history of calls", "why_tests_cant": "unbounded histories", "anchors": ["dppy/finite_dpps.py:FiniteDPP.sample_exact", "dppy/finite_dpps.py:FiniteDPP.sample_exact_k_dpp", "dppy/finite_dpps.py:FiniteDPP.flush_samples"]}
{"id": "C30", "title": "k-DPP sampling with varying sizes uses a large enough table", "statement": "Successive calls sample_exact_k_dpp(size=k1), sample_exact_k_dpp(size=k2), ... on one object behave like calls on fresh objects: the cached elementary-symmetric-polynomial table always covers the requested size.", "quantifier": "every sequence of sizes", "why_tests_cant": "bug appears only for particular histories (an increasing size)", "anchors": ["dppy/finite_dpps.py:FiniteDPP.sample_exact_k_dpp"]}
{"id": "C31", "title": "Lazy kernel computation terminates and stays coherent", "statement": "For every object accepted by the constructor with at least one non-None kernel parameter, compute_K, compute_L and the sample_exact dispatch terminate, and quantities computed once are not recomputed or changed by later calls.", "quantifier": "every initial parameterisation and call history", "why_tests_cant": "mutual recursion over object states", "anchors": ["dppy/finite_dpps.py:FiniteDPP.compute_K", "dppy/finite_dpps.py:FiniteDPP.compute_L", "dppy/finite_dpps.py:FiniteDPP.sample_exact"]}
{"id": "C32", "title": "Intermediate-sampling caches are keyed by what they depend on", "statement": "After any history of vfx/alpha exact DPP and k-DPP calls, sample_exact(mode='vfx'|'alpha') targets the DPP of the user's L (rescaling 1) with pre-computed data of the matching algorithm.", "quantifier": "every history of calls with mixed modes", "why_tests_cant": "history dependent", "anchors": ["dppy/exact_sampling.py:dpp_vfx_sampler", "dppy/exact_sampling.py:alpha_dpp_sampler", "dppy/exact_sampling.py:k_dpp_vfx_sampler", "dppy/exact_sampling.py:alpha_k_dpp_sampler"]}
{"id": "C33", "title": "k-DPP by rejection returns exactly k items", "statement": "k_dpp_vfx_sampler and alpha_k_dpp_sampler either raise or return a sample of exactly the requested size.", "quantifier": "every behaviour of the inner sampler and every number of trials", "why_tests_cant": "unbounded adaptive loops", "anchors": ["dppy/exact_sampling.py:k_dpp_vfx_sampler", "dppy/exact_sampling.py:alpha_k_dpp_sampler"]}
{"id": "C34", "title": "alpha binary search brackets", "statement": "During alpha_k_dpp_sampler the search interval satisfies 0 < alpha_min <= alpha_hat <= alpha_max, only shrinks, and early stopping/forced updates follow the observed under/over counts.", "quantifier": "every sequence of inner sample sizes", "why_tests_cant": "unbounded adaptive loops", "anchors": ["dppy/exact_sampling.py:alpha_k_dpp_sampler"]}
{"id": "C35", "title": "MCMC chains visit only valid states", "statement": "Every state of the chain returned by the add-exchange-delete, add-delete and exchange samplers is a duplicate-free subset of the ground set with positive determinant, consecutive states differ by at most one addition, deletion or exchange, and exchange chains keep the size.", "quantifier": "every kernel, initial state and sequence of random draws", "why_tests_cant": "unbounded chains", "anchors": ["dppy/mcmc_sampling.py:add_exchange_delete_sampler", "dppy/mcmc_sampling.py:add_delete_sampler", "dppy/mcmc_sampling.py:basis_exchange_sampler"]}
{"id": "C36", "title": "MCMC chain length", "statement": "Without a time limit the chain has exactly nb_iter states; with a time limit the chain is a valid prefix of at least the iterations run within that time.", "quantifier": "every nb_iter, T_max and clock behaviour", "why_tests_cant": "depends on the clock", "anchors": ["dppy/mcmc_sampling.py"]}
{"id": "C37", "title": "Add-delete chain is reversible for the DPP", "statement": "The transition kernel of the add-delete sampler satisfies detailed balance with respect to det L_S.", "quantifier": "every L-ensemble kernel and pair of states", "why_tests_cant": "real-valued identity for all states", "anchors": ["dppy/mcmc_sampling.py:add_delete_sampler"]}
{"id": "C38", "title": "Exchange chain is reversible for the k-DPP / projection DPP", "statement": "The transition kernel of the exchange sampler satisfies detailed balance with respect to det of the kernel restricted to S on sets of fixed size.", "quantifier": "every kernel and pair of states", "why_tests_cant": "real-valued identity", "anchors": ["dppy/mcmc_sampling.py:basis_exchange_sampler"]}
{"id": "C39", "title": "Add-exchange-delete chain is reversible for the DPP", "statement": "The transition kernel of the add-exchange-delete sampler satisfies detailed balance with respect to det L_S.", "quantifier": "every L-ensemble kernel and pair of states", "why_tests_cant": "bias is invisible to smoke tests", "anchors": ["dppy/mcmc_sampling.py:add_exchange_delete_sampler"]}
{"id": "C40", "title": "MCMC initialisation", "statement": "The initialisation returns a set whose determinant exceeds the tolerance, or raises ValueError when none of the 100 trial sets does.", "quantifier": "every sequence of trial draws", "why_tests_cant": "the last trial is hit with vanishing probability", "anchors": ["dppy/mcmc_sampling.py:initialize_AED_sampler", "dppy/mcmc_sampling.py:initialize_AD_and_E_sampler"]}
{"id": "C41", "title": "Zonotope sampler returns bases", "statement": "Every recorded state of zonotope_sampler is a set of r distinct column indices whose columns are linearly independent; a proposed tile is accepted with the ratio |det B1 / det B0| of their volumes.", "quantifier": "every LP outcome and draw", "why_tests_cant": "LP geometry", "anchors": ["dppy/mcmc_sampling.py:zonotope_sampler", "dppy/mcmc_sampling.py:extract_basis"]}
{"id": "C42", "title": "Rejection loop bookkeeping of intermediate samplers", "statement": "vfx_sampling_do_sampling_loop returns a set of distinct item indices taken from the sampled multiset, only after an acceptance, raises ValueError after max_iter rejections and when an acceptance probability exceeds its bound.", "quantifier": "every sequence of draws", "why_tests_cant": "unbounded rejection", "anchors": ["dppy/intermediate_sampling.py:vfx_sampling_do_sampling_loop"]}
{"id": "C43", "title": "alpha-DPP leverage-score bounds only decrease", "statement": "In alpha_dpp_sampling_do_sampling_loop upper bounds on leverage scores are non-increasing over iterations, once certified stay certified, and acceptance probabilities are at most one.", "quantifier": "every history", "why_tests_cant": "unbounded histories", "anchors": ["dppy/intermediate_sampling.py:alpha_dpp_sampling_do_sampling_loop"]}
{"id": "C44", "title": "BLESS dictionary invariants", "statement": "reduce_lambda returns a dictionary of strictly increasing indices of existing data points with inclusion probabilities in (0,1]; it raises when lambda increases.", "quantifier": "every input and draw", "why_tests_cant": "continuum", "anchors": ["dppy/bless.py:reduce_lambda"]}
{"id": "C45", "title": "BLESS terminates", "statement": "bless terminates for every data set with positive similarities.", "quantifier": "every data set", "why_tests_cant": "non-termination cannot be observed by a test", "anchors": ["dppy/bless.py:bless"]}
{"id": "C46", "title": "Kernel validators are sound", "statement": "A matrix passing is_symmetric / is_projection / is_orthonormal_columns checks is symmetric / a projection / has orthonormal columns (up to tolerance).", "quantifier": "every matrix of every size", "why_tests_cant": "validators look only at leading blocks so failing inputs are beyond test sizes", "anchors": ["dppy/utils.py:is_symmetric", "dppy/utils.py:is_projection", "dppy/utils.py:is_orthonormal_columns"]}
{"id": "C47", "title": "Eigenvalue validators", "statement": "is_equal_to_O_or_1, is_in_01 and is_geq_0 accept a vector iff all entries are within 1e-8 of the stated set, and raise ValueError otherwise.", "quantifier": "every vector", "why_tests_cant": "continuum", "anchors": ["dppy/utils.py:is_equal_to_O_or_1", "dppy/utils.py:is_in_01", "dppy/utils.py:is_geq_0"]}
{"id": "C48", "title": "Determinant helper", "statement": "det_ST(K, S) is the determinant of K restricted to S, equals 1 on the empty set, and det_ST(K,S,T) uses rows S and columns T.", "quantifier": "every matrix and index list", "why_tests_cant": "continuum", "anchors": ["dppy/utils.py:det_ST"]}
{"id": "C49", "title": "Polynomial shift", "statement": "shift_polynomial recentres a polynomial: the returned polynomial at x equals the original at x - x0 (as coded) for every x.", "quantifier": "every polynomial and shift", "why_tests_cant": "continuum", "anchors": ["dppy/beta_ensemble_polynomial_potential_core.py"]}
{"id": "C50", "title": "Gibbs conditionals of the tridiagonal model are exact", "statement": "The polynomial used by the Gibbs sampler for coefficient a_i (resp. b_i) differs from Tr V(J) by a constant that does not depend on that coefficient, so the conditional density used is the exact one.", "quantifier": "every potential of degree <= 6 and every tridiagonal J of every size, every i", "why_tests_cant": "algebraic identity over all matrices", "anchors": ["dppy/beta_ensemble_polynomial_potential_core.py:polynomial_in_a_coef", "dppy/beta_ensemble_polynomial_potential_core.py:polynomial_in_b_coef"]}
{"id": "C51", "title": "MALA kernel is reversible", "statement": "The Metropolis-adjusted Langevin update is reversible with respect to exp(-V).", "quantifier": "every potential, point and proposal", "why_tests_cant": "bias invisible to tests", "anchors": ["dppy/beta_ensemble_polynomial_potential_core.py:sampler_mala"]}
{"id": "C52", "title": "Rejection envelope dominates the target", "statement": "In the exact sampler for log-concave conditionals the envelope is at least the target density at every point, so the acceptance ratio is in [0,1].", "quantifier": "every concave log-density", "why_tests_cant": "continuum", "anchors": ["dppy/beta_ensemble_polynomial_potential_core.py:sampler_exact_convex_quartic"]}
{"id": "C53", "title": "Banded Laguerre/Jacobi models produce valid spectra", "statement": "The tridiagonal matrices built by mu_ref_gamma_sampler_tridiag and mu_ref_beta_sampler_tridiag are Gram matrices of bidiagonal factors, so Laguerre eigenvalues are non-negative and Jacobi eigenvalues lie in [0,1].", "quantifier": "every draw and size", "why_tests_cant": "continuum", "anchors": ["dppy/random_matrices.py:mu_ref_gamma_sampler_tridiag", "dppy/random_matrices.py:mu_ref_beta_sampler_tridiag"]}
{"id": "C54", "title": "Quindiagonal circular model is unitary", "statement": "The matrix built by mu_ref_unif_unit_circle_sampler_quindiag is an N x N unitary matrix, so eigenvalues lie on the unit circle.", "quantifier": "every N and Verblunsky coefficients in the closed disc", "why_tests_cant": "continuum", "anchors": ["dppy/random_matrices.py:mu_ref_unif_unit_circle_sampler_quindiag"]}
{"id": "C55", "title": "Parameters of banded and full models round trip", "statement": "size_M / shape conversions between full and banded Laguerre and Jacobi models are mutually inverse, so normalisation uses the intended matrix sizes.", "quantifier": "all sizes and beta>0", "why_tests_cant": "continuum", "anchors": ["dppy/beta_ensembles.py:LaguerreEnsemble", "dppy/beta_ensembles.py:JacobiEnsemble"]}
{"id": "C56", "title": "Beta ensemble construction and sample recording", "statement": "Constructing an ensemble with negative beta raises ValueError, unsupported beta for full models raise ValueError, and each successful sample is recorded exactly once.", "quantifier": "every beta and call history", "why_tests_cant": "all histories", "anchors": ["dppy/beta_ensembles.py:BetaEnsemble"]}
{"id": "C57", "title": "Multivariate Jacobi chain rule acceptance is a probability", "statement": "In MultivariateJacobiOPE.sample the rejection acceptance ratio (Schur complement over K(x,x)) is in [0,1] at every step and point.", "quantifier": "every history of points", "why_tests_cant": "continuum", "anchors": ["dppy/multivariate_jacobi_ope.py:MultivariateJacobiOPE.sample"]}
{"id": "C58", "title": "Random state handling", "statement": "check_random_state returns the same generator when given one, a deterministic one for an integer seed and raises ValueError for anything else.", "quantifier": "every input", "why_tests_cant": "all inputs", "anchors": ["dppy/utils.py:check_random_state"]}
{"id": "C59", "title": "Advertised Bernoulli parameter is the marginal inclusion probability", "statement": "bernoulli_param of CarriesProcess, DescentProcess and VirtualDescentProcess (the parameter of the independent process that plot_vs_bernoullis compares with) equals the probability that any given position belongs to a sample.", "quantifier": "every base, size, x_0 and position", "why_tests_cant": "exact probability over all draws; a test can only estimate it", "anchors": ["dppy/exotic_dpps.py:CarriesProcess", "dppy/exotic_dpps.py:DescentProcess", "dppy/exotic_dpps.py:VirtualDescentProcess"]}
{"id": "C60", "title": "Generic-kernel sampler returns an LU factorisation", "statement": "The matrix returned by dpp_sampler_generic_kernel(K) together with the sample X is the (in place) LU factorisation of K - I_{X^c}: unit lower triangular times upper triangular.", "quantifier": "every kernel and every outcome without zero pivot", "why_tests_cant": "must hold for every outcome of N coin flips", "anchors": ["dppy/exact_sampling.py:dpp_sampler_generic_kernel"]}
{"id": "C61", "title": "Cholesky mode returns the Cholesky factor of the sampled block", "statement": "proj_dpp_sampler_kernel_Chol also returns a matrix whose lower triangle L satisfies L L^H = K_X with rows and columns in the order of the returned list.", "quantifier": "every Hermitian projection, size and outcome of positive probability", "why_tests_cant": "every outcome of the pivots", "anchors": ["dppy/exact_sampling.py:proj_dpp_sampler_kernel_Chol"]}
{"id": "C62", "title": "Cholesky mode handles complex Hermitian kernels", "statement": "proj_dpp_sampler_kernel_Chol on a complex Hermitian projection K of rank r returns the set S (|S| = r) with probability det K_S.", "quantifier": "every complex Hermitian projection", "why_tests_cant": "law over all outcomes", "anchors": ["dppy/exact_sampling.py:proj_dpp_sampler_kernel_Chol"]}
{"id": "C63", "title": "Spectral spanning tree modes are uniform on spanning trees", "statement": "UST.sample in the modes GS, Schur and Chol on a connected graph always returns a spanning tree, and every spanning tree of the graph has probability one over the number of spanning trees.", "quantifier": "every connected graph, every spanning tree", "why_tests_cant": "exact law over all graphs and outcomes", "anchors": ["dppy/exotic_dpps.py:UST.sample", "dppy/exotic_dpps.py:UST.compute_kernel", "dppy/exotic_dpps.py:UST.compute_kernel_eig_vecs"]}
{"id": "C64", "title": "Law of the vfx sampler", "statement": "sample_exact(mode='vfx') on a likelihood kernel L: whatever dictionary BLESS draws, a successful call returns T with the probability that the likelihood DPP of L gives to T.", "quantifier": "every similarity function, data set, dictionary, oversampling factor, q function and max_iter", "why_tests_cant": "exact law over all draws of a Poisson number of points; a small bias is invisible to tests", "anchors": ["dppy/intermediate_sampling.py:vfx_sampling_precompute_constants", "dppy/intermediate_sampling.py:vfx_sampling_do_sampling_loop", "dppy/exact_sampling.py:dpp_vfx_sampler"]}
{"id": "C65", "title": "Law of the alpha sampler", "statement": "sample_exact(mode='alpha') on a likelihood kernel L: whatever dictionary BLESS draws and after any number of previous calls, a successful call returns T with the probability that the likelihood DPP of L gives to T.", "quantifier": "every similarity function, data set, dictionary, oversampling factor, r function, max_iter and history of calls", "why_tests_cant": "exact law over all draws and all histories of the cached bounds", "anchors": ["dppy/intermediate_sampling.py:alpha_dpp_sampling_precompute_constants", "dppy/intermediate_sampling.py:alpha_dpp_sampling_do_sampling_loop", "dppy/exact_sampling.py:alpha_dpp_sampler"]}
{"id": "C66", "title": "Intermediate samplers never raise on their acceptance test", "statement": "In the vfx and alpha samplers the acceptance test of an intermediate sample is always a probability: the ValueErrors that guard it (acc_thresh, sign of the determinant, range of the leverage scores) are unreachable for a positive semi-definite kernel.", "quantifier": "every kernel, dictionary, intermediate sample and parameter", "why_tests_cant": "every intermediate sample of every size", "anchors": ["dppy/intermediate_sampling.py:vfx_sampling_do_sampling_loop", "dppy/intermediate_sampling.py:alpha_dpp_sampling_do_sampling_loop"]}
{"id": "C67", "title": "Documented vfx parameters are accepted", "statement": "The keyword parameters q_func, max_iter and max_iter_size_rejection documented for the vfx samplers can be given and are used.", "quantifier": "every value of the parameters and state of the object", "why_tests_cant": "every state of the object", "anchors": ["dppy/exact_sampling.py:dpp_vfx_sampler", "dppy/exact_sampling.py:k_dpp_vfx_sampler"]}
{"id": "C68", "title": "BLESS returns a valid dictionary", "statement": "bless and bless_size either raise ValueError or return a non-empty dictionary of distinct data points in increasing order, with inclusion probabilities in (0, 1] and the requested regularisation; bless_size returns a bracket of positive regularisations.", "quantifier": "every kernel, size, oversampling and draw", "why_tests_cant": "every draw of every round", "anchors": ["dppy/bless.py:bless", "dppy/bless.py:bless_size"]}
{"id": "C69", "title": "Law of the k-DPP vfx sampler", "statement": "sample_exact_k_dpp(size, mode='vfx') on a likelihood kernel L: after any history of calls and whatever dictionary BLESS draws, a successful call returns each set T of size items with probability proportional to det L_T, as a list of distinct items.", "quantifier": "every similarity, dictionary, history of calls and size", "why_tests_cant": "exact law over all draws and all histories", "anchors": ["dppy/exact_sampling.py:k_dpp_vfx_sampler", "dppy/intermediate_sampling.py:vfx_sampling_do_sampling_loop"]}
{"id": "C70", "title": "Law of the k-DPP alpha sampler", "statement": "sample_exact_k_dpp(size, mode='alpha') on a likelihood kernel L: after any history of calls, whatever dictionary BLESS draws, and although the rescaling is adapted to the sizes of earlier draws, a successful call returns each set T of size items with probability proportional to det L_T, as a list of distinct items.", "quantifier": "every similarity, dictionary, history of calls, size, early_stop and r function", "why_tests_cant": "exact law of an adaptive unbounded loop", "anchors": ["dppy/exact_sampling.py:alpha_k_dpp_sampler", "dppy/intermediate_sampling.py:alpha_dpp_sampling_do_sampling_loop"]}
{"id": "C71", "title": "Multivariate Jacobi kernel is a projection kernel", "statement": "MultivariateJacobiOPE.K returns sum_k P_k(x) P_k(y) in each of its forms (one or two sets of points, matrix or pointwise), where the N features are orthonormal for the base measure, so K reproduces itself under integration and has trace N.", "quantifier": "every object that the constructor returns (N < 32768^d), every dimension, legal parameters and points", "why_tests_cant": "integral identities over a continuum", "anchors": ["dppy/multivariate_jacobi_ope.py:MultivariateJacobiOPE.K", "dppy/multivariate_jacobi_ope.py:MultivariateJacobiOPE.eval_multiD_polynomials"]}
{"id": "C72", "title": "Multivariate Jacobi chain rule targets the determinantal density", "statement": "At each step of MultivariateJacobiOPE.sample a proposal drawn from K(x,x)/N is accepted with probability (N-n)/N and an accepted point has the conditional density of the determinantal process; the product of the conditionals is det K(x_i,x_j)/N!.", "quantifier": "every history of accepted points", "why_tests_cant": "densities over a continuum", "anchors": ["dppy/multivariate_jacobi_ope.py:MultivariateJacobiOPE.sample"]}
{"id": "C73", "title": "Norms of univariate Jacobi polynomials", "statement": "compute_norms_1D_polynomials returns the square root of the documented square norms for every degree, including the special case of the arcsine law, and the entry of degree zero is the mass of the base measure.", "quantifier": "every degree and all parameters > -1", "why_tests_cant": "continuum of parameters; a wrong special case is hit only at (-1/2,-1/2)", "anchors": ["dppy/multivariate_jacobi_ope.py:compute_norms_1D_polynomials"]}
{"id": "C74", "title": "Exact sampler of the conditionals returns the conditional law", "statement": "With sample_exact_cond=True each coefficient drawn by the Gibbs sweep of the polynomial-potential models has exactly its conditional law given the others, for every potential the option accepts and whatever was drawn before.", "quantifier": "every accepted potential, beta, N, value of the other coefficients and rejection history", "why_tests_cant": "exact law over a continuum of states and an unbounded rejection loop", "anchors": ["dppy/beta_ensemble_polynomial_potential_core.py:sampler_exact_convex_quartic", "dppy/beta_ensemble_polynomial_potential_core.py:trunc_gaussian_sampler", "dppy/beta_ensemble_polynomial_potential_core.py:gen_gamma_alpha_lt_1_sampler", "dppy/beta_ensemble_polynomial_potential.py:BetaEnsemblePolynomialPotential.sample_mcmc"]}
{"id": "C75", "title": "Recorded samples are not modified", "statement": "An array recorded in list_of_samples (and returned to the caller) by a beta ensemble keeps its values whatever calls are made later on the object: normalising points, plotting or sampling again does not change it.", "quantifier": "every history of calls", "why_tests_cant": "aliasing across all histories", "anchors": ["dppy/beta_ensembles.py:HermiteEnsemble.normalize_points", "dppy/beta_ensembles.py:LaguerreEnsemble.normalize_points"]}
{"id": "C76", "title": "Displayed normalisation uses the parameters of the displayed sample", "statement": "When plot or hist displays the last sample with normalization=True, the rescaling uses the parameters (loc, scale, shape, sizes, mode) with which that sample was drawn.", "quantifier": "every history of calls including failing ones", "why_tests_cant": "every history; the parameters are mutable attributes", "anchors": ["dppy/beta_ensembles.py:HermiteEnsemble.normalize_points", "dppy/beta_ensembles.py:BetaEnsemble.plot"]}
{"id": "C77", "title": "Samples of a beta ensemble have size_N points", "statement": "A successful sample_full_model or sample_banded_model call returns an array of exactly size_N points.", "quantifier": "every class, beta, size, parameters and draw", "why_tests_cant": "all sizes and draws", "anchors": ["dppy/beta_ensembles.py", "dppy/random_matrices.py:hermite_sampler_full"]}
{"id": "C78", "title": "Points of a beta ensemble lie in its support", "statement": "Every point returned by sample_full_model or sample_banded_model is real (Hermite), real and non-negative (Laguerre), in [0,1] (Jacobi), on the unit circle (circular).", "quantifier": "every class, beta, size, parameters, history and draw", "why_tests_cant": "continuum of draws", "anchors": ["dppy/beta_ensembles.py", "dppy/random_matrices.py"]}
{"id": "C79", "title": "Banded Hermite model has the law of the Hermite beta ensemble", "statement": "For every beta > 0, loc, scale > 0 and size_N >= 1 the points returned by HermiteEnsemble(beta).sample_banded_model(loc, scale, size_N) are distributed as the beta ensemble with reference measure N(loc, scale^2): joint density proportional to prod_{i<j}|x_i-x_j|^beta prod_i exp(-(x_i-loc)^2/(2 scale^2)).", "quantifier": "every beta > 0 (real), loc, scale > 0 and size", "why_tests_cant": "a law is not observable from samples; continuum of parameters", "anchors": ["dppy/random_matrices.py:mu_ref_normal_sampler_tridiag", "dppy/beta_ensembles.py:HermiteEnsemble.sample_banded_model"]}
{"id": "C80", "title": "Banded Laguerre model has the law of the Laguerre beta ensemble", "statement": "For every beta > 0, shape > 0, scale > 0 and size_N >= 1 the points returned by LaguerreEnsemble(beta).sample_banded_model(shape, scale, size_N) are distributed as the beta ensemble with reference measure Gamma(shape, scale): joint density proportional to prod_{i<j}|x_i-x_j|^beta prod_i x_i^(shape-1) exp(-x_i/scale) on positive points.", "quantifier": "every beta > 0 (real), shape > 0, scale > 0 and size", "why_tests_cant": "a law is not observable from samples; continuum of parameters", "anchors": ["dppy/random_matrices.py:mu_ref_gamma_sampler_tridiag", "dppy/beta_ensembles.py:LaguerreEnsemble.sample_banded_model"]}
{"id": "C81", "title": "Banded Jacobi model has the law of the Jacobi beta ensemble", "statement": "For every beta > 0, a > 0, b > 0 and size_N >= 1 the points returned by JacobiEnsemble(beta).sample_banded_model(a, b, size_N) are distributed as the beta ensemble with reference measure Beta(a, b): joint density proportional to prod_{i<j}|x_i-x_j|^beta prod_i x_i^(a-1) (1-x_i)^(b-1) on points of (0, 1).", "quantifier": "every beta > 0 (real), a > 0, b > 0 and size", "why_tests_cant": "a law is not observable from samples; continuum of parameters", "anchors": ["dppy/random_matrices.py:mu_ref_beta_sampler_tridiag", "dppy/beta_ensembles.py:JacobiEnsemble.sample_banded_model"]}
{"id": "C82", "title": "Full Hermite model has the law of the Hermite ensemble", "statement": "For beta = 1 and beta = 2 the eigenvalues returned by HermiteEnsemble(beta).sample_full_model(size_N) have the joint density proportional to prod_{i<j}|x_i-x_j|^beta prod_i exp(-x_i^2/4): the same law as the banded model with its default loc=0, scale=sqrt(2).", "quantifier": "beta in {1, 2} and every size", "why_tests_cant": "equality of two laws on a continuum, every size", "anchors": ["dppy/random_matrices.py:hermite_sampler_full", "dppy/beta_ensembles.py:HermiteEnsemble.sample_full_model"]}
{"id": "C83", "title": "Full Laguerre model has the law of the Laguerre ensemble", "statement": "For beta = 1 and beta = 2 the eigenvalues returned by LaguerreEnsemble(beta).sample_full_model(size_N, size_M) with 1 <= size_N <= size_M have the joint density proportional to prod_{i<j}|x_i-x_j|^beta prod_i x_i^(beta/2 (size_M-size_N+1)-1) exp(-x_i/2): the same law as the banded model with shape beta/2 (size_M-size_N+1) and scale 2.", "quantifier": "beta in {1, 2} and all sizes size_N <= size_M", "why_tests_cant": "equality of two laws on a continuum, every size", "anchors": ["dppy/random_matrices.py:laguerre_sampler_full", "dppy/beta_ensembles.py:LaguerreEnsemble.sample_full_model"]}
{"id": "C84", "title": "Wilson mode is uniform on spanning trees", "statement": "On a connected graph without self loops, for every root, ust_sampler_wilson (hence UST.sample(mode='Wilson')) returns each spanning tree of the graph with the same probability, one over the number of spanning trees.", "quantifier": "every connected graph, root and spanning tree", "why_tests_cant": "the law of an unbounded random walk is not observable from samples; every graph", "anchors": ["dppy/exotic_dpps_core.py:ust_sampler_wilson", "dppy/exotic_dpps.py:UST.sample"]}
{"id": "C85", "title": "Aldous-Broder mode is uniform on spanning trees", "statement": "On a connected graph, for every root, ust_sampler_aldous_broder (hence UST.sample(mode='Aldous-Broder')) returns each spanning tree of the graph with the same probability, one over the number of spanning trees.", "quantifier": "every connected graph, root and spanning tree", "why_tests_cant": "the law of an unbounded random walk is not observable from samples; every graph", "anchors": ["dppy/exotic_dpps_core.py:ust_sampler_aldous_broder", "dppy/exotic_dpps.py:UST.sample"]}
{"id": "C86", "title": "Multivariate Jacobi sampler draws the determinantal process", "statement": "The N points returned by MultivariateJacobiOPE.sample (chain rule with rejection inside rejection) have the law of the determinantal process with kernel K: density det K(x_i,x_j)/N! for the base measure, up to the runs where one of the loops of trials is exhausted; the proposals have density K(x,x)/N.", "quantifier": "every legal set of parameters, N < 32768^d, numbers of trials and event", "why_tests_cant": "the law of a random set over a continuum cannot be read from samples; a wrong bound biases it silently", "anchors": ["dppy/multivariate_jacobi_ope.py:MultivariateJacobiOPE.sample", "dppy/multivariate_jacobi_ope.py:MultivariateJacobiOPE.sample_chain_rule_proposal", "dppy/multivariate_jacobi_ope.py:compute_rejection_bounds"]}
{"id": "C87", "title": "Default one-dimensional Jacobi sampler draws the determinantal process exactly", "statement": "For one-dimensional parameters (a, b), MultivariateJacobiOPE(N, [[a, b]]).sample() with the default tridiag_1D=True returns N points whose law, order forgotten, is exactly the determinantal process with the kernel K of the object, as the chain rule branch is meant to do.", "quantifier": "every a, b > -1, 1 <= N < 32768 and symmetric event", "why_tests_cant": "the law of a random set over a continuum cannot be read from samples", "anchors": ["dppy/multivariate_jacobi_ope.py:MultivariateJacobiOPE.sample", "dppy/random_matrices.py:mu_ref_beta_sampler_tridiag"]}
{"id": "C88", "title": "Banded circular model has the law of the circular beta ensemble", "statement": "For every integer beta > 0 and size_N >= 1 the points returned by CircularEnsemble(beta).sample_banded_model(size_N) are distributed as the circular beta ensemble: N points of the unit circle with joint density proportional to prod_{j<k}|e^{it_j}-e^{it_k}|^beta; for beta = 0 they are independent and uniform on the circle.", "quantifier": "every integer beta >= 0, size and history of the object", "why_tests_cant": "a law is not observable from samples; every beta and size", "anchors": ["dppy/random_matrices.py:mu_ref_unif_unit_circle_sampler_quindiag", "dppy/beta_ensembles.py:CircularEnsemble.sample_banded_model"]}
{"id": "C89", "title": "Full circular model has the law of the circular ensemble", "statement": "For beta = 1 and beta = 2 and either haar_mode, the points returned by CircularEnsemble(beta).sample_full_model(size_N, haar_mode) are the eigenvalues of a Haar distributed orthogonal (beta = 1) or unitary (beta = 2) matrix and follow the circular ensemble with density proportional to prod_{j<k}|e^{it_j}-e^{it_k}|^beta, as the banded model does.", "quantifier": "beta in {1, 2}, both modes, every size, solver and history of the object", "why_tests_cant": "equality of two laws on a continuum, every size", "anchors": ["dppy/random_matrices.py:circular_sampler_full", "dppy/beta_ensembles.py:CircularEnsemble.sample_full_model"]}
{"id": "C90", "title": "Full Jacobi model has the law of the Jacobi ensemble", "statement": "For beta = 1 and beta = 2 the points returned by JacobiEnsemble(beta).sample_full_model(size_N, size_M1, size_M2) with 1 <= size_N <= size_M1, size_M2 (eigenvalues of X X^H (X X^H + Y Y^H)^-1) have, order forgotten, the joint density proportional to prod_{i<j}|x_i-x_j|^beta prod_i x_i^(a-1) (1-x_i)^(b-1) on (0, 1) with a = beta/2 (size_M1-size_N+1), b = beta/2 (size_M2-size_N+1): the same law as the banded model with these parameters.", "quantifier": "beta in {1, 2}, all sizes size_N <= size_M1, size_M2, every history of the object", "why_tests_cant": "equality of two laws on a continuum, every size", "anchors": ["dppy/random_matrices.py:jacobi_sampler_full", "dppy/beta_ensembles.py:JacobiEnsemble.sample_full_model"]}
{"id": "C91", "title": "Ginibre sampler has the law of the Ginibre ensemble", "statement": "For every size_N the points returned by GinibreEnsemble().sample_full_model(size_N) (eigenvalues of a complex Gaussian matrix divided by sqrt(2)) have, order forgotten, the joint density proportional to prod_{i<j}|z_i-z_j|^2 prod_i exp(-|z_i|^2) on the plane; in particular they are almost surely distinct.", "quantifier": "every size, exact eigenvalue solver and history of the object", "why_tests_cant": "a law on a continuum is not observable from samples; every size", "anchors": ["dppy/random_matrices.py:ginibre_sampler_full", "dppy/beta_ensembles.py:GinibreEnsemble.sample_full_model"]}
{"id": "C92", "title": "Descent process is determinantal", "statement": "The positions recorded by DescentProcess().sample(size=N) form a determinantal point process on {1, ..., N-1}: for every set A of positions the probability that A is included in the sample is det[k(j-i)], i, j in A, with sum_m k(m) z^m = 1/(1-e^z), i.e. k(m) = -B_{m+1}/(m+1)! with Bernoulli numbers; the process is stationary and one-dependent.", "quantifier": "every N and every set of positions", "why_tests_cant": "all joint inclusion probabilities for every size; samples only give estimates", "anchors": ["dppy/exotic_dpps.py:DescentProcess.sample", "dppy/exotic_dpps_core.py:uniform_permutation"]}
{"id": "C93", "title": "Carries process is determinantal", "statement": "The positions recorded by CarriesProcess(base=b).sample(size=N) form a determinantal point process on {1, ..., N-1}: for every set A of positions the probability that A is included in the sample is det[k(j-i)], i, j in A, with sum_m k(m) z^m = 1/(1-(1+z/b)^b); stationary and one-dependent.", "quantifier": "every base b >= 1, every N and every set of positions", "why_tests_cant": "all joint inclusion probabilities for every size and base", "anchors": ["dppy/exotic_dpps.py:CarriesProcess.sample"]}
{"id": "C94", "title": "Virtual descent process is determinantal", "statement": "The indices recorded by VirtualDescentProcess(x_0).sample(size=N) form a determinantal point process on {0, ..., N-1}: for every set A of indices the probability that A is included in the sample is det[k(j-i)], i, j in A, with sum_m k(m) z^m = 1/(1-e^{pz}(1+(1-p)z)), p = 2 x_0 (1-x_0); stationary and one-dependent.", "quantifier": "every x_0 in [0, 1], every N and every set of indices", "why_tests_cant": "all joint inclusion probabilities for every size and parameter", "anchors": ["dppy/exotic_dpps.py:VirtualDescentProcess.sample"]}
{"id": "C95", "title": "Poissonised Plancherel sampler has the law of the Poissonised Plancherel measure", "statement": "RSK is a bijection: every semistandard tableau and standard tableau of the same shape are returned for exactly one sequence. Hence the Young diagram of a uniform permutation of N elements is lam with probability f_lam^2/N!, f_lam the number of standard tableaux of shape lam, and PoissonizedPlancherel(theta).sample() records the diagram lam of size n with probability e^-theta theta^n/n! f_lam^2/n!.", "quantifier": "every pair of tableaux, N, theta >= 0 and partition", "why_tests_cant": "infinitely many partitions and an exact law; samples only give estimates", "anchors": ["dppy/exotic_dpps.py:PoissonizedPlancherel.sample", "dppy/exotic_dpps_core.py:RSK", "dppy/exotic_dpps_core.py:uniform_permutation"]}
{"id": "C96", "title": "Poissonised Plancherel sample is the discrete Bessel process", "statement": "Let lam be the diagram recorded by PoissonizedPlancherel(theta).sample(). The points lam_i - i + 1/2, i >= 1 (lam_i = 0 past the last row), form a determinantal point process on Z + 1/2: for every finite set A of sites the probability that A is included is det[K(x, y)], x, y in A, with the discrete Bessel kernel K(a+1/2, b+1/2) = sum_{j>=1} J_{a+j}(2 sqrt theta) J_{b+j}(2 sqrt theta) = sqrt(theta) (J_a J_{b+1} - J_{a+1} J_b)/(a-b). The recorded list sampl contains only the rows of the diagram: it has to be completed by every site below -len(sampl), and alone it is not determinantal for any Hermitian kernel (small theta).", "quantifier": "every theta >= 0 and every finite set of sites", "why_tests_cant": "all joint inclusion probabilities of an infinite process; samples only give estimates", "anchors": ["dppy/exotic_dpps.py:PoissonizedPlancherel.sample", "dppy/exotic_dpps_core.py:RSK", "docs/exotic_dpps/poissonized_plancherel.rst"]}
{"id": "C97", "title": "Limiting density curves are probability densities", "statement": "The curves drawn by HermiteEnsemble, LaguerreEnsemble and JacobiEnsemble (plot, hist) over the normalised points are probability densities: semi_circle_law(., R) on [-R, R], marcenko_pastur_law(., M, N, sigma) on [sigma^2 (1 - sqrt(N/M))^2, sigma^2 (1 + sqrt(N/M))^2], wachter_law(., M_1, M_2, N) on a subinterval [Lm, Lp] of [0, 1]: nonnegative, zero outside the support, and integral one.", "quantifier": "every R > 0; 0 < N <= M, sigma > 0; 0 < N <= M_1, M_2", "why_tests_cant": "an integral over a continuum, for every real value of the parameters", "anchors": ["dppy/random_matrices.py:semi_circle_law", "dppy/random_matrices.py:marcenko_pastur_law", "dppy/random_matrices.py:wachter_law"]}
{"id": "C98", "title": "Equilibrium densities are the equilibrium measures of the potentials", "statement": "equilibrium_x2_x4(g_2, g_4), equilibrium_x2m(m, g_2m) and equilibrium_ClItKr10() return a probability density carried by the returned support, and it is the equilibrium measure of the potential V (g_2/2 x^2 + g_4/4 x^4; g_2m/(2m) x^(2m); x^4/20 - 4x^3/15 + x^2/5 + 8x/5): V(x) - 2 int log|x-y| dmu(y) is constant where the density is positive and nowhere smaller. Hence whenever BetaEnsemblePolynomialPotential(beta, V) has an equilibrium_density, it is the equilibrium measure of V.", "quantifier": "every g_4 > 0 and real g_2 (one and two intervals), every m >= 1 and g_2m > 0, every potential accepted by the constructor", "why_tests_cant": "an integral equation at every point of a continuum, for every parameter", "anchors": ["dppy/beta_ensemble_polynomial_potential_core.py:equilibrium_x2_x4", "dppy/beta_ensemble_polynomial_potential_core.py:equilibrium_x2m", "dppy/beta_ensemble_polynomial_potential_core.py:equilibrium_ClItKr10", "dppy/beta_ensemble_polynomial_potential.py:BetaEnsemblePolynomialPotential.__init__"]}
{"id": "C99", "title": "Equilibrium distribution functions match the equilibrium densities", "statement": "The function cdf returned by cdf_equilibrium_x2_x4(g_2, g_4) and cdf_equilibrium_x2m(m, g_2m) gives at every x the mass of ]-inf, x] for the density of equilibrium_x2_x4(g_2, g_4), resp. equilibrium_x2m(m, g_2m), and leaves the array of the caller unchanged.", "quantifier": "every g_4 > 0, g_2, m, g_2m > 0 and array of floats", "why_tests_cant": "equality of two functions on a continuum, for every parameter", "anchors": ["dppy/beta_ensemble_polynomial_potential_core.py:cdf_equilibrium_x2_x4", "dppy/beta_ensemble_polynomial_potential_core.py:cdf_equilibrium_x2m"]}
{"id": "C100", "title": "plot_diagram draws the boxes of the Young diagram and the sample is their projection", "statement": "After a PoissonizedPlancherel sample with a nonempty Young diagram lam, plot_diagram(normalization) draws exactly the outlines of the boxes of lam in the Russian convention and the wedge v = |u|, all divided by sqrt(theta) when normalization is True, and the recorded sample, in the same scale, is the set of projections on the real line of the midpoints of the descending edges of the surface of the diagram. plot_diagram works after every successful sample.", "quantifier": "every theta, every recorded history, every partition, both values of normalization", "why_tests_cant": "equality of sets of points of the plane for every partition; the empty diagram has a probability exponentially small in theta", "anchors": ["dppy/exotic_dpps.py:PoissonizedPlancherel.plot_diagram", "dppy/exotic_dpps_core.py:xy_young_ru", "dppy/exotic_dpps.py:PoissonizedPlancherel.sample"]}
{"id": "C101", "title": "limit_shape is the Logan-Shepp-Vershik-Kerov curve", "statement": "limit_shape(x) is |x| outside [-2, 2] and 2/pi (x arcsin(x/2) + sqrt(4 - x^2)) inside; it is even, above |x|, differentiable with slope 2/pi arcsin(x/2), 1-Lipschitz, and the area between it and |x| is 2, the area of theta boxes of the normalised diagram.", "quantifier": "every real x", "why_tests_cant": "identities on a continuum and an integral", "anchors": ["dppy/exotic_dpps_core.py:limit_shape"]}
{"id": "C102", "title": "rescale_largest_eig_val uses the natural scale of the edge", "statement": "For a potential with a known equilibrium density, rescale_largest_eig_val(lambda_max) returns N^(2/3) c (lambda_max - b), where b is the right end of the support and c > 0 is the natural scale of the equilibrium density at b, the one for which the rescaled density tends to sqrt(-xi)/pi, that of the Tracy-Widom limit. It raises before any sampling.", "quantifier": "every accepted potential with an equilibrium density, every N and lambda_max", "why_tests_cant": "a limit, for every real value of the coefficients", "anchors": ["dppy/beta_ensemble_polynomial_potential.py:BetaEnsemblePolynomialPotential.rescale_largest_eig_val"]}
{"id": "C103", "title": "TracyWidom.cdf does not depend on the earlier calls", "statement": "On a TracyWidom object, cdf(x, quad_order) with quad_order >= 1 returns, whatever calls were made before on the same object, the array it would return on a new one, with one value per entry of x; it raises for an empty x, and a quad_order <= 0 always raises a ValueError.", "quantifier": "every history of calls with any arguments, every x and quad_order", "why_tests_cant": "all the histories of a stateful object", "anchors": ["dppy/beta_ensemble_polynomial_potential_core.py:TracyWidom.cdf", "dppy/beta_ensemble_polynomial_potential_core.py:TracyWidom.compute_quadrature"]}
{"id": "C104", "title": "TracyWidom.cdf converges to the Tracy-Widom distribution function", "statement": "cdf applies one function F_m, m = quad_order, to every entry of x, independently of the other entries. When m tends to infinity, F_m(s) tends to the Fredholm determinant of the Airy kernel on (s, oo), that is the distribution function of TW_2, up to a factor exp(-delta) with |delta| <= 1e-5 exp(-2 s), due to the finite difference on the diagonal; the limit tends to 1 as s tends to +oo.", "quantifier": "every real s, every number of nodes, every Gauss-Legendre quadrature", "why_tests_cant": "a limit over the number of nodes, for every s", "anchors": ["dppy/beta_ensemble_polynomial_potential_core.py:TracyWidom.cdf", "dppy/beta_ensemble_polynomial_potential_core.py:TracyWidom.fredholm_determinant", "dppy/beta_ensemble_polynomial_potential_core.py:TracyWidom.kernel"]}
{"id": "C105", "title": "Building blocks of the Tracy-Widom quadrature", "statement": "phi is an increasing bijection of (0, 1) onto (s, oo) with derivative d_phi; kernel(s)(X) is the Airy kernel at phi(X), with y - eps on the diagonal, times sqrt(d_phi(x) d_phi(y)), for every s although the division uses the first s only; airy_kernel is the Airy kernel, with (x, x + eps) on the diagonal; compute_quadrature gives positive weights of sum 1 and nodes in (0, 1), exact for the polynomials of degree less than 2 m.", "quantifier": "every s, every set of distinct points, every number of nodes, every polynomial", "why_tests_cant": "identities for all points of a continuum and all polynomials", "anchors": ["dppy/beta_ensemble_polynomial_potential_core.py:TracyWidom.change_of_variable", "dppy/beta_ensemble_polynomial_potential_core.py:TracyWidom.kernel", "dppy/beta_ensemble_polynomial_potential_core.py:TracyWidom.airy_kernel", "dppy/beta_ensemble_polynomial_potential_core.py:TracyWidom.compute_quadrature"]}
{"id": "C106", "title": "The Gibbs sampler with exact conditionals leaves the beta ensemble invariant", "statement": "For every potential accepted by BetaEnsemblePolynomialPotential and by sample_mcmc(sample_exact_cond=True), every beta > 0 and N: the law of the Jacobi coefficients with density proportional to prod_j b_j^(beta/2 (N-j) - 1) exp(-beta N/2 Tr V(J)) is a probability law, the passes of sample_mcmc over a_1, b_1, ..., a_N leave it invariant, and the eigenvalues returned from it, after any number of passes, have exactly the law of the beta ensemble, density proportional to prod_{i<j} |x_i - x_j|^beta exp(-beta N/2 sum V(x_i)). (Rejection loops run until acceptance.)", "quantifier": "every accepted potential, beta, N, number of passes, observable and answer of the root finders", "why_tests_cant": "the joint law of a Markov chain on a continuum", "anchors": ["dppy/beta_ensemble_polynomial_potential.py:BetaEnsemblePolynomialPotential.sample_mcmc", "dppy/beta_ensemble_polynomial_potential_core.py:sampler_exact_convex_quartic", "dppy/beta_ensemble_polynomial_potential_core.py:polynomial_in_negative_log_conditional_a_coef", "dppy/beta_ensemble_polynomial_potential_core.py:polynomial_in_negative_log_conditional_b_coef"]}
{"id": "C107", "title": "Calls on one DPP do not change the results on another one", "statement": "In a process with several FiniteDPP objects, the attributes and the results of the calls on one object have the law they would have without the calls made on the others.", "quantifier": "every finite family of objects, every interleaving of calls (compute_K, compute_L, sample_exact, sample_exact_k_dpp, sample_mcmc, flush_samples), successful or not", "why_tests_cant": "all interleavings of calls on several objects sharing the error state of numpy", "anchors": ["dppy/finite_dpps.py:FiniteDPP.sample_exact", "dppy/finite_dpps.py:FiniteDPP.sample_exact_k_dpp", "dppy/finite_dpps.py:FiniteDPP.compute_K", "dppy/finite_dpps.py:FiniteDPP.compute_L"]}
{"id": "C108", "title": "The example likelihood functions satisfy the contract of eval_L", "statement": "example_eval_L_linear, example_eval_L_polynomial (natural exponent) and example_eval_L_min_kern (points of [0, 1]) return, for n points X and m points Y, the n x m matrix of a symmetric kernel k(x_i, y_j), eval_L(X) = eval_L(X, X), evaluate_L_diagonal gives its diagonal, and the matrix of any points is positive semi-definite; so FiniteDPP('likelihood', L_eval_X_data=(eval_L, X)) is accepted and sample_exact has the law det L_S / det(I + L) after any history of calls. Other inputs raise.", "quantifier": "every number of points, dimension, exponent and position of the points, every history", "why_tests_cant": "positive semi-definiteness for every set of points of a continuum, and the law of the samples", "anchors": ["dppy/utils.py:example_eval_L_linear", "dppy/utils.py:example_eval_L_polynomial", "dppy/utils.py:example_eval_L_min_kern", "dppy/utils.py:evaluate_L_diagonal"]}
{"id": "C109", "title": "Desired expected size with the vfx mode", "statement": "On a new FiniteDPP('likelihood', L_eval_X_data=(eval_L, X)), sample_exact(mode='vfx', desired_expected_size=d) samples a DPP with likelihood alpha L, 0 < alpha <= 1, whose expected number of points is d, and the later calls keep the same alpha; it raises an exception when the expected number of points of the DPP of L is smaller than d.", "quantifier": "every positive semi-definite L, every d, every dictionary returned by BLESS, every history of later calls", "why_tests_cant": "an expectation, for every kernel and random dictionary; a bias cannot be told from sampling noise", "anchors": ["dppy/exact_sampling.py:dpp_vfx_sampler", "dppy/intermediate_sampling.py:vfx_sampling_precompute_constants", "dppy/intermediate_sampling.py:vfx_sampling_do_sampling_loop", "dppy/finite_dpps.py:FiniteDPP.sample_exact"]}
{"id": "C110", "title": "Desired expected size with the alpha mode", "statement": "On a new FiniteDPP('likelihood', L_eval_X_data=(eval_L, X)), sample_exact(mode='alpha', desired_expected_size=d) samples a DPP with likelihood alpha L, 0 < alpha <= 1, whose expected number of points is d; the later calls of sample_exact keep the same alpha and those of sample_exact_k_dpp still sample the k-DPP of L; it raises an exception when the expected number of points of the DPP of L is smaller than d.", "quantifier": "every positive semi-definite L, every natural d, every r_func without ties, every dictionary returned by bless_size, every history of later calls", "why_tests_cant": "an expectation, for every kernel and random dictionary; all histories", "anchors": ["dppy/exact_sampling.py:alpha_dpp_sampler", "dppy/intermediate_sampling.py:alpha_dpp_sampling_precompute_constants", "dppy/bless.py:bless_size", "dppy/finite_dpps.py:FiniteDPP.sample_exact"]}
{"id": "C111", "title": "The potentials accepted are those that define an ensemble", "statement": "Among the polynomials of degree at most six without term of degree five, BetaEnsemblePolynomialPotential(beta, V) with beta > 0 accepts exactly those for which the density prod_{i<j} |x_i - x_j|^beta exp(-beta N / 2 sum_i V(x_i)) can be normalised, whatever the number N of points, and raises ValueError for the others; the potential it keeps (the constant term is reset) defines the same ensemble.", "quantifier": "every polynomial, beta > 0 and N >= 1", "why_tests_cant": "integrability of a density for every polynomial and every number of points", "anchors": ["dppy/beta_ensemble_polynomial_potential.py:BetaEnsemblePolynomialPotential.__init__"]}
{"id": "C112", "title": "sample_mcmc keeps the law of the DPP described by the object", "statement": "On a FiniteDPP object, whatever calls were made on it before, sample_mcmc(mode, s_init=S) in the modes 'AD', 'AED' and 'E' and sample_mcmc_k_dpp(size=k, s_init=S) keep the law of the DPP (k-DPP of size k) the constructor arguments describe: if S is one of its samples, e.g. returned by sample_exact (sample_exact_k_dpp), then the set returned has the same law, and so has every entry of the trajectory recorded. A DPP without likelihood kernel, or a size that is not the one of the samples, raises an error.", "quantifier": "every valid parametrisation, every history of calls with any arguments, every number of iterations", "why_tests_cant": "a law, after all the histories of calls", "anchors": ["dppy/finite_dpps.py:FiniteDPP.sample_mcmc", "dppy/finite_dpps.py:FiniteDPP.sample_mcmc_k_dpp", "dppy/mcmc_sampling.py:dpp_sampler_mcmc", "dppy/finite_dpps.py:FiniteDPP.sample_exact", "dppy/finite_dpps.py:FiniteDPP.compute_L"]}
{"id": "C113", "title": "The add-delete and exchange chains converge to the DPP", "statement": "When nb_iter grows, the law of the set returned by sample_mcmc('AD'), by sample_mcmc_k_dpp(size=k), 0 < k < N, and by sample_mcmc('E') on a projection kernel converges in total variation to the DPP (k-DPP of size k, projection DPP) the object describes, whatever the initial set of positive probability and the calls made before. The distance after j steps is at most 2 (1 - c)^(j // m), with m and c > 0 that depend on the kernel only. Without s_init the same holds, conditionally on the success of the initialisation.", "quantifier": "every positive semi-definite kernel, every initial set, every number of iterations, every history of calls", "why_tests_cant": "a limit over the number of iterations, for every kernel", "anchors": ["dppy/mcmc_sampling.py:add_delete_sampler", "dppy/mcmc_sampling.py:basis_exchange_sampler", "dppy/mcmc_sampling.py:dpp_sampler_mcmc", "dppy/finite_dpps.py:FiniteDPP.sample_mcmc", "dppy/finite_dpps.py:FiniteDPP.sample_mcmc_k_dpp"]}
{"id": "C114", "title": "Long runs of the add-exchange-delete chain", "statement": "sample_mcmc('AED', nb_iter=n), the default mode of dpp_sampler_mcmc, returns a chain for every n.", "quantifier": "every kernel, every initial set, every number of iterations", "why_tests_cant": "a rare event of each iteration that becomes certain in the limit", "anchors": ["dppy/mcmc_sampling.py:add_exchange_delete_sampler", "dppy/mcmc_sampling.py:dpp_sampler_mcmc", "dppy/finite_dpps.py:FiniteDPP.sample_mcmc"]}
{"id": "C115", "title": "Means over one chain estimate the expectations under the DPP", "statement": "The chain recorded by sample_mcmc('AD', nb_iter=n), by sample_mcmc_k_dpp(size=k), 0 < k < N, or by sample_mcmc('E') on a projection kernel can be used for estimation: for a constant C that depends on the kernel only, the mean over the chain of any function f of the sets with values in [-1, 1] is within eps of its expectation under the DPP (k-DPP, projection DPP) with probability at least 1 - C / (n eps^2), whatever the initial set of positive probability and the calls made before. In particular the fraction of the sets of the chain that contain T tends to det K_T. Without s_init the same holds, conditionally on the success of the initialisation.", "quantifier": "every positive semi-definite kernel, every function, every initial set, every number of iterations, every history of calls", "why_tests_cant": "the joint law of all the states of a chain, for every kernel and length", "anchors": ["dppy/mcmc_sampling.py:add_delete_sampler", "dppy/mcmc_sampling.py:basis_exchange_sampler", "dppy/mcmc_sampling.py:dpp_sampler_mcmc", "dppy/finite_dpps.py:FiniteDPP.sample_mcmc", "dppy/finite_dpps.py:FiniteDPP.sample_mcmc_k_dpp"]}
{"id": "C116", "title": "The zonotope sampler keeps the law of the projection DPP", "statement": "zonotope_sampler(A, c, x_0=x0, nb_iter) on an r x N matrix A of full row rank with a generic objective c: when x0 is a point of the zonotope drawn with density proportional to the volume |det A_B| of the tile B it lies in, every row of the chain returned is a sample of the projection DPP whose kernel is the projection onto the span of the rows of A: P[row = T] = det(A_T)^2 / det(A A^T), exactly, in spite of the tolerance of extract_basis.", "quantifier": "every matrix, every objective for which the linear program has one solution, every number of iterations", "why_tests_cant": "the law of a Markov chain on a continuum, for every matrix", "anchors": ["dppy/mcmc_sampling.py:zonotope_sampler", "dppy/mcmc_sampling.py:extract_basis", "dppy/finite_dpps.py:FiniteDPP.sample_mcmc"]}
{"id": "C117", "title": "The zonotope sampler converges to the projection DPP", "statement": "zonotope_sampler(A, lin_obj=c, x_0=x0, nb_iter=n) on an r x N matrix A of full row rank: when the initialisation ends (it does if the solution at x0 has r coordinates away from the bounds), the law of the row number n of the chain tends to the projection DPP of the row space of A when n grows, for every starting point x0; the difference is at most rho^n with rho < 1 that depends on A only. The default objective, a Gaussian vector, has with probability one the uniqueness of solutions that this requires.", "quantifier": "every matrix, starting point, objective with unique solutions, number of iterations", "why_tests_cant": "a limit over the number of iterations of a Markov chain on a continuum", "anchors": ["dppy/mcmc_sampling.py:zonotope_sampler", "dppy/mcmc_sampling.py:extract_basis", "dppy/finite_dpps.py:FiniteDPP.sample_mcmc"]}
