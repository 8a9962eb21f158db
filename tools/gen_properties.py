import json
P=[]
def p(title, statement, quantifier, why, anchors):
    P.append(dict(id="C%02d"%(len(P)+1), title=title, statement=statement, quantifier=quantifier, why_tests_cant=why, anchors=anchors))

# ---- combinatorics
p("Random permutation is a uniform permutation",
  "uniform_permutation(N) returns, for every outcome of its random draws, a rearrangement of 0..N-1, and every one of the N! rearrangements is produced by exactly one of the N! equally likely draw sequences, so the output is uniform.",
  "every N and every sequence of draws j_i in [0,i]",
  "there are N! outcomes; a test samples a few of them for small N and can only check uniformity statistically",
  ["dppy/exotic_dpps_core.py:uniform_permutation"])
p("RSK returns a pair of tableaux of the same shape",
  "RSK(sequence) returns P and Q of the same shape; row lengths are positive and non-increasing; rows of P are weakly increasing and its columns strictly increasing; Q is a standard tableau: rows and columns strictly increasing and entries exactly 1..n; the entries of P are exactly the entries of the input, with multiplicity.",
  "every finite sequence of numbers, including repeated values",
  "the insertion touches an unbounded number of rows; only an induction over the insertion covers every input",
  ["dppy/exotic_dpps_core.py:RSK"])
p("RSK loses no information",
  "Two different sequences never give the same pair (P, Q): the sequence can be recovered from the two tableaux.",
  "every pair of finite sequences",
  "injectivity is a statement over pairs of unbounded inputs",
  ["dppy/exotic_dpps_core.py:RSK"])
p("First row of RSK measures the longest non-decreasing subsequence (Schensted)",
  "The length of the first row of the tableau returned by RSK(sequence) equals the length of a longest non-decreasing subsequence of the sequence.",
  "every finite sequence",
  "the maximum ranges over all 2^n subsequences of every input",
  ["dppy/exotic_dpps_core.py:RSK"])
p("Carries process samples the positions of carries",
  "CarriesProcess.sample returns, in increasing order, exactly the positions i in 1..size-1 at which a carry is produced when the column of drawn digits is added in the given base.",
  "every base >= 1, every size and every sequence of digits",
  "holds for all digit strings; tests sample",
  ["dppy/exotic_dpps.py:CarriesProcess.sample"])
p("Descent process samples the descent set",
  "DescentProcess.sample returns, in increasing order, exactly the 1-based descent positions of the drawn permutation.",
  "every size and every permutation",
  "n! permutations", ["dppy/exotic_dpps.py:DescentProcess.sample"])
p("Virtual descent process stays in its ground set and degenerates correctly",
  "VirtualDescentProcess(x_0) is rejected with ValueError iff x_0 is outside [0,1]; otherwise every sample is a strictly increasing list of indices below size, and position i belongs to it exactly when the auxiliary coin at i is off and either the coin at i+1 is on or i is a descent of the permutation.",
  "every x_0, size, permutation and coin sequence",
  "combinatorially many coin/permutation pairs", ["dppy/exotic_dpps.py:VirtualDescentProcess.__init__", "dppy/exotic_dpps.py:VirtualDescentProcess.sample"])
p("Poissonised Plancherel sample encodes a Young diagram without collision",
  "PoissonizedPlancherel.sample returns a strictly decreasing sequence of half-integers (lambda_i - i + 1/2) from which the Young diagram can be recovered, so two different diagrams give different samples.",
  "every permutation drawn", "unbounded diagrams", ["dppy/exotic_dpps.py:PoissonizedPlancherel.sample"])
p("Multivariate Jacobi ordering enumerates multi-indices by layers",
  "compute_ordering(N, d) returns exactly N pairwise distinct multi-indices of N^d; maximal degree never decreases along the list; before any index of maximal degree m, every multi-index of smaller maximal degree has appeared; and the list for N is a prefix of the list for any N' >= N.",
  "every N >= 1 and d >= 1",
  "infinite family of (N, d); tests use small values and miss the int16 cast", ["dppy/multivariate_jacobi_ope.py:compute_ordering"])
p("Degrees of 1D polynomials cover the ordering tightly",
  "compute_degrees_1D_polynomials(max_degrees) gives per-dimension evaluation degrees such that every multi-index of the ordering only uses 1D polynomials that are evaluated, and the recorded max degree is attained.",
  "every ordering", "all orderings", ["dppy/multivariate_jacobi_ope.py:compute_degrees_1D_polynomials"])
# ---- spanning trees
p("Wilson's algorithm returns a spanning tree",
  "Whenever UST.sample(mode='Wilson') (ust_sampler_wilson) returns on a connected graph with at least two nodes, the returned graph uses only edges of the input graph and is a spanning tree of it (connected, acyclic, n-1 edges), whatever the sequence of random neighbour choices and restarts.",
  "every connected simple graph and every terminating sequence of random choices",
  "the random walk is unbounded and its loop-erasure has unboundedly many histories", ["dppy/exotic_dpps_core.py:ust_sampler_wilson", "dppy/exotic_dpps.py:UST.sample"])
p("Aldous-Broder returns a spanning tree",
  "Whenever ust_sampler_aldous_broder returns on a graph, the returned edges are edges of the graph and form a spanning tree, whatever the walk.",
  "every graph and every covering walk", "unbounded walks", ["dppy/exotic_dpps_core.py:ust_sampler_aldous_broder"])
p("UST mode dispatch",
  "UST.sample accepts exactly Wilson, Aldous-Broder, GS, Schur and Chol, records exactly one new sample per successful call, and rejects any other mode with ValueError leaving the recorded samples unchanged.",
  "every mode string and history of calls", "all strings and call histories", ["dppy/exotic_dpps.py:UST.sample"])
# ---- exact sampling
p("Elementary symmetric polynomial table",
  "elementary_symmetric_polynomials(lambda, k)[l, n] equals the l-th elementary symmetric polynomial of the first n values, for all l <= k and n <= N.",
  "every vector of values over any commutative ring and every k", "infinitely many vectors/sizes", ["dppy/exact_sampling.py:elementary_symmetric_polynomials"])
p("k-DPP eigenvector selection has exactly k distinct indices",
  "For non-negative eigenvalues with at least k positive ones and 1 <= k <= N, k_dpp_eig_vecs_selector returns exactly k strictly increasing valid indices for every value of the uniform draws in [0,1); if fewer than k eigenvalues exceed the tolerance it raises ValueError.",
  "every eigenvalue vector, every k, every draw sequence", "the draws are a continuum; the last-chance boundary (ratio exactly 1) is rarely hit", ["dppy/exact_sampling.py:k_dpp_eig_vecs_selector"])
p("k-DPP eigenvector selection has the right law",
  "k_dpp_eig_vecs_selector selects J with probability prod_{j in J} lambda_j / e_k(lambda) for every J of size k.",
  "every non-negative spectrum with e_k>0 and every J", "a probability law can only be checked statistically", ["dppy/exact_sampling.py:k_dpp_eig_vecs_selector"])
p("DPP eigenvector selection has the right law",
  "dpp_eig_vecs_selector keeps the set J of eigenvectors with probability prod_{j in J} lambda_j prod_{j notin J} (1-lambda_j); the probabilities over all J sum to one.",
  "every spectrum in [0,1]", "probability law", ["dppy/exact_sampling.py:dpp_eig_vecs_selector"])
p("Generic-kernel sampler: exact law of the output set",
  "dpp_sampler_generic_kernel(K) outputs the set S with probability |det(K - I_{S^c})| for every S, and these sum to one, for every correlation kernel K whose conditional inclusion probabilities stay in [0,1] (no zero pivot), Hermitian or not.",
  "every kernel and every subset", "2^N outcomes with real probabilities", ["dppy/exact_sampling.py:dpp_sampler_generic_kernel"])
p("Generic-kernel sampler: inclusion probabilities",
  "For the set X returned by dpp_sampler_generic_kernel(K), P(T subset of X) = det K_T for every T: it is the DPP with correlation kernel K.",
  "every kernel and every T", "probability law", ["dppy/exact_sampling.py:dpp_sampler_generic_kernel"])
p("Projection DPP sampler (GS) outputs size distinct items",
  "proj_dpp_sampler_kernel in GS mode returns exactly size distinct items of the ground set for every outcome of positive probability, and at every step the candidate weights it passes to the random choice are non-negative and sum to one.",
  "every orthogonal projection kernel, every requested size = rank, every outcome", "continuum of kernels/outcomes", ["dppy/exact_sampling.py:proj_dpp_sampler_kernel_GS"])
p("Projection DPP sampler (GS) has the right law",
  "For an orthogonal projection kernel K of rank r the GS sampler returns the set S with |S|=r with probability det K_S.",
  "every projection kernel and S", "probability law", ["dppy/exact_sampling.py:proj_dpp_sampler_kernel_GS"])
p("Schur and Chol modes compute the same conditionals as GS",
  "For the same history of selected items, modes 'Schur' and 'Chol' of the projection sampler use the same conditional probabilities as 'GS', namely det K_{Y+i} / det K_Y, hence the three modes have the same law.",
  "every Hermitian kernel and every selection history with non-zero minors", "equality of real-valued functions over all histories", ["dppy/exact_sampling.py:proj_dpp_sampler_kernel_Schur", "dppy/exact_sampling.py:proj_dpp_sampler_kernel_Chol"])
p("Eigenvector-based samplers compute the same conditionals",
  "proj_dpp_sampler_eig modes GS and GS_bis, given orthonormal eigenvectors V, use the conditional probabilities of the projection DPP with kernel V V^*, so drawing from eigenvectors or from the kernel is the same.",
  "every V with orthonormal columns and every history", "equality over all histories", ["dppy/exact_sampling.py:proj_dpp_sampler_eig_GS", "dppy/exact_sampling.py:proj_dpp_sampler_eig_GS_bis"])
p("Spectral two-step sampling is the DPP",
  "Selecting eigenvectors with dpp_eig_vecs_selector and then running the projection sampler on them yields the set S with probability det(L_S)/det(I+L), equivalently the DPP with kernel K = L(I+L)^{-1}; with k_dpp_eig_vecs_selector it yields the k-DPP law det(L_S)/e_k.",
  "every spectral decomposition and every S", "probability law", ["dppy/finite_dpps.py:FiniteDPP.sample_exact", "dppy/exact_sampling.py:dpp_eig_vecs_selector", "dppy/exact_sampling.py:proj_dpp_sampler_eig"])
p("Mode and size validation of projection samplers",
  "proj_dpp_sampler_kernel raises ValueError exactly when size exceeds the rank or the mode is not one of GS, Chol, Schur; proj_dpp_sampler_eig raises ValueError exactly when the mode is not GS, GS_bis or KuTa12.",
  "every size, rank, mode string", "all strings", ["dppy/exact_sampling.py:proj_dpp_sampler_kernel", "dppy/exact_sampling.py:proj_dpp_sampler_eig"])
# ---- kernels
p("Correlation and likelihood kernels correspond",
  "compute_L after compute_K (and vice versa) recovers the original kernel: K = L(I+L)^{-1} and L = K(I-K)^{-1} are mutually inverse, K eigenvalues lie in [0,1), and a correlation projection kernel has no likelihood kernel and raises ValueError.",
  "every admissible kernel", "continuum", ["dppy/finite_dpps.py:FiniteDPP.compute_K", "dppy/finite_dpps.py:FiniteDPP.compute_L"])
p("Dual representation gives the same spectrum",
  "With L = Phi^T Phi given by L_gram_factor, the eigenvectors reconstructed from the dual kernel Phi Phi^T are orthonormal eigenvectors of L for its non-zero eigenvalues and L is recovered from them.",
  "every feature matrix Phi with positive dual eigenvalues", "continuum", ["dppy/finite_dpps.py:FiniteDPP.sample_exact", "dppy/finite_dpps.py:FiniteDPP.compute_L"])
# ---- FiniteDPP state machine
p("FiniteDPP constructor decision logic",
  "FiniteDPP(kernel_type, projection, **params) accepts exactly the documented combinations of kernel type and parameter keys, raises ValueError otherwise, and a non-boolean projection raises ValueError.",
  "every combination of arguments", "the combinations of keys are exponentially many", ["dppy/finite_dpps.py:FiniteDPP.__init__", "dppy/finite_dpps.py:FiniteDPP.__check_args_coherence"])
p("One recorded sample per successful call",
  "Over any history of sample_exact, sample_exact_k_dpp, sample_mcmc, sample_mcmc_k_dpp and flush_samples calls, list_of_samples holds exactly the samples returned since the last flush, in order, and a failing call records nothing.",
  "every history of calls", "unbounded histories", ["dppy/finite_dpps.py:FiniteDPP.sample_exact", "dppy/finite_dpps.py:FiniteDPP.sample_exact_k_dpp", "dppy/finite_dpps.py:FiniteDPP.flush_samples"])
p("k-DPP sampling with varying sizes uses a large enough table",
  "Successive calls sample_exact_k_dpp(size=k1), sample_exact_k_dpp(size=k2), ... on one object behave like calls on fresh objects: the cached elementary-symmetric-polynomial table always covers the requested size.",
  "every sequence of sizes", "bug appears only for particular histories (an increasing size)", ["dppy/finite_dpps.py:FiniteDPP.sample_exact_k_dpp"])
p("Lazy kernel computation terminates and stays coherent",
  "For every object accepted by the constructor with at least one non-None kernel parameter, compute_K, compute_L and the sample_exact dispatch terminate, and quantities computed once are not recomputed or changed by later calls.",
  "every initial parameterisation and call history", "mutual recursion over object states", ["dppy/finite_dpps.py:FiniteDPP.compute_K", "dppy/finite_dpps.py:FiniteDPP.compute_L", "dppy/finite_dpps.py:FiniteDPP.sample_exact"])
p("Intermediate-sampling caches are keyed by what they depend on",
  "After any history of vfx/alpha exact DPP and k-DPP calls, sample_exact(mode='vfx'|'alpha') targets the DPP of the user's L (rescaling 1) with pre-computed data of the matching algorithm.",
  "every history of calls with mixed modes", "history dependent", ["dppy/exact_sampling.py:dpp_vfx_sampler", "dppy/exact_sampling.py:alpha_dpp_sampler", "dppy/exact_sampling.py:k_dpp_vfx_sampler", "dppy/exact_sampling.py:alpha_k_dpp_sampler"])
p("k-DPP by rejection returns exactly k items",
  "k_dpp_vfx_sampler and alpha_k_dpp_sampler either raise or return a sample of exactly the requested size.",
  "every behaviour of the inner sampler and every number of trials", "unbounded adaptive loops", ["dppy/exact_sampling.py:k_dpp_vfx_sampler", "dppy/exact_sampling.py:alpha_k_dpp_sampler"])
p("alpha binary search brackets",
  "During alpha_k_dpp_sampler the search interval satisfies 0 < alpha_min <= alpha_hat <= alpha_max, only shrinks, and early stopping/forced updates follow the observed under/over counts.",
  "every sequence of inner sample sizes", "unbounded adaptive loops", ["dppy/exact_sampling.py:alpha_k_dpp_sampler"])
# ---- MCMC
p("MCMC chains visit only valid states",
  "Every state of the chain returned by the add-exchange-delete, add-delete and exchange samplers is a duplicate-free subset of the ground set with positive determinant, consecutive states differ by at most one addition, deletion or exchange, and exchange chains keep the size.",
  "every kernel, initial state and sequence of random draws", "unbounded chains", ["dppy/mcmc_sampling.py:add_exchange_delete_sampler", "dppy/mcmc_sampling.py:add_delete_sampler", "dppy/mcmc_sampling.py:basis_exchange_sampler"])
p("MCMC chain length",
  "Without a time limit the chain has exactly nb_iter states; with a time limit the chain is a valid prefix of at least the iterations run within that time.",
  "every nb_iter, T_max and clock behaviour", "depends on the clock", ["dppy/mcmc_sampling.py"])
p("Add-delete chain is reversible for the DPP",
  "The transition kernel of the add-delete sampler satisfies detailed balance with respect to det L_S.",
  "every L-ensemble kernel and pair of states", "real-valued identity for all states", ["dppy/mcmc_sampling.py:add_delete_sampler"])
p("Exchange chain is reversible for the k-DPP / projection DPP",
  "The transition kernel of the exchange sampler satisfies detailed balance with respect to det of the kernel restricted to S on sets of fixed size.",
  "every kernel and pair of states", "real-valued identity", ["dppy/mcmc_sampling.py:basis_exchange_sampler"])
p("Add-exchange-delete chain is reversible for the DPP",
  "The transition kernel of the add-exchange-delete sampler satisfies detailed balance with respect to det L_S.",
  "every L-ensemble kernel and pair of states", "bias is invisible to smoke tests", ["dppy/mcmc_sampling.py:add_exchange_delete_sampler"])
p("MCMC initialisation",
  "The initialisation returns a set whose determinant exceeds the tolerance, or raises ValueError when none of the 100 trial sets does.",
  "every sequence of trial draws", "the last trial is hit with vanishing probability", ["dppy/mcmc_sampling.py:initialize_AED_sampler", "dppy/mcmc_sampling.py:initialize_AD_and_E_sampler"])
p("Zonotope sampler returns bases",
  "Every recorded state of zonotope_sampler is a set of r distinct column indices whose columns are linearly independent; a proposed tile is accepted with the ratio |det B1 / det B0| of their volumes.",
  "every LP outcome and draw", "LP geometry", ["dppy/mcmc_sampling.py:zonotope_sampler", "dppy/mcmc_sampling.py:extract_basis"])
# ---- intermediate / bless
p("Rejection loop bookkeeping of intermediate samplers",
  "vfx_sampling_do_sampling_loop returns a set of distinct item indices taken from the sampled multiset, only after an acceptance, raises ValueError after max_iter rejections and when an acceptance probability exceeds its bound.",
  "every sequence of draws", "unbounded rejection", ["dppy/intermediate_sampling.py:vfx_sampling_do_sampling_loop"])
p("alpha-DPP leverage-score bounds only decrease",
  "In alpha_dpp_sampling_do_sampling_loop upper bounds on leverage scores are non-increasing over iterations, once certified stay certified, and acceptance probabilities are at most one.",
  "every history", "unbounded histories", ["dppy/intermediate_sampling.py:alpha_dpp_sampling_do_sampling_loop"])
p("BLESS dictionary invariants",
  "reduce_lambda returns a dictionary of strictly increasing indices of existing data points with inclusion probabilities in (0,1]; it raises when lambda increases.",
  "every input and draw", "continuum", ["dppy/bless.py:reduce_lambda"])
p("BLESS terminates",
  "bless terminates for every data set with positive similarities.",
  "every data set", "non-termination cannot be observed by a test", ["dppy/bless.py:bless"])
# ---- utils
p("Kernel validators are sound",
  "A matrix passing is_symmetric / is_projection / is_orthonormal_columns checks is symmetric / a projection / has orthonormal columns (up to tolerance).",
  "every matrix of every size", "validators look only at leading blocks so failing inputs are beyond test sizes", ["dppy/utils.py:is_symmetric", "dppy/utils.py:is_projection", "dppy/utils.py:is_orthonormal_columns"])
p("Eigenvalue validators",
  "is_equal_to_O_or_1, is_in_01 and is_geq_0 accept a vector iff all entries are within 1e-8 of the stated set, and raise ValueError otherwise.",
  "every vector", "continuum", ["dppy/utils.py:is_equal_to_O_or_1", "dppy/utils.py:is_in_01", "dppy/utils.py:is_geq_0"])
p("Determinant helper",
  "det_ST(K, S) is the determinant of K restricted to S, equals 1 on the empty set, and det_ST(K,S,T) uses rows S and columns T.",
  "every matrix and index list", "continuum", ["dppy/utils.py:det_ST"])
# ---- continuous
p("Polynomial shift",
  "shift_polynomial recentres a polynomial: the returned polynomial at x equals the original at x - x0 (as coded) for every x.",
  "every polynomial and shift", "continuum", ["dppy/beta_ensemble_polynomial_potential_core.py"])
p("Gibbs conditionals of the tridiagonal model are exact",
  "The polynomial used by the Gibbs sampler for coefficient a_i (resp. b_i) differs from Tr V(J) by a constant that does not depend on that coefficient, so the conditional density used is the exact one.",
  "every potential of degree <= 6 and every tridiagonal J of every size, every i", "algebraic identity over all matrices", ["dppy/beta_ensemble_polynomial_potential_core.py:polynomial_in_a_coef", "dppy/beta_ensemble_polynomial_potential_core.py:polynomial_in_b_coef"])
p("MALA kernel is reversible",
  "The Metropolis-adjusted Langevin update is reversible with respect to exp(-V).",
  "every potential, point and proposal", "bias invisible to tests", ["dppy/beta_ensemble_polynomial_potential_core.py:sampler_mala"])
p("Rejection envelope dominates the target",
  "In the exact sampler for log-concave conditionals the envelope is at least the target density at every point, so the acceptance ratio is in [0,1].",
  "every concave log-density", "continuum", ["dppy/beta_ensemble_polynomial_potential_core.py:sampler_exact_convex_quartic"])
p("Banded Laguerre/Jacobi models produce valid spectra",
  "The tridiagonal matrices built by mu_ref_gamma_sampler_tridiag and mu_ref_beta_sampler_tridiag are Gram matrices of bidiagonal factors, so Laguerre eigenvalues are non-negative and Jacobi eigenvalues lie in [0,1].",
  "every draw and size", "continuum", ["dppy/random_matrices.py:mu_ref_gamma_sampler_tridiag", "dppy/random_matrices.py:mu_ref_beta_sampler_tridiag"])
p("Quindiagonal circular model is unitary",
  "The matrix built by mu_ref_unif_unit_circle_sampler_quindiag is an N x N unitary matrix, so eigenvalues lie on the unit circle.",
  "every N and Verblunsky coefficients in the closed disc", "continuum", ["dppy/random_matrices.py:mu_ref_unif_unit_circle_sampler_quindiag"])
p("Parameters of banded and full models round trip",
  "size_M / shape conversions between full and banded Laguerre and Jacobi models are mutually inverse, so normalisation uses the intended matrix sizes.",
  "all sizes and beta>0", "continuum", ["dppy/beta_ensembles.py:LaguerreEnsemble", "dppy/beta_ensembles.py:JacobiEnsemble"])
p("Beta ensemble construction and sample recording",
  "Constructing an ensemble with negative beta raises ValueError, unsupported beta for full models raise ValueError, and each successful sample is recorded exactly once.",
  "every beta and call history", "all histories", ["dppy/beta_ensembles.py:BetaEnsemble"])
p("Multivariate Jacobi chain rule acceptance is a probability",
  "In MultivariateJacobiOPE.sample the rejection acceptance ratio (Schur complement over K(x,x)) is in [0,1] at every step and point.",
  "every history of points", "continuum", ["dppy/multivariate_jacobi_ope.py:MultivariateJacobiOPE.sample"])
p("Random state handling",
  "check_random_state returns the same generator when given one, a deterministic one for an integer seed and raises ValueError for anything else.",
  "every input", "all inputs", ["dppy/utils.py:check_random_state"])
p("Advertised Bernoulli parameter is the marginal inclusion probability",
  "bernoulli_param of CarriesProcess, DescentProcess and VirtualDescentProcess (the parameter of the independent process that plot_vs_bernoullis compares with) equals the probability that any given position belongs to a sample.",
  "every base, size, x_0 and position", "exact probability over all draws; a test can only estimate it",
  ["dppy/exotic_dpps.py:CarriesProcess", "dppy/exotic_dpps.py:DescentProcess", "dppy/exotic_dpps.py:VirtualDescentProcess"])
p("Generic-kernel sampler returns an LU factorisation",
  "The matrix returned by dpp_sampler_generic_kernel(K) together with the sample X is the (in place) LU factorisation of K - I_{X^c}: unit lower triangular times upper triangular.",
  "every kernel and every outcome without zero pivot", "must hold for every outcome of N coin flips",
  ["dppy/exact_sampling.py:dpp_sampler_generic_kernel"])
p("Cholesky mode returns the Cholesky factor of the sampled block",
  "proj_dpp_sampler_kernel_Chol also returns a matrix whose lower triangle L satisfies L L^H = K_X with rows and columns in the order of the returned list.",
  "every Hermitian projection, size and outcome of positive probability", "every outcome of the pivots",
  ["dppy/exact_sampling.py:proj_dpp_sampler_kernel_Chol"])
p("Cholesky mode handles complex Hermitian kernels",
  "proj_dpp_sampler_kernel_Chol on a complex Hermitian projection K of rank r returns the set S (|S| = r) with probability det K_S.",
  "every complex Hermitian projection", "law over all outcomes",
  ["dppy/exact_sampling.py:proj_dpp_sampler_kernel_Chol"])
p("Spectral spanning tree modes are uniform on spanning trees",
  "UST.sample in the modes GS, Schur and Chol on a connected graph always returns a spanning tree, and every spanning tree of the graph has probability one over the number of spanning trees.",
  "every connected graph, every spanning tree", "exact law over all graphs and outcomes",
  ["dppy/exotic_dpps.py:UST.sample", "dppy/exotic_dpps.py:UST.compute_kernel", "dppy/exotic_dpps.py:UST.compute_kernel_eig_vecs"])
p("Law of the vfx sampler",
  "sample_exact(mode='vfx') on a likelihood kernel L: whatever dictionary BLESS draws, a successful call returns T with the probability that the likelihood DPP of L gives to T.",
  "every similarity function, data set, dictionary, oversampling factor, q function and max_iter", "exact law over all draws of a Poisson number of points; a small bias is invisible to tests",
  ["dppy/intermediate_sampling.py:vfx_sampling_precompute_constants", "dppy/intermediate_sampling.py:vfx_sampling_do_sampling_loop", "dppy/exact_sampling.py:dpp_vfx_sampler"])
p("Law of the alpha sampler",
  "sample_exact(mode='alpha') on a likelihood kernel L: whatever dictionary BLESS draws and after any number of previous calls, a successful call returns T with the probability that the likelihood DPP of L gives to T.",
  "every similarity function, data set, dictionary, oversampling factor, r function, max_iter and history of calls", "exact law over all draws and all histories of the cached bounds",
  ["dppy/intermediate_sampling.py:alpha_dpp_sampling_precompute_constants", "dppy/intermediate_sampling.py:alpha_dpp_sampling_do_sampling_loop", "dppy/exact_sampling.py:alpha_dpp_sampler"])
p("Intermediate samplers never raise on their acceptance test",
  "In the vfx and alpha samplers the acceptance test of an intermediate sample is always a probability: the ValueErrors that guard it (acc_thresh, sign of the determinant, range of the leverage scores) are unreachable for a positive semi-definite kernel.",
  "every kernel, dictionary, intermediate sample and parameter", "every intermediate sample of every size",
  ["dppy/intermediate_sampling.py:vfx_sampling_do_sampling_loop", "dppy/intermediate_sampling.py:alpha_dpp_sampling_do_sampling_loop"])
p("Documented vfx parameters are accepted",
  "The keyword parameters q_func, max_iter and max_iter_size_rejection documented for the vfx samplers can be given and are used.",
  "every value of the parameters and state of the object", "every state of the object", ["dppy/exact_sampling.py:dpp_vfx_sampler", "dppy/exact_sampling.py:k_dpp_vfx_sampler"])
p("BLESS returns a valid dictionary",
  "bless and bless_size either raise ValueError or return a non-empty dictionary of distinct data points in increasing order, with inclusion probabilities in (0, 1] and the requested regularisation; bless_size returns a bracket of positive regularisations.",
  "every kernel, size, oversampling and draw", "every draw of every round",
  ["dppy/bless.py:bless", "dppy/bless.py:bless_size"])
p("Law of the k-DPP vfx sampler",
  "sample_exact_k_dpp(size, mode='vfx') on a likelihood kernel L: after any history of calls and whatever dictionary BLESS draws, a successful call returns each set T of size items with probability proportional to det L_T, as a list of distinct items.",
  "every similarity, dictionary, history of calls and size", "exact law over all draws and all histories",
  ["dppy/exact_sampling.py:k_dpp_vfx_sampler", "dppy/intermediate_sampling.py:vfx_sampling_do_sampling_loop"])
p("Law of the k-DPP alpha sampler",
  "sample_exact_k_dpp(size, mode='alpha') on a likelihood kernel L: after any history of calls, whatever dictionary BLESS draws, and although the rescaling is adapted to the sizes of earlier draws, a successful call returns each set T of size items with probability proportional to det L_T, as a list of distinct items.",
  "every similarity, dictionary, history of calls, size, early_stop and r function", "exact law of an adaptive unbounded loop",
  ["dppy/exact_sampling.py:alpha_k_dpp_sampler", "dppy/intermediate_sampling.py:alpha_dpp_sampling_do_sampling_loop"])
p("Multivariate Jacobi kernel is a projection kernel",
  "MultivariateJacobiOPE.K returns sum_k P_k(x) P_k(y) in each of its forms (one or two sets of points, matrix or pointwise), where the N features are orthonormal for the base measure, so K reproduces itself under integration and has trace N.",
  "every object that the constructor returns (N < 32768^d), every dimension, legal parameters and points", "integral identities over a continuum",
  ["dppy/multivariate_jacobi_ope.py:MultivariateJacobiOPE.K", "dppy/multivariate_jacobi_ope.py:MultivariateJacobiOPE.eval_multiD_polynomials"])
p("Multivariate Jacobi chain rule targets the determinantal density",
  "At each step of MultivariateJacobiOPE.sample a proposal drawn from K(x,x)/N is accepted with probability (N-n)/N and an accepted point has the conditional density of the determinantal process; the product of the conditionals is det K(x_i,x_j)/N!.",
  "every history of accepted points", "densities over a continuum",
  ["dppy/multivariate_jacobi_ope.py:MultivariateJacobiOPE.sample"])
p("Norms of univariate Jacobi polynomials",
  "compute_norms_1D_polynomials returns the square root of the documented square norms for every degree, including the special case of the arcsine law, and the entry of degree zero is the mass of the base measure.",
  "every degree and all parameters > -1", "continuum of parameters; a wrong special case is hit only at (-1/2,-1/2)",
  ["dppy/multivariate_jacobi_ope.py:compute_norms_1D_polynomials"])
p("Exact sampler of the conditionals returns the conditional law",
  "With sample_exact_cond=True each coefficient drawn by the Gibbs sweep of the polynomial-potential models has exactly its conditional law given the others, for every potential the option accepts and whatever was drawn before.",
  "every accepted potential, beta, N, value of the other coefficients and rejection history", "exact law over a continuum of states and an unbounded rejection loop",
  ["dppy/beta_ensemble_polynomial_potential_core.py:sampler_exact_convex_quartic", "dppy/beta_ensemble_polynomial_potential_core.py:trunc_gaussian_sampler", "dppy/beta_ensemble_polynomial_potential_core.py:gen_gamma_alpha_lt_1_sampler", "dppy/beta_ensemble_polynomial_potential.py:BetaEnsemblePolynomialPotential.sample_mcmc"])
p("Recorded samples are not modified",
  "An array recorded in list_of_samples (and returned to the caller) by a beta ensemble keeps its values whatever calls are made later on the object: normalising points, plotting or sampling again does not change it.",
  "every history of calls", "aliasing across all histories", ["dppy/beta_ensembles.py:HermiteEnsemble.normalize_points", "dppy/beta_ensembles.py:LaguerreEnsemble.normalize_points"])
p("Displayed normalisation uses the parameters of the displayed sample",
  "When plot or hist displays the last sample with normalization=True, the rescaling uses the parameters (loc, scale, shape, sizes, mode) with which that sample was drawn.",
  "every history of calls including failing ones", "every history; the parameters are mutable attributes", ["dppy/beta_ensembles.py:HermiteEnsemble.normalize_points", "dppy/beta_ensembles.py:BetaEnsemble.plot"])
p("Samples of a beta ensemble have size_N points",
  "A successful sample_full_model or sample_banded_model call returns an array of exactly size_N points.",
  "every class, beta, size, parameters and draw", "all sizes and draws", ["dppy/beta_ensembles.py", "dppy/random_matrices.py:hermite_sampler_full"])
p("Points of a beta ensemble lie in its support",
  "Every point returned by sample_full_model or sample_banded_model is real (Hermite), real and non-negative (Laguerre), in [0,1] (Jacobi), on the unit circle (circular).",
  "every class, beta, size, parameters, history and draw", "continuum of draws", ["dppy/beta_ensembles.py", "dppy/random_matrices.py"])
p("Banded Hermite model has the law of the Hermite beta ensemble",
  "For every beta > 0, loc, scale > 0 and size_N >= 1 the points returned by HermiteEnsemble(beta).sample_banded_model(loc, scale, size_N) are distributed as the beta ensemble with reference measure N(loc, scale^2): joint density proportional to prod_{i<j}|x_i-x_j|^beta prod_i exp(-(x_i-loc)^2/(2 scale^2)).",
  "every beta > 0 (real), loc, scale > 0 and size", "a law is not observable from samples; continuum of parameters", ["dppy/random_matrices.py:mu_ref_normal_sampler_tridiag", "dppy/beta_ensembles.py:HermiteEnsemble.sample_banded_model"])
p("Banded Laguerre model has the law of the Laguerre beta ensemble",
  "For every beta > 0, shape > 0, scale > 0 and size_N >= 1 the points returned by LaguerreEnsemble(beta).sample_banded_model(shape, scale, size_N) are distributed as the beta ensemble with reference measure Gamma(shape, scale): joint density proportional to prod_{i<j}|x_i-x_j|^beta prod_i x_i^(shape-1) exp(-x_i/scale) on positive points.",
  "every beta > 0 (real), shape > 0, scale > 0 and size", "a law is not observable from samples; continuum of parameters", ["dppy/random_matrices.py:mu_ref_gamma_sampler_tridiag", "dppy/beta_ensembles.py:LaguerreEnsemble.sample_banded_model"])
p("Banded Jacobi model has the law of the Jacobi beta ensemble",
  "For every beta > 0, a > 0, b > 0 and size_N >= 1 the points returned by JacobiEnsemble(beta).sample_banded_model(a, b, size_N) are distributed as the beta ensemble with reference measure Beta(a, b): joint density proportional to prod_{i<j}|x_i-x_j|^beta prod_i x_i^(a-1) (1-x_i)^(b-1) on points of (0, 1).",
  "every beta > 0 (real), a > 0, b > 0 and size", "a law is not observable from samples; continuum of parameters", ["dppy/random_matrices.py:mu_ref_beta_sampler_tridiag", "dppy/beta_ensembles.py:JacobiEnsemble.sample_banded_model"])
p("Full Hermite model has the law of the Hermite ensemble",
  "For beta = 1 and beta = 2 the eigenvalues returned by HermiteEnsemble(beta).sample_full_model(size_N) have the joint density proportional to prod_{i<j}|x_i-x_j|^beta prod_i exp(-x_i^2/4): the same law as the banded model with its default loc=0, scale=sqrt(2).",
  "beta in {1, 2} and every size", "equality of two laws on a continuum, every size", ["dppy/random_matrices.py:hermite_sampler_full", "dppy/beta_ensembles.py:HermiteEnsemble.sample_full_model"])
p("Full Laguerre model has the law of the Laguerre ensemble",
  "For beta = 1 and beta = 2 the eigenvalues returned by LaguerreEnsemble(beta).sample_full_model(size_N, size_M) with 1 <= size_N <= size_M have the joint density proportional to prod_{i<j}|x_i-x_j|^beta prod_i x_i^(beta/2 (size_M-size_N+1)-1) exp(-x_i/2): the same law as the banded model with shape beta/2 (size_M-size_N+1) and scale 2.",
  "beta in {1, 2} and all sizes size_N <= size_M", "equality of two laws on a continuum, every size", ["dppy/random_matrices.py:laguerre_sampler_full", "dppy/beta_ensembles.py:LaguerreEnsemble.sample_full_model"])
p("Wilson mode is uniform on spanning trees",
  "On a connected graph without self loops, for every root, ust_sampler_wilson (hence UST.sample(mode='Wilson')) returns each spanning tree of the graph with the same probability, one over the number of spanning trees.",
  "every connected graph, root and spanning tree", "the law of an unbounded random walk is not observable from samples; every graph", ["dppy/exotic_dpps_core.py:ust_sampler_wilson", "dppy/exotic_dpps.py:UST.sample"])
p("Aldous-Broder mode is uniform on spanning trees",
  "On a connected graph, for every root, ust_sampler_aldous_broder (hence UST.sample(mode='Aldous-Broder')) returns each spanning tree of the graph with the same probability, one over the number of spanning trees.",
  "every connected graph, root and spanning tree", "the law of an unbounded random walk is not observable from samples; every graph", ["dppy/exotic_dpps_core.py:ust_sampler_aldous_broder", "dppy/exotic_dpps.py:UST.sample"])
p("Multivariate Jacobi sampler draws the determinantal process",
  "The N points returned by MultivariateJacobiOPE.sample (chain rule with rejection inside rejection) have the law of the determinantal process with kernel K: density det K(x_i,x_j)/N! for the base measure, up to the runs where one of the loops of trials is exhausted; the proposals have density K(x,x)/N.",
  "every legal set of parameters, N < 32768^d, numbers of trials and event", "the law of a random set over a continuum cannot be read from samples; a wrong bound biases it silently",
  ["dppy/multivariate_jacobi_ope.py:MultivariateJacobiOPE.sample", "dppy/multivariate_jacobi_ope.py:MultivariateJacobiOPE.sample_chain_rule_proposal", "dppy/multivariate_jacobi_ope.py:compute_rejection_bounds"])
p("Default one-dimensional Jacobi sampler draws the determinantal process exactly",
  "For one-dimensional parameters (a, b), MultivariateJacobiOPE(N, [[a, b]]).sample() with the default tridiag_1D=True returns N points whose law, order forgotten, is exactly the determinantal process with the kernel K of the object, as the chain rule branch is meant to do.",
  "every a, b > -1, 1 <= N < 32768 and symmetric event", "the law of a random set over a continuum cannot be read from samples",
  ["dppy/multivariate_jacobi_ope.py:MultivariateJacobiOPE.sample", "dppy/random_matrices.py:mu_ref_beta_sampler_tridiag"])
p("Banded circular model has the law of the circular beta ensemble",
  "For every integer beta > 0 and size_N >= 1 the points returned by CircularEnsemble(beta).sample_banded_model(size_N) are distributed as the circular beta ensemble: N points of the unit circle with joint density proportional to prod_{j<k}|e^{it_j}-e^{it_k}|^beta; for beta = 0 they are independent and uniform on the circle.",
  "every integer beta >= 0, size and history of the object", "a law is not observable from samples; every beta and size", ["dppy/random_matrices.py:mu_ref_unif_unit_circle_sampler_quindiag", "dppy/beta_ensembles.py:CircularEnsemble.sample_banded_model"])
p("Full circular model has the law of the circular ensemble",
  "For beta = 1 and beta = 2 and either haar_mode, the points returned by CircularEnsemble(beta).sample_full_model(size_N, haar_mode) are the eigenvalues of a Haar distributed orthogonal (beta = 1) or unitary (beta = 2) matrix and follow the circular ensemble with density proportional to prod_{j<k}|e^{it_j}-e^{it_k}|^beta, as the banded model does.",
  "beta in {1, 2}, both modes, every size, solver and history of the object", "equality of two laws on a continuum, every size", ["dppy/random_matrices.py:circular_sampler_full", "dppy/beta_ensembles.py:CircularEnsemble.sample_full_model"])
p("Full Jacobi model has the law of the Jacobi ensemble",
  "For beta = 1 and beta = 2 the points returned by JacobiEnsemble(beta).sample_full_model(size_N, size_M1, size_M2) with 1 <= size_N <= size_M1, size_M2 (eigenvalues of X X^H (X X^H + Y Y^H)^-1) have, order forgotten, the joint density proportional to prod_{i<j}|x_i-x_j|^beta prod_i x_i^(a-1) (1-x_i)^(b-1) on (0, 1) with a = beta/2 (size_M1-size_N+1), b = beta/2 (size_M2-size_N+1): the same law as the banded model with these parameters.",
  "beta in {1, 2}, all sizes size_N <= size_M1, size_M2, every history of the object", "equality of two laws on a continuum, every size", ["dppy/random_matrices.py:jacobi_sampler_full", "dppy/beta_ensembles.py:JacobiEnsemble.sample_full_model"])
p("Ginibre sampler has the law of the Ginibre ensemble",
  "For every size_N the points returned by GinibreEnsemble().sample_full_model(size_N) (eigenvalues of a complex Gaussian matrix divided by sqrt(2)) have, order forgotten, the joint density proportional to prod_{i<j}|z_i-z_j|^2 prod_i exp(-|z_i|^2) on the plane; in particular they are almost surely distinct.",
  "every size, exact eigenvalue solver and history of the object", "a law on a continuum is not observable from samples; every size", ["dppy/random_matrices.py:ginibre_sampler_full", "dppy/beta_ensembles.py:GinibreEnsemble.sample_full_model"])
p("Descent process is determinantal",
  "The positions recorded by DescentProcess().sample(size=N) form a determinantal point process on {1, ..., N-1}: for every set A of positions the probability that A is included in the sample is det[k(j-i)], i, j in A, with sum_m k(m) z^m = 1/(1-e^z), i.e. k(m) = -B_{m+1}/(m+1)! with Bernoulli numbers; the process is stationary and one-dependent.",
  "every N and every set of positions", "all joint inclusion probabilities for every size; samples only give estimates", ["dppy/exotic_dpps.py:DescentProcess.sample", "dppy/exotic_dpps_core.py:uniform_permutation"])
p("Carries process is determinantal",
  "The positions recorded by CarriesProcess(base=b).sample(size=N) form a determinantal point process on {1, ..., N-1}: for every set A of positions the probability that A is included in the sample is det[k(j-i)], i, j in A, with sum_m k(m) z^m = 1/(1-(1+z/b)^b); stationary and one-dependent.",
  "every base b >= 1, every N and every set of positions", "all joint inclusion probabilities for every size and base", ["dppy/exotic_dpps.py:CarriesProcess.sample"])
p("Virtual descent process is determinantal",
  "The indices recorded by VirtualDescentProcess(x_0).sample(size=N) form a determinantal point process on {0, ..., N-1}: for every set A of indices the probability that A is included in the sample is det[k(j-i)], i, j in A, with sum_m k(m) z^m = 1/(1-e^{pz}(1+(1-p)z)), p = 2 x_0 (1-x_0); stationary and one-dependent.",
  "every x_0 in [0, 1], every N and every set of indices", "all joint inclusion probabilities for every size and parameter", ["dppy/exotic_dpps.py:VirtualDescentProcess.sample"])
p("Poissonised Plancherel sampler has the law of the Poissonised Plancherel measure",
  "RSK is a bijection: every semistandard tableau and standard tableau of the same shape are returned for exactly one sequence. Hence the Young diagram of a uniform permutation of N elements is lam with probability f_lam^2/N!, f_lam the number of standard tableaux of shape lam, and PoissonizedPlancherel(theta).sample() records the diagram lam of size n with probability e^-theta theta^n/n! f_lam^2/n!.",
  "every pair of tableaux, N, theta >= 0 and partition", "infinitely many partitions and an exact law; samples only give estimates", ["dppy/exotic_dpps.py:PoissonizedPlancherel.sample", "dppy/exotic_dpps_core.py:RSK", "dppy/exotic_dpps_core.py:uniform_permutation"])
p("Poissonised Plancherel sample is the discrete Bessel process",
  "Let lam be the diagram recorded by PoissonizedPlancherel(theta).sample(). The points lam_i - i + 1/2, i >= 1 (lam_i = 0 past the last row), form a determinantal point process on Z + 1/2: for every finite set A of sites the probability that A is included is det[K(x, y)], x, y in A, with the discrete Bessel kernel K(a+1/2, b+1/2) = sum_{j>=1} J_{a+j}(2 sqrt theta) J_{b+j}(2 sqrt theta) = sqrt(theta) (J_a J_{b+1} - J_{a+1} J_b)/(a-b). The recorded list sampl contains only the rows of the diagram: it has to be completed by every site below -len(sampl), and alone it is not determinantal for any Hermitian kernel (small theta).",
  "every theta >= 0 and every finite set of sites", "all joint inclusion probabilities of an infinite process; samples only give estimates", ["dppy/exotic_dpps.py:PoissonizedPlancherel.sample", "dppy/exotic_dpps_core.py:RSK", "docs/exotic_dpps/poissonized_plancherel.rst"])
p("Limiting density curves are probability densities",
  "The curves drawn by HermiteEnsemble, LaguerreEnsemble and JacobiEnsemble (plot, hist) over the normalised points are probability densities: semi_circle_law(., R) on [-R, R], marcenko_pastur_law(., M, N, sigma) on [sigma^2 (1 - sqrt(N/M))^2, sigma^2 (1 + sqrt(N/M))^2], wachter_law(., M_1, M_2, N) on a subinterval [Lm, Lp] of [0, 1]: nonnegative, zero outside the support, and integral one.",
  "every R > 0; 0 < N <= M, sigma > 0; 0 < N <= M_1, M_2", "an integral over a continuum, for every real value of the parameters", ["dppy/random_matrices.py:semi_circle_law", "dppy/random_matrices.py:marcenko_pastur_law", "dppy/random_matrices.py:wachter_law"])
p("Equilibrium densities are the equilibrium measures of the potentials",
  "equilibrium_x2_x4(g_2, g_4), equilibrium_x2m(m, g_2m) and equilibrium_ClItKr10() return a probability density carried by the returned support, and it is the equilibrium measure of the potential V (g_2/2 x^2 + g_4/4 x^4; g_2m/(2m) x^(2m); x^4/20 - 4x^3/15 + x^2/5 + 8x/5): V(x) - 2 int log|x-y| dmu(y) is constant where the density is positive and nowhere smaller. Hence whenever BetaEnsemblePolynomialPotential(beta, V) has an equilibrium_density, it is the equilibrium measure of V.",
  "every g_4 > 0 and real g_2 (one and two intervals), every m >= 1 and g_2m > 0, every potential accepted by the constructor", "an integral equation at every point of a continuum, for every parameter", ["dppy/beta_ensemble_polynomial_potential_core.py:equilibrium_x2_x4", "dppy/beta_ensemble_polynomial_potential_core.py:equilibrium_x2m", "dppy/beta_ensemble_polynomial_potential_core.py:equilibrium_ClItKr10", "dppy/beta_ensemble_polynomial_potential.py:BetaEnsemblePolynomialPotential.__init__"])
p("Equilibrium distribution functions match the equilibrium densities",
  "The function cdf returned by cdf_equilibrium_x2_x4(g_2, g_4) and cdf_equilibrium_x2m(m, g_2m) gives at every x the mass of ]-inf, x] for the density of equilibrium_x2_x4(g_2, g_4), resp. equilibrium_x2m(m, g_2m), and leaves the array of the caller unchanged.",
  "every g_4 > 0, g_2, m, g_2m > 0 and array of floats", "equality of two functions on a continuum, for every parameter", ["dppy/beta_ensemble_polynomial_potential_core.py:cdf_equilibrium_x2_x4", "dppy/beta_ensemble_polynomial_potential_core.py:cdf_equilibrium_x2m"])
p("plot_diagram draws the boxes of the Young diagram and the sample is their projection",
  "After a PoissonizedPlancherel sample with a nonempty Young diagram lam, plot_diagram(normalization) draws exactly the outlines of the boxes of lam in the Russian convention and the wedge v = |u|, all divided by sqrt(theta) when normalization is True, and the recorded sample, in the same scale, is the set of projections on the real line of the midpoints of the descending edges of the surface of the diagram. plot_diagram works after every successful sample.",
  "every theta, every recorded history, every partition, both values of normalization", "equality of sets of points of the plane for every partition; the empty diagram has a probability exponentially small in theta", ["dppy/exotic_dpps.py:PoissonizedPlancherel.plot_diagram", "dppy/exotic_dpps_core.py:xy_young_ru", "dppy/exotic_dpps.py:PoissonizedPlancherel.sample"])
p("limit_shape is the Logan-Shepp-Vershik-Kerov curve",
  "limit_shape(x) is |x| outside [-2, 2] and 2/pi (x arcsin(x/2) + sqrt(4 - x^2)) inside; it is even, above |x|, differentiable with slope 2/pi arcsin(x/2), 1-Lipschitz, and the area between it and |x| is 2, the area of theta boxes of the normalised diagram.",
  "every real x", "identities on a continuum and an integral", ["dppy/exotic_dpps_core.py:limit_shape"])
p("rescale_largest_eig_val uses the natural scale of the edge",
  "For a potential with a known equilibrium density, rescale_largest_eig_val(lambda_max) returns N^(2/3) c (lambda_max - b), where b is the right end of the support and c > 0 is the natural scale of the equilibrium density at b, the one for which the rescaled density tends to sqrt(-xi)/pi, that of the Tracy-Widom limit. It raises before any sampling.",
  "every accepted potential with an equilibrium density, every N and lambda_max", "a limit, for every real value of the coefficients", ["dppy/beta_ensemble_polynomial_potential.py:BetaEnsemblePolynomialPotential.rescale_largest_eig_val"])
p("TracyWidom.cdf does not depend on the earlier calls",
  "On a TracyWidom object, cdf(x, quad_order) with quad_order >= 1 returns, whatever calls were made before on the same object, the array it would return on a new one, with one value per entry of x; it raises for an empty x, and a quad_order <= 0 always raises a ValueError.",
  "every history of calls with any arguments, every x and quad_order", "all the histories of a stateful object", ["dppy/beta_ensemble_polynomial_potential_core.py:TracyWidom.cdf", "dppy/beta_ensemble_polynomial_potential_core.py:TracyWidom.compute_quadrature"])
p("TracyWidom.cdf converges to the Tracy-Widom distribution function",
  "cdf applies one function F_m, m = quad_order, to every entry of x, independently of the other entries. When m tends to infinity, F_m(s) tends to the Fredholm determinant of the Airy kernel on (s, oo), that is the distribution function of TW_2, up to a factor exp(-delta) with |delta| <= 1e-5 exp(-2 s), due to the finite difference on the diagonal; the limit tends to 1 as s tends to +oo.",
  "every real s, every number of nodes, every Gauss-Legendre quadrature", "a limit over the number of nodes, for every s", ["dppy/beta_ensemble_polynomial_potential_core.py:TracyWidom.cdf", "dppy/beta_ensemble_polynomial_potential_core.py:TracyWidom.fredholm_determinant", "dppy/beta_ensemble_polynomial_potential_core.py:TracyWidom.kernel"])
p("Building blocks of the Tracy-Widom quadrature",
  "phi is an increasing bijection of (0, 1) onto (s, oo) with derivative d_phi; kernel(s)(X) is the Airy kernel at phi(X), with y - eps on the diagonal, times sqrt(d_phi(x) d_phi(y)), for every s although the division uses the first s only; airy_kernel is the Airy kernel, with (x, x + eps) on the diagonal; compute_quadrature gives positive weights of sum 1 and nodes in (0, 1), exact for the polynomials of degree less than 2 m.",
  "every s, every set of distinct points, every number of nodes, every polynomial", "identities for all points of a continuum and all polynomials", ["dppy/beta_ensemble_polynomial_potential_core.py:TracyWidom.change_of_variable", "dppy/beta_ensemble_polynomial_potential_core.py:TracyWidom.kernel", "dppy/beta_ensemble_polynomial_potential_core.py:TracyWidom.airy_kernel", "dppy/beta_ensemble_polynomial_potential_core.py:TracyWidom.compute_quadrature"])
p("The Gibbs sampler with exact conditionals leaves the beta ensemble invariant",
  "For every potential accepted by BetaEnsemblePolynomialPotential and by sample_mcmc(sample_exact_cond=True), every beta > 0 and N: the law of the Jacobi coefficients with density proportional to prod_j b_j^(beta/2 (N-j) - 1) exp(-beta N/2 Tr V(J)) is a probability law, the passes of sample_mcmc over a_1, b_1, ..., a_N leave it invariant, and the eigenvalues returned from it, after any number of passes, have exactly the law of the beta ensemble, density proportional to prod_{i<j} |x_i - x_j|^beta exp(-beta N/2 sum V(x_i)). (Rejection loops run until acceptance.)",
  "every accepted potential, beta, N, number of passes, observable and answer of the root finders", "the joint law of a Markov chain on a continuum", ["dppy/beta_ensemble_polynomial_potential.py:BetaEnsemblePolynomialPotential.sample_mcmc", "dppy/beta_ensemble_polynomial_potential_core.py:sampler_exact_convex_quartic", "dppy/beta_ensemble_polynomial_potential_core.py:polynomial_in_negative_log_conditional_a_coef", "dppy/beta_ensemble_polynomial_potential_core.py:polynomial_in_negative_log_conditional_b_coef"])
p("Calls on one DPP do not change the results on another one",
  "In a process with several FiniteDPP objects, the attributes and the results of the calls on one object have the law they would have without the calls made on the others.",
  "every finite family of objects, every interleaving of calls (compute_K, compute_L, sample_exact, sample_exact_k_dpp, sample_mcmc, flush_samples), successful or not", "all interleavings of calls on several objects sharing the error state of numpy", ["dppy/finite_dpps.py:FiniteDPP.sample_exact", "dppy/finite_dpps.py:FiniteDPP.sample_exact_k_dpp", "dppy/finite_dpps.py:FiniteDPP.compute_K", "dppy/finite_dpps.py:FiniteDPP.compute_L"])
p("The example likelihood functions satisfy the contract of eval_L",
  "example_eval_L_linear, example_eval_L_polynomial (natural exponent) and example_eval_L_min_kern (points of [0, 1]) return, for n points X and m points Y, the n x m matrix of a symmetric kernel k(x_i, y_j), eval_L(X) = eval_L(X, X), evaluate_L_diagonal gives its diagonal, and the matrix of any points is positive semi-definite; so FiniteDPP('likelihood', L_eval_X_data=(eval_L, X)) is accepted and sample_exact has the law det L_S / det(I + L) after any history of calls. Other inputs raise.",
  "every number of points, dimension, exponent and position of the points, every history", "positive semi-definiteness for every set of points of a continuum, and the law of the samples", ["dppy/utils.py:example_eval_L_linear", "dppy/utils.py:example_eval_L_polynomial", "dppy/utils.py:example_eval_L_min_kern", "dppy/utils.py:evaluate_L_diagonal"])
p("Desired expected size with the vfx mode",
  "On a new FiniteDPP('likelihood', L_eval_X_data=(eval_L, X)), sample_exact(mode='vfx', desired_expected_size=d) samples a DPP with likelihood alpha L, 0 < alpha <= 1, whose expected number of points is d, and the later calls keep the same alpha; it raises an exception when the expected number of points of the DPP of L is smaller than d.",
  "every positive semi-definite L, every d, every dictionary returned by BLESS, every history of later calls", "an expectation, for every kernel and random dictionary; a bias cannot be told from sampling noise", ["dppy/exact_sampling.py:dpp_vfx_sampler", "dppy/intermediate_sampling.py:vfx_sampling_precompute_constants", "dppy/intermediate_sampling.py:vfx_sampling_do_sampling_loop", "dppy/finite_dpps.py:FiniteDPP.sample_exact"])
p("Desired expected size with the alpha mode",
  "On a new FiniteDPP('likelihood', L_eval_X_data=(eval_L, X)), sample_exact(mode='alpha', desired_expected_size=d) samples a DPP with likelihood alpha L, 0 < alpha <= 1, whose expected number of points is d; the later calls of sample_exact keep the same alpha and those of sample_exact_k_dpp still sample the k-DPP of L; it raises an exception when the expected number of points of the DPP of L is smaller than d.",
  "every positive semi-definite L, every natural d, every r_func without ties, every dictionary returned by bless_size, every history of later calls", "an expectation, for every kernel and random dictionary; all histories", ["dppy/exact_sampling.py:alpha_dpp_sampler", "dppy/intermediate_sampling.py:alpha_dpp_sampling_precompute_constants", "dppy/bless.py:bless_size", "dppy/finite_dpps.py:FiniteDPP.sample_exact"])
p("The potentials accepted are those that define an ensemble",
  "Among the polynomials of degree at most six without term of degree five, BetaEnsemblePolynomialPotential(beta, V) with beta > 0 accepts exactly those for which the density prod_{i<j} |x_i - x_j|^beta exp(-beta N / 2 sum_i V(x_i)) can be normalised, whatever the number N of points, and raises ValueError for the others; the potential it keeps (the constant term is reset) defines the same ensemble.",
  "every polynomial, beta > 0 and N >= 1", "integrability of a density for every polynomial and every number of points", ["dppy/beta_ensemble_polynomial_potential.py:BetaEnsemblePolynomialPotential.__init__"])
p("sample_mcmc keeps the law of the DPP described by the object",
  "On a FiniteDPP object, whatever calls were made on it before, sample_mcmc(mode, s_init=S) in the modes 'AD', 'AED' and 'E' and sample_mcmc_k_dpp(size=k, s_init=S) keep the law of the DPP (k-DPP of size k) the constructor arguments describe: if S is one of its samples, e.g. returned by sample_exact (sample_exact_k_dpp), then the set returned has the same law, and so has every entry of the trajectory recorded. A DPP without likelihood kernel, or a size that is not the one of the samples, raises an error.",
  "every valid parametrisation, every history of calls with any arguments, every number of iterations", "a law, after all the histories of calls", ["dppy/finite_dpps.py:FiniteDPP.sample_mcmc", "dppy/finite_dpps.py:FiniteDPP.sample_mcmc_k_dpp", "dppy/mcmc_sampling.py:dpp_sampler_mcmc", "dppy/finite_dpps.py:FiniteDPP.sample_exact", "dppy/finite_dpps.py:FiniteDPP.compute_L"])
p("The add-delete and exchange chains converge to the DPP",
  "When nb_iter grows, the law of the set returned by sample_mcmc('AD'), by sample_mcmc_k_dpp(size=k), 0 < k < N, and by sample_mcmc('E') on a projection kernel converges in total variation to the DPP (k-DPP of size k, projection DPP) the object describes, whatever the initial set of positive probability and the calls made before. The distance after j steps is at most 2 (1 - c)^(j // m), with m and c > 0 that depend on the kernel only. Without s_init the same holds, conditionally on the success of the initialisation.",
  "every positive semi-definite kernel, every initial set, every number of iterations, every history of calls", "a limit over the number of iterations, for every kernel", ["dppy/mcmc_sampling.py:add_delete_sampler", "dppy/mcmc_sampling.py:basis_exchange_sampler", "dppy/mcmc_sampling.py:dpp_sampler_mcmc", "dppy/finite_dpps.py:FiniteDPP.sample_mcmc", "dppy/finite_dpps.py:FiniteDPP.sample_mcmc_k_dpp"])
p("Long runs of the add-exchange-delete chain",
  "sample_mcmc('AED', nb_iter=n), the default mode of dpp_sampler_mcmc, returns a chain for every n.",
  "every kernel, every initial set, every number of iterations", "a rare event of each iteration that becomes certain in the limit", ["dppy/mcmc_sampling.py:add_exchange_delete_sampler", "dppy/mcmc_sampling.py:dpp_sampler_mcmc", "dppy/finite_dpps.py:FiniteDPP.sample_mcmc"])
p("Means over one chain estimate the expectations under the DPP",
  "The chain recorded by sample_mcmc('AD', nb_iter=n), by sample_mcmc_k_dpp(size=k), 0 < k < N, or by sample_mcmc('E') on a projection kernel can be used for estimation: for a constant C that depends on the kernel only, the mean over the chain of any function f of the sets with values in [-1, 1] is within eps of its expectation under the DPP (k-DPP, projection DPP) with probability at least 1 - C / (n eps^2), whatever the initial set of positive probability and the calls made before. In particular the fraction of the sets of the chain that contain T tends to det K_T. Without s_init the same holds, conditionally on the success of the initialisation.",
  "every positive semi-definite kernel, every function, every initial set, every number of iterations, every history of calls", "the joint law of all the states of a chain, for every kernel and length", ["dppy/mcmc_sampling.py:add_delete_sampler", "dppy/mcmc_sampling.py:basis_exchange_sampler", "dppy/mcmc_sampling.py:dpp_sampler_mcmc", "dppy/finite_dpps.py:FiniteDPP.sample_mcmc", "dppy/finite_dpps.py:FiniteDPP.sample_mcmc_k_dpp"])
p("The zonotope sampler keeps the law of the projection DPP",
  "zonotope_sampler(A, c, x_0=x0, nb_iter) on an r x N matrix A of full row rank with a generic objective c: when x0 is a point of the zonotope drawn with density proportional to the volume |det A_B| of the tile B it lies in, every row of the chain returned is a sample of the projection DPP whose kernel is the projection onto the span of the rows of A: P[row = T] = det(A_T)^2 / det(A A^T), exactly, in spite of the tolerance of extract_basis.",
  "every matrix, every objective for which the linear program has one solution, every number of iterations", "the law of a Markov chain on a continuum, for every matrix", ["dppy/mcmc_sampling.py:zonotope_sampler", "dppy/mcmc_sampling.py:extract_basis", "dppy/finite_dpps.py:FiniteDPP.sample_mcmc"])
p("The zonotope sampler converges to the projection DPP",
  "zonotope_sampler(A, lin_obj=c, x_0=x0, nb_iter=n) on an r x N matrix A of full row rank: when the initialisation ends (it does if the solution at x0 has r coordinates away from the bounds), the law of the row number n of the chain tends to the projection DPP of the row space of A when n grows, for every starting point x0; the difference is at most rho^n with rho < 1 that depends on A only. The default objective, a Gaussian vector, has with probability one the uniqueness of solutions that this requires.",
  "every matrix, starting point, objective with unique solutions, number of iterations", "a limit over the number of iterations of a Markov chain on a continuum", ["dppy/mcmc_sampling.py:zonotope_sampler", "dppy/mcmc_sampling.py:extract_basis", "dppy/finite_dpps.py:FiniteDPP.sample_mcmc"])
for q in P: print(json.dumps(q))
