{
 "C25": {
  "status": "partial",
  "note": "The kernel-based entry point is proved as stated. For the eigenvector-based one the claim as stated is false: with no eigenvector the mode is not looked at (C25_eig_no_validation_when_empty) and size larger than the number of eigenvectors is not rejected (C25_eig_size_too_large); with at least one eigenvector C25_eig_validation is the claim."
 },
 "C27": {
  "status": "proved",
  "note": "C27_dual_spectrum is the claim (non-zero eigenvalues). C27_singular_dual_refuted is an additional finding about the columns of the zero eigenvalues: they are NaN and poison later compute_K / sample_exact('Chol') calls."
 },
 "C28": {
  "status": "partial",
  "note": "Accepted combinations characterised exactly (C28_accepts_iff). The claim that a non-boolean projection raises ValueError is false: it raises AttributeError while building the message (C28_non_boolean_projection_refuted)."
 },
 "C30": {
  "status": "partial",
  "note": "First call and smaller-or-equal later sizes proved; the claim for a larger second size is false: IndexError (C30_larger_size_refuted)."
 },
 "C31": {
  "status": "partial",
  "note": "Proved for every object whose parameters describe a DPP, after any history. Two findings proved as negations: a parameter given as None recurses without end (C31_none_parameter_refuted), and an invalid kernel is rejected by the first call but accepted by the second (C31_invalid_kernel_second_call_refuted)."
 },
 "C46": {
  "status": "partial",
  "note": "Completeness holds for every size. Soundness proved where the check inspects every entry (N <= 20, c <= 5) and, for is_projection, on kernels with spectrum in [0,1]; otherwise explicit accepted counterexamples (C46_symmetric_unsound, C46_projection_unsound, C46_orthonormal_unsound)."
 },
 "C59": {
  "status": "partial",
  "note": "True for CarriesProcess and DescentProcess; for VirtualDescentProcess the advertised parameter equals the true marginal only for x0 = 1/2 and x0 = 1 (C59_virtual_bernoulli_param_wrong)."
 },
 "C35": {
  "status": "partial",
  "note": "Add-delete: proved for every kernel, start and draw. Exchange: proved without a time limit; with one the chain may contain rows of zeros (C35_exchange_time_limit_refuted). Add-exchange-delete: proved for the states it returns; from the full ground set it always raises ValueError (C35_full_set_always_raises), and the errors of every sampler are characterised."
 },
 "C36": {
  "status": "partial",
  "note": "Length proved without a time limit; with a time limit the test is inverted: the chain stops at once when the limit is NOT exceeded (C36_time_limit_refuted)."
 },
 "C39": {
  "status": "partial",
  "note": "The claim is false: detailed balance and stationarity both fail (C39_detailed_balance_refuted, C39_not_stationary_refuted). Exchange moves are reversible (C39_exchange_moves_partial) and the add and delete probabilities are given exactly."
 },
 "C40": {
  "status": "partial",
  "note": "Law, errors and failure probability of the initialisation proved; findings: the hundredth trial is not checked (C40_hundredth_trial_refuted), size zero fails (C40_size_zero_refuted)."
 },
 "C41": {
  "status": "partial",
  "note": "Proved for every solver that returns vertices, every draw, without a time limit. Findings: the initialisation may never terminate (C41_init_diverges; with the default start A rand(N) this has positive probability, C41_default_start_may_loop) and with a time limit rows of zeros are returned (C41_time_limit_refuted)."
 },
 "C11": {
  "status": "partial",
  "note": "Proved for every connected graph without self loops and every root: no exception, every returned value is a spanning tree with all the nodes (n >= 2), and geometric tail of the running time. Refuted outside: with a self loop a non-edge can be returned (C11_self_loop_refuted); a one node graph gives an empty graph (C11_single_node_refuted). Uniformity of the law is C84."
 },
 "C13": {
  "status": "partial",
  "note": "Recording proved for all modes and histories. Refuted part: unsupported modes (also the documented GS_bis, KuTa12) raise TypeError, not ValueError; root is never forwarded; root=0 is ignored by the samplers."
 },
 "C45": {
  "status": "partial",
  "note": "The claim is false: C45_bless_never_terminates gives kernels (for instance two orthogonal points with the default oversampling 4) for which the initial loop never ends. C45_bless_terminates_partial proves termination when the oversampling factor times the number of non-null points exceeds 10."
 },
 "C32": {
  "status": "partial",
  "note": "The claim is false: after a call with one mode every call with the other mode raises AttributeError for ever (C32_modes_cannot_be_mixed_refuted), and after sample_exact_k_dpp(mode='vfx') a call sample_exact(mode='vfx') samples from a rescaled kernel (C32_kdpp_then_dpp_refuted, explicit case). What holds: histories without k-DPP calls keep rescaling one (C32_rescaling_one_partial)."
 },
 "C33": {
  "status": "proved",
  "note": "For every environment (no assumption on the kernel, numerics, inner sampler or cached data)."
 },
 "C34": {
  "status": "partial",
  "note": "The claim is false as stated: with one iteration of BLESS (by default: trace of L between k-1 and 2(k-1)) the search of a first call always starts strictly below its interval (C34_start_below; C34_start_refuted gives ten orthogonal points, k = 2, default parameters), and an update from there on too large samples moves the rescaling up and puts the upper end below the lower one (C34_wrong_direction). What holds: each update and each whole call keep and shrink the interval and follow the counts, for every inner sampler, provided the rescaling starts inside (C34_update, C34_call_partial); with at least two iterations it starts below the upper end (C34_start_upper), if no eigenvalue is lost in the filter."
 },
 "C42": {
  "status": "proved",
  "note": "vfx loop for arbitrary constants and inner sampler; failure probability in every reachable state."
 },
 "C43": {
  "status": "proved",
  "note": "every pass and every call with cached data, for arbitrary inner sampler and constants."
 },
 "C64": {
  "status": "partial",
  "note": "The claim is false: the Poisson rate is rounded up, so the sampled DPP has likelihood b L with b = ceil(q e^{s/q}) e^{-s/q}/q (C64_vfx_not_exact: explicit case with b = 8 e^-2). What holds: exact law with that bias, 1 <= b < 1 + 4 e^-2, exactness given the size, two-sided bounds for a first call."
 },
 "C65": {
  "status": "partial",
  "note": "Exact law after any history of sample_exact calls, for r functions that give no tie (C65_no_tie: e.g. r <= 1 or r * deff not an integer). With ties the full claim is false: C65_alpha_law_refuted (five orthogonal points, default r_func) proves that a successful call does not follow the DPP; C65_alpha_ties_bias and C65_alpha_ties_free_sets say, for every kernel and dictionary of a first call, which sets the ties favour and which keep their relative frequencies."
 },
 "C66": {
  "status": "partial",
  "note": "True for vfx. For alpha true without ties; false in general: C66_alpha_raises_on_ties (L = I on four points, default r_func)."
 },
 "C67": {
  "status": "partial",
  "note": "The claim is false: TypeError while nothing is cached (C67_documented_parameters_refuted); with cached data max_iter is used and q_func ignored (C67_cached_parameters)."
 },
 "C69": {
  "status": "proved",
  "note": "exact numerics and inner sampler (GoodEnv)."
 },
 "C70": {
  "status": "partial",
  "note": "Proved under the hypothesis that no intermediate sample has acceptance probability exactly one (TieFree), see C66. False without it: on five orthogonal points, with the dictionaries built by BLESS and the default r_func, with or without early_stop, a first sample_exact_k_dpp(2, mode='alpha') returns {0,1} too seldom (C70_kalpha_law_refuted); in general ties can only make the sets they contain rarer (C70_kalpha_ties_bias), sets in no tie keep their relative frequencies (C70_kalpha_ties_free_sets)."
 },
 "C09": {
  "status": "partial",
  "note": "Proved for every d>=1 and N<32768^d, and for any layer_max whose layers hold N indices (covers a root rounded down). False beyond: the cast to int16 overflows, the list is empty and the constructor raises ValueError (C09_ordering_int16_refuted, C09_constructor_int16_refuted)."
 },
 "C57": {
  "status": "partial",
  "note": "Proved for every history whose points were accepted. False after exhausted trials: the rejected row is kept unnormalised and a later ratio can exceed 1 (C57_ratio_exhausted_refuted). The branch tridiag_1D is not part of this claim."
 },
 "C71": {
  "status": "proved",
  "note": "For every object of the constructor with N<32768^d (larger N raise, see C09), with the concrete Jacobi polynomials; eval_jacobi is the polynomial of scipy's documentation."
 },
 "C72": {
  "status": "proved",
  "note": "Per-step density, acceptance probability and joint density for histories whose points were accepted; the law of the proposals is C86."
 },
 "C73": {
  "status": "proved",
  "note": "Exact real arithmetic; orthogonality of the polynomials themselves is a contract."
 },
 "C49": {
  "status": "proved",
  "note": "Exact real arithmetic."
 },
 "C50": {
  "status": "proved",
  "note": "The target is the density on the Jacobi coefficients (a,b); the b draws are nonnegative. The change of variables to the eigenvalue law (Krishnapur, Rider, Virag) is not part of the claim."
 },
 "C51": {
  "status": "partial",
  "note": "False as coded: the acceptance test has the inverted sign. Proved: the coded acceptance satisfies detailed balance iff the two flows agree (C51_detailed_balance_iff), the corrected one is reversible, and invariance fails for a concrete potential and inside the Gibbs sweep (C51_not_invariant, C51_gibbs_not_invariant)."
 },
 "C52": {
  "status": "proved",
  "note": "The root finders are contracts (existence of the roots is proved in C74_quartic_roots_exist and C74_gamma_roots_exist)."
 },
 "C74": {
  "status": "partial",
  "note": "Proved for the quartic conditionals, the gamma-type conditionals and shape<=1 with zero cubic term. False for degree-six potentials with shape<=1: the cubic term of the conditional is ignored (C74_sextic_refuted). After 100 rejections the code returns the last rejected value; the law is conditional on acceptance."
 },
 "C53": {
  "status": "proved",
  "note": "Eigenvalue routines are contracts (LAOK); exact arithmetic."
 },
 "C54": {
  "status": "proved",
  "note": "Eigenvalue routine is a contract; a zero Gaussian vector (probability zero) is an error outcome in the model."
 },
 "C55": {
  "status": "partial",
  "note": "Proved for 2*shape >= beta. False otherwise: the recorded size_M is < N and is rejected when given back (C55_small_shape_refuted); a single size given to the banded Jacobi model is silently ignored (C55_single_size_ignored)."
 },
 "C56": {
  "status": "partial",
  "note": "False for negative beta: the error message itself fails, AttributeError instead of ValueError (C56_negative_beta_refuted). The rest is proved."
 },
 "C75": {
  "status": "partial",
  "note": "False: Hermite and Laguerre normalize_points rescale in place (C75_recorded_sample_changed_refuted). Proved when normalize is never applied to a recorded array (C75_samples_unmodified_partial)."
 },
 "C76": {
  "status": "partial",
  "note": "Proved after a successful call; false after a failed call, which changes the parameters but not the sample (C76_display_after_failure_refuted)."
 },
 "C77": {
  "status": "partial",
  "note": "False for the full models with beta=4: 2*size_N points (C77_quaternionic_count_refuted). Proved otherwise."
 },
 "C78": {
  "status": "proved",
  "note": "Eigenvalue/QR routines are contracts (LAOK)."
 },
 "C86": {
  "status": "partial",
  "note": "False for legal parameters with a coordinate having exactly one of a, b equal to -1/2: the rejection bound is nan and every proposal is returned unfiltered (C86_mixed_half_refuted). Otherwise the law is within 1-rho of the determinantal process with explicit rho -> 1 (C86_sample_law_partial, C86_sample_limit_partial), where for coordinates with a != b the bound cited from the literature is a contract (CGWBound). For coordinates with a = b in [-1/2, 1/2] the bound is proved (cgw_ultraspherical), so C86_ultraspherical_limit assumes nothing."
 },
 "C87": {
  "status": "proved",
  "note": "For events that do not depend on the order (the points are returned sorted); N >= 32768 is refuted by C09."
 },
 "C89": {
  "status": "partial",
  "note": "Proved for haar_mode='QR': Haar law of the matrix for beta=1,2 and circular ensemble for beta=2. False for beta=1 (the eigenvalues of a real matrix are closed under conjugation, C89_circular_qr_beta1_refuted) and for the default haar_mode='Hermite', whose law depends on how the eigensolver normalises eigenvectors (C89_circular_hermite_refuted)."
 },
 "C99": {
  "status": "partial",
  "note": "Proved for one interval, g_2 >= -2 sqrt(g_4) (C99_x2_x4_partial), and for m = 2, 3 (C99_x2m). False for every double well g_2 < -2 sqrt(g_4): the formula of one interval is used and is not even monotone (C99_double_well_refuted). Other m raise NotImplementedError (C99_other_m). The array of the caller is clipped in place (C99_argument_modified_refuted)."
 },
 "C100": {
  "status": "partial",
  "note": "Drawing and projection proved for every nonempty diagram. 'plot_diagram works after every sample' is false: IndexError when the diagram is empty, which has probability exp(-theta) (C100_plot_refuted)."
 },
 "C102": {
  "status": "partial",
  "note": "Proved for every accepted potential with an equilibrium density except two kinds, for which it is refuted: double wells g_2 < -2 sqrt(g_4) (C102_double_well_refuted) and the potential of ClItKr10, where 0 is always returned (C102_ClItKr10_refuted)."
 },
 "C103": {
  "status": "partial",
  "note": "Independence of the history is proved for quad_order >= 1. For quad_order <= 0 a ValueError is raised only if the preceding call had another order (C103_invalid_order_partial); repeating the invalid call returns the values of the previous valid order (C103_invalid_order_refuted)."
 },
 "C104": {
  "status": "proved",
  "note": "The contracts are scipy.special.airy = (Ai, Ai') and leggauss = a Gauss-Legendre quadrature (existence for all orders proved in Lemmas/TW8). The limit in the number of nodes is the Tracy-Widom distribution function up to the explicit factor exp(-delta), |delta| <= 1e-5 exp(-2 s), due to the finite difference on the diagonal; no rate of convergence is given."
 },
 "C106": {
  "note": "Proved for the modelled samplers of the code with sample_exact_cond=True (C106_exact_sampler), with the rejection loops run until acceptance and the root finders as contracts (existence proved); for exact draws the result holds for every potential of the constructor (C106_gibbs_invariant, C106_eigenvalues_law). Convergence from the zero start is not claimed. The default (MALA) is C51."
 },
 "C107": {
  "status": "partial",
  "note": "Refuted: np.seterr(divide='raise') is called when the likelihood kernel of a correlation DPP is needed and never reset (C107_never_reset); afterwards sampling a DPP given by an L_gram_factor with d < N and dependent rows raises FloatingPointError, then TypeError for ever (C107_refuted). Independence is proved for every object without such a factor (C107_full_rank_partial) or whose eigenvalues are known (C107_eigenvalues_known_partial), and for every object when the others are projection correlation DPPs or likelihood DPPs (C107_quiet_others_partial)."
 },
 "C109": {
  "status": "partial",
  "note": "Refuted: the expected size of alpha L is at most d but in general smaller, because the equation that defines alpha uses the Nystrom estimate, an upper bound of the expected size; for the same reason the promised exception is not raised when the natural size is between the true one and the estimate (C109_desired_refuted: two orthogonal points, d = 33/28, natural size 1, no exception, mean at most 11/10). The rounding up of the Poisson rate in the loop (see C64) multiplies the kernel by b(d) in [1, 1 + 4 exp(-2)), so that the mean can also exceed d (C109_desired_exceeded). Proved: the law of every later call given the first one, the bounds, the constancy of alpha and the refusal of d <= 0 or d > tr L (C109_desired_law_partial, C109_desired_mean_partial, C109_desired_refused)."
 },
 "C110": {
  "status": "partial",
  "note": "Refuted: five orthogonal points, d = 2: the DPP of L has 17/15 points in expectation, no exception is raised and the sets that are returned have at most 17/15 points in expectation, because both the test and the equation that defines alpha use the effective dimension of the weighted dictionary (C110_alpha_desired_refuted). d = 1 is always refused (C110_one_refused). Proved for r functions without ties: law of all the later calls of sample_exact (same alpha) and of sample_exact_k_dpp, 0 < alpha <= 1, hence at most the expected size of the DPP of L (C110_alpha_desired_law_partial, C110_alpha_desired_mean_partial). The desired size is a natural number in the model."
 },
 "C111": {
  "status": "partial",
  "note": "Exact characterisation of what is accepted and kept (C111_accepts_iff, C111_same_ensemble); for the potentials that are not constant: accepted if and only if the ensemble exists, for every N (C111_accepts_normalisable_partial). Refuted: the non-negative constants are accepted although the density is not integrable (C111_constant_accepted_refuted)."
 },
 "C112": {
  "status": "partial",
  "note": "Proved for 'AD' (C112_add_delete, C112_add_delete_outcome), the k-DPP exchange chain (C112_k_dpp), projection correlation kernels with mode 'E' (C112_projection), and end to end from sample_exact / sample_exact_k_dpp (C112_exact_then_add_delete, C112_exact_GS_then_add_delete, C112_exact_then_k_dpp), after any history with any MCMC arguments, without time limit, unless the dual kernel is singular (C27) ; errors in C112_no_likelihood_kernel and C112_projection_errors. Refuted: mode 'AED' does not keep the law of two fair coins (C112_add_exchange_delete_refuted), and sample_mcmc_k_dpp does not compare the size with that of s_init (C112_k_dpp_size_refuted)."
 },
 "C113": {
  "status": "proved",
  "note": "Geometric convergence in total variation of the samplers (C113_add_delete, C113_exchange), of the calls without s_init (C113_*_default_init, relative to the probability that the initialisation succeeds, given by C40) and of the objects after any history (C113_object_*), without time limit. The constants depend on the kernel only; no claim on their size. Mode 'AED' is the subject of C114."
 },
 "C114": {
  "status": "partial",
  "note": "Refuted: when every set has positive probability (positive definite kernel) the probability that the call returns is at most q^((nb_iter-1)//(N+1)), q < 1 (C114_sampler_refuted), so that long runs raise ValueError with probability tending to one, for the default call dpp_sampler_mcmc(kernel) (C114_default_call_refuted) and on objects after any history (C114_object_refuted): the full ground set is visited sooner or later and rng.choice of the empty list of items to add raises. C114_singular_partial: the claim holds for every kernel whose full determinant is not positive."
 },
 "C115": {
  "status": "proved",
  "note": "Mean square error at most C / nb_iter for the samplers (C115_add_delete, C115_exchange), the calls without s_init (C115_*_default_init, with the probability that the initialisation succeeds, given by C40) and the objects after any history (C115_object_*), inclusion frequencies in C115_object_inclusion_frequency; without time limit. The constant depends on the kernel only; no claim on its size."
 },
 "C116": {
  "status": "proved",
  "note": "Invariance of the law proved for every number of iterations, directions rng.randn and uniform numbers as ideal real numbers, for every solver that solves the two linear programs exactly (LpExact) with a unique solution (UniqueOptimum; almost every objective, C117_default_objective), without time limit: C116_keeps_the_law (any direction law), C116_keeps_the_law_gaussian, C116_rows_are_dpp_samples. The law of the starting point is a premise of the claim; other starting points: C117."
 },
 "C117": {
  "status": "proved",
  "note": "C117_converges: bound rho^n on the probability of each tile, from every starting point at which the initialisation ends (the others: C41_init_diverges); C117_limit: the limit; C117_default_objective: almost every objective qualifies. Solver exact (LpExact), ideal real draws, no time limit; rho is not made explicit."
 }
}