{
 "claims": [
  {
   "property": "C01",
   "status": "proved",
   "theorems": [
    "Verif.Props.C01_uniform_permutation_is_permutation",
    "Verif.Props.C01_uniform_permutation_is_uniform"
   ],
   "note": ""
  },
  {
   "property": "C02",
   "status": "proved",
   "theorems": [
    "Verif.Props.C02_rsk_pair_of_tableaux"
   ],
   "note": ""
  },
  {
   "property": "C03",
   "status": "proved",
   "theorems": [
    "Verif.Props.C03_rsk_injective"
   ],
   "note": ""
  },
  {
   "property": "C04",
   "status": "proved",
   "theorems": [
    "Verif.Props.C04_rsk_first_row"
   ],
   "note": ""
  },
  {
   "property": "C05",
   "status": "proved",
   "theorems": [
    "Verif.Props.C05_carries_are_carry_positions",
    "Verif.Props.C05_carries_count",
    "Verif.Props.C05_carries_every_draw"
   ],
   "note": ""
  },
  {
   "property": "C06",
   "status": "proved",
   "theorems": [
    "Verif.Props.C06_descent_sample"
   ],
   "note": ""
  },
  {
   "property": "C07",
   "status": "proved",
   "theorems": [
    "Verif.Props.C07_virtual_init",
    "Verif.Props.C07_virtual_sample"
   ],
   "note": ""
  },
  {
   "property": "C08",
   "status": "proved",
   "theorems": [
    "Verif.Props.C08_plancherel_sample",
    "Verif.Props.C08_plancherel_injective"
   ],
   "note": ""
  },
  {
   "property": "C09",
   "status": "partial",
   "theorems": [
    "Verif.Props.C09_ordering_rounded_partial",
    "Verif.Props.C09_ordering_partial",
    "Verif.Props.C09_layers_complete_partial",
    "Verif.Props.C09_prefix_partial",
    "Verif.Props.C09_ordering_int16_refuted",
    "Verif.Props.C09_constructor_int16_refuted",
    "Verif.Props.C09_constructor_partial"
   ],
   "note": "Proved for every d>=1 and N<32768^d, and for any layer_max whose layers hold N indices (covers a root rounded down). False beyond: the cast to int16 overflows, the list is empty and the constructor raises ValueError (C09_ordering_int16_refuted, C09_constructor_int16_refuted)."
  },
  {
   "property": "C10",
   "status": "proved",
   "theorems": [
    "Verif.Props.C10_degrees_cover",
    "Verif.Props.C10_features"
   ],
   "note": ""
  },
  {
   "property": "C11",
   "status": "partial",
   "theorems": [
    "Verif.Props.C11_wilson_spanning_tree",
    "Verif.Props.C11_all_nodes",
    "Verif.Props.C11_wilson_terminates",
    "Verif.Props.C11_single_node_refuted",
    "Verif.Props.C11_self_loop_refuted"
   ],
   "note": "Proved for every connected graph without self loops and every root: no exception, every returned value is a spanning tree with all the nodes (n >= 2), and geometric tail of the running time. Refuted outside: with a self loop a non-edge can be returned (C11_self_loop_refuted); a one node graph gives an empty graph (C11_single_node_refuted). Uniformity of the law is C84."
  },
  {
   "property": "C12",
   "status": "proved",
   "theorems": [
    "Verif.Props.C12_aldous_broder_spanning_tree",
    "Verif.Props.C12_aldous_broder_terminates",
    "Verif.Props.C12_all_nodes"
   ],
   "note": ""
  },
  {
   "property": "C13",
   "status": "partial",
   "theorems": [
    "Verif.Props.C13_one_sample",
    "Verif.Props.C13_supported_modes",
    "Verif.Props.C13_constructor",
    "Verif.Props.C13_value_error_refuted",
    "Verif.Props.C13_documented_modes_refuted",
    "Verif.Props.C13_root_ignored",
    "Verif.Props.C13_root_zero_ignored"
   ],
   "note": "Recording proved for all modes and histories. Refuted part: unsupported modes (also the documented GS_bis, KuTa12) raise TypeError, not ValueError; root is never forwarded; root=0 is ignored by the samplers."
  },
  {
   "property": "C14",
   "status": "proved",
   "theorems": [
    "Verif.Props.C14_elementary_symmetric_polynomials"
   ],
   "note": ""
  },
  {
   "property": "C15",
   "status": "proved",
   "theorems": [
    "Verif.Props.C15_k_selector_outcome",
    "Verif.Props.C15_k_selector_rank_check",
    "Verif.Props.C15_k_selector_size_zero_raises"
   ],
   "note": ""
  },
  {
   "property": "C16",
   "status": "proved",
   "theorems": [
    "Verif.Props.C16_k_selector_law"
   ],
   "note": ""
  },
  {
   "property": "C17",
   "status": "proved",
   "theorems": [
    "Verif.Props.C17_selector_law",
    "Verif.Props.C17_selector_every_draw",
    "Verif.Props.C17_selector_total"
   ],
   "note": ""
  },
  {
   "property": "C18",
   "status": "proved",
   "theorems": [
    "Verif.Props.C18_generic_sampler_sorted",
    "Verif.Props.C18_generic_sampler_law",
    "Verif.Props.C18_symmetric_contraction"
   ],
   "note": ""
  },
  {
   "property": "C19",
   "status": "proved",
   "theorems": [
    "Verif.Props.C19_generic_sampler_inclusion"
   ],
   "note": ""
  },
  {
   "property": "C20",
   "status": "proved",
   "theorems": [
    "Verif.Props.C20_proj_kernel_outcome",
    "Verif.Props.C20_proj_eig_outcome"
   ],
   "note": ""
  },
  {
   "property": "C21",
   "status": "proved",
   "theorems": [
    "Verif.Props.C21_proj_kernel_law",
    "Verif.Props.C21_proj_kernel_dpp",
    "Verif.Props.C21_proj_kernel_ordered"
   ],
   "note": ""
  },
  {
   "property": "C22",
   "status": "proved",
   "theorems": [
    "Verif.Props.C22_kernel_modes_same_law",
    "Verif.Props.C22_conditionals"
   ],
   "note": ""
  },
  {
   "property": "C23",
   "status": "proved",
   "theorems": [
    "Verif.Props.C23_eig_modes_same_law",
    "Verif.Props.C23_eig_law"
   ],
   "note": ""
  },
  {
   "property": "C24",
   "status": "proved",
   "theorems": [
    "Verif.Props.C24_dpp_law",
    "Verif.Props.C24_dpp_inclusion",
    "Verif.Props.C24_L_ensemble_law",
    "Verif.Props.C24_dpp_outcome",
    "Verif.Props.C24_k_dpp_law",
    "Verif.Props.C24_k_dpp_outcome"
   ],
   "note": ""
  },
  {
   "property": "C25",
   "status": "partial",
   "theorems": [
    "Verif.Props.C25_kernel_validation",
    "Verif.Props.C25_eig_validation",
    "Verif.Props.C25_eig_no_validation_when_empty",
    "Verif.Props.C25_eig_size_too_large"
   ],
   "note": "The kernel-based entry point is proved as stated. For the eigenvector-based one the claim as stated is false: with no eigenvector the mode is not looked at (C25_eig_no_validation_when_empty) and size larger than the number of eigenvectors is not rejected (C25_eig_size_too_large); with at least one eigenvector C25_eig_validation is the claim."
  },
  {
   "property": "C26",
   "status": "proved",
   "theorems": [
    "Verif.Props.C26_compute_K",
    "Verif.Props.C26_compute_L",
    "Verif.Props.C26_compute_L_projection",
    "Verif.Props.C26_round_trip",
    "Verif.Props.C26_recovers"
   ],
   "note": ""
  },
  {
   "property": "C27",
   "status": "proved",
   "theorems": [
    "Verif.Props.C27_dual_spectrum",
    "Verif.Props.C27_singular_dual_refuted"
   ],
   "note": "C27_dual_spectrum is the claim (non-zero eigenvalues). C27_singular_dual_refuted is an additional finding about the columns of the zero eigenvalues: they are NaN and poison later compute_K / sample_exact('Chol') calls."
  },
  {
   "property": "C28",
   "status": "partial",
   "theorems": [
    "Verif.Props.C28_accepts_iff",
    "Verif.Props.C28_described_accepted",
    "Verif.Props.C28_non_boolean_projection_refuted"
   ],
   "note": "Accepted combinations characterised exactly (C28_accepts_iff). The claim that a non-boolean projection raises ValueError is false: it raises AttributeError while building the message (C28_non_boolean_projection_refuted)."
  },
  {
   "property": "C29",
   "status": "proved",
   "theorems": [
    "Verif.Props.C29_list_of_samples_mcmc_arguments",
    "Verif.Props.C29_one_result_per_call_mcmc_arguments",
    "Verif.Props.C29_list_of_samples",
    "Verif.Props.C29_one_result_per_call"
   ],
   "note": ""
  },
  {
   "property": "C30",
   "status": "partial",
   "theorems": [
    "Verif.Props.C30_first_call",
    "Verif.Props.C30_smaller_size_partial",
    "Verif.Props.C30_larger_size_refuted"
   ],
   "note": "First call and smaller-or-equal later sizes proved; the claim for a larger second size is false: IndexError (C30_larger_size_refuted)."
  },
  {
   "property": "C31",
   "status": "partial",
   "theorems": [
    "Verif.Props.C31_sample_exact_law",
    "Verif.Props.C31_sample_exact_chol_law",
    "Verif.Props.C31_sample_exact_schur_law",
    "Verif.Props.C31_k_dpp_projection_correlation",
    "Verif.Props.C31_k_dpp_projection_likelihood",
    "Verif.Props.C31_computed_quantities_fixed",
    "Verif.Props.C31_compute_terminates",
    "Verif.Props.C31_none_parameter_refuted",
    "Verif.Props.C31_invalid_kernel_second_call_refuted"
   ],
   "note": "Proved for every object whose parameters describe a DPP, after any history. Two findings proved as negations: a parameter given as None recurses without end (C31_none_parameter_refuted), and an invalid kernel is rejected by the first call but accepted by the second (C31_invalid_kernel_second_call_refuted)."
  },
  {
   "property": "C32",
   "status": "partial",
   "theorems": [
    "Verif.Props.C32_rescaling_one_partial",
    "Verif.Props.C32_modes_cannot_be_mixed_refuted",
    "Verif.Props.C32_kdpp_then_dpp_refuted"
   ],
   "note": "The claim is false: after a call with one mode every call with the other mode raises AttributeError for ever (C32_modes_cannot_be_mixed_refuted), and after sample_exact_k_dpp(mode='vfx') a call sample_exact(mode='vfx') samples from a rescaled kernel (C32_kdpp_then_dpp_refuted, explicit case). What holds: histories without k-DPP calls keep rescaling one (C32_rescaling_one_partial)."
  },
  {
   "property": "C33",
   "status": "proved",
   "theorems": [
    "Verif.Props.C33_vfx_size",
    "Verif.Props.C33_alpha_size"
   ],
   "note": "For every environment (no assumption on the kernel, numerics, inner sampler or cached data)."
  },
  {
   "property": "C34",
   "status": "partial",
   "theorems": [
    "Verif.Props.C34_start_upper",
    "Verif.Props.C34_start_below",
    "Verif.Props.C34_start_refuted",
    "Verif.Props.C34_wrong_direction",
    "Verif.Props.C34_update",
    "Verif.Props.C34_call_partial"
   ],
   "note": "The claim is false as stated: with one iteration of BLESS (by default: trace of L between k-1 and 2(k-1)) the search of a first call always starts strictly below its interval (C34_start_below; C34_start_refuted gives ten orthogonal points, k = 2, default parameters), and an update from there on too large samples moves the rescaling up and puts the upper end below the lower one (C34_wrong_direction). What holds: each update and each whole call keep and shrink the interval and follow the counts, for every inner sampler, provided the rescaling starts inside (C34_update, C34_call_partial); with at least two iterations it starts below the upper end (C34_start_upper), if no eigenvalue is lost in the filter."
  },
  {
   "property": "C35",
   "status": "partial",
   "theorems": [
    "Verif.Props.C35_add_delete",
    "Verif.Props.C35_add_exchange_delete",
    "Verif.Props.C35_exchange",
    "Verif.Props.C35_exchange_time_limit_refuted",
    "Verif.Props.C35_add_delete_never_raises",
    "Verif.Props.C35_exchange_errors",
    "Verif.Props.C35_add_exchange_delete_errors",
    "Verif.Props.C35_full_set_always_raises"
   ],
   "note": "Add-delete: proved for every kernel, start and draw. Exchange: proved without a time limit; with one the chain may contain rows of zeros (C35_exchange_time_limit_refuted). Add-exchange-delete: proved for the states it returns; from the full ground set it always raises ValueError (C35_full_set_always_raises), and the errors of every sampler are characterised."
  },
  {
   "property": "C36",
   "status": "partial",
   "theorems": [
    "Verif.Props.C36_length",
    "Verif.Props.C36_exchange_length",
    "Verif.Props.C36_time_limit_refuted"
   ],
   "note": "Length proved without a time limit; with a time limit the test is inverted: the chain stops at once when the limit is NOT exceeded (C36_time_limit_refuted)."
  },
  {
   "property": "C37",
   "status": "proved",
   "theorems": [
    "Verif.Props.C37_detailed_balance",
    "Verif.Props.C37_stationary"
   ],
   "note": ""
  },
  {
   "property": "C38",
   "status": "proved",
   "theorems": [
    "Verif.Props.C38_detailed_balance",
    "Verif.Props.C38_stationary"
   ],
   "note": ""
  },
  {
   "property": "C39",
   "status": "partial",
   "theorems": [
    "Verif.Props.C39_exchange_moves_partial",
    "Verif.Props.C39_add_probability",
    "Verif.Props.C39_delete_probability",
    "Verif.Props.C39_detailed_balance_refuted",
    "Verif.Props.C39_not_stationary_refuted"
   ],
   "note": "The claim is false: detailed balance and stationarity both fail (C39_detailed_balance_refuted, C39_not_stationary_refuted). Exchange moves are reversible (C39_exchange_moves_partial) and the add and delete probabilities are given exactly."
  },
  {
   "property": "C40",
   "status": "partial",
   "theorems": [
    "Verif.Props.C40_initial_state",
    "Verif.Props.C40_only_value_error",
    "Verif.Props.C40_law",
    "Verif.Props.C40_failure_probability",
    "Verif.Props.C40_hundredth_trial_refuted",
    "Verif.Props.C40_size_zero_refuted"
   ],
   "note": "Law, errors and failure probability of the initialisation proved; findings: the hundredth trial is not checked (C40_hundredth_trial_refuted), size zero fails (C40_size_zero_refuted)."
  },
  {
   "property": "C41",
   "status": "partial",
   "theorems": [
    "Verif.Props.C41_default_start_may_loop",
    "Verif.Props.C41_extract_basis_independent",
    "Verif.Props.C41_states_are_bases",
    "Verif.Props.C41_acceptance",
    "Verif.Props.C41_init_diverges",
    "Verif.Props.C41_init_terminates",
    "Verif.Props.C41_time_limit_refuted"
   ],
   "note": "Proved for every solver that returns vertices, every draw, without a time limit. Findings: the initialisation may never terminate (C41_init_diverges; with the default start A rand(N) this has positive probability, C41_default_start_may_loop) and with a time limit rows of zeros are returned (C41_time_limit_refuted)."
  },
  {
   "property": "C42",
   "status": "proved",
   "theorems": [
    "Verif.Props.C42_vfx_loop",
    "Verif.Props.C42_vfx_outcomes",
    "Verif.Props.C42_vfx_failure_probability"
   ],
   "note": "vfx loop for arbitrary constants and inner sampler; failure probability in every reachable state."
  },
  {
   "property": "C43",
   "status": "proved",
   "theorems": [
    "Verif.Props.C43_bounds",
    "Verif.Props.C43_bounds_pass",
    "Verif.Props.C43_acceptance"
   ],
   "note": "every pass and every call with cached data, for arbitrary inner sampler and constants."
  },
  {
   "property": "C44",
   "status": "proved",
   "theorems": [
    "Verif.Props.C44_reduce_lambda",
    "Verif.Props.C44_raises_when_lambda_increases",
    "Verif.Props.C44_leverage_scores_nonneg"
   ],
   "note": ""
  },
  {
   "property": "C45",
   "status": "partial",
   "theorems": [
    "Verif.Props.C45_bless_never_terminates",
    "Verif.Props.C45_bless_terminates_partial"
   ],
   "note": "The claim is false: C45_bless_never_terminates gives kernels (for instance two orthogonal points with the default oversampling 4) for which the initial loop never ends. C45_bless_terminates_partial proves termination when the oversampling factor times the number of non-null points exceeds 10."
  },
  {
   "property": "C46",
   "status": "partial",
   "theorems": [
    "Verif.Props.C46_validators_return_input",
    "Verif.Props.C46_square",
    "Verif.Props.C46_symmetric_sound",
    "Verif.Props.C46_symmetric_complete",
    "Verif.Props.C46_symmetric_unsound",
    "Verif.Props.C46_projection_complete",
    "Verif.Props.C46_projection_unsound",
    "Verif.Props.C46_projection_sound_on_kernels",
    "Verif.Props.C46_orthonormal_sound",
    "Verif.Props.C46_orthonormal_unsound"
   ],
   "note": "Completeness holds for every size. Soundness proved where the check inspects every entry (N <= 20, c <= 5) and, for is_projection, on kernels with spectrum in [0,1]; otherwise explicit accepted counterexamples (C46_symmetric_unsound, C46_projection_unsound, C46_orthonormal_unsound)."
  },
  {
   "property": "C47",
   "status": "proved",
   "theorems": [
    "Verif.Props.C47_in_01",
    "Verif.Props.C47_geq_0",
    "Verif.Props.C47_equal_0_or_1",
    "Verif.Props.C47_xor_with_large_tolerance",
    "Verif.Props.C47_full_row_rank"
   ],
   "note": ""
  },
  {
   "property": "C48",
   "status": "proved",
   "theorems": [
    "Verif.Props.C48_det_S",
    "Verif.Props.C48_det_repeated",
    "Verif.Props.C48_det_empty",
    "Verif.Props.C48_det_ST",
    "Verif.Props.C48_det_transpose"
   ],
   "note": ""
  },
  {
   "property": "C49",
   "status": "proved",
   "theorems": [
    "Verif.Props.C49_shift_polynomial",
    "Verif.Props.C49_shift_degree"
   ],
   "note": "Exact real arithmetic."
  },
  {
   "property": "C50",
   "status": "proved",
   "theorems": [
    "Verif.Props.C50_gibbs_conditionals",
    "Verif.Props.C50_returned_matrix"
   ],
   "note": "The target is the density on the Jacobi coefficients (a,b); the b draws are nonnegative. The change of variables to the eigenvalue law (Krishnapur, Rider, Virag) is not part of the claim."
  },
  {
   "property": "C51",
   "status": "partial",
   "theorems": [
    "Verif.Props.C51_detailed_balance_iff",
    "Verif.Props.C51_corrected_is_reversible",
    "Verif.Props.C51_not_invariant",
    "Verif.Props.C51_gibbs_not_invariant"
   ],
   "note": "False as coded: the acceptance test has the inverted sign. Proved: the coded acceptance satisfies detailed balance iff the two flows agree (C51_detailed_balance_iff), the corrected one is reversible, and invariance fails for a concrete potential and inside the Gibbs sweep (C51_not_invariant, C51_gibbs_not_invariant)."
  },
  {
   "property": "C52",
   "status": "proved",
   "theorems": [
    "Verif.Props.C52_envelope_quartic",
    "Verif.Props.C52_envelope_gamma"
   ],
   "note": "The root finders are contracts (existence of the roots is proved in C74_quartic_roots_exist and C74_gamma_roots_exist)."
  },
  {
   "property": "C53",
   "status": "proved",
   "theorems": [
    "Verif.Props.C53_laguerre_points",
    "Verif.Props.C53_jacobi_points",
    "Verif.Props.C53_legal_parameters_succeed"
   ],
   "note": "Eigenvalue routines are contracts (LAOK); exact arithmetic."
  },
  {
   "property": "C54",
   "status": "proved",
   "theorems": [
    "Verif.Props.C54_quindiagonal_unit_circle",
    "Verif.Props.C54_quindiagonal_succeeds"
   ],
   "note": "Eigenvalue routine is a contract; a zero Gaussian vector (probability zero) is an error outcome in the model."
  },
  {
   "property": "C55",
   "status": "partial",
   "theorems": [
    "Verif.Props.C55_laguerre_roundtrip",
    "Verif.Props.C55_small_shape_refuted",
    "Verif.Props.C55_jacobi_roundtrip",
    "Verif.Props.C55_single_size_ignored"
   ],
   "note": "Proved for 2*shape >= beta. False otherwise: the recorded size_M is < N and is rejected when given back (C55_small_shape_refuted); a single size given to the banded Jacobi model is silently ignored (C55_single_size_ignored)."
  },
  {
   "property": "C56",
   "status": "partial",
   "theorems": [
    "Verif.Props.C56_negative_beta_refuted",
    "Verif.Props.C56_construction",
    "Verif.Props.C56_full_unsupported_beta",
    "Verif.Props.C56_recorded_once"
   ],
   "note": "False for negative beta: the error message itself fails, AttributeError instead of ValueError (C56_negative_beta_refuted). The rest is proved."
  },
  {
   "property": "C57",
   "status": "partial",
   "theorems": [
    "Verif.Props.C57_acceptance_is_probability_partial",
    "Verif.Props.C57_ratio_is_schur_partial",
    "Verif.Props.C57_trial",
    "Verif.Props.C57_ratio_exhausted_refuted",
    "Verif.Props.C57_no_trials"
   ],
   "note": "Proved for every history whose points were accepted. False after exhausted trials: the rejected row is kept unnormalised and a later ratio can exceed 1 (C57_ratio_exhausted_refuted). The branch tridiag_1D is not part of this claim."
  },
  {
   "property": "C58",
   "status": "proved",
   "theorems": [
    "Verif.Props.C58_existing",
    "Verif.Props.C58_global",
    "Verif.Props.C58_int",
    "Verif.Props.C58_errors"
   ],
   "note": ""
  },
  {
   "property": "C59",
   "status": "partial",
   "theorems": [
    "Verif.Props.C59_carries_marginal",
    "Verif.Props.C59_descent_marginal",
    "Verif.Props.C59_virtual_marginal",
    "Verif.Props.C59_virtual_bernoulli_param_wrong"
   ],
   "note": "True for CarriesProcess and DescentProcess; for VirtualDescentProcess the advertised parameter equals the true marginal only for x0 = 1/2 and x0 = 1 (C59_virtual_bernoulli_param_wrong)."
  },
  {
   "property": "C60",
   "status": "proved",
   "theorems": [
    "Verif.Props.C60_generic_sampler_lu"
   ],
   "note": ""
  },
  {
   "property": "C61",
   "status": "proved",
   "theorems": [
    "Verif.Props.C61_chol_factor"
   ],
   "note": ""
  },
  {
   "property": "C62",
   "status": "proved",
   "theorems": [
    "Verif.Props.C62_chol_complex_law"
   ],
   "note": ""
  },
  {
   "property": "C63",
   "status": "proved",
   "theorems": [
    "Verif.Props.C63_spanning_tree",
    "Verif.Props.C63_uniform"
   ],
   "note": ""
  },
  {
   "property": "C64",
   "status": "partial",
   "theorems": [
    "Verif.Props.C64_vfx_law_partial",
    "Verif.Props.C64_vfx_bias_bounds_partial",
    "Verif.Props.C64_vfx_given_size",
    "Verif.Props.C64_vfx_not_exact"
   ],
   "note": "The claim is false: the Poisson rate is rounded up, so the sampled DPP has likelihood b L with b = ceil(q e^{s/q}) e^{-s/q}/q (C64_vfx_not_exact: explicit case with b = 8 e^-2). What holds: exact law with that bias, 1 <= b < 1 + 4 e^-2, exactness given the size, two-sided bounds for a first call."
  },
  {
   "property": "C65",
   "status": "partial",
   "theorems": [
    "Verif.Props.C65_alpha_nodup",
    "Verif.Props.C65_alpha_ties_bias",
    "Verif.Props.C65_alpha_ties_free_sets",
    "Verif.Props.C65_alpha_law_refuted",
    "Verif.Props.C65_alpha_law_partial",
    "Verif.Props.C65_alpha_success_partial",
    "Verif.Props.C65_no_tie",
    "Verif.Props.C65_alpha_law_example"
   ],
   "note": "Exact law after any history of sample_exact calls, for r functions that give no tie (C65_no_tie: e.g. r <= 1 or r * deff not an integer). With ties the full claim is false: C65_alpha_law_refuted (five orthogonal points, default r_func) proves that a successful call does not follow the DPP; C65_alpha_ties_bias and C65_alpha_ties_free_sets say, for every kernel and dictionary of a first call, which sets the ties favour and which keep their relative frequencies."
  },
  {
   "property": "C66",
   "status": "partial",
   "theorems": [
    "Verif.Props.C66_vfx_rounds_never_raise",
    "Verif.Props.C66_alpha_rounds_never_raise_partial",
    "Verif.Props.C66_alpha_raises_on_ties"
   ],
   "note": "True for vfx. For alpha true without ties; false in general: C66_alpha_raises_on_ties (L = I on four points, default r_func)."
  },
  {
   "property": "C67",
   "status": "partial",
   "theorems": [
    "Verif.Props.C67_documented_parameters_refuted",
    "Verif.Props.C67_cached_parameters"
   ],
   "note": "The claim is false: TypeError while nothing is cached (C67_documented_parameters_refuted); with cached data max_iter is used and q_func ignored (C67_cached_parameters)."
  },
  {
   "property": "C68",
   "status": "proved",
   "theorems": [
    "Verif.Props.C68_bless_outcome",
    "Verif.Props.C68_single_iteration",
    "Verif.Props.C68_bless_size_bracket",
    "Verif.Props.C68_size_one_raises"
   ],
   "note": ""
  },
  {
   "property": "C69",
   "status": "proved",
   "theorems": [
    "Verif.Props.C69_kvfx_law",
    "Verif.Props.C69_kvfx_nodup"
   ],
   "note": "exact numerics and inner sampler (GoodEnv)."
  },
  {
   "property": "C70",
   "status": "partial",
   "theorems": [
    "Verif.Props.C70_kalpha_law_partial",
    "Verif.Props.C70_kalpha_nodup",
    "Verif.Props.C70_kalpha_ties_bias",
    "Verif.Props.C70_kalpha_ties_free_sets",
    "Verif.Props.C70_kalpha_law_refuted"
   ],
   "note": "Proved under the hypothesis that no intermediate sample has acceptance probability exactly one (TieFree), see C66. False without it: on five orthogonal points, with the dictionaries built by BLESS and the default r_func, with or without early_stop, a first sample_exact_k_dpp(2, mode='alpha') returns {0,1} too seldom (C70_kalpha_law_refuted); in general ties can only make the sets they contain rarer (C70_kalpha_ties_bias), sets in no tie keep their relative frequencies (C70_kalpha_ties_free_sets)."
  },
  {
   "property": "C71",
   "status": "proved",
   "theorems": [
    "Verif.Props.C71_kernel_values",
    "Verif.Props.C71_features_orthonormal",
    "Verif.Props.C71_kernel_projection",
    "Verif.Props.C71_object_projection_partial",
    "Verif.Props.C71_object_projection"
   ],
   "note": "For every object of the constructor with N<32768^d (larger N raise, see C09), with the concrete Jacobi polynomials; eval_jacobi is the polynomial of scipy's documentation."
  },
  {
   "property": "C72",
   "status": "proved",
   "theorems": [
    "Verif.Props.C72_conditional_density",
    "Verif.Props.C72_joint_density"
   ],
   "note": "Per-step density, acceptance probability and joint density for histories whose points were accepted; the law of the proposals is C86."
  },
  {
   "property": "C73",
   "status": "proved",
   "theorems": [
    "Verif.Props.C73_square_norm",
    "Verif.Props.C73_mass"
   ],
   "note": "Exact real arithmetic; orthogonality of the polynomials themselves is a contract."
  },
  {
   "property": "C74",
   "status": "partial",
   "theorems": [
    "Verif.Props.C74_quartic_exact",
    "Verif.Props.C74_gamma_exact",
    "Verif.Props.C74_exact_gibbs",
    "Verif.Props.C74_quartic_roots_exist",
    "Verif.Props.C74_gamma_roots_exist",
    "Verif.Props.C74_small_shape_exact",
    "Verif.Props.C74_sextic_refuted"
   ],
   "note": "Proved for the quartic conditionals, the gamma-type conditionals and shape<=1 with zero cubic term. False for degree-six potentials with shape<=1: the cubic term of the conditional is ignored (C74_sextic_refuted). After 100 rejections the code returns the last rejected value; the law is conditional on acceptance."
  },
  {
   "property": "C75",
   "status": "partial",
   "theorems": [
    "Verif.Props.C75_recorded_sample_changed_refuted",
    "Verif.Props.C75_samples_unmodified_partial"
   ],
   "note": "False: Hermite and Laguerre normalize_points rescale in place (C75_recorded_sample_changed_refuted). Proved when normalize is never applied to a recorded array (C75_samples_unmodified_partial)."
  },
  {
   "property": "C76",
   "status": "partial",
   "theorems": [
    "Verif.Props.C76_hermite_display",
    "Verif.Props.C76_laguerre_display",
    "Verif.Props.C76_display_after_failure_refuted"
   ],
   "note": "Proved after a successful call; false after a failed call, which changes the parameters but not the sample (C76_display_after_failure_refuted)."
  },
  {
   "property": "C77",
   "status": "partial",
   "theorems": [
    "Verif.Props.C77_number_of_points_partial",
    "Verif.Props.C77_quaternionic_count_refuted"
   ],
   "note": "False for the full models with beta=4: 2*size_N points (C77_quaternionic_count_refuted). Proved otherwise."
  },
  {
   "property": "C78",
   "status": "proved",
   "theorems": [
    "Verif.Props.C78_points_in_support"
   ],
   "note": "Eigenvalue/QR routines are contracts (LAOK)."
  },
  {
   "property": "C79",
   "status": "proved",
   "theorems": [
    "Verif.Props.C79_hermite_banded_method",
    "Verif.Props.C79_hermite_banded_law"
   ],
   "note": ""
  },
  {
   "property": "C80",
   "status": "proved",
   "theorems": [
    "Verif.Props.C80_laguerre_banded_method",
    "Verif.Props.C80_laguerre_banded_law"
   ],
   "note": ""
  },
  {
   "property": "C81",
   "status": "proved",
   "theorems": [
    "Verif.Props.C81_jacobi_banded_method",
    "Verif.Props.C81_jacobi_banded_law"
   ],
   "note": ""
  },
  {
   "property": "C82",
   "status": "proved",
   "theorems": [
    "Verif.Props.C82_full_matches_banded",
    "Verif.Props.C82_hermite_full_eq_banded",
    "Verif.Props.C82_hermite_full_law",
    "Verif.Props.C82_hermite_full_method"
   ],
   "note": ""
  },
  {
   "property": "C83",
   "status": "proved",
   "theorems": [
    "Verif.Props.C83_full_matches_banded",
    "Verif.Props.C83_laguerre_full_eq_banded",
    "Verif.Props.C83_laguerre_full_law",
    "Verif.Props.C83_laguerre_full_method"
   ],
   "note": ""
  },
  {
   "property": "C84",
   "status": "proved",
   "theorems": [
    "Verif.Props.C84_wilson_uniform",
    "Verif.Props.C84_sample_uniform"
   ],
   "note": ""
  },
  {
   "property": "C85",
   "status": "proved",
   "theorems": [
    "Verif.Props.C85_aldous_broder_uniform",
    "Verif.Props.C85_sample_uniform"
   ],
   "note": ""
  },
  {
   "property": "C86",
   "status": "partial",
   "theorems": [
    "Verif.Props.C86_sample_limit_partial",
    "Verif.Props.C86_ultraspherical_limit",
    "Verif.Props.C86_sample_law_partial",
    "Verif.Props.C86_proposal_law_partial",
    "Verif.Props.C86_mixed_half_refuted"
   ],
   "note": "False for legal parameters with a coordinate having exactly one of a, b equal to -1/2: the rejection bound is nan and every proposal is returned unfiltered (C86_mixed_half_refuted). Otherwise the law is within 1-rho of the determinantal process with explicit rho -> 1 (C86_sample_law_partial, C86_sample_limit_partial), where for coordinates with a != b the bound cited from the literature is a contract (CGWBound). For coordinates with a = b in [-1/2, 1/2] the bound is proved (cgw_ultraspherical), so C86_ultraspherical_limit assumes nothing."
  },
  {
   "property": "C87",
   "status": "proved",
   "theorems": [
    "Verif.Props.C87_default_one_dimension"
   ],
   "note": "For events that do not depend on the order (the points are returned sorted); N >= 32768 is refuted by C09."
  },
  {
   "property": "C88",
   "status": "proved",
   "theorems": [
    "Verif.Props.C88_circular_banded_law",
    "Verif.Props.C88_circular_banded_method",
    "Verif.Props.C88_circular_full_beta0"
   ],
   "note": ""
  },
  {
   "property": "C89",
   "status": "partial",
   "theorems": [
    "Verif.Props.C89_circular_qr_law",
    "Verif.Props.C89_circular_qr_eq_banded",
    "Verif.Props.C89_circular_qr_method",
    "Verif.Props.C89_circular_qr_haar_unitary",
    "Verif.Props.C89_circular_qr_haar_orthogonal",
    "Verif.Props.C89_circular_qr_beta1_refuted",
    "Verif.Props.C89_circular_hermite_refuted"
   ],
   "note": "Proved for haar_mode='QR': Haar law of the matrix for beta=1,2 and circular ensemble for beta=2. False for beta=1 (the eigenvalues of a real matrix are closed under conjugation, C89_circular_qr_beta1_refuted) and for the default haar_mode='Hermite', whose law depends on how the eigensolver normalises eigenvectors (C89_circular_hermite_refuted)."
  },
  {
   "property": "C90",
   "status": "proved",
   "theorems": [
    "Verif.Props.C90_jacobi_full_eq_banded",
    "Verif.Props.C90_jacobi_full_law",
    "Verif.Props.C90_jacobi_full_method"
   ],
   "note": ""
  },
  {
   "property": "C91",
   "status": "proved",
   "theorems": [
    "Verif.Props.C91_ginibre_law",
    "Verif.Props.C91_ginibre_distinct",
    "Verif.Props.C91_ginibre_method"
   ],
   "note": ""
  },
  {
   "property": "C92",
   "status": "proved",
   "theorems": [
    "Verif.Props.C92_descent_is_dpp",
    "Verif.Props.C92_descent_kernel",
    "Verif.Props.C92_descent_runs",
    "Verif.Props.C92_stationary",
    "Verif.Props.C92_one_dependent"
   ],
   "note": ""
  },
  {
   "property": "C93",
   "status": "proved",
   "theorems": [
    "Verif.Props.C93_carries_is_dpp",
    "Verif.Props.C93_carries_kernel"
   ],
   "note": ""
  },
  {
   "property": "C94",
   "status": "proved",
   "theorems": [
    "Verif.Props.C94_virtual_is_dpp",
    "Verif.Props.C94_virtual_kernel"
   ],
   "note": ""
  },
  {
   "property": "C95",
   "status": "proved",
   "theorems": [
    "Verif.Props.C95_rsk_bijection",
    "Verif.Props.C95_plancherel_law",
    "Verif.Props.C95_poissonized_plancherel_law"
   ],
   "note": ""
  },
  {
   "property": "C96",
   "status": "proved",
   "theorems": [
    "Verif.Props.C96_discrete_bessel_process",
    "Verif.Props.C96_completed_sample_dpp",
    "Verif.Props.C96_kernel_closed_form",
    "Verif.Props.C96_recorded_list_alone_not_dpp"
   ],
   "note": ""
  },
  {
   "property": "C97",
   "status": "proved",
   "theorems": [
    "Verif.Props.C97_semi_circle",
    "Verif.Props.C97_marcenko_pastur",
    "Verif.Props.C97_wachter"
   ],
   "note": ""
  },
  {
   "property": "C98",
   "status": "proved",
   "theorems": [
    "Verif.Props.C98_x2_x4",
    "Verif.Props.C98_x2m",
    "Verif.Props.C98_ClItKr10",
    "Verif.Props.C98_object"
   ],
   "note": ""
  },
  {
   "property": "C99",
   "status": "partial",
   "theorems": [
    "Verif.Props.C99_x2_x4_partial",
    "Verif.Props.C99_double_well_refuted",
    "Verif.Props.C99_x2m",
    "Verif.Props.C99_other_m",
    "Verif.Props.C99_argument_modified_refuted"
   ],
   "note": "Proved for one interval, g_2 >= -2 sqrt(g_4) (C99_x2_x4_partial), and for m = 2, 3 (C99_x2m). False for every double well g_2 < -2 sqrt(g_4): the formula of one interval is used and is not even monotone (C99_double_well_refuted). Other m raise NotImplementedError (C99_other_m). The array of the caller is clipped in place (C99_argument_modified_refuted)."
  },
  {
   "property": "C100",
   "status": "partial",
   "theorems": [
    "Verif.Props.C100_plot_boxes",
    "Verif.Props.C100_sample_projection",
    "Verif.Props.C100_plot_refuted",
    "Verif.Props.C100_plot_no_sample"
   ],
   "note": "Drawing and projection proved for every nonempty diagram. 'plot_diagram works after every sample' is false: IndexError when the diagram is empty, which has probability exp(-theta) (C100_plot_refuted)."
  },
  {
   "property": "C101",
   "status": "proved",
   "theorems": [
    "Verif.Props.C101_limit_shape"
   ],
   "note": ""
  },
  {
   "property": "C102",
   "status": "partial",
   "theorems": [
    "Verif.Props.C102_rescale_partial",
    "Verif.Props.C102_double_well_refuted",
    "Verif.Props.C102_ClItKr10_refuted",
    "Verif.Props.C102_errors"
   ],
   "note": "Proved for every accepted potential with an equilibrium density except two kinds, for which it is refuted: double wells g_2 < -2 sqrt(g_4) (C102_double_well_refuted) and the potential of ClItKr10, where 0 is always returned (C102_ClItKr10_refuted)."
  },
  {
   "property": "C103",
   "status": "partial",
   "theorems": [
    "Verif.Props.C103_history_independent_partial",
    "Verif.Props.C103_returns",
    "Verif.Props.C103_invalid_order_partial",
    "Verif.Props.C103_invalid_order_refuted"
   ],
   "note": "Independence of the history is proved for quad_order >= 1. For quad_order <= 0 a ValueError is raised only if the preceding call had another order (C103_invalid_order_partial); repeating the invalid call returns the values of the previous valid order (C103_invalid_order_refuted)."
  },
  {
   "property": "C104",
   "status": "proved",
   "theorems": [
    "Verif.Props.C104_limit",
    "Verif.Props.C104_tail"
   ],
   "note": "The contracts are scipy.special.airy = (Ai, Ai') and leggauss = a Gauss-Legendre quadrature (existence for all orders proved in Lemmas/TW8). The limit in the number of nodes is the Tracy-Widom distribution function up to the explicit factor exp(-delta), |delta| <= 1e-5 exp(-2 s), due to the finite difference on the diagonal; no rate of convergence is given."
  },
  {
   "property": "C105",
   "status": "proved",
   "theorems": [
    "Verif.Props.C105_change_of_variable",
    "Verif.Props.C105_kernel",
    "Verif.Props.C105_airy_kernel",
    "Verif.Props.C105_airy_equation",
    "Verif.Props.C105_quadrature"
   ],
   "note": ""
  },
  {
   "property": "C106",
   "status": "proved",
   "theorems": [
    "Verif.Props.C106_gibbs_invariant",
    "Verif.Props.C106_eigenvalues_law",
    "Verif.Props.C106_exact_sampler",
    "Verif.Props.C106_draw_quartic",
    "Verif.Props.C106_draw_gamma",
    "Verif.Props.C106_program",
    "Verif.Props.C106_roots_exist"
   ],
   "note": "Proved for the modelled samplers of the code with sample_exact_cond=True (C106_exact_sampler), with the rejection loops run until acceptance and the root finders as contracts (existence proved); for exact draws the result holds for every potential of the constructor (C106_gibbs_invariant, C106_eigenvalues_law). Convergence from the zero start is not claimed. The default (MALA) is C51."
  },
  {
   "property": "C107",
   "status": "partial",
   "theorems": [
    "Verif.Props.C107_default_state",
    "Verif.Props.C107_full_rank_partial",
    "Verif.Props.C107_eigenvalues_known_partial",
    "Verif.Props.C107_quiet_others_partial",
    "Verif.Props.C107_never_reset",
    "Verif.Props.C107_refuted"
   ],
   "note": "Refuted: np.seterr(divide='raise') is called when the likelihood kernel of a correlation DPP is needed and never reset (C107_never_reset); afterwards sampling a DPP given by an L_gram_factor with d < N and dependent rows raises FloatingPointError, then TypeError for ever (C107_refuted). Independence is proved for every object without such a factor (C107_full_rank_partial) or whose eigenvalues are known (C107_eigenvalues_known_partial), and for every object when the others are projection correlation DPPs or likelihood DPPs (C107_quiet_others_partial)."
  },
  {
   "property": "C108",
   "status": "proved",
   "theorems": [
    "Verif.Props.C108_linear",
    "Verif.Props.C108_polynomial",
    "Verif.Props.C108_vector_is_one_point",
    "Verif.Props.C108_min",
    "Verif.Props.C108_min_rejects",
    "Verif.Props.C108_dimensions",
    "Verif.Props.C108_finite_dpp"
   ],
   "note": ""
  },
  {
   "property": "C109",
   "status": "partial",
   "theorems": [
    "Verif.Props.C109_desired_law_partial",
    "Verif.Props.C109_desired_mean_partial",
    "Verif.Props.C109_desired_refused",
    "Verif.Props.C109_desired_refuted",
    "Verif.Props.C109_desired_exceeded"
   ],
   "note": "Refuted: the expected size of alpha L is at most d but in general smaller, because the equation that defines alpha uses the Nystrom estimate, an upper bound of the expected size; for the same reason the promised exception is not raised when the natural size is between the true one and the estimate (C109_desired_refuted: two orthogonal points, d = 33/28, natural size 1, no exception, mean at most 11/10). The rounding up of the Poisson rate in the loop (see C64) multiplies the kernel by b(d) in [1, 1 + 4 exp(-2)), so that the mean can also exceed d (C109_desired_exceeded). Proved: the law of every later call given the first one, the bounds, the constancy of alpha and the refusal of d <= 0 or d > tr L (C109_desired_law_partial, C109_desired_mean_partial, C109_desired_refused)."
  },
  {
   "property": "C110",
   "status": "partial",
   "theorems": [
    "Verif.Props.C110_alpha_desired_law_partial",
    "Verif.Props.C110_alpha_desired_mean_partial",
    "Verif.Props.C110_one_refused",
    "Verif.Props.C110_alpha_desired_refuted"
   ],
   "note": "Refuted: five orthogonal points, d = 2: the DPP of L has 17/15 points in expectation, no exception is raised and the sets that are returned have at most 17/15 points in expectation, because both the test and the equation that defines alpha use the effective dimension of the weighted dictionary (C110_alpha_desired_refuted). d = 1 is always refused (C110_one_refused). Proved for r functions without ties: law of all the later calls of sample_exact (same alpha) and of sample_exact_k_dpp, 0 < alpha <= 1, hence at most the expected size of the DPP of L (C110_alpha_desired_law_partial, C110_alpha_desired_mean_partial). The desired size is a natural number in the model."
  },
  {
   "property": "C111",
   "status": "partial",
   "theorems": [
    "Verif.Props.C111_accepts_iff",
    "Verif.Props.C111_accepts_normalisable_partial",
    "Verif.Props.C111_same_ensemble",
    "Verif.Props.C111_constant_accepted_refuted"
   ],
   "note": "Exact characterisation of what is accepted and kept (C111_accepts_iff, C111_same_ensemble); for the potentials that are not constant: accepted if and only if the ensemble exists, for every N (C111_accepts_normalisable_partial). Refuted: the non-negative constants are accepted although the density is not integrable (C111_constant_accepted_refuted)."
  },
  {
   "property": "C112",
   "status": "partial",
   "theorems": [
    "Verif.Props.C112_add_delete",
    "Verif.Props.C112_k_dpp",
    "Verif.Props.C112_projection",
    "Verif.Props.C112_exact_then_add_delete",
    "Verif.Props.C112_exact_GS_then_add_delete",
    "Verif.Props.C112_exact_then_k_dpp",
    "Verif.Props.C112_add_delete_outcome",
    "Verif.Props.C112_k_dpp_size_refuted",
    "Verif.Props.C112_no_likelihood_kernel",
    "Verif.Props.C112_projection_errors",
    "Verif.Props.C112_add_exchange_delete_refuted"
   ],
   "note": "Proved for 'AD' (C112_add_delete, C112_add_delete_outcome), the k-DPP exchange chain (C112_k_dpp), projection correlation kernels with mode 'E' (C112_projection), and end to end from sample_exact / sample_exact_k_dpp (C112_exact_then_add_delete, C112_exact_GS_then_add_delete, C112_exact_then_k_dpp), after any history with any MCMC arguments, without time limit, unless the dual kernel is singular (C27) ; errors in C112_no_likelihood_kernel and C112_projection_errors. Refuted: mode 'AED' does not keep the law of two fair coins (C112_add_exchange_delete_refuted), and sample_mcmc_k_dpp does not compare the size with that of s_init (C112_k_dpp_size_refuted)."
  },
  {
   "property": "C113",
   "status": "proved",
   "theorems": [
    "Verif.Props.C113_add_delete",
    "Verif.Props.C113_exchange",
    "Verif.Props.C113_add_delete_default_init",
    "Verif.Props.C113_exchange_default_init",
    "Verif.Props.C113_object_add_delete",
    "Verif.Props.C113_object_k_dpp",
    "Verif.Props.C113_object_projection"
   ],
   "note": "Geometric convergence in total variation of the samplers (C113_add_delete, C113_exchange), of the calls without s_init (C113_*_default_init, relative to the probability that the initialisation succeeds, given by C40) and of the objects after any history (C113_object_*), without time limit. The constants depend on the kernel only; no claim on their size. Mode 'AED' is the subject of C114."
  },
  {
   "property": "C114",
   "status": "partial",
   "theorems": [
    "Verif.Props.C114_sampler_refuted",
    "Verif.Props.C114_default_call_refuted",
    "Verif.Props.C114_singular_partial",
    "Verif.Props.C114_object_refuted"
   ],
   "note": "Refuted: when every set has positive probability (positive definite kernel) the probability that the call returns is at most q^((nb_iter-1)//(N+1)), q < 1 (C114_sampler_refuted), so that long runs raise ValueError with probability tending to one, for the default call dpp_sampler_mcmc(kernel) (C114_default_call_refuted) and on objects after any history (C114_object_refuted): the full ground set is visited sooner or later and rng.choice of the empty list of items to add raises. C114_singular_partial: the claim holds for every kernel whose full determinant is not positive."
  },
  {
   "property": "C115",
   "status": "proved",
   "theorems": [
    "Verif.Props.C115_add_delete",
    "Verif.Props.C115_exchange",
    "Verif.Props.C115_add_delete_default_init",
    "Verif.Props.C115_exchange_default_init",
    "Verif.Props.C115_object_add_delete",
    "Verif.Props.C115_object_k_dpp",
    "Verif.Props.C115_object_inclusion_frequency",
    "Verif.Props.C115_object_projection"
   ],
   "note": "Mean square error at most C / nb_iter for the samplers (C115_add_delete, C115_exchange), the calls without s_init (C115_*_default_init, with the probability that the initialisation succeeds, given by C40) and the objects after any history (C115_object_*), inclusion frequencies in C115_object_inclusion_frequency; without time limit. The constant depends on the kernel only; no claim on its size."
  },
  {
   "property": "C116",
   "status": "proved",
   "theorems": [
    "Verif.Props.C116_keeps_the_law",
    "Verif.Props.C116_keeps_the_law_gaussian",
    "Verif.Props.C116_mass_of_a_tile",
    "Verif.Props.C116_projection_dpp",
    "Verif.Props.C116_rows_are_dpp_samples"
   ],
   "note": "Invariance of the law proved for every number of iterations, directions rng.randn and uniform numbers as ideal real numbers, for every solver that solves the two linear programs exactly (LpExact) with a unique solution (UniqueOptimum; almost every objective, C117_default_objective), without time limit: C116_keeps_the_law (any direction law), C116_keeps_the_law_gaussian, C116_rows_are_dpp_samples. The law of the starting point is a premise of the claim; other starting points: C117."
  },
  {
   "property": "C117",
   "status": "proved",
   "theorems": [
    "Verif.Props.C117_converges",
    "Verif.Props.C117_limit",
    "Verif.Props.C117_default_objective"
   ],
   "note": "C117_converges: bound rho^n on the probability of each tile, from every starting point at which the initialisation ends (the others: C41_init_diverges); C117_limit: the limit; C117_default_objective: almost every objective qualifies. Solver exact (LpExact), ideal real draws, no time limit; rho is not made explicit."
  }
 ]
}