{
 "claims": [
  {
   "property": "C01",
   "status": "proved",
   "theorems": [
    "c01_distribute_sampling_devices",
    "c01_distribute_sampling_ranks",
    "c01_zero_chains"
   ],
   "note": "all rank/device/chain counts; zero chains is the ZeroDivisionError branch"
  },
  {
   "property": "C02",
   "status": "proved",
   "theorems": [
    "c02_first_sample_id_tiles"
   ],
   "note": ""
  },
  {
   "property": "C03",
   "status": "proved",
   "theorems": [
    "c03_global_sum",
    "c03_global_mean",
    "c03_layout_independent",
    "c03_gather",
    "c03_no_devices"
   ],
   "note": "exact arithmetic; zero devices on a rank is the IndexError branch"
  },
  {
   "property": "C04",
   "status": "partial",
   "theorems": [
    "c04_global_variance_partial",
    "c04_violated",
    "c04_general",
    "c04_iff"
   ],
   "note": "the code only counts device 0 of every rank: proved for one device per rank, counterexample for two devices; for every layout the exact value returned is proved, that it never exceeds the variance, and exactly when it is the variance"
  },
  {
   "property": "C05",
   "status": "partial",
   "theorems": [
    "c05_second_moment",
    "c05_global_covariance_partial",
    "c05_violated",
    "c05_general"
   ],
   "note": "the code does not subtract the means and returns the transpose: proved for zero-mean data, counterexample otherwise; for every input the exact value returned is proved and exactly when it is the covariance"
  },
  {
   "property": "C06",
   "status": "proved",
   "theorems": [
    "c06_communication_time",
    "c06_query_resets"
   ],
   "note": ""
  },
  {
   "property": "C07",
   "status": "partial",
   "theorems": [
    "c07_bcast_unknown_size_partial",
    "c07_bcast_terminates",
    "c07_violated_deadlock"
   ],
   "note": "proved for float64 arrays under every schedule; for other dtypes the other ranks deadlock (proved)"
  },
  {
   "property": "C08",
   "status": "partial",
   "theorems": [
    "c08_kernels_follow_devices_partial",
    "c08_violated_reorder",
    "c08_violated_placement"
   ],
   "note": "kernels match the device list only up to order; result placement uses a stale device"
  },
  {
   "property": "C09",
   "status": "partial",
   "theorems": [
    "c09_every_config_covered",
    "c09_exactly_once_partial",
    "c09_exactly_once_divisible",
    "c09_violated"
   ],
   "note": "every configuration is covered for all ranks/devices; uniqueness holds exactly when (D-1)*ceil(n_r/D) <= n_r on every rank (iff proved), counterexample N=3 spins on 7 devices"
  },
  {
   "property": "C10",
   "status": "proved",
   "theorems": [
    "c10_probabilities",
    "c10_normalised"
   ],
   "note": "exact real arithmetic"
  },
  {
   "property": "C11",
   "status": "proved",
   "theorems": [
    "c11_exact_sampler",
    "c11_direct_sampling",
    "c11_mcmc",
    "c11_own_parameters",
    "c11_rejected_parameters",
    "c11_exception_leaves_foreign_parameters"
   ],
   "note": "for calls that return; an exception raised by the network evaluation leaves psi at P (c11_exception_leaves_foreign_parameters)"
  },
  {
   "property": "C12",
   "status": "partial",
   "theorems": [
    "c12_mcmc_counts",
    "c12_mcmc_partial",
    "c12_mcmc_violated",
    "c12_mcmc_violated_witness",
    "c12_direct_counts",
    "c12_direct_partial",
    "c12_direct_violated"
   ],
   "note": "holds iff multipleOf divides numChains (Markov chains) resp. multipleOf = 1 (direct); otherwise too few samples, proved"
  },
  {
   "property": "C13",
   "status": "partial",
   "theorems": [
    "c13_spin_flip",
    "c13_spin_flip_Z2",
    "c13_spin_flip_zeroMag",
    "c13_povm_partial",
    "c13_povm_violated",
    "c13_sampler_stays_in_space"
   ],
   "note": "propose_POVM_outcome leaves {0,..,3} (operator precedence), proved"
  },
  {
   "property": "C14",
   "status": "partial",
   "theorems": [
    "c14_spin_flip",
    "c14_spin_flip_Z2",
    "c14_spin_flip_zeroMag",
    "c14_povm_violated",
    "c14_povm_never_returns"
   ],
   "note": "propose_POVM_outcome is never symmetric, proved"
  },
  {
   "property": "C15",
   "status": "proved",
   "theorems": [
    "c15_zeroMag_step",
    "c15_zeroMag_history",
    "c15_sampler_balanced"
   ],
   "note": ""
  },
  {
   "property": "C16",
   "status": "proved",
   "theorems": [
    "c16_update_is_metropolis",
    "c16_detailed_balance",
    "c16_transitions_normalised",
    "c16_stationary",
    "c16_spin_flip",
    "c16_spin_flip_Z2",
    "c16_spin_flip_zeroMag"
   ],
   "note": "draws idealised as independent and uniform"
  },
  {
   "property": "C17",
   "status": "proved",
   "theorems": [
    "c17_cached_log_prob",
    "c17_after_history",
    "c17_samples_are_chain_states"
   ],
   "note": ""
  },
  {
   "property": "C18",
   "status": "proved",
   "theorems": [
    "c18_counters",
    "c18_ratio"
   ],
   "note": ""
  },
  {
   "property": "C19",
   "status": "partial",
   "theorems": [
    "c19_mcmc_weights",
    "c19_reweighting",
    "c19_direct_sum",
    "c19_direct_partial",
    "c19_direct_violated"
   ],
   "note": "direct sampling weights sum to 1/multipleOf, proved"
  },
  {
   "property": "C20",
   "status": "partial",
   "theorems": [
    "c20_fresh_keys_partial",
    "c20_single_rank",
    "c20_violated",
    "c20_sampler_keys"
   ],
   "note": "set_random_key gives all ranks the same keys, proved"
  },
  {
   "property": "C21",
   "status": "proved",
   "theorems": [
    "c21_batching",
    "c21_batch_zero"
   ],
   "note": ""
  },
  {
   "property": "C22",
   "status": "proved",
   "theorems": [
    "c22_set_then_get",
    "c22_get_then_set"
   ],
   "note": ""
  },
  {
   "property": "C23",
   "status": "partial",
   "theorems": [
    "c23_real",
    "c23_cpx_nonholo",
    "c23_holo",
    "c23_probe_violated"
   ],
   "note": "each mode returns the gradient for the networks it is meant for; the mode is chosen from one probe configuration, which can choose wrongly (proved)"
  },
  {
   "property": "C24",
   "status": "partial",
   "theorems": [
    "c24_length_cpx",
    "c24_length_real_partial",
    "c24_mode_of_type",
    "c24_holomorphic_only_if_cauchy_riemann",
    "c24_holomorphic_if_cauchy_riemann",
    "c24_real_iff",
    "c24_cpx_iff",
    "c24_holomorphic",
    "c24_length_violated"
   ],
   "note": "real network with vanishing gradient at the probe point gets gradients of twice the length (proved)"
  },
  {
   "property": "C25",
   "status": "partial",
   "theorems": [
    "c25_set_before_init",
    "c25_initialised_iff",
    "c25_update_adds",
    "c25_protocol_partial",
    "c25_update_before_init_violated"
   ],
   "note": "update_parameters before initialisation raises instead of setting deltaP (proved)"
  },
  {
   "property": "C26",
   "status": "partial",
   "theorems": [
    "c26_reversed_product",
    "c26_ket_convention",
    "c26_matrix_elements_partial",
    "c26_distinct_sites_partial",
    "c26_operator_partial",
    "c26_violated"
   ],
   "note": "strings of commuting factors; the code multiplies the factors of a string in reversed order, proved for all operators, so (Sx(0),Sy(0)) gives -iZ (proved)"
  },
  {
   "property": "C27",
   "status": "proved",
   "theorems": [
    "c27_mixed",
    "c27_annihilation",
    "c27_creation",
    "c27_number"
   ],
   "note": ""
  },
  {
   "property": "C28",
   "status": "partial",
   "theorems": [
    "c28_compression",
    "c28_local_estimator_partial",
    "c28_branch_free_partial",
    "c28_violated",
    "c28_error_bound"
   ],
   "note": "elements in (0,1e-6] are dropped (proved); the error of the local estimator this causes is bounded for every operator"
  },
  {
   "property": "C29",
   "status": "partial",
   "theorems": [
    "c29_batched_eq_unbatched_partial",
    "c29_batch_sizes",
    "c29_empty",
    "c29_violated"
   ],
   "note": "logarithmic networks; for logarithmic == False the remainder batch differs (proved)"
  },
  {
   "property": "C30",
   "status": "partial",
   "theorems": [
    "c30_amplitudes_partial",
    "c30_violated_default",
    "c30_violated_batched"
   ],
   "note": "only if the caller passes log psi(s) and does not batch; the default call is wrong (proved)"
  },
  {
   "property": "C31",
   "status": "partial",
   "theorems": [
    "c31_operators_concatenate",
    "c31_scaling_partial",
    "c31_product_partial",
    "c31_constructor_normal",
    "c31_constructor_value",
    "c31_violated"
   ],
   "note": "a string with two prefactors raises TypeError when evaluated with arguments (proved)"
  },
  {
   "property": "C32",
   "status": "partial",
   "theorems": [
    "c32_single_rank",
    "c32_parallel_partial",
    "c32_violated",
    "c32_iff"
   ],
   "note": "correct on one rank or with gaps at chunk boundaries; IndexError for every operator with prefactors on all strings on two or more ranks; the exact condition for a right result is proved (else IndexError)"
  },
  {
   "property": "C33",
   "status": "partial",
   "theorems": [
    "c33_never_stale",
    "c33_terms_recorded",
    "c33_argument_number_partial",
    "c33_violated"
   ],
   "note": "results are never computed from stale kernels; after an exception in the argument preprocessing later evaluations fail (proved)"
  },
  {
   "property": "C34",
   "status": "partial",
   "theorems": [
    "c34_estimator_partial",
    "c34_violated"
   ],
   "note": "operators whose compile() returns one function raise (proved)"
  },
  {
   "property": "C35",
   "status": "partial",
   "theorems": [
    "c35_shapes_partial",
    "c35_violated",
    "c35_column_violated"
   ],
   "note": "two-dimensional configurations raise a broadcasting error; with shape (N,1) fermionic operators lose their sign (both proved)"
  },
  {
   "property": "C36",
   "status": "proved",
   "theorems": [
    "c36_is_povm",
    "c36_overlap_invertible",
    "c36_informationally_complete",
    "c36_unknown_name",
    "c36_two_body"
   ],
   "note": "exact real arithmetic"
  },
  {
   "property": "C37",
   "status": "proved",
   "theorems": [
    "c37_unitary",
    "c37_dissipative",
    "c37_total_probability"
   ],
   "note": ""
  },
  {
   "property": "C38",
   "status": "proved",
   "theorems": [
    "c38_named",
    "c38_prob_real",
    "c38_unitary",
    "c38_dissipative",
    "c38_imaginary",
    "c38_observable",
    "c38_predefined"
   ],
   "note": ""
  },
  {
   "property": "C39",
   "status": "proved",
   "theorems": [
    "c39_used_name",
    "c39_new_name",
    "c39_names_keep",
    "c39_standard",
    "c39_direct_insert_lost"
   ],
   "note": "also shown: operators written directly into povm.operators are lost at the next add (c39_direct_insert_lost)"
  },
  {
   "property": "C40",
   "status": "partial",
   "theorems": [
    "c40_compile_partial",
    "c40_history_partial",
    "c40_empty",
    "c40_shared_dictionary_loses_term"
   ],
   "note": "every history in which no operator dictionary is added to two operators; otherwise identifiers can collide and compile drops a term (proved)"
  },
  {
   "property": "C41",
   "status": "proved",
   "theorems": [
    "c41_mean",
    "c41_covar",
    "c41_var",
    "c41_covar_moments",
    "c41_covar_posSemidef",
    "c41_layout"
   ],
   "note": "exact arithmetic"
  },
  {
   "property": "C42",
   "status": "proved",
   "theorems": [
    "c42_subset",
    "c42_slice_forward",
    "c42_slice_backward",
    "c42_slice_inside",
    "c42_step_zero"
   ],
   "note": ""
  },
  {
   "property": "C43",
   "status": "partial",
   "theorems": [
    "c43_covar_data_mean_partial",
    "c43_covar_var_partial",
    "c43_transform_partial",
    "c43_zero_weight_violated"
   ],
   "note": "positive weights (normalised for covar_var); one sample of zero weight makes the results NaN (proved)"
  },
  {
   "property": "C44",
   "status": "proved",
   "theorems": [
    "c44_restores",
    "c44_cross_validation",
    "c44_returns",
    "c44_exception_leaves_parameters"
   ],
   "note": "an exception inside a call leaves psi with the parameters of the call (proved, not part of the claim)"
  },
  {
   "property": "C45",
   "status": "partial",
   "theorems": [
    "c45_returns_partial",
    "c45_unbound_violated",
    "c45_exit",
    "c45_residual_partial",
    "c45_residual_exact",
    "c45_formula",
    "c45_formula_snr",
    "c45_snr",
    "c45_dead_parameter_violated"
   ],
   "note": "UnboundLocalError for pinvTol>=1 or pinvCutoff>=0.01, NaN update for a parameter with constant gradient under Monte Carlo (both proved); residual is an upper bound for the returned real part, exact for the exact sampler"
  },
  {
   "property": "C46",
   "status": "proved",
   "theorems": [
    "c46_error",
    "c46_metadata"
   ],
   "note": "non-zero energy variance; with zero variance the claim's quotient is undefined"
  },
  {
   "property": "C47",
   "status": "partial",
   "theorems": [
    "c47_returns",
    "c47_eigensolver",
    "c47_equation_partial",
    "c47_least_squares_partial",
    "c47_minimal_norm",
    "c47_minimal_solution_partial",
    "spectrumAbove_zero",
    "c47_truncated",
    "c47_truncation_violated"
   ],
   "note": "For every cutoff the update is the truncated pseudo-inverse of S applied to -F (c47_truncated). S x = -F holds if the cutoff removes no non-zero eigenvalue (always for pinvTol=0); for every positive cutoff a data set on which it fails is constructed"
  },
  {
   "property": "C48",
   "status": "partial",
   "theorems": [
    "c48_violated",
    "c70_equation"
   ],
   "note": "get_sr_equation raises TypeError for every input (proved); the equation itself is c70_equation with prefactor 1"
  },
  {
   "property": "C49",
   "status": "partial",
   "theorems": [
    "c49_step_partial",
    "c49_heun_partial",
    "c49_bounds_partial",
    "c49_rejected",
    "c49_returns_partial",
    "c49_returns_small",
    "c49_returns_near",
    "c49_returns_squared",
    "c49_returns_continuous",
    "c49_unbounded_violated",
    "c49_first_step_violated",
    "c49_alias_violated"
   ],
   "note": "holds for right-hand sides that return new arrays and for first time steps <= maxStep; both exceptions are proved violations. Termination is proved for right-hand sides that are bounded close to the present value, in particular continuous ones, with norms or squared norms; without a bound it is false (proved)"
  },
  {
   "property": "C50",
   "status": "proved",
   "theorems": [
    "c50_euler",
    "c50_heun",
    "c50_heun_calls",
    "c50_heun_exact",
    "c50_heun_linear"
   ],
   "note": ""
  },
  {
   "property": "C51",
   "status": "partial",
   "theorems": [
    "c51_search_partial",
    "c51_terminates",
    "c51_tdvp_partial",
    "c51_tolerance_violated",
    "c51_nan_violated"
   ],
   "note": "proved except for the stopping rule at varianceTol >= 1 (no step is done) and NaN variances (the search stops), both proved violations"
  },
  {
   "property": "C52",
   "status": "partial",
   "theorems": [
    "c52_rows_partial",
    "c52_intact_partial",
    "c52_series_partial",
    "c52_aligned_partial",
    "c52_append_partial",
    "c52_late_violated",
    "c52_exception_violated",
    "c52_crash_violated",
    "c52_shape_violated",
    "c52_times_violated"
   ],
   "note": "holds for histories in which every call passes the observable, with arrays of a fixed shape under names without slashes; observables first passed later, exceptions, crashes inside a call, shrinking arrays and metadata called 'times' are proved violations"
  },
  {
   "property": "C53",
   "status": "partial",
   "theorems": [
    "c53_index_partial",
    "c53_last_partial",
    "c53_time_partial",
    "c53_crash_partial",
    "c53_crash_violated",
    "c53_after_crash_violated",
    "c53_negative_violated"
   ],
   "note": "holds for natural histories; after a crash only idx=i of complete checkpoints is right, the default can return weights of another time (proved violation); negative times are ignored (proved violation)"
  },
  {
   "property": "C54",
   "status": "partial",
   "theorems": [
    "c54_only_inside",
    "c54_selected_partial",
    "c54_root_violated",
    "c54_dataset_violated"
   ],
   "note": "set_group('/') does not return to the root group, write_dataset and write_error_data ignore the group (proved violations)"
  },
  {
   "property": "C55",
   "status": "partial",
   "theorems": [
    "c55_total_partial",
    "c55_printed",
    "c55_count",
    "c55_stop_violated",
    "c55_double_violated"
   ],
   "note": "total proved for alternating start/stop; a stop without start and a second stop are proved violations; the printed values are proved for all histories"
  },
  {
   "property": "C56",
   "status": "proved",
   "theorems": [
    "c56_order",
    "c56_same_group",
    "c56_1d",
    "c56_2d",
    "c56_factor_length",
    "c56_factor_1d",
    "c56_factor_2d"
   ],
   "note": "for L > 0, every choice of symmetries and factors; the factors are the values of the representation whenever the given ones belong to one"
  },
  {
   "property": "C57",
   "status": "partial",
   "theorems": [
    "c57_invariant_1d",
    "c57_invariant_2d",
    "c57_invariant_real",
    "c57_invariant_other",
    "c57_character_1d_partial",
    "c57_character_2d_partial",
    "c57_sum",
    "c57_no_overflow",
    "c57_real_violated",
    "c57_other_violated"
   ],
   "note": "invariance is proved for all averaging functions; the transformation with a character holds for complex networks with the default averaging, but is false for real-valued networks (NaN) and for the other averaging functions (they ignore the factors)"
  },
  {
   "property": "C58",
   "status": "partial",
   "theorems": [
    "c58_1d_partial",
    "c58_2d_partial",
    "c58_complex_violated"
   ],
   "note": "Proved for every cell, real parameters, size, local dimension and factor. False for complex parameters (realValuedParams=False): witness with total 3."
  },
  {
   "property": "C59",
   "status": "partial",
   "theorems": [
    "c59_1d_partial",
    "c59_2d_partial",
    "c59_sym_1d_partial",
    "c59_sym_2d_partial",
    "c59_complex_violated",
    "c59_sym_povm_violated",
    "c59_sym_default_violated"
   ],
   "note": "Proved for real parameters; for symmetrised networks with separate averaging and logProbFactor 1/2 (spin flips need two local states). False for complex parameters, for separate averaging with logProbFactor 1, and for the default averaging."
  },
  {
   "property": "C60",
   "status": "partial",
   "theorems": [
    "c60_cnn",
    "c60_cnn_formula",
    "c60_cpx_open",
    "c60_cpx_partial",
    "c60_cpx_violated",
    "c60_layers"
   ],
   "note": "proved for CNN in any dimension; CpxCNN pads the periodically extended input with zeros and is not translation invariant for filters larger than one (proved violation)"
  },
  {
   "property": "C61",
   "status": "proved",
   "theorems": [
    "c61_exp",
    "c61_finite",
    "c61_even",
    "c61_even_nonzero",
    "c61_zero_real_part",
    "c61_amplitude",
    "c61_flip",
    "c61_real",
    "c61_polynomials",
    "c61_poly6_taylor",
    "c61_poly5_taylor"
   ],
   "note": "signs of zero real parts are modelled"
  },
  {
   "property": "C62",
   "status": "partial",
   "theorems": [
    "c62_measure_partial",
    "c62_measure_exact",
    "c62_measure_violated",
    "c62_measure_general",
    "c62_povm_moments_partial",
    "c62_povm_error_violated"
   ],
   "note": "one device per rank; wrong variance with several devices (exact value and that it is never too large proved for every layout), measure_povm reports variance/sqrt(n) (both proved)"
  },
  {
   "property": "C63",
   "status": "partial",
   "theorems": [
    "c63_short_vector_partial",
    "c63_failure_is_atomic",
    "c63_too_long_violated",
    "c63_too_short_violated",
    "c63_accepted_iff"
   ],
   "note": "c63_accepted_iff: the accepted vectors, exactly; over-long vectors are cut silently, complex leaves of size two accept vectors one entry short (proved)"
  },
  {
   "property": "C64",
   "status": "partial",
   "theorems": [
    "c64_dict_real",
    "c64_dict_holo",
    "c64_dict_partial",
    "c64_dict_violated"
   ],
   "note": "complex non-holomorphic networks return half the entries (proved)"
  },
  {
   "property": "C65",
   "status": "partial",
   "theorems": [
    "c65_pauli_matrices_partial",
    "c65_ladder_swapped",
    "c65_violated",
    "c65_ladder_adjoint"
   ],
   "note": "Sp and Sm are exchanged in the documented convention (proved)"
  },
  {
   "property": "C66",
   "status": "proved",
   "theorems": [
    "c66_named_states",
    "c66_unknown_state"
   ],
   "note": ""
  },
  {
   "property": "C67",
   "status": "partial",
   "theorems": [
    "c67_select",
    "c67_tangent_kernel",
    "c67_linear_matrix_partial",
    "c67_linear_vector_violated",
    "c67_linear_vector_mixes_samples"
   ],
   "note": "select and tangent_kernel are complete; for vector-valued observations linearFun is contracted with the sample axis (proved)"
  },
  {
   "property": "C69",
   "status": "partial",
   "theorems": [
    "c69_mean",
    "c69_correlator_partial",
    "c69_square_partial",
    "c69_zero_distance_violated"
   ],
   "note": "all non-zero distances; at distance 0 the reported value is 3 instead of 1 in the mixed state (proved)"
  },
  {
   "property": "C70",
   "status": "proved",
   "theorems": [
    "c70_equation"
   ],
   "note": ""
  },
  {
   "property": "C71",
   "status": "partial",
   "theorems": [
    "c71_violated",
    "c71_makeReal_ignored",
    "c71_real_partial"
   ],
   "note": "violated: makeReal is ignored and the update can be imaginary; real if the local energies are real too (c71_real_partial)"
  },
  {
   "property": "C72",
   "status": "proved",
   "theorems": [
    "c72_restores",
    "c72_call"
   ],
   "note": ""
  },
  {
   "property": "C73",
   "status": "proved",
   "theorems": [
    "c73_append",
    "c73_new",
    "c73_dataset"
   ],
   "note": ""
  },
  {
   "property": "C74",
   "status": "partial",
   "theorems": [
    "c74_invariant_partial",
    "c74_spinflip_violated"
   ],
   "note": "proved without spin flips; with spin flips the matrices act on 0/1 instead of spins, so that the claim is false (proved violation)"
  },
  {
   "property": "C75",
   "status": "partial",
   "theorems": [
    "c75_spin_flip_reaches_all",
    "c75_spin_flip_Z2_reaches_all",
    "c75_zeroMag_reaches_all",
    "c75_unique_stationary",
    "c75_spin_flip_unique",
    "c75_spin_flip_Z2_unique",
    "c75_zeroMag_unique",
    "c75_converges",
    "c75_converges_pointwise",
    "c75_zeroMag_converges",
    "c75_spin_flip_converges_partial",
    "c75_spin_flip_Z2_converges_partial",
    "c75_expectations_converge",
    "c75_uniform_periodic",
    "c75_povm_moves",
    "c75_povm_violated",
    "c75_spin_flip_violated",
    "c75_spin_flip_Z2_violated"
   ],
   "note": "Reachability and uniqueness of the stationary distribution proved for the three spin proposers. Convergence (geometric, any number of chains, any initial distribution) is proved for every symmetric connected proposer unless the target distribution is uniform and the moves are bipartite; hence always for zero magnetisation, and for the two flip proposers if |psi|^mu is not constant (or, for Z2, the number of sites is odd). Without this proviso convergence is false: for mu=0 and an even number of sweep steps the single-flip samplers only return configurations of even parity. Reachability is false for propose_POVM_outcome."
  },
  {
   "property": "C76",
   "status": "proved",
   "theorems": [
    "c76_constructor"
   ],
   "note": ""
  },
  {
   "property": "C77",
   "status": "partial",
   "theorems": [
    "c77_exact_sampler",
    "c77_mean",
    "c77_measure_partial",
    "c77_exact_measurement"
   ],
   "note": "mean for every layout, variance on one device per rank; with several devices the variance is wrong (c62_measure_violated); the split of the basis must be even (C09)"
  },
  {
   "property": "C78",
   "status": "partial",
   "theorems": [
    "c78_constant_estimator",
    "c78_zero_variance_iff",
    "c78_stationary",
    "c78_monte_carlo_violated"
   ],
   "note": "with a Monte Carlo sampler the update at an eigenstate is NaN instead of zero (proved)"
  },
  {
   "property": "C79",
   "status": "proved",
   "theorems": [
    "c79_energy_decreases",
    "c79_short_step"
   ],
   "note": ""
  },
  {
   "property": "C80",
   "status": "proved",
   "theorems": [
    "c80_energy_conserved"
   ],
   "note": ""
  },
  {
   "property": "C68",
   "status": "partial",
   "theorems": [
    "c68_gradient_partial",
    "c68_operator_gradient_partial",
    "c68_mean",
    "c68_devices_violated"
   ],
   "note": "with several devices on a rank mean_and_grad raises ValueError (proved); one device per rank is proved"
  },
  {
   "property": "C81",
   "status": "partial",
   "theorems": [
    "c81_invariant_1d_partial",
    "c81_invariant_2d_partial",
    "c81_projection_1d_partial",
    "c81_projection_2d_partial",
    "c81_generator_1d_partial",
    "c81_generator_2d_partial",
    "c81_real_1d_partial",
    "c81_real_2d_partial",
    "c81_reuse_violated",
    "c81_two_networks_violated",
    "c81_two_networks_error_violated",
    "c81_rotation_violated",
    "c81_other_lattices"
   ],
   "note": "Proved for descriptions of one network. False in three cases, proved: a description with activation functions raises KeyError when it is used again, a description with two networks always raises, and so does a rotation on a chain."
  },
  {
   "property": "C82",
   "status": "partial",
   "theorems": [
    "c82_two_networks",
    "c82_modulus_and_phase",
    "c82_sampler_net_partial",
    "c82_sampler_violated",
    "c82_generator",
    "c82_too_few"
   ],
   "note": "False for phase networks with complex values, proved: the samplers ignore the contribution of the phase network to the modulus."
  },
  {
   "property": "C83",
   "status": "proved",
   "theorems": [
    "c83_ffn",
    "c83_no_activation",
    "c83_spin_flip"
   ],
   "note": "the output unit always uses the last activation function"
  },
  {
   "property": "C84",
   "status": "partial",
   "theorems": [
    "c84_cpx_rbm",
    "c84_rbm_partial",
    "c84_rbm_rows",
    "c84_rbm_violated"
   ],
   "note": "CpxRBM flattens the configuration; RBM does not, so that its wave function is a product over rows for all parameters (proved)"
  },
  {
   "property": "C85",
   "status": "partial",
   "theorems": [
    "c85_current_settings_partial",
    "c85_stale_mu",
    "c85_violated"
   ],
   "note": "Proved for all histories in which mu and the network change only together with another static argument (number of samples, sweeps, proposer). False for mu alone: a call with a number of samples that was used before uses the mu of the first call (proved, with witness)."
  },
  {
   "property": "C86",
   "status": "partial",
   "theorems": [
    "c86_supported_releases_partial",
    "c86_violated"
   ],
   "note": "Proved for 0.7 to 0.9. False from 0.10 on: the release numbers are compared as strings, and creation raises TypeError (proved for 0.10 to 0.39)."
  },
  {
   "property": "C87",
   "status": "partial",
   "theorems": [
    "c87_born_partial",
    "c87_plain",
    "c87_violated"
   ],
   "note": "Proved for logarithmic=True. False for logarithmic=False: the samplers take the output as logarithm and sample from |exp(psi(s))|^2 (proved for all networks, with witness)."
  },
  {
   "property": "C88",
   "status": "proved",
   "theorems": [
    "c88_never_worse",
    "c88_optimal",
    "c88_exact_velocity",
    "c88_offRay_least",
    "c88_state",
    "c88_error_le_one"
   ],
   "note": "c88_state is the statement for wave functions with exactly weighted samples; c88_optimal for any samples. The remainder is missOf (1 - least damping factor)."
  },
  {
   "property": "C89",
   "status": "proved",
   "theorems": [
    "c89_makeReal",
    "c89_samples",
    "c89_energy_decreases",
    "c89_energy_conserved",
    "c89_gradients"
   ],
   "note": "c89_makeReal is the statement for any samples; the others derive energy decrease/conservation in the other mode, and show that the computed gradients meet the hypothesis."
  },
  {
   "property": "C90",
   "status": "partial",
   "theorems": [
    "c90_hidden_1d",
    "c90_rnn_1d",
    "c90_gru_1d",
    "c90_lstm_1d",
    "c90_causal_1d",
    "c90_gru_bounded",
    "c90_lstm_bounded",
    "c90_hidden_2d",
    "c90_rnn_2d",
    "c90_lstm_2d",
    "c90_causal_2d",
    "c90_gates",
    "c90_custom_1d",
    "c90_custom_2d",
    "c90_gru_2d_violated"
   ],
   "note": "Proved for all cells on chains, and for RNN and LSTM on square lattices. False for GRU on square lattices: every network with at least one layer raises TypeError (the cell takes two arguments and is called with three)."
  },
  {
   "property": "C91",
   "status": "partial",
   "theorems": [
    "c91_names_1d_partial",
    "c91_names_2d_partial",
    "c91_unknown_violated",
    "c91_complex_violated"
   ],
   "note": "Exactly the documented names are accepted on chains. Unknown names raise AttributeError instead of ValueError, and the set-up of complex gated cells raises nothing: the ValueError is created but not raised. NQS refuses such networks later, with the exception about data types (c122_networks)."
  },
  {
   "property": "C92",
   "status": "partial",
   "theorems": [
    "c92_mean",
    "c92_error_partial",
    "c92_rnn",
    "c92_rnn_2d",
    "c92_sym_1d",
    "c92_sym_2d"
   ],
   "note": "Mean, mean square deviation and tail bound proved in general, and for recurrent networks on chains and square lattices, plain and symmetrised (separate averaging). The reported error is treated with one device per rank: for several devices it is wrong (C04). Numbers of samples at least the number of ranks."
  },
  {
   "property": "C93",
   "status": "partial",
   "theorems": [
    "c93_distribution",
    "c93_configurations_partial",
    "c93_measure_partial",
    "c93_spin_flip_partial",
    "c93_spin_flip_Z2_partial",
    "c93_zeroMag",
    "c93_uniform_violated"
   ],
   "note": "Proved for any proposer that is symmetric, connects all configurations and is not periodic, in particular the three spin flip proposers (single flips: if the amplitudes differ in magnitude; single and global flips: also for odd lattices; zero magnetisation: always, in the sector). sweepSteps at least 1. False for uniform |psi|^mu with single spin flips and even sweepSteps: measure reports 1 for the product of all sigma^z instead of 0 for every outcome and number of samples (proved)."
  },
  {
   "property": "C94",
   "status": "proved",
   "theorems": [
    "c94_master_equation",
    "c94_custom",
    "c94_probability",
    "c94_local_estimator"
   ],
   "note": "For the SIC-POVM at any angles. Dictionaries shared between operators are excluded, see C40; the estimator is stated for matrix elements that are zero or above the threshold 1e-6 of C22."
  },
  {
   "property": "C95",
   "status": "proved",
   "theorems": [
    "c95_exact",
    "c95_mcmc",
    "c95_mcmc_history",
    "c95_mcmc_weights",
    "c95_local",
    "c95_local_world",
    "c95_measure_exact",
    "c95_gradients_real",
    "c95_gradients_cpx",
    "c95_tdvp",
    "c95_minsr",
    "c95_tdvp_exact"
   ],
   "note": "For networks with logarithmic == True (others: C29) and within a given gradient mode; constants add exactly in real arithmetic."
  },
  {
   "property": "C96",
   "status": "partial",
   "theorems": [
    "c96_euler",
    "c96_heun",
    "c96_adaptive",
    "c96_euler_limit",
    "c96_heun_limit",
    "c96_adaptive_reaches",
    "c96_tolerance_violated"
   ],
   "note": "Error bounds and limits are proved in exact arithmetic; AdaptiveHeun for right-hand sides that return new arrays (see C49). The documented claim that the integration error is smaller than the tolerance is false: a step of size 1 for dy/dt = sin(2 pi t)^2 is accepted for every tolerance with error 1/2 (proved)."
  },
  {
   "property": "C97",
   "status": "proved",
   "theorems": [
    "c97_distance",
    "c97_expect",
    "c97_real_time",
    "c97_exact",
    "c97_measure"
   ],
   "note": "In exact arithmetic, for continuous trajectories that follow the returned velocities (discrete time steps: C96), exactly weighted samples (ExactSampler), real parameters, sampling part of the call as in C79."
  },
  {
   "property": "C98",
   "status": "partial",
   "theorems": [
    "c98_level",
    "c98_variational",
    "c98_ground_state",
    "c98_reported",
    "c98_call",
    "c98_search_partial",
    "c98_final_violated"
   ],
   "note": "In exact arithmetic, exactly weighted samples, real parameters. The last claim holds of the state before the last update only: the state that ground_state_search leaves in psi is one step further than the state whose variance was measured, and its variance can exceed the tolerance (proved)."
  },
  {
   "property": "C99",
   "status": "partial",
   "theorems": [
    "c99_usable",
    "c99_resume_partial",
    "c99_crash_partial",
    "c99_crash_violated",
    "c99_adaptive_violated"
   ],
   "note": "Part (1) holds in full for natural calls (names without slashes, same shapes). Part (2) holds for Euler and Heun with samplers that have no state (exact sampling), and after a crash if the index of the last complete checkpoint is given. Disagreements: the default idx=-1 after a crash inside write_network_checkpoint returns the new time with the old parameters, and the time step of AdaptiveHeun is not in the checkpoint, so that a resumed adaptive run takes other steps (both proved)."
  },
  {
   "property": "C100",
   "status": "proved",
   "theorems": [
    "c100_alone",
    "c100_reported",
    "c100_linear",
    "c100_branch_free_partial",
    "c100_bare_arguments"
   ],
   "note": "The history must not contain exceptions (after one, an operator can be unusable: c33_violated). Succeeds for logarithmic networks and operators whose elements are zero or above the threshold of get_s_primes. c100_branch_free_partial: the means for BranchFreeOperator objects, from the strings added (without 50 or more prefactors on several ranks, C32). c100_bare_arguments: a tuple (operator, number) that is not inside a list raises."
  },
  {
   "property": "C101",
   "status": "proved",
   "theorems": [
    "c101_distance",
    "c101_best",
    "c101_exact",
    "c101_reported",
    "c101_observable_rate",
    "c101_trajectory",
    "c101_trajectory_average",
    "c101_exact_sampler",
    "c101_follows",
    "c101_follows_solution",
    "c101_conserves",
    "c101_rate_solution",
    "c101_master_equation"
   ],
   "note": "In exact arithmetic, for continuous trajectories that follow the returned velocities (discrete time steps: C96), exactly weighted samples (ExactSampler with logProbFactor=1, c101_exact_sampler), matrix elements zero or above the threshold of C22, sampling part of the call as in C79. The example script examples/ex5 itself passes a keyword svdTol that TDVP does not have."
  },
  {
   "property": "C102",
   "status": "partial",
   "theorems": [
    "c102_determined",
    "c102_hang_excludes",
    "c102_global_sum",
    "c102_global_statistics",
    "c102_gather",
    "c102_bcast",
    "c102_samplers",
    "c102_sampled_obs",
    "c102_measure",
    "c102_measure_povm",
    "c102_prefactors",
    "c102_tdvp",
    "c102_tdvp_exact",
    "c102_tdvp_mcmc",
    "c102_minsr",
    "c102_steppers",
    "c102_checkpoint_partial",
    "c102_violated_bcast",
    "c102_violated_prefactors",
    "c102_violated_checkpoint",
    "c102_violated_output"
   ],
   "note": "Holds whenever the functions succeed on the data of all ranks (for TDVP with the samplers of the package this is proved from the fact that every rank has a device). Disagreements (proved): bcast_unknown_size of an array that is not float64, prefactors of operators with at least 50 strings, get_network_checkpoint of a file that rank 0 cannot read, and every write that fails on rank 0, leave the other ranks waiting forever. Networks and operators are evaluated locally; MPI calls are synchronising collectives (a rank leaves when all have entered)."
  },
  {
   "property": "C103",
   "status": "partial",
   "theorems": [
    "c103_tdvp",
    "c103_tdvp_padded",
    "c103_minsr",
    "c103_measure_partial",
    "c103_variance_violated",
    "c103_mcmc_weights",
    "c103_exact_sampler"
   ],
   "note": "The same variance and error of measure are proved for one device per rank; with several devices per rank they depend on the layout (c103_variance_violated, C04). The two cross-validation numbers of TDVP are computed from subsets of every device and are excluded. Signal-to-noise ratios are the same for the same number of entries; with padding they are NaN (and unused with exact sampling). ExactSampler: even splits (other splits: C09). In exact arithmetic."
  },
  {
   "property": "C104",
   "status": "partial",
   "theorems": [
    "c104_update",
    "c104_energy",
    "c104_conserved",
    "c104_reported",
    "c104_real_time",
    "c104_direct",
    "c104_direct_energy",
    "c104_mcmc_partial",
    "c104_spin_flip_partial"
   ],
   "note": "(1)-(3) are proved in full for finite configuration spaces in exact arithmetic, (1) with the hypotheses of C88 (makeReal='real', no diagonal shift, spectral gap). The probability for Markov chains needs the condition of C93 (not periodic), since the claim is false otherwise (C93)."
  },
  {
   "property": "C105",
   "status": "proved",
   "theorems": [
    "c105_search",
    "c105_search_exact",
    "c105_search_mcmc",
    "c105_evolution",
    "c105_evolution_exact",
    "c105_evolution_mcmc",
    "c105_measured_exact",
    "c105_measured_mcmc",
    "c105_samples_exact",
    "c105_samples_mcmc",
    "c105_minsr_search",
    "c105_minsr_search_exact",
    "c105_minsr_search_mcmc"
   ],
   "note": "In exact arithmetic, for pinvTol < 1 and 0 < pinvCutoff < 1e-2 as in C44; every rank has at least one device. The network initialisation is a function of seed and shape. The adaptive stepper and the loop are run for any given number of passes. Searches with MinSR are covered for networks with complex parameters; for real networks MinSR is covered step by step by C102 (the search then continues with complex arrays, see C110)."
  },
  {
   "property": "C106",
   "status": "partial",
   "theorems": [
    "c106_spin_flip",
    "c106_spin_flip_Z2_partial",
    "c106_spin_flip_zeroMag_partial",
    "c106_rate_violated"
   ],
   "note": "The laws of the proposals are proved; but both proposers reflect the configuration in one of five updates, not one of thirty (c106_rate_violated). For Z2 three or more sites, for zero magnetisation any number but four: otherwise a reflection and a move can have the same result. Random integers are idealised as uniform."
  },
  {
   "property": "C107",
   "status": "proved",
   "theorems": [
    "c107_euler",
    "c107_euler_sampled",
    "c107_heun",
    "c107_adaptive",
    "c107_measure"
   ],
   "note": "In exact arithmetic, real parameters, sampling part of the call as in C79; measurements with exactly weighted samples. Heun and AdaptiveHeun under the conditions of C96 (a solution of the TDVP equation exists and the TDVP velocities are Lipschitz continuous close to it)."
  },
  {
   "property": "C108",
   "status": "proved",
   "theorems": [
    "c108_step",
    "c108_each",
    "c108_energy",
    "c108_reported",
    "c108_search"
   ],
   "note": "In exact arithmetic, real parameters, rhsPrefactor=1 for the reported numbers (any positive prefactor in c108_energy), sampling part of the call as in C79 with samples of relative error eps (0: exact). The returned state is included: the bound holds after the last update."
  },
  {
   "property": "C109",
   "status": "proved",
   "theorems": [
    "c109_converges",
    "c109_search"
   ],
   "note": "In exact arithmetic, real parameters, rhsPrefactor=1, sampling part of the call as in C79 with samples of relative error eps (0: exact). The step size conditions are explicit: stepSize*c*g <= 1 and stepSize*K <= c*g*(e1-e0-g) with the constant K of C108."
  },
  {
   "property": "C110",
   "status": "partial",
   "theorems": [
    "c110_steps_partial",
    "c110_update",
    "c110_energy",
    "c110_best",
    "c110_converges",
    "c110_search",
    "c110_real_violated",
    "c110_nonholomorphic_violated"
   ],
   "note": "Proved for networks that are holomorphic in complex parameters, in exact arithmetic, with samples of relative error eps (0: exact) and the sampling part of the call as in C79. A real network gets complex parameters (c110_real_violated). For a complex network that is not holomorphic the steps are as stated, but they need not lower the energy: the real and imaginary parts of the update can cancel so that the search never moves (c110_nonholomorphic_violated)."
  },
  {
   "property": "C111",
   "status": "proved",
   "theorems": [
    "c111_moves",
    "c111_chain",
    "c111_square",
    "c111_other",
    "c111_measurement",
    "c111_translation",
    "c111_spinflip",
    "c111_flipped",
    "c111_fermionic_violated"
   ],
   "note": "composition of C57 (amplitudes of symmetrised networks) with C77 (exact measurements); operators without fermionic sign strings (the restriction is needed: c111_fermionic_violated has a translation-invariant network for which a hopping term and its translation are measured as 1/2 and 0), whose matrix elements are above the threshold of the operator, amplitudes that do not vanish, even split of the basis (C09); exact arithmetic"
  },
  {
   "property": "C112",
   "status": "proved",
   "theorems": [
    "c112_rate",
    "c112_step",
    "c112_euler",
    "c112_reported",
    "c112_flow",
    "c112_heun",
    "c112_adaptive"
   ],
   "note": "In exact arithmetic, real parameters, makeReal='imag' and an imaginary rhsPrefactor (with makeReal='real' the update follows another variational principle, which conserves the energy for holomorphic networks only, C89); sampling part of the call as in C79 with samples of relative error eps (0: exact). For Heun and AdaptiveHeun the sampling error enters through the deviation of the evaluations from the exact velocities, as in C96."
  },
  {
   "property": "C113",
   "status": "proved",
   "theorems": [
    "c113_amplitude",
    "c113_finite",
    "c113_probabilities",
    "c113_variance_scaling",
    "c113_large_violated"
   ],
   "note": "exact arithmetic; the formulas of jax.nn.initializers.uniform are trusted. c113_large_violated shows that the limit of 157 sites is sharp."
  },
  {
   "property": "C114",
   "status": "partial",
   "theorems": [
    "c114_root_partial",
    "c114_zero_uniform",
    "c114_factor_violated",
    "c114_input_violated",
    "c114_complex_violated",
    "c114_complex_input"
   ],
   "note": "For cell=\"RNN\". With real parameters the kernels scale with the square root of initScale (it is the scale of a variance); the input layer on chains does not depend on it because the stack is created without initFun, and with complex parameters no layer does (all proved). The formulas of jax.nn.initializers.variance_scaling are trusted."
  },
  {
   "property": "C115",
   "status": "proved",
   "theorems": [
    "c115_missing",
    "c115_call",
    "c115_wave",
    "c115_zero",
    "c115_distribution",
    "c115_adaptive",
    "c115_adaptive_wave",
    "c115_adaptive_distribution"
   ],
   "note": "exact arithmetic; sampling part of the call as in C79. The statements about AdaptiveHeun are about `adapt`, which C105 shows to be what all ranks compute. The norm of the examples is a squared length, so the tolerance bounds the square of the error."
  },
  {
   "property": "C116",
   "status": "partial",
   "theorems": [
    "c116_chain_partial",
    "c116_lattice_partial",
    "c116_default_angles",
    "c116_measured_partial",
    "c116_run_partial",
    "c116_other_outcome_chain",
    "c116_other_outcome_lattice",
    "c116_first_outcome_violated",
    "c116_z_down_violated",
    "c116_examples_violated"
   ],
   "note": "Proved if the first outcome does not have probability zero in the state, for finite kernels and any cells; if another one has probability zero the network is not normalised but its distribution is that of the product state up to exp(-1.7e308/logProbFactor) per site (c116_other_outcome_chain, c116_other_outcome_lattice). If the first outcome has probability zero (with the default angles: z_down), the biases are infinite, log_softmax returns NaN, which the network replaces by -35: it returns the same number for all outcomes and the measured Z is 0 instead of -1 (c116_first_outcome_violated, c116_z_down_violated). The examples ex5 and ex6 look for the output layer at the top level of the parameters, where a network from init_net has only the key net: KeyError (c116_examples_violated; the tests of the repository use the right path). Finite numbers are exact and never overflow; infinities and NaN follow IEEE rules. Measurements with one device per rank; distance zero is excluded (C69)."
  },
  {
   "property": "C117",
   "status": "partial",
   "theorems": [
    "c117_elements",
    "c117_conserving",
    "c117_measured_partial",
    "c117_hubbard",
    "c117_ranks_violated",
    "c117_conserved",
    "c117_current_violated",
    "c117_pairing_violated",
    "c117_target_index",
    "c117_target",
    "c117_target_universal",
    "c117_eigenstate"
   ],
   "note": "The matrix elements are those of Fock space for every product which conserves the number of particles; measurements are right for real coefficients. The operator applied is the transpose, so for imaginary coefficients the result has the wrong sign: the current between two modes is measured as minus the current in every state (c117_current_violated). The sign of the code counts the modes after j, not those before j as documented; this changes the sign of products which change the number of particles by two (c117_pairing_violated). With eight or more sites the Hamiltonian cannot be evaluated on two or more ranks: IndexError (c117_ranks_violated, see C32). Coefficients are integer multiples of a number above the threshold 1e-6 of the code (other ones: C28); exact arithmetic."
  },
  {
   "property": "C118",
   "status": "partial",
   "theorems": [
    "c118_reported",
    "c118_growth",
    "c118_euler",
    "c118_trajectory",
    "c118_heun",
    "c118_adaptive",
    "c118_average",
    "c118_master_equation",
    "c118_measured_partial"
   ],
   "note": "In exact arithmetic, sampling part of the call as in C79. Heun and AdaptiveHeun under the conditions of C96. Measurements with exactly weighted samples and one device per rank; not for the correlator at distance zero, which measure_povm gets wrong (c69_zero_distance_violated)."
  },
  {
   "property": "C119",
   "status": "partial",
   "theorems": [
    "c119_symmetric_zeros",
    "c119_odd_chain",
    "c119_exact_sampler",
    "c119_node_sampled",
    "c119_mean_partial",
    "c119_exact_violated",
    "c119_exact_partial",
    "c119_acceptance",
    "c119_never_enters",
    "c119_leaves"
   ],
   "note": "The exact sampler gives configurations on which the wave function vanishes the right weight zero, but they stay in the sample and their local values are infinite or NaN, so measure reports infinities or NaN for every wave function with a zero on which the operator has an element above the threshold (c119_exact_violated). Right if no sample is a zero of the wave function, as in Markov chains that have left the zeros they may have started on (c119_never_enters, c119_leaves, c119_mean_partial). Infinite and NaN are not told apart; finite numbers are exact."
  },
  {
   "property": "C120",
   "status": "partial",
   "theorems": [
    "c120_double",
    "c120_exact_partial",
    "c120_overflow_violated",
    "c120_underflow_violated",
    "c120_normalisation_violated",
    "c120_mc_default",
    "c120_mc_zero_violated",
    "c120_mc_overflow_violated",
    "c120_mc_partial",
    "c120_decision",
    "c120_metropolis",
    "c120_nan_never",
    "c120_nan_stuck_violated",
    "c120_sep_violated",
    "c120_sep_partial",
    "c120_oloc_partial",
    "c120_padding_violated"
   ],
   "note": "Right: decisions of Markov chains, weights of their samples for the default mu, and histories in which the largest amplitude changes by a moderate factor from call to call of the exact sampler (a factor e^325 with the default logProbFactor; the total change is unlimited). The exact sampler divides by the normalisation of the previous call: one larger jump makes this call return NaN, and every later one too, since the stored normalisation is infinite or NaN from then on; in particular every state has a normalisation with which a new sampler returns NaN. avgFun_Coefficients_Sep exponentiates without subtracting the largest logarithm. Padding entries of local estimators (matrix element zero) are multiplied with a ratio that may be infinite, so that a local value is NaN or not depending on the other samples in the batch. Rounding between the smallest and the largest number is not modelled."
  },
  {
   "property": "C121",
   "status": "partial",
   "theorems": [
    "c121_measure_partial",
    "c121_sector",
    "c121_energy_decreases",
    "c121_energy_conserved",
    "c121_sharp",
    "c121_magnetisation",
    "c121_leaving_violated",
    "c121_default_start_violated",
    "c121_stuck_violated"
   ],
   "note": "Right for operators that keep the magnetisation and balanced initial states. For other operators the estimate contains matrix elements to configurations outside the sector: Sx is reported as 1 in the uniform state, where it is 0 in the sector. The default initial state (all spins down) is not in the sector: no sample is before half as many updates as there are sites, and the chain never leaves a state whose neighbours have small weights."
  },
  {
   "property": "C122",
   "status": "partial",
   "theorems": [
    "c122_refused",
    "c122_accepted_iff",
    "c122_networks",
    "c122_double_precision",
    "c122_update_iff",
    "c122_refused_violated",
    "c122_half_violated",
    "c122_single_update_violated"
   ],
   "note": "Proved: refusal of mixed data types after every history; acceptance exactly for one non-integer data type; agreement of the object with the model of C11, C22, C25, C63 in double precision. Disagreements proved: a refused network can be sampled afterwards; real networks in half precision are treated as complex; update_parameters with a double precision vector raises TypeError on single precision networks."
  },
  {
   "property": "C123",
   "status": "proved",
   "theorems": [
    "c123_chain",
    "c123_select_subset",
    "c123_select_select"
   ],
   "note": ""
  },
  {
   "property": "C124",
   "status": "partial",
   "theorems": [
    "c124_binding",
    "c124_constructors",
    "c124_documented",
    "c124_operators",
    "c124_euler",
    "c124_heun",
    "c124_adaptive",
    "c124_adaptive_rhs",
    "c124_unknown_violated",
    "c124_examples_violated"
   ],
   "note": "(1)-(3) proved. (4) is false: step passes all names on and TDVP and MinSR ignore those they do not know, so dt is ignored by Euler and AdaptiveHeun, normFunction by Euler and Heun (tests/povm_test.py passes it to Heun), and misspelt names by all. (5) is false: ex0, ex4, ex5 and ex6 use the argument svdTol that TDVP does not have."
  },
  {
   "property": "C125",
   "status": "proved",
   "theorems": [
    "c125_sum",
    "c125_mean",
    "c125_mean_complex",
    "c125_layouts",
    "c125_variance",
    "c125_weights",
    "c125_expectation",
    "c125_exact",
    "c125_double",
    "c125_returns",
    "c125_bitwise_violated"
   ],
   "note": "No overflow, and no underflow of products (C120 is about these). c125_exact: without rounding errors this is the exact model of C03. c125_bitwise_violated shows that the results of two layouts do differ."
  },
  {
   "property": "C126",
   "status": "partial",
   "theorems": [
    "c126_unaffected",
    "c126_series",
    "c126_nothing",
    "c126_expectations",
    "c126_measure",
    "c126_energies",
    "c126_time_violated",
    "c126_times_violated"
   ],
   "note": "Proved for names of observables other than time, self and times (and without slashes): c126_series for every optimiser, c126_expectations and c126_energies for the TDVP object in exact arithmetic with exactly weighted samples for the records (c126_measure: exact sampler) and samples of relative error eps for the steps. An observable called time or self makes the search raise TypeError at its first record, because the names become keyword arguments of write_observables; one called times collides with the dataset of the times."
  },
  {
   "property": "C127",
   "status": "proved",
   "theorems": [
    "c127_rows",
    "c127_times",
    "c127_passes",
    "c127_returns",
    "c127_accuracy",
    "c127_expectations",
    "c127_exact",
    "c127_energy"
   ],
   "note": "Exact arithmetic. c127_accuracy, c127_exact and c127_energy up to a time until which the TDVP equation has a smooth solution (c127_exact with makeReal and rhsPrefactor for which the reported errors are those of C97, c127_energy with rhsPrefactor=1j and makeReal=imag, as in the script and in C112). The sampler's errors enter as the error of the velocities. Plots and printing are left out."
  },
  {
   "property": "C128",
   "status": "partial",
   "theorems": [
    "c128_leaves",
    "c128_vector",
    "c128_shapes",
    "c128_set_vector",
    "c128_order",
    "c128_params_partial",
    "c128_params_violated",
    "c128_structure_violated"
   ],
   "note": "Everything except the last sentence is proved. psi.set_parameters(psi.params) raises TypeError after every history: since flax 0.7 (setup.py asks for at least this version) parameters are plain dictionaries, and set_parameters recognises a FrozenDict only. It works after freezing them, or by assigning to psi.params (c128_params_partial). Dictionaries of a wrong structure are accepted: c128_structure_violated. c128_leaves: the model of C11, C22, C25 and C63, which keeps the list of leaves only, is right for nested dictionaries."
  },
  {
   "property": "C129",
   "status": "partial",
   "theorems": [
    "c129_sites_partial",
    "c129_any",
    "c129_computed",
    "c129_beyond_violated",
    "c129_open_chain_violated"
   ],
   "note": "Proved for indices -N <= idx < N. Other indices raise nothing: reading clamps them, writing skips them, so Sx(N) acts as the identity and Sz(N) as Sz(N-1); a Hamiltonian with a forgotten '% L' is that of the open chain plus a constant. c129_computed says what is computed for any indices."
  },
  {
   "property": "C130",
   "status": "partial",
   "theorems": [
    "c130_sites_partial",
    "c130_dropped_violated",
    "c130_all_negative",
    "c130_beyond_violated"
   ],
   "note": "Proved for sites 0, ..., N-1. A term whose first site is negative is dropped silently (the loop in compile runs over first sites 0, ..., max_site), although a negative index counts from the end in every other position; if all terms are such, using the operator raises TypeError. A site beyond the lattice is not refused: reading clamps it, writing skips it."
  },
  {
   "property": "C131",
   "status": "partial",
   "theorems": [
    "c131_checked_partial",
    "c131_detect",
    "c131_overflow",
    "c131_steps",
    "c131_run_partial",
    "c131_accepted_violated",
    "c131_unchecked_violated",
    "c131_dead_violated",
    "c131_run_violated",
    "c131_fixed_violated"
   ],
   "note": "Proved if the time step of the integrator is a number after the step (the evolution). But an attempt with a NaN in any evaluation is accepted whatever the tolerance (NaN < 1 is false), the time step becomes NaN, and the next step makes all parameters NaN even if the right-hand side has recovered; a loop `while t < tmax` then ends without an exception before tmax. TDVP returns such NaN (c45_dead_parameter_violated). An infinite deviation is rejected (c131_overflow). Finite numbers are exact."
  },
  {
   "property": "C132",
   "status": "partial",
   "theorems": [
    "c132_chain_partial",
    "c132_lattice_partial",
    "c132_same_names",
    "c132_descr_partial",
    "c132_descr_factor_partial",
    "c132_descr_lattice_partial",
    "c132_descr_lattice_factor_partial",
    "c132_unknown_violated",
    "c132_rotation_violated",
    "c132_false_violated",
    "c132_false_witness_violated",
    "c132_dictionary",
    "c132_nested_violated",
    "c132_nested_lattice_violated"
   ],
   "note": "Right for correctly spelt names. Disagreements (proved): names that are not known, among them the documented name rotation on a chain, are silently ignored, and rotation_factor raises TypeError on a chain; in a description the value False at a symmetry does the same as True. Descriptions with factors are treated for complex networks (real ones: C81). Symmetries named in the dictionary of the network, as in ex5 and ex6, are ignored (c132_nested_violated, c132_nested_lattice_violated)."
  },
  {
   "property": "C133",
   "status": "partial",
   "theorems": [
    "c133_euler",
    "c133_heun",
    "c133_clock",
    "c133_passes_partial",
    "c133_one_off",
    "c133_ends_partial",
    "c133_stuck_violated",
    "c133_extra_pass_violated"
   ],
   "note": "Errors and clock proved for every run. The number of passes is the expected one if tmax is not within rounding errors of a multiple of the time step, and at most one off as long as 2 (N + 2)^2 u <= 1. Disagreements (proved): in double precision, steps of 0.69 until 3.45 = 5 * 0.69 make six passes; if the time step is below half of the spacing of floating point numbers at the present time, the time stands still and the loop never ends. No overflow or underflow; the adaptive integrator is not included."
  },
  {
   "property": "C134",
   "status": "partial",
   "theorems": [
    "c134_update_is_rounded",
    "c134_cache",
    "c134_logs",
    "c134_acceptance",
    "c134_transitions",
    "c134_drift",
    "c134_close",
    "c134_spin_flip_partial",
    "c134_zeroMag",
    "c134_means",
    "c134_rare_violated"
   ],
   "note": "Proved for every arithmetic and every number of updates. With propose_spin_flip the target distribution must not be uniform, as in exact arithmetic (C75). The errors are absolute: a configuration whose weight is below 2^-52 of that of its neighbours is visited too often, because the uniform number is zero with probability 2^-52 (c134_rare_violated)."
  },
  {
   "property": "C135",
   "status": "proved",
   "theorems": [
    "c135_local",
    "c135_exact",
    "c135_linear",
    "c135_measured",
    "c135_returns",
    "c135_eigenstate"
   ],
   "note": "No overflow and no underflow (C120 is about these). c135_exact: without rounding errors this is the exact model of C26 and C29. The bound is relative to the sum of the magnitudes of the terms, not to the local estimator itself, whose terms may cancel. c135_eigenstate: one device per rank, as in C125."
  },
  {
   "property": "C136",
   "status": "proved",
   "theorems": [
    "c136_conditional",
    "c136_chain",
    "c136_chain_means",
    "c136_chain_amplitudes",
    "c136_chain_consistent",
    "c136_chain_sym",
    "c136_square",
    "c136_square_amplitudes",
    "c136_square_sym"
   ],
   "note": "Real parameters, as in C59 (with complex parameters the probabilities of a draw do not belong to the amplitudes even in exact arithmetic, see C59). No overflow and no underflow (C120 is about these). The error of the coefficients computed by the cell is a parameter."
  },
  {
   "property": "C137",
   "status": "proved",
   "theorems": [
    "c137_covariance",
    "c137_exact",
    "c137_variance",
    "c137_force",
    "c137_matrix",
    "c137_positive",
    "c137_residual",
    "c137_solution",
    "c137_shift",
    "c137_double",
    "c137_exists"
   ],
   "note": "No overflow and no underflow (C120 is about these). Errors of the observations themselves are not included (C135 is about those of local estimators). c137_exact: without rounding errors this is the exact model of C41. The absolute value in var is any function with bounded relative error."
  },
  {
   "property": "C138",
   "status": "partial",
   "theorems": [
    "c138_matrix_partial",
    "c138_local_partial",
    "c138_integer",
    "c138_energy_partial",
    "c138_bound",
    "c138_hermitian",
    "c138_symmetries",
    "c138_field_breaks",
    "c138_magnet_partial",
    "c138_ranks_violated"
   ],
   "note": "Missing: two or more ranks with 50 or more operator strings (25 spins, 17 with the longitudinal field), where evaluation raises an IndexError (c138_ranks_violated, a consequence of C32; the benchmark script has 100 strings), and matrix elements that are not zero but at most 1e-6, which the code drops (C24); c138_integer shows that without longitudinal field only g itself can be affected."
  },
  {
   "property": "C139",
   "status": "proved",
   "theorems": [
    "c139_kernel",
    "c139_update",
    "c139_step",
    "c139_exact",
    "c139_double",
    "c139_exists"
   ],
   "note": "No overflow and no underflow (C120 is about these). Errors of pinv appear as its residual, errors of the observations themselves are not included (C135 bounds those of local energies)."
  },
  {
   "property": "C140",
   "status": "partial",
   "theorems": [
    "c140_interface",
    "c140_example_partial",
    "c140_repaired",
    "c140_removed_violated",
    "c140_handed_violated",
    "c140_local_violated",
    "c140_lattice_violated"
   ],
   "note": "Proved for every function with the documented interface (c140_interface). But the example in the documentation has not this interface: it uses jax.ops.index_update, which the required versions of JAX do not have (c140_removed_violated); its compile() returns one configuration instead of a list, so that get_s_primes returns the first spin of each flipped configuration (c140_handed_violated) and networks for the chain raise an exception (c140_local_violated); on lattices with two axes it raises ValueError (c140_lattice_violated). With one more axis it is right (c140_repaired)."
  },
  {
   "property": "C141",
   "status": "proved",
   "theorems": [
    "c141_chain",
    "c141_square"
   ],
   "note": "Lengths and widths of at least two: with a single site the coupling would have the same site twice."
  },
  {
   "property": "C142",
   "status": "proved",
   "theorems": [
    "c142_rows",
    "c142_times",
    "c142_returns",
    "c142_solution",
    "c142_metric"
   ],
   "note": "For the loops from times = [] on. As written the scripts stop before: TDVP has no argument svdTol (C124). psi is represented by its parameters and the TDVP object by a right-hand side with a state, which c142_metric relates to the model of TDVP.__call__."
  },
  {
   "property": "C143",
   "status": "partial",
   "theorems": [
    "c143_value",
    "c143_flip",
    "c143_real",
    "c143_first",
    "c143_set",
    "c143_history",
    "c143_complex_violated"
   ],
   "note": "The form of the amplitudes is proved for all complex parameters; that the network is a complex RBM, as the script says, is refuted (c143_complex_violated): for a target with amplitudes 1 and -1/2 no history of real vectors gives a proportional state. That Dense has a zero bias and parameters of single precision by default is flax's convention (flax is not in /repo)."
  },
  {
   "property": "C144",
   "status": "partial",
   "theorems": [
    "c144_rows",
    "c144_energies",
    "c144_reference_partial",
    "c144_reference_violated"
   ],
   "note": "Rows and energies are proved for all runs that end (with NaN updates the model stops); as written the script stops before the loop, because TDVP has no argument svdTol (C124). The reference energy differs from the ground state energy per site by at most min(1, |g|) for every chain of at least two sites (c144_reference_partial); equality is false for odd chains with a positive field (c144_reference_violated: three sites, field 1, energies -4 and -2 sqrt 3), and for the other cases it is not proved (it needs the diagonalisation by free fermions)."
  },
  {
   "property": "C145",
   "status": "proved",
   "theorems": [
    "c145_rbm",
    "c145_amplitude",
    "c145_exists",
    "c145_log_cosh",
    "c145_log_cosh_exists",
    "c145_logs",
    "c145_chains",
    "c145_spin_flips"
   ],
   "note": "Without overflow and underflow (C120 has those); complex arguments of log_cosh are not covered with rounding, C61 has them exactly."
  },
  {
   "property": "C146",
   "status": "proved",
   "theorems": [
    "c146_steps",
    "c146_accuracy",
    "c146_defect",
    "c146_returns",
    "c146_ends",
    "c146_evolution",
    "c146_clock",
    "c146_loop"
   ],
   "note": "Without overflow and underflow; the constants 0.2, 0.9, 0.33333 are exact; the right-hand side returns new arrays (C49 has the others); accuracy for steps with L h <= 1; the evolution for right-hand sides that do not depend on time."
  },
  {
   "property": "C147",
   "status": "proved",
   "theorems": [
    "c147_logsumexp",
    "c147_symnet",
    "c147_mean",
    "c147_exists",
    "c147_rbm",
    "c147_sep",
    "c147_sep_exists",
    "c147_chains"
   ],
   "note": "Real coefficients and positive factors, without overflow and underflow (C120 has those; complex coefficients and other factors: C57, exactly)."
  }
 ]
}