{
 "claims": [
  {
   "property": "C01",
   "status": "proved",
   "theorems": [
    "Cuthbert.filter_sequential_is_online_run",
    "Cuthbert.online_filter_run_unique",
    "Cuthbert.filter_empty_inputs"
   ],
   "note": ""
  },
  {
   "property": "C02",
   "status": "proved",
   "theorems": [
    "Cuthbert.filter_parallel_eq_sequential",
    "Cuthbert.filter_parallel_agrees_on_view",
    "Cuthbert.filter_parallel_length",
    "Cuthbert.filter_parallel_needs_associativity"
   ],
   "note": ""
  },
  {
   "property": "C03",
   "status": "proved",
   "theorems": [
    "Cuthbert.filter_causal",
    "Cuthbert.filter_resume",
    "Cuthbert.filter_causal_needs_prefixStable"
   ],
   "note": "With a key, prefix-independence needs a split whose subkeys do not depend on how many are requested; shown necessary."
  },
  {
   "property": "C04",
   "status": "proved",
   "theorems": [
    "Cuthbert.smoother_sequential_is_backward_run"
   ],
   "note": ""
  },
  {
   "property": "C05",
   "status": "proved",
   "theorems": [
    "Cuthbert.smoother_inputs_T_or_T_plus_one",
    "Cuthbert.smoother_rejects_iff",
    "Cuthbert.smoother_T_zero"
   ],
   "note": ""
  },
  {
   "property": "C06",
   "status": "proved",
   "theorems": [
    "Cuthbert.smoother_parallel_eq_sequential",
    "Cuthbert.smoother_parallel_agrees_on_view"
   ],
   "note": ""
  },
  {
   "property": "C07",
   "status": "proved",
   "theorems": [
    "Cuthbert.filter_key_allocation",
    "Cuthbert.smoother_key_allocation"
   ],
   "note": ""
  },
  {
   "property": "C08",
   "status": "proved",
   "theorems": [
    "Cuthbert.filter_flag_only_warns",
    "Cuthbert.smoother_flag_only_warns"
   ],
   "note": ""
  },
  {
   "property": "C09",
   "status": "proved",
   "theorems": [
    "Cuthbert.Discrete.discrete_filter_exact"
   ],
   "note": "Holds when every state gives every observation positive one-step probability (the stated quantifier); see C14 for what happens otherwise."
  },
  {
   "property": "C10",
   "status": "proved",
   "theorems": [
    "Cuthbert.Discrete.discrete_filtering_operator_assoc",
    "Cuthbert.Discrete.discrete_filter_parallel_eq"
   ],
   "note": ""
  },
  {
   "property": "C11",
   "status": "proved",
   "theorems": [
    "Cuthbert.Discrete.discrete_filter_normalised",
    "Cuthbert.Discrete.discrete_filter_shift"
   ],
   "note": ""
  },
  {
   "property": "C12",
   "status": "proved",
   "theorems": [
    "Cuthbert.Discrete.discrete_smoother_exact",
    "Cuthbert.Discrete.discrete_smoother_nan_if_unreachable"
   ],
   "note": "Reachability of every state is needed: otherwise NaN, proved."
  },
  {
   "property": "C13",
   "status": "proved",
   "theorems": [
    "Cuthbert.Discrete.discrete_smoothing_operator_assoc",
    "Cuthbert.Discrete.discrete_reverse_kernel_stochastic",
    "Cuthbert.Discrete.discrete_smoother_exact"
   ],
   "note": ""
  },
  {
   "property": "C14",
   "status": "partial",
   "theorems": [
    "Cuthbert.Discrete.discrete_filter_nan_despite_positive_evidence",
    "Cuthbert.Discrete.discrete_filter_finite_iff",
    "Cuthbert.Discrete.discrete_filter_well_defined_partial"
   ],
   "note": "The property is FALSE of the code: a concrete model with evidence 1/2 yields NaN. Exact characterisation of when the filter is finite proved."
  },
  {
   "property": "C15",
   "status": "proved",
   "theorems": [
    "Cuthbert.tria_is_lower_sqrt",
    "Cuthbert.qr_exists"
   ],
   "note": ""
  },
  {
   "property": "C16",
   "status": "proved",
   "theorems": [
    "Cuthbert.marginal_sqrt_cov_correct",
    "Cuthbert.marginal_sqrt_cov_rejects",
    "Cuthbert.marginal_sqrt_cov_clamps",
    "Cuthbert.block_marginal_sqrt_cov_correct",
    "Cuthbert.block_marginal_sqrt_cov_rejects"
   ],
   "note": "An out-of-range start is clamped, not rejected (proved)."
  },
  {
   "property": "C17",
   "status": "proved",
   "theorems": [
    "Cuthbert.collect_nans_order",
    "Cuthbert.collect_nans_cov",
    "Cuthbert.collect_nans_rest"
   ],
   "note": ""
  },
  {
   "property": "C18",
   "status": "proved",
   "theorems": [
    "Cuthbert.symmetric_inv_sqrt_posdef",
    "Cuthbert.symmetric_inv_sqrt_missing",
    "Cuthbert.invSqrtCore_gram",
    "Cuthbert.svd_exists"
   ],
   "note": ""
  },
  {
   "property": "C19",
   "status": "proved",
   "theorems": [
    "Cuthbert.chol_cov_with_nans_to_cov_correct",
    "Cuthbert.chol_cov_with_nans_to_cov_nan"
   ],
   "note": ""
  },
  {
   "property": "C20",
   "status": "proved",
   "theorems": [
    "Cuthbert.logpdf_matrix",
    "Cuthbert.logpdf_is_density",
    "Cuthbert.logpdf_diagonal",
    "Cuthbert.logpdf_isotropic",
    "Cuthbert.logpdf_scalar",
    "Cuthbert.logpdf_missing",
    "Cuthbert.logpdf_missing_diagonal",
    "Cuthbert.logpdf_all_missing",
    "Cuthbert.logpdf_nan_without_support",
    "Cuthbert.logpdf_shape_mismatch",
    "Cuthbert.gauss_eq_multivariateGaussian"
   ],
   "note": ""
  },
  {
   "property": "C21",
   "status": "proved",
   "theorems": [
    "Cuthbert.Kalman.predict_exact",
    "Cuthbert.Kalman.predict_lower"
   ],
   "note": ""
  },
  {
   "property": "C22",
   "status": "proved",
   "theorems": [
    "Cuthbert.Kalman.update_bayes",
    "Cuthbert.Kalman.update_bayes_pointwise",
    "Cuthbert.Kalman.update_singular"
   ],
   "note": ""
  },
  {
   "property": "C23",
   "status": "proved",
   "theorems": [
    "Cuthbert.Kalman.update_missing_eq_deleted",
    "Cuthbert.Kalman.update_all_missing"
   ],
   "note": ""
  },
  {
   "property": "C24",
   "status": "proved",
   "theorems": [
    "Cuthbert.Kalman.online_step_eq_predict_update",
    "Cuthbert.Kalman.filter_states_shape"
   ],
   "note": ""
  },
  {
   "property": "C25",
   "status": "proved",
   "theorems": [
    "Cuthbert.Kalman.filtering_operator_assoc",
    "Cuthbert.Kalman.kalman_parallel_moments",
    "Cuthbert.Kalman.kalman_parallel_log_likelihood"
   ],
   "note": ""
  },
  {
   "property": "C26",
   "status": "proved",
   "theorems": [
    "Cuthbert.Kalman.kalman_filter_exact"
   ],
   "note": ""
  },
  {
   "property": "C27",
   "status": "partial",
   "theorems": [
    "Cuthbert.Kalman.log_likelihoods_agree_partial",
    "Cuthbert.Kalman.log_likelihood_nan_known_initial_state",
    "Cuthbert.Kalman.log_likelihood_nan_static_state",
    "Cuthbert.Kalman.log_likelihood_finite_iff"
   ],
   "note": "FALSE of the code: P0 = 0 gives NaN evidence in both modes, Q = 0 gives NaN in the parallel mode only. Proved: both counterexamples, the claim for full-rank P0 and Q, and exactly when the sequential value is NaN; a finite parallel value always equals the sequential one."
  },
  {
   "property": "C28",
   "status": "proved",
   "theorems": [
    "Cuthbert.Kalman.smoother_element_is_conditional_law",
    "Cuthbert.Kalman.smoother_update_exact",
    "Cuthbert.Kalman.smoother_singular"
   ],
   "note": ""
  },
  {
   "property": "C29",
   "status": "proved",
   "theorems": [
    "Cuthbert.Kalman.smoothing_operator_assoc",
    "Cuthbert.Kalman.kalman_smoother_parallel"
   ],
   "note": ""
  },
  {
   "property": "C30",
   "status": "proved",
   "theorems": [
    "Cuthbert.Kalman.kalman_smoother_exact",
    "Cuthbert.Kalman.kalman_smoother_nan_known_static_state"
   ],
   "note": "A singular predictive covariance gives NaN although the smoothing law exists (proved)."
  },
  {
   "property": "C31",
   "status": "proved",
   "theorems": [
    "Cuthbert.Kalman.kalman_smoother_exact",
    "Cuthbert.Kalman.kalman_smoother_fields"
   ],
   "note": ""
  },
  {
   "property": "C32",
   "status": "proved",
   "theorems": [
    "Cuthbert.Kalman.predict_root_independent",
    "Cuthbert.Kalman.update_root_independent",
    "Cuthbert.Kalman.smoother_update_root_independent",
    "Cuthbert.Kalman.kalman_filter_root_independent",
    "Cuthbert.Kalman.kalman_smoother_root_independent"
   ],
   "note": ""
  },
  {
   "property": "C33",
   "status": "proved",
   "theorems": [
    "Cuthbert.Kalman.sampling_operator_assoc",
    "Cuthbert.Kalman.sampler_recursion",
    "Cuthbert.Kalman.kalman_sampler_exact",
    "Cuthbert.Kalman.sampler_rows_independent"
   ],
   "note": ""
  },
  {
   "property": "C34",
   "status": "proved",
   "theorems": [
    "Cuthbert.Linearize.linearize_log_density_exact",
    "Cuthbert.Linearize.linearize_given_chol_cov_exact",
    "Cuthbert.Linearize.linearize_log_density_matches",
    "Cuthbert.Linearize.exists_gaussian_condDensity",
    "Cuthbert.Linearize.wellConditioned_of_posDef"
   ],
   "note": "Every linearisation point, every pattern of missing components. Positive definiteness is required with the condition number below 1/rtol, as pinv drops smaller singular values; every positive definite matrix qualifies for small rtol."
  },
  {
   "property": "C35",
   "status": "proved",
   "theorems": [
    "Cuthbert.Linearize.linearize_moments_tangent",
    "Cuthbert.Linearize.linearize_moments_affine"
   ],
   "note": ""
  },
  {
   "property": "C36",
   "status": "proved",
   "theorems": [
    "Cuthbert.Linearize.linearize_taylor_exact",
    "Cuthbert.Linearize.linearize_taylor_matches",
    "Cuthbert.Linearize.exists_potential"
   ],
   "note": "Also potentials of a subset of the components, which come out marked by NaN."
  },
  {
   "property": "C37",
   "status": "proved",
   "theorems": [
    "Cuthbert.Linearize.moments_associative_is_kalman",
    "Cuthbert.Linearize.moments_associative_is_linearised_kalman",
    "Cuthbert.Linearize.moments_non_associative_exact",
    "Cuthbert.Linearize.moments_non_associative_is_kalman",
    "Cuthbert.Linearize.moments_associative_finite"
   ],
   "note": "The associative variant returns literally the Kalman filter's states; the non-associative one the same laws and evidence."
  },
  {
   "property": "C38",
   "status": "proved",
   "theorems": [
    "Cuthbert.Linearize.taylor_non_associative_exact",
    "Cuthbert.Linearize.taylor_associative_exact",
    "Cuthbert.Linearize.taylor_is_kalman",
    "Cuthbert.Linearize.taylor_associative_eq",
    "Cuthbert.Linearize.exists_represented"
   ],
   "note": "Log densities or log potentials, state-dependent linearisation points, missing components and skipped predictions. Positive definite matrices with condition number below 1/rtol, as pinv drops smaller singular values."
  },
  {
   "property": "C39",
   "status": "proved",
   "theorems": [
    "Cuthbert.Linearize.moments_variants_agree"
   ],
   "note": ""
  },
  {
   "property": "C40",
   "status": "proved",
   "theorems": [
    "Cuthbert.Quadrature.cubature_moments",
    "Cuthbert.Quadrature.unscented_moments",
    "Cuthbert.Quadrature.gaussHermite_moments",
    "Cuthbert.Quadrature.gaussHermite_order_one",
    "Cuthbert.Quadrature.unscented_isSome_iff"
   ],
   "note": "Gauss-Hermite needs order at least 2; for order 1 the covariance is proved to be zero. The unscented rule is finite exactly when alpha^2 (n + kappa) > 0."
  },
  {
   "property": "C41",
   "status": "partial",
   "theorems": [
    "Cuthbert.Quadrature.slr_affine",
    "Cuthbert.Quadrature.slr_affine_exact_partial",
    "Cuthbert.Quadrature.slr_affine_exact_sqrt_partial",
    "Cuthbert.Quadrature.cubature_affine_exact",
    "Cuthbert.Quadrature.gaussHermite_affine_exact",
    "Cuthbert.Quadrature.unscented_affine",
    "Cuthbert.Quadrature.unscented_default_inflates_noise"
   ],
   "note": "False of the code for the unscented rule, including its default parameters: the noise covariance is multiplied by 2 - alpha^2 + beta = 3.75. Proved for cubature and Gauss-Hermite, and for any rule whose covariance weights sum to one. The square-root mode needs an invertible noise factor (see C44)."
  },
  {
   "property": "C42",
   "status": "proved",
   "theorems": [
    "Cuthbert.Quadrature.cubature_is_unscented",
    "Cuthbert.Quadrature.cubature_is_unscented_moments"
   ],
   "note": ""
  },
  {
   "property": "C43",
   "status": "proved",
   "theorems": [
    "Cuthbert.Quadrature.cholesky_update_many_correct",
    "Cuthbert.Quadrature.cholesky_update_many_up",
    "Cuthbert.Quadrature.cholesky_update_many_down",
    "Cuthbert.Quadrature.cholesky_update_diag_pos"
   ],
   "note": "Exact real arithmetic. For updates an invertible factor suffices, for downdates a positive definite final matrix."
  },
  {
   "property": "C44",
   "status": "partial",
   "theorems": [
    "Cuthbert.Quadrature.modes_agree_partial",
    "Cuthbert.Quadrature.modes_agree_of_noise",
    "Cuthbert.Quadrature.sqrt_gram",
    "Cuthbert.Quadrature.sqrt_nan_iff",
    "Cuthbert.Quadrature.modes_disagree",
    "Cuthbert.Quadrature.unscented_default_wc_nonneg",
    "Cuthbert.Quadrature.unscented_classical_sqrt_nan"
   ],
   "note": "Proved when the resulting covariance is positive definite. False of the code for a singular covariance: modes_disagree shows the square-root mode returning a zero factor for diag(0, 1)."
  },
  {
   "property": "C45",
   "status": "proved",
   "theorems": [
    "Cuthbert.Resampling.inverse_cdf_quantile",
    "Cuthbert.Resampling.inverse_cdf_cell",
    "Cuthbert.Resampling.inverse_cdf_monotone",
    "Cuthbert.Resampling.inverse_cdf_platforms_agree",
    "Cuthbert.Resampling.inverse_cdf_cpu_needs_sorted"
   ],
   "note": "both platforms; agreement for every log-weight vector incl. nan/inf; inverse_cdf_cpu_needs_sorted shows the precondition is needed on CPU"
  },
  {
   "property": "C46",
   "status": "proved",
   "theorems": [
    "Cuthbert.Resampling.systematic_counts",
    "Cuthbert.Resampling.systematic_copies",
    "Cuthbert.Resampling.systematic_counts_fail_at_zero"
   ],
   "note": "for draws in (0,1); systematic_counts_fail_at_zero: at the draw u = 0, which random.uniform can return, the claim is false"
  },
  {
   "property": "C47",
   "status": "proved",
   "theorems": [
    "Cuthbert.Resampling.multinomial_unbiased",
    "Cuthbert.Resampling.systematic_unbiased",
    "Cuthbert.Resampling.killing_unbiased",
    "Cuthbert.Resampling.Unbiased.average",
    "Cuthbert.Resampling.multinomial_iid"
   ],
   "note": "Expectations over ideal random numbers (IdealRng in Spec/Random.lean, shown to exist)."
  },
  {
   "property": "C48",
   "status": "proved",
   "theorems": [
    "Cuthbert.Resampling.systematic_positive",
    "Cuthbert.Resampling.multinomial_positive",
    "Cuthbert.Resampling.killing_positive",
    "Cuthbert.Resampling.killing_keeps_dead",
    "Cuthbert.Resampling.multinomial_collapse"
   ],
   "note": "for positive draws; multinomial_collapse: one exactly zero draw makes every slot particle 0 on CPU"
  },
  {
   "property": "C49",
   "status": "proved",
   "theorems": [
    "Cuthbert.Resampling.systematic_conditional_keeps_pivot",
    "Cuthbert.Resampling.multinomial_conditional_keeps_pivot",
    "Cuthbert.Resampling.killing_conditional_keeps_pivot"
   ],
   "note": "all log-weights (nan included), platforms, draws and pivots"
  },
  {
   "property": "C50",
   "status": "proved",
   "theorems": [
    "Cuthbert.Resampling.multinomial_conditional_law",
    "Cuthbert.Resampling.killing_conditional_law",
    "Cuthbert.Resampling.systematic_conditional_law",
    "Cuthbert.Resampling.shiftedLaw_slot",
    "Cuthbert.Resampling.shiftedLaw_systematic"
   ],
   "note": "The pivot must have positive weight for killing and systematic resampling (conditioning on a null event otherwise)."
  },
  {
   "property": "C51",
   "status": "proved",
   "theorems": [
    "Cuthbert.Resampling.systematic_multinomial_consistent",
    "Cuthbert.Resampling.killing_consistent",
    "Cuthbert.Resampling.conditional_consistent",
    "Cuthbert.Resampling.adaptive_consistent"
   ],
   "note": ""
  },
  {
   "property": "C52",
   "status": "proved",
   "theorems": [
    "Cuthbert.Resampling.ess_eq",
    "Cuthbert.Resampling.ess_mem",
    "Cuthbert.Resampling.ess_shift",
    "Cuthbert.Resampling.adaptive_iff",
    "Cuthbert.Resampling.adaptive_all_dead"
   ],
   "note": "every threshold, non-positive ones included; adaptive_all_dead: all-zero weights give nan and no resampling"
  },
  {
   "property": "C53",
   "status": "partial",
   "theorems": [
    "Cuthbert.SMC.particle_filter_unbiased_partial",
    "Cuthbert.SMC.multinomial_filter_unbiased_partial",
    "Cuthbert.SMC.systematic_filter_unbiased",
    "Cuthbert.SMC.killing_filter_unbiased",
    "Cuthbert.SMC.adaptive_filter_unbiased_partial",
    "Cuthbert.SMC.particle_filter_biased",
    "Cuthbert.SMC.adaptive_dead_evidence"
   ],
   "note": "Proved for independent keys (test functions of whole ancestral paths; weights may vanish for killing and systematic). FALSE for generators with prefix splitting such as JAX's default: the initial key is split twice, and particle_filter_biased computes expectation 5/8 instead of 1/2. adaptive_dead_evidence: nan instead of -inf when all particles die under adaptive resampling."
  },
  {
   "property": "C54",
   "status": "proved",
   "theorems": [
    "Cuthbert.SMC.particle_filter_genealogy"
   ],
   "note": ""
  },
  {
   "property": "C55",
   "status": "proved",
   "theorems": [
    "Cuthbert.SMC.tracing_smoother_paths"
   ],
   "note": "For every sequence of filter states, final resampling result and number of smoother particles."
  },
  {
   "property": "C56",
   "status": "proved",
   "theorems": [
    "Cuthbert.SMC.exact_backward_law",
    "Cuthbert.SMC.exact_trajectory_law",
    "Cuthbert.SMC.exact_smoother_law_partial"
   ],
   "note": "One call of the sampler has exactly the backward probabilities. The theorem about whole runs is restricted to log potentials that ignore the inputs because of C58."
  },
  {
   "property": "C57",
   "status": "partial",
   "theorems": [
    "Cuthbert.SMC.imh_scan_invariant",
    "Cuthbert.SMC.mcmc_invariant_partial",
    "Cuthbert.SMC.mcmc_not_invariant"
   ],
   "note": "FALSE of the code: the first log density of the chain is evaluated with its two arguments exchanged (mcmc.py:74), see mcmc_not_invariant (5/8 instead of 1/2). Proved: the Metropolis chain itself (imh_scan_invariant) and the whole sampler for symmetric log densities."
  },
  {
   "property": "C58",
   "status": "partial",
   "theorems": [
    "Cuthbert.SMC.smoother_uses_wrong_inputs",
    "Cuthbert.SMC.exact_smoother_law_partial",
    "Cuthbert.SMC.tracing_smoother_paths"
   ],
   "note": "FALSE of the code: smoother_combine evaluates the log potential with the inputs of the transition t+1 -> t+2 (dummy values at the last transition), see smoother_uses_wrong_inputs. Proved for samplers or potentials that ignore the inputs."
  },
  {
   "property": "C59",
   "status": "partial",
   "theorems": [
    "Cuthbert.SMC.marginal_filter_evidence_partial",
    "Cuthbert.SMC.marginal_adaptive_evidence",
    "Cuthbert.SMC.fkExp_const"
   ],
   "note": "FALSE of the code with an adaptive resampler: for a constant potential the reported evidence stays at its value after the first step, see marginal_adaptive_evidence against fkExp_const. Proved for resamplers that return uniform weights."
  },
  {
   "property": "C60",
   "status": "partial",
   "theorems": [
    "Cuthbert.SMC.particle_filter_keys_partial",
    "Cuthbert.SMC.particle_filter_key_reuse"
   ],
   "note": "The keys of all operations are given explicitly and are distinct for collision-free splitting. FALSE for prefix splitting: particle_filter_key_reuse."
  },
  {
   "property": "C61",
   "status": "proved",
   "theorems": [
    "Cuthbert.Utils.dummy_tree_preserves",
    "Cuthbert.Utils.dummy_arrays_preserves",
    "Cuthbert.Utils.dummy_tree_ok_iff",
    "Cuthbert.Utils.dummy_tree_valueError_iff",
    "Cuthbert.Utils.dummy_tree_ignores_values",
    "Cuthbert.Utils.dummy_tree_idempotent",
    "Cuthbert.Utils.minVal_isLeast",
    "Cuthbert.Utils.smoother_rejects_unsupported_inputs"
   ],
   "note": "8-bit floats are not modelled. Objects that JAX cannot convert raise TypeError before the dtype test."
  },
  {
   "property": "C62",
   "status": "proved",
   "theorems": [
    "Cuthbert.SMC.particle_filter_scaling"
   ],
   "note": "All six resampling configurations, all float values of the log potentials."
  },
  {
   "property": "C63",
   "status": "proved",
   "theorems": [
    "Cuthbert.Generate.cholesky_factor_lower",
    "Cuthbert.Generate.cholesky_factor_diag",
    "Cuthbert.Generate.lgssm_length",
    "Cuthbert.Generate.lgssm_is_simulation",
    "Cuthbert.Generate.lgssm_regular",
    "Cuthbert.Generate.lgssm_filter_exact"
   ],
   "note": "Random numbers enter through the contract IdealGen (uniform and normal arrays of the right law, independent split keys), shown satisfiable by gkeyRng_ideal. The shapes are part of the types."
  },
  {
   "property": "C64",
   "status": "partial",
   "theorems": [
    "Cuthbert.logpdf_shape_mismatch_accepted",
    "Cuthbert.logpdf_scalar_not_finite",
    "Cuthbert.logpdf_shape_mismatch"
   ],
   "note": "FALSE of the code: a one-dimensional x with a 2 x 2 factor is accepted, and a scalar NaN gives a non-finite value. Proved: the counterexamples, and that mismatches where neither size is one raise."
  },
  {
   "property": "C65",
   "status": "proved",
   "theorems": [
    "Cuthbert.Linearize.moments_smoother_is_kalman",
    "Cuthbert.Linearize.taylor_smoother_is_kalman",
    "Cuthbert.Linearize.moments_smoothing_exact",
    "Cuthbert.Linearize.taylor_smoothing_exact",
    "Cuthbert.Linearize.exists_gaussianDynamics"
   ],
   "note": ""
  },
  {
   "property": "C66",
   "status": "partial",
   "theorems": [
    "Cuthbert.Linearize.taylor_smoother_skip_nan",
    "Cuthbert.Linearize.taylor_filter_finite_smoother_nan",
    "Cuthbert.Linearize.taylor_smoothing_exact"
   ],
   "note": "FALSE of the code: at a skipped prediction the Taylor filter's state is finite but every smoothed state from there on back is NaN. Proved: the negation, for every such model, with a witness. taylor_smoothing_exact covers the models without skipped predictions."
  },
  {
   "property": "C67",
   "status": "proved",
   "theorems": [
    "Cuthbert.Linearize.moments_step_is_extended_kalman",
    "Cuthbert.Linearize.taylor_step_is_extended_kalman",
    "Cuthbert.Linearize.linearisedTo_of_smooth"
   ],
   "note": "What the linearisation itself returns is C34-C36."
  },
  {
   "property": "C68",
   "status": "proved",
   "theorems": [
    "Cuthbert.Quadrature.cubature_polynomial",
    "Cuthbert.Quadrature.unscented_polynomial",
    "Cuthbert.Quadrature.gaussHermite_polynomial"
   ],
   "note": ""
  },
  {
   "property": "C69",
   "status": "proved",
   "theorems": [
    "Cuthbert.Quadrature.slr_residual",
    "Cuthbert.Quadrature.slr_covariance_posDef",
    "Cuthbert.Quadrature.slr_optimal"
   ],
   "note": "Covariance mode; the square-root mode is tied to it by C44."
  },
  {
   "property": "C70",
   "status": "partial",
   "theorems": [
    "Cuthbert.Linearize.moments_mean_prev_partial",
    "Cuthbert.Linearize.taylor_mean_prev_partial",
    "Cuthbert.Linearize.parallel_four",
    "Cuthbert.Linearize.mean_prev_parallel_wrong"
   ],
   "note": "Proved for the sequential mode of all four filters. False of the code in parallel mode: the scan tree decides what mean_prev holds."
  },
  {
   "property": "C71",
   "status": "proved",
   "theorems": [
    "Cuthbert.SMC.tracing_smoother_unbiased"
   ],
   "note": "For the runs that C53 covers; final resampling multinomial, systematic or killing."
  },
  {
   "property": "C72",
   "status": "partial",
   "theorems": [
    "Cuthbert.SMC.marginal_filter_unbiased_partial",
    "Cuthbert.SMC.marginal_filter_biased",
    "Cuthbert.SMC.frozenCoin_evidence"
   ],
   "note": "FALSE of the code when the potential depends on the previous state (3/4 instead of 1), see marginal_filter_biased. Proved for potentials of the new state only."
  },
  {
   "property": "C73",
   "status": "proved",
   "theorems": [
    "Cuthbert.Generate.simulation_law",
    "Cuthbert.Generate.kalman_filter_conditional",
    "Cuthbert.Generate.kalman_filter_density",
    "Cuthbert.Generate.kalman_smoother_conditional"
   ],
   "note": "Conditional laws in the defining form E[phi(x_t) psi(y)] = E[psi(y) int phi dN(m(y), L(y) L(y)^T)] for all measurable phi, psi. The density statement needs nonsingular process noise and a lower triangular initial factor with non-zero diagonal; the filter's conditional law needs only nonsingular observation noise."
  },
  {
   "property": "C74",
   "status": "proved",
   "theorems": [
    "Cuthbert.parallel_warnings",
    "Cuthbert.parallel_warnings_smoother",
    "Cuthbert.filter_parallel_visits",
    "Cuthbert.visited_sorted",
    "Cuthbert.visited_length",
    "Cuthbert.visited_length_lt",
    "Cuthbert.filter_parallel_short",
    "Cuthbert.moments_parallel_skips",
    "Cuthbert.taylor_parallel_skips",
    "Cuthbert.particle_filter_parallel_skips",
    "Cuthbert.marginal_filter_parallel_skips",
    "Cuthbert.particle_filter_parallel_wrong"
   ],
   "note": "The set of steps is the recursive specification visited (Spec/Parallel.lean); particle_filter_parallel_wrong shows on particles that count their steps that parallel mode skips steps."
  },
  {
   "property": "C75",
   "status": "proved",
   "theorems": [
    "Cuthbert.SMC.multinomial_filter_accurate",
    "Cuthbert.SMC.killing_filter_accurate",
    "Cuthbert.SMC.adaptive_filter_accurate",
    "Cuthbert.SMC.particle_filter_consistent"
   ],
   "note": "systematic resampling is not claimed: see C76"
  },
  {
   "property": "C76",
   "status": "partial",
   "theorems": [
    "Cuthbert.Resampling.multinomial_error",
    "Cuthbert.Resampling.killing_error",
    "Cuthbert.Resampling.adaptive_error",
    "Cuthbert.Resampling.systematic_error_persists"
   ],
   "note": "false of systematic resampling (systematic_error_persists); proved for multinomial, killing and their adaptive versions"
  },
  {
   "property": "C77",
   "status": "partial",
   "theorems": [
    "Cuthbert.SMC.exact_smoother_unbiased_partial",
    "Cuthbert.SMC.exact_smoother_unbiased_resampling_partial",
    "Cuthbert.SMC.exact_smoother_biased",
    "Cuthbert.SMC.coins_agree"
   ],
   "note": "proved for generators whose splits of different lengths are independent (IndepSplit) and log potentials that do not depend on the inputs; false for prefix splitting (exact_smoother_biased) and, by C58, for log potentials that depend on the inputs"
  },
  {
   "property": "C78",
   "status": "proved",
   "theorems": [
    "Cuthbert.SMC.particle_filter_agrees_discrete",
    "Cuthbert.SMC.ancestors_agree_discrete_smoother",
    "Cuthbert.SMC.particle_filter_mean_discrete",
    "Cuthbert.SMC.particle_filter_agrees_kalman",
    "Cuthbert.SMC.ancestors_agree_kalman_smoother",
    "Cuthbert.SMC.particle_filter_mean_kalman"
   ],
   "note": "for the Kalman filter's log evidence with the conditions of C27 under which it is finite"
  },
  {
   "property": "C79",
   "status": "proved",
   "theorems": [
    "Cuthbert.Kalman.filter_covariance_monotone",
    "Cuthbert.Kalman.smoother_covariance_monotone",
    "Cuthbert.Kalman.smoothing_below_filtering",
    "Cuthbert.Kalman.filtering_below_prediction",
    "Cuthbert.Kalman.filter_covariance_data_free",
    "Cuthbert.Kalman.smoother_covariance_data_free"
   ],
   "note": "nonsingular observation noise; for the smoother nonsingular predictive covariances (without which it returns NaN, C30)"
  },
  {
   "property": "C80",
   "status": "proved",
   "theorems": [
    "Cuthbert.Kalman.filter_equivariant",
    "Cuthbert.Kalman.smoother_equivariant",
    "Cuthbert.Kalman.stepMap_state",
    "Cuthbert.Kalman.stepMap_permute",
    "Cuthbert.Kalman.stepMap_observation"
   ],
   "note": "log normalising constants: where both are finite and the initial factors lower triangular (C27)"
  },
  {
   "property": "C81",
   "status": "proved",
   "theorems": [
    "Cuthbert.Discrete.filter_lumped",
    "Cuthbert.Discrete.smoother_lumped",
    "Cuthbert.Discrete.filter_relabelled"
   ],
   "note": "under the conditions of C09 and C12 on the original model only"
  },
  {
   "property": "C82",
   "status": "proved",
   "theorems": [
    "Cuthbert.Kalman.filter_subdivided",
    "Cuthbert.Kalman.smoother_subdivided",
    "Cuthbert.Kalman.amounts_idle",
    "Cuthbert.Kalman.amounts_compose",
    "Cuthbert.Kalman.amounts_observations",
    "Cuthbert.Discrete.filter_subdivided",
    "Cuthbert.Discrete.smoother_subdivided"
   ],
   "note": "Kalman log normalising constants: where both are finite (C27); smoothers: under the conditions of C12 and C30 for both models"
  },
  {
   "property": "C83",
   "status": "proved",
   "theorems": [
    "Cuthbert.SMC.tracing_smoother_accurate",
    "Cuthbert.SMC.tracing_smoother_consistent"
   ],
   "note": "Ideal generator; false for systematic resampling in the smoother in general, see C76."
  },
  {
   "property": "C84",
   "status": "partial",
   "theorems": [
    "Cuthbert.SMC.exact_smoother_accurate_partial",
    "Cuthbert.SMC.exact_smoother_consistent_partial"
   ],
   "note": "Ideal generator whose splits of different sizes are independent. Missing: prefix splitting (the smoother is then biased for every fixed number of particles, see C77) and log potentials that depend on the inputs (see SMC.smoother_uses_wrong_inputs)."
  },
  {
   "property": "C85",
   "status": "proved",
   "theorems": [
    "Cuthbert.SMC.mcmc_close",
    "Cuthbert.SMC.mcmc_converges",
    "Cuthbert.SMC.mcmc_stuck"
   ],
   "note": "Ideal generator. The bound needs the initial (swapped) density to be bounded by G; the limit does not."
  },
  {
   "property": "C86",
   "status": "proved",
   "theorems": [
    "Cuthbert.Kalman.filter_superposes",
    "Cuthbert.Kalman.filter_uncertainty_data_free",
    "Cuthbert.Kalman.smoother_superposes"
   ],
   "note": "No invertibility is assumed: the three results are defined together."
  },
  {
   "property": "C87",
   "status": "proved",
   "theorems": [
    "Cuthbert.SMC.nan_evidence_persists",
    "Cuthbert.SMC.resampling_degenerate",
    "Cuthbert.SMC.degenerate_particles_collapse",
    "Cuthbert.SMC.adaptive_nan",
    "Cuthbert.SMC.marginal_nan_persists"
   ],
   "note": "The collapse onto the first particle is listed among the findings: after it only the log normalising constant shows that something went wrong."
  },
  {
   "property": "C88",
   "status": "proved",
   "theorems": [
    "Cuthbert.Discrete.filter_forgets",
    "Cuthbert.Discrete.smoother_forgets_past",
    "Cuthbert.Discrete.smoother_fixed_lag",
    "Cuthbert.Discrete.no_forgetting_without_mixing"
   ],
   "note": "Stated about pairs of whole runs; mixing is the usual two-sided bound on the transition matrix."
  },
  {
   "property": "C89",
   "status": "proved",
   "theorems": [
    "Cuthbert.Generate.kalman_filter_calibrated",
    "Cuthbert.Generate.kalman_smoother_calibrated",
    "Cuthbert.Discrete.discrete_filter_calibrated",
    "Cuthbert.Discrete.discrete_smoother_calibrated"
   ],
   "note": "The simulation is that of Spec/Generate.lean (textbook simulation with independent standard normal noise)."
  },
  {
   "property": "C90",
   "status": "proved",
   "theorems": [
    "Cuthbert.Kalman.kalman_filter_nan_iff",
    "Cuthbert.Kalman.kalman_smoother_nan_iff",
    "Cuthbert.Linearize.moments_associative_nan_iff",
    "Cuthbert.Linearize.moments_step_nan_iff",
    "Cuthbert.Linearize.moments_nan_persists",
    "Cuthbert.Linearize.taylor_nan_persists",
    "Cuthbert.Linearize.taylor_flat_transition_nan"
   ],
   "note": "Persistence for the moments and Taylor filters is about sequential runs. NaN stands for any non-finite value. The statements are about means: where the mean is NaN the code may still return a finite chol_cov, which the model does not distinguish."
  },
  {
   "property": "C91",
   "status": "proved",
   "theorems": [
    "Cuthbert.Kalman.kalman_smoother_least_squares",
    "Cuthbert.Kalman.kalman_smoother_map"
   ],
   "note": "The least-squares form allows singular P0 and Q; the density form needs them nonsingular, since otherwise there is no density."
  },
  {
   "property": "C92",
   "status": "proved",
   "theorems": [
    "Cuthbert.Linearize.moments_smoother_gauss_newton",
    "Cuthbert.Linearize.moments_smoothing_is_linearised"
   ],
   "note": "The noise covariances may depend on time but not on the state: with state-dependent noise the linearisation ignores the derivative of the covariance, and nothing is claimed."
  },
  {
   "property": "C93",
   "status": "partial",
   "theorems": [
    "Cuthbert.Utils.placeholder_shapes_partial",
    "Cuthbert.Utils.placeholder_scalar_cov",
    "Cuthbert.Utils.placeholder_integer_mean",
    "Cuthbert.Utils.placeholder_batched",
    "Cuthbert.Utils.placeholder_scalar_mean"
   ],
   "note": "False in dimension 1: jnp.cov squeezes its result, so the placeholder covariance is a scalar there. Callbacks that use state.chol_cov as a matrix fail only for one-dimensional models."
  },
  {
   "property": "C94",
   "status": "proved",
   "theorems": [
    "Cuthbert.Kalman.filter_forgets_mean",
    "Cuthbert.Kalman.filter_forgets_covariance",
    "Cuthbert.Kalman.smoother_forgets_mean"
   ],
   "note": "The mean statements assume equal covariances at time r, which holds whenever only means and data differ (C79). The combined effect of different covariances on the means is not stated."
  },
  {
   "property": "C95",
   "status": "proved",
   "theorems": [
    "Cuthbert.Kalman.kalman_em",
    "Cuthbert.Kalman.kalman_em_monotone",
    "Cuthbert.Kalman.kalman_em_gradient",
    "Cuthbert.Kalman.em_term_by_quadrature",
    "Cuthbert.Kalman.docs_em_recipe_fails"
   ],
   "note": "The recipe in docs/examples/parameter_estimation_em.md stacks the means in the order (m_t, m_{t+1}), which does not match its factor; docs_em_recipe_fails shows that an M-step on that objective can decrease the likelihood."
  },
  {
   "property": "C96",
   "status": "proved",
   "theorems": [
    "Cuthbert.Linearize.linearize_log_density_aux",
    "Cuthbert.Linearize.linearize_given_chol_cov_aux",
    "Cuthbert.Linearize.linearize_moments_aux",
    "Cuthbert.Linearize.linearize_taylor_aux",
    "Cuthbert.Linearize.linearize_log_density_aux_exact",
    "Cuthbert.Linearize.linearize_moments_aux_tangent",
    "Cuthbert.Linearize.linearize_taylor_aux_exact"
   ],
   "note": "JAX's has_aux transformations are modelled by their contract: derivative of the first output, second output passed through, TypeError on a mismatch."
  },
  {
   "property": "C97",
   "status": "partial",
   "theorems": [
    "Cuthbert.Linearize.taylor_update_information_partial",
    "Cuthbert.Linearize.linearize_taylor_singular",
    "Cuthbert.Linearize.taylor_step_singular",
    "Cuthbert.Linearize.taylor_ridge_overconfident",
    "Cuthbert.Linearize.exists_elo_model"
   ],
   "note": "The code violates the full claim when the Hessian is singular on the components the potential involves: its pseudo-inverse is used as noise covariance, so flat directions get zero instead of infinite noise. taylor_ridge_overconfident proves this for every run with potentials of one linear functional, exists_elo_model gives the model of the quickstart page. The partial theorem needs the Hessian to be nonsingular on the components involved. Exact arithmetic and an exact SVD are assumed."
  },
  {
   "property": "C98",
   "status": "partial",
   "theorems": [
    "Cuthbert.SMC.adaptive_smoother_ignores_final_weights",
    "Cuthbert.SMC.adaptive_smoother_biased",
    "Cuthbert.SMC.adaptive_smoother_below_threshold_partial"
   ],
   "note": "The property is false of the code above the threshold (two theorems); proved below it. For resampling functions that are not adaptive see C55, C71, C77, C83, C84."
  },
  {
   "property": "C99",
   "status": "partial",
   "theorems": [
    "Cuthbert.Linearize.taylor_quadratic_exact_partial",
    "Cuthbert.Linearize.tilt_quadratic",
    "Cuthbert.Linearize.taylor_convex_overconfident",
    "Cuthbert.Linearize.taylor_linear_ignored",
    "Cuthbert.Linearize.taylor_update_abs",
    "Cuthbert.Linearize.linearize_taylor_abs",
    "Cuthbert.Linearize.exists_quadratic_model"
   ],
   "note": "The property is false of the code for convex and for linear log potentials (two theorems, against the exact law of tilt_quadratic); proved for strictly concave ones."
  },
  {
   "property": "C100",
   "status": "partial",
   "theorems": [
    "Cuthbert.Linearize.taylor_potential_constant_partial",
    "Cuthbert.Linearize.taylor_potential_evidence",
    "Cuthbert.Linearize.taylor_density_potential_disagree",
    "Cuthbert.Linearize.processPotential_shift",
    "Cuthbert.Linearize.exists_density_potential_models"
   ],
   "note": "The property is false of the code; proved are the exact difference, that the filtering laws are exact, and that the two ways of giving a likelihood report different constants."
  },
  {
   "property": "C101",
   "status": "proved",
   "theorems": [
    "Cuthbert.Discrete.discrete_pair_law",
    "Cuthbert.Discrete.discrete_em",
    "Cuthbert.Discrete.baum_welch_monotone",
    "Cuthbert.Discrete.discrete_fisher",
    "Cuthbert.Spec.HMM.BaumWelchUpdate.maximises",
    "Cuthbert.Discrete.exists_baum_welch"
   ],
   "note": ""
  },
  {
   "property": "C102",
   "status": "proved",
   "theorems": [
    "Cuthbert.Linearize.linearize_log_density_additive",
    "Cuthbert.Linearize.taylor_filter_is_moments",
    "Cuthbert.Linearize.taylor_smoother_is_moments",
    "Cuthbert.Linearize.exists_same_model"
   ],
   "note": "The log likelihoods of the associative filters are compared where they are not NaN."
  },
  {
   "property": "C103",
   "status": "partial",
   "theorems": [
    "Cuthbert.Linearize.taylor_smoother_ascent_partial",
    "Cuthbert.Linearize.taylor_smoother_stoch_vol",
    "Cuthbert.Linearize.exists_stoch_vol_fixed_point",
    "Cuthbert.Linearize.volLogLik_curvature"
   ],
   "note": "Proved for log potentials with nonsingular second derivatives, concave or not, and for conditional log densities with additive Gaussian noise. False for conditional log densities with noise that depends on the state: for stochastic volatility the iteration stops only where the exact log posterior has a known nonzero slope."
  },
  {
   "property": "C104",
   "status": "proved",
   "theorems": [
    "Cuthbert.Kalman.filter_side_by_side",
    "Cuthbert.Kalman.smoother_side_by_side",
    "Cuthbert.Kalman.exists_side_by_side",
    "Cuthbert.Discrete.filter_side_by_side",
    "Cuthbert.Discrete.smoother_side_by_side",
    "Cuthbert.Discrete.exists_side_by_side"
   ],
   "note": "Kalman log normalising constants: where all three are finite (C27); smoothers: under the conditions of C12 and C30 on the parts only."
  },
  {
   "property": "C105",
   "status": "proved",
   "theorems": [
    "Cuthbert.Generate.kalman_innovations",
    "Cuthbert.Generate.exists_innovation_roots"
   ],
   "note": "The simulation is the `simulate` of C73."
  },
  {
   "property": "C106",
   "status": "proved",
   "theorems": [
    "Cuthbert.Kalman.kalman_filter_smooth",
    "Cuthbert.Kalman.kalman_smoother_smooth",
    "Cuthbert.Kalman.kalman_score",
    "Cuthbert.Kalman.shiftModel_smooth",
    "Cuthbert.Discrete.discrete_filter_smooth",
    "Cuthbert.Discrete.discrete_smoother_smooth",
    "Cuthbert.Discrete.twoState_smooth"
   ],
   "note": "About the functions that the runs compute in exact arithmetic. What automatic differentiation of the QR decompositions returns is not modelled; the factors themselves depend on the choice of square root, their Gram matrices do not."
  },
  {
   "property": "C107",
   "status": "proved",
   "theorems": [
    "Cuthbert.SMC.UnbiasedRun.log_evidence",
    "Cuthbert.SMC.exists_log_evidence",
    "Cuthbert.SMC.log_bias"
   ],
   "note": "For the runs that C53 proves unbiased, under ideal independent keys."
  },
  {
   "property": "C108",
   "status": "partial",
   "theorems": [
    "Cuthbert.SMC.marginal_filter_proposals_partial",
    "Cuthbert.SMC.marginal_filter_inconsistent"
   ],
   "note": "Proved if the proposals ignore the previous state, log potentials are finite, resampling returns equal weights and splits of different sizes are independent (C72 covers potentials that ignore the previous state). FALSE in general: the weight of a new particle averages the potential over all old particles but is not divided by the mixture of the proposals. For a coin that never changes the expected estimate is 1/2 + 1/(2N) instead of 1 with N particles."
  },
  {
   "property": "C109",
   "status": "proved",
   "theorems": [
    "Cuthbert.Kalman.filter_padded",
    "Cuthbert.Kalman.smoother_padded",
    "Cuthbert.Discrete.filter_padded",
    "Cuthbert.Discrete.smoother_padded"
   ],
   "note": "For the Kalman filter under the C01/C02 conditions on noise covariances; log normalising constants are compared when both are defined, which C01 characterises."
  },
  {
   "property": "C110",
   "status": "proved",
   "theorems": [
    "Cuthbert.Kalman.filter_steady_state",
    "Cuthbert.Kalman.detectable_of_stable",
    "Cuthbert.Kalman.detectable_of_leftInverse"
   ],
   "note": "All components observed at every step; process noise positive definite (stabilisability would do in the textbook result)."
  },
  {
   "property": "C111",
   "status": "proved",
   "theorems": [
    "Cuthbert.Kalman.filter_reordered",
    "Cuthbert.Kalman.smoother_static",
    "Cuthbert.Discrete.filter_reordered"
   ],
   "note": "Kalman: invertible observation noise (and initial covariance, for the smoother); discrete: positive likelihoods."
  },
  {
   "property": "C112",
   "status": "proved",
   "theorems": [
    "Cuthbert.SMC.particle_filter_maps",
    "Cuthbert.SMC.marginal_particle_filter_maps",
    "Cuthbert.SMC.particle_smoother_maps",
    "Cuthbert.SMC.corresponds_multinomial",
    "Cuthbert.SMC.corresponds_systematic",
    "Cuthbert.SMC.corresponds_killing",
    "Cuthbert.SMC.Corresponds.adaptive",
    "Cuthbert.SMC.corresponds_tracing",
    "Cuthbert.SMC.corresponds_exact",
    "Cuthbert.SMC.corresponds_mcmc"
   ],
   "note": "The hypotheses on resampling functions and backward samplers are proved for every one in the library (the corresponds_ theorems)."
  },
  {
   "property": "C113",
   "status": "proved",
   "theorems": [
    "Cuthbert.Kalman.filter_best_linear",
    "Cuthbert.Kalman.smoother_best_linear"
   ],
   "note": "exists_uncorrelated gives a two-point process with dependent noises that meets the hypotheses. The observation noise has full rank; for the smoother the transition noise also has."
  },
  {
   "property": "C114",
   "status": "proved",
   "theorems": [
    "Cuthbert.SMC.particle_filter_evidence_bounds",
    "Cuthbert.SMC.particle_filter_weight_bounds",
    "Cuthbert.SMC.marginal_filter_evidence_bounds",
    "Cuthbert.Discrete.discrete_filter_evidence_bounds",
    "Cuthbert.Kalman.kalman_filter_evidence_bound"
   ],
   "note": "The marginal particle filter is covered for resampling at every step; with adaptive resampling its evidence is wrong (C59)."
  },
  {
   "property": "C115",
   "status": "proved",
   "theorems": [
    "Cuthbert.SMC.particle_marginal_mh",
    "Cuthbert.SMC.systematic_particle_marginal_mh",
    "Cuthbert.SMC.killing_particle_marginal_mh",
    "Cuthbert.SMC.multinomial_particle_marginal_mh",
    "Cuthbert.SMC.adaptive_particle_marginal_mh"
   ],
   "note": "The sampler is not part of the library and is specified in Spec/MetropolisHastings; scope of the generators and resampling functions as in C53."
  },
  {
   "property": "C116",
   "status": "proved",
   "theorems": [
    "Cuthbert.SMC.particle_filter_uniform",
    "Cuthbert.SMC.multinomial_filter_uniform",
    "Cuthbert.SMC.killing_filter_uniform",
    "Cuthbert.SMC.adaptive_filter_uniform",
    "Cuthbert.SMC.forgets_of_bounds"
   ],
   "note": "Scope of the generators and resampling functions as in C75; the model's forgetting is specified in Spec/Forgetting. forgets_of_bounds gives a sufficient condition."
  },
  {
   "property": "C117",
   "status": "proved",
   "theorems": [
    "Cuthbert.SMC.particles_proportional_to_length",
    "Cuthbert.SMC.multinomial_filter_evidence_relative",
    "Cuthbert.SMC.killing_filter_evidence_relative",
    "Cuthbert.SMC.adaptive_filter_evidence_relative"
   ],
   "note": "Scope of the generators and resampling functions as in C75; the model's forgetting is specified in Spec/Forgetting."
  },
  {
   "property": "C118",
   "status": "partial",
   "theorems": [
    "Cuthbert.SMC.continuations_independent_partial",
    "Cuthbert.SMC.continuation_ignores_key",
    "Cuthbert.SMC.marginal_continuation_ignores_key",
    "Cuthbert.SMC.forecast_same_particles",
    "Cuthbert.SMC.forecasts_not_independent"
   ],
   "note": "Proved from the second step of the continuations on. FALSE for the first one: the step is drawn with the key of the old state and the key given to filter_prepare is only handed on, so forecasts from one state are identical copies (both heads with probability 1/2 instead of 1/4)."
  },
  {
   "property": "C119",
   "status": "partial",
   "theorems": [
    "Cuthbert.Quadrature.cubature_tendsto_taylor_partial",
    "Cuthbert.Quadrature.gaussHermite_tendsto_taylor_partial",
    "Cuthbert.Quadrature.unscented_tendsto_taylor_partial",
    "Cuthbert.Quadrature.unscented_default_not_taylor",
    "Cuthbert.Quadrature.slr_small",
    "Cuthbert.Quadrature.slr_small_sqrt"
   ],
   "note": "Proved for cubature and Gauss-Hermite. For the unscented rule gain and offset have the right limit (slr_small); the covariance does if and only if beta = alpha^2 - 1, so FALSE for the default parameters, where it tends to 3.75 times the noise covariance (the cause is that of C41). Square-root mode (slr_small_sqrt): for invertible conditional factors and non-negative weights."
  },
  {
   "property": "C120",
   "status": "proved",
   "theorems": [
    "Cuthbert.SMC.adaptive_zero_importance_sampling",
    "Cuthbert.SMC.adaptive_above_one",
    "Cuthbert.SMC.adaptive_above_one_run",
    "Cuthbert.SMC.adaptive_above_one_same"
   ],
   "note": "As long as some particle is alive; the run with a threshold above one agrees with the wrapped function's up to and including the first time no particle is alive, and for all time with finite log potentials."
  },
  {
   "property": "C121",
   "status": "partial",
   "theorems": [
    "Cuthbert.SMC.gradient_without_resampling_partial",
    "Cuthbert.SMC.gradient_with_resampling",
    "Cuthbert.SMC.gradient_with_library_resampling",
    "Cuthbert.SMC.gradient_not_score"
   ],
   "note": "Holds if nothing is resampled (threshold zero). FALSE with resampling: gradient_with_resampling computes the derivative for almost every key - each step's score is averaged with the weights of that step, the filtering and not the smoothing law - and in gradient_not_score its expectation is 1/2 for every number of particles although the score is 3/4. What automatic differentiation returns is not modelled; where the indices are locally constant it is this derivative."
  },
  {
   "property": "C122",
   "status": "partial",
   "theorems": [
    "Cuthbert.Resampling.multinomial_variance",
    "Cuthbert.Resampling.killing_variance_le",
    "Cuthbert.Resampling.systematic_copies_least_variance",
    "Cuthbert.Resampling.systematic_variance_larger"
   ],
   "note": "Holds for killing: its mean squared error is at most that of multinomial resampling, which is exactly the weighted variance over the number of particles. For systematic resampling it holds for the number of copies of a single particle, where it is the best of all unbiased schemes, but it is FALSE for general averages: with alternating weights the mean squared error is 1/16 for any even number of particles, that of multinomial resampling at most 1/(8m) for 2m particles."
  },
  {
   "property": "C123",
   "status": "proved",
   "theorems": [
    "Cuthbert.SMC.mcmc_smoother_converges"
   ],
   "note": "Conditional on the filter states: the law over the smoother's key. The rate for one step is that of C85 (mcmc_close)."
  },
  {
   "property": "C124",
   "status": "proved",
   "theorems": [
    "Cuthbert.SMC.tracing_paths_merge",
    "Cuthbert.SMC.merge_bound_small",
    "Cuthbert.SMC.systematic_killing_distinct"
   ],
   "note": "The rate is for the worst case of the weights; the bound for the merging of lineages is lineages_merge."
  },
  {
   "property": "C125",
   "status": "partial",
   "theorems": [
    "Cuthbert.SMC.mcmc_smoother_unbiased_partial",
    "Cuthbert.SMC.invariant_smoother_unbiased",
    "Cuthbert.SMC.invariantSampler_mcmc",
    "Cuthbert.SMC.invariantSampler_exact",
    "Cuthbert.SMC.invariantSampler_tracing"
   ],
   "note": "Missing: asymmetric log potentials, for which MCMC sampling does not leave the backward distributions invariant (mcmc_not_invariant, C57); prefix splitting (exact_smoother_biased, C77); log potentials that depend on the inputs (smoother_uses_wrong_inputs, C58)."
  },
  {
   "property": "C126",
   "status": "proved",
   "theorems": [
    "Cuthbert.SMC.particle_gibbs_tracing",
    "Cuthbert.SMC.particle_gibbs_exact",
    "Cuthbert.SMC.particle_gibbs_mcmc",
    "Cuthbert.SMC.gibbs_invariant",
    "Cuthbert.SMC.conditionalLaw_multinomial",
    "Cuthbert.SMC.conditionalLaw_killing",
    "Cuthbert.SMC.conditionalLaw_systematic"
   ],
   "note": "The library has no conditional particle filter: the program is in Spec/ParticleGibbs.lean and calls the modelled functions. The log potentials are finite, so that no weights vanish."
  },
  {
   "property": "C127",
   "status": "partial",
   "theorems": [
    "Cuthbert.Resampling.rounded_index_accurate",
    "Cuthbert.Resampling.rounded_probability",
    "Cuthbert.Resampling.rounded_index_monotone",
    "Cuthbert.Resampling.rounded_zero_weight_partial",
    "Cuthbert.Resampling.rounded_draws_zero_weight",
    "Cuthbert.Resampling.inverseCdfRounded_id"
   ],
   "note": "Accuracy and order hold. That weight zero is never drawn is proved for all particles but the last. For the last it is FALSE: the rounded sum can stay below one, and draws above it get the last index even if its weight is zero (probability k / 2^p with p bits and 4k+3 particles). Rounding of the weights themselves and of the draws is not modelled: the weights are given, representable and sum to one exactly."
  },
  {
   "property": "C128",
   "status": "proved",
   "theorems": [
    "Cuthbert.Discrete.discrete_filter_rounding",
    "Cuthbert.Discrete.float_accurate",
    "Cuthbert.Discrete.buildFilterWith_exact",
    "Cuthbert.associativeScan_bracket"
   ],
   "note": "The exponential function must be accurate on the range of the differences of log-likelihoods; C129 treats underflow. The accuracy of exp and log is an assumption on the arithmetic (met by correctly rounded functions, float_accurate). Overflow and underflow of products and quotients are not modelled. L bounds the log evidence of all prefixes (in parallel: of all blocks), so for a fixed model it grows with the number of steps."
  },
  {
   "property": "C129",
   "status": "partial",
   "theorems": [
    "Cuthbert.Discrete.discrete_filter_underflow",
    "Cuthbert.Discrete.discrete_filter_finite_partial"
   ],
   "note": "FALSE: condition_on_obs divides by the maximum likelihood over all states, including those that cannot be reached. If the reachable states are worse by more than the range of exp (about 104 in single precision, the JAX default, and 745 in double precision), the normalising constant underflows to zero and the result is nan. Proved for differences within the range."
  },
  {
   "property": "C130",
   "status": "proved",
   "theorems": [
    "Cuthbert.Discrete.discrete_smoother_rounding",
    "Cuthbert.Discrete.discrete_filter_smoother_rounding",
    "Cuthbert.Discrete.buildSmootherWith_exact"
   ],
   "note": "Overflow and underflow of products and quotients are not modelled; C129 shows what underflow of the exponential function does. Reachability of all states is needed: otherwise the smoother returns nan (C12's finding)."
  },
  {
   "property": "C131",
   "status": "partial",
   "theorems": [
    "Cuthbert.Resampling.inverseCdfWith_probability_partial",
    "Cuthbert.Resampling.inverseCdfWith_collapse",
    "Cuthbert.Resampling.weightsWith_near",
    "Cuthbert.Resampling.logsumexpWith_near",
    "Cuthbert.Resampling.float_accurateExp",
    "Cuthbert.Resampling.weightsWith_exact"
   ],
   "note": "FALSE for log weights that are large compared with the number 2^p of the format: logsumexp(logits) is rounded to the precision of the log weights, so exp(logits - logsumexp(logits)) does not sum to one. N equal log weights -2^k with 2^(k-p-1) > 2 (log N + 1) all get the weight one, and every draw is the first particle (single precision, a thousand particles: log weights of -5e8; with -1e6 the weights sum to one only up to a few per cent, and the surplus or deficit is the last particle's). Proved with an error term of the precision times the logarithm of the sum of the weights. Underflow does no harm: it is included in the bound. Assumes JAX's formula for logsumexp (maximum subtracted first)."
  },
  {
   "property": "C132",
   "status": "proved",
   "theorems": [
    "Cuthbert.Kalman.online_rounding",
    "Cuthbert.Kalman.online_rounding_mean",
    "Cuthbert.Kalman.online_rounding_attained",
    "Cuthbert.Kalman.online_exact",
    "Cuthbert.Kalman.online_exact_exists",
    "Cuthbert.Kalman.update_near",
    "Cuthbert.Kalman.predict_near",
    "Cuthbert.Kalman.collectMatWith_near"
   ],
   "note": "Only the triangularisations are inexact (in update, predict and collect_nans_chol); products and triangular solves are exact. A backward stable QR has eps of the order of the machine precision times the condition number of the row-scaled argument, so the hypothesis is about well-conditioned factors; a singular covariance must keep its kernel. The exact run is that of C21 and C22 (online_exact)."
  },
  {
   "property": "C133",
   "status": "proved",
   "theorems": [
    "Cuthbert.Kalman.smooth_rounding",
    "Cuthbert.Kalman.smoothSpread_le",
    "Cuthbert.Kalman.smoother_near",
    "Cuthbert.Kalman.smooth_exact",
    "Cuthbert.Kalman.smooth_exact_exists",
    "Cuthbert.Kalman.smootherUpdateWith_exact"
   ],
   "note": "As in C132 only the triangularisations are inexact. The bound contains the lengths of the innovations standardised by the factor of the predicted covariance, which smoothing.update does not return. The growth with T squared is an upper bound, not shown to be attained."
  },
  {
   "property": "C134",
   "status": "proved",
   "theorems": [
    "Cuthbert.Generate.kalman_model_comparison",
    "Cuthbert.Discrete.discrete_model_comparison",
    "Cuthbert.Discrete.exists_comparable",
    "Cuthbert.Compare.ville",
    "Cuthbert.Compare.gibbs",
    "Cuthbert.Generate.filter_logEv",
    "Cuthbert.Generate.dataLaw_densities",
    "Cuthbert.Discrete.dataLaw_densities"
   ],
   "note": "The data are those of the textbook simulation of Spec/Generate.lean (Kalman) or have the probabilities of the hidden Markov model (discrete). The average lead is compared through its positive and negative part, so no integrability is assumed."
  },
  {
   "property": "C135",
   "status": "proved",
   "theorems": [
    "Cuthbert.Discrete.discrete_filter_mixture",
    "Cuthbert.Discrete.discrete_model_probabilities",
    "Cuthbert.Discrete.exists_mixture"
   ],
   "note": "Filter only. The smoother needs every state to be predicted with positive probability, which fails in the separate runs when classes are never left."
  },
  {
   "property": "C136",
   "status": "proved",
   "theorems": [
    "Cuthbert.Kalman.kalman_missing_limit",
    "Cuthbert.Kalman.kalman_smoother_missing_limit",
    "Cuthbert.Kalman.exists_filledIn",
    "Cuthbert.Kalman.exists_missing"
   ],
   "note": "The filled-in models are fully observed. They exist for every model, all filled-in values and all added variances (exists_filledIn)."
  },
  {
   "property": "C137",
   "status": "proved",
   "theorems": [
    "Cuthbert.Kalman.kalman_diffuse",
    "Cuthbert.Kalman.kalman_smoother_diffuse",
    "Cuthbert.Kalman.exists_withPrior",
    "Cuthbert.Kalman.exists_observable"
   ],
   "note": "Filter: mean, covariance and log normalising constant converge. Smoother: the law converges, tested with all functions that the flat posterior integrates."
  },
  {
   "property": "C138",
   "status": "proved",
   "theorems": [
    "Cuthbert.Kalman.filter_register",
    "Cuthbert.Kalman.smoother_by_register",
    "Cuthbert.Kalman.register_store",
    "Cuthbert.Kalman.register_lag",
    "Cuthbert.Kalman.register_sum",
    "Cuthbert.Kalman.exists_register",
    "Cuthbert.Kalman.exists_smoother_by_register",
    "Cuthbert.Discrete.filter_register",
    "Cuthbert.Discrete.smoother_by_register",
    "Cuthbert.Discrete.register_store",
    "Cuthbert.Discrete.register_lag",
    "Cuthbert.Discrete.exists_register"
   ],
   "note": "Kalman log normalising constants: where finite (C27); smoothers: under the conditions of C12 and C30 on the original model."
  },
  {
   "property": "C139",
   "status": "proved",
   "theorems": [
    "Cuthbert.SMC.particle_filter_rounded",
    "Cuthbert.SMC.particle_filter_rounded_float",
    "Cuthbert.SMC.increment_near",
    "Cuthbert.SMC.float_addsNegInf",
    "Cuthbert.SMC.multinomial_alwaysResamples",
    "Cuthbert.SMC.systematic_alwaysResamples",
    "Cuthbert.SMC.killing_alwaysResamples",
    "Cuthbert.SMC.filterCombineWith_exact",
    "Cuthbert.SMC.initPrepareWith_exact"
   ],
   "note": "The comparison is with the exact value for the particles of the same run: the effect of rounding on which particles are drawn is the subject of C131. With adaptive resampling the bound V on the log weights grows with the number of steps without resampling. Overflow is not modelled."
  },
  {
   "property": "C140",
   "status": "partial",
   "theorems": [
    "Cuthbert.Kalman.filter_keeps_constraints_partial",
    "Cuthbert.Kalman.log_normalizer_nan_of_constraint",
    "Cuthbert.Kalman.smoother_nan_of_constraint",
    "Cuthbert.Kalman.smoothing_law_keeps",
    "Cuthbert.Kalman.exists_constraint",
    "Cuthbert.Discrete.filter_keeps_constraints_partial",
    "Cuthbert.Discrete.smoother_nan_of_constraint",
    "Cuthbert.Discrete.exists_constraint",
    "Cuthbert.SMC.filter_keeps_constraints",
    "Cuthbert.SMC.smoother_particles_from_filter",
    "Cuthbert.SMC.smoother_keeps_constraints",
    "Cuthbert.SMC.samplesFrom_all"
   ],
   "note": "FALSE of the code for smoothers and log normalising constants. Proved: Kalman, discrete and particle filters and all particle smoothers respect all constraints (for the Kalman filter with nonsingular noise of the observed components, for the discrete filter with positive predictive likelihoods from each state). But for every linear-Gaussian model with a nontrivial linear constraint at time t the log normalising constants of later times are NaN in both modes, and the smoother returns NaN before t in both modes; for every finite model that excludes a state the sequential smoother returns NaN."
  },
  {
   "property": "C141",
   "status": "partial",
   "theorems": [
    "Cuthbert.Kalman.filter_reproduces_noise_free",
    "Cuthbert.Kalman.smoother_reproduces_noise_free",
    "Cuthbert.Kalman.filter_noise_free_limit",
    "Cuthbert.Kalman.log_normalizer_nan_after_noise_free",
    "Cuthbert.Kalman.exists_noise_free"
   ],
   "note": "FALSE of the code for log normalising constants: after an observation with a noise-free combination all log normalising constants are NaN in both modes (chol_P0 lower triangular), although those for noise tending to zero converge. The rest is proved for all models."
  },
  {
   "property": "C142",
   "status": "proved",
   "theorems": [
    "Cuthbert.Kalman.filter_overstated",
    "Cuthbert.Kalman.smoother_overstated",
    "Cuthbert.Kalman.filter_understated",
    "Cuthbert.Kalman.smoother_understated",
    "Cuthbert.Kalman.exists_misspecified"
   ],
   "note": "For models whose stated observation noise is nonsingular; for the smoother also the stated process noise. The process noise and observation noise of the process itself may be singular when overstated."
  },
  {
   "property": "C143",
   "status": "proved",
   "theorems": [
    "Cuthbert.Discrete.filter_reversed",
    "Cuthbert.Discrete.smoother_reversed",
    "Cuthbert.Discrete.reverses_reversible",
    "Cuthbert.Discrete.exists_reversal",
    "Cuthbert.Discrete.exists_reversed",
    "Cuthbert.Kalman.filter_reversed",
    "Cuthbert.Kalman.smoother_reversed",
    "Cuthbert.Kalman.exists_reversal",
    "Cuthbert.Kalman.exists_reversed"
   ],
   "note": "Both models under the conditions of the exactness theorems: for discrete models positive rows and reachable states, for Kalman nonsingular noise of the observed components and nonsingular predicted covariances. That the last step is unobserved is harmless by C109: such a step can be appended."
  },
  {
   "property": "C144",
   "status": "proved",
   "theorems": [
    "Cuthbert.Kalman.filter_sameInformation",
    "Cuthbert.Kalman.smoother_sameInformation",
    "Cuthbert.Kalman.exists_compressed",
    "Cuthbert.Kalman.exists_compressed_run",
    "Cuthbert.Kalman.exists_sameInformation"
   ],
   "note": "Conditions of the exactness theorems: nonsingular noise of the observed components in both models; for the smoother nonsingular predicted covariances, needed for one of the two runs only."
  },
  {
   "property": "C145",
   "status": "proved",
   "theorems": [
    "Cuthbert.Linearize.moments_filter_mapped",
    "Cuthbert.Linearize.exists_moments_mapped",
    "Cuthbert.Linearize.moments_smoother_mapped",
    "Cuthbert.Linearize.exists_moments_smoother_mapped"
   ],
   "note": "Non-associative filter, linearised at the mean the callbacks are given. The associative filter linearises at points chosen without the state, so the claim is about the sequential one. The smoother theorem needs T square and invertible."
  }
 ]
}