"""Writes MANIFEST.json. One entry per property in properties.jsonl."""
import json, os
ROOT = os.path.dirname(os.path.dirname(os.path.abspath(__file__)))
C = {}
def c(pid, status, theorems, note=""):
    C[pid] = dict(property=pid, status=status, theorems=["Cuthbert." + t for t in theorems], note=note)

c("C01", "proved", ["filter_sequential_is_online_run", "online_filter_run_unique", "filter_empty_inputs"])
c("C02", "proved", ["filter_parallel_eq_sequential", "filter_parallel_agrees_on_view", "filter_parallel_length", "filter_parallel_needs_associativity"])
c("C03", "proved", ["filter_causal", "filter_resume", "filter_causal_needs_prefixStable"],
  "With a key, prefix-independence needs a split whose subkeys do not depend on how many are requested; shown necessary.")
c("C04", "proved", ["smoother_sequential_is_backward_run"])
c("C05", "proved", ["smoother_inputs_T_or_T_plus_one", "smoother_rejects_iff", "smoother_T_zero"])
c("C06", "proved", ["smoother_parallel_eq_sequential", "smoother_parallel_agrees_on_view"])
c("C07", "proved", ["filter_key_allocation", "smoother_key_allocation"])
c("C08", "proved", ["filter_flag_only_warns", "smoother_flag_only_warns"])

D = "Discrete."
c("C09", "proved", [D+"discrete_filter_exact"], "Holds when every state gives every observation positive one-step probability (the stated quantifier); see C14 for what happens otherwise.")
c("C10", "proved", [D+"discrete_filtering_operator_assoc", D+"discrete_filter_parallel_eq"])
c("C11", "proved", [D+"discrete_filter_normalised", D+"discrete_filter_shift"])
c("C12", "proved", [D+"discrete_smoother_exact", D+"discrete_smoother_nan_if_unreachable"], "Reachability of every state is needed: otherwise NaN, proved.")
c("C13", "proved", [D+"discrete_smoothing_operator_assoc", D+"discrete_reverse_kernel_stochastic", D+"discrete_smoother_exact"])
c("C14", "partial", [D+"discrete_filter_nan_despite_positive_evidence", D+"discrete_filter_finite_iff", D+"discrete_filter_well_defined_partial"],
  "The property is FALSE of the code: a concrete model with evidence 1/2 yields NaN. Exact characterisation of when the filter is finite proved.")

c("C15", "proved", ["tria_is_lower_sqrt", "qr_exists"])
c("C16", "proved", ["marginal_sqrt_cov_correct", "marginal_sqrt_cov_rejects", "marginal_sqrt_cov_clamps", "block_marginal_sqrt_cov_correct", "block_marginal_sqrt_cov_rejects"],
  "An out-of-range start is clamped, not rejected (proved).")
c("C17", "proved", ["collect_nans_order", "collect_nans_cov", "collect_nans_rest"])
c("C18", "proved", ["symmetric_inv_sqrt_posdef", "symmetric_inv_sqrt_missing", "invSqrtCore_gram", "svd_exists"])
c("C19", "proved", ["chol_cov_with_nans_to_cov_correct", "chol_cov_with_nans_to_cov_nan"])

c("C20", "proved", ["logpdf_matrix", "logpdf_is_density", "logpdf_diagonal", "logpdf_isotropic", "logpdf_scalar", "logpdf_missing", "logpdf_missing_diagonal", "logpdf_all_missing", "logpdf_nan_without_support", "logpdf_shape_mismatch", "gauss_eq_multivariateGaussian"])
c("C64", "partial", ["logpdf_shape_mismatch_accepted", "logpdf_scalar_not_finite", "logpdf_shape_mismatch"],
  "FALSE of the code: a one-dimensional x with a 2 x 2 factor is accepted, and a scalar NaN gives a non-finite value. Proved: the counterexamples, and that mismatches where neither size is one raise.")

KA = "Kalman."
c("C21", "proved", [KA+"predict_exact", KA+"predict_lower"])
c("C22", "proved", [KA+"update_bayes", KA+"update_bayes_pointwise", KA+"update_singular"])
c("C23", "proved", [KA+"update_missing_eq_deleted", KA+"update_all_missing"])
c("C24", "proved", [KA+"online_step_eq_predict_update", KA+"filter_states_shape"])
c("C25", "proved", [KA+"filtering_operator_assoc", KA+"kalman_parallel_moments", KA+"kalman_parallel_log_likelihood"])
c("C26", "proved", [KA+"kalman_filter_exact"])
c("C27", "partial", [KA+"log_likelihoods_agree_partial", KA+"log_likelihood_nan_known_initial_state", KA+"log_likelihood_nan_static_state", KA+"log_likelihood_finite_iff"],
  "FALSE of the code: P0 = 0 gives NaN evidence in both modes, Q = 0 gives NaN in the parallel mode only. Proved: both counterexamples, the claim for full-rank P0 and Q, and exactly when the sequential value is NaN; a finite parallel value always equals the sequential one.")

c("C28", "proved", [KA+"smoother_element_is_conditional_law", KA+"smoother_update_exact", KA+"smoother_singular"])
c("C29", "proved", [KA+"smoothing_operator_assoc", KA+"kalman_smoother_parallel"])
c("C30", "proved", [KA+"kalman_smoother_exact", KA+"kalman_smoother_nan_known_static_state"],
  "A singular predictive covariance gives NaN although the smoothing law exists (proved).")
c("C31", "proved", [KA+"kalman_smoother_exact", KA+"kalman_smoother_fields"])
c("C32", "proved", [KA+"predict_root_independent", KA+"update_root_independent", KA+"smoother_update_root_independent", KA+"kalman_filter_root_independent", KA+"kalman_smoother_root_independent"])
c("C33", "proved", [KA+"sampling_operator_assoc", KA+"sampler_recursion", KA+"kalman_sampler_exact", KA+"sampler_rows_independent"])

LI = "Linearize."
c("C34", "proved", [LI + "linearize_log_density_exact", LI + "linearize_given_chol_cov_exact", LI + "linearize_log_density_matches", LI + "exists_gaussian_condDensity", LI + "wellConditioned_of_posDef"],
  "Every linearisation point, every pattern of missing components. Positive definiteness is required with the condition number below 1/rtol, as pinv drops smaller singular values; every positive definite matrix qualifies for small rtol.")
c("C35", "proved", [LI + "linearize_moments_tangent", LI + "linearize_moments_affine"], "")
c("C36", "proved", [LI + "linearize_taylor_exact", LI + "linearize_taylor_matches", LI + "exists_potential"],
  "Also potentials of a subset of the components, which come out marked by NaN.")
c("C37", "proved", [LI + "moments_associative_is_kalman", LI + "moments_associative_is_linearised_kalman", LI + "moments_non_associative_exact", LI + "moments_non_associative_is_kalman", LI + "moments_associative_finite"],
  "The associative variant returns literally the Kalman filter's states; the non-associative one the same laws and evidence.")
c("C38", "proved", [LI + "taylor_non_associative_exact", LI + "taylor_associative_exact", LI + "taylor_is_kalman", LI + "taylor_associative_eq", LI + "exists_represented"],
  "Log densities or log potentials, state-dependent linearisation points, missing components and skipped predictions. Positive definite matrices with condition number below 1/rtol, as pinv drops smaller singular values.")
c("C39", "proved", [LI + "moments_variants_agree"], "")
c("C65", "proved", [LI + "moments_smoother_is_kalman", LI + "taylor_smoother_is_kalman", LI + "moments_smoothing_exact", LI + "taylor_smoothing_exact", LI + "exists_gaussianDynamics"], "")
c("C66", "partial", [LI + "taylor_smoother_skip_nan", LI + "taylor_filter_finite_smoother_nan", LI + "taylor_smoothing_exact"],
  "FALSE of the code: at a skipped prediction the Taylor filter's state is finite but every smoothed state from there on back is NaN. Proved: the negation, for every such model, with a witness. taylor_smoothing_exact covers the models without skipped predictions.")
c("C67", "proved", [LI + "moments_step_is_extended_kalman", LI + "taylor_step_is_extended_kalman", LI + "linearisedTo_of_smooth"],
  "What the linearisation itself returns is C34-C36.")
QU = "Quadrature."
c("C40", "proved", [QU+"cubature_moments", QU+"unscented_moments", QU+"gaussHermite_moments", QU+"gaussHermite_order_one", QU+"unscented_isSome_iff"],
  "Gauss-Hermite needs order at least 2; for order 1 the covariance is proved to be zero. The unscented rule is finite exactly when alpha^2 (n + kappa) > 0.")
c("C41", "partial", [QU+"slr_affine", QU+"slr_affine_exact_partial", QU+"slr_affine_exact_sqrt_partial", QU+"cubature_affine_exact", QU+"gaussHermite_affine_exact", QU+"unscented_affine", QU+"unscented_default_inflates_noise"],
  "False of the code for the unscented rule, including its default parameters: the noise covariance is multiplied by 2 - alpha^2 + beta = 3.75. Proved for cubature and Gauss-Hermite, and for any rule whose covariance weights sum to one. The square-root mode needs an invertible noise factor (see C44).")
c("C42", "proved", [QU+"cubature_is_unscented", QU+"cubature_is_unscented_moments"], "")
c("C43", "proved", [QU+"cholesky_update_many_correct", QU+"cholesky_update_many_up", QU+"cholesky_update_many_down", QU+"cholesky_update_diag_pos"],
  "Exact real arithmetic. For updates an invertible factor suffices, for downdates a positive definite final matrix.")
c("C44", "partial", [QU+"modes_agree_partial", QU+"modes_agree_of_noise", QU+"sqrt_gram", QU+"sqrt_nan_iff", QU+"modes_disagree", QU+"unscented_default_wc_nonneg", QU+"unscented_classical_sqrt_nan"],
  "Proved when the resulting covariance is positive definite. False of the code for a singular covariance: modes_disagree shows the square-root mode returning a zero factor for diag(0, 1).")
c("C68", "proved", [QU+"cubature_polynomial", QU+"unscented_polynomial", QU+"gaussHermite_polynomial"], "")
c("C69", "proved", [QU+"slr_residual", QU+"slr_covariance_posDef", QU+"slr_optimal"], "Covariance mode; the square-root mode is tied to it by C44.")
c("C70", "partial", [LI+"moments_mean_prev_partial", LI+"taylor_mean_prev_partial", LI+"parallel_four", LI+"mean_prev_parallel_wrong"],
  "Proved for the sequential mode of all four filters. False of the code in parallel mode: the scan tree decides what mean_prev holds.")
RS = "Resampling."
c("C45", "proved", [RS + x for x in ["inverse_cdf_quantile", "inverse_cdf_cell", "inverse_cdf_monotone",
  "inverse_cdf_platforms_agree", "inverse_cdf_cpu_needs_sorted"]],
  "both platforms; agreement for every log-weight vector incl. nan/inf; inverse_cdf_cpu_needs_sorted shows the precondition is needed on CPU")
c("C46", "proved", [RS + x for x in ["systematic_counts", "systematic_copies", "systematic_counts_fail_at_zero"]],
  "for draws in (0,1); systematic_counts_fail_at_zero: at the draw u = 0, which random.uniform can return, the claim is false")
c("C48", "proved", [RS + x for x in ["systematic_positive", "multinomial_positive", "killing_positive", "killing_keeps_dead", "multinomial_collapse"]],
  "for positive draws; multinomial_collapse: one exactly zero draw makes every slot particle 0 on CPU")
c("C49", "proved", [RS + x for x in ["systematic_conditional_keeps_pivot", "multinomial_conditional_keeps_pivot", "killing_conditional_keeps_pivot"]],
  "all log-weights (nan included), platforms, draws and pivots")
c("C51", "proved", [RS + x for x in ["systematic_multinomial_consistent", "killing_consistent", "conditional_consistent", "adaptive_consistent"]], "")
c("C52", "proved", [RS + x for x in ["ess_eq", "ess_mem", "ess_shift", "adaptive_iff", "adaptive_all_dead"]],
  "every threshold, non-positive ones included; adaptive_all_dead: all-zero weights give nan and no resampling")

c("C47", "proved", [RS + x for x in ["multinomial_unbiased", "systematic_unbiased", "killing_unbiased", "Unbiased.average", "multinomial_iid"]],
  "Expectations over ideal random numbers (IdealRng in Spec/Random.lean, shown to exist).")
c("C50", "proved", [RS + x for x in ["multinomial_conditional_law", "killing_conditional_law", "systematic_conditional_law", "shiftedLaw_slot", "shiftedLaw_systematic"]],
  "The pivot must have positive weight for killing and systematic resampling (conditioning on a null event otherwise).")
SM = "SMC."
c("C53", "partial", [SM + x for x in ["particle_filter_unbiased_partial", "multinomial_filter_unbiased_partial", "systematic_filter_unbiased", "killing_filter_unbiased", "adaptive_filter_unbiased_partial", "particle_filter_biased", "adaptive_dead_evidence"]],
  "Proved for independent keys (test functions of whole ancestral paths; weights may vanish for killing and systematic). FALSE for generators with prefix splitting such as JAX's default: the initial key is split twice, and particle_filter_biased computes expectation 5/8 instead of 1/2. adaptive_dead_evidence: nan instead of -inf when all particles die under adaptive resampling.")
c("C54", "proved", [SM + "particle_filter_genealogy"], "")
c("C60", "partial", [SM + "particle_filter_keys_partial", SM + "particle_filter_key_reuse"],
  "The keys of all operations are given explicitly and are distinct for collision-free splitting. FALSE for prefix splitting: particle_filter_key_reuse.")
c("C62", "proved", [SM + "particle_filter_scaling"], "All six resampling configurations, all float values of the log potentials.")
c("C55", "proved", [SM + "tracing_smoother_paths"], "For every sequence of filter states, final resampling result and number of smoother particles.")
c("C56", "proved", [SM + "exact_backward_law", SM + "exact_trajectory_law", SM + "exact_smoother_law_partial"],
  "One call of the sampler has exactly the backward probabilities. The theorem about whole runs is restricted to log potentials that ignore the inputs because of C58.")
c("C58", "partial", [SM + "smoother_uses_wrong_inputs", SM + "exact_smoother_law_partial", SM + "tracing_smoother_paths"],
  "FALSE of the code: smoother_combine evaluates the log potential with the inputs of the transition t+1 -> t+2 (dummy values at the last transition), see smoother_uses_wrong_inputs. Proved for samplers or potentials that ignore the inputs.")
c("C71", "proved", [SM + "tracing_smoother_unbiased"], "For the runs that C53 covers; final resampling multinomial, systematic or killing.")
c("C57", "partial", [SM + "imh_scan_invariant", SM + "mcmc_invariant_partial", SM + "mcmc_not_invariant"],
  "FALSE of the code: the first log density of the chain is evaluated with its two arguments exchanged (mcmc.py:74), see mcmc_not_invariant (5/8 instead of 1/2). Proved: the Metropolis chain itself (imh_scan_invariant) and the whole sampler for symmetric log densities.")
c("C59", "partial", [SM + "marginal_filter_evidence_partial", SM + "marginal_adaptive_evidence", SM + "fkExp_const"],
  "FALSE of the code with an adaptive resampler: for a constant potential the reported evidence stays at its value after the first step, see marginal_adaptive_evidence against fkExp_const. Proved for resamplers that return uniform weights.")
c("C72", "partial", [SM + "marginal_filter_unbiased_partial", SM + "marginal_filter_biased", SM + "frozenCoin_evidence"],
  "FALSE of the code when the potential depends on the previous state (3/4 instead of 1), see marginal_filter_biased. Proved for potentials of the new state only.")
c("C61", "proved", ["Utils." + n for n in ["dummy_tree_preserves", "dummy_arrays_preserves", "dummy_tree_ok_iff", "dummy_tree_valueError_iff", "dummy_tree_ignores_values", "dummy_tree_idempotent", "minVal_isLeast", "smoother_rejects_unsupported_inputs"]],
  "8-bit floats are not modelled. Objects that JAX cannot convert raise TypeError before the dtype test.")
c("C63", "proved", ["Generate.cholesky_factor_lower", "Generate.cholesky_factor_diag", "Generate.lgssm_length",
  "Generate.lgssm_is_simulation", "Generate.lgssm_regular", "Generate.lgssm_filter_exact"],
  "Random numbers enter through the contract IdealGen (uniform and normal arrays of the right law, independent split keys), shown satisfiable by gkeyRng_ideal. The shapes are part of the types.")
c("C73", "proved", ["Generate.simulation_law", "Generate.kalman_filter_conditional", "Generate.kalman_filter_density",
  "Generate.kalman_smoother_conditional"],
  "Conditional laws in the defining form E[phi(x_t) psi(y)] = E[psi(y) int phi dN(m(y), L(y) L(y)^T)] for all measurable phi, psi. The density statement needs nonsingular process noise and a lower triangular initial factor with non-zero diagonal; the filter's conditional law needs only nonsingular observation noise.")
c("C74", "proved", ["parallel_warnings", "parallel_warnings_smoother", "filter_parallel_visits", "visited_sorted", "visited_length",
  "visited_length_lt", "filter_parallel_short", "moments_parallel_skips", "taylor_parallel_skips", "particle_filter_parallel_skips",
  "marginal_filter_parallel_skips", "particle_filter_parallel_wrong"],
  "The set of steps is the recursive specification visited (Spec/Parallel.lean); particle_filter_parallel_wrong shows on particles that count their steps that parallel mode skips steps.")
c("C75", "proved", ["SMC.multinomial_filter_accurate", "SMC.killing_filter_accurate", "SMC.adaptive_filter_accurate", "SMC.particle_filter_consistent"],
  "systematic resampling is not claimed: see C76")
c("C76", "partial", ["Resampling.multinomial_error", "Resampling.killing_error", "Resampling.adaptive_error", "Resampling.systematic_error_persists"],
  "false of systematic resampling (systematic_error_persists); proved for multinomial, killing and their adaptive versions")
c("C77", "partial", ["SMC.exact_smoother_unbiased_partial", "SMC.exact_smoother_unbiased_resampling_partial", "SMC.exact_smoother_biased", "SMC.coins_agree"],
  "proved for generators whose splits of different lengths are independent (IndepSplit) and log potentials that do not depend on the inputs; false for prefix splitting (exact_smoother_biased) and, by C58, for log potentials that depend on the inputs")
c("C78", "proved", ["SMC.particle_filter_agrees_discrete", "SMC.ancestors_agree_discrete_smoother", "SMC.particle_filter_mean_discrete", "SMC.particle_filter_agrees_kalman", "SMC.ancestors_agree_kalman_smoother", "SMC.particle_filter_mean_kalman"],
  "for the Kalman filter's log evidence with the conditions of C27 under which it is finite")
c("C79", "proved", ["Kalman.filter_covariance_monotone", "Kalman.smoother_covariance_monotone", "Kalman.smoothing_below_filtering", "Kalman.filtering_below_prediction", "Kalman.filter_covariance_data_free", "Kalman.smoother_covariance_data_free"],
  "nonsingular observation noise; for the smoother nonsingular predictive covariances (without which it returns NaN, C30)")
c("C80", "proved", ["Kalman.filter_equivariant", "Kalman.smoother_equivariant", "Kalman.stepMap_state", "Kalman.stepMap_permute", "Kalman.stepMap_observation"],
  "log normalising constants: where both are finite and the initial factors lower triangular (C27)")
c('C81', 'proved', ["Discrete.filter_lumped", "Discrete.smoother_lumped", "Discrete.filter_relabelled"],
  "under the conditions of C09 and C12 on the original model only")
c('C82', 'proved', ["Kalman.filter_subdivided", "Kalman.smoother_subdivided", "Kalman.amounts_idle", "Kalman.amounts_compose", "Kalman.amounts_observations", "Discrete.filter_subdivided", "Discrete.smoother_subdivided"],
  "Kalman log normalising constants: where both are finite (C27); smoothers: under the conditions of C12 and C30 for both models")
c('C83', 'proved', ["SMC.tracing_smoother_accurate", "SMC.tracing_smoother_consistent"],
  "Ideal generator; false for systematic resampling in the smoother in general, see C76.")
c('C84', 'partial', ["SMC.exact_smoother_accurate_partial", "SMC.exact_smoother_consistent_partial"],
  "Ideal generator whose splits of different sizes are independent. Missing: prefix splitting (the smoother is then biased for every fixed number of particles, see C77) and log potentials that depend on the inputs (see SMC.smoother_uses_wrong_inputs).")
c('C85', 'proved', ["SMC.mcmc_close", "SMC.mcmc_converges", "SMC.mcmc_stuck"],
  "Ideal generator. The bound needs the initial (swapped) density to be bounded by G; the limit does not.")
c('C86', 'proved', ["Kalman.filter_superposes", "Kalman.filter_uncertainty_data_free", "Kalman.smoother_superposes"],
  "No invertibility is assumed: the three results are defined together.")
c('C87', 'proved', ["SMC.nan_evidence_persists", "SMC.resampling_degenerate", "SMC.degenerate_particles_collapse", "SMC.adaptive_nan", "SMC.marginal_nan_persists"],
  "The collapse onto the first particle is listed among the findings: after it only the log normalising constant shows that something went wrong.")
c('C88', 'proved', ["Discrete.filter_forgets", "Discrete.smoother_forgets_past", "Discrete.smoother_fixed_lag", "Discrete.no_forgetting_without_mixing"],
  "Stated about pairs of whole runs; mixing is the usual two-sided bound on the transition matrix.")
c('C89', 'proved', ["Generate.kalman_filter_calibrated", "Generate.kalman_smoother_calibrated", "Discrete.discrete_filter_calibrated", "Discrete.discrete_smoother_calibrated"],
  "The simulation is that of Spec/Generate.lean (textbook simulation with independent standard normal noise).")
c('C90', 'proved', ["Kalman.kalman_filter_nan_iff", "Kalman.kalman_smoother_nan_iff", "Linearize.moments_associative_nan_iff", "Linearize.moments_step_nan_iff", "Linearize.moments_nan_persists", "Linearize.taylor_nan_persists", "Linearize.taylor_flat_transition_nan"],
  "Persistence for the moments and Taylor filters is about sequential runs. NaN stands for any non-finite value. The statements are about means: where the mean is NaN the code may still return a finite chol_cov, which the model does not distinguish.")
c('C91', 'proved', ["Kalman.kalman_smoother_least_squares", "Kalman.kalman_smoother_map"],
  "The least-squares form allows singular P0 and Q; the density form needs them nonsingular, since otherwise there is no density.")
c('C92', 'proved', ["Linearize.moments_smoother_gauss_newton", "Linearize.moments_smoothing_is_linearised"],
  "The noise covariances may depend on time but not on the state: with state-dependent noise the linearisation ignores the derivative of the covariance, and nothing is claimed.")
c('C93', 'partial', ["Utils.placeholder_shapes_partial", "Utils.placeholder_scalar_cov", "Utils.placeholder_integer_mean", "Utils.placeholder_batched", "Utils.placeholder_scalar_mean"],
  "False in dimension 1: jnp.cov squeezes its result, so the placeholder covariance is a scalar there. Callbacks that use state.chol_cov as a matrix fail only for one-dimensional models.")
c('C94', 'proved', ["Kalman.filter_forgets_mean", "Kalman.filter_forgets_covariance", "Kalman.smoother_forgets_mean"],
  "The mean statements assume equal covariances at time r, which holds whenever only means and data differ (C79). The combined effect of different covariances on the means is not stated.")
c('C95', 'proved', ["Kalman.kalman_em", "Kalman.kalman_em_monotone", "Kalman.kalman_em_gradient", "Kalman.em_term_by_quadrature", "Kalman.docs_em_recipe_fails"],
  "The recipe in docs/examples/parameter_estimation_em.md stacks the means in the order (m_t, m_{t+1}), which does not match its factor; docs_em_recipe_fails shows that an M-step on that objective can decrease the likelihood.")
c('C96', 'proved', ["Linearize.linearize_log_density_aux", "Linearize.linearize_given_chol_cov_aux", "Linearize.linearize_moments_aux", "Linearize.linearize_taylor_aux", "Linearize.linearize_log_density_aux_exact", "Linearize.linearize_moments_aux_tangent", "Linearize.linearize_taylor_aux_exact"],
  "JAX's has_aux transformations are modelled by their contract: derivative of the first output, second output passed through, TypeError on a mismatch.")
c('C97', 'partial', ["Linearize.taylor_update_information_partial", "Linearize.linearize_taylor_singular", "Linearize.taylor_step_singular", "Linearize.taylor_ridge_overconfident", "Linearize.exists_elo_model"],
  "The code violates the full claim when the Hessian is singular on the components the potential involves: its pseudo-inverse is used as noise covariance, so flat directions get zero instead of infinite noise. taylor_ridge_overconfident proves this for every run with potentials of one linear functional, exists_elo_model gives the model of the quickstart page. The partial theorem needs the Hessian to be nonsingular on the components involved. Exact arithmetic and an exact SVD are assumed.")
c('C98', 'partial', ["SMC.adaptive_smoother_ignores_final_weights", "SMC.adaptive_smoother_biased", "SMC.adaptive_smoother_below_threshold_partial"],
  "The property is false of the code above the threshold (two theorems); proved below it. For resampling functions that are not adaptive see C55, C71, C77, C83, C84.")
c('C99', 'partial', ["Linearize.taylor_quadratic_exact_partial", "Linearize.tilt_quadratic", "Linearize.taylor_convex_overconfident", "Linearize.taylor_linear_ignored", "Linearize.taylor_update_abs", "Linearize.linearize_taylor_abs", "Linearize.exists_quadratic_model"],
  "The property is false of the code for convex and for linear log potentials (two theorems, against the exact law of tilt_quadratic); proved for strictly concave ones.")
c('C100', 'partial', ["Linearize.taylor_potential_constant_partial", "Linearize.taylor_potential_evidence", "Linearize.taylor_density_potential_disagree", "Linearize.processPotential_shift", "Linearize.exists_density_potential_models"],
  "The property is false of the code; proved are the exact difference, that the filtering laws are exact, and that the two ways of giving a likelihood report different constants.")
c('C101', 'proved', ["Discrete.discrete_pair_law", "Discrete.discrete_em", "Discrete.baum_welch_monotone", "Discrete.discrete_fisher", "Spec.HMM.BaumWelchUpdate.maximises", "Discrete.exists_baum_welch"],
  "")
c('C102', 'proved', ["Linearize.linearize_log_density_additive", "Linearize.taylor_filter_is_moments", "Linearize.taylor_smoother_is_moments", "Linearize.exists_same_model"],
  "The log likelihoods of the associative filters are compared where they are not NaN.")
c('C103', 'partial', ["Linearize.taylor_smoother_ascent_partial", "Linearize.taylor_smoother_stoch_vol", "Linearize.exists_stoch_vol_fixed_point", "Linearize.volLogLik_curvature"],
  "Proved for log potentials with nonsingular second derivatives, concave or not, and for conditional log densities with additive Gaussian noise. False for conditional log densities with noise that depends on the state: for stochastic volatility the iteration stops only where the exact log posterior has a known nonzero slope.")
c('C104', 'proved', ["Kalman.filter_side_by_side", "Kalman.smoother_side_by_side", "Kalman.exists_side_by_side", "Discrete.filter_side_by_side", "Discrete.smoother_side_by_side", "Discrete.exists_side_by_side"],
  "Kalman log normalising constants: where all three are finite (C27); smoothers: under the conditions of C12 and C30 on the parts only.")
c('C105', 'proved', ["Generate.kalman_innovations", "Generate.exists_innovation_roots"],
  "The simulation is the `simulate` of C73.")
c('C106', 'proved', ["Kalman.kalman_filter_smooth", "Kalman.kalman_smoother_smooth", "Kalman.kalman_score", "Kalman.shiftModel_smooth", "Discrete.discrete_filter_smooth", "Discrete.discrete_smoother_smooth", "Discrete.twoState_smooth"],
  "About the functions that the runs compute in exact arithmetic. What automatic differentiation of the QR decompositions returns is not modelled; the factors themselves depend on the choice of square root, their Gram matrices do not.")
c('C107', 'proved', ["SMC.UnbiasedRun.log_evidence", "SMC.exists_log_evidence", "SMC.log_bias"],
  "For the runs that C53 proves unbiased, under ideal independent keys.")
c('C108', 'partial', ["SMC.marginal_filter_proposals_partial", "SMC.marginal_filter_inconsistent"],
  "Proved if the proposals ignore the previous state, log potentials are finite, resampling returns equal weights and splits of different sizes are independent (C72 covers potentials that ignore the previous state). FALSE in general: the weight of a new particle averages the potential over all old particles but is not divided by the mixture of the proposals. For a coin that never changes the expected estimate is 1/2 + 1/(2N) instead of 1 with N particles.")
c('C109', 'proved', ["Kalman.filter_padded", "Kalman.smoother_padded", "Discrete.filter_padded", "Discrete.smoother_padded"],
  "For the Kalman filter under the C01/C02 conditions on noise covariances; log normalising constants are compared when both are defined, which C01 characterises.")
c('C110', 'proved', ["Kalman.filter_steady_state", "Kalman.detectable_of_stable", "Kalman.detectable_of_leftInverse"],
  "All components observed at every step; process noise positive definite (stabilisability would do in the textbook result).")
c('C111', 'proved', ["Kalman.filter_reordered", "Kalman.smoother_static", "Discrete.filter_reordered"],
  "Kalman: invertible observation noise (and initial covariance, for the smoother); discrete: positive likelihoods.")
c('C112', 'proved', ["SMC.particle_filter_maps", "SMC.marginal_particle_filter_maps", "SMC.particle_smoother_maps", "SMC.corresponds_multinomial", "SMC.corresponds_systematic", "SMC.corresponds_killing", "SMC.Corresponds.adaptive", "SMC.corresponds_tracing", "SMC.corresponds_exact", "SMC.corresponds_mcmc"],
  "The hypotheses on resampling functions and backward samplers are proved for every one in the library (the corresponds_ theorems).")
c('C113', 'proved', ["Kalman.filter_best_linear", "Kalman.smoother_best_linear"],
  "exists_uncorrelated gives a two-point process with dependent noises that meets the hypotheses. The observation noise has full rank; for the smoother the transition noise also has.")
c('C114', 'proved', ["SMC.particle_filter_evidence_bounds", "SMC.particle_filter_weight_bounds", "SMC.marginal_filter_evidence_bounds", "Discrete.discrete_filter_evidence_bounds", "Kalman.kalman_filter_evidence_bound"],
  "The marginal particle filter is covered for resampling at every step; with adaptive resampling its evidence is wrong (C59).")
c('C115', 'proved', ["SMC.particle_marginal_mh", "SMC.systematic_particle_marginal_mh", "SMC.killing_particle_marginal_mh", "SMC.multinomial_particle_marginal_mh", "SMC.adaptive_particle_marginal_mh"],
  "The sampler is not part of the library and is specified in Spec/MetropolisHastings; scope of the generators and resampling functions as in C53.")
c('C116', 'proved', ["SMC.particle_filter_uniform", "SMC.multinomial_filter_uniform", "SMC.killing_filter_uniform", "SMC.adaptive_filter_uniform", "SMC.forgets_of_bounds"],
  "Scope of the generators and resampling functions as in C75; the model's forgetting is specified in Spec/Forgetting. forgets_of_bounds gives a sufficient condition.")
c('C117', 'proved', ["SMC.particles_proportional_to_length", "SMC.multinomial_filter_evidence_relative", "SMC.killing_filter_evidence_relative", "SMC.adaptive_filter_evidence_relative"],
  "Scope of the generators and resampling functions as in C75; the model's forgetting is specified in Spec/Forgetting.")
c('C118', 'partial', ["SMC.continuations_independent_partial", "SMC.continuation_ignores_key", "SMC.marginal_continuation_ignores_key", "SMC.forecast_same_particles", "SMC.forecasts_not_independent"],
  "Proved from the second step of the continuations on. FALSE for the first one: the step is drawn with the key of the old state and the key given to filter_prepare is only handed on, so forecasts from one state are identical copies (both heads with probability 1/2 instead of 1/4).")
c('C119', 'partial', ["Quadrature.cubature_tendsto_taylor_partial", "Quadrature.gaussHermite_tendsto_taylor_partial", "Quadrature.unscented_tendsto_taylor_partial", "Quadrature.unscented_default_not_taylor", "Quadrature.slr_small", "Quadrature.slr_small_sqrt"],
  "Proved for cubature and Gauss-Hermite. For the unscented rule gain and offset have the right limit (slr_small); the covariance does if and only if beta = alpha^2 - 1, so FALSE for the default parameters, where it tends to 3.75 times the noise covariance (the cause is that of C41). Square-root mode (slr_small_sqrt): for invertible conditional factors and non-negative weights.")
c('C120', 'proved', ["SMC.adaptive_zero_importance_sampling", "SMC.adaptive_above_one", "SMC.adaptive_above_one_run", "SMC.adaptive_above_one_same"],
  "As long as some particle is alive; the run with a threshold above one agrees with the wrapped function's up to and including the first time no particle is alive, and for all time with finite log potentials.")
c('C121', 'partial', ["SMC.gradient_without_resampling_partial", "SMC.gradient_with_resampling", "SMC.gradient_with_library_resampling", "SMC.gradient_not_score"],
  "Holds if nothing is resampled (threshold zero). FALSE with resampling: gradient_with_resampling computes the derivative for almost every key - each step's score is averaged with the weights of that step, the filtering and not the smoothing law - and in gradient_not_score its expectation is 1/2 for every number of particles although the score is 3/4. What automatic differentiation returns is not modelled; where the indices are locally constant it is this derivative.")
c('C122', 'partial', ["Resampling.multinomial_variance", "Resampling.killing_variance_le", "Resampling.systematic_copies_least_variance", "Resampling.systematic_variance_larger"],
  "Holds for killing: its mean squared error is at most that of multinomial resampling, which is exactly the weighted variance over the number of particles. For systematic resampling it holds for the number of copies of a single particle, where it is the best of all unbiased schemes, but it is FALSE for general averages: with alternating weights the mean squared error is 1/16 for any even number of particles, that of multinomial resampling at most 1/(8m) for 2m particles.")
c('C123', 'proved', ["SMC.mcmc_smoother_converges"],
  "Conditional on the filter states: the law over the smoother's key. The rate for one step is that of C85 (mcmc_close).")
c('C124', 'proved', ["SMC.tracing_paths_merge", "SMC.merge_bound_small", "SMC.systematic_killing_distinct"],
  "The rate is for the worst case of the weights; the bound for the merging of lineages is lineages_merge.")
c('C125', 'partial', ["SMC.mcmc_smoother_unbiased_partial", "SMC.invariant_smoother_unbiased", "SMC.invariantSampler_mcmc", "SMC.invariantSampler_exact", "SMC.invariantSampler_tracing"],
  "Missing: asymmetric log potentials, for which MCMC sampling does not leave the backward distributions invariant (mcmc_not_invariant, C57); prefix splitting (exact_smoother_biased, C77); log potentials that depend on the inputs (smoother_uses_wrong_inputs, C58).")
c('C126', 'proved', ["SMC.particle_gibbs_tracing", "SMC.particle_gibbs_exact", "SMC.particle_gibbs_mcmc", "SMC.gibbs_invariant", "SMC.conditionalLaw_multinomial", "SMC.conditionalLaw_killing", "SMC.conditionalLaw_systematic"],
  "The library has no conditional particle filter: the program is in Spec/ParticleGibbs.lean and calls the modelled functions. The log potentials are finite, so that no weights vanish.")
c('C127', 'partial', ["Resampling.rounded_index_accurate", "Resampling.rounded_probability", "Resampling.rounded_index_monotone", "Resampling.rounded_zero_weight_partial", "Resampling.rounded_draws_zero_weight", "Resampling.inverseCdfRounded_id"],
  "Accuracy and order hold. That weight zero is never drawn is proved for all particles but the last. For the last it is FALSE: the rounded sum can stay below one, and draws above it get the last index even if its weight is zero (probability k / 2^p with p bits and 4k+3 particles). Rounding of the weights themselves and of the draws is not modelled: the weights are given, representable and sum to one exactly.")
c('C128', 'proved', ["Discrete.discrete_filter_rounding", "Discrete.float_accurate", "Discrete.buildFilterWith_exact", "associativeScan_bracket"],
  "The exponential function must be accurate on the range of the differences of log-likelihoods; C129 treats underflow. The accuracy of exp and log is an assumption on the arithmetic (met by correctly rounded functions, float_accurate). Overflow and underflow of products and quotients are not modelled. L bounds the log evidence of all prefixes (in parallel: of all blocks), so for a fixed model it grows with the number of steps.")
c('C129', 'partial', ["Discrete.discrete_filter_underflow", "Discrete.discrete_filter_finite_partial"],
  "FALSE: condition_on_obs divides by the maximum likelihood over all states, including those that cannot be reached. If the reachable states are worse by more than the range of exp (about 104 in single precision, the JAX default, and 745 in double precision), the normalising constant underflows to zero and the result is nan. Proved for differences within the range.")
c('C130', 'proved', ["Discrete.discrete_smoother_rounding", "Discrete.discrete_filter_smoother_rounding", "Discrete.buildSmootherWith_exact"],
  "Overflow and underflow of products and quotients are not modelled; C129 shows what underflow of the exponential function does. Reachability of all states is needed: otherwise the smoother returns nan (C12's finding).")
c('C131', 'partial', ["Resampling.inverseCdfWith_probability_partial", "Resampling.inverseCdfWith_collapse", "Resampling.weightsWith_near", "Resampling.logsumexpWith_near", "Resampling.float_accurateExp", "Resampling.weightsWith_exact"],
  "FALSE for log weights that are large compared with the number 2^p of the format: logsumexp(logits) is rounded to the precision of the log weights, so exp(logits - logsumexp(logits)) does not sum to one. N equal log weights -2^k with 2^(k-p-1) > 2 (log N + 1) all get the weight one, and every draw is the first particle (single precision, a thousand particles: log weights of -5e8; with -1e6 the weights sum to one only up to a few per cent, and the surplus or deficit is the last particle's). Proved with an error term of the precision times the logarithm of the sum of the weights. Underflow does no harm: it is included in the bound. Assumes JAX's formula for logsumexp (maximum subtracted first).")
c('C132', 'proved', ["Kalman.online_rounding", "Kalman.online_rounding_mean", "Kalman.online_rounding_attained", "Kalman.online_exact", "Kalman.online_exact_exists", "Kalman.update_near", "Kalman.predict_near", "Kalman.collectMatWith_near"],
  "Only the triangularisations are inexact (in update, predict and collect_nans_chol); products and triangular solves are exact. A backward stable QR has eps of the order of the machine precision times the condition number of the row-scaled argument, so the hypothesis is about well-conditioned factors; a singular covariance must keep its kernel. The exact run is that of C21 and C22 (online_exact).")
c('C133', 'proved', ["Kalman.smooth_rounding", "Kalman.smoothSpread_le", "Kalman.smoother_near", "Kalman.smooth_exact", "Kalman.smooth_exact_exists", "Kalman.smootherUpdateWith_exact"],
  "As in C132 only the triangularisations are inexact. The bound contains the lengths of the innovations standardised by the factor of the predicted covariance, which smoothing.update does not return. The growth with T squared is an upper bound, not shown to be attained.")
c('C134', 'proved', ["Generate.kalman_model_comparison", "Discrete.discrete_model_comparison", "Discrete.exists_comparable", "Compare.ville", "Compare.gibbs", "Generate.filter_logEv", "Generate.dataLaw_densities", "Discrete.dataLaw_densities"],
  "The data are those of the textbook simulation of Spec/Generate.lean (Kalman) or have the probabilities of the hidden Markov model (discrete). The average lead is compared through its positive and negative part, so no integrability is assumed.")
c('C135', 'proved', ["Discrete.discrete_filter_mixture", "Discrete.discrete_model_probabilities", "Discrete.exists_mixture"],
  "Filter only. The smoother needs every state to be predicted with positive probability, which fails in the separate runs when classes are never left.")
c('C136', 'proved', ["Kalman.kalman_missing_limit", "Kalman.kalman_smoother_missing_limit", "Kalman.exists_filledIn", "Kalman.exists_missing"],
  "The filled-in models are fully observed. They exist for every model, all filled-in values and all added variances (exists_filledIn).")
c('C137', 'proved', ["Kalman.kalman_diffuse", "Kalman.kalman_smoother_diffuse", "Kalman.exists_withPrior", "Kalman.exists_observable"],
  "Filter: mean, covariance and log normalising constant converge. Smoother: the law converges, tested with all functions that the flat posterior integrates.")
c('C138', 'proved', ["Kalman.filter_register", "Kalman.smoother_by_register", "Kalman.register_store", "Kalman.register_lag", "Kalman.register_sum", "Kalman.exists_register", "Kalman.exists_smoother_by_register", "Discrete.filter_register", "Discrete.smoother_by_register", "Discrete.register_store", "Discrete.register_lag", "Discrete.exists_register"],
  "Kalman log normalising constants: where finite (C27); smoothers: under the conditions of C12 and C30 on the original model.")
c('C139', 'proved', ["SMC.particle_filter_rounded", "SMC.particle_filter_rounded_float", "SMC.increment_near", "SMC.float_addsNegInf", "SMC.multinomial_alwaysResamples", "SMC.systematic_alwaysResamples", "SMC.killing_alwaysResamples", "SMC.filterCombineWith_exact", "SMC.initPrepareWith_exact"],
  "The comparison is with the exact value for the particles of the same run: the effect of rounding on which particles are drawn is the subject of C131. With adaptive resampling the bound V on the log weights grows with the number of steps without resampling. Overflow is not modelled.")
c('C140', 'partial', ["Kalman.filter_keeps_constraints_partial", "Kalman.log_normalizer_nan_of_constraint", "Kalman.smoother_nan_of_constraint", "Kalman.smoothing_law_keeps", "Kalman.exists_constraint", "Discrete.filter_keeps_constraints_partial", "Discrete.smoother_nan_of_constraint", "Discrete.exists_constraint", "SMC.filter_keeps_constraints", "SMC.smoother_particles_from_filter", "SMC.smoother_keeps_constraints", "SMC.samplesFrom_all"],
  "FALSE of the code for smoothers and log normalising constants. Proved: Kalman, discrete and particle filters and all particle smoothers respect all constraints (for the Kalman filter with nonsingular noise of the observed components, for the discrete filter with positive predictive likelihoods from each state). But for every linear-Gaussian model with a nontrivial linear constraint at time t the log normalising constants of later times are NaN in both modes, and the smoother returns NaN before t in both modes; for every finite model that excludes a state the sequential smoother returns NaN.")
c('C141', 'partial', ["Kalman.filter_reproduces_noise_free", "Kalman.smoother_reproduces_noise_free", "Kalman.filter_noise_free_limit", "Kalman.log_normalizer_nan_after_noise_free", "Kalman.exists_noise_free"],
  "FALSE of the code for log normalising constants: after an observation with a noise-free combination all log normalising constants are NaN in both modes (chol_P0 lower triangular), although those for noise tending to zero converge. The rest is proved for all models.")
c('C142', 'proved', ["Kalman.filter_overstated", "Kalman.smoother_overstated", "Kalman.filter_understated", "Kalman.smoother_understated", "Kalman.exists_misspecified"],
  "For models whose stated observation noise is nonsingular; for the smoother also the stated process noise. The process noise and observation noise of the process itself may be singular when overstated.")
c('C143', 'proved', ["Discrete.filter_reversed", "Discrete.smoother_reversed", "Discrete.reverses_reversible", "Discrete.exists_reversal", "Discrete.exists_reversed", "Kalman.filter_reversed", "Kalman.smoother_reversed", "Kalman.exists_reversal", "Kalman.exists_reversed"],
  "Both models under the conditions of the exactness theorems: for discrete models positive rows and reachable states, for Kalman nonsingular noise of the observed components and nonsingular predicted covariances. That the last step is unobserved is harmless by C109: such a step can be appended.")
c('C144', 'proved', ["Kalman.filter_sameInformation", "Kalman.smoother_sameInformation", "Kalman.exists_compressed", "Kalman.exists_compressed_run", "Kalman.exists_sameInformation"],
  "Conditions of the exactness theorems: nonsingular noise of the observed components in both models; for the smoother nonsingular predicted covariances, needed for one of the two runs only.")
c('C145', 'proved', ["Linearize.moments_filter_mapped", "Linearize.exists_moments_mapped", "Linearize.moments_smoother_mapped", "Linearize.exists_moments_smoother_mapped"],
  "Non-associative filter, linearised at the mean the callbacks are given. The associative filter linearises at points chosen without the state, so the claim is about the sequential one. The smoother theorem needs T square and invertible.")

ids = [json.loads(l)["id"] for l in open(os.path.join(ROOT, "properties.jsonl"))]
out = []
for i in ids:
    out.append(C.get(i, dict(property=i, status="partial", theorems=[], note="not yet modelled")))
json.dump({"claims": out}, open(os.path.join(ROOT, "MANIFEST.json"), "w"), indent=1)
