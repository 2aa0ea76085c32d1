{"id": "C01", "title": "Offline filter equals the online recursion", "statement": "cuthbert.filter(filter_obj, inputs) with inputs of length T+1 returns T+1 states: state 0 is init_prepare(inputs[0], key_0) and state t+1 is filter_combine(state t, filter_prepare(inputs[t+1], key_{t+1})). Exactly one state per input, in order.", "quantifier": "every filter object (arbitrary init_prepare/filter_prepare/filter_combine, arbitrary state type), every non-empty input sequence of any length, every key or no key", "why_tests_cant": "Tests run a handful of lengths and models; the claim is about all lengths and all user-supplied filters.", "anchors": ["cuthbert/filtering.py:filter"]}
{"id": "C02", "title": "Parallel filter equals sequential filter", "statement": "If filter_combine is associative on the states that occur, filter(..., parallel=True) returns the same states as filter(..., parallel=False), for every input length (odd, even, power of two or not, length one).", "quantifier": "every filter object whose combine is associative on a set of states that contains the prepared ones and is closed under combine, every length", "why_tests_cant": "associative_scan brackets the combinations differently for every length; tests see a few lengths only.", "anchors": ["cuthbert/filtering.py:filter"]}
{"id": "C03", "title": "Filter is causal and can be resumed", "statement": "States 0..t of an offline filter run depend only on inputs 0..t (and their keys); running on a prefix gives the prefix of the full run, and continuing the online recursion from state t reproduces the rest.", "quantifier": "every filter object, every input sequence, every split point", "why_tests_cant": "Universally quantified over split points and suffixes.", "anchors": ["cuthbert/filtering.py:filter"]}
{"id": "C04", "title": "Smoother recursion and time alignment", "statement": "cuthbert.smoother returns T+1 states for filter states 0..T: the last is the converted final filter state; state t combines prepare(filter state t, inputs of the transition t -> t+1) with smoother state t+1.", "quantifier": "every smoother object, every T >= 1, every filter-state history", "why_tests_cant": "Off-by-one in the alignment can only be excluded for all T by proof.", "anchors": ["cuthbert/smoothing.py:smoother"]}
{"id": "C05", "title": "Smoother accepts T or T+1 model inputs and rejects other lengths", "statement": "With T+1 filter states, model_inputs of length T+1 (first ignored), of length T, and omitted (taken from the filter states) give the same result when they agree on the T transitions; any other length raises ValueError. With a single filter state (T = 0) there is no transition to take a template input from.", "quantifier": "every length of model_inputs and of filter states", "why_tests_cant": "Error branch must be characterised for all lengths.", "anchors": ["cuthbert/smoothing.py:smoother"]}
{"id": "C06", "title": "Parallel smoother equals sequential smoother", "statement": "If smoother_combine is associative on the states that occur, smoother(..., parallel=True) returns the same states as the sequential one, although the parallel one runs associative_scan reversed with swapped arguments.", "quantifier": "every smoother object with associative combine, every T >= 1", "why_tests_cant": "Different bracketing and reversal for every length.", "anchors": ["cuthbert/smoothing.py:smoother"]}
{"id": "C07", "title": "One key per step, positionally", "statement": "filter splits a given key into exactly T+1 subkeys and hands subkey t to step t, identically in parallel and sequential mode; smoother gives subkey 0 to the conversion of the final state and subkey t+1 to the preparation of step t.", "quantifier": "every T, every key, both modes", "why_tests_cant": "Quantified over all lengths and both modes.", "anchors": ["cuthbert/filtering.py:filter", "cuthbert/smoothing.py:smoother"]}
{"id": "C08", "title": "The associative flag only warns", "statement": "Filter.associative / Smoother.associative never change the returned states; parallel=True with associative=False raises a warning and nothing else does.", "quantifier": "all filter and smoother objects, inputs, modes", "why_tests_cant": "A statement about all inputs.", "anchors": ["cuthbert/filtering.py:filter", "cuthbert/smoothing.py:smoother", "cuthbert/inference.py:Filter"]}
{"id": "C09", "title": "Discrete filter computes the exact filtering law and likelihood", "statement": "For a finite-state hidden Markov model, filter with cuthbert.discrete returns at time t: dist = P(x_t = . | y_1..y_t) and exp(log_normalizing_constant) = p(y_1..y_t), both as given by the sum over all state paths. No observation is used at time 0.", "quantifier": "all numbers of states, all T, all initial distributions, stochastic transition matrices and observation log-likelihoods for which each one-step evidence is positive", "why_tests_cant": "Exactness over all models and lengths.", "anchors": ["cuthbert/discrete/filter.py", "cuthbertlib/discrete/filtering.py"]}
{"id": "C10", "title": "Discrete filtering operator is associative", "statement": "filter_combine of the discrete filter is associative on well-formed elements, so parallel and sequential discrete filters agree.", "quantifier": "all element triples whose conditioning steps have positive evidence", "why_tests_cant": "Algebraic law over all elements.", "anchors": ["cuthbertlib/discrete/filtering.py:filtering_operator", "cuthbert/discrete/filter.py:filter_combine"]}
{"id": "C11", "title": "Discrete filter: normalisation and shift invariance", "statement": "Every filtered distribution is non-negative and sums to one; adding a constant a to the observation log-likelihoods of a step leaves the distributions unchanged and adds a to the log normalising constant; the max-shift used internally is unobservable.", "quantifier": "all models, all steps, all shifts", "why_tests_cant": "Holds for all reals a and all models.", "anchors": ["cuthbertlib/discrete/filtering.py:condition_on_obs"]}
{"id": "C12", "title": "Discrete smoother computes the exact smoothing law", "statement": "smoother with cuthbert.discrete returns at time t the distribution P(x_t = . | y_1..y_T) defined by path sums, for every t <= T.", "quantifier": "all models with positive predictive probabilities, all T >= 1, all t", "why_tests_cant": "Exactness over all models and lengths.", "anchors": ["cuthbert/discrete/smoother.py", "cuthbertlib/discrete/smoothing.py"]}
{"id": "C13", "title": "Discrete smoothing operator is associative", "statement": "smoother_combine of the discrete smoother is associative, so the parallel and sequential discrete smoothers agree; reverse kernels are row-stochastic.", "quantifier": "all element triples; all T", "why_tests_cant": "Algebraic law.", "anchors": ["cuthbertlib/discrete/smoothing.py:smoothing_operator", "cuthbert/discrete/smoother.py:smoother_combine"]}
{"id": "C14", "title": "Discrete filter is well defined whenever the observations have positive probability", "statement": "If p(y_1..y_T) > 0 the discrete filter returns finite distributions and a finite log likelihood; in particular zero-probability transitions, -inf log-likelihoods and unreachable states cause no NaN.", "quantifier": "all models and observation sequences with positive evidence, including -inf log-likelihood entries and zero transition probabilities", "why_tests_cant": "Zero-measure corner cases never met by random tests.", "anchors": ["cuthbertlib/discrete/filtering.py:condition_on_obs", "cuthbert/discrete/filter.py:filter_prepare"]}
{"id": "C15", "title": "tria returns a lower-triangular square root", "statement": "tria(A) is lower triangular (trapezoidal) and tria(A) tria(A)^T = A A^T for every matrix A, also rank deficient.", "quantifier": "all shapes with rows <= columns, all real matrices, every QR factorisation meeting its contract", "why_tests_cant": "All matrices incl. singular.", "anchors": ["cuthbertlib/linalg/tria.py:tria"]}
{"id": "C16", "title": "Marginal square roots", "statement": "marginal_sqrt_cov(L, start, end) is a square root of the block [start:end, start:end] of L L^T for valid indices, rejects invalid ones; block_marginal_sqrt_cov returns such a root for each block.", "quantifier": "all sizes, all index ranges", "why_tests_cant": "All index ranges.", "anchors": ["cuthbertlib/linalg/marginal_sqrt_cov.py"]}
{"id": "C17", "title": "collect_nans_chol removes flagged dimensions", "statement": "After collect_nans_chol(flag, chol, *rest) the unflagged dimensions come first in original order, their covariance is the marginal covariance of the unflagged dimensions, flagged dimensions have unit-density variance 1/(2 pi) and are uncorrelated, and flagged rows of the rest are zero. Bad ranks raise ValueError.", "quantifier": "all dimensions, all flag patterns, all factors (dense and diagonal)", "why_tests_cant": "2^n flag patterns for every n.", "anchors": ["cuthbertlib/linalg/collect_nans_chol.py:collect_nans_chol"]}
{"id": "C18", "title": "symmetric_inv_sqrt is a lower-triangular inverse square root", "statement": "For a positive definite A the result L is lower triangular with L L^T = A^{-1}; in general L L^T is the pseudo-inverse with singular values at or below rtol*max cut off; dimensions declared missing (NaN diagonal with ignore_nan_dims, or all-zero row and column) come back NaN and do not influence the others.", "quantifier": "all symmetric PSD matrices, all missing patterns, every SVD meeting its contract", "why_tests_cant": "All matrices and patterns.", "anchors": ["cuthbertlib/linalg/symmetric_inv_sqrt.py"]}
{"id": "C19", "title": "chol_cov_with_nans_to_cov", "statement": "The covariance of a factor with missing (NaN diagonal) dimensions equals L L^T on the non-missing dimensions, and for missing dimensions is NaN on the diagonal and zero off the diagonal.", "quantifier": "all sizes and missing patterns", "why_tests_cant": "All patterns.", "anchors": ["cuthbertlib/linalg/symmetric_inv_sqrt.py:chol_cov_with_nans_to_cov"]}
{"id": "C20", "title": "logpdf is the Gaussian log density", "statement": "multivariate_normal.logpdf(x, m, L) = -1/2 (x-m)^T (L L^T)^{-1} (x-m) - n/2 log 2pi - 1/2 log det(L L^T) for every nonsingular lower-triangular L (any sign of the diagonal), consistently between the (positive) scalar, diagonal and matrix branches, and exp of it is the Lebesgue density of the Gaussian law; with nan_support a NaN coordinate of a vector contributes as if marginalised out; without nan_support a shape mismatch raises ValueError.", "quantifier": "all dimensions, all points, all factors, all missing patterns", "why_tests_cant": "Scalar / diagonal / NaN corner cases.", "anchors": ["cuthbertlib/stats/multivariate_normal.py:logpdf"]}
{"id": "C21", "title": "Kalman predict is exact", "statement": "predict returns the moments of the law of F x + c + q with x ~ N(m, P), q ~ N(0, Q): as measures, pushing N(m,P) through the transition kernel gives N(returned mean, returned chol chol^T), also for singular P, Q.", "quantifier": "all dimensions and parameters", "why_tests_cant": "All real parameters incl. singular covariances.", "anchors": ["cuthbertlib/kalman/filtering.py:predict"]}
{"id": "C22", "title": "Kalman update is Bayes' rule with exact evidence", "statement": "update returns the posterior: N(m,P)(dx) N(y; Hx+d, R) = exp(ell) N(my, Py)(dx) as measures whenever the innovation covariance is nonsingular, also for singular P or R.", "quantifier": "all dimensions, parameters, observations", "why_tests_cant": "All real parameters.", "anchors": ["cuthbertlib/kalman/filtering.py:update"]}
{"id": "C23", "title": "Missing observation components", "statement": "update with NaN components equals update with those rows deleted from y, H, d, R; with every component missing the mean and covariance are unchanged and the log-likelihood increment is 0.", "quantifier": "all missing patterns, all dimensions", "why_tests_cant": "2^ny patterns for every ny.", "anchors": ["cuthbertlib/kalman/filtering.py:update", "cuthbertlib/linalg/collect_nans_chol.py"]}
{"id": "C24", "title": "Online Kalman step = predict then update", "statement": "filter_combine(state, filter_prepare(inputs)) has the mean and covariance of update(predict(state)), and, when the state's factor is lower triangular with nonzero diagonal, its accumulated log normalising constant too.", "quantifier": "all states produced by a filter run, all model parameters with H Q H^T + R nonsingular on the observed components, all missing patterns", "why_tests_cant": "All parameters; two unrelated code paths.", "anchors": ["cuthbert/gaussian/kalman.py:filter_combine", "cuthbertlib/kalman/filtering.py:filtering_operator", "cuthbertlib/kalman/filtering.py:associative_params_single"]}
{"id": "C25", "title": "Kalman filtering operator is associative", "statement": "filtering_operator is associative up to the choice of square root: A, b, eta, U U^T, Z Z^T agree for all triples, ell agrees when the factors U of the two left elements are nonsingular. Hence the parallel filter returns the means and covariances of the sequential one for every model, and also its log-likelihoods when P0, Q and R are nonsingular.", "quantifier": "all triples of elements; all lengths, all models", "why_tests_cant": "Algebraic law, all lengths.", "anchors": ["cuthbertlib/kalman/filtering.py:filtering_operator"]}
{"id": "C26", "title": "Kalman filter is exact for linear-Gaussian models", "statement": "For every linear-Gaussian state-space model with nonsingular noise on the observed components (P0, Q, F arbitrary), filter with gaussian.kalman, sequential or parallel, returns at time t the mean and covariance of p(x_t | y_1..y_t); its log normalising constant is NaN or exactly log p(y_1..y_t), and is not NaN when P0 is nonsingular and every Q (sequentially: every F or Q) is.", "quantifier": "all models, T, observation sequences and missing patterns", "why_tests_cant": "All models and lengths.", "anchors": ["cuthbert/gaussian/kalman.py", "cuthbertlib/kalman/filtering.py"]}
{"id": "C27", "title": "Parallel and sequential Kalman log-likelihood agree also for degenerate noise", "statement": "The log normalising constants of the parallel and sequential Kalman filter agree and are finite whenever the evidence is finite, including singular process noise Q or a singular initial covariance.", "quantifier": "all models, including rank-deficient Q and P0", "why_tests_cant": "Degenerate covariances are rarely tested.", "anchors": ["cuthbertlib/kalman/filtering.py:filtering_operator"]}
{"id": "C28", "title": "RTS smoothing step is exact and equals the scan element", "statement": "kalman.smoothing.update returns the moments of the smoothed law: mixing the conditional law of x_t given x_{t+1} over N(ms, Ps); associative_params_single + smoothing_operator give the same moments.", "quantifier": "all parameters with nonsingular predictive covariance", "why_tests_cant": "All parameters; two code paths.", "anchors": ["cuthbertlib/kalman/smoothing.py"]}
{"id": "C29", "title": "Kalman smoothing operator is associative", "statement": "smoothing_operator is associative (g, E and D D^T agree), so the parallel smoother returns the moments of the sequential one.", "quantifier": "all triples, all lengths", "why_tests_cant": "Algebraic law, all lengths.", "anchors": ["cuthbertlib/kalman/smoothing.py:smoothing_operator"]}
{"id": "C30", "title": "Kalman smoother is exact", "statement": "smoother with gaussian.kalman returns at t the mean and covariance of p(x_t | y_1..y_T).", "quantifier": "all linear-Gaussian models with nonsingular predictive covariances, all T, all t", "why_tests_cant": "All models and lengths.", "anchors": ["cuthbert/gaussian/kalman.py:smoother_combine"]}
{"id": "C31", "title": "Stored gain and conditional factor give the two-step joint", "statement": "With store_gain and store_chol_cov_given_next the covariance of (x_{t+1}, x_t) given all data is L L^T with L = [[L_{t+1},0],[G L_{t+1}, V]] as the README says: the cross-covariance is G P_{t+1}; the stored values are those of the single step t even after combination.", "quantifier": "all models, all t", "why_tests_cant": "All models.", "anchors": ["cuthbert/gaussian/kalman.py:smoother_prepare", "cuthbert/gaussian/README.md"]}
{"id": "C32", "title": "Results do not depend on the choice of square root", "statement": "Means, covariances and log-likelihoods returned by predict, update, operators and smoothers depend on the covariance inputs only through L L^T (where the documentation asks for a generalised Cholesky factor).", "quantifier": "all factors of the same covariance, every QR sign convention", "why_tests_cant": "All factors; platform-dependent QR signs.", "anchors": ["cuthbertlib/kalman/filtering.py", "cuthbertlib/kalman/smoothing.py"]}
{"id": "C33", "title": "Backward trajectory sampler", "statement": "kalman.sampling draws: the sampling operator is associative, and each sample path satisfies x_T ~ N(m_T, P_T), x_t = E_t x_{t+1} + g_t + D_t eps_t with independent standard normal eps_t, hence has the smoothing law.", "quantifier": "all T, all parameters, all noise draws", "why_tests_cant": "All noise draws and lengths.", "anchors": ["cuthbertlib/kalman/sampling.py"]}
{"id": "C34", "title": "linearize_log_density is exact on conditionally linear Gaussian densities", "statement": "For log p(y|x) = log N(y; Hx+d, R) with R positive definite the result (H, d, L) is exact: recovers H and d and L L^T = R, for every linearisation point; for a general density the returned Gaussian matches gradient and Hessian in y at the point.", "quantifier": "all H, d, R, all linearisation points", "why_tests_cant": "All points.", "anchors": ["cuthbertlib/linearize/log_density.py"]}
{"id": "C35", "title": "linearize_moments is exact on affine models and tangent in general", "statement": "For mean_fn affine the result is exact; in general the returned affine map agrees with mean_fn to first order at the point and the factor is chol_cov_fn at the point.", "quantifier": "all differentiable models, all points", "why_tests_cant": "All points.", "anchors": ["cuthbertlib/linearize/moments.py"]}
{"id": "C36", "title": "linearize_taylor is exact on Gaussian potentials", "statement": "For log G(x) = -1/2 (x-m)^T P^{-1} (x-m) + const the result is (m, L) with L L^T = P for every linearisation point.", "quantifier": "all Gaussian potentials, all points", "why_tests_cant": "All points.", "anchors": ["cuthbertlib/linearize/taylor.py"]}
{"id": "C37", "title": "Moments filter reduces to the Kalman filter", "statement": "On linear-Gaussian models the moments filter (associative or not) returns the Kalman filter's means, covariances and log-likelihoods whatever linearisation points are used.", "quantifier": "all linear-Gaussian models, all linearisation-point choices, all T", "why_tests_cant": "All models and points.", "anchors": ["cuthbert/gaussian/moments"]}
{"id": "C38", "title": "Taylor filter reduces to the Kalman filter", "statement": "On linear-Gaussian log densities with positive definite noise the Taylor filter returns the Kalman filter's means and covariances; a Gaussian log-potential acts as multiplication by that potential (sign trick).", "quantifier": "all linear-Gaussian models, all linearisation-point choices, all T", "why_tests_cant": "All models and points.", "anchors": ["cuthbert/gaussian/taylor"]}
{"id": "C39", "title": "Associative and non-associative linearised filters agree when the state is ignored", "statement": "If the linearisation callbacks ignore their state argument, the associative (prepare-time) and non-associative (combine-time) variants of the moments filter give the same means, covariances and likelihoods.", "quantifier": "all models and T with state-independent linearisation points", "why_tests_cant": "Two code paths for all models.", "anchors": ["cuthbert/gaussian/moments/associative_filter.py", "cuthbert/gaussian/moments/non_associative_filter.py"]}
{"id": "C40", "title": "Sigma points reproduce mean and covariance", "statement": "Cubature, unscented and Gauss-Hermite (order >= 2) sigma points of (m, L) have weighted mean m and weighted covariance L L^T, weights summing to one.", "quantifier": "all dimensions, all m, L, all admissible tuning parameters", "why_tests_cant": "All dimensions and parameters.", "anchors": ["cuthbertlib/quadrature/cubature.py", "cuthbertlib/quadrature/unscented.py", "cuthbertlib/quadrature/gauss_hermite.py", "cuthbertlib/quadrature/common.py"]}
{"id": "C41", "title": "Statistical linear regression is exact on affine models", "statement": "quadrature.linearize.conditional_moments and functional return F, c and residual covariance exactly when the conditional mean is affine and the conditional covariance constant.", "quantifier": "all affine models, all m, L, all rules with C40", "why_tests_cant": "All models.", "anchors": ["cuthbertlib/quadrature/linearize.py"]}
{"id": "C42", "title": "Cubature is the unscented rule with lambda = 0", "statement": "unscented weights(n, alpha=1, beta=0, kappa=0) give the same mean/covariance for every integrand as the cubature rule.", "quantifier": "all n, all integrands", "why_tests_cant": "All integrands.", "anchors": ["cuthbertlib/quadrature/unscented.py", "cuthbertlib/quadrature/cubature.py"]}
{"id": "C43", "title": "Rank-one Cholesky updates", "statement": "cholesky_update_many(L, V, s) returns a lower-triangular L' with L' L'^T = L L^T + s * sum_i v_i v_i^T whenever that is positive definite at every stage.", "quantifier": "all sizes, all vectors, up- and down-dates", "why_tests_cant": "All sizes.", "anchors": ["cuthbertlib/quadrature/utils.py"]}
{"id": "C44", "title": "sqrt mode and covariance mode agree", "statement": "In square-root mode the quadrature covariance is represented by a factor whose product is the covariance computed in covariance mode.", "quantifier": "all rules with non-negative covariance weights, all integrands", "why_tests_cant": "Two code paths.", "anchors": ["cuthbertlib/quadrature/common.py", "cuthbertlib/quadrature/linearize.py"]}
{"id": "C45", "title": "inverse_cdf is the generalised inverse", "statement": "For sorted uniforms and normalised weights inverse_cdf returns, per uniform u, the smallest index whose cumulative weight reaches u, always in range and monotone in u; the CPU (numba) and default implementations return the same indices.", "quantifier": "all weight vectors, all sorted uniforms, all N and M", "why_tests_cant": "All inputs; two backends of which CI runs one.", "anchors": ["cuthbertlib/resampling/utils.py"]}
{"id": "C46", "title": "Systematic resampling counts are within one of N w_i", "statement": "Under systematic resampling every index i is returned floor(n w_i) or ceil(n w_i) times, whatever the uniform draw.", "quantifier": "all weights, all n, all u in (0,1)", "why_tests_cant": "All draws.", "anchors": ["cuthbertlib/resampling/systematic.py:resampling"]}
{"id": "C47", "title": "Resampling is unbiased", "statement": "Expected offspring count of index i is n w_i for multinomial, systematic and killing resampling, and the returned logits are uniform (all equal), so that the resampled population with equal weights is an unbiased replacement of the weighted one.", "quantifier": "all weights, n, i", "why_tests_cant": "Expectation over all draws.", "anchors": ["cuthbertlib/resampling/multinomial.py", "cuthbertlib/resampling/systematic.py", "cuthbertlib/resampling/killing.py"]}
{"id": "C48", "title": "Zero-weight particles never survive resampling", "statement": "An index with weight zero is never returned (for uniforms > 0).", "quantifier": "all weights, all draws in (0,1)", "why_tests_cant": "All draws.", "anchors": ["cuthbertlib/resampling"]}
{"id": "C49", "title": "Conditional resampling keeps the pivot", "statement": "conditional_resampling with (pivot_in, pivot_out) returns indices with index[pivot_in] = pivot_out for multinomial, systematic and killing schemes and all draws.", "quantifier": "all weights, all n, all pivots, all draws", "why_tests_cant": "All draws and pivots.", "anchors": ["cuthbertlib/resampling"]}
{"id": "C50", "title": "Conditional resampling has the right conditional law", "statement": "Conditional resampling samples from the conditional law P(indices | index[pivot_in] = pivot_out) of the unconditional scheme (for killing and systematic: of the scheme followed by a uniformly random cyclic shift): drawing the parent of slot pivot_in from the weights and then resampling conditionally gives back the unconditional joint law.", "quantifier": "all weights, n, pivots", "why_tests_cant": "A statement about laws.", "anchors": ["cuthbertlib/resampling/multinomial.py", "cuthbertlib/resampling/killing.py", "cuthbertlib/resampling/systematic.py"]}
{"id": "C51", "title": "Resampled positions, indices and logits are consistent", "statement": "Every resampler returns n indices, positions equal to positions[indices] and n equal logits; killing and adaptive resampling with n different from the number of particles raise instead of returning.", "quantifier": "all weights, particle trees, n", "why_tests_cant": "All inputs.", "anchors": ["cuthbertlib/resampling"]}
{"id": "C52", "title": "Effective sample size and adaptive resampling", "statement": "exp(log_ess) = (sum w)^2 / sum w^2, lies in [1, N], is invariant to adding a constant to log weights; adaptive_resampling resamples iff ESS < threshold*N and otherwise returns indices 0..N-1 and the inputs unchanged.", "quantifier": "all weight vectors, thresholds", "why_tests_cant": "All inputs.", "anchors": ["cuthbertlib/smc/ess.py", "cuthbertlib/resampling/adaptive.py"]}
{"id": "C53", "title": "Particle-filter evidence is unbiased", "statement": "The expectation over all randomness of exp(log_normalizing_constant) times the weighted average of f equals the unnormalised Feynman-Kac expectation gamma_T(f) for every number of particles.", "quantifier": "all Feynman-Kac models, N >= 1, T, test functions", "why_tests_cant": "Expectation over all randomness.", "anchors": ["cuthbert/smc/particle_filter.py"]}
{"id": "C54", "title": "Particle-filter genealogy", "statement": "Stored ancestor indices are in range and particle i at time t was proposed from particle ancestor_indices[i] at t-1; its weight is the resampled weight times the potential evaluated at (parent, child).", "quantifier": "all runs", "why_tests_cant": "All runs.", "anchors": ["cuthbert/smc/particle_filter.py:filter_combine"]}
{"id": "C55", "title": "Tracing smoother returns genealogical paths", "statement": "The tracing backward sampler returns only pairs/paths that exist in the particle genealogy, ending at the resampled terminal particle.", "quantifier": "all histories, T, N", "why_tests_cant": "All histories.", "anchors": ["cuthbertlib/smc/smoothing/tracing.py", "cuthbert/smc/backward_sampler.py"]}
{"id": "C56", "title": "Exact backward sampling weights", "statement": "Exact backward simulation draws the ancestor j of x_{t+1} with probability proportional to w_t^j exp(log_potential(x_t^j, x_{t+1})).", "quantifier": "all particle systems and potentials", "why_tests_cant": "All inputs.", "anchors": ["cuthbertlib/smc/smoothing/exact_sampling.py"]}
{"id": "C57", "title": "MCMC backward smoother targets the exact backward law", "statement": "Each independent-Metropolis step of the MCMC backward sampler leaves the exact backward distribution invariant.", "quantifier": "all particle systems, potentials, number of steps", "why_tests_cant": "Invariance of a kernel.", "anchors": ["cuthbertlib/smc/smoothing/mcmc.py"]}
{"id": "C58", "title": "SMC smoother uses the inputs of the right transition", "statement": "When combining smoother state t with t+1 the potential is evaluated with the model inputs of the transition t -> t+1.", "quantifier": "all T, all time-varying inputs", "why_tests_cant": "All histories; tests use constant inputs.", "anchors": ["cuthbert/smc/backward_sampler.py:smoother_combine"]}
{"id": "C59", "title": "Marginal particle filter evidence", "statement": "The marginal particle filter's log normalising constant increment is the log of the average of mixture-weighted potentials relative to the normalised previous weights, with or without adaptive resampling.", "quantifier": "all runs, all resampling decisions", "why_tests_cant": "Depends on run-time resampling decisions.", "anchors": ["cuthbert/smc/marginal_particle_filter.py"]}
{"id": "C60", "title": "No PRNG key is consumed twice", "statement": "In a particle-filter run every PRNG key is consumed by at most one random operation.", "quantifier": "all T, all particle numbers", "why_tests_cant": "All lengths.", "anchors": ["cuthbert/smc/particle_filter.py", "cuthbert/filtering.py"]}
{"id": "C61", "title": "dummy_tree_like preserves structure", "statement": "dummy_tree_like preserves tree structure, shapes and dtypes, fills integer leaves with the minimum integer, float leaves with the minimum float, booleans with False, and rejects other dtypes with ValueError.", "quantifier": "all trees", "why_tests_cant": "All trees.", "anchors": ["cuthbert/utils.py"]}
{"id": "C62", "title": "Particle filter is invariant to scaling the potential", "statement": "Adding a constant a to every log potential of one step changes no particle, ancestor or normalised weight and adds a to the log normalising constant.", "quantifier": "all runs, all a", "why_tests_cant": "All runs.", "anchors": ["cuthbert/smc/particle_filter.py"]}
{"id": "C63", "title": "generate_lgssm simulates a well-posed linear-Gaussian model", "statement": "generate_lgssm returns T parameter sets with the requested shapes and observations that are a simulation, with fresh independent standard normal noise, of the state-space model with exactly the returned parameters; the parameters are independent of the noise. Generated Cholesky factors are lower triangular and, with probability one, have non-zero diagonals, so the Kalman filter on a generated model is exact and its log normalising constant is finite at every time.", "quantifier": "all dimensions nx, ny, all T, all keys (almost all for the non-degeneracy)", "why_tests_cant": "All draws.", "anchors": ["cuthbertlib/kalman/generate.py"]}
{"id": "C64", "title": "logpdf rejects inconsistent shapes and marginalises scalar NaNs", "statement": "With the default nan_support=True, logpdf raises ValueError whenever the factor is not n x n, and a NaN scalar x gives log density 0 like a fully missing vector does.", "quantifier": "all sizes n, k and all x, including scalars", "why_tests_cant": "Tests exercise one or two mismatching shapes; sizes that broadcast (one of them 1) slip through silently, and the scalar branch is separate code.", "anchors": ["cuthbertlib/stats/multivariate_normal.py:logpdf", "cuthbertlib/linalg/collect_nans_chol.py:collect_nans_chol"]}
{"id": "C65", "title": "Linearised smoothers are exact on linear-Gaussian models", "statement": "On a linear-Gaussian model, whatever linearisation points the callbacks choose, the moments and Taylor smoothers, run on their own filters' states, return the same smoothing means, covariances and gains as the Kalman smoother, sequentially or in parallel, so that each smoothed state is the exact marginal law of the state given all observations.", "quantifier": "all linear-Gaussian models, all lengths, all linearisation points, both filter variants, both smoother modes", "why_tests_cant": "Tests compare a few random models at one choice of linearisation point.", "anchors": ["cuthbert/gaussian/moments/smoother.py", "cuthbert/gaussian/taylor/smoother.py"]}
{"id": "C66", "title": "The Taylor smoother honours skipped predictions", "statement": "When get_dynamics_log_density returns NaN linearisation points, which the Taylor filter takes as a request to skip the prediction, the Taylor smoother built from the same callback treats the same step as an identity transition and returns finite smoothed states.", "quantifier": "all models with a skipped prediction", "why_tests_cant": "The filter tests do not run the smoother on a skipped step.", "anchors": ["cuthbert/gaussian/taylor/smoother.py:smoother_prepare", "cuthbert/gaussian/taylor/non_associative_filter.py:filter_combine"]}
{"id": "C67", "title": "One step of a linearised filter is an extended Kalman step", "statement": "For arbitrary (non-linear) models, one step of the non-associative moments or Taylor filter linearises the dynamics at the point chosen for the previous state and the observation at the point chosen for the predicted state (whose mean, covariance, log normalising constant, model inputs and previous mean are those of the prediction), and returns the exact posterior and likelihood increment of the linearised model.", "quantifier": "all conditional moments functions / log densities / potentials, all states, all missing patterns with nonsingular observed noise", "why_tests_cant": "On linear models every linearisation point gives the same answer, and for non-linear models there is no reference to compare with.", "anchors": ["cuthbert/gaussian/moments/non_associative_filter.py", "cuthbert/gaussian/taylor/non_associative_filter.py"]}
{"id": "C68", "title": "Degree of exactness of the quadrature rules", "statement": "The weighted mean of a polynomial over the sigma points of (0, I) equals its expectation under the standard normal law: up to total degree 3 for cubature and unscented, up to total degree 2*order-1 for Gauss-Hermite.", "quantifier": "all dimensions, all orders, all admissible tuning parameters, all polynomials", "why_tests_cant": "All polynomials in any number of variables.", "anchors": ["cuthbertlib/quadrature/cubature.py", "cuthbertlib/quadrature/unscented.py", "cuthbertlib/quadrature/gauss_hermite.py"]}
{"id": "C69", "title": "Statistical linear regression satisfies the normal equations", "statement": "For every conditional mean and covariance the affine function returned by quadrature.linearize.conditional_moments has residuals that average to zero and are uncorrelated with the input over the sigma points; the returned covariance is the weighted covariance of the residuals plus the average conditional covariance, hence positive semidefinite (definite with definite noise); with equal mean and covariance weights no other affine function has a smaller residual covariance.", "quantifier": "all conditional means and covariances, all m, P, all rules with C40", "why_tests_cant": "All functions.", "anchors": ["cuthbertlib/quadrature/linearize.py"]}
{"id": "C70", "title": "mean_prev of a filtering state is the previous filtering mean", "statement": "In the states returned by the moments and Taylor filters, mean_prev of state t is the filtering mean of state t-1, in sequential and in parallel mode.", "quantifier": "all models, all lengths, both modes", "why_tests_cant": "All lengths; the parallel scan tree depends on the length.", "anchors": ["cuthbert/gaussian/types.py", "cuthbert/gaussian/moments/associative_filter.py", "cuthbert/gaussian/taylor/associative_filter.py", "cuthbertlib/kalman/filtering.py"]}
{"id": "C71", "title": "Path averages from the tracing smoother are unbiased", "statement": "Running the particle filter and then the tracing smoother with an independent key: the evidence estimate times the average of any function of the returned smoothed paths has expectation equal to the unnormalised Feynman-Kac expectation of that function over whole trajectories.", "quantifier": "all models, functions of whole trajectories, particle numbers N, smoother particle numbers n, T", "why_tests_cant": "A statement about an expectation over all random keys and about all functions of the path; a test sees finitely many draws and cannot tell a small bias from noise.", "anchors": ["cuthbert/smc/backward_sampler.py", "cuthbert/smc/particle_filter.py", "cuthbertlib/smc/smoothing/tracing.py"]}
{"id": "C72", "title": "The marginal particle filter's evidence is unbiased", "statement": "The expectation over all keys of exp(log normalising constant) reported by the marginal particle filter equals the Feynman-Kac normalising constant of the model.", "quantifier": "all models, particle numbers, resampling schemes, T", "why_tests_cant": "A statement about an expectation over all random keys; a test sees finitely many draws and cannot tell a small bias from noise.", "anchors": ["cuthbert/smc/marginal_particle_filter.py"]}
{"id": "C73", "title": "Kalman filter, smoother and log normalising constant are the conditional laws and the density of simulated data", "statement": "If a state path and observations are simulated from a linear-Gaussian model, the filter's last mean and factor on the simulated observations give the conditional law of the final state given the observations, the smoother's give the conditional law of every state given all observations, and exp(log normalising constant) is the joint density of the observations.", "quantifier": "all linear-Gaussian models with nonsingular noises, all dimensions, all T, sequential and parallel modes, all measurable test functions", "why_tests_cant": "A statement about the law of random data; tests compare finitely many simulated data sets with another implementation.", "anchors": ["cuthbert/gaussian/kalman.py", "cuthbert/filtering.py", "cuthbert/smoothing.py", "cuthbertlib/kalman/generate.py"]}
{"id": "C74", "title": "Parallel mode of non-associative filters: warned, and what it computes", "statement": "Requesting parallel mode warns exactly for the particle filters, the particle smoother and the moments/Taylor filters built with associative=False. For these filters the parallel state at time t is what the online filter produces after only some of the steps 1..t (at most 2 log2(t+1) of them, fewer than t from t = 3 on, always including step t); with at most three inputs both modes agree.", "quantifier": "all models, inputs, keys, T, t, resamplers that do not raise", "why_tests_cant": "Quantified over all lengths; the two modes agree for the short inputs a test would try first.", "anchors": ["cuthbert/filtering.py:filter", "cuthbert/smc/particle_filter.py", "cuthbert/smc/marginal_particle_filter.py", "cuthbert/gaussian/moments/non_associative_filter.py", "cuthbert/gaussian/taylor/non_associative_filter.py"]}
{"id": "C75", "title": "The particle filter converges as the number of particles grows", "statement": "For bounded potentials, the mean squared errors of exp(log_normalizing_constant) against the evidence and of weighted averages of any bounded function of the ancestral path against its posterior expectation are, at every time, at most explicit constants over the number of particles, with multinomial, killing or adaptive (threshold > 0) resampling and even though the first key is split twice; so both converge in probability.", "quantifier": "all models with bounded potentials, inputs, T, t, particle counts, bounded measurable functions, both ways of splitting keys", "why_tests_cant": "A test runs a few seeds at a few particle counts; a rate in the number of particles, uniformly over models and functions, is a statement about laws.", "anchors": ["cuthbert/smc/particle_filter.py:build_filter", "cuthbert/filtering.py:filter", "cuthbertlib/resampling/multinomial.py:resampling", "cuthbertlib/resampling/killing.py:resampling", "cuthbertlib/resampling/adaptive.py:ess_decorator"]}
{"id": "C76", "title": "Resampling changes weighted averages by little", "statement": "For any logits and positions and any function bounded by c, the mean squared difference between the weighted average after and before resampling is at most 4c^2 over the number of output particles. (True of multinomial and killing and of their adaptive versions; false of systematic resampling, whose average can change by 1/4 almost surely for every even number of particles.)", "quantifier": "all logits, positions, bounded functions, particle counts", "why_tests_cant": "Rate in the number of particles, for all weights; the weights for which systematic resampling fails form a pattern random tests do not hit.", "anchors": ["cuthbertlib/resampling/multinomial.py:resampling", "cuthbertlib/resampling/killing.py:resampling", "cuthbertlib/resampling/systematic.py:resampling", "cuthbertlib/resampling/adaptive.py:ess_decorator"]}
{"id": "C77", "title": "Exact backward sampling gives unbiased estimates of path expectations", "statement": "Run the particle filter, then the smoother with exact backward sampling with an independent key. If exp(log_potential) of the smoother is the density of the filter's weighted transitions up to a factor in the later state, then exp(log_normalizing_constant) times the average of any function of the smoothed paths has as mean the unnormalised expectation of that function under the model, for any numbers of filter and smoother particles and each resampling function. (False of the code with JAX's default key splitting: two smoothed fair coins agree with probability 5/8 instead of 1/2.)", "quantifier": "all models, functions of paths, T, particle counts, resampling functions, ideal generators", "why_tests_cant": "A statement about laws over all models and particle counts; the bias comes from keys shared between initialisation and first propagation, invisible in a run.", "anchors": ["cuthbert/smc/backward_sampler.py:build_smoother", "cuthbertlib/smc/smoothing/exact_sampling.py:simulate", "cuthbert/smc/particle_filter.py:build_filter", "cuthbert/filtering.py:filter"]}
{"id": "C78", "title": "The particle filter agrees with the discrete filter and the Kalman filter", "statement": "Give the particle filter callbacks that simulate and weight by a hidden Markov model or a linear-Gaussian model, and the discrete or the Kalman filter the parameters of the same model. As the number of particles grows, weighted averages of bounded functions of the particles converge in probability to the means under the distribution the exact filter returns, log_normalizing_constant to that of the exact filter, and averages over ancestors of the final particles to the means under the distributions the exact smoother returns; for every number of particles exp(log_normalizing_constant) has as mean the exact one.", "quantifier": "all finite hidden Markov models and linear-Gaussian models, inputs, T, t, bounded functions, both modes of the exact filters, multinomial and killing resampling (mean: systematic and killing with both ways of splitting keys, multinomial with independent splits)", "why_tests_cant": "A test compares the two implementations on one model with one seed and a tolerance; agreement in the limit is a statement about the laws of both and every model.", "anchors": ["cuthbert/smc/particle_filter.py:build_filter", "cuthbert/discrete/filter.py:build_filter", "cuthbert/discrete/smoother.py:build_smoother", "cuthbert/gaussian/kalman.py:build_filter", "cuthbert/gaussian/kalman.py:build_smoother", "cuthbert/filtering.py:filter", "cuthbert/smoothing.py:smoother"]}
{"id": "C79", "title": "More data or less noise never increases the uncertainty the Kalman filter and smoother report", "statement": "If one linear-Gaussian model has the same transition and observation matrices as another but at least as large initial, process and observation covariances, and at every time at most the same components of the data are observed, then every covariance returned by the filter and by the smoother is at least as large in the Loewner order. Smoothing covariances are at most the filtering covariances, and these at most the predicted ones. The covariances do not depend on the observed values, the initial mean or the offsets.", "quantifier": "all pairs of linear-Gaussian models related in this way, with nonsingular observation noise (smoother: and nonsingular predictive covariances), all data and patterns of missing values, T, t, all combinations of sequential and parallel modes", "why_tests_cant": "An order between matrices over all models and missing-data patterns; tests compare with another implementation on a few random models.", "anchors": ["cuthbert/gaussian/kalman.py:build_filter", "cuthbert/gaussian/kalman.py:build_smoother", "cuthbertlib/kalman/filtering.py:filtering_operator", "cuthbertlib/kalman/smoothing.py:smoothing_operator"]}
{"id": "C80", "title": "Kalman filter and smoother are equivariant under changes of coordinates", "statement": "If x -> T x + b maps one linear-Gaussian model to another and the observations are equally likely up to constant factors k_t, then it maps the means and covariances returned for the first model to those returned for the second, by the filter and by the smoother, and the log normalising constants differ by the sums of log k_t. In particular: an invertible change of the state's coordinates (or dropping components on which nothing else depends), reordering the components of the observations (missing ones included), and invertible linear maps A of the observations, where k_t = 1/|det A|.", "quantifier": "all pairs of linear-Gaussian models so related, of any dimensions, with nonsingular observation noise, all data, T, t, all combinations of modes", "why_tests_cant": "Relates runs on infinitely many pairs of models; a dependence on the order of components (QR, handling of missing values) need not show on random symmetric examples.", "anchors": ["cuthbert/gaussian/kalman.py:build_filter", "cuthbert/gaussian/kalman.py:build_smoother", "cuthbertlib/kalman/filtering.py:update", "cuthbertlib/linalg/collect_nans_chol.py:collect_nans_chol"]}
{"id": "C81", "title": "Merging or renaming the states of a hidden Markov model", "statement": "If the states of a finite hidden Markov model can be merged into classes (the probability of moving into a class, and the likelihoods, depend on the class only), then the discrete filter and smoother run on the merged model return the total probabilities of the classes under the distributions they return for the original model, and the same log normalising constants. In particular renaming the states renames the results.", "quantifier": "all pairs of hidden Markov models so related, all class maps, all data, T, t, all combinations of modes", "why_tests_cant": "Relates runs on infinitely many pairs of models; dependence on the order of the states or on a transposed matrix need not show on symmetric examples.", "anchors": ["cuthbert/discrete/filter.py:build_filter", "cuthbert/discrete/smoother.py:build_smoother", "cuthbertlib/discrete/filtering.py:condition_on_obs"]}
{"id": "C82", "title": "Results do not depend on how the time grid is subdivided", "statement": "If each step of one model amounts to a block of steps of another (for example: an unobserved intermediate time; observations made at the same time given one by one; idle steps), the filter and the smoother return for the coarse model at each time the means and covariances (for discrete models: distributions) and log normalising constants that they return for the fine model at the corresponding time.", "quantifier": "all pairs of linear-Gaussian models or hidden Markov models so related, all block lengths, all data, T, t, all combinations of modes", "why_tests_cant": "Relates runs of different lengths on infinitely many pairs of models and all ways of cutting the time axis.", "anchors": ["cuthbert/gaussian/kalman.py:build_filter", "cuthbert/gaussian/kalman.py:build_smoother", "cuthbert/discrete/filter.py:build_filter", "cuthbert/discrete/smoother.py:build_smoother"]}
{"id": "C83", "title": "The tracing particle smoother converges as the numbers of particles grow", "statement": "After an accurate particle filter run (C75), the tracing smoother run with an independent key returns paths whose average of any bounded function has a mean squared error of at most a constant over the number of smoother particles plus a constant times the filter's error; the averages therefore converge in probability to the smoothing expectation.", "quantifier": "all Feynman-Kac models with bounded potentials and positive evidence, all T, all bounded measurable functions of the whole path, all numbers of filter and smoother particles, both kinds of generator; multinomial, killing and adaptive resampling in the filter; multinomial or killing in the smoother", "why_tests_cant": "A statement about the limit and about error bounds in expectation over all random keys; a test sees finitely many keys and sizes.", "anchors": ["cuthbert/smc/backward_sampler.py:build_smoother", "cuthbertlib/smc/smoothing/tracing.py:simulate", "cuthbert/smc/particle_filter.py:build_filter"]}
{"id": "C84", "title": "The smoother with exact backward sampling converges as the numbers of particles grow", "statement": "After a particle filter run, the smoother with exact backward sampling run with an independent key returns paths whose average of any bounded function has a mean squared error of at most a constant over the number of smoother particles plus a constant times the error of one resampling step; the averages therefore converge in probability to the smoothing expectation.", "quantifier": "all Feynman-Kac models with bounded potentials and positive evidence whose weighted transitions have the density given to the smoother, all T, all bounded measurable functions of the whole path, all numbers of filter and smoother particles; multinomial, killing and adaptive resampling in the filter; multinomial or killing in the smoother", "why_tests_cant": "A statement about the limit and about error bounds in expectation over all random keys; a test sees finitely many keys and sizes.", "anchors": ["cuthbert/smc/backward_sampler.py:build_smoother", "cuthbertlib/smc/smoothing/exact_sampling.py:simulate", "cuthbert/smc/particle_filter.py:build_filter"]}
{"id": "C85", "title": "MCMC backward sampling approaches exact backward sampling as the number of steps grows", "statement": "Whatever the ancestors it starts from, MCMC backward sampling returns independent slots whose distribution differs from the exact backward distribution by at most 2 (1 - z/G)^n after n steps, where G bounds the densities and z is a lower bound on their weighted average; the joint distribution converges to that of exact backward sampling as n grows, in spite of the wrong initial density of C57. If the initial density is NaN it never moves.", "quantifier": "all numbers of particles, slots and steps, all particles, log weights with one number, all log densities (asymmetric ones included) that are numbers or -inf on the pairs evaluated and not all -inf for a slot, all starting ancestors", "why_tests_cant": "A statement about a limit and about probabilities over all random keys; a test sees finitely many keys and a fixed number of steps.", "anchors": ["cuthbertlib/smc/smoothing/mcmc.py:simulate", "cuthbert/smc/backward_sampler.py:build_smoother"]}
{"id": "C86", "title": "Kalman estimates are linear in the data and their uncertainty does not depend on it", "statement": "The means that the Kalman filter and smoother return are linear in the initial mean, the offsets c and d and the observed values taken together; the square roots of the covariances, the gains and the conditional square roots depend on none of these, only on the matrices of the model and on which values are missing. Where a result is not finite for one data set it is not finite for the others.", "quantifier": "all dimensions, all models (singular noise included), all pairs of data sets with the same missing values and all weights, all numbers of steps, sequential and parallel mode, any QR routine", "why_tests_cant": "A statement about all data sets, weights, run lengths and both scan orders; a test compares a few runs up to rounding.", "anchors": ["cuthbert/gaussian/kalman.py:build_filter", "cuthbert/gaussian/kalman.py:build_smoother", "cuthbertlib/kalman/filtering.py:filtering_operator", "cuthbertlib/kalman/filtering.py:associative_params_single", "cuthbertlib/kalman/smoothing.py:smoothing_operator"]}
{"id": "C87", "title": "What NaN weights do to a particle filter", "statement": "If the weight of one particle is NaN at some time, the log normalising constant is NaN from that time on. With multinomial, systematic or killing resampling the particles of the next time all descend from the first particle, whatever its weight, and show ordinary weights again (the same happens when all weights are zero); adaptive resampling keeps the NaN weights; the marginal particle filter's weights are all NaN from then on.", "quantifier": "all models, inputs, keys, numbers of particles and steps, both devices; any resampling function for the first and last claim", "why_tests_cant": "A statement about all runs and all later times, for every resampling function; a test sees a few runs.", "anchors": ["cuthbert/smc/particle_filter.py:build_filter", "cuthbert/smc/marginal_particle_filter.py:build_filter", "cuthbertlib/resampling/utils.py:inverse_cdf", "cuthbertlib/resampling/adaptive.py:ess_decorator"]}
{"id": "C88", "title": "Discrete filters and smoothers forget the distant past and future", "statement": "Suppose the transition probabilities into each state vary with the origin by at most a factor between \u03b5 and 1 (strong mixing). Two runs of the discrete filter that agree on the steps from r to t, whatever their initial distributions and older data, return at t distributions whose total difference is at most 2(1-\u03b5)^(t-r). The same holds for two smoother runs that agree from r on; and two smoother runs, of any lengths, that agree up to t+b return at t distributions that differ by at most 2(1-\u03b5)^b (fixed-lag smoothing). Without mixing this fails.", "quantifier": "all finite state spaces, models with positive rows (and reachable states for the smoother), data, run lengths, times, both modes of filter and smoother", "why_tests_cant": "A quantitative bound over all pairs of pasts and futures and all horizons; tests compare a few.", "anchors": ["cuthbert/discrete/filter.py:build_filter", "cuthbert/discrete/smoother.py:build_smoother"]}
{"id": "C89", "title": "Estimates are calibrated and optimal", "statement": "On data simulated from the model, the error of the mean that the Kalman filter (or smoother, at any time) returns has exactly the law N(0, P) with P the returned covariance, and is independent of the data; P is therefore the true mean squared error, credible regions have their nominal coverage, and no function of the data estimates a linear functional of the state with smaller mean squared error. For discrete models the likelihoods returned for all data sets of a given length sum to one, and the filtering (smoothing) distributions averaged over the data sets with these likelihoods are the prior distributions.", "quantifier": "all linear-Gaussian models with nonsingular observation noise (and process noise for the smoother), all finite models with positive rows, all lengths, times and modes, all test functions and all measurable estimators", "why_tests_cant": "Laws of random variables and a comparison with all estimators; simulation can only estimate a few coverages.", "anchors": ["cuthbert/gaussian/kalman.py:build_filter", "cuthbert/gaussian/kalman.py:build_smoother", "cuthbert/discrete/filter.py:build_filter", "cuthbert/discrete/smoother.py:build_smoother"]}
{"id": "C90", "title": "When Gaussian filters and smoothers return NaN", "statement": "The mean returned by the Kalman filter at time t is NaN if and only if at one of the times 1..t the matrix H Q H^T + R of the observed components is singular, in both modes; the same for the associative moments filter with the linearised parameters, and with the innovation covariance H (F P F^T + Q) H^T + R for one step of the sequential moments filter. The smoothed mean at t is NaN if and only if at one of the times t..T the filtering mean is NaN or F P F^T + Q is singular. In the moments and Taylor filters a NaN never disappears: from the first NaN mean on all means and log normalising constants are NaN. A transition density that is flat in a component of the new state makes the Taylor filter NaN from that step on, whatever ignore_nan_dims is.", "quantifier": "all models, parameters (including singular ones), callbacks, inputs, lengths, times and modes", "why_tests_cant": "A characterisation of all failures and their propagation through runs of any length; tests can only try some singular models.", "anchors": ["cuthbert/gaussian/kalman.py:build_filter", "cuthbert/gaussian/kalman.py:build_smoother", "cuthbert/gaussian/moments/filter.py:build_filter", "cuthbert/gaussian/taylor/filter.py:build_filter", "cuthbertlib/linalg/symmetric_inv_sqrt.py:symmetric_inv_sqrt"]}
{"id": "C91", "title": "The Kalman smoother returns the most probable trajectory", "statement": "The means returned by the Kalman smoother are, jointly over all times, the trajectory of least total cost: among all trajectories x_0 = m0 + chol_P0 e_0, x_t = F x_{t-1} + c + chol_Q w_t driven by noise, they minimise |e_0|^2 + sum |w_t|^2 + the R-weighted squared misfits of the observed components, and every other minimiser has the same trajectory. When P0 and Q are nonsingular they are the unique maximiser of the joint density p(x_0..x_T, y_1..y_T). So the vector of smoothed means is itself an achievable and most probable path, not only a collection of marginal means.", "quantifier": "all models with nonsingular noise of the observed components (P0 and Q may be singular for the least-squares form provided the predicted covariances are not), all inputs, lengths, missing-data patterns and both modes of filter and smoother", "why_tests_cant": "A comparison with every possible trajectory, for runs of any length.", "anchors": ["cuthbert/gaussian/kalman.py:build_smoother", "cuthbert/smoothing.py:smoother", "cuthbertlib/kalman/smoothing.py:update", "cuthbertlib/kalman/smoothing.py:associative_params_single", "cuthbertlib/kalman/smoothing.py:smoothing_operator"]}
{"id": "C92", "title": "Re-linearising the moments smoother along its own output climbs to a stationary point of the posterior", "statement": "Take a nonlinear model x_t = f_t(x_{t-1}) + N(0,Q_t), y_t = h_t(x_t) + N(0,R_t) and run the moments filter and smoother with callbacks that linearise along a given trajectory x (read from the model inputs). Let m be the smoothed means and l the exact log density of the nonlinear model as a function of the whole trajectory. Then the direction m - x is never a descent direction of l; its slope is zero only if m = x; and m = x at all times exactly when x is a stationary point of l. Hence an iterated smoother that has stopped moving is at a stationary point of the exact posterior density, and stationary points are left in place.", "quantifier": "all dimensions, differentiable functions f_t and h_t, nonsingular P0, Q_t, R_t, trajectories, observations with any missing components, lengths, both variants of the filter and both modes of filter and smoother", "why_tests_cant": "A statement about derivatives of the posterior in every direction of trajectory space for every model and length.", "anchors": ["cuthbert/gaussian/moments/filter.py:build_filter", "cuthbert/gaussian/moments/smoother.py:build_smoother", "cuthbertlib/linearize/moments.py:linearize_moments", "cuthbert/smoothing.py:smoother"]}
{"id": "C93", "title": "Placeholder states have the shapes of filter states", "statement": "The placeholder state that the associative moments and Taylor filters hand to the user's callbacks, and the state that filter_prepare of their non-associative variants returns, have the shapes and data types of a filter state: mean of shape (n,), chol_cov of shape (n, n). (False for n = 1, where chol_cov is a scalar of shape ().)", "quantifier": "all dimensions n and floating-point types", "why_tests_cant": "Shape errors depend on the dimension; tests fix a few dimensions, and callbacks in tests ignore the state's covariance.", "anchors": ["cuthbert/gaussian/moments/associative_filter.py:filter_prepare", "cuthbert/gaussian/taylor/associative_filter.py:filter_prepare", "cuthbert/gaussian/moments/non_associative_filter.py:filter_prepare", "cuthbert/gaussian/taylor/non_associative_filter.py:filter_prepare", "cuthbert/utils.py:dummy_tree_like"]}
{"id": "C94", "title": "Kalman filters and smoothers forget a wrong start geometrically", "statement": "Run two Kalman filters that differ only before time r (another initial mean, other early observations, or for the covariance statement another initial covariance) and share all inputs from then on. If the process noise is, in every direction, at least delta times the propagated filtering covariance, then the difference between the filtered means, measured in the standard deviations the filter itself reports along any direction, shrinks by the factor (1+delta)^(-1/2) at every step. The smoothed means at time t satisfy the same bound in units of the smoother's own (smaller) standard deviations. Two different covariances approach each other at the relative rate (1+delta)^(-1) per step.", "quantifier": "all pairs of models and inputs that share their steps from some time r on, all state and observation dimensions, all lengths, all missing-data patterns, all directions, all combinations of sequential and parallel modes", "why_tests_cant": "An inequality between two runs for every direction, model and length.", "anchors": ["cuthbert/gaussian/kalman.py:build_filter", "cuthbert/gaussian/kalman.py:build_smoother", "cuthbert/filtering.py:filter", "cuthbert/smoothing.py:smoother", "cuthbertlib/kalman/filtering.py:predict", "cuthbertlib/kalman/filtering.py:update"]}
{"id": "C95", "title": "EM with the Kalman smoother never decreases the likelihood", "statement": "Run the Kalman filter and smoother under one set of callbacks, storing the gains and the conditional factors, and build from the smoothing states the expected joint log density of another model (the law of consecutive states being the Gaussian with means (m_{t+1}, m_t) and factor [[L_{t+1}, 0], [G_t L_{t+1}, V_t]]). For every other set of callbacks on the same inputs the reported log likelihood increases by at least as much as that objective. At the parameter of the run, objective and log likelihood have the same derivative. Gauss-Hermite rules of order at least two compute the terms of the objective exactly.", "quantifier": "all pairs of linear-Gaussian models with nonsingular covariances on the same inputs, all dimensions, all lengths, all missing-data patterns, all combinations of sequential and parallel modes", "why_tests_cant": "An inequality between two whole runs for every pair of models; a test can only try some parameters.", "anchors": ["docs/examples/parameter_estimation_em.md", "cuthbert/gaussian/kalman.py:build_smoother", "cuthbert/gaussian/kalman.py:build_filter", "cuthbertlib/quadrature/gauss_hermite.py:weights"]}
{"id": "C96", "title": "Auxiliary outputs of user functions do not change a linearisation", "statement": "If the function to be linearised also returns an auxiliary value and has_aux=True is passed, linearize_log_density, linearize_log_density_given_chol_cov, linearize_moments and linearize_taylor return the linearisation of the numerical part, in the same order, followed by the auxiliary value at the linearisation point; in particular Gaussian densities are linearised exactly and conditional means to first order. A mismatch between has_aux and what the function returns raises instead of mislabelling the outputs.", "quantifier": "all log densities, potentials and conditional moments, all auxiliary outputs, all points, all missing-data patterns, both values of ignore_nan_dims", "why_tests_cant": "Ranges over all user functions and auxiliary outputs.", "anchors": ["cuthbertlib/linearize/log_density.py:linearize_log_density", "cuthbertlib/linearize/log_density.py:linearize_log_density_given_chol_cov", "cuthbertlib/linearize/moments.py:linearize_moments", "cuthbertlib/linearize/taylor.py:linearize_taylor"]}
{"id": "C97", "title": "A potential leaves the directions it does not depend on as they were", "statement": "Updating with a log potential in the Taylor filter adds the information of its second-order expansion at the linearisation point: the inverse of the reported covariance is the inverse of the predictive covariance plus the negative Hessian, and the mean is the corresponding one. In particular, along directions in which the potential is flat (a comparison of two components leaves their sum undetermined) it does not make the filter more certain.", "quantifier": "all potentials and linearisation points, all predictive laws, all state dimensions, all sequences of inputs", "why_tests_cant": "Ranges over all potentials and predictive laws; the failing case returns finite, plausible means, and is wrong only in directions that an accuracy check on the compared quantity does not see.", "anchors": ["cuthbertlib/linearize/taylor.py:linearize_taylor", "cuthbertlib/linalg/symmetric_inv_sqrt.py:symmetric_inv_sqrt", "cuthbert/gaussian/taylor/non_associative_filter.py:filter_combine", "cuthbert/gaussian/taylor/non_associative_filter.py:process_observation", "docs/quickstart.md"]}
{"id": "C98", "title": "The particle smoother accounts for the final weights, also with adaptive resampling", "statement": "The smoothed states of the particle smoother represent the smoothing law together with their log weights, whichever resampling function is passed to build_smoother. The protocol is shared with the filter, whose documentation suggests wrapping the function with ess_decorator. False in general: if the wrapped function decides not to resample, the final particles keep their weights, backward sampling reads the particles but not the weights, and all earlier states are returned with equal weights. What the last observation says about earlier states is then lost, and the error does not vanish as the number of particles grows. If the effective sample size is below the threshold the run is that of the wrapped function.", "quantifier": "all filter states, final weights, model inputs, keys, backward sampling functions, wrapped resampling functions and thresholds; the bias for every number of particles, every ideal generator and every threshold up to 8/9", "why_tests_cant": "a test compares averages with a tolerance for one model and one number of particles, and never varies only the final weights", "anchors": ["cuthbert/smc/backward_sampler.py:convert_filter_to_smoother_state", "cuthbert/smc/backward_sampler.py:smoother_combine", "cuthbertlib/resampling/adaptive.py:ess_decorator"]}
{"id": "C99", "title": "A Taylor update multiplies the predictive law by the potential when the log potential is quadratic", "statement": "If the log potential is a quadratic function of the state, one update of the non-associative Taylor filter returns the predictive law multiplied by the potential and normalised, whenever this product is a Gaussian law. True for strictly concave log potentials. False for convex ones, which widen the law: the update uses the absolute value of the curvature and returns a law narrower than the predictive law. False for linear ones, which shift the mean: with ignore_nan_dims the zero Hessian is taken for a missing observation and the update is skipped. In general an update adds the absolute value of the negative Hessian to the precision.", "quantifier": "all states, transitions, linearisation points, QR and SVD routines, tolerances, and all quadratic log potentials of each of the three kinds; the general formula for all twice differentiable potentials whose Hessian has no eigenvalues between zero and the tolerance", "why_tests_cant": "tests use log-concave likelihoods; the exact law for a potential of the other kinds is never computed", "anchors": ["cuthbertlib/linearize/taylor.py:linearize_taylor", "cuthbertlib/linalg/symmetric_inv_sqrt.py:symmetric_inv_sqrt", "cuthbert/gaussian/taylor/non_associative_filter.py:filter_combine"]}
{"id": "C100", "title": "The log normalising constant of a Taylor filter with log potentials is the log evidence of the potentials", "statement": "If the observations are given as log potentials log G(x), the log_normalizing_constant of the Taylor filter is log E[prod G_t(x_t)], as it is for the particle filter, and does not depend on whether the same likelihood is given as a conditional log density or as a log potential. False: the filter uses only gradients and Hessians, so constants in log G are dropped. With G_t = exp(k_t) N(m_t; x, S_t) the reported value is too small by the sum of the k_t; for y = H x + d + noise with invertible H the two ways of giving the same likelihood differ by the sum of log |det H|. The filtering laws are exact in all these cases.", "quantifier": "all linear-Gaussian dynamics with Gaussian potentials of any constant, all numbers of steps, linearisation points, tolerances, QR and SVD routines; the independence of constants for every twice differentiable log potential", "why_tests_cant": "the tests compare means and covariances of potentials, and constants only for conditional densities", "anchors": ["cuthbert/gaussian/taylor/types.py:GetObservationFunc", "cuthbert/gaussian/taylor/non_associative_filter.py:filter_combine", "cuthbert/gaussian/taylor/non_associative_filter.py:process_observation", "cuthbertlib/linearize/taylor.py:linearize_taylor"]}
{"id": "C101", "title": "EM with the discrete smoother never decreases the likelihood", "statement": "The smoothing distribution at time t+1 and get_reverse_kernel of the filtering distribution at time t give the posterior law of the states at times t and t+1. With these laws: for any other model the reported log likelihood changes by at least as much as the expected joint log probability; replacing the initial distribution by the first smoothing distribution and the transition matrix by the relative expected counts (Baum-Welch) maximises the expected joint log probability and does not decrease the reported log likelihood; and the gradient of the reported log likelihood is that of the expected joint log probability (Fisher's identity).", "quantifier": "all finite hidden Markov models, numbers of steps and observations for which the discrete filter and smoother return no NaN, both modes of filter and smoother, all other models and all differentiable curves of models", "why_tests_cant": "monotonicity is a statement about all pairs of models; tests compare marginals for single models", "anchors": ["cuthbertlib/discrete/smoothing.py:get_reverse_kernel", "cuthbert/discrete/smoother.py:build_smoother", "cuthbert/discrete/filter.py:build_filter"]}
{"id": "C102", "title": "For additive Gaussian noise the Taylor methods are the moments methods", "statement": "For a nonlinear model with additive Gaussian noise, the Taylor filter and smoother (given log densities, with Hessians inverted) and the moments filter and smoother (given conditional means and factors of covariances) return the same means, covariances, gains and log likelihoods when they linearise at the same states, which may depend on the filtered and predicted means (extended Kalman filter). Where the Taylor method linearises in the new state or in the observation is of no importance. Missing components of the observations are treated alike.", "quantifier": "all twice continuously differentiable mean functions, well-conditioned covariances, normalising constants, missing patterns, linearisation points, model inputs and numbers of steps; associative filters in both modes and non-associative filters; smoothers in both modes; all QR factorisations and singular value decompositions", "why_tests_cant": "tests compare the methods with the Kalman filter on linear models, where every linearisation point gives the same answer", "anchors": ["cuthbertlib/linearize/log_density.py:linearize_log_density", "cuthbertlib/linearize/moments.py:linearize_moments", "cuthbert/gaussian/taylor/non_associative_filter.py:filter_combine", "cuthbert/gaussian/taylor/associative_filter.py:filter_prepare", "cuthbert/gaussian/taylor/filter.py:build_filter", "cuthbert/gaussian/taylor/smoother.py:build_smoother", "cuthbert/gaussian/moments/filter.py:build_filter", "cuthbert/gaussian/moments/smoother.py:build_smoother"]}
{"id": "C103", "title": "Iterating the Taylor smoother climbs towards the most probable trajectory", "statement": "Filter and smooth with the Taylor methods, linearising along a given trajectory x, and let m be the smoothed means. The direction from x to m is never one of descent of the exact log posterior density of the trajectory, its slope vanishes only if m = x, and m = x exactly when x is a stationary point.", "quantifier": "all models with twice continuously differentiable means, additive Gaussian noise in the transitions and any conditional log densities or log potentials as observations; all trajectories, numbers of steps, modes and square-root choices", "why_tests_cant": "the claim is about all trajectories, including those far from the posterior mode; tests run one pass", "anchors": ["cuthbertlib/linearize/log_density.py:linearize_log_density", "cuthbertlib/linearize/taylor.py:linearize_taylor", "cuthbert/gaussian/taylor/non_associative_filter.py:process_observation", "cuthbert/gaussian/taylor/filter.py:build_filter", "cuthbert/gaussian/taylor/smoother.py:build_smoother"]}
{"id": "C104", "title": "Independent subsystems may be run together or separately", "statement": "If a model consists of two parts that start, evolve and are observed independently of each other, the Kalman filter and smoother of the whole return the stacked means and block-diagonal covariances of the parts run separately, with log normalising constants that add up; the discrete filter and smoother on pairs of states return the products of the probabilities of the parts.", "quantifier": "all pairs of linear-Gaussian models with nonsingular observation noise, also with missing values, and all orders of the coordinates; all pairs of hidden Markov models and numberings of the pairs of states; all lengths, modes and square-root choices", "why_tests_cant": "ranges over all dimensions, orders of coordinates, models and data", "anchors": ["cuthbert/gaussian/kalman.py:build_filter", "cuthbert/gaussian/kalman.py:build_smoother", "cuthbert/discrete/filter.py:build_filter", "cuthbert/discrete/smoother.py:build_smoother", "cuthbertlib/kalman/filtering.py:filtering_operator", "cuthbertlib/kalman/smoothing.py:smoothing_operator"]}
{"id": "C105", "title": "On simulated data the innovations of the Kalman filter are white", "statement": "When the data are simulated from the model, the innovations of the Kalman filter, the differences between each observation and its prediction from the filtering mean of the time before, are independent of each other and Gaussian with mean zero and the covariance H (F P F\u1d40 + Q) H\u1d40 + R that follows from the filtering covariance of the time before. After division by a square root of that covariance they are independent standard normal vectors.", "quantifier": "all numbers of steps, dimensions, initial laws, dynamics and observation models with nonsingular observation noise, both modes, all square-root choices, all square roots of the innovation covariances and all tuples of nonnegative measurable functions of the innovations", "why_tests_cant": "a statement about the joint law of the filter's output over all data sets; a test sees finitely many simulated sequences", "anchors": ["cuthbert/gaussian/kalman.py:build_filter", "cuthbertlib/kalman/filtering.py:filtering_operator", "cuthbertlib/kalman/filtering.py:update", "cuthbertlib/kalman/generate.py:generate_lgssm"]}
{"id": "C106", "title": "Exact filters and smoothers are differentiable functions of the model, and the score is Fisher's", "statement": "If the parameters that the callbacks return are n times continuously differentiable (or analytic) functions of some unknowns, so are the means, covariances and log normalising constants of the Kalman filter, the means and covariances of the Kalman smoother, the probabilities and log normalising constants of the discrete filter and the probabilities of the discrete smoother. Along a differentiable curve of linear-Gaussian models the derivative of the log normalising constant exists and is the derivative of the EM objective of the smoother run at that parameter.", "quantifier": "all normed spaces of unknowns, subsets of them, orders of differentiability, smooth families of models with nonsingular observation noise (smoothers: nonsingular predictive covariances; discrete: the conditions of C09 and C12), missing values, lengths, modes and square-root choices", "why_tests_cant": "differentiability on a continuum of parameters; finite differences at a few points cannot show it", "anchors": ["cuthbert/gaussian/kalman.py:build_filter", "cuthbert/gaussian/kalman.py:build_smoother", "cuthbert/discrete/filter.py:build_filter", "cuthbert/discrete/smoother.py:build_smoother", "docs/examples/parameter_estimation_em.md"]}
{"id": "C107", "title": "The log evidence that a particle filter reports is, on average, too small", "statement": "Let z be the true log evidence of the observations so far. The log normalising constant that the particle filter reports exceeds z + a with probability at most exp(-a), whatever the number of particles. Its expected excess over z is at most its expected shortfall below z, and strictly smaller unless the filter reports z almost surely or the expected shortfall is infinite.", "quantifier": "all models with regular callbacks and positive finite evidence, numbers of particles, input sequences, times, thresholds a, and the resampling schemes of C53 (adaptive or not)", "why_tests_cant": "probabilities and expectations over the random key; a few seeds cannot show a one-sided bias", "anchors": ["cuthbert/smc/particle_filter.py:build_filter", "cuthbertlib/resampling/multinomial.py:resampling", "cuthbertlib/resampling/systematic.py:resampling", "cuthbertlib/resampling/killing.py:resampling", "cuthbertlib/resampling/adaptive.py:ess_decorator"]}
{"id": "C108", "title": "The marginal particle filter estimates the right quantities, at least with many particles", "statement": "The marginal particle filter's normalising constant times its weighted average of a function of the present state has the Feynman-Kac expectation of that function as its expectation; with the function one, the evidence. If this fails for small numbers of particles, the error vanishes as their number grows.", "quantifier": "all models, resampling functions, numbers of particles, input sequences, times and measurable functions", "why_tests_cant": "expectations over the random key for all models and numbers of particles; the failure is invisible for potentials that ignore the previous state", "anchors": ["cuthbert/smc/marginal_particle_filter.py:build_filter", "cuthbert/smc/marginal_particle_filter.py:filter_combine"]}
{"id": "C109", "title": "Padding a sequence with unobserved steps changes nothing", "statement": "Appending steps at which every component of the observation is missing (for the discrete filter: whose log-likelihoods are all zero) leaves the filtered and smoothed means and covariances (for the discrete filter and smoother: distributions) at the times of the original sequence as they are. The log normalising constant stays, from the end of the original sequence on, at its value there.", "quantifier": "all linear-Gaussian models and finite hidden Markov models, sequences, numbers and kinds of padding steps, sequential or parallel mode in either run, and square-root routines", "why_tests_cant": "ranges over all models, lengths and padding; a test compares one padded run with one unpadded run", "anchors": ["cuthbert/gaussian/kalman.py:build_filter", "cuthbert/gaussian/kalman.py:build_smoother", "cuthbert/discrete/filter.py:build_filter", "cuthbert/discrete/smoother.py:build_smoother", "cuthbert/filtering.py:filter", "cuthbert/smoothing.py:smoother"]}
{"id": "C110", "title": "The Kalman filter of a time-invariant model reaches a steady state", "statement": "In a time-invariant linear-Gaussian model with positive definite noise covariances, in which some fixed gain makes the estimation error contract (detectability), the covariance that the filter reports converges geometrically, entry by entry, to the only covariance that solves the Riccati equation. The limit does not depend on the initial covariance or on the data; the constants of the bound depend on the initial covariance only.", "quantifier": "all detectable time-invariant models, initial covariances, data, numbers of steps, sequential or parallel mode, and square-root routines", "why_tests_cant": "an asymptotic statement over all models, initial covariances and lengths", "anchors": ["cuthbert/gaussian/kalman.py:build_filter", "cuthbertlib/kalman/filtering.py:predict", "cuthbertlib/kalman/filtering.py:update", "cuthbert/filtering.py:filter"]}
{"id": "C111", "title": "With a state that does not move, the order of the observations is irrelevant", "statement": "If no step moves the state (identity transition, no noise), reordering the observations leaves the final filtered mean, covariance and log normalising constant (discrete filter: distribution and log normalising constant) as they are. The Kalman smoother then returns the same mean and covariance at all times, namely the final filtered ones.", "quantifier": "all static linear-Gaussian models and finite hidden Markov models, sequences, permutations, sequential or parallel mode in either run, and square-root routines", "why_tests_cant": "ranges over all models, sequences and permutations", "anchors": ["cuthbert/gaussian/kalman.py:build_filter", "cuthbert/gaussian/kalman.py:build_smoother", "cuthbert/discrete/filter.py:build_filter", "cuthbert/filtering.py:filter"]}
{"id": "C112", "title": "Particle methods commute with maps of the state space", "statement": "If a map of the states turns the initial draws, the propagation and the potentials of one model into those of another, then runs of both models with the same key have the same ancestors, log-weights, log normalising constants and exceptions, and the particles of the second run are the images of the particles of the first. This holds for the particle filter, the marginal particle filter and the three backward samplers, with every resampling function of the library. In particular particles may carry information that the potentials do not use, and the coordinates of the state may be chosen freely.", "quantifier": "all pairs of Feynman-Kac models related by a map (not necessarily injective), particle numbers, input sequences, keys, NaN or infinite potentials included, both modes", "why_tests_cant": "ranges over all models, maps and keys", "anchors": ["cuthbert/smc/particle_filter.py:build_filter", "cuthbert/smc/marginal_particle_filter.py:build_filter", "cuthbert/smc/backward_sampler.py:build_smoother", "cuthbertlib/resampling/protocols.py:Resampling", "cuthbertlib/smc/smoothing/protocols.py:BackwardSampling"]}
{"id": "C113", "title": "Without Gaussian noise, Kalman filter and smoother are the best linear estimators", "statement": "Let the data come from a linear model whose initial state and noises have the means and covariances given to the library and are uncorrelated, but need not be Gaussian or independent, and let any components of the observations be missing. Then the mean the filter returns is unbiased, the covariance it returns is the covariance of its error, and no affine function of the components observed so far estimates any linear functional of the state with a smaller mean squared error. The same holds for the smoother with all the data.", "quantifier": "all processes with square-integrable, uncorrelated noises, dimensions, horizons, patterns of missing components, time steps, both modes", "why_tests_cant": "ranges over all distributions with given second moments and all affine estimators", "anchors": ["cuthbert/gaussian/kalman.py:build_filter", "cuthbert/gaussian/kalman.py:build_smoother", "cuthbertlib/kalman/filtering.py:update", "cuthbertlib/kalman/smoothing.py:update"]}
{"id": "C114", "title": "The log evidence stays within the range of the log potentials", "statement": "If the log potentials (log-likelihoods) of every step lie between two numbers for all states, then the log normalising constant that is reported lies between the sums of these numbers over the steps so far; for particle filters this holds for every key, number of particles and resampling function, so the estimate is exact when the potentials do not depend on the states, and with resampling at every step no normalised weight differs from 1/N by more than the corresponding factor. The log normalising constant of a Kalman filter never exceeds the sum of the log densities of the observation noises at zero.", "quantifier": "all Feynman-Kac models, hidden Markov models and linear-Gaussian models with such bounds, all keys, particle numbers, resampling functions, sequence lengths, both modes of the discrete and Kalman filters; the marginal particle filter with resampling at every step", "why_tests_cant": "ranges over all models, keys and numbers of particles", "anchors": ["cuthbert/smc/particle_filter.py:filter_combine", "cuthbert/smc/marginal_particle_filter.py:filter_combine", "cuthbert/discrete/filter.py:build_filter", "cuthbert/gaussian/kalman.py:build_filter"]}
{"id": "C115", "title": "Metropolis-Hastings with the particle filter's evidence samples the exact posterior of the parameters", "statement": "Run Metropolis-Hastings on the parameters of a family of models, running the particle filter with a fresh key for every proposed parameter and using the log normalising constant it reports in place of the exact log-likelihood. For every number of particles, the chain leaves invariant a law whose parameter marginal is the exact posterior; the weighted ancestral paths of the accepted run have the exact joint posterior of parameters and states as their average.", "quantifier": "all measurable families of Feynman-Kac models, priors, proposal densities, data, numbers of particles and of steps of the chain; systematic and killing resampling with splitting by prefixes or independent splits, multinomial resampling with independent splits, adaptive resampling around any of them for finite log potentials", "why_tests_cant": "a statement about the law of a Markov chain over all models; tests can only compare histograms", "anchors": ["cuthbert/smc/particle_filter.py:build_filter", "cuthbert/smc/particle_filter.py:filter_combine", "cuthbertlib/resampling/systematic.py:resampling"]}
{"id": "C116", "title": "The particle filter's error does not grow with the length of the series", "statement": "If the model forgets its past (the weighted law of the next state depends on the present state by at most a fixed factor, and no potential exceeds a fixed multiple of its mean), then the expected error of the filter's weighted average of any bounded function of the current state is at most a constant times 1/sqrt(N) at every time, with a constant that depends neither on the time nor on the length of the series. Hence one number of particles is enough for a given accuracy for all series.", "quantifier": "all Feynman-Kac models that forget with finite log potentials, all series, times, bounded functions and numbers of particles; multinomial and killing resampling and adaptive resampling around them, generators that split by prefixes or independently", "why_tests_cant": "a bound uniform in the length of the series cannot be observed on finitely many finite series", "anchors": ["cuthbert/smc/particle_filter.py:build_filter", "cuthbert/smc/particle_filter.py:filter_combine", "cuthbertlib/resampling/multinomial.py:resampling", "cuthbertlib/resampling/killing.py:resampling", "cuthbertlib/resampling/adaptive.py:ess_decorator"]}
{"id": "C117", "title": "A number of particles proportional to the length of the series keeps the evidence accurate", "statement": "If the model forgets its past, the mean squared relative error of exp(log_normalizing_constant) after t steps with N particles is at most exp(C (t + 12) / N) - 1, where C depends on the forgetting constants only. Hence a number of particles proportional to the length of the series keeps the relative error of the evidence below any given level.", "quantifier": "all Feynman-Kac models that forget (for adaptive resampling with finite log potentials), all series, times and numbers of particles; multinomial and killing resampling and adaptive resampling around them, generators that split by prefixes or independently", "why_tests_cant": "a growth rate over all lengths and numbers of particles, for an expectation over keys", "anchors": ["cuthbert/smc/particle_filter.py:build_filter", "cuthbert/smc/particle_filter.py:filter_combine", "cuthbertlib/resampling/multinomial.py:resampling", "cuthbertlib/resampling/killing.py:resampling", "cuthbertlib/resampling/adaptive.py:ess_decorator"]}
{"id": "C118", "title": "Continuing one filter state with independent keys gives independent realisations", "statement": "Combining one state of a particle filter with steps prepared with independent keys (several forecasts, or a forecast and then the filter step as in the online example of the documentation) gives independent realisations of the step.", "quantifier": "all filter states, models, resampling functions, inputs and keys", "why_tests_cant": "independence over random keys; every single continuation looks right", "anchors": ["cuthbert/smc/particle_filter.py:filter_prepare", "cuthbert/smc/particle_filter.py:filter_combine", "cuthbert/smc/marginal_particle_filter.py:filter_combine", "docs/examples/online_stoch_vol.md"]}
{"id": "C119", "title": "With a small uncertainty, sigma-point linearisation is Taylor linearisation", "statement": "As the covariance of the state shrinks to zero, the gain, offset and noise covariance returned by quadrature.conditional_moments tend to those of linearize_moments at the mean, with every quadrature rule; what the regression adds to the noise for the nonlinearity vanishes faster than the covariance.", "quantifier": "all models whose mean is differentiable and whose covariance factor is continuous at the mean, all means and positive definite covariances, all quadrature rules (cubature, Gauss-Hermite of order at least two, unscented with all parameters), both modes", "why_tests_cant": "a limit over all nonlinear models, not a computation at some covariance", "anchors": ["cuthbertlib/quadrature/linearize.py:conditional_moments", "cuthbertlib/quadrature/linearize.py:functional", "cuthbertlib/quadrature/unscented.py:weights", "cuthbertlib/linearize/moments.py:linearize_moments"]}
{"id": "C120", "title": "Threshold zero never resamples, a threshold above one always does", "statement": "With an ESS threshold of zero the particle filter is sequential importance sampling, whatever resampling function is wrapped: it does not raise, every particle is its own ancestor, its weight is the product of the potentials along its path, and the log normalising constant is the logarithm of the average of these products. With a threshold above one the filter is that of the wrapped function.", "quantifier": "all models whose potentials may vanish, particle numbers, keys, series, thresholds at most zero or above one, and all wrapped resampling functions (including ones that raise, for threshold zero)", "why_tests_cant": "an identity between whole runs for all models and lengths; the telescoping of the evidence increments is only visible over the run, and log(0) = -inf has to compare as never smaller", "anchors": ["cuthbertlib/resampling/adaptive.py:ess_decorator", "cuthbert/smc/particle_filter.py:filter_combine", "cuthbertlib/smc/ess.py:log_ess"]}
{"id": "C121", "title": "The derivative of a particle filter's log normalising constant estimates the score", "statement": "For a fixed key, the derivative of the log normalising constant with respect to a parameter of the potentials is an estimate of the score, the derivative of the log evidence: the weighted average of the scores of the particles' paths.", "quantifier": "all models with finite log potentials differentiable in the parameter and dynamics that do not depend on it, all particle numbers, series and almost all keys; no resampling, multinomial and systematic resampling", "why_tests_cant": "finite differences on a few keys agree with automatic differentiation in all cases; that both estimate something else than the score is a statement about expectations over the keys and all particle numbers", "anchors": ["cuthbert/smc/particle_filter.py:filter_combine", "cuthbertlib/resampling/multinomial.py:resampling", "cuthbertlib/resampling/systematic.py:resampling", "README.md"]}
{"id": "C122", "title": "Multinomial resampling has the largest variance of the resampling schemes", "statement": "The error that resampling adds to a weighted average is largest for multinomial resampling: for every function, killing and systematic resampling have at most the mean squared error of multinomial resampling, as their documentation says (multinomial: 'has higher variance than other resampling schemes'; systematic: 'is a variance reduction').", "quantifier": "all numbers of particles, all log-weights, positions and real functions, an ideal random number generator", "why_tests_cant": "a test estimates the variances for a few weight vectors and functions from finitely many keys; the ordering is claimed for all of them, and the weights for which it fails are special", "anchors": ["cuthbertlib/resampling/multinomial.py:resampling", "cuthbertlib/resampling/killing.py:resampling", "cuthbertlib/resampling/systematic.py:resampling"]}
{"id": "C123", "title": "With many MCMC steps the MCMC particle smoother is the exact backward sampling smoother", "statement": "As n_steps grows, the joint law of all the trajectories that the particle smoother returns with MCMC backward sampling converges to the joint law of those it returns with exact backward sampling from the same filter states, although the MCMC sampler starts from the filter's ancestors and evaluates its first log density with the arguments exchanged.", "quantifier": "all series lengths, numbers of filter and smoother particles, filter states, log potentials (also depending on the inputs), resampling functions and trajectories along which the log densities are numbers or minus infinity and some transition is possible; an ideal random number generator", "why_tests_cant": "it is a limit of distributions over trajectories of arbitrary length; a test compares empirical averages for one number of steps", "anchors": ["cuthbert/smc/backward_sampler.py:smoother_combine", "cuthbertlib/smc/smoothing/mcmc.py:simulate", "cuthbertlib/smc/smoothing/exact_sampling.py:simulate"]}
{"id": "C124", "title": "The trajectories of the tracing smoother merge in long series", "statement": "Run the particle filter with multinomial resampling and the particle smoother with tracing (genealogy) on its states. For every time r, the trajectories it returns are all at one and the same point at all times up to r, except with a probability of at most (1 - N^(1-N))^(T-r), which vanishes as the number T-r of later steps grows: for a long series the smoother's law of the early states is a single point however many trajectories are asked for. The choice of the resampling function matters: with a constant potential, systematic and killing resampling keep all lineages apart for ever.", "quantifier": "all series lengths, times r, numbers of particles and of trajectories, models with measurable functions and finite potentials, smoother keys, resampling functions at the final time; an ideal random number generator", "why_tests_cant": "it bounds the probability of an event for all lengths of the series and all models", "anchors": ["cuthbert/smc/particle_filter.py:filter_combine", "cuthbert/smc/backward_sampler.py:smoother_combine", "cuthbertlib/smc/smoothing/tracing.py:simulate", "cuthbertlib/resampling/multinomial.py:resampling"]}
{"id": "C125", "title": "The MCMC particle smoother is unbiased for every number of steps", "statement": "Run the particle filter and then, with an independent key, the particle smoother with MCMC (independent Metropolis-Hastings) backward sampling started from the filter's ancestors. The evidence estimate times the average of any function of the smoothed paths is an unbiased estimate of the unnormalised smoothing expectation of that function, for every number of MCMC steps (zero included), because the moves leave the backward distributions invariant. True when the log potential of the smoother is symmetric in its two states and does not depend on the inputs and the generator splits independently; more generally for every backward sampler that treats its slots alike and leaves the backward distributions invariant (tracing, exact and MCMC sampling).", "quantifier": "all numbers of MCMC steps, series lengths, numbers of particles and of trajectories, models with measurable functions, functions of the path, the three resampling functions; ideal random number generators with independent splitting", "why_tests_cant": "an expectation over all keys, for all models and all functions of the path", "anchors": ["cuthbert/smc/backward_sampler.py:smoother_combine", "cuthbertlib/smc/smoothing/mcmc.py:simulate", "cuthbertlib/smc/smoothing/exact_sampling.py:simulate", "cuthbertlib/smc/smoothing/tracing.py:simulate"]}
{"id": "C126", "title": "Particle Gibbs with the conditional resampling functions leaves the smoothing distribution invariant", "statement": "Start from a path of the smoothing distribution. Give its states uniform random slots, run a particle filter that uses a conditional resampling function and keeps the path in these slots, run the particle smoother with ancestor tracing, and pick one of its paths at random. The new path again has the smoothing distribution, and so has the path after any number of such sweeps. The same holds with exact backward sampling when the smoother's log potential is a density of the step that does not depend on the inputs, and with MCMC backward sampling, for any number of MCMC steps, when this density is also symmetric.", "quantifier": "all numbers of particles (one included), of trajectories and of sweeps, all series lengths, models with measurable functions and finite log potentials, functions of the path, the three conditional resampling functions and the three resampling functions of the smoother; ideal random number generators, with keys of the filter and the smoother drawn independently", "why_tests_cant": "an identity between distributions on path space, for all models; a biased kernel only shows after many sweeps", "anchors": ["cuthbertlib/resampling/multinomial.py:conditional_resampling", "cuthbertlib/resampling/systematic.py:conditional_resampling", "cuthbertlib/resampling/killing.py:conditional_resampling", "cuthbert/smc/particle_filter.py:filter_combine", "cuthbert/smc/backward_sampler.py:smoother_combine"]}
{"id": "C127", "title": "Rounding errors in the sums of the weights do not spoil resampling", "statement": "inverse_cdf adds the normalised weights one by one in floating point. Whatever the rounding, the indices stay in range and sorted, a uniform draw gets every particle with a probability that equals its weight up to an error of the order of the number of particles times the machine precision, and a particle of weight zero is never drawn.", "quantifier": "all numbers of particles and of draws, all representable weights that sum to one, all sorted draws, every monotone rounding of additions with a given relative error, in particular rounding to nearest with any number of bits and any rule for ties; CPU implementation", "why_tests_cant": "the error depends on the number of particles and on the order of the weights; the failing cases need special weights and draws close to one", "anchors": ["cuthbertlib/resampling/utils.py:inverse_cdf", "cuthbertlib/resampling/utils.py:_inverse_cdf_cpu", "cuthbertlib/resampling/utils.py:_inverse_cdf_numba"]}
{"id": "C128", "title": "Rounding errors of the discrete filter grow at most linearly", "statement": "If every arithmetic operation has a relative error of at most u, the discrete filter returns after t steps probabilities with a relative error of at most 2(2t+1)Cu and a log normalising constant with an absolute error of at most (2t+1)Cu, where C = 3N + D + 12L + 15 for N states, spread D of the log-likelihoods and size L of the log evidences; sequentially and in parallel. In particular errors in tiny probabilities are relative, not absolute, and the parallel scan, whose operator is not associative in floating point, is as accurate.", "quantifier": "all numbers of states and steps, all hidden Markov models with positive row probabilities and all log-likelihoods (finite or -inf) within the stated bounds, every arithmetic of the given precision with any order of summation, in particular rounding to nearest with any number of bits; both modes", "why_tests_cant": "tests compare a few runs with a tolerance; they do not tell how the error depends on the number of steps, the number of states and the size of the probabilities", "anchors": ["cuthbertlib/discrete/filtering.py:condition_on_obs", "cuthbertlib/discrete/filtering.py:filtering_operator", "cuthbert/discrete/filter.py:filter_prepare", "cuthbert/discrete/filter.py:init_prepare", "cuthbert/filtering.py:filter"]}
{"id": "C129", "title": "The discrete filter in floating point returns numbers", "statement": "For every hidden Markov model in which every state gives every observation a positive probability, the discrete filter in floating point returns finite probabilities and a finite log normalising constant, however far apart the log-likelihoods of the states are.", "quantifier": "all numbers of states and steps, all hidden Markov models with positive row probabilities, every floating-point format with an exponential function that underflows below some -B; both modes", "why_tests_cant": "needs log-likelihoods that differ by more than the range of the exponential function together with zero transition probabilities", "anchors": ["cuthbertlib/discrete/filtering.py:condition_on_obs", "cuthbertlib/discrete/filtering.py:filtering_operator", "cuthbert/discrete/filter.py:filter_prepare"]}
{"id": "C130", "title": "Rounding errors of the discrete smoother grow at most quadratically", "statement": "If every arithmetic operation has a relative error of at most u and the filtering distributions one of at most E, the discrete smoother returns at time t of T probabilities with a relative error of at most E + (T - t)(2E + (2N + 4)u) for N states. With the filter of C128 in front, E = 2(2T + 1)Cu, so the error grows at most quadratically with the length of the series. The smoother may be called with or without model inputs, sequentially or in parallel.", "quantifier": "all numbers of states and steps, all hidden Markov models with positive row probabilities whose states are all reachable at every step, every arithmetic of the given precision; both modes of filter and smoother independently", "why_tests_cant": "tests compare a few runs with a tolerance; they do not tell how the error depends on the length of the series and on the size of the probabilities", "anchors": ["cuthbertlib/discrete/smoothing.py:get_reverse_kernel", "cuthbertlib/discrete/smoothing.py:smoothing_operator", "cuthbert/discrete/smoother.py:smoother_prepare", "cuthbert/discrete/smoother.py:convert_filter_to_smoother_state", "cuthbert/smoothing.py:smoother"]}
{"id": "C131", "title": "Resampling draws every particle with its normalised weight, also in floating point", "statement": "If all operations of inverse_cdf (normalising the log weights, summing them, comparing) are rounded, a uniform draw gets each particle with its normalised weight as probability, up to an error of the order of the number of particles times the machine precision, however large the log weights and however different from each other. Adding a constant to all log weights makes no difference beyond that.", "quantifier": "all numbers of particles, all log weights (finite or -inf, not all -inf), every arithmetic of a given precision whose exponential function underflows below some -B, in particular rounding to nearest with any number of bits; CPU implementation", "why_tests_cant": "the error depends on the size of the log weights, which tests keep near zero", "anchors": ["cuthbertlib/resampling/utils.py:inverse_cdf", "cuthbertlib/resampling/utils.py:_inverse_cdf_cpu", "cuthbertlib/resampling/utils.py:_inverse_cdf_numba"]}
{"id": "C132", "title": "Inexact triangularisation does not make the Kalman filter drift", "statement": "Filter a sequence with predict and update, with a triangularisation (QR) that reproduces the covariance it is given only up to a factor exp(eps) in every direction. As long as exact filtering returns numbers, so does this one. After t steps the variance of every linear combination of the state is right up to a factor exp(2 t eps), its mean is off by at most 4 eps times the sum over j of j times the standardised length of the j-th innovation, in units of its standard deviation (for 4 t eps <= 1), and the log-likelihood is off by a sum of terms of the same order. The bounds do not depend on the model, contain only quantities the filter reports, and hold with missing components; the growth of the variances is attained.", "quantifier": "all dimensions, numbers of steps, models, observations (with missing components), initial states with any covariance factor, every lower triangular approximate factorisation", "why_tests_cant": "an error bound over all models, lengths and QR implementations; tests compare a few steps with a tolerance", "anchors": ["cuthbertlib/kalman/filtering.py:predict", "cuthbertlib/kalman/filtering.py:update", "cuthbertlib/linalg/tria.py:tria", "cuthbertlib/linalg/collect_nans_chol.py:collect_nans_chol", "cuthbert/gaussian/moments/non_associative_filter.py:filter_combine", "cuthbert/gaussian/taylor/non_associative_filter.py:filter_combine"]}
{"id": "C133", "title": "Inexact triangularisation does not make the Kalman smoother drift", "statement": "Filter T steps with predict and update and smooth back with the Rauch-Tung-Striebel update, with a triangularisation (QR) that reproduces the covariance it is given only up to a factor exp(eps) in every direction. As long as exact smoothing returns numbers, so does this. The smoothing variance of every linear combination of any state is right up to a factor exp(12 T^2 eps) if 4 T eps <= 1, and its mean is off, in units of its smoothing standard deviation, by at most the root of the sum of the squares of the errors of the filter means and of the errors of the smoothing gains, each of which is the standardised length of an innovation times the relative error of a covariance.", "quantifier": "all dimensions, numbers of steps, models, observations (with missing components), initial states, every lower triangular approximate factorisation", "why_tests_cant": "an error bound over all models, lengths and QR implementations; tests compare a few steps with a tolerance", "anchors": ["cuthbertlib/kalman/smoothing.py:update", "cuthbertlib/kalman/filtering.py:predict", "cuthbertlib/kalman/filtering.py:update", "cuthbertlib/linalg/tria.py:tria"]}
{"id": "C134", "title": "Comparing models by their log normalising constants favours the right one", "statement": "Simulate T observations from one model and run the filter on them with this model and with a wrong one. The probability that at any time t <= T the log normalising constant of the wrong model exceeds that of the right one by c or more is at most exp(-c), whatever T: comparing after every observation and stopping at will does no harm. At every time the log normalising constant of the right model is larger on average, strictly so unless both always agree. For the Kalman filter and the discrete filter, sequential or parallel; the two models may have different state spaces.", "quantifier": "all pairs of models with nonsingular noise (Kalman) or positive evidence (discrete), all lengths, thresholds, modes", "why_tests_cant": "a statement about the law of the outputs over all data sets, uniformly in the length; a simulation study estimates it for one pair of models", "anchors": ["cuthbert/gaussian/kalman.py:build_filter", "cuthbert/discrete/filter.py:build_filter", "cuthbert/filtering.py:filter", "cuthbertlib/kalman/generate.py:generate_lgssm"]}
{"id": "C135", "title": "A mixture of discrete models may be filtered in one run", "statement": "Let the initial distribution given to the discrete filter be a mixture of distributions q_j with weights p_j. At every time the log normalising constant of the run from the mixture is log sum_j p_j exp(l_j), where l_j is the log normalising constant of the run from q_j, and the filtering distribution is the mixture of the filtering distributions of these runs with weights proportional to p_j exp(l_j). If the states fall into classes that are never left, one per candidate model, then the probability the single run gives to class j is the posterior probability of model j, and within the class it gives the filtering distribution of model j.", "quantifier": "all models, mixtures, data with positive evidence, times, sequential or parallel", "why_tests_cant": "an identity between runs for all models, weights, lengths and data", "anchors": ["cuthbert/discrete/filter.py:build_filter", "cuthbertlib/discrete/filtering.py:filtering_operator", "cuthbert/filtering.py:filter"]}
{"id": "C136", "title": "A NaN component is an observation with infinite noise", "statement": "Replace the missing (NaN) components of the observations by arbitrary numbers and add kappa to the variance of their noise. As kappa grows, the means and covariances of the Kalman filter and smoother tend to those of the run with NaN, whatever the numbers filled in, and the log normalising constant plus (k/2) log(2 pi kappa), k being the number of missing components so far, tends to that of the run with NaN.", "quantifier": "all linear Gaussian models with nonsingular noise of the observed components, all patterns of missing components, all filled-in values, all lengths and times, sequential or parallel; the smoother for nonsingular process noise", "why_tests_cant": "a limit, for all models, patterns of missing components and filled-in values", "anchors": ["cuthbertlib/linalg/collect_nans_chol.py:collect_nans_chol", "cuthbertlib/kalman/filtering.py:update", "cuthbert/gaussian/kalman.py:build_filter", "cuthbert/gaussian/kalman.py:build_smoother"]}
{"id": "C137", "title": "With a diffuse prior the Kalman filter and smoother condition a flat prior", "statement": "Let the initial covariance be kappa P0 with P0 positive definite, and let the observed components up to time t determine the initial state when there is no noise (observability). As kappa grows, the filtering mean and covariance at time t tend to limits that depend neither on the initial mean nor on P0, and the log normalising constant plus half the log determinant of 2 pi kappa P0 tends to a limit. The limits are the posterior and the log evidence of a flat (Lebesgue) prior for the initial state. With all data observable, the law that the smoother reports at every time tends to the posterior of the flat prior: the expectations of all functions with finite flat integral converge.", "quantifier": "all linear Gaussian models with nonsingular noise of the observed components, all observations incl. missing components, all initial means and positive definite P0, all times from which the initial state is observable, sequential or parallel; the smoother for nonsingular process noise", "why_tests_cant": "a limit, for all models, data and priors, and an identity with an integral over the state space", "anchors": ["cuthbert/gaussian/kalman.py:build_filter", "cuthbert/gaussian/kalman.py:build_smoother", "cuthbertlib/kalman/filtering.py:filtering_operator", "cuthbertlib/kalman/filtering.py:update"]}
{"id": "C138", "title": "A state augmented by a register is filtered to the smoothing distribution of what the register holds", "statement": "Augment the state of a model by a register that at each step becomes, without noise, a function of the previous state and its previous content (linear for the Kalman filter, arbitrary for finite models). The filter of the augmented model returns at each time the joint posterior, given the data so far, of the state and of the content of the register as a function of the path, together with the filtering result and log normalising constant of the original model. In particular, if the register holds an earlier state (stored once: fixed-point smoothing; stored at each step: lag-one smoothing), the filter returns for it what the smoother returns for the original model at that earlier time from the same data.", "quantifier": "all models (Kalman: nonsingular noise of the observed components; discrete: positive predictive likelihoods), all data, all registers and initial contents, all pairs of times, all orders of the coordinates of the augmented state, sequential or parallel", "why_tests_cant": "an identity between two programs for all models, data, registers and horizons", "anchors": ["cuthbert/gaussian/kalman.py:build_filter", "cuthbert/gaussian/kalman.py:build_smoother", "cuthbert/discrete/filter.py:build_filter", "cuthbert/discrete/smoother.py:build_smoother", "cuthbert/filtering.py:filter", "cuthbert/smoothing.py:smoother"]}
{"id": "C139", "title": "Rounding errors change the log normalising constant of a particle filter by a bounded amount", "statement": "If each operation on log weights (addition, subtraction, exponential, logarithm, sum) has relative error at most u, the log normalising constant that the particle filter reports after t steps differs from the sum of the logs of the weighted averages of the potentials of the particles of the same run by at most 2(t+1)(u(10(G+V)+6 log N+Z)+12((N+1+2B)u+2N exp(-B+uB))), where G bounds the log potentials, V the log weights after resampling, Z the exact partial sums, and exp underflows below -B. In particular, with p-bit floating point and a resampling function that always resamples, the reported number is the sum of the logs of the averages of the potentials up to an error of order 2^-p; no weight underflow, however extreme the log potentials, makes it NaN or infinite while one particle has a finite log potential.", "quantifier": "all models, potentials (also -inf), proposals, resampling functions that do not raise, keys, numbers of particles, numbers of steps T with T u <= 1/2, all arithmetics with the error bound", "why_tests_cant": "an error bound for all models, keys, numbers of particles and steps; tests compare few runs in double precision with a tolerance", "anchors": ["cuthbert/smc/particle_filter.py:build_filter", "cuthbert/smc/particle_filter.py:init_prepare", "cuthbert/smc/particle_filter.py:filter_combine", "cuthbert/filtering.py:filter"]}
{"id": "C140", "title": "Estimates satisfy the constraints that the model satisfies", "statement": "If the model keeps the state within known sets for certain (linear equations C_t x_t = b_t for linear-Gaussian models, for example a constant total; sets of states for finite models; any sets for particle methods), then the filters and smoothers respect them: C_t times the mean is b_t and the covariance has no part across, excluded states have probability zero, all particles are in the sets; and the log normalising constant is finite when the evidence is.", "quantifier": "all models and constraints, also time-varying and several at once, all data (also data that contradict the constraint), both modes, all keys", "why_tests_cant": "an invariant of all runs, for all models with constraints; tests use models with full-rank noise", "anchors": ["cuthbert/gaussian/kalman.py:build_filter", "cuthbert/gaussian/kalman.py:build_smoother", "cuthbertlib/kalman/filtering.py:filtering_operator", "cuthbertlib/kalman/smoothing.py:associative_params_single", "cuthbert/discrete/filter.py:build_filter", "cuthbert/discrete/smoother.py:build_smoother", "cuthbert/smc/particle_filter.py:build_filter"]}
{"id": "C141", "title": "Observations without noise are reproduced exactly", "statement": "Observation noise may be singular or zero, as long as process noise and observation noise together reach all observed components (H Q H' + R nonsingular). Then the Kalman filter returns numbers in both modes; for each combination of the observed components that is free of noise the filtering mean reproduces the data, w'(H m + d) = w'y, and the filtering law has no variance in that direction; the smoother does the same where the predictive covariances are nonsingular; the results for zero noise are the limits of the results for noise tending to zero; and the log normalising constant is finite.", "quantifier": "all linear-Gaussian models, data and missing components with H Q H' + R nonsingular, all noise-free combinations, all continuous families of models, both modes, all keys", "why_tests_cant": "a statement about all singular noise factors and about limits; test models have full-rank observation noise, and for tiny noise rounding hides the question", "anchors": ["cuthbert/gaussian/kalman.py:build_filter", "cuthbert/gaussian/kalman.py:build_smoother", "cuthbertlib/kalman/filtering.py:associative_params_single", "cuthbertlib/kalman/filtering.py:filtering_operator", "cuthbertlib/kalman/smoothing.py:associative_params_single"]}
{"id": "C142", "title": "A model that overstates the noise does not understate the errors", "statement": "Let the data come from a linear process, Gaussian or not, and let Kalman filter and smoother be run with the right dynamics and observation matrices but other noise covariances. If the covariances given (of the initial state, the transitions and the observations) are at least the true ones, then the means returned are unbiased and the covariances returned are at least the covariances of the actual errors, at every time. If the covariances given are at most the true ones, the covariances returned are at most those of the actual errors.", "quantifier": "all processes with uncorrelated noises, all noise factors above or below the true ones in the Loewner order, all patterns of missing components, all times, all linear functionals of the state, both modes of filter and smoother", "why_tests_cant": "a statement about expectations over all processes and all misspecified covariances; a test would have to simulate one process and could not tell a small violation from sampling error", "anchors": ["cuthbert/gaussian/kalman.py:build_filter", "cuthbert/gaussian/kalman.py:build_smoother", "cuthbertlib/kalman/filtering.py:update", "cuthbertlib/kalman/smoothing.py:update"]}
{"id": "C143", "title": "Smoothing does not depend on the direction of time", "statement": "Take a model with T steps, the last of them unobserved, and the model run backwards: it starts from the law of the state at time T, its transitions are those in the opposite direction, and the observations come in reverse order. The filters of the two models report the same final log normalising constant, and the smoother of the backward model returns at time t what the smoother of the forward model returns at time T - t. This holds for the discrete and for the Kalman method. Every discrete model in which no state is impossible at any time, and every linear-Gaussian model with nonsingular state covariances after time 0, has such a backward model.", "quantifier": "all pairs of models that are the reverse of each other, all lengths, all observations and patterns of missing components, all times, sequential or parallel mode chosen separately in each of the four runs", "why_tests_cant": "an identity between runs on two different models, for all models; filter and smoother play different roles in the two runs, so no single expected value can be compared against, and a test would check one model", "anchors": ["cuthbert/discrete/filter.py:build_filter", "cuthbert/discrete/smoother.py:build_smoother", "cuthbertlib/discrete/filtering.py", "cuthbertlib/discrete/smoothing.py", "cuthbert/gaussian/kalman.py:build_filter", "cuthbert/gaussian/kalman.py:build_smoother", "cuthbertlib/kalman/filtering.py:update", "cuthbertlib/kalman/smoothing.py:update"]}
{"id": "C144", "title": "Observations matter only through the information they carry", "statement": "Take two linear-Gaussian models with the same initial law and transitions whose observations may differ in number, scale, offset, noise and pattern of missing components, but which agree in each step in the precision H' R^-1 H and in the weighted observation H' R^-1 (y - d). Then Kalman filter and smoother return the same means and covariances, and the log normalising constants differ by the difference of the log densities of the observations at state zero, which does not depend on initial law or dynamics. In particular observations of any dimension can be replaced by as many numbers as the state has components, with unit noise.", "quantifier": "all linear-Gaussian models with nonsingular noise of the observed components, all pairs of observations with the same information, all dimensions, lengths and times, both modes in each run", "why_tests_cant": "an equality of runs over all pairs of equivalent observations of any dimension; the two runs go through factorisations of different sizes, and a test can compare only a few pairs", "anchors": ["cuthbert/gaussian/kalman.py:build_filter", "cuthbert/gaussian/kalman.py:build_smoother", "cuthbertlib/kalman/filtering.py:update", "cuthbertlib/kalman/filtering.py:associative_params_single"]}
{"id": "C145", "title": "The moments filter and smoother commute with affine changes of coordinates", "statement": "Take a nonlinear model given by differentiable conditional means and Cholesky factors, with callbacks that linearise at the mean of the state they receive, and rewrite it for the variable T x + b. The sequential non-associative moments filter then returns, at every time, the mean mapped by T x + b, the covariance mapped to T P T', and the same log normalising constant. If T is invertible, the moments smoother run on these states, in either mode, returns means and covariances mapped in the same way, and NaN at the same times. Results do not depend on the units or the origin in which the state is expressed.", "quantifier": "all differentiable conditional moments, all affine maps (for the filter also singular ones and into a space of another dimension), all observations including missing ones, with nonsingular noise of the observed components, all dimensions, lengths, keys and times, all QR routines within their contract (they may differ between the runs)", "why_tests_cant": "an equality between two runs, over all nonlinear models and all affine maps; a test compares a few models in a few coordinates", "anchors": ["cuthbert/gaussian/moments/filter.py:build_filter", "cuthbert/gaussian/moments/non_associative_filter.py:filter_combine", "cuthbertlib/linearize/moments.py:linearize_moments", "cuthbertlib/kalman/filtering.py:predict", "cuthbertlib/kalman/filtering.py:update", "cuthbert/gaussian/moments/smoother.py:build_smoother"]}
