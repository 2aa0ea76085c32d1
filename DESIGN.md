# Formal model of state-space-models/cuthbert in Lean 4

The model is in `lean/Verif/Model`, the independent specifications in
`lean/Verif/Spec`, helper lemmas in `lean/Verif/Lemmas` and the property
theorems (with non-vacuity examples) in `lean/Verif/Props`.
`properties.jsonl` holds the English properties, `MANIFEST.json` the link from
property to theorem names, `seeded/LOG.jsonl` the record of the wrong programs
tried against the theorems.

## 1. How the code is modelled

* **Arrays with a leading time axis** are `List`s; fixed-size arrays are
  functions on `Fin n` or Mathlib `Matrix (Fin m) (Fin n) ℝ`. Exceptions are
  values (`Except Err`).
* **`jax.lax.scan`** is a fold that collects its outputs. **`associative_scan`**
  is modelled by its recursive odd/even algorithm (not by the fold it is meant
  to equal); that the two agree under associativity is a theorem.
* **Floating point**: arithmetic is exact. Two scalar models are used:
  * `Fl` (`nan | ninf | pinf | fin r`) with IEEE special-value rules and no
    rounding, where NaN and infinity matter (discrete filters, log weights, scalar
    log densities, resampling weights);
  * `ℝ`, with `Option` where the code produces NaN: a triangular solve with a zero
    pivot is `none`, a missing observation is `none`.
  Rounding, overflow to infinity and subnormals are not modelled, except the rounding of
  the sums of weights in `inverse_cdf` on a CPU (`Model/RoundedResampling.lean`) and that of
  all operations of the discrete filter and smoother (`Model/RoundedDiscrete.lean`)
  and of the normalisation of weights (`Model/RoundedWeights.lean`),
  and the inexactness of the triangularisation in `predict`, `update` and `smoother_update` (`Model/RoundedKalman.lean`).
* **Library kernels** are parameters with a recorded contract, not definitions:
  QR (`QᵀQ = 1`, `A = QR`, `R` upper trapezoidal), symmetric SVD, stable argsort,
  automatic differentiation (Fréchet derivative), Gauss-Hermite nodes. Every
  theorem holds for every instance of the contract, and existence of an instance is
  proved so that no theorem is vacuous.
* **Randomness**: a PRNG key is an abstract value and `split` a parameter; the
  numbers drawn are explicit arguments of the model functions. Statements about laws
  take the draws independent and exactly uniform / normal / categorical.
* `vmap`, `jit`, dtypes, device placement and `numba` compilation are not
  modelled (`vmap` is `List.map`/pointwise).

## 2. Trusted base

* Lean 4.33.0's kernel. Axioms of every theorem: at most `propext`,
  `Classical.choice`, `Quot.sound`. No axioms of our own, no `sorry`,
  `native_decide` or `bv_decide`.
* The reading of the Python code: each model definition cites file and lines.
* The reading of JAX: `lax.scan`, `lax.associative_scan`, `lax.cond`,
  `searchsorted`, `dynamic_slice` (clamping), `at[].set`, `roll`, `logsumexp`,
  `solve_triangular`, `cho_solve`, `slogdet`, `linalg.qr/svd/eigh` behave as documented; JAX's
  source is not in the sandbox.

## 3. Plan per property

| id | modelled | proof |
|----|----------|-------|
| C01-C03, C07, C08 | `filter` with all branches over an arbitrary `Filter` object | induction over the input list |
| C02, C06 | `associative_scan` recursion | strong induction on length; prefix products under associativity on a closed set |
| C04-C06 | `smoother`, length checks, key allocation | induction; list lemmas |
| C09-C14 | `condition_on_obs`, operator, discrete filter and smoother over `Fl` | invariant "f is the conditional kernel and log_g the log evidence" against a path-sum specification; C14 is false for some models: counterexample plus partial theorem |
| C15-C19 | `tria`, `collect_nans_chol`, `marginal_sqrt_cov`, `symmetric_inv_sqrt` | matrix algebra from the QR / SVD contract |
| C20 | `logpdf` with its four branches | algebra; scalar NaN and negative-factor cases are counterexamples |
| C21-C26 | Kalman `predict`, `update`, scan element, operator, filter | moment algebra plus Gaussian measures (completing the square); induction over time |
| C27 | same | counterexample with rank-deficient Q; partial theorem for nonsingular factors; exact condition for NaN in sequential mode; finite parallel values are right |
| C28-C31 | Kalman smoother | algebra plus Gaussian measures |
| C32 | all of the above | functions of `L Lᵀ` only |
| C33 | sampler | associativity, path recursion, law |
| C34-C36 | linearisation | Fréchet derivatives of quadratic forms |
| C37-C39 | moments and Taylor filters | reduction to the Kalman theorems |
| C40-C44 | quadrature rules | finite-sum algebra |
| C45-C52 | inverse cdf, resampling schemes, ESS | order arguments, interval integrals / finite laws |
| C53-C62 | particle filters, backward samplers | expectation operators; genealogy by induction; C57-C60 are false in general: witnesses and partial theorems |
| C61 | `dummy_tree_like` | structural induction over trees |
| C63, C73 | `generate_cholesky_factor`, `generate_lgssm` | laws of Gaussian images; the joint law of the generated data is the law `filter`/`smoother` condition |
| C64 | `logpdf` on raw array shapes | case analysis; broadcasting counterexamples |
| C65-C67, C70 | linearised smoothers, skipped predictions, `mean_prev` | reduction to the Kalman theorems; C66 and C70 are false in general |
| C68, C69 | quadrature rules | moments of the standard normal; normal equations |
| C71, C72 | particle smoother by tracing, marginal particle filter | lifting to a path model; C72 is false in general |
| C74 | `filter(..., parallel=True)` with filters that are not associative | which steps the odd/even scan visits |
| C75, C76 | particle filter, resampling: errors as functions of the number of particles | second moments of resampled sums, induction over steps; C76 is false of systematic resampling |
| C77 | particle filter and exact backward sampling together | expectation of path functionals of the particle histories; false with prefix splitting |
| C78 | particle filter run on the model given to the discrete or Kalman filter | convergence in probability of particle averages and log evidence to what the exact filter and smoother return; equality of means of exp(log evidence) |
| C79 | pairs of runs of the Kalman filter and smoother | Loewner order between the returned covariances |
| C80 | pairs of runs of the Kalman filter and smoother | affine image of the means and covariances; difference of the log evidences |
| C81 | pairs of runs of the discrete filter and smoother | class totals of the distributions; equal log evidences |
| C82 | pairs of runs of different lengths | equal states at corresponding times |
| C83 | filter and smoother runs, expectation over independent keys | explicit bound on the mean squared error; convergence in probability |
| C84 | filter and smoother runs, expectation over independent keys | explicit bound on the mean squared error; convergence in probability |
| C85 | one backward step, random over keys | geometric bound on the distance of the laws; convergence of the joint law; NaN start |
| C86 | whole runs in both modes, three data sets | exact equality of factors and gains, linear relation of means |
| C87 | whole runs, special values of floating point | NaN propagation and what resampling makes of it |
| C88 | whole runs, pairs of runs | geometric forgetting under strong mixing |
| C89 | whole runs, laws under simulation | calibration, minimum mean squared error, likelihoods sum to one |
| C90 | whole runs in both modes, singular parameters | characterisation of NaN results and their propagation |
| C91 | whole filter and smoother runs in both modes | optimality of the smoothed path against every trajectory (least squares, joint density) |
| C92 | moments filter and smoother, whole runs | directional derivatives of the exact log posterior; fixed points of re-linearisation |
| C93 | shapes and data types of placeholder states | direct computation for all dimensions; negation in dimension 1 |
| C94 | whole filter and smoother runs in both modes | contraction of the difference of two runs, in reported standard deviations |
| C95 | whole filter and smoother runs in both modes, the objective of an M-step | lower bound by change of measure and Jensen's inequality, Fisher's identity |
| C96 | the has_aux variants of the linearisation functions | same result as without the auxiliary output, and what it means |
| C97 | Taylor updates by potentials with a singular Hessian | added information if nonsingular; spurious certainty along flat directions otherwise |
| C98 | weights of the particle smoother with an adaptive resampler | false above the threshold (bias for every number of particles), reduction to the wrapped function below it |
| C99 | Taylor update by a quadratic log potential | exact for concave ones, counterexamples for convex and linear ones, general formula with the absolute Hessian |
| C100 | Evidence of log potentials in the Taylor filter | exact up to the sum of the dropped constants; density and potential form differ by sum log abs det H |
| C101 | EM with the discrete smoother (pairs, monotonicity, Baum-Welch, Fisher) | proved |
| C102 | Taylor = moments for additive Gaussian noise | proved |
| C103 | Iterated Taylor smoothing | ascent for log potentials and additive noise; counterexample for state-dependent noise |
| C104 | Independent subsystems | joint run equals separate runs, Kalman and discrete, filter and smoother |
| C105 | Innovations | joint law of the innovations under the simulation measure is a product of Gaussians |
| C106 | Differentiability | results are C^n functions of the parameters; Fisher's identity without assumptions on derivatives |
| C107 | Bias of the log evidence | `P(logZ ≥ z + a) ≤ exp(-a)`; expected excess below expected shortfall |
| C108 | Marginal particle filter | unbiased for proposals that ignore the past; otherwise inconsistent: limit 1/2 instead of 1 |
| C109 | Padding | Results for a sequence with unobserved steps appended equal those without them |
| C110 | Steady state | Reported covariance converges geometrically to the unique solution of the Riccati equation |
| C111 | Static state | Final results do not depend on the order of the observations; smoothed results are constant in time |
| C112 | Maps of the state space | Particle filters and smoothers commute with semi-conjugacies of the model, key by key |
| C113 | Best linear estimation | Kalman filter and smoother without Gaussian assumptions |
| C114 | Range of the evidence | Particle, marginal particle, discrete and Kalman filters |
| C115 | Parameter posterior by Metropolis-Hastings around the particle filter | Particle filter with all resampling functions |
| C116 | Error of the particle filter uniformly in time | Particle filter with multinomial, killing and adaptive resampling |
| C117 | Growth of the relative error of the evidence | Particle filter with multinomial, killing and adaptive resampling |
| C118 | Continuations of one filter state | the key of `filter_prepare` acts one step late: the first steps of all continuations share their random numbers |
| C119 | Sigma points close to the mean | limits of gain, offset and covariance for all rules; the unscented rule only with `beta = alpha^2 - 1` |
| C120 | Thresholds at the two ends | whole runs of the particle filter; importance sampling in closed form |
| C121 | Gradients of the particle filter | derivative of the log normalising constant for a fixed key; almost every key, all particle numbers |
| C122 | Variance of resampling | exact mean squared errors of averages and of copy numbers; all weights and functions |
| C123 | MCMC particle smoother | law of whole trajectories, limit in the number of steps |
| C124 | tracing smoother | merging of the ancestral lines, bound on the probability that they have not merged |
| C125 | particle smoother with MCMC backward sampling | unbiased path estimates; invariance of the backward distributions suffices |
| C126 | conditional resampling, particle filter and smoother | one sweep of particle Gibbs preserves the smoothing distribution |
| C127 | inverse_cdf in rounded arithmetic | every addition of the CPU implementation is rounded; error bounds and zero weights |
| C128 | discrete filter in rounded arithmetic | every scalar operation is that of an arithmetic with relative error u; forward error analysis of filtering_operator, any bracketing of the scan |
| C129 | discrete filter with underflow | exp(x) = 0 below -B; finite results within the range, nan beyond it |
| C130 | discrete smoother in rounded arithmetic | every scalar operation is that of an arithmetic with relative error u; any bracketing of the reverse scan |
| C131 | weights of resampling in rounded arithmetic | logsumexp, exp and the sums are those of an arithmetic with relative error u and underflow; CPU |
| C132 | predict and update with an inexact triangularisation | tria is a parameter known up to a factor exp(eps) in every direction; other operations exact; sequential predict/update only, not the associative operator |
| C133 | smoothing.update with an inexact triangularisation | tria is a parameter known up to a factor exp(eps) in every direction; other operations exact; not the associative operator |
| C134 | Kalman and discrete filter run on data simulated from another model | data are ideal draws; two models only |
| C135 | discrete filter started from a mixture | the components share transition and observation callbacks |
| C136 | Kalman filter and smoother with missing components, limit of large noise | exact arithmetic; smoother for nonsingular process noise |
| C137 | Kalman filter and smoother, limit of a large initial covariance | exact arithmetic; smoother for nonsingular process noise |
| C138 | Kalman and discrete filters on an augmented state, smoothers | exact arithmetic; the register starts at a known content |
| C139 | the particle filter with rounded weights (`Model/RoundedParticleFilter`) | rounding inside proposals, potentials and resampling is part of arbitrary functions; overflow not modelled |
| C140 | Kalman, discrete and particle filters and smoothers | exact arithmetic; in floating point a factor that should be singular may be only almost singular |
| C141 | Kalman filter and smoother with singular observation noise | exact arithmetic |
| C142 | Kalman filter and smoother told other noise covariances than the data have | exact arithmetic |
| C143 | discrete and Kalman filter and smoother on a model and on the model run backwards | exact arithmetic |
| C144 | Kalman filter and smoother on two observation models that carry the same information | exact arithmetic |
| C145 | two runs of the sequential non-associative moments filter, and of the moments smoother on their states, in x and in T x + b | exact arithmetic; derivatives are `fderiv` |

## 4. Not expressible in the model

Run time, memory, GPU/CPU numerical differences, rounding error (except in C127–C133)
and the statistical quality of the PRNG cannot be expressed; properties are stated in exact
arithmetic.

## 5. Coverage

`tools/coverage.py` lists every `def` in `/repo/cuthbert` and `/repo/cuthbertlib` whose first line no
citation in `lean/Verif/Model` covers. What it lists has no executable content of its own:

* `Protocol` classes (`__call__` without a body) and typing overloads;
* `resampling_decorator`, `conditional_resampling_decorator` (they attach docstrings);
* `ParticleFilterState.n_particles` (a shape);
* the `get_sigma_points` methods, which are modelled inside the `weights` functions that produce the
  points (cited there in prose).

Everything else is modelled: `cuthbert/filtering.py`, `smoothing.py`, `inference.py`, `utils.py`,
`discrete/*`, `gaussian/{kalman,types,utils}.py`, `gaussian/moments/*`, `gaussian/taylor/*`, `smc/*` and
`cuthbertlib/{discrete,kalman,linalg,linearize,quadrature,resampling,smc,stats,types}`. Examples, docs,
tests and benchmarks are not modelled, and neither are JAX, NumPy, SciPy and `numba` themselves (section 2).

Contracts of random number generators (`IdealRng`, `IdealGen` in `Spec/`): one draw has the documented law, and
the parts of one `split` are independent keys. Whether the parts of two splits of the *same* key are related
is left open; the two cases that matter are named hypotheses (`PrefixSplit`: JAX's default, the shorter split
is a prefix of the longer one; `IndepSplit`: they are independent). `exists_ideal_prefix`, `exists_ideal_indep`
and `gkeyRng_ideal` show that each contract has an instance.

## 6. Findings: properties that are false of the code

Each is a theorem with an explicit witness, next to the partial theorem for the inputs where the property holds.

| property | what the code does | theorem |
|----------|--------------------|---------|
| C14 | a discrete model with evidence 1/2 gives NaN: a state that cannot have been the previous one poisons the operator | `discrete_filter_nan_despite_positive_evidence` |
| C20, C64 | `logpdf` broadcasts a one-dimensional `x` against a larger factor; a scalar NaN is not marginalised | `logpdf_shape_mismatch_accepted`, `logpdf_scalar_not_finite` |
| C27 | a singular `P0` gives NaN evidence in both modes; a singular `Q` gives NaN in parallel mode only | `log_likelihood_nan_known_initial_state`, `log_likelihood_nan_static_state` |
| C41, C119 | statistical linearisation with the (default) unscented rule multiplies the noise covariance by `2 - alpha^2 + beta` = 3.75, for affine models and in the limit of small uncertainty for all models | `unscented_default_inflates_noise`, `unscented_default_not_taylor` |
| C44 | square-root mode returns a wrong (zero) factor for a singular residual covariance; negative weights can give NaN | `modes_disagree`, `unscented_classical_sqrt_nan` |
| C46, C48 | a uniform draw of exactly 0 selects an impossible particle (systematic, killing); multinomial indices collapse on the CPU path in that case | `systematic_counts_fail_at_zero`, `killing_keeps_dead`, `multinomial_collapse` |
| C53, C60 | the particle filter splits its first key twice: with prefix splitting (JAX's default) initial particles and first propagations share keys, and the evidence estimate is biased (5/8 instead of 1/2) | `particle_filter_key_reuse`, `particle_filter_biased` |
| C53 | with adaptive resampling, evidence is NaN instead of `-inf` once all particles are dead | `adaptive_dead_evidence` |
| C57 | `mcmc.py:74` evaluates the first log density with exchanged arguments: the chain's law is wrong (5/8 instead of 1/2) | `mcmc_not_invariant` |
| C58 | `smoother_combine` uses the inputs of the transition `t+1 → t+2` for `t → t+1`, dummy values at the end | `smoother_uses_wrong_inputs` |
| C59, C72 | the marginal particle filter's evidence ignores later steps under adaptive resampling, and is biased (3/4 instead of 1) if potentials depend on the previous state | `marginal_adaptive_evidence`, `marginal_filter_biased` |
| C61 | `cuthbert.smoother` raises for inputs with PRNG-key or complex leaves, which filters accept | `smoother_rejects_unsupported_inputs` |
| C66 | the Taylor smoother returns NaN from a skipped prediction backwards | `taylor_smoother_skip_nan`, `taylor_filter_finite_smoother_nan` |
| C70 | `mean_prev` in parallel mode depends on the scan tree | `mean_prev_parallel_wrong` |
| C74 | `parallel=True` with a filter that is not associative warns, then skips observations | `particle_filter_parallel_wrong` |
| C76 | systematic resampling of alternating weights 3:1 changes an average by 1/4, for every (even) number of particles | `systematic_error_persists` |
| C77 | with prefix splitting the key that draws initial particle `i+1` propagates particle `i`, and backward sampling pairs them: two smoothed fair coins agree with probability 5/8 | `exact_smoother_biased` |
| C87 | one NaN weight (or all weights zero) makes resampling copy the first particle everywhere, whatever its weight; later states look healthy except for the log normalising constant | `degenerate_particles_collapse` |
| C93 | the placeholder covariance handed to callbacks is a scalar, not a 1 × 1 matrix, in dimension 1 (`jnp.cov` squeezes) | `placeholder_scalar_cov` |
| C95 | the EM example in the documentation stacks smoothed means as `(m_t, m_{t+1})` but factor and loss as `(x_{t+1}, x_t)`; an M-step on its objective can decrease the likelihood | `docs_em_recipe_fails` |
| C97 | a potential whose Hessian is singular on the components it involves (the Elo comparison of the quickstart page) is given the pseudo-inverse as noise covariance: the filter then claims to know flat directions, such as the sum of the two skills, exactly | `taylor_step_singular`, `taylor_ridge_overconfident` |
| C98 | with an adaptive resampling function the particle smoother drops the final weights at all earlier times: a posterior probability of 2/3 is estimated by 1/2 for every number of particles | `adaptive_smoother_ignores_final_weights`, `adaptive_smoother_biased` |
| C99 | a Taylor update uses the absolute value of the Hessian: a convex log potential makes the filter more certain where it should become less certain, and a linear one is skipped with `ignore_nan_dims` | `taylor_convex_overconfident`, `taylor_linear_ignored` |
| C100 | a Taylor filter drops the constants of log potentials: giving the likelihood of `H x + d + noise` as a log potential instead of a conditional density changes the log normalising constant by `log abs det H` per step | `taylor_density_potential_disagree`, `taylor_potential_evidence` |
| C103 | linearising a conditional log density whose noise depends on the state drops the slope of the log determinant and doubles that of the quadratic form: for stochastic volatility (`y ~ N(0, exp x)`) the linearised observation has the slope of `-y² exp(-x)`, so an iterated Taylor smoother stops away from every stationary point of the posterior | `taylor_smoother_stoch_vol`, `exists_stoch_vol_fixed_point` |
| C108 | the marginal particle filter weights a new particle by the average of the potential over all old particles, without dividing by the mixture of the proposals: unless proposals or potentials ignore the previous state its estimates converge to the wrong limit (1/2 instead of 1 for a coin that never changes) | `marginal_filter_inconsistent` |
| C118 | `filter_combine` draws a step with the key of the old state and only hands on the key given to `filter_prepare`: continuations of one state with different keys are identical copies, so the forecast and the filter step of the documentation's online example share all their particles | `continuation_ignores_key`, `forecast_same_particles`, `forecasts_not_independent` |
| C121 | the README says that all functions work seamlessly with `jax.grad`, but with resampling the derivative of the particle filter's `log_normalizing_constant` ignores the effect of the parameter on the choice of ancestors; it averages each step's score over the filtering instead of the smoothing law and does not converge to the score. A fixed coin: expectation 1/2, score 3/4, for every number of particles | `gradient_with_resampling`, `gradient_not_score` |
| C122 | systematic resampling is documented as a variance reduction, multinomial as having higher variance than the other schemes. For averages over several particles the order can be reversed: alternating weights three to one give systematic resampling a mean squared error of 1/16 whatever the (even) number of particles, multinomial resampling at most 1/(8m) for 2m particles | `systematic_variance_larger` |
| C127 | `inverse_cdf` gives draws above the sum of the weights to the last particle. In floating point the sum can stay below one, because weights below the resolution of the running sum are lost, so a last particle of weight zero is drawn with probability k / 2^p out of 4k+3 particles (p bits); in single precision 1.5 % for a million particles | `rounded_draws_zero_weight` |
| C129 | `condition_on_obs` subtracts the maximum of the log-likelihoods over all states, not over the states with positive probability. If the reachable states are worse than an unreachable one by more than the range of `exp` (about 104 in single, 745 in double precision), everything underflows: the filter returns `nan` probabilities and the log normalising constant `-inf`, although the posterior is well-defined and the log evidence is an ordinary number | `discrete_filter_underflow` |
| C131 | `inverse_cdf` normalises with `exp(logits - logsumexp(logits))`. The logarithm of the sum is rounded to the resolution of the log weights, so for log weights of large size the weights do not sum to one: `N` equal log weights `-2^k` with `2^(k-p-1) > 2 (log N + 1)` all become one and every draw is the first particle. Subtracting the maximum first and dividing by the sum would not have this error | `inverseCdfWith_collapse` |
| C140 | A linear-Gaussian model with a linear constraint that holds for certain (a constant total, a component known exactly, a static parameter known exactly) makes predictive covariances singular: from then on the log normalising constants are NaN, and the smoother returns NaN for all earlier times, although the exact laws exist and satisfy the constraint; likewise the discrete smoother for a model that excludes a state | `log_normalizer_nan_of_constraint`, `smoother_nan_of_constraint` |
| C141 | After an observation without noise (`chol_R = 0`, or singular in a direction that sees the state) the filtering means and covariances are right but all later log normalising constants are NaN in both modes, although the evidence is the finite limit of that for small noise | `log_normalizer_nan_after_noise_free`, `filter_noise_free_limit` |

Observations without a theorem: `mcmc.py` reshapes `random.split(key, 2n)` to `(n, 2)`, which fails for legacy
`uint32` keys; the documentation of the particle filter mentions a potential `G_0` that the code does not have;
with an adaptive resampler `convert_filter_to_smoother_state` raises if the number of smoothing particles differs
from that of the filter; `generate_lgssm` draws `obs_model_key` and
`obs_key` it does not use.
