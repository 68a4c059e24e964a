{"id": "C01", "title": "Cost codes round-trip", "statement": "Writing a cost code as engine-id-power-type[-kappa] and decoding it gives back exactly these fields in that order (third field is the power, fourth the norm order), whatever the field contents, as long as no field contains a dash.", "quantifier": "every list of fields without dashes, every numeric-literal reader", "why_tests_cant": "There are infinitely many codes, and the dangerous ones (empty fields, extra dashes, unusual numerals) are exactly those a test author does not think of; a test only tries a handful of codes.", "anchors": ["skwdro/base/cost_decoder.py::cost_from_str", "skwdro/base/cost_decoder.py::parse_code_torch"]}
{"id": "C02", "title": "The two cost decoders agree", "statement": "For a code with four fields, or five fields with engine 't', decoding in one step and decoding in two steps (parse, then build) succeed on the same codes and build the same cost (kind, norm order, power, kappa); a code with fewer than three or more than five fields, or an unknown id, is refused by the two-step decoder.", "quantifier": "every string given to the two decoders", "why_tests_cant": "Agreement must hold on every string, including malformed ones; two parsers that agree on all tested codes may still split an untested one differently.", "anchors": ["skwdro/base/cost_decoder.py::cost_from_str", "skwdro/base/cost_decoder.py::parse_code_torch", "skwdro/base/cost_decoder.py::cost_from_parse_torch"]}
{"id": "C03", "title": "Decoded label weights are never negative", "statement": "No cost code can produce a label cost whose label weight kappa is negative: every accepted code gives kappa >= 0 (or +inf).", "quantifier": "every string the decoder accepts, every reader of numeric literals", "why_tests_cant": "The weight is whatever number the string spells; only a proof covers every spelling the reader accepts.", "anchors": ["skwdro/base/cost_decoder.py::cost_from_str", "skwdro/base/costs_torch/normlabelcost.py::NormLabelCost.__init__"]}
{"id": "C04", "title": "Ground cost axioms (inputs only)", "statement": "The norm cost is non-negative, symmetric, translation invariant, zero exactly when both points coincide, and satisfies the triangle inequality when the power is 1, for every norm order >= 1 (including infinity) and every positive power.", "quantifier": "every dimension, every pair/triple of points, every norm order p in [1,inf], every power > 0", "why_tests_cant": "Triangle inequality and separation involve a continuum of points, norm orders and powers; sampled points almost never meet the boundary cases (equal points, p = 1, p = infinity).", "anchors": ["skwdro/base/costs_torch/normcost.py::NormCost.value"]}
{"id": "C05", "title": "Ground cost axioms (inputs and labels)", "statement": "The label cost is non-negative, symmetric, zero exactly when both input and label coincide (0<kappa<inf), satisfies the triangle inequality at power 1, and always lies between the data penalty and the label penalty raised to the power.", "quantifier": "every dimension, points, labels, kappa, norm order, power", "why_tests_cant": "As for C04, with in addition every label weight, zero and infinity included, where the formula changes branch.", "anchors": ["skwdro/base/costs_torch/normlabelcost.py::NormLabelCost.value"]}
{"id": "C06", "title": "Extreme label weights are limits of ordinary ones", "statement": "The special conventions kappa=0 (data penalty only) and kappa=inf (label penalty only) are exactly the limits of the ordinary formula as kappa goes to 0 and to infinity.", "quantifier": "every pair of labelled points, norm order, power > 0", "why_tests_cant": "It is a statement about limits: no finite set of weights exhibits convergence for all points.", "anchors": ["skwdro/base/costs_torch/normlabelcost.py::NormLabelCost.value"]}
{"id": "C07", "title": "Costs refuse missing labels", "statement": "Evaluating a label cost without both labels always fails with an assertion error and never returns a number; the plain norm cost never looks at labels.", "quantifier": "every pair of inputs of any shape, every pattern of present and missing labels", "why_tests_cant": "The refusal must not depend on the shape or the values of the arguments; a test fixes both.", "anchors": ["skwdro/base/costs_torch/normlabelcost.py::NormLabelCost.value", "skwdro/base/costs_torch/normcost.py::NormCost.value"]}
{"id": "C08", "title": "Which costs can be robustified", "statement": "robustify/dualize succeeds in building the default sampler exactly for (power, norm order) in {(1,1),(1,2),(1,inf),(2,2)} and otherwise stops with a not-implemented error; the law of the noise is Laplace only for (1,1).", "quantifier": "every power/order pair, every label setting", "why_tests_cant": "The supported set is a finite subset of a continuum of (order, power) pairs; a test cannot show that nothing else is accepted.", "anchors": ["skwdro/base/costs_torch/normcost.py::NormCost._sampler_data", "skwdro/wrap_problem.py::dualize_primal_loss"]}
{"id": "C09", "title": "Plain costs never move labels", "statement": "With an input-only cost, the adversarial labels equal the original labels for every sample drawn, with or without importance-sampling displacement.", "quantifier": "every batch, number of samples, noise, displacement", "why_tests_cant": "It must hold for every noise realisation and displacement; a test observes a few draws and may miss a path (importance sampling, re-centring) that moves labels.", "anchors": ["skwdro/base/costs_torch/normcost.py::NormCost._sampler_labels", "skwdro/base/costs_torch/normcost.py::NormCost.solve_max_series_exp", "skwdro/distributions/dirac_distribution.py"]}
{"id": "C10", "title": "Dirac distribution laws", "statement": "Sampling a Dirac with any sample shape returns copies of the location with shape sample+batch+event; a drawn sample has log-probability 0; any batch that differs from the location anywhere has log-probability -inf; mean, mode and enumerated support are the location, the variance is zero, and expansion puts the new batch dimensions first without changing the location.", "quantifier": "every location tensor, sample shape, number of batch dims, evaluation point", "why_tests_cant": "Samples, moments and log-probabilities must be consistent for all shapes and numbers of batch dimensions; tests fix a shape.", "anchors": ["skwdro/distributions/dirac_distribution.py"]}
{"id": "C11", "title": "Resetting a sampler only moves its centre", "statement": "After reset_mean(xi, labels) the sampler is centred at the new points and keeps exactly the noise scale it was built with, after any number of resets. Re-centring on a batch of points (with labels if the sampler draws labels) never fails.", "quantifier": "every sampler kind, every sequence of resets", "why_tests_cant": "Resets can follow one another in any order and number; a sampler that drifts by a hidden state is only caught by an invariant over histories.", "anchors": ["skwdro/base/samplers/torch/base_samplers.py::reset_mean"]}
{"id": "C12", "title": "Covariance options priority", "statement": "Among sigma, tril, cov, prec the first one given in this order is the one used, all others being ignored; giving none, or a first one that is invalid (a deviation that is not positive, a factor that is not lower triangular with positive diagonal, a matrix that is not positive definite), fails with a ValueError.", "quantifier": "every combination and value of the optional arguments", "why_tests_cant": "Each subset of the optional arguments must be tried with all values; a wrong priority is invisible whenever the values agree.", "anchors": ["skwdro/base/samplers/torch/base_samplers.py::IsOptionalCovarianceSampler.init_covar"]}
{"id": "C13", "title": "Label-flip probability", "statement": "The Bernoulli label sampler only outputs y or -y, and flips with the probability documented as the probability of a switch.", "quantifier": "every p in [0,1], every label, every draw", "why_tests_cant": "It is the value of a probability for every p; frequencies over finitely many draws cannot distinguish p from a close value, nor cover all p.", "anchors": ["skwdro/base/samplers/torch/classif_sampler.py::ClassificationNormalBernouilliSampler"]}
{"id": "C14", "title": "Seeded runs are reproducible", "statement": "With a seed, the adversarial samples used by a post-sampled evaluation depend only on the seed, the batch and the number of samples, not on what was drawn before.", "quantifier": "every history of draws, every global generator state", "why_tests_cant": "Reproducibility must hold whatever was drawn before: all histories and states of the global generator.", "anchors": ["skwdro/base/samplers/torch/base_samplers.py::BaseSampler.__init__", "skwdro/solvers/oracle_torch.py::DualPostSampledLoss.forward"]}
{"id": "C15", "title": "Post-sampling draws fresh noise at every evaluation", "statement": "Successive evaluations of a post-sampled robust loss use fresh independent noise: the noise of evaluation k+1 is the next segment of the random stream.", "quantifier": "every number of evaluations, seed setting", "why_tests_cant": "It is about which generator states successive evaluations use, for any number of evaluations and seeds; a few distinct draws prove nothing about the others.", "anchors": ["skwdro/solvers/oracle_torch.py::DualPostSampledLoss.forward", "skwdro/base/samplers/torch/base_samplers.py::reset_mean"]}
{"id": "C16", "title": "Displacement keeps the noise", "statement": "Importance-sampling displacement shifts the centre and every adversarial sample by the same vector, so adversarial sample minus centre is unchanged.", "quantifier": "every batch, noise and displacement", "why_tests_cant": "An identity between tensors for all batches, gradients and multipliers.", "anchors": ["skwdro/solvers/_dual_interfaces/_impsamp_interface.py::displace_samples", "skwdro/base/costs_torch/normcost.py::solve_max_series_exp"]}
{"id": "C17", "title": "Displacement never produces NaN or infinity", "statement": "If the gradient or the multiplier would give a NaN or infinite displacement for at least one point, no point is displaced; otherwise the displacement has length min(threshold, |grad|)/(2*lambda); the samples returned are always finite.", "quantifier": "every gradient batch, every multiplier (including 0)", "why_tests_cant": "Non-finite values appear on degenerate inputs only (zero gradients, zero multiplier, zero weight), which random tests never hit.", "anchors": ["skwdro/solvers/_dual_interfaces/_impsamp_interface.py::displace_samples", "skwdro/solvers/utils.py::normalize_just_vects", "skwdro/solvers/utils.py::check_tensor_validity"]}
{"id": "C18", "title": "The displaced centre is the best first-order attack", "statement": "For the squared Euclidean cost the displaced centre is the unique maximiser of <gradient, zeta-xi> - lambda*|zeta-xi|^2.", "quantifier": "every dimension, gradient, lambda>0, competitor zeta", "why_tests_cant": "Optimality compares the displacement with a continuum of competitors, in every dimension.", "anchors": ["skwdro/base/costs_torch/normcost.py::NormCost.solve_max_series_exp", "skwdro/solvers/_dual_interfaces/_impsamp_interface.py::get_optimal_displacement"]}
{"id": "C19", "title": "Importance weights are exact (no labels)", "statement": "Without labels, exp(correction) times the density of the displaced sampler equals the density of the reference sampler at every point, so the corrected estimate targets the same expectation.", "quantifier": "every point, centre, displaced centre, scale", "why_tests_cant": "An identity between densities over a continuum of points, centres and scales; Monte-Carlo tests only see it up to sampling error.", "anchors": ["skwdro/base/samplers/torch/base_samplers.py::NoLabelsSampler.log_prob_recentered", "skwdro/solvers/_dual_interfaces/dual_loss.py::compute_dual"]}
{"id": "C20", "title": "Importance weights are exact (labelled)", "statement": "With labels, the same density-ratio identity holds.", "quantifier": "every labelled point, centre, displaced centre, scale", "why_tests_cant": "As for C19, jointly in inputs and labels, for every label weight.", "anchors": ["skwdro/base/samplers/torch/base_samplers.py::LabeledSampler.log_prob_recentered"]}
{"id": "C21", "title": "Importance sampling is only ever enabled where supported", "statement": "Whatever cost code and flag are given, an accepted configuration never reaches the not-implemented error of the displacement step.", "quantifier": "every cost code, flag and label setting", "why_tests_cant": "The flag is derived from strings and options; all of them must be covered to know that an unsupported combination never slips through.", "anchors": ["skwdro/wrap_problem.py::decide_on_impsamp", "skwdro/base/cost_decoder.py::can_imp_samp"]}
{"id": "C22", "title": "Batched losses are evaluated pointwise", "statement": "Evaluating the wrapped loss on an (n,m,d) batch of samples gives an (n,m,1) result whose (i,j) entry is the loss of sample (i,j) with its own label; flattening never mixes rows.", "quantifier": "every n, m, d, row-wise loss and transform", "why_tests_cant": "Broadcasting bugs depend on sizes (equal sizes hide them); the statement is for all sizes and all row-wise losses.", "anchors": ["skwdro/base/losses_torch/wrapper.py::WrappedPrimalLoss.value"]}
{"id": "C23", "title": "A flat labelled batch keeps one loss per sample", "statement": "Evaluating the wrapped loss on an (m,d) batch with (m,k) labels returns one loss per sample.", "quantifier": "every m, d, k", "why_tests_cant": "The layout must be right for all sizes; when m = k or d = 1 wrong layouts coincide with the right one.", "anchors": ["skwdro/base/losses_torch/wrapper.py::WrappedPrimalLoss.value"]}
{"id": "C24", "title": "Losses enforce their label contract", "statement": "A labelled wrapped loss called without labels, or an unlabelled one called with labels, always fails with an assertion error.", "quantifier": "every input of any shape, with or without labels, every wrapped loss", "why_tests_cant": "Must hold for every input shape and value.", "anchors": ["skwdro/base/losses_torch/wrapper.py::WrappedPrimalLoss.value"]}
{"id": "C25", "title": "L2 regularisation adds exactly half the squared norm", "statement": "With weight w>0 every per-sample loss grows by w/2*|theta|^2 and the mean robust loss by the same amount; with no weight, or w<=0, nothing changes.", "quantifier": "every parameter vector, weight, batch, multiplier", "why_tests_cant": "An identity over all parameters, weights, batches and multipliers.", "anchors": ["skwdro/base/losses_torch/base_loss.py::Loss.regularize", "skwdro/solvers/_dual_interfaces/dual_loss.py::compute_dual"]}
{"id": "C26", "title": "Logistic loss", "statement": "The logistic loss equals log(1+exp(-y*score)), is positive, convex and 1-Lipschitz in the score, and equals log 2 at score 0.", "quantifier": "every score and label", "why_tests_cant": "An inequality and a formula over all scores and labels, including arbitrarily large ones.", "anchors": ["skwdro/base/losses_torch/logistic.py"]}
{"id": "C27", "title": "Portfolio loss is the mean-CVaR integrand", "statement": "The portfolio loss equals the maximum of the two affine pieces handed to the dedicated solver, and its portfolio weights are always non-negative and sum to one.", "quantifier": "every return, threshold, eta>=0, alpha in (0,1], raw parameter vector", "why_tests_cant": "Equality of two formulas over a continuum of returns, thresholds and raw parameters, including the kinks.", "anchors": ["skwdro/base/losses_torch/portfolio.py", "skwdro/solvers/specific_solvers.py::WDROPortfolioSpecificSolver"]}
{"id": "C28", "title": "Newsvendor loss evaluates on unlabelled demand", "statement": "The newsvendor losses return k*theta-u*min(theta,x) on any demand without labels.", "quantifier": "every demand, order quantity, k, u", "why_tests_cant": "Equality with the cost formula over all demands, orders and prices, on both sides of the kink.", "anchors": ["skwdro/base/losses_torch/newsvendor.py"]}
{"id": "C29", "title": "The robust loss is the advertised formula", "statement": "For rho>0 and mean reduction, the value computed on centres xi and samples zeta is lambda*rho^p + (1/m) sum_i eps*log((1/n) sum_j exp((L(zeta_ji)-lambda*c(xi_i,zeta_ji))/eps)).", "quantifier": "every batch size, number of samples, loss, cost, lambda, rho, eps", "why_tests_cant": "The value is a composition of a dozen tensor operations; equality with the formula has to hold for all sizes, losses, costs and parameters.", "anchors": ["skwdro/solvers/_dual_interfaces/dual_loss.py::compute_dual", "skwdro/solvers/oracle_torch.py"]}
{"id": "C30", "title": "Zero radius is ordinary training", "statement": "With rho=0 the robust loss is exactly the average loss on the data, whatever lambda, eps and samples.", "quantifier": "every batch, lambda, eps", "why_tests_cant": "Must hold for every batch, multiplier and regularisation: any dependence on them would go unnoticed at the tested values.", "anchors": ["skwdro/solvers/_dual_interfaces/dual_loss.py::compute_dual", "skwdro/solvers/oracle_torch.py"]}
{"id": "C31", "title": "Invalid radii never give a finite robust loss", "statement": "A negative radius is refused with a ValueError and a NaN radius gives NaN, on both the pre- and post-sampled losses.", "quantifier": "every batch and radius", "why_tests_cant": "All batches and all invalid radii, NaN included, on every path of the forward passes.", "anchors": ["skwdro/solvers/_dual_interfaces/dual_loss.py::compute_dual", "skwdro/solvers/oracle_torch.py"]}
{"id": "C32", "title": "The robust loss bounds every admissible adversary", "statement": "For lambda>=0, the robust loss is at least the expected loss minus eps*KL of every re-weighting of the samples whose average transport cost is at most rho^p, and at the exponentially tilted re-weighting this is an equality up to the slack lambda*(rho^p - transport cost).", "quantifier": "every re-weighting, loss, cost, lambda>=0, eps>0", "why_tests_cant": "Quantifies over all adversaries (a simplex of re-weightings per data point); a test can only try some.", "anchors": ["skwdro/solvers/_dual_interfaces/dual_loss.py::compute_dual"]}
{"id": "C33", "title": "The robust loss is monotone and shift-equivariant", "statement": "Increasing the loss anywhere cannot decrease the robust loss; adding a constant to the loss adds that constant (mean reduction).", "quantifier": "every pair of losses, batch, lambda, eps", "why_tests_cant": "Monotonicity and equivariance compare all pairs of losses.", "anchors": ["skwdro/solvers/_dual_interfaces/dual_loss.py::compute_dual"]}
{"id": "C34", "title": "The robust loss is jointly convex", "statement": "If the loss is convex in the model parameters at every sample, the robust loss is jointly convex in (parameters, lambda).", "quantifier": "every convex loss family, batch, mixing coefficient", "why_tests_cant": "Convexity is an inequality over all pairs of parameters and all mixing coefficients.", "anchors": ["skwdro/solvers/_dual_interfaces/dual_loss.py::compute_dual"]}
{"id": "C35", "title": "The robust loss lies between average and worst case", "statement": "Up to lambda*rho^p, it lies between the average and the maximum over samples of L-lambda*c, within eps*log n of the maximum and within (range)^2/(8 eps) of the average, and decreases when eps grows, from the maximum at eps=0 to the average at infinity.", "quantifier": "every batch, lambda, eps", "why_tests_cant": "Two inequalities over all batches, multipliers and regularisations, including the extremes where they are tight.", "anchors": ["skwdro/solvers/_dual_interfaces/dual_loss.py::compute_dual"]}
{"id": "C36", "title": "Order of samples is irrelevant", "statement": "Permuting the adversarial samples, or permuting data points together with their samples, leaves the robust loss unchanged.", "quantifier": "every permutation of the samples of every data point, every number of samples and data points", "why_tests_cant": "All permutations of any number of samples.", "anchors": ["skwdro/solvers/_dual_interfaces/dual_loss.py::compute_dual"]}
{"id": "C37", "title": "Reductions are consistent", "statement": "The mean of the unreduced robust losses is the mean-reduced one, and the sum-reduced one is the sum of the unreduced ones.", "quantifier": "every batch, lambda, eps, radius", "why_tests_cant": "Must hold for all batches and radii; sizes equal to one hide wrong reductions.", "anchors": ["skwdro/solvers/_dual_interfaces/dual_loss.py::compute_dual", "skwdro/solvers/_dual_interfaces/_misc_dual_interfaces.py::reduce_loss_batch"]}
{"id": "C38", "title": "Pre-sampled losses reuse their samples", "statement": "After samples have been provided once, later evaluations without samples use exactly these samples; before that they fail with a ValueError.", "quantifier": "every history of calls, every radius >= 0", "why_tests_cant": "Depends on the order of calls (with and without samples, with zero radius in between): all histories.", "anchors": ["skwdro/solvers/oracle_torch.py::DualPreSampledLoss.forward"]}
{"id": "C39", "title": "eval() and train() toggle ERM mode", "statement": "After eval() the robust loss is in ERM/evaluation mode, after train() or train(True) it is back in robust training mode.", "quantifier": "every sequence of mode calls", "why_tests_cant": "Mode flags can be toggled in any order; a stale flag shows after particular sequences only.", "anchors": ["skwdro/solvers/_dual_interfaces/_misc_dual_interfaces.py::_DualLossBase.eval", "skwdro/solvers/_dual_interfaces/_misc_dual_interfaces.py::_DualLossBase.train"]}
{"id": "C40", "title": "User-frozen parameters stay frozen", "statement": "Evaluating the robust loss (importance sampling, dual initialisation) leaves requires_grad flags and train/eval mode of the user's model as they were. Radius and regularisation are trainable exactly when their tuning was asked for at construction, whatever happens later.", "quantifier": "every flag assignment, history of evaluations", "why_tests_cant": "All assignments of flags to parameters and all evaluations, including the failing ones, must restore them.", "anchors": ["skwdro/solvers/_dual_interfaces/_misc_dual_interfaces.py::_DualLossBase.freeze", "skwdro/solvers/_dual_interfaces/_impsamp_interface.py::get_displacement_direction", "skwdro/solvers/_dual_interfaces/_impsamp_interface.py::compute_functional_grads"]}
{"id": "C41", "title": "Dual initialisation", "statement": "The initial multiplier is non-negative; for the squared Euclidean cost it minimises lambda*rho^2 + mean|grad|^2/(4*lambda); for power 1 it is 1/(m*rho); for rho<=0 it is 0.", "quantifier": "every gradient batch, rho", "why_tests_cant": "An identity for all gradient batches and radii; positivity of the result needs all of them.", "anchors": ["skwdro/solvers/_dual_interfaces/dual_loss.py::get_initial_guess_at_dual"]}
{"id": "C42", "title": "Default hyper-parameters are usable", "statement": "When not given, sigma and epsilon are strictly positive for every radius >= 0 and power >= 1; given values are passed through unchanged. For a positive radius the default epsilon is sigma^p/(100 rho) with sigma = rho/2, and at least 1e-7.", "quantifier": "every rho, power, optional arguments", "why_tests_cant": "Positivity must hold on a continuum of radii and powers; defaults are products of small numbers that can vanish.", "anchors": ["skwdro/wrap_problem.py::expert_hyperparams"]}
{"id": "C43", "title": "Optimality condition: no premature stop", "statement": "With tolerances <= 0 it never stops; with the gradient metric the first call never stops; with the parameter metric the first two calls never stop; a call stops on the iteration budget exactly when the budget is positive and reached.", "quantifier": "every sequence of calls, norms, monitoring setting", "why_tests_cant": "The memory of the rule depends on the whole sequence of calls; a premature stop may need a specific history.", "anchors": ["skwdro/solvers/optim_cond.py"]}
{"id": "C44", "title": "Optimality condition: stops exactly on the criterion", "statement": "On a fresh condition monitoring theta, from the second call (gradient metric) or third call (parameter metric) on, a call stops iff the current gradient norm (resp. last step length) is below tol (absolute) or tol times the first one (relative).", "quantifier": "every sequence of gradients/iterates, tolerance, mode", "why_tests_cant": "'Exactly' compares the rule with its criterion on all sequences of gradients and iterates.", "anchors": ["skwdro/solvers/optim_cond.py"]}
{"id": "C45", "title": "Optimality condition: monitoring combinations", "statement": "'both' stops iff theta and lambda criteria hold, 'one' iff at least one, 'theta'/'lambda' iff that one; both are evaluated at each call; an unknown setting fails with ValueError.", "quantifier": "every history, every monitoring string", "why_tests_cant": "All monitoring strings, including malformed ones, crossed with all histories.", "anchors": ["skwdro/solvers/optim_cond.py"]}
{"id": "C46", "title": "Optimality condition on lambda measures its motion", "statement": "With the parameter metric, monitoring lambda stops iff lambda moved less than the tolerance.", "quantifier": "every trajectory of lambda", "why_tests_cant": "The rule sees the trajectory through a memory; aliasing makes it blind on all trajectories or on some only.", "anchors": ["skwdro/solvers/optim_cond.py"]}
{"id": "C47", "title": "Fits are independent", "statement": "The number of iterations of a fit does not depend on earlier fits sharing the default optimality condition.", "quantifier": "every pair of consecutive runs, whatever the schedule, data and stop pattern of the first", "why_tests_cant": "Leaks between fits depend on what the first fit did: all pairs of runs.", "anchors": ["skwdro/solvers/optim_cond.py", "skwdro/solvers/entropic_dual_torch.py"]}
{"id": "C48", "title": "Training loops stop on time and report every step", "statement": "A training loop makes at most the requested number of steps; it records one loss per step made, and stops early exactly at the first NaN loss or satisfied optimality condition.", "quantifier": "every schedule, loss sequence, stop sequence", "why_tests_cant": "All schedules and all patterns of stopping, including a stop at the first or last iteration.", "anchors": ["skwdro/solvers/entropic_dual_torch.py"]}
{"id": "C49", "title": "Pre-training is ordinary (ERM) training", "statement": "The pre-training steps optimise the ordinary loss and the remaining ones the robust loss, in both sampling regimes.", "quantifier": "every schedule, optimizer and number of pre-training iterations", "why_tests_cant": "All schedules, and every iteration of pre-training.", "anchors": ["skwdro/solvers/entropic_dual_torch.py::optim_presample", "skwdro/solvers/entropic_dual_torch.py::optim_postsample"]}
{"id": "C50", "title": "Training leaves the importance-sampling flag as set", "statement": "After training, the importance-sampling flag has the value chosen by the user.", "quantifier": "every schedule and stop pattern", "why_tests_cant": "The flag must be restored on every way out of training: all stop patterns.", "anchors": ["skwdro/solvers/entropic_dual_torch.py"]}
{"id": "C51", "title": "Solving always yields a result", "statement": "For every non-negative schedule solving returns coefficients, multiplier and final robust loss; the multiplier is 0 when rho<=0.", "quantifier": "every schedule (integer or pair), loss sequence and stop pattern", "why_tests_cant": "All schedules, including empty ones.", "anchors": ["skwdro/solvers/entropic_dual_torch.py::solve_dual_wdro"]}
{"id": "C52", "title": "Integer schedules are split sensibly", "statement": "An integer n of iterations is split into (pretrain, train) with 0 <= pretrain <= train = n, whatever the floating-point rounding; pairs are kept. Without a schedule, post-sampled problems get 200 and 2800 iterations, pre-sampled ones 100 and 10.", "quantifier": "every n, every monotone rounding exact on integers", "why_tests_cant": "All totals n, and every rounding that floating-point division may produce.", "anchors": ["skwdro/solvers/utils.py::interpret_steps_struct"]}
{"id": "C53", "title": "The multiplier stays non-negative", "statement": "During training, after every optimizer step the multiplier lambda is >= 0.", "quantifier": "every inner optimizer, gradient sequence, number of steps", "why_tests_cant": "The inner optimizer and the gradients are arbitrary, and the number of steps unbounded.", "anchors": ["skwdro/solvers/oracle_torch.py::CompositeOptimizer.step"]}
{"id": "C54", "title": "Optimizer state round trip", "statement": "Loading a saved state restores both sub-optimizers; resetting the lambda state restores only the initial lambda state; all trained parameters are visible in the optimizer's parameter groups; schedulers act on both sub-optimizers at every step.", "quantifier": "every history of steps", "why_tests_cant": "Serialisation must commute with stepping after every history.", "anchors": ["skwdro/solvers/oracle_torch.py::CompositeOptimizer"]}
{"id": "C55", "title": "Multiplicative-weights parameters stay positive / on the simplex", "statement": "Groups marked mwu stay strictly positive, mwu_simplex sum to one, non_neg stay non-negative, for any inner update; with plain SGD mwu is p*exp(-lr*g) and 'max' is gradient ascent.", "quantifier": "every inner optimizer, gradients, number of steps", "why_tests_cant": "Positivity and normalisation are invariants over unboundedly many steps of arbitrary optimizers.", "anchors": ["skwdro/solvers/hybrid_opt.py"]}
{"id": "C56", "title": "A refused hybrid step changes nothing", "statement": "If a hybrid optimizer step is refused, parameters are unchanged.", "quantifier": "every group configuration and crash point", "why_tests_cant": "Every group configuration and every point where the step may be refused.", "anchors": ["skwdro/solvers/hybrid_opt.py"]}
{"id": "C57", "title": "Legacy solver results round-trip", "statement": "Any tuple of 1 to 4 results is wrapped into an object that iterates back to the same tuple with named fields; dictionaries keyed by names (other than a few reserved ones, which are refused) keep their items; wrapped results are unchanged; anything else is refused.", "quantifier": "every tuple, dict and object returned by a solver", "why_tests_cant": "Every tuple, dict and object that a solver may return, whatever its length and keys.", "anchors": ["skwdro/solvers/result.py"]}
{"id": "C58", "title": "Dedicated newsvendor solver never crashes", "statement": "For every non-empty sample of non-negative demands and rho>=0 the index search succeeds and no division by zero occurs; for k, u>=0 an order quantity is returned.", "quantifier": "every non-empty sample of non-negative demands, rho>=0, k, u>=0", "why_tests_cant": "All samples, including constant, repeated and zero demands, for which an intermediate bound may be empty.", "anchors": ["skwdro/solvers/specific_solvers.py::WDRONewsvendorSpecificSolver"]}
{"id": "C59", "title": "Dedicated newsvendor solver is optimal", "statement": "The order quantity returned minimises the worst-case expected newsvendor cost over the Wasserstein ball.", "quantifier": "every sample, rho>=0, u>=k>=0", "why_tests_cant": "Optimality compares with every order under every distribution of a Wasserstein ball.", "anchors": ["skwdro/solvers/specific_solvers.py::WDRONewsvendorSpecificSolver"]}
{"id": "C60", "title": "Sample-average newsvendor programs are exact", "statement": "The linear programs used by the sample-average newsvendor solvers have the same optimal value and order quantities as minimising the average newsvendor cost.", "quantifier": "every sample, k<=u", "why_tests_cant": "Equality of optimal values for all samples; linear programs have degenerate optima that tests miss.", "anchors": ["skwdro/solvers/specific_solvers.py::SAANewsvendorSpecificSolver"]}
{"id": "C61", "title": "Dedicated linear regression objective is the worst-case RMSE", "statement": "For a positive radius, the coefficients, intercept and objective returned by the dedicated linear regression solver minimise the largest RMSE over all laws obtained by moving the inputs with mean squared length at most rho^2, and the objective RMSE + rho*|coef| is that largest RMSE. For radius zero it returns a least-squares fit.", "quantifier": "every data set, coefficients, perturbation", "why_tests_cant": "The supremum is over a continuum of perturbations; a test only gives a lower bound on it.", "anchors": ["skwdro/solvers/specific_solvers.py::WDROLinRegSpecificSolver"]}
{"id": "C62", "title": "Dedicated logistic regression certifies robustness", "statement": "Every feasible point of the program bounds the expected logistic loss under every law obtained by moving inputs and flipping labels at average cost at most rho; the returned robust loss is exactly the supremum of the loss of the returned model over these laws and no other model has a smaller one.", "quantifier": "every data set, perturbation plan", "why_tests_cant": "The certificate must cover all transport plans.", "anchors": ["skwdro/solvers/specific_solvers.py::WDROLogisticSpecificSolver"]}
{"id": "C63", "title": "Dedicated portfolio solver certifies robustness", "statement": "Every feasible point of the program is a portfolio and bounds its expected mean-CVaR loss under every law of returns staying in the given polytope at average cost at most rho of the sample; when the polytope contains the sample the solver returns, the returned value is exactly the supremum for the returned portfolio, and no other portfolio has a smaller one.", "quantifier": "every data set, plan, norm order", "why_tests_cant": "The certificate must cover all transport plans, norm orders and polytopes.", "anchors": ["skwdro/solvers/specific_solvers.py::WDROPortfolioSpecificSolver"]}
{"id": "C64", "title": "Binary labels round-trip", "statement": "For two classes, encoding to -1/+1 and decoding is the identity; predictions are always one of the training classes: with two classes the second one exactly when the score is >= 0, with more the one of largest score, the first on ties. Data with a single class is refused.", "quantifier": "every label vector, score", "why_tests_cant": "All label vectors: any two distinct values, any order of appearance.", "anchors": ["skwdro/linear_models/_logistic_regression.py"]}
{"id": "C65", "title": "Predicted probabilities are probabilities", "statement": "predict_proba returns one row per sample with non-negative entries summing to one.", "quantifier": "every score, number of classes, intercept setting", "why_tests_cant": "All scores, however large, and all numbers of classes.", "anchors": ["skwdro/linear_models/_logistic_regression.py::predict_proba"]}
{"id": "C66", "title": "Solver choice is honoured", "statement": "Each estimator maps the solver name to the documented procedure: names with 'post' use post-sampling, names with 'pre' pre-sampling, 'dedicated' the specific solver, unknown names are refused.", "quantifier": "every solver string and every estimator", "why_tests_cant": "All strings, including near-misses of the documented names.", "anchors": ["skwdro/linear_models/", "skwdro/operations_research/"]}
{"id": "C67", "title": "Default estimators can be fitted", "statement": "An estimator built with default arguments can be fitted and scored.", "quantifier": "every estimator, data set", "why_tests_cant": "All data sets, of every size and type of labels.", "anchors": ["skwdro/operations_research/", "skwdro/linear_models/"]}
{"id": "C68", "title": "Empirical distributions own their data", "statement": "Changing the caller's arrays after building an empirical distribution does not change the distribution; label accessors fail on unlabelled ones.", "quantifier": "every sequence of mutations", "why_tests_cant": "Aliasing shows after particular sequences of mutations by the caller: all histories.", "anchors": ["skwdro/base/problems.py"]}
{"id": "C69", "title": "Radius grids", "statement": "The grid searched by the radius tuner consists of max_power-min_power strictly increasing powers of ten.", "quantifier": "every pair of exponents, number of candidates and scoring of the candidates", "why_tests_cant": "All grids, whatever their length, and all scorings.", "anchors": ["skwdro/base/rho_tuners.py"]}
{"id": "C70", "title": "Conjugate used by the radius heuristic", "statement": "The quantity computed is the convex conjugate at z of phi(a) = 1/4 * average over the sample of |H a|^2 (H the mixed second derivative of the loss), as in the method cited; it is infinite exactly when that supremum is.", "quantifier": "every sample, z", "why_tests_cant": "A supremum over a continuum, equality with a closed formula.", "anchors": ["skwdro/base/rho_tuners_computations.py::compute_phi_star"]}
{"id": "C71", "title": "Foreign engines are always refused", "statement": "A cost code whose engine field is not the torch engine is refused by both decoders, whatever the other fields.", "quantifier": "every code with four or five fields", "why_tests_cant": "All codes with the given number of fields.", "anchors": ["skwdro/base/cost_decoder.py::cost_from_str", "skwdro/base/cost_decoder.py::parse_code_torch"]}
{"id": "C72", "title": "An interrupted training leaves the loss as configured", "statement": "If training is interrupted by an exception, the loss is not left in ordinary (ERM) mode and its importance-sampling flag is the user's.", "quantifier": "every crash point, schedule, optimizer, sampling regime", "why_tests_cant": "Every point at which the optimizer or the loss may raise.", "anchors": ["skwdro/solvers/entropic_dual_torch.py::optim_presample", "skwdro/solvers/entropic_dual_torch.py::optim_postsample"]}
{"id": "C73", "title": "The reported robust loss is that of the returned parameters", "statement": "The robust loss reported with a solution was evaluated after the last optimizer step.", "quantifier": "every schedule, optimizer, stop pattern, sampling regime", "why_tests_cant": "All executions: the optimizer may evaluate the closure any number of times and move the parameters in between.", "anchors": ["skwdro/solvers/entropic_dual_torch.py::solve_dual_wdro"]}
{"id": "C74", "title": "Weber loss is the weighted distance", "statement": "The Weber loss of each location is its weight times its Euclidean distance to the facility: non-negative, and zero exactly at the facility.", "quantifier": "every batch of locations and weights, every facility position", "why_tests_cant": "Equality with a formula for all batches and positions.", "anchors": ["skwdro/base/losses_torch/weber.py"]}
{"id": "C75", "title": "Quadratic loss gives one squared error per sample", "statement": "The built-in quadratic loss returns one value per sample, its squared prediction error, whether labels are flat or a column.", "quantifier": "every batch, parameter vector and label layout", "why_tests_cant": "All layouts of the labels; equal sizes hide broadcasting bugs.", "anchors": ["skwdro/base/losses_torch/quadratic.py"]}
{"id": "C76", "title": "Cost codes mean what the estimators document", "statement": "The estimators document their cost argument as engine-id-norm-power: the cost used has the third field as norm order and the fourth as power.", "quantifier": "every pair of norm order and power", "why_tests_cant": "All codes the documentation describes, against all points.", "anchors": ["skwdro/linear_models/_logistic_regression.py::LogisticRegression", "skwdro/linear_models/_linear_regression.py::LinearRegression", "skwdro/operations_research/_portfolio.py::Portfolio", "skwdro/base/cost_decoder.py"]}
{"id": "C77", "title": "Scores are minus the average loss", "statement": "The score of a fitted newsvendor, portfolio or Weber estimator is minus the average of the loss it was trained on, at the fitted parameters, over the evaluation data.", "quantifier": "every fitted estimator, evaluation data set, solver", "why_tests_cant": "Equality for all fitted models and evaluation sets.", "anchors": ["skwdro/operations_research/_newsvendor.py::NewsVendor.eval", "skwdro/operations_research/_portfolio.py::Portfolio.eval", "skwdro/operations_research/_weber.py::Weber.eval"]}
{"id": "C78", "title": "Constructors refuse unusable hyper-parameters", "statement": "Building an estimator with a negative radius raises ValueError; the portfolio also refuses a negative risk weight, a confidence level outside (0, 1], a negative regularisation and a negative number of samples. Accepted arguments are stored unchanged and the defaults are accepted. Building an optimality condition with an order that is neither positive nor 'inf' raises AssertionError.", "quantifier": "every argument", "why_tests_cant": "A continuum of unusable values, NaN and boundaries included.", "anchors": ["skwdro/linear_models/_logistic_regression.py::LogisticRegression.__init__", "skwdro/operations_research/_portfolio.py::Portfolio.__init__", "skwdro/solvers/optim_cond.py::OptCondTorch.__init__"]}
{"id": "C79", "title": "fit_intercept is honoured", "statement": "With fit_intercept=False the fitted linear model has no offset: the prediction at the origin is zero (score zero for the classifier), whatever the solver.", "quantifier": "every data set, solver, training outcome", "why_tests_cant": "All data, solvers and outcomes of training: a non-zero intercept may appear after training only.", "anchors": ["skwdro/linear_models/_linear_regression.py::LinearRegression.fit", "skwdro/linear_models/_logistic_regression.py::LogisticRegression.fit"]}
{"id": "C80", "title": "Estimators train on the robust objective they document", "statement": "The value handed to the torch optimizer during the fit of any of the five estimators is the documented soft-max robust loss of its own loss (squared error, logistic loss of the margin, cross entropy of the scores, weighted distance, newsvendor loss, mean-CVaR of the portfolio) at the current parameters, plus the ridge penalty; with importance sampling, on samples displaced along the gradients, and with density-ratio weights when there are no labels.", "quantifier": "every data set, parameters, noise samples, multiplier, radius, pre- or post-sampled solver, importance sampling on or off", "why_tests_cant": "Continuum of data, parameters and noise; the formula is a composition of a dozen tensor operations whose shapes depend on the data.", "anchors": ["skwdro/linear_models/_linear_regression.py::LinearRegression.fit", "skwdro/linear_models/_logistic_regression.py::LogisticRegression.fit", "skwdro/operations_research/_weber.py::Weber.fit", "skwdro/operations_research/_newsvendor.py::NewsVendor.fit", "skwdro/operations_research/_portfolio.py::Portfolio.fit", "skwdro/wrap_problem.py::dualize_primal_loss"]}
{"id": "C81", "title": "Predictions have one entry per sample", "statement": "predict returns a one-dimensional array with exactly one entry per row of the input, in the same order.", "quantifier": "every fitted model, data set, number of classes, solver", "why_tests_cant": "All shapes: single samples, single features, many classes.", "anchors": ["skwdro/linear_models/_logistic_regression.py::LogisticRegression.predict", "skwdro/linear_models/_linear_regression.py::LinearRegression.predict"]}
{"id": "C82", "title": "The generic statistical radius tuner returns a fitted estimator", "statement": "Fitting BlanchetRhoTunedEstimator around any estimator of the package whose own fit succeeds returns that estimator refitted with the computed radius.", "quantifier": "every estimator, solver, data set", "why_tests_cant": "The failure is on every path, which only a statement about all inputs can say.", "anchors": ["skwdro/base/rho_tuners.py::BlanchetRhoTunedEstimator.fit"]}
{"id": "C83", "title": "The portfolio radius tuner chooses a usable radius", "statement": "Fitting PortfolioBlanchetRhoTunedEstimator around a Portfolio computes a non-negative radius, from draws with the covariance of the per-sample gradients (one entry per parameter), leaves it in the estimator and returns the estimator refitted with it.", "quantifier": "every data set, solver, risk parameters, draws", "why_tests_cant": "Continuum of data and draws; an empty or degenerate grid depends on them.", "anchors": ["skwdro/base/rho_tuners.py::PortfolioBlanchetRhoTunedEstimator.fit", "skwdro/base/rho_tuners_computations.py::compute_phi_star_portfolio"]}
{"id": "C84", "title": "Per-sample gradients of the portfolio loss", "statement": "The vector computed for a sample is the gradient of the portfolio loss in the weights and threshold at the fitted values; samples are refused only where the loss is not differentiable.", "quantifier": "every sample, weights, threshold, risk parameters", "why_tests_cant": "A derivative at every point where the loss has one.", "anchors": ["skwdro/base/rho_tuners_computations.py::compute_h", "skwdro/base/rho_tuners_computations.py::indicator_func"]}
{"id": "C85", "title": "Conjugate used by the portfolio radius heuristic", "statement": "The value computed for z is the convex conjugate at z of phi(a) = 1/4 * average over the sample of the squared dual norm of H a, H being the derivative in the returns of the gradient of the loss in the weights.", "quantifier": "every sample, z, norm order, risk parameters", "why_tests_cant": "A supremum over a continuum for every norm order, equality with a closed formula.", "anchors": ["skwdro/base/rho_tuners_computations.py::compute_phi_star_portfolio"]}
{"id": "C86", "title": "Fits return on all valid data", "statement": "Fitting any of the five estimators with a torch solver, a supported cost code, a positive noise scale, a non-negative radius, at least one iteration and any optimality condition with documented settings returns a fitted model with as many coefficients as the model has parameters, on every data set of the right type: no shape error, missing gradient or missing sample can occur on the way.", "quantifier": "every data set, size, dimension, initial weights, noise, optimizer raising nothing by itself, memory of the stopping rule", "why_tests_cant": "All inputs and all executions of unboundedly many steps, with arbitrary optimizers and noise.", "anchors": ["skwdro/solvers/entropic_dual_torch.py::solve_dual_wdro", "skwdro/wrap_problem.py::dualize_primal_loss", "skwdro/linear_models/_linear_regression.py::LinearRegression.fit", "skwdro/linear_models/_logistic_regression.py::LogisticRegression.fit", "skwdro/operations_research/_weber.py::Weber.fit", "skwdro/operations_research/_newsvendor.py::NewsVendor.fit", "skwdro/operations_research/_portfolio.py::Portfolio.fit"]}
{"id": "C87", "title": "The reported loss can be recomputed from what is returned", "statement": "After a pre-sampled fit, the reported robust loss is the one obtained by robustifying the returned model with the same arguments and seed, drawing its samples and evaluating it at the reported multiplier; for the linear and logistic regressions this is the soft-max formula at the returned coefficients.", "quantifier": "every data set, optimizer, schedule, stop pattern, generator state", "why_tests_cant": "All executions; whether the value can be recomputed depends on the state of generator and samples at the end.", "anchors": ["skwdro/solvers/entropic_dual_torch.py::solve_dual_wdro", "skwdro/solvers/entropic_dual_torch.py::optim_presample"]}
{"id": "C88", "title": "Fits with a fixed random_state are reproducible", "statement": "With a fixed random_state, two fits with the same arguments on the same data return the same model, whatever random numbers were drawn before.", "quantifier": "every data set, optimizer, state of the generator before the fit", "why_tests_cant": "All histories before the fit and all executions of the fit.", "anchors": ["skwdro/base/samplers/torch/base_samplers.py", "skwdro/linear_models/_linear_regression.py::LinearRegression.fit", "skwdro/operations_research/_weber.py::Weber.fit"]}
{"id": "C89", "title": "Training changes values of parameters only", "statement": "Training a model changes the values of its parameters only: kind of model, number and sizes of its parameters, presence of an offset and constants (prices, risk levels) are kept.", "quantifier": "every model, data set, optimizer, outcome of training", "why_tests_cant": "All executions: an arbitrary optimizer is interposed between every two evaluations.", "anchors": ["skwdro/solvers/entropic_dual_torch.py::solve_dual_wdro"]}
{"id": "C90", "title": "Every argument of an estimator takes effect", "statement": "The radius, cost, regularisation, noise scale, number of samples, seed, ridge weight and number of iterations given to an estimator are those of the robust problem it solves and of its training; importance sampling is on exactly for squared Euclidean costs (and for the two regressions only with a post-sampled solver).", "quantifier": "every estimator, solver, value of the arguments, data set", "why_tests_cant": "An ignored argument only shows by comparing all pairs of settings.", "anchors": ["skwdro/linear_models/_linear_regression.py::LinearRegression.fit", "skwdro/linear_models/_logistic_regression.py::LogisticRegression.fit", "skwdro/operations_research/_weber.py::Weber.fit", "skwdro/operations_research/_newsvendor.py::NewsVendor.fit", "skwdro/operations_research/_portfolio.py::Portfolio.fit", "skwdro/solvers/entropic_dual_torch.py::solve_dual_wdro"]}
{"id": "C91", "title": "A robust loss always has the sampler it was given", "statement": "A sampler assigned to a loss, or built by explicit initialisation on a batch, is the one used from then on: after any sequence of evaluations (failing or not), drawings and readings it is in place with the same noise and seed, centred on the last evaluated batch. Without a sampler, one is built at the first evaluation. Default samplers of the losses draw normal noise of the given deviation around the batch, and refuse a deviation that is not positive.", "quantifier": "every sampler class, loss, batch and finite sequence of calls (assignments, deletions, initialisations, forward passes, drawings)", "why_tests_cant": "Histories are unbounded and the sampler is changed in place by evaluations.", "anchors": ["skwdro/base/losses_torch/base_loss.py::Loss.sampler", "skwdro/base/losses_torch/base_loss.py::Loss.default_sampler", "skwdro/solvers/_dual_interfaces/_misc_dual_interfaces.py::_DualLossBase.init_sampler", "skwdro/solvers/oracle_torch.py::DualPostSampledLoss.forward"]}
{"id": "C92", "title": "The number of adversarial samples drawn is the requested one", "statement": "Drawing adversarial samples from a robust loss returns, for each data point, as many samples as requested, or the number set at construction when the request is missing, zero or negative; with labels exactly when its sampler has a law for them.", "quantifier": "every loss, sampler, requested integer and generator state", "why_tests_cant": "All integers (zero and negative included), all shapes, all samplers.", "anchors": ["skwdro/solvers/_dual_interfaces/_misc_dual_interfaces.py::_SampledDualLoss.generate_zetas", "skwdro/base/losses_torch/base_loss.py::Loss.sample_pi0"]}
{"id": "C93", "title": "The optimizer built is the documented one", "statement": "The learning rate and adaptation given to robustify are those of the optimizer it builds; the optimizer updates the model and (for positive radii) the multiplier, never the radius or the regularisation; its schedules are built for the numbers of iterations the user set.", "quantifier": "every learning rate, adaptation name, schedule, radius, sampling mode", "why_tests_cant": "An ignored argument only shows by comparing all pairs of settings.", "anchors": ["skwdro/wrap_problem.py::dualize_primal_loss", "skwdro/solvers/oracle_torch.py::DualPostSampledLoss.__init__", "skwdro/solvers/oracle_torch.py::DualPreSampledLoss.__init__", "skwdro/solvers/oracle_torch.py::CompositeOptimizer.__init__"]}
{"id": "C94", "title": "Fits with the dedicated solvers solve the robust problem the user described", "statement": "With solver='dedicated', on every valid data set, fit returns, and the stored coefficients, intercept or weights solve the worst-case problem stated with the estimator's own arguments (radius, intercept flag, prices, risk levels, constraints, norm order): linear and logistic regression, newsvendor and portfolio.", "quantifier": "every data set, labels, radius, prices, risk levels, polytope, exact external solver", "why_tests_cant": "an argument lost or swapped between the estimator and the solver only shows by comparing the stored model with all other models under all distributions of the ball", "anchors": ["skwdro/linear_models/_linear_regression.py::LinearRegression.fit", "skwdro/linear_models/_logistic_regression.py::LogisticRegression.fit", "skwdro/operations_research/_newsvendor.py::NewsVendor.fit", "skwdro/operations_research/_portfolio.py::Portfolio.fit", "skwdro/solvers/specific_solvers.py"]}
{"id": "C95", "title": "Minimising over the multiplier computes the worst case over the samples", "statement": "For given samples, the least value of the robust loss over all non-negative multipliers exists and equals the largest expected loss, penalised by the divergence, over all re-weightings of the samples of average cost at most rho^p, whenever the samples leave slack (one sample per point of average cost below rho^p). The robust loss is bounded below in the multiplier exactly when some re-weighting is admissible; otherwise it goes to minus infinity, and nothing checks for it.", "quantifier": "every loss, ground cost, batch, samples, radius, regularisation, multiplier and re-weighting", "why_tests_cant": "Equality of a minimum over a half-line and a maximum over a product of simplices; tests evaluate finitely many multipliers and adversaries.", "anchors": ["skwdro/solvers/_dual_interfaces/dual_loss.py::_DualFormulation.compute_dual", "skwdro/solvers/oracle_torch.py::DualPreSampledLoss.forward"]}
{"id": "C96", "title": "More samples bring the robust loss to the exact robust objective", "statement": "When the number of independent samples per data point grows, the robust loss converges (almost surely for a growing set of samples; in probability when samples are drawn afresh, in particular through the forward pass with the library's sampler) to lam*rho^p + mean_i eps*log E exp((loss - lam*cost)/eps), the expectation being under the sampler's law.", "quantifier": "every model, with or without labels, with a finite exponential moment, ground cost, batch, multiplier, radius, regularisation, tolerance; every source of independent samples", "why_tests_cant": "It is a limit and a probability: no finite number of samples or runs shows it, and finite tests only see values up to sampling error.", "anchors": ["skwdro/solvers/_dual_interfaces/dual_loss.py::_DualFormulation.compute_dual", "skwdro/solvers/oracle_torch.py::DualPostSampledLoss.forward", "skwdro/base/samplers/torch/cost_samplers.py::LabeledCostSampler", "skwdro/base/costs_torch/normcost.py::NormCost._sampler_data"]}
{"id": "C97", "title": "Few samples underestimate the risk, never overestimate it", "statement": "On average over the samples drawn, the robust loss never exceeds the exact robust objective, and never decreases when more samples are drawn.", "quantifier": "every model, with or without labels, with integrable loss, cost and exponential moment, ground cost, batch, multiplier, radius, regularisation, number of samples", "why_tests_cant": "It compares expectations, for all numbers of samples; tests only see noisy estimates of them.", "anchors": ["skwdro/solvers/_dual_interfaces/dual_loss.py::_DualFormulation.compute_dual", "skwdro/solvers/oracle_torch.py::DualPostSampledLoss.forward"]}
{"id": "C98", "title": "With enough samples the robust loss covers every adversary", "statement": "Almost surely, once enough samples are drawn the robust loss exceeds, up to any tolerance, the expected loss penalised by eps times the divergence from the sampler's law, of any adversary moving the data at an average cost of at most rho^p; the exponentially tilted laws reach the limit up to the price of the cost they leave unspent.", "quantifier": "every adversary (one probability law per data point, of finite divergence), model with or without labels, ground cost, batch, non-negative multiplier, radius, regularisation, tolerance", "why_tests_cant": "Quantifies over all probability laws and over limits.", "anchors": ["skwdro/solvers/_dual_interfaces/dual_loss.py::_DualFormulation.compute_dual", "skwdro/solvers/oracle_torch.py::DualPostSampledLoss.forward"]}
{"id": "C99", "title": "Importance sampling does not change the value being estimated", "statement": "Importance sampling only changes how the robust loss is estimated: with the same noise around the data, the robust loss with importance sampling tends, when more samples are drawn, to the same exact robust objective as without it.", "quantifier": "every loss with a finite exponential moment under squared Euclidean costs, with or without labels, batch, gradients, multiplier, radius, regularisation, noise scale", "why_tests_cant": "Two limits of random estimates are compared, for every loss and law; at any finite number of samples the two estimates differ by sampling noise anyway.", "anchors": ["skwdro/solvers/_dual_interfaces/dual_loss.py::_DualFormulation.compute_dual", "skwdro/solvers/_dual_interfaces/_impsamp_interface.py::_SampleDisplacer.displace_samples", "skwdro/base/samplers/torch/base_samplers.py::LabeledSampler.log_prob_recentered"]}
{"id": "C100", "title": "Training steps follow the gradient of the robust loss", "statement": "Every optimizer step sees the gradient of the robust loss at the present model and multiplier, alone and not added to earlier gradients; the coefficients and the multiplier returned by training are what its last step wrote. With plain gradient descent they are one step of the learning rate against that gradient.", "quantifier": "every model, data set, optimizer (any interaction with its closure), schedule, stop pattern", "why_tests_cant": "all executions: a stale or accumulated gradient, or one of the ordinary loss, still trains and only shows by following every step", "anchors": ["skwdro/solvers/entropic_dual_torch.py::optim_presample", "skwdro/solvers/entropic_dual_torch.py::optim_postsample", "skwdro/solvers/entropic_dual_torch.py::solve_dual_wdro"]}
{"id": "C101", "title": "Training is the documented sequence of steps", "statement": "A training that returns has done exactly this: the pre-training steps from the initial model and multiplier (on the ordinary loss when pre-sampled), the initial guess of the multiplier at the model reached, when pre-sampled the reset of the optimizer's memory of the multiplier, then steps on the robust loss at the present model and multiplier, each followed by the verdict of the optimality condition on the values just obtained and its own memory, until it says stop, the loss is NaN or the iterations are over. Model, multiplier and loss reported are those at the end of it.", "quantifier": "every model, data set, optimizer updating parameters in place (any interaction with its closure), schedule, optimality condition and its memory, generator state", "why_tests_cant": "all executions, of any length", "anchors": ["skwdro/solvers/entropic_dual_torch.py::optim_presample", "skwdro/solvers/entropic_dual_torch.py::optim_postsample", "skwdro/solvers/entropic_dual_torch.py::solve_dual_wdro", "skwdro/solvers/optim_cond.py::OptCondTorch"]}
{"id": "C102", "title": "Hyper-parameters are what the user set", "statement": "Whatever a program does with estimators, get_params of an estimator returns the values given at construction or last given to set_params; fitting it or others, and cloning, change none of them (up to the python type of the radius). set_params sets exactly the arguments named, the last value given winning, and refuses names the class does not have.", "quantifier": "every program (sequence of constructions, set_params, clones, fits returning or raising, uses of conditions) on any number of estimators of the five classes, every argument and value", "why_tests_cant": "unbounded histories of operations on shared objects", "anchors": ["skwdro/linear_models/_logistic_regression.py::LogisticRegression", "skwdro/linear_models/_linear_regression.py::LinearRegression", "skwdro/operations_research/_newsvendor.py::NewsVendor", "skwdro/operations_research/_portfolio.py::Portfolio", "skwdro/operations_research/_weber.py::Weber"]}
{"id": "C103", "title": "Estimators do not influence each other", "statement": "The outcome of fitting an estimator does not depend on which other estimators were constructed, cloned, changed or fitted before in the same program.", "quantifier": "every program, data sets, estimators of the five classes", "why_tests_cant": "unbounded histories; the default optimality condition is one object per class", "anchors": ["skwdro/linear_models/_logistic_regression.py::LogisticRegression.DEFAULT_OCOND", "skwdro/linear_models/_linear_regression.py::LinearRegression.__init__", "skwdro/operations_research/_newsvendor.py::NewsVendor.__init__", "skwdro/operations_research/_portfolio.py::Portfolio.__init__", "skwdro/operations_research/_weber.py::Weber.__init__", "skwdro/solvers/optim_cond.py::OptCondTorch"]}
{"id": "C104", "title": "Clones and refits are as good as new", "statement": "scikit-learn's clone of an estimator succeeds and gives an estimator with the same arguments sharing no state with the original, whose fit has the outcome of the fit of an estimator newly built from the same arguments; fitting an estimator again has the outcome of a first fit.", "quantifier": "every program before the clone, every estimator of the five classes, arguments, data", "why_tests_cant": "unbounded histories; state hidden in an argument of the constructor", "anchors": ["skwdro/linear_models/_logistic_regression.py::LogisticRegression", "skwdro/linear_models/_linear_regression.py::LinearRegression", "skwdro/operations_research/_newsvendor.py::NewsVendor", "skwdro/operations_research/_portfolio.py::Portfolio", "skwdro/operations_research/_weber.py::Weber", "skwdro/solvers/optim_cond.py::OptCondTorch"]}
{"id": "C105", "title": "Any number literal can be written in a cost code", "statement": "A numeric field of a cost code is read exactly when it is a python number literal (blanks, sign, digits with single underscores, point, exponent, infinity or nan in any case), with the value written, and refused with ValueError otherwise; any such literal may be used for the power, the norm order and the label weight.", "quantifier": "every string, every literal of the grammar, every field", "why_tests_cant": "the language of literals is infinite; a wrong boundary shows on one string in a family", "anchors": ["skwdro/base/cost_decoder.py::cost_from_str", "skwdro/base/cost_decoder.py::parse_code_torch"]}
{"id": "C106", "title": "Only the documented cost codes are accepted", "statement": "A cost code is accepted exactly when it has one of the documented formats with numeric fields that are literals (label weight non-negative and only for the labelled cost); the cost built is the one the fields describe.", "quantifier": "every string given to the two decoders", "why_tests_cant": "quantifies over all strings: accepting or refusing one malformed family is invisible on samples", "anchors": ["skwdro/base/cost_decoder.py::cost_from_str", "skwdro/base/cost_decoder.py::parse_code_torch", "skwdro/base/cost_decoder.py::cost_from_parse_torch"]}
{"id": "C107", "title": "An optimality condition can be used for several fits", "statement": "Whatever fits a program made before, of whatever estimators sharing their optimality conditions or not, and on whatever data, the next fit returns; in particular an estimator can be fitted again on data with another number of features.", "quantifier": "every sequence of fits of estimators of the five classes, settings, data sets, conditions with documented settings, optimizers raising nothing by themselves", "why_tests_cant": "unbounded histories; the memory of the condition outlives the fits and depends on all of them", "anchors": ["skwdro/solvers/optim_cond.py::OptCondTorch", "skwdro/solvers/entropic_dual_torch.py::solve_dual_wdro", "skwdro/linear_models/_linear_regression.py::LinearRegression.fit", "skwdro/linear_models/_logistic_regression.py::LogisticRegression.fit", "skwdro/operations_research/_weber.py::Weber.fit", "skwdro/operations_research/_newsvendor.py::NewsVendor.fit", "skwdro/operations_research/_portfolio.py::Portfolio.fit"]}
{"id": "C108", "title": "Evaluating in minibatches gives the loss of the whole data", "statement": "For the same multiplier and samples, the robust loss of a data set is the average of the robust losses of its minibatches weighted by their sizes, however the data are shuffled and split; for batches of equal sizes it is the plain mean. The ordinary loss evaluated at radius zero splits in the same way.", "quantifier": "every labelled model, ground cost, data set, samples, multiplier, radius, regularisation, and every way to deal the points to batches of any sizes", "why_tests_cant": "all partitions of all data sets", "anchors": ["skwdro/solvers/_dual_interfaces/dual_loss.py::_DualFormulation.compute_dual", "skwdro/solvers/_dual_interfaces/_impsamp_interface.py::_SampleDisplacer.displace_samples", "skwdro/solvers/entropic_dual_torch.py::optim_postsample"]}
{"id": "C109", "title": "A larger radius asks for more robustness", "statement": "Comparing two radii on the same data: the optimal robust value of the larger one is at least as large, and the optimal multiplier (the price of the radius, stored as dual_var_ by the dedicated logistic and portfolio solvers) at most as large, the values differing by between the two multipliers times the change of rho^p. Dedicated linear regression with the larger radius has coefficients of smaller norm and a larger training error. The same holds for the minimisers of the sampled robust loss over any set of models. It starts from radius zero too.", "quantifier": "every data set, pair of radii, prices, risk levels, polytope, exact external solver; every set of models with the best multipliers", "why_tests_cant": "compares optimal values of two optimisation problems, for all data", "anchors": ["skwdro/solvers/specific_solvers.py", "skwdro/linear_models/_linear_regression.py::LinearRegression.fit", "skwdro/linear_models/_logistic_regression.py::LogisticRegression.fit", "skwdro/operations_research/_portfolio.py::Portfolio.fit", "skwdro/solvers/_dual_interfaces/dual_loss.py::_DualFormulation.compute_dual"]}
{"id": "C110", "title": "Learning rates follow the length of the training", "statement": "With the default adaptive optimizer the learning rate of the model follows a cosine from its initial value down to zero, reached exactly at the end of the announced iterations, and that of the multiplier does the same over the robust iterations. Saving and loading the state of the optimizer, or resetting that of the multiplier, keeps the learning rates on schedule; every schedule of iterations can be run.", "quantifier": "every schedule (numbers of pre-training and robust iterations), inner optimizer, gradients, stopping moment, history of steps", "why_tests_cant": "the rates at all iterations of all schedules, and after any interruption, are compared with a closed form; a test sees one schedule", "anchors": ["skwdro/solvers/oracle_torch.py::CompositeOptimizer", "skwdro/solvers/entropic_dual_torch.py::optim_postsample"]}
{"id": "C111", "title": "Small changes of the problem change the robust loss little", "statement": "Two losses that differ by at most d at every sample have robust losses that differ by at most d. Increasing the multiplier by d moves the robust loss by between d times (rho^p minus the largest cost) and d times (rho^p minus the least cost); changing the radius moves it by the multiplier times the change of rho^p. Replacing one of m data points, label and samples included, moves it by at most 1/m of the range of the penalised losses at that point.", "quantifier": "every loss, ground cost, batch, samples, multiplier, radius, regularisation and perturbation of them", "why_tests_cant": "bounds for all perturbations of all problems; tests see finitely many", "anchors": ["skwdro/solvers/_dual_interfaces/dual_loss.py::_DualFormulation.compute_dual"]}
{"id": "C112", "title": "The choice of units does not matter", "statement": "Measuring the loss in another unit (multiplier and regularisation expressed in it) gives the robust loss in that unit. Measuring the data, labels and radius in another unit, with a model giving the same losses, leaves the robust loss unchanged once the multiplier is divided by the change of unit to the power p: the ground costs are homogeneous. The settings left to their defaults follow the unit.", "quantifier": "every positive change of unit, labelled model, ground cost, norm order, power, label weight, batch, samples", "why_tests_cant": "an equality between two problems, for all changes of unit and all data", "anchors": ["skwdro/base/costs_torch/normcost.py::NormCost.value", "skwdro/base/costs_torch/normlabelcost.py::NormLabelCost.value", "skwdro/solvers/_dual_interfaces/dual_loss.py::_DualFormulation.compute_dual", "skwdro/wrap_problem.py::expert_hyperparams"]}
{"id": "C113", "title": "How many samples are enough can be computed beforehand", "statement": "If the penalised losses (loss minus multiplier times cost) are bounded above, the probability that the robust loss with n independent samples per data point misses the exact robust objective by t or more decreases exponentially in n, with an explicit rate; hence an explicit number of samples, logarithmic in the number of data points and in the allowed probability of failure, makes one forward pass accurate to t.", "quantifier": "every model with or without labels, ground cost, batch, multiplier, radius, regularisation, tolerance, probability of failure, number of samples", "why_tests_cant": "a bound on probabilities, for every number of samples; finite runs only estimate frequencies", "anchors": ["skwdro/solvers/_dual_interfaces/dual_loss.py::_DualFormulation.compute_dual", "skwdro/solvers/oracle_torch.py::DualPostSampledLoss.forward", "skwdro/base/samplers/torch/cost_samplers.py::LabeledCostSampler"]}
{"id": "C114", "title": "Hybrid optimizers are stepped like torch optimizers", "statement": "Stepping a hybrid optimizer with a closure is the same as calling the closure and then stepping, and returns the loss the closure computed; a rule whose key is set to False is off.", "quantifier": "every loss and gradient, group configuration, values, learning rate", "why_tests_cant": "quantifies over all losses and configurations; the state seen by the closure exists only during the step", "anchors": ["skwdro/solvers/hybrid_opt.py::HybridOpt.step", "skwdro/solvers/hybrid_opt.py::HybridOpt._apply_rules", "skwdro/solvers/hybrid_opt.py::HybridSGD"]}
{"id": "C115", "title": "Hybrid SGD converges on convex problems", "statement": "With multiplicative weights on the simplex and plain SGD, whatever gradients in an interval of length b-a arrive, the loss accumulated over T steps exceeds that of the best fixed weights by at most log(n)/lr + lr*T*(b-a)^2/8; hence the average iterate of a convex problem is optimal up to log(n)/(lr*T) + lr*(b-a)^2/8. For plain or non-negative parameters the bound is |p0-q|^2/(2 lr) + lr/2 times the accumulated squared gradients.", "quantifier": "every dimension, learning rate, number of steps, sequence of gradients (adversarial included), comparison point, convex problem", "why_tests_cant": "a bound for all sequences of gradients of all lengths", "anchors": ["skwdro/solvers/hybrid_opt.py::prerule_mwu_simplex", "skwdro/solvers/hybrid_opt.py::postrule_mwu_simplex", "skwdro/solvers/hybrid_opt.py::postrule_non_neg", "skwdro/solvers/hybrid_opt.py::HybridSGD"]}
{"id": "C116", "title": "A call of fit that raises leaves the estimator as it was", "statement": "When fit raises on an estimator that was fitted before, predict, predict_proba, coef_, eval and score go on giving what the last successful fit determined; when fit raises on an estimator that was never fitted, those methods raise as if fit had not been called.", "quantifier": "every history of earlier calls of fit (other data, numbers of features, labels, settings, some raising), every later sequence of calls that raise, at whatever point they raise", "why_tests_cant": "Which attributes a failing fit has already overwritten depends on where it fails and on what earlier calls left; tests look at one failing call on a fresh object.", "anchors": ["skwdro/linear_models/_logistic_regression.py::LogisticRegression.fit", "skwdro/linear_models/_logistic_regression.py::LogisticRegression.predict", "skwdro/linear_models/_linear_regression.py::LinearRegression.fit", "skwdro/linear_models/_linear_regression.py::LinearRegression.predict", "skwdro/operations_research/_newsvendor.py::NewsVendor.fit", "skwdro/operations_research/_newsvendor.py::NewsVendor.eval", "skwdro/operations_research/_portfolio.py::Portfolio.fit", "skwdro/operations_research/_weber.py::Weber.fit"]}
{"id": "C117", "title": "What is read after a successful fit comes from that fit", "statement": "After fit returns, predictions, probabilities, coef_, eval and score are those of a new estimator fitted with the same settings, data and random numbers, whatever calls of fit came before; whether fit raises does not depend on earlier calls; and no attribute of an earlier fit is still reported.", "quantifier": "every history of earlier calls of fit on the same object, every call that returns, every data set evaluated afterwards", "why_tests_cant": "The space of histories on one object is unbounded, and stale attributes only show up for particular pairs of settings in sequence.", "anchors": ["skwdro/linear_models/_logistic_regression.py::LogisticRegression.fit", "skwdro/linear_models/_linear_regression.py::LinearRegression.fit", "skwdro/operations_research/_newsvendor.py::NewsVendor.fit", "skwdro/operations_research/_portfolio.py::Portfolio.fit", "skwdro/operations_research/_weber.py::Weber.fit"]}
{"id": "C118", "title": "An optimality condition that cannot be evaluated raises", "statement": "When what a condition watches cannot be measured (a parameter or the multiplier has no gradient, the model has no parameter) or its metric or mode is unknown, the call raises instead of reporting convergence: ValueError for missing gradients and unknown metrics at every call, for unknown modes from the first comparison on. With documented settings and populated gradients every call answers. All documented spellings of a setting are equivalent.", "quantifier": "every condition, memory, iteration number and sequence of calls", "why_tests_cant": "ranges over all histories of calls and all settings", "anchors": ["skwdro/solvers/optim_cond.py::OptCondTorch.check_t", "skwdro/solvers/optim_cond.py::OptCondTorch.check_l", "skwdro/solvers/optim_cond.py::OptCondTorch.check_metric", "skwdro/solvers/optim_cond.py::OptCondTorch.get_flat_grad", "skwdro/solvers/utils.py::maybe_flatten_grad_else_raise"]}
{"id": "C119", "title": "New data must have the features of the training data", "statement": "After any history of calls of fit, data whose number of features differs from that of the last call that returned is refused with an exception by LinearRegression.predict, LogisticRegression.predict and predict_proba, and Portfolio.eval; no number is ever returned for it. Violated by predict_proba of a binary classifier trained on one feature by an entropic solver: the coefficient is then a number, and any number d' of features is accepted, with a result of shape (d', 2N).", "quantifier": "all training data, settings, labels, random states, solver answers, trained parameters, earlier and failed fits; all new data with another number of features", "why_tests_cant": "Tests predict on data shaped like the training data; the combinations of numbers of features, classes, solvers and histories are unbounded, and broadcasting accepts some of them silently.", "anchors": ["skwdro/linear_models/_linear_regression.py::LinearRegression.predict", "skwdro/linear_models/_logistic_regression.py::LogisticRegression.predict_proba", "skwdro/linear_models/_logistic_regression.py::LogisticRegression.predict", "skwdro/operations_research/_portfolio.py::Portfolio.eval"]}
{"id": "C120", "title": "Gradient descent reaches the robust optimum at a known rate", "statement": "Pre-sampled training by plain gradient descent, on a robust loss that is convex with curvature at most beta in the parameters and the multiplier together, with a learning rate at most 1/beta and exact gradients: a training that returns reports the loss at the returned parameters and multiplier; this loss is at most the one at the start of the robust phase, and exceeds the loss of any other parameters and multiplier by at most their squared distance to the start over 2 lr k, k being the number of robust iterations (all those planned, unless the optimality condition stopped the training). For two-class logistic regression these conditions hold on all data with beta = B^2/4 + l2_reg + (B^2 + K^2)/epsilon, B bounding |label| |(sample, 1)| and K the ground cost; so some positive learning rate always works.", "quantifier": "all data, samples, initial layers, settings, costs, schedules, optimality conditions and their memory, learning rates up to the bound, numbers of iterations; all competing parameters and multipliers", "why_tests_cant": "A test compares a few runs with a reference optimum; the bound must hold for every data set, every start, every number of iterations and every competitor, and says which learning rates are safe.", "anchors": ["skwdro/solvers/optim_cond.py::OptCondTorch", "skwdro/solvers/entropic_dual_torch.py::solve_dual_wdro", "skwdro/solvers/entropic_dual_torch.py::optim_presample", "skwdro/solvers/_dual_interfaces/dual_loss.py::_DualFormulation"]}
{"id": "C121", "title": "A radius that is not a number is refused by the dedicated solvers", "statement": "With solver='dedicated' and a NaN radius, fit raises on every data set and fits nothing, for linear and logistic regression, newsvendor and portfolio.", "quantifier": "all data sets, arguments other than the radius and the solver, external solvers, random generators", "why_tests_cant": "NaN passes the constructor's check and every comparison with it is false, so what happens depends on how each solver uses the radius; a test on one estimator and one data set says nothing on the others.", "anchors": ["skwdro/solvers/specific_solvers.py::WDRONewsvendorSpecificSolver", "skwdro/solvers/specific_solvers.py::WDROLinRegSpecificSolver", "skwdro/operations_research/_newsvendor.py::NewsVendor", "skwdro/linear_models/_linear_regression.py::LinearRegression"]}
{"id": "C122", "title": "The reference estimators answer from the last successful fit", "statement": "After any history of fits and predictions, the template classifier labels each point with the label of the first closest training point of the last fit that returned, gives training points back their own labels, and raises NotFittedError if no fit returned; the template transformer returns square roots (NaN at negative entries); all three template estimators refuse data with another number of features than at fit.", "quantifier": "all histories of calls, training sets, labels, numbers of features and query points", "why_tests_cant": "Ties, failed refits and the width of the data must be handled for every history and data set; scikit-learn's own checks only try a few fixed data sets.", "anchors": ["skwdro/_template.py::TemplateClassifier", "skwdro/_template.py::TemplateEstimator", "skwdro/_template.py::TemplateTransformer"]}
{"id": "C123", "title": "Training on samples drawn at every step does almost as well as any fixed parameters on the same draws", "statement": "With a post-sampled solver and plain gradient descent on a convex robust loss, whatever the learning rate, the schedule, the draws and the optimality condition, the average of the losses met during the robust phase is at most the average loss of any fixed parameters and multiplier on the same draws, plus the squared distance from the start over twice the learning rate times the number of steps, plus half the learning rate times the mean squared slope; the returned parameters are those after the last step, and the reported loss is the one met at that step. For two-class logistic regression without ridge penalty (and a cost without importance sampling) the slopes are bounded by the size of the samples and of the costs.", "quantifier": "all data, initial layers, learning rates, schedules, random draws, optimality conditions and comparison parameters", "why_tests_cant": "A test sees one run; the bound compares one run to all parameters at once, over all draws and numbers of steps.", "anchors": ["skwdro/solvers/entropic_dual_torch.py::optim_postsample", "skwdro/solvers/oracle_torch.py::DualPostSampledLoss"]}
{"id": "C124", "title": "The reported robust loss bounds the worst case of the trained parameters, which is nearly the smallest possible", "statement": "With the pre-sampled solver, gradient descent with a small enough learning rate and a multiplier kept non-negative (HybridSGD with the rule non_neg), if the samples leave some slack in the transport budget rho^p, then the robust loss reported is at least the largest expected loss (minus the entropic penalty) that an adversary re-weighting the samples within the budget can cause to the returned parameters, and it exceeds the same worst case of any other parameters by at most a constant over the number of robust iterations. Without slack this fails: no adversary is admissible and the reported loss goes to minus infinity as the training gets longer.", "quantifier": "all data, settings, initial layers, schedules, optimality conditions, drawn samples, adversaries and comparison parameters", "why_tests_cant": "It compares one run to all adversaries and all other parameters at once; a test evaluates a few of them.", "anchors": ["skwdro/solvers/entropic_dual_torch.py::optim_presample", "skwdro/solvers/oracle_torch.py::DualPreSampledLoss", "skwdro/solvers/hybrid_opt.py::HybridSGD"]}
{"id": "C125", "title": "Training on losses with kinks meets, on average, losses hardly above those of any fixed choice", "statement": "With the post-sampled solver and gradient descent of any learning rate, the losses met while training a news vendor's order (price at least zero) or a facility's place (weights at least zero) are on average at most those of any fixed order or place and multiplier on the same draws, plus a constant over the number of steps and half the learning rate times the mean square of the slopes, although these losses have no derivative at their kinks: whatever derivative the backward pass takes at a kink, applying the chain rule gives a subgradient of the robust loss.", "quantifier": "all data, settings with importance sampling off, initial values, learning rates, schedules, optimality conditions, generators, choices of the derivative at the kinks and comparison values", "why_tests_cant": "It compares one run to all fixed choices at once, for all schedules and all derivatives at the kinks; a test compares a few.", "anchors": ["skwdro/solvers/entropic_dual_torch.py::optim_postsample", "skwdro/operations_research/_newsvendor.py::CustomNewsvendorLoss", "skwdro/base/losses_torch/weber.py::SimpleWeber", "skwdro/solvers/oracle_torch.py::DualPostSampledLoss"]}
{"id": "C126", "title": "With a seed, the solver that should resample at every step trains on one fixed set of samples", "statement": "Every step of a post-sampled training of a loss with a seed (all estimators give one, and so does `dualize` by default), whatever the optimizer, is on the same samples: those drawn right after seeding. So the training is a deterministic descent of one robust loss (the documentation announces new samples at each step), and with gradient descent, a loss of bounded curvature and a small enough learning rate it nears the optimum of this loss at the rate of the inverse of the number of steps, the reported loss being the one before the last step. Without a seed each step draws from where the last one left the generator.", "quantifier": "all losses, data, seeds, optimizers, schedules, optimality conditions, generators and initial states of the generator; for the rate, all convex losses with bounded curvature and all two-class logistic regressions without importance sampling", "why_tests_cant": "The samples are hidden inside the forward passes; a test sees a few losses of a few runs, and cannot tell that all steps of all runs use the same samples, nor compare with all parameters.", "anchors": ["skwdro/solvers/entropic_dual_torch.py::optim_postsample", "skwdro/solvers/oracle_torch.py::DualPostSampledLoss", "skwdro/base/samplers/torch/base_samplers.py::BaseSampler", "skwdro/base/samplers/torch/cost_samplers.py::LabeledCostSampler"]}
{"id": "C127", "title": "Bounds on the returns given to a portfolio are respected or refused", "statement": "A Portfolio built with constraints C and d considers only laws of returns with C x <= d: the fitted weights have the smallest worst-case loss over these laws within the radius of the sample. Constraints that cannot be used (one of the two missing, another number of assets, another number of bounds) are refused with ValueError.", "quantifier": "all data sets, constraint matrices and vectors of any sizes and shapes, solvers, radii, risk parameters and cost codes", "why_tests_cant": "Tests fit portfolios without constraints or with one polytope; that the constraints take effect, and that unusable ones are always noticed, ranges over all sizes, shapes and solvers.", "anchors": ["skwdro/operations_research/_portfolio.py::Portfolio.fit", "skwdro/solvers/specific_solvers.py::WDROPortfolioSpecificSolver"]}
{"id": "C128", "title": "Training on fresh samples is nearly optimal on average for the expected robust loss", "statement": "A post-sampled robust loss built without a seed draws new samples at each step of the training. If the draws of the steps are independent, and the loss on the samples is convex with slopes of finite mean square, then gradient descent with any learning rate lr returns parameters and a multiplier whose expected robust loss exceeds, on average, that of any fixed parameters and multiplier by at most the mean squared distance from the start over 2 lr (n + 1) plus lr / 2 times the mean squared slope times 2 + log n, after n robust iterations. The loss reported has the same bound on average, with n in place of n + 1. For two-class logistic regression with a norm as ground cost the assumptions on the loss hold as soon as the samples have finite second moments.", "quantifier": "all data sets, starting layers, learning rates, schedules, laws of independent draws, and reference parameters and multipliers", "why_tests_cant": "The statement is about averages over the random draws of a whole training; a test sees some runs with some seeds, and cannot tell a small bias from noise.", "anchors": ["skwdro/wrap_problem.py::dualize_primal_loss", "skwdro/wrap_problem.py::dualize_primal_loss", "skwdro/solvers/entropic_dual_torch.py::optim_postsample", "skwdro/solvers/entropic_dual_torch.py::solve_dual"]}
{"id": "C129", "title": "Dedicated fits do not depend on how the data is presented", "statement": "Fitting with solver='dedicated' gives a model that is optimal for the data, whatever the way the data is written down: the samples may come in another order and all be repeated equally often, the features of a linear or logistic regression may be expressed in another orthonormal system of coordinates (the coefficients are then those of an optimal model in these coordinates), the classes may be renamed or exchanged (coefficients and intercept change sign), the assets of a portfolio may be listed in another order.  For the news vendor the order of samples and columns changes nothing at all, but repeating the samples does change the order: with demand 1 (prices 0.7 and 1, radius 0.4) the fit orders 1, with the same demand given twice it orders nothing.", "quantifier": "every data set, every listing of the samples with equal multiplicities, every orthogonal matrix, every renaming of the two classes, every permutation of assets, every radius and other parameter accepted by the solver, every exact external solver", "why_tests_cant": "A test compares a few permutations on a few data sets and up to the tolerance of the solver; the claim ranges over all data sets and all presentations, and about worst cases over infinite families of distributions", "anchors": ["skwdro/linear_models/_linear_regression.py::LinearRegression.fit", "skwdro/linear_models/_logistic_regression.py::LogisticRegression.fit", "skwdro/operations_research/_portfolio.py::Portfolio.fit", "skwdro/operations_research/_newsvendor.py::NewsVendor.fit", "skwdro/solvers/specific_solvers.py::WDRONewsvendorSpecificSolver"]}
{"id": "C130", "title": "Rounding changes the robust loss little, however small the regularization", "statement": "The robust loss that robustify computes in floating point is close to its exact value: if every operation has relative error at most u (and the logarithm of the number n of samples relative error v), then for m points and any order of summation the error is at most u (5 lam rho^p + 44 m F + 19 m eps (log n + 1) + 12 n eps) + v eps log n, where F bounds |loss| + lam * cost over the samples.  The bound does not blow up as epsilon goes to 0, although the loss divides by epsilon and takes exponentials.  Data in double precision does not give the accuracy of double precision: the logarithm of the number of samples is computed in single precision, and with two samples per point the value is off by at least 1e-9 epsilon even if all other operations are exact.", "quantifier": "every losses and costs of every number of samples and points (with n u and m u at most 1/16), every radius, positive epsilon, nonnegative lambda and power, every rounding of each operation with the given accuracy, every order of summation", "why_tests_cant": "A test observes the roundings of one machine on a few tensors; the claim ranges over every way to round and to order the sums and over all magnitudes of epsilon", "anchors": ["skwdro/solvers/_dual_interfaces/dual_loss.py::_DualFormulation.compute_dual", "skwdro/solvers/_dual_interfaces/_misc_dual_interfaces.py::reduce_loss_batch"]}
{"id": "C131", "title": "A radius that bypasses the constructor: refused by fit when negative, read when it is text", "statement": "The constructors refuse a negative radius, but set_params(rho=v) accepts any value.  After it, cloning the estimator raises, and so does fitting it on any data, as long as its parameters are not set again: the torch solvers raise at the first evaluation of the robust loss, and the convex programs of the dedicated solvers are unbounded or asserted against.  A radius given as a text ('0.5') is refused by every constructor; set_params accepts it, cloning then raises, and fit does exactly what it does for the number written, or raises if none is.  The dedicated news vendor is an exception: at a negative radius it returns, silently, an order of zero.", "quantifier": "every estimator, arguments, negative number or text, program (sequence of constructions, fits, clones and parameter changes of other objects), data, optimizer, gradients, generator, schedule and condition; every exact convex solver", "why_tests_cant": "The claim ranges over all later histories, optimizers and data; a test fits one estimator once", "anchors": ["skwdro/linear_models/_logistic_regression.py::LogisticRegression.fit", "skwdro/linear_models/_linear_regression.py::LinearRegression.fit", "skwdro/operations_research/_newsvendor.py::NewsVendor.fit", "skwdro/operations_research/_portfolio.py::Portfolio.fit", "skwdro/operations_research/_weber.py::Weber.fit", "skwdro/solvers/specific_solvers.py::WDRONewsvendorSpecificSolver"]}
{"id": "C132", "title": "The radius from which a dedicated regression ignores the features can be computed from the data", "statement": "For the dedicated solver there is an explicit critical radius.  Linear regression: the norm of the average products of the features with the (centred, if an intercept is fitted) target, divided by the root mean square of that target.  Above it the fitted coefficients are exactly zero and the intercept is the mean target (zero without intercept); below it they are not zero.  Binary logistic regression without intercept, or with balanced classes: the norm of the average products of the features with the labels read as -1/2 and 1/2.  Above it the coefficients and the intercept are exactly zero, so every predicted probability is one half; below it the coefficients are not zero, provided no sample has a norm above 1000, the price of a change of label.", "quantifier": "every number of samples and features, every data set, every radius, every two labels of any ordered type, every exact convex solver, all other arguments", "why_tests_cant": "A test compares a few radii on one data set; the claim locates the exact threshold for all data sets", "anchors": ["skwdro/linear_models/_linear_regression.py::LinearRegression.fit", "skwdro/linear_models/_logistic_regression.py::LogisticRegression.fit", "skwdro/operations_research/_portfolio.py::Portfolio.fit", "skwdro/solvers/specific_solvers.py::WDROPortfolioSpecificSolver", "skwdro/solvers/specific_solvers.py::WDROLinRegSpecificSolver", "skwdro/solvers/specific_solvers.py::WDROLogisticSpecificSolver"]}
{"id": "C133", "title": "The numeric class of the radius does not matter to the predictions of the classifier", "statement": "LogisticRegression accepts a radius held as any number (python int or float, numpy integer, numpy single or double precision) or, through set_params, as a text, and predictions after fit should be those of the same value held as a python float.  They are for every class but numpy doubles, and always with at most two classes.  With more than two classes, a radius held as a numpy double (as in any grid made by numpy and given to GridSearchCV) fits and then predict and predict_proba raise RuntimeError on all data: numpy doubles are python floats, so they are not converted, and the data is brought to their precision before a layer in single precision.", "quantifier": "every class of number, fitted classifier (data, labels, number of classes, settings, optimizer, initialization) and test data", "why_tests_cant": "The class of the radius, the number of classes and the solver interact; tests fit python floats on two or three classes", "anchors": ["skwdro/linear_models/_logistic_regression.py::LogisticRegression.fit", "skwdro/linear_models/_logistic_regression.py::LogisticRegression.predict_proba", "skwdro/linear_models/_logistic_regression.py::LogisticRegression.predict"]}
{"id": "C134", "title": "The radius from which the dedicated portfolio is equally weighted can be computed from the data", "statement": "With the dedicated solver, no bounds on the returns and a cost of power one (all defaults), as soon as rho exceeds (number of assets - 1) times the average over the samples of the gap between the best and the worst return, the weights in coef_ are exactly 1/(number of assets), whatever eta and alpha; and this radius cannot be lowered, for any number of assets.  With a cost of power two the distance of the weights to equal weights is at most 2/rho times the average norm of the returns centred across assets.", "quantifier": "every number of assets and of samples, all returns, eta >= 0, 0 < alpha <= 1, radius and exact convex solver", "why_tests_cant": "An equality of real vectors, for all data and all radii above a threshold, and the optimality of the threshold for every number of assets; a test solves one program up to tolerance", "anchors": ["skwdro/operations_research/_portfolio.py::Portfolio.fit", "skwdro/solvers/specific_solvers.py::WDROPortfolioSpecificSolver"]}
{"id": "C135", "title": "Errors in the data cost no more than their size", "statement": "Fitting a dedicated linear regression, binary logistic regression or portfolio on data known up to an average error delta (root mean square for linear regression; 1000 per wrong label for logistic regression), delta at most the radius: the optimal worst-case value of the fitted data bounds the loss of the stored model on the exact data and on every law within rho - delta of it, and is at most the optimal worst-case value of the exact data for the radius rho + delta. With the torch solvers and no importance sampling, rounding the inputs (as the conversion to single precision does) changes the value handed to the optimizer, at any multiplier and generator state, by at most the Lipschitz constant of the loss times the average displacement: for a relative error u, at most u times the norm of the coefficients, the largest label and the mean norm of the inputs (logistic), or u (1 + eta/alpha) times the mean norm of the returns (portfolio).", "quantifier": "every exact and perturbed data set of the same shape, error, radius, model, multiplier, generator state, exact external solver", "why_tests_cant": "needs all pairs of data sets and all laws of a Wasserstein ball; a test sees one perturbation", "anchors": ["skwdro/linear_models/_logistic_regression.py::LogisticRegression.fit", "skwdro/linear_models/_linear_regression.py::LinearRegression.fit", "skwdro/operations_research/_portfolio.py::Portfolio.fit", "skwdro/wrap_problem.py::dualize_primal_loss", "skwdro/base/samplers/torch/cost_samplers.py::LabeledCostSampler"]}
{"id": "C136", "title": "With more data, robust regressions and portfolios approach the robust solution for the law of the data", "statement": "Fitting linear regression, two-class logistic regression or (with alpha below one and no bounds on the returns) the portfolio with solver=\"dedicated\" and a fixed rho (positive for the regressions) on more and more independent draws of one law: with probability one the fits return, and the worst-case risk of the stored model when points drawn from the law itself are moved (error with inputs moved by a mean square of at most rho^2; logistic loss with inputs moved and labels changed at an average cost of at most rho, a change of label costing 1000; mean-CVaR loss with returns moved by at most rho on average for the norm of the cost) converges to the smallest worst-case risk of any linear model, or of any weights and threshold. The worst-case risk reached on the data converges to the same number.", "quantifier": "all laws of the data with finite second moments (regression), finite means and both classes of positive probability (classification) or finite means (portfolio), all sequences of pairwise independent draws outside a set of probability zero, numbers of features, radii, costs and settings of the intercept", "why_tests_cant": "a limit over data sets of growing size, with probability one, for every law of the data", "anchors": ["skwdro/linear_models/_linear_regression.py::LinearRegression.fit", "skwdro/linear_models/_logistic_regression.py::LogisticRegression.fit", "skwdro/operations_research/_portfolio.py::Portfolio.fit", "skwdro/solvers/specific_solvers.py::WDROPortfolioSpecificSolver", "skwdro/solvers/specific_solvers.py::WDROLinRegSpecificSolver", "skwdro/solvers/specific_solvers.py::WDROLogisticSpecificSolver"]}
{"id": "C137", "title": "How far the dedicated newsvendor order can be from the best one", "statement": "Newsvendor with solver=\"dedicated\" and non-negative demands. When the demands other than the second largest sum to more than n * rho, the worst-case cost of the stored order exceeds that of any order t by at most u * t / n; so with demands drawn from a law whose mean exceeds rho, the stored orders come within any eps > 0 of the least worst-case cost as the number of demands grows, with probability one. When instead the average demand is at most rho, the stored order should be 0 (this fails whenever ordering is worthwhile without ambiguity: the order stored is then positive, and costs more than nothing in the worst case).", "quantifier": "all non-negative data sets, prices, radii and sequences of pairwise independent draws outside a set of probability zero, with an external solver that returns minimisers", "why_tests_cant": "a bound on the distance to an optimum over all laws in a ball, for data sets of every size, and a limit with probability one", "anchors": ["skwdro/operations_research/_newsvendor.py::NewsVendor.fit", "skwdro/solvers/specific_solvers.py::WDRONewsvendorSpecificSolver", "skwdro/solvers/specific_solvers.py::SAANewsvendorSpecificSolver2"]}
{"id": "C138", "title": "Dedicated regressions do not depend on the external solver", "statement": "Fitting a linear regression with solver=\"dedicated\" twice, with any two external solvers that return minimisers: the coefficients and the intercept are the same, unless some allowed linear model fits the data exactly (then they may differ: with the single sample x = 1, y = 1, a radius of 1 and no intercept, they do for some solvers). Fitting a two-class logistic regression in this way: the decision values, hence probabilities and classes, are the same at all samples of the data, whatever the data; and the coefficients and intercept are the same unless a non-zero affine function of the allowed kind vanishes at all samples.", "quantifier": "all data sets, positive radii, costs, settings of the intercept, generators, and pairs of external solvers that return minimisers", "why_tests_cant": "uniqueness of the minimiser of a program, for every data set; a test sees the answer of one solver", "anchors": ["skwdro/linear_models/_linear_regression.py::LinearRegression.fit", "skwdro/linear_models/_logistic_regression.py::LogisticRegression.fit", "skwdro/solvers/specific_solvers.py::WDROLinRegSpecificSolver", "skwdro/solvers/specific_solvers.py::WDROLogisticSpecificSolver"]}
{"id": "C139", "title": "The guarantees of dedicated fits hold for the transport distance itself", "statement": "The transport distance between a law and the data is the infimum of the average costs of the plans between them, and no plan need attain it. With solver=\"dedicated\", a positive radius rho and an external solver that returns minimisers, the stored parameters of linear regression, two-class logistic regression and portfolio choice have the smallest worst-case risk over all laws at a distance of at most rho in this sense, not only over those reached by a plan of cost at most rho. For the newsvendor the stored order does in exactly the same cases as for the plans.", "quantifier": "all data sets, positive radii, costs accepted by the fits, generators, external solvers that return minimisers, and all laws at a distance of at most rho", "why_tests_cant": "a supremum over all laws, including those for which the distance is only approached", "anchors": ["skwdro/linear_models/_linear_regression.py::LinearRegression.fit", "skwdro/linear_models/_logistic_regression.py::LogisticRegression.fit", "skwdro/operations_research/_portfolio.py::Portfolio.fit", "skwdro/operations_research/_newsvendor.py::NewsVendor.fit", "skwdro/solvers/specific_solvers.py::WDROLinRegSpecificSolver"]}
{"id": "C140", "title": "Losses with several values per sample are made robust column by column", "statement": "If the user's loss gives k values per sample instead of one, the robust loss (without importance sampling) does not fail: with the mean reduction it is the mean over the k columns of the robust losses of the columns taken separately, hence at least the robust loss of the mean of the columns; without reduction it is the whole table of robust losses, one per data point and column. With a radius of zero, or in ERM mode, it is the mean of all the values, or the whole table.", "quantifier": "all losses and data, numbers of samples, data points and columns, radii, multipliers, temperatures and costs", "why_tests_cant": "shapes of every size, and an inequality between averages of exponentials for all losses", "anchors": ["skwdro/solvers/_dual_interfaces/dual_loss.py::_DualFormulation.compute_dual", "skwdro/solvers/_dual_interfaces/_misc_dual_interfaces.py::_DualLossBase.reduce_loss_batch"]}
{"id": "C141", "title": "At small temperatures the robust loss approaches the objective without regularisation", "statement": "When the loss minus the multiplier times the transport cost is continuous and bounded above in the inputs, the post-sampled robust loss comes, for every precision, that close to the unregularised objective (multiplier times radius to the power, plus the average of the suprema), for all temperatures small enough and with a probability tending to one as the number of samples grows; it then covers up to that precision every plan that moves the inputs within the budget, however irregular (without labels: every distribution in the transport ball). When it is unbounded above at one data point, the robust loss instead exceeds any number.", "quantifier": "all losses, data, multipliers, radii, precisions, sampler widths, and all transport plans within the budget", "why_tests_cant": "a double limit in temperature and number of samples, and a statement about all transport plans", "anchors": ["skwdro/solvers/_dual_interfaces/dual_loss.py::_DualFormulation.compute_dual", "skwdro/solvers/oracle_torch.py::DualPostSampledLoss.forward", "skwdro/base/samplers/torch/cost_samplers.py::LabeledCostSampler", "skwdro/base/samplers/torch/cost_samplers.py::NoLabelsCostSampler"]}
{"id": "C142", "title": "The option for losses that reduce their spatial dimensions must match the loss", "statement": "A loss that gives one number per sample, wrapped with the default option, is refused with a runtime error on every batch of samples other than a single one, so its robust loss is refused for every data set of at least two points and every radius; only on a plain table of data does the mistake go unnoticed, the result being the average loss in place of one loss per sample. Conversely a loss that gives several numbers per sample is refused if wrapped with loss_reduces_spatial_dims=True.", "quantifier": "all losses, batch shapes, data sets, radii, modes and numbers of samples, with or without labels", "why_tests_cant": "it concerns every shape of batch and every loss of the two kinds", "anchors": ["skwdro/base/losses_torch/wrapper.py::WrappedPrimalLoss.value", "skwdro/wrap_problem.py::dualize_primal_loss", "skwdro/solvers/_dual_interfaces/dual_loss.py::_DualFormulation.compute_dual"]}
{"id": "C143", "title": "At the best multiplier the robust loss is the worst case over the transport ball", "statement": "For a continuous loss that grows no faster than the transport cost, the expected losses under all distributions within transport distance rho of the data have a least upper bound V. For some non-negative multiplier, the post-sampled robust loss comes as close to V as one likes at small temperatures with many samples, with a probability tending to one; and no multiplier that keeps the objective finite brings it below V by a fixed amount. With labels and a plain cost, V is the worst case over the plans that move inputs and keep labels.", "quantifier": "all continuous losses, data, radii, orders and powers of the cost, sampler widths, and all distributions in the ball", "why_tests_cant": "it compares an estimate with the supremum over an infinite-dimensional set of distributions", "anchors": ["skwdro/solvers/_dual_interfaces/dual_loss.py::_DualFormulation.compute_dual", "skwdro/solvers/oracle_torch.py::DualPostSampledLoss.forward", "skwdro/base/samplers/torch/cost_samplers.py::NoLabelsCostSampler", "skwdro/base/samplers/torch/cost_samplers.py::LabeledCostSampler"]}
{"id": "C144", "title": "The dedicated portfolio has one solution when the cost has power two or more", "statement": "Fitting `Portfolio` with `solver=\"dedicated\"`, no bounds on the returns, a positive radius and a cost of power at least two stores the same weights whichever exact conic solver is installed and whatever the state of the random generator. With the default cost, of power one, this is false: for two assets whose returns differ by the radius, every split that favours the better asset is a solution, and an exact solver may store any of them.", "quantifier": "all data sets, radii, risk aversions and levels, powers of the cost of at least two, and all pairs of exact solvers; for the failure, all splits between one half and one", "why_tests_cant": "a test runs one solver on one data set: it can neither compare with every other exact solver nor see that the weights it checks are one of infinitely many solutions", "anchors": ["skwdro/operations_research/_portfolio.py::Portfolio.fit", "skwdro/solvers/specific_solvers.py::WDROPortfolioSpecificSolver"]}
{"id": "C145", "title": "At the best multiplier the robust loss is the worst case over the regularised adversaries", "statement": "With or without labels, with a plain cost of positive power and normal noise, a loss with a finite expectation: consider the adversaries that move the data at an average cost of at most the radius (to the power of the cost), their expected loss being penalised by the regularisation times their divergence from the noise. For some value of the multiplier the value returned by the robust loss tends in probability, as the number of samples grows, to the least upper bound of these penalised losses; and whatever the multiplier that keeps the objective finite, it falls below this bound by a fixed amount only with a probability that tends to zero.", "quantifier": "all data sets, radii, regularisations, orders and powers of plain costs, standard deviations of the noise and measurable losses with finite expectations, and all multipliers", "why_tests_cant": "an equality between a limit of random values and a supremum over all laws with a finite divergence: tests see finitely many samples and laws", "anchors": ["skwdro/solvers/oracle_torch.py::DualPostSampledLoss", "skwdro/solvers/_dual_interfaces/dual_loss.py::_DualFormulation.compute_dual"]}
{"id": "C146", "title": "At small temperatures no multiplier understates the worst case, and at any temperature some multiplier does not overstate it", "statement": "A continuous loss that grows no faster than the transport cost, with or without labels, a plain cost of positive power and normal noise; let V be its worst expected value over the laws at transport distance at most the radius of the data (labels staying in place). Some multiplier makes the value returned by the robust loss at most V plus any margin, whatever the regularisation. And for every margin there is a regularisation below which the value returned is more than V minus the margin for every multiplier that keeps the objective finite, a trained one included. Both hold with a probability that tends to one as the number of samples grows.", "quantifier": "all data sets, radii, margins, regularisations, multipliers, orders and powers of plain costs, standard deviations of the noise, and continuous losses that grow no faster than the cost", "why_tests_cant": "a bound uniform over an unbounded set of multipliers, in the limit of the number of samples, against a supremum over all laws: tests try finitely many of each", "anchors": ["skwdro/solvers/oracle_torch.py::DualPostSampledLoss", "skwdro/solvers/_dual_interfaces/dual_loss.py::_DualFormulation.compute_dual"]}
{"id": "C147", "title": "With a label cost, the robust loss is the worst case over perturbed inputs and labels", "statement": "Take a robust loss whose ground cost weighs label changes positively, with its own sampler, and a loss continuous in input and label that grows no faster than the cost. Let V be the least upper bound of the expected losses under all distributions of labelled points within transport distance rho of the data. One multiplier makes the value of the forward pass at most V (up to any margin) at every temperature and close to V at small ones; below some temperature no multiplier at all that keeps the objective finite makes it fall below V by a given margin. Each statement holds with a probability that tends to one as the number of samples grows.", "quantifier": "every labelled model, batch, dimensions, order of the norm and power of the ground cost, label weight, radius, margin, multiplier, temperature below the threshold", "why_tests_cant": "a limit in probability combined with a supremum over an infinite-dimensional set of distributions; runs only see some samples, some multipliers and some adversaries", "anchors": ["skwdro/solvers/_dual_interfaces/dual_loss.py::_DualFormulation.compute_dual", "skwdro/solvers/oracle_torch.py::DualPostSampledLoss.forward", "skwdro/base/samplers/torch/cost_samplers.py::LabeledCostSampler", "skwdro/base/costs_torch/normlabelcost.py::NormLabelCost._sampler_labels", "skwdro/base/costs_torch/normlabelcost.py::NormLabelCost.value"]}
{"id": "C148", "title": "The generic statistical radius tuner estimates the covariance of the per-sample gradients", "statement": "When the generic statistical tuner is fitted on n samples, the table it keeps has as i-th row the gradient of the loss of sample i at the fitted parameters, and the noise it draws has the covariance of those gradients (their standard deviation for a single parameter)", "quantifier": "every number of samples, every number of parameters and every list of per-sample gradients", "why_tests_cant": "A test compares shapes or a final radius for one dataset; that the rows are the individual gradients, and not sums left in an accumulation buffer, has to hold for every list of gradients and every number of samples", "anchors": ["skwdro/base/rho_tuners.py: BlanchetRhoTunedEstimator.fit"]}
