# Formal model of skwdro

Lean 4 model of the python package in /repo (iutzeler/skwdro, pinned commit), and proofs of the properties of `properties.jsonl`.

## Layout

* `lean/Verif/Model/*.lean`: the model, one file per area; each definition cites the /repo file and lines it models.
* `lean/Verif/Spec/*.lean`: small independent specifications (formulas, reference machines, assumptions on external code) used in statements.
* `lean/Verif/Lemmas/*.lean`: helper lemmas.
* `lean/Verif/Props/*.lean`: the property theorems, named after their property (`C29_...`), with non-vacuity `example`s or theorems exhibiting
  settings that meet the hypotheses.
* `MANIFEST.json`: property to theorems. `seeded/LOG.jsonl`: mutation tests.

Naming: a theorem whose name ends in `_false` is the negation of the property (or of a part of it) for the unchanged code; one whose name
contains `_partial` is the largest part proved, and its comment says what is missing. A property with either is `partial` in the manifest.

## Modelling conventions

* Exceptions are values: `Except PyErr α`; the constructor is the python exception class.
* Floating-point numbers are real numbers (no rounding except in C130, no overflow). Where NaN or infinity decides a branch (radius NaN, degenerate
  displacements, NaN losses, infinite label weights) an extended type is used (`XNum`, `Radius`).
* Tensors are a shape and a function from indices to values; `view/flatten/unsqueeze` follow torch's row-major order.
* Object state (modes, flags, memories, generators, heap cells) is an explicit state passed through step functions.
* External behaviour (torch optimizers, user losses, noise, convex solver, scikit-learn search) is a parameter; theorems quantify over it,
  under the assumptions listed in the trusted base.


## Properties

For each property: what is modelled, how it is proved, and the theorems (statements are in the file named).

### C01 Cost codes round-trip (proved)

Model: `cost_from_str`, `parse_code_torch`, `cost_from_parse_torch` on lists of characters, with python `float()` on decimal literals. Proof: split/join induction on strings, case analysis on the fields. File: Props/CostDecoder.lean.

* `C01_fields_roundtrip`: A code written field by field is decoded field by field: the third field (second when the engine is omitted) is the power, the next one the norm order, the last one the label weight.
* `C01_decimal_roundtrip`: (one-step decoder) The code `t-NLC-<power>-<order>-<kappa>` with decimal integers decodes to the label cost with exactly these parameters; `t-NC-<power>-<order>` to the plain norm cost.
* `C01_decimal_literals`: (literals) A literal `digits.digits` denotes the expected rational number.

### C02 The two cost decoders agree (proved)

Model: `cost_from_str`, `parse_code_torch`, `cost_from_parse_torch` on lists of characters, with python `float()` on decimal literals. Proof: split/join induction on strings, case analysis on the fields. File: Props/CostDecoder.lean.

* `C02_decoders_agree`: On codes with four fields (three dashes), or five fields starting with the engine `t`, the two decoders accept the same codes and build the same cost, up to its display name.
* `C02_rejections`: Codes with the wrong number of fields are refused with a `ValueError`: fewer than three or more than five fields for the two-step decoder, fewer than four for the one-step decoder; and whatever is accepted has a known id.
* `C02_default`: Without a code the default is the squared Euclidean cost, with labels exactly when there are labels.

### C03 Decoded label weights are never negative (proved)

Model: `cost_from_str`, `parse_code_torch`, `cost_from_parse_torch` on lists of characters, with python `float()` on decimal literals. Proof: split/join induction on strings, case analysis on the fields. File: Props/CostDecoder.lean.

* `C03_kappa_nonneg`: Whatever the code, a label cost obtained from it has label weight `+inf` or a finite number `>= 0`; and all numeric fields of any decoded cost are NaN, `+inf` or finite and `>= 0` (a sign cannot be written in a code).

### C04 Ground cost axioms (inputs only) (proved)

Model: `NormCost.value`, `NormLabelCost.value` on tensors, general norm orders and powers, label weight possibly 0 or infinite. Proof: index computation on tensors down to points, then Minkowski, monotonicity and limits. File: Props/Costs.lean.

* `C04_formula`: (values) On centres of shape `(1,m,d)` and samples of shape `(n,m,d)` the norm cost returns, without failing, the `(n,m,1)` tensor of `‖xi_i - zeta_ji‖_p ^ power`; labels do not matter.
* `C04_point_formula`: (values on single points)
* `C04_nonneg`: The norm cost is non-negative.
* `C04_symm`: The norm cost is symmetric.
* `C04_translation`: The norm cost is translation invariant.
* `C04_zero_iff`: The norm cost vanishes exactly when the points coincide.
* `C04_triangle`: With power 1 the norm cost satisfies the triangle inequality.

### C05 Ground cost axioms (inputs and labels) (proved)

Model: `NormCost.value`, `NormLabelCost.value` on tensors, general norm orders and powers, label weight possibly 0 or infinite. Proof: index computation on tensors down to points, then Minkowski, monotonicity and limits. File: Props/Costs.lean.

* `C05_formula`: (values) With `0 < kappa < inf` the label cost returns, on centres and samples of shapes `(1,m,·)` and `(n,m,·)`, the `(n,m,1)` tensor of `((‖dx‖ + kappa ‖dy‖)/(1+kappa)) ^ power`.
* `C05_point_formula`: (values on single points, all three conventions for `kappa`)
* `C05_nonneg`: The label cost is non-negative, for every label weight the constructor accepts.
* `C05_symm`: The label cost is symmetric.
* `C05_zero_iff`: With `0 < kappa < inf` the label cost vanishes exactly when inputs and labels coincide.
* `C05_triangle`: With power 1 the label cost satisfies the triangle inequality.
* `C05_between`: The label cost lies between the powers of the smaller and of the larger of the two penalties.

### C06 Extreme label weights are limits of ordinary ones (proved)

Model: `NormCost.value`, `NormLabelCost.value` on tensors, general norm orders and powers, label weight possibly 0 or infinite. Proof: index computation on tensors down to points, then Minkowski, monotonicity and limits. File: Props/Costs.lean.

* `C06_kappa_limits`: The conventions `kappa = 0` and `kappa = inf` are the limits of the ordinary label cost.
* `C06_kappa_monotone`: Moreover on the accepted weights the cost only depends on `kappa` through the ratio, monotonically: it moves from the data penalty to the label penalty.

### C07 Costs refuse missing labels (proved)

Model: `NormCost.value`, `NormLabelCost.value` on tensors, general norm orders and powers, label weight possibly 0 or infinite. Proof: index computation on tensors down to points, then Minkowski, monotonicity and limits. File: Props/Costs.lean.

* `C07_missing_labels`: A label cost evaluated without both labels fails with an assertion error, for all inputs and weights.
* `C07_labels_ignored`: The plain norm cost returns the same whatever labels are passed.
* `C07_extreme_weights`: With an infinite label weight inputs are ignored, with a zero weight labels are ignored.

### C08 Which costs can be robustified (proved)

Model: `dualize_primal_loss`, the sampler construction of the costs, `expert_hyperparams`, `decide_on_impsamp`. Proof: case analysis over all codes and real parameters. File: Props/CostNoise.lean, Props/WrapProblem.lean.

* `C08_default_scale`: A sampler built from a supported cost without a noise scale draws its inputs around the data with the scale `1e-3`: Laplace noise for the pair `(1,1)`, normal noise otherwise. Unsupported costs are refused as not implemented.
* `C08_default_label_scale`: The same for the labelled sampler with a label cost: labels too are drawn with the scale `1e-3`, divided by the label weight for the costs of power one, and are not moved at all for an infinite weight.
* `C08_supported_costs`: `robustify` succeeds exactly for the supported (power, norm order) pairs `(1,1)`, `(1,2)`, `(1,inf)`, `(2,2)`, with or without labels and whatever the label weight; every other decoded cost is refused as not implemented. When it succeeds the noise is centred at the data and is Laplace exactly for `(1,1)`, normal otherwise.
* `C08_scale_refused`: A given noise scale that is not positive is refused for every supported cost.

### C09 Plain costs never move labels (proved)

Model: distributions, `Dirac`, the labelled and unlabelled samplers, covariance options, `reset_mean`. Proof: tensor index computation, induction over histories of resets. File: Props/Samplers.lean.

* `C09_labels_never_sampled`: With an input-only cost the robust loss built by `robustify` on labels `y` draws adversarial labels that are copies of `y`, for every number of samples and generator state, also after re-centring it on any other batch `(xi', y')` (copies of `y'` then).
* `C09_labels_never_displaced`: With an input-only cost, importance-sampling displacement leaves labels as they are.

### C10 Dirac distribution laws (proved)

Model: distributions, `Dirac`, the labelled and unlabelled samplers, covariance options, `reset_mean`. Proof: tensor index computation, induction over histories of resets. File: Props/Samplers.lean.

* `C10_samples_are_copies`: Sampling a `Dirac` with any sample shape and any number of batch dimensions returns copies of the location, with shape sample + batch + event.
* `C10_log_prob`: The log-probability of any batch of shape sample + location shape: 0 exactly when every copy equals the location everywhere, `-inf` as soon as one entry of one copy differs.
* `C10_sample_log_prob`: A drawn sample has log-probability 0.
* `C10_moments`: Moments: every drawn value equals the mean (and the mode), and its squared deviation is the variance; the single point of the support is the location.
* `C10_expand_accepts`: Expanding to a batch shape is accepted exactly when the resulting shape ends with as many dimensions as the location has, each of them equal to that of the location unless the latter is one; otherwise a RuntimeError is raised.
* `C10_expand`: Expanding to more batch dimensions keeps the law: the event shape is unchanged, the batch shape is the requested one, and every value drawn from the expanded distribution is a copy of the original location.

### C11 Resetting a sampler only moves its centre (proved)

Model: distributions, `Dirac`, the labelled and unlabelled samplers, covariance options, `reset_mean`. Proof: tensor index computation, induction over histories of resets. File: Props/Samplers.lean.

* `C11_reset_moves_centre_only`: After any history of resets, a further `reset_mean(xi, y)` gives a sampler centred at `xi` (labels centred at `y`) with the noise law the sampler was built with.
* `C11_produces_labels`: A sampler says it produces labels exactly when its draws have labels, and no history of resets changes that.
* `C11_reset_keeps_noise`: Seen on the drawn samples: from the same generator state, the re-centred sampler draws the same displacements from its centre as the original one, for batches of the same shape.
* `C11_reset_keeps_label_noise`: The same for labels: same displacement from the labels, or (label flips) same decision to keep or to change the sign.
* `C11_reset_accepts`: (re-centring never fails) A sampler built by any of the constructors, after any history of resets, can be re-centred on every batch of at least two dimensions, with labels of at least two dimensions if it samples labels; labels are ignored otherwise (torch contract: factors of positive definite matrices are lower triangular with positive diagonal).

### C12 Covariance options priority (proved)

Model: distributions, `Dirac`, the labelled and unlabelled samplers, covariance options, `reset_mean`. Proof: tensor index computation, induction over histories of resets. File: Props/Samplers.lean.

* `C12_first_given_covariance`: The covariance of every sampler is the first one given in the order sigma, tril, cov, prec: no option given is a `ValueError`, and so is an invalid one (a deviation that is not positive, a factor that is not lower triangular with positive diagonal, a matrix that is not positive definite), even when a valid one is given after it; otherwise the noise has that covariance factor and all the other options are ignored. (The label-flip probability must be in `[0,1]`, and the fully Gaussian sampler needs batched inputs.)
* `C12_sigma_is_standard_deviation`: With a positive scalar `sigma` every sampler draws `xi + sigma * standard normal noise`, coordinate by coordinate, whatever other options are given (torch contract: noise has the requested shape).

### C13 Label-flip probability (partial)

Model: the Bernoulli label sampler; torch Bernoulli draws by their contract on an arbitrary probability space. Proof: measure of preimages; a concrete probability space for the negation. File: Props/Samplers.lean.

* `C13_outputs_label_or_opposite`: (outputs) The Bernoulli label sampler only outputs the label or its opposite.
* `C13_switch_probability_partial`: What the code does: with parameter `p`, documented as the probability of a switch, a nonzero label is *kept* with probability `p` and switched with probability `1 - p`. Missing for the documented claim: the two agree only for `p = 1/2`.
* `C13_switch_probability_false`: (documented claim, false) `p` is not the probability of a switch: there is a setting meeting torch's contract in which, with `p = 1/4`, a label is switched with probability `3/4`.

### C14 Seeded runs are reproducible (proved)

Model: the global generator as a state threaded through `forward` of the post-sampled loss. Proof: unfolding and induction over histories; concrete stream for the negation. File: Props/Samplers.lean.

* `C14_seeded_evaluation_forgets_generator`: With a seeded sampler the result of a post-sampled evaluation (value, re-centred sampler and next generator state) does not depend on the generator state it starts from.
* `C14_seeded_evaluation_forgets_history`: The same evaluation made after any history of other evaluations gives the same value: results depend only on the seed, the robust loss and the batch.

### C15 Post-sampling draws fresh noise at every evaluation (partial)

Model: the global generator as a state threaded through `forward` of the post-sampled loss. Proof: unfolding and induction over histories; concrete stream for the negation. File: Props/Samplers.lean.

* `C15_fresh_noise_partial`: (fresh noise, unseeded samplers) Without a seed an evaluation with positive radius draws its samples from the generator state it receives and hands over the state left by these draws, so successive evaluations consume successive segments of the stream. Missing: samplers with a seed, which is the default, see `C15_fresh_noise_false`.
* `C15_seeded_noise_repeats_partial`: (what happens with a seed) Every evaluation of a seeded post-sampled loss on a given batch returns the same value, whatever was evaluated before: the "fresh" noise is always the same.
* `C15_fresh_noise_false`: (false) Fresh noise fails for the default seeded samplers: two successive evaluations draw the same noise, although the stream has moved on (the second segment of the stream is different).

### C16 Displacement keeps the noise (partial)

Model: `displace_points`, thresholds and NaN handling on extended numbers. Proof: algebra on extended numbers, completion of squares (strict concavity for uniqueness). File: Props/ImpSamp.lean.

* `C16_noise_kept`: Displacement (no labels) succeeds and keeps the difference between every sample and its centre, whatever the gradients and the multiplier.
* `C16_noise_kept_inputs`: The same with labels, on the input part.
* `C16_noise_kept_labels_partial`: The same on the label part. Partial: the label weight must not be zero (see `C16_zero_weight_false`).
* `C16_zero_weight_false`: is false for the label weight 0: finite non-zero gradients and a positive multiplier displace the labels to infinity, where no difference is left to keep.

### C17 Displacement never produces NaN or infinity (partial)

Model: `displace_points`, thresholds and NaN handling on extended numbers. Proof: algebra on extended numbers, completion of squares (strict concavity for uniqueness). File: Props/ImpSamp.lean.

* `C17_displacement`: Without labels, the displacement never fails. If the multiplier is zero or one of the gradients of the batch vanishes, no point at all is displaced. Otherwise, for a positive multiplier, every centre and every sample moves along the gradient of its own point, by the length `min(10^10, |grad|)/(2 lam)`.
* `C17_displacement_labelled_partial`: With labels: if the multiplier is zero, or one gradient (with respect to a point or to a label) vanishes, nothing is displaced; otherwise inputs move as without labels, and all returned labels are finite. Partial: the label weight must not be zero (next theorem).
* `C17_zero_weight_false`: is false for the label weight 0 (accepted by the cost constructor, e.g. code `t-NLC-2-2-0`): finite non-zero gradients and a positive multiplier give a label that is not finite, and the robust loss is NaN.

### C18 The displaced centre is the best first-order attack (partial)

Model: `displace_points`, thresholds and NaN handling on extended numbers. Proof: algebra on extended numbers, completion of squares (strict concavity for uniqueness). File: Props/ImpSamp.lean.

* `C18_best_first_order_attack_partial`: The displaced centre of every point is the unique best first-order attack. Partial: either all the gradients of the batch are non-zero or they all vanish, and none is longer than the threshold `10^10` (see the two theorems below).
* `C18_zero_gradient_false`: fails when a single point of the batch has a vanishing gradient: the other points are not displaced, although moving them would be a better attack.
* `C18_threshold_false`: fails for a gradient longer than the threshold `10^10`: the displacement is cut.

### C19 Importance weights are exact (no labels) (proved)

Model: importance weights and log-densities of the samplers. Proof: density-ratio algebra, change of measure. File: Props/ImpSamp.lean.

* `C19_exact_weights`: The log-correction computed by the importance-sampled loss for an unlabelled sampler centred at `X` and displaced centres `X'` (`log_prob` minus `log_prob_recentered`) is the exact log density ratio: `exp(correction)` times the density of the displaced law is the density of the reference law, at every sample.
* `C19_same_expectation`: Re-weighting with these ratios targets the same expectation, for every function of the sample: the integral against the displaced law of the re-weighted function is the integral against the reference law.
* `C19_value`: End to end: the importance-sampled robust loss (no labels, loss evaluated pointwise as `ell`) is the robust objective on the displaced samples `Z'`, each exponential being multiplied by the density ratio of the reference law (centred at the data) to the displaced law.

### C20 Importance weights are exact (labelled) (partial)

Model: importance weights and log-densities of the samplers. Proof: density-ratio algebra, change of measure. File: Props/ImpSamp.lean.

* `C20_labelled_correction_partial`: What the labelled correction is: zero, for every labelled sampler with densities, every displaced centre, every sample. Hence the density-ratio identity holds at a sample if and only if the displaced law and the reference law have the same density there; in particular it holds when nothing was displaced. Partial: the identity is false in general (next theorem).
* `C20_labelled_weights_false`: is false: for the default labelled setting (squared costs, normal samplers for inputs and labels, label weight 1) a displacement does take place, the correction is nevertheless 0, and the density-ratio identity fails.

### C21 Importance sampling is only ever enabled where supported (proved)

Model: `dualize_primal_loss`, the sampler construction of the costs, `expert_hyperparams`, `decide_on_impsamp`. Proof: case analysis over all codes and real parameters. File: Props/CostNoise.lean, Props/ImpSamp.lean.

* `C21_refused`: Costs other than the squared Euclidean one refuse to displace: with importance sampling switched on by hand, a positive multiplier and non-zero gradients, a robust loss with such a cost raises `NotImplementedError` when it is evaluated at a positive radius, whatever the data and samples.
* `C21_enabled_iff`: Importance sampling is enabled exactly when it was asked for and the cost is the squared Euclidean one (norm order 2 and power 2), for every accepted cost code.
* `C21_never_unsupported`: A robust loss built by `robustify` with importance sampling enabled never meets the not-implemented error of the displacement step: whatever the data, samples, labels, multiplier, gradients or sampler it has at that time (only its cost is the one it was built with).

### C22 Batched losses are evaluated pointwise (proved)

Model: `WrappedPrimalLoss.value`, `regularize`, flattening and reductions. Proof: row-major index arithmetic for all shapes. File: Props/WrappedLoss.lean.

* `C22_pointwise_labels`: A labelled wrapped loss evaluated on a batch of shape `b` (at least two batch dimensions) of inputs and labels returns the loss of each point with its own label: nothing is mixed by flattening. (`reduce_spatial_dims=True`.)
* `C22_pointwise_flat_labels`: Same when the labels are passed already flattened: label row `r` goes with the `r`-th input in row-major order.
* `C22_pointwise_nolabels`: Without labels.
* `C22_pointwise_unreduced`: With `reduce_spatial_dims=False` and a loss that already returns one number per row.
* `C22_pointwise_unreduced_nolabels`: The same without labels.

### C23 A flat labelled batch keeps one loss per sample (partial)

Model: `WrappedPrimalLoss.value`, `regularize`, flattening and reductions. Proof: row-major index arithmetic for all shapes. File: Props/WrappedLoss.lean.

* `C23_flat_batch_false`: is false: on a flat labelled batch `(m,d)`, `(m,k)` the value returned is a single number (the average), not one loss per sample, as soon as the user loss returns `(m,1)`. Witness: squared error, two samples.
* `C23_flat_batch_partial`: (partial: full statement fails, see `C23_flat_batch_false`) One loss per sample is returned when the batch has at least two samples and the user loss returns at least two numbers per sample.

### C24 Losses enforce their label contract (proved)

Model: `WrappedPrimalLoss.value`, `regularize`, flattening and reductions. Proof: row-major index arithmetic for all shapes. File: Props/WrappedLoss.lean.

* `C24_label_contract`: A labelled wrapped loss without labels, or an unlabelled one with labels, fails with an assertion error on every input.

### C25 L2 regularisation adds exactly half the squared norm (proved)

Model: `WrappedPrimalLoss.value`, `regularize`, flattening and reductions. Proof: row-major index arithmetic for all shapes. File: Props/Dual.lean, Props/DualUnlabelled.lean, Props/WrappedLoss.lean.

* `C25_ridge_robust`: Robust part: with mean reduction, adding an L2 weight to the wrapped model moves the robust loss by exactly the same amount as each per-sample loss.
* `C25_ridge_robust_nolabels`: Robust part without labels: with mean reduction, adding an L2 weight to the wrapped model moves the robust loss by exactly the same amount as each per-sample loss.
* `C25_ridge_per_sample`: Per-sample losses grow by exactly half the weight times the squared norm of the parameters; with no weight or a weight `<= 0` nothing changes.
* `C25_ridge_per_sample_nolabels`: The same for a loss without labels.

### C26 Logistic loss (proved)

Model: the built-in losses on tensors, `nn.Linear` and `softmax` as formulas. Proof: index computation, then real analysis (convexity, Lipschitz bounds). File: Props/Losses.lean.

* `C26_batch`: On every batch (any batch shape) with one label per sample (as a column, or flat), the logistic loss returns one value per sample: `log(1 + exp(-y * (<w,x> + b)))`, plus the ridge penalty.
* `C26_refused`: Missing labels fail an assertion; a wrong number of features raises.
* `C26_any_shape`: Labels of any shape are read in row-major order, one per sample.
* `C26_label_count`: Another number of labels than of samples is refused.
* `C26_fresh`: A fresh logistic loss (any dimension, with or without intercept) returns `log 2` on every sample, whatever the label.
* `C26_dimension`: no dimension: refused
* `C26_pos`: The loss is positive.
* `C26_boundary`: It is `log 2` exactly on the decision boundary, below iff the score has the sign of the label.
* `C26_convex`: The loss is convex in the score.
* `C26_lipschitz`: The loss is Lipschitz in the score, with constant the absolute value of the label (1 for labels in {-1, 1}).
* `C26_predict`: The label prediction agrees with the loss: the predicted label has the sign of the score, hence of the true label iff the loss is below `log 2`.

### C27 Portfolio loss is the mean-CVaR integrand (proved)

Model: the built-in losses on tensors, `nn.Linear` and `softmax` as formulas. Proof: index computation, then real analysis (convexity, Lipschitz bounds). File: Props/Losses.lean.

* `C27_weights`: The weights of the portfolio are always positive and sum to one, whatever the raw parameters.
* `C27_pieces`: The integrand is the maximum of the two affine pieces, for all `eta >= 0` and `alpha > 0`.
* `C27_batch`: On every batch the portfolio loss returns, for each sample of asset returns, the mean-CVaR integrand at the return of the portfolio.
* `C27_monotone_convex`: The loss is non-increasing in the return and convex in the return and the threshold together.

### C28 Newsvendor loss evaluates on unlabelled demand (partial)

Model: the built-in losses on tensors, `nn.Linear` and `softmax` as formulas. Proof: index computation, then real analysis (convexity, Lipschitz bounds). File: Props/Losses.lean.

* `C28_unlabelled_false`: (violated) `NewsVendorLoss_torch` refuses unlabelled demand: every evaluation without labels fails.
* `C28_labelled_partial`: (what holds) With any labels whatsoever, which are ignored, it returns the newsvendor loss averaged over the products (exactly the newsvendor loss for one product); the regularisation weight is ignored too.
* `C28_estimator_partial`: The loss used by the `NewsVendor` estimator does evaluate on unlabelled demand, on every batch: the average over products of `k * theta - u * min(theta, x)`.
* `C28_one_product_partial`: For one product this is the newsvendor loss itself.

### C29 The robust loss is the advertised formula (proved)

Model: `compute_dual`, `forward` of both losses, reductions; radius possibly NaN. Proof: refinement of the tensor program to the closed formula. File: Props/Dual.lean, Props/DualUnlabelled.lean.

* `C29_formula`: The robust loss is the advertised formula, for any loss and cost values.
* `C29_formula_labelled`: End to end: robust loss of a wrapped labelled model on data `X, Y` and samples `Z, W`, in terms of the model's loss at single points and of the ground cost between single points.
* `C29_formula_presampled`: The same through the forward pass of the pre-sampled loss, when samples are given.
* `C29_formula_postsampled`: The same through the forward pass of the post-sampled loss, on the samples its re-centred sampler draws.
* `C29_formula_unlabelled`: End to end without labels: robust loss of a wrapped model on data `X` and samples `Z`, in terms of the model's loss at single points and of the distance between single points.

### C30 Zero radius is ordinary training (partial)

Model: `compute_dual`, `forward` of both losses, reductions; radius possibly NaN. Proof: refinement of the tensor program to the closed formula. File: Props/Dual.lean.

* `C30_zero_radius`: With radius 0 the robust loss is the average loss of the data points, whatever the multiplier, the regularisation, the samples, the importance-sampling and ERM flags. Here for the core computation...
* `C30_zero_radius_postsampled`: ... for the post-sampled loss ...
* `C30_zero_radius_presampled`: ... and for the pre-sampled loss when samples are given.
* `C30_stored_samples_false`: fails on the pre-sampled loss when it reuses stored samples: the batch axis is not removed before the reduction, and every such evaluation stops with an assertion error.

### C31 Invalid radii never give a finite robust loss (partial)

Model: `compute_dual`, `forward` of both losses, reductions; radius possibly NaN. Proof: refinement of the tensor program to the closed formula. File: Props/Dual.lean.

* `C31_negative_postsampled`: Post-sampled loss: a negative radius never gives a value; it is a ValueError as soon as the sampler can be re-centred (or is missing).
* `C31_invalid_radius_partial`: largest true part Outside ERM mode, for the core computation and both ways of calling the pre-sampled loss, a negative radius is a ValueError and a NaN radius gives NaN; a NaN radius gives NaN on the post-sampled loss too. Missing: in ERM mode the pre-sampled loss ignores the sign of the radius (next theorem).
* `C31_erm_mode_false`: fails in ERM mode (the mode in which pre-training is run): the pre-sampled loss accepts the radius -1 and returns a number.

### C32 The robust loss bounds every admissible adversary (proved)

Model: the closed formula of C29, tied to the tensor program by C29. Proof: Gibbs variational principle, Hoelder inequality, permutation of finite sums. File: Props/Dual.lean.

* `C32_bounds_adversaries`: For a non-negative multiplier, the robust loss is at least the expected loss minus `eps * KL` of every adversary: an adversary re-weights the samples of each data point, with average transport cost at most `rho^p`.
* `C32_tilted_adversary`: At the exponentially tilted adversary this is an equality, up to the multiplier times the unused budget.

### C33 The robust loss is monotone and shift-equivariant (proved)

Model: the closed formula of C29, tied to the tensor program by C29. Proof: Gibbs variational principle, Hoelder inequality, permutation of finite sums. File: Props/Dual.lean.

* `C33_monotone`: Increasing the loss anywhere cannot decrease the robust loss.
* `C33_shift`: Adding a constant to the loss adds that constant to the robust loss.

### C34 The robust loss is jointly convex (proved)

Model: the closed formula of C29, tied to the tensor program by C29. Proof: Gibbs variational principle, Hoelder inequality, permutation of finite sums. File: Props/Dual.lean.

* `C34_jointly_convex`: If the loss is convex in the model parameters at every sample, the robust loss is jointly convex in the parameters and the multiplier.

### C35 The robust loss lies between average and worst case (proved)

Model: the closed formula of C29, tied to the tensor program by C29. Proof: Gibbs variational principle, Hoelder inequality, permutation of finite sums. File: Props/Dual.lean, Props/Stability.lean.

* `C35_between`: Up to `lam * rho^p`, the robust loss lies between the average over samples of `L - lam*C` and its worst case (`M i`, the maximum over the samples of data point `i`), and is within `eps * log n` of the latter.
* `C35_decreasing_in_epsilon`: The robust loss decreases when the regularisation grows.
* `C35_near_average`: If the penalised losses `L - lam*C` of the samples lie in an interval of length `b - a`, the robust loss exceeds `lam * rho^p` plus their average by at most `(b - a)^2 / (8 eps)`.
* `C35_limits`: Without a bound in sight: when the regularisation grows the robust loss tends to `lam * rho^p` plus the average over the samples, when it vanishes to `lam * rho^p` plus the worst case over the samples of each data point.

### C36 Order of samples is irrelevant (proved)

Model: the closed formula of C29, tied to the tensor program by C29. Proof: Gibbs variational principle, Hoelder inequality, permutation of finite sums. File: Props/Dual.lean, Props/DualUnlabelled.lean.

* `C36_order_irrelevant`: Permuting the samples of each data point (independently), or permuting the data points together with their samples, leaves the robust loss unchanged.
* `C36_order_irrelevant_unlabelled`: Without labels: permuting the samples of each data point (independently), or permuting the data points together with their samples, leaves the robust loss unchanged.

### C37 Reductions are consistent (partial)

Model: the closed formula of C29, tied to the tensor program by C29. Proof: Gibbs variational principle, Hoelder inequality, permutation of finite sums. File: Props/Dual.lean.

* `C37_mean_consistent`: Without reduction, the robust loss is one value per data point, and the mean-reduced robust loss is the mean of these values.
* `C37_sum_partial`: largest true part The sum-reduced robust loss differs from the sum of the unreduced ones by exactly `(m - 1) * (lam * rho^p - eps * log n)`; so it is the sum for a single data point, or when this factor vanishes. Missing: equality in general (next theorem).
* `C37_sum_false`: fails for the sum reduction: two data points, one sample each.

### C38 Pre-sampled losses reuse their samples (partial)

Model: the pre-sampled cache, mode flags and `requires_grad` flags as a state machine. Proof: induction over histories of calls, including failing ones. File: Props/DualState.lean.

* `C38_no_samples`: (before) A pre-sampled loss that was never given samples refuses, with a ValueError, every evaluation without samples, whatever evaluations were attempted before.
* `C38_reuse_partial`: (reuse) For a positive (or NaN) radius: after an evaluation with samples `z, zl`, followed by any number of evaluations without samples, an evaluation without samples gives exactly the outcome of the evaluation with `z, zl`, whatever happened earlier and however the loss changed in between. (Missing: radius 0, see below.)
* `C38_explicit`: (most recent) An evaluation with samples never looks at stored ones: its outcome does not depend on them.
* `C38_zero_radius_false`: (violated for radius 0) With radius 0 and a loss returning one value per point, as for every wrapped model, an evaluation without samples fails with an AssertionError after samples were provided, although the evaluation with these samples succeeds.

### C39 eval() and train() toggle ERM mode (partial)

Model: the pre-sampled cache, mode flags and `requires_grad` flags as a state machine. Proof: induction over histories of calls, including failing ones. File: Props/DualState.lean.

* `C39_last_call_partial`: (what happens instead) After any sequence of calls, both flags only depend on the last call: they are on after `train(True)` and off after `eval()`, `train()` and `train(False)`. In particular `train()` does leave ERM mode. (Missing: `eval()` entering ERM mode, `train(True)` leaving it.)
* `C39_eval_false`: (violated) `eval()` never puts the loss in ERM mode, after any history.
* `C39_train_true_false`: (violated) `train(True)` always puts the loss in ERM mode, after any history.
* `C39_train_flag_false`: (violated) `train()` turns torch's training flag off, after any history.
* `C39_eval_value_false`: (violated, consequence) after `eval()` the loss still evaluates to its robust value: the flag read by the evaluation is the one of a freshly built loss.

### C40 User-frozen parameters stay frozen (partial)

Model: the pre-sampled cache, mode flags and `requires_grad` flags as a state machine. Proof: induction over histories of calls, including failing ones. File: Props/DualState.lean.

* `C40_hyper_partial`: (what is kept) Whatever the history, the flags of `rho` and `epsilon` and the number of parameters never change.
* `C40_constructed`: (a new loss) The constructor makes the radius and the regularisation trainable exactly when asked to tune them, the multiplier trainable unless the radius is `<= 0`, and leaves the user's parameters and mode alone.
* `C40_hyper_constructed`: (hyper-parameters of a new loss) Unless asked to tune them, no history of evaluations and initialisations, failing or not, makes the radius or the regularisation of a new loss trainable; if asked, none freezes them.
* `C40_nonpositive`: (non-positive radius) A new loss of radius `<= 0`: no history of its evaluations and initialisations changes any flag; in particular the multiplier stays frozen and the frozen parameters of the user stay frozen.
* `C40_trainable_partial`: (nothing frozen) If no call fails, the model is in training mode and neither a parameter nor the multiplier is frozen, then no history changes any flag. (Missing: models with frozen parameters, in evaluation mode, or failing.)
* `C40_plain_partial`: (no importance sampling) Evaluating the robust loss with importance sampling off, in ERM mode, or with radius `<= 0`, changes no flag, whether it fails or not.
* `C40_unfreezes_false`: (violated) One importance-sampled evaluation, or one initialisation of the multiplier, of a positive radius: every parameter the user froze becomes trainable, and a model in evaluation mode ends in training mode.
* `C40_failure_freezes_false`: (violated on failure) If differentiating the user's loss raises, all parameters and the multiplier are left frozen and the model is left in evaluation mode.

### C41 Dual initialisation (proved)

Model: initialisation of the multiplier. Proof: algebra, arithmetic-geometric mean inequality. File: Props/InitialDual.lean.

* `C41_value`: (value) For an input cost `|.|^p` with Euclidean norm and power `p > 1`, the initial multiplier is `(mean |grad|^q / rho^p)^(1/q) / p`, `q` the conjugate exponent of `p`.
* `C41_squared`: (squared Euclidean cost) The initial multiplier is `sqrt(mean |grad|^2) / (2 rho)`.
* `C41_power_one`: (power one) The initial multiplier is `1 / (m rho)`, whatever the gradients (any cost that evaluates).
* `C41_no_ball`: (no ball) For `rho <= 0`, or a NaN radius, the initial multiplier is 0.
* `C41_constructed`: (new loss) The multiplier of a loss made by `robustify` is `1e-3 / rho` for a positive radius and 0 otherwise.
* `C41_nonneg`: (sign) For every cost of the library with positive power on which the gradients can be evaluated, the initial multiplier is non-negative, and nothing but the multiplier changes.
* `C41_optimal`: (optimality) For an input cost `|.|^p` with Euclidean norm and power `p > 1`, the initial multiplier minimises the linearised robust objective `lam * rho^p + mean_i sup_δ (<grad_i, δ> - lam |δ|^p)` over all `lam >= 0` at which it is finite; and it is finite there.

### C42 Default hyper-parameters are usable (proved)

Model: `dualize_primal_loss`, the sampler construction of the costs, `expert_hyperparams`, `decide_on_impsamp`. Proof: case analysis over all codes and real parameters. File: Props/WrapProblem.lean.

* `C42_default_hyperparameters`: Default hyper-parameters: strictly positive noise scale and regularisation, for every radius `>= 0` and power `>= 1`; given values are used unchanged.
* `C42_epsilon_formula`: The default regularisation strength is `sigma^p / (100 rho)` with `sigma = rho / 2`, and at least `10^-7`: in particular it does not depend on the radius for power 1 and is proportional to it for power 2.

### C43 Optimality condition: no premature stop (proved)

Model: `OptCondTorch` as a state machine, including the aliasing of the stored multiplier. Proof: induction over histories of calls. File: Props/OptCond.lean.

* `C43_no_tolerance`: With both tolerances `<= 0` no call ever stops, whatever the settings, the memory and the history.
* `C43_budget`: The iteration budget: with both tolerances `<= 0` and a known setting, call number `it` stops exactly when the budget is positive and reached.
* `C43_budget_reached`: Whatever the tolerances, a call that reaches a positive budget stops (unless it raises).
* `C43_no_tolerance_required`: With a tolerance `<= 0` on a variable that is required (alone or jointly) no call ever stops.
* `C43_first_call_grad`: With the gradient metric, the first call on a new condition never stops.
* `C43_first_calls_param`: With the parameter metric, the first two calls on a new condition never stop.

### C44 Optimality condition: stops exactly on the criterion (proved)

Model: `OptCondTorch` as a state machine, including the aliasing of the stored multiplier. Proof: induction over histories of calls. File: Props/OptCond.lean.

* `C44_gradient`: (gradient metric) A new condition monitoring theta with a positive tolerance: call `k` (counted from 0) stops exactly when it is not the first one and the norm of the gradient it sees is below the tolerance, relatively to the norm seen by the first call or absolutely. No call fails.
* `C44_parameters`: (parameter metric) A new condition monitoring theta with a positive tolerance: call `k` (counted from 0) stops exactly when `k >= 2` and the length of the last step is below the tolerance, relatively to the length of the first step or absolutely. No call fails.

### C45 Optimality condition: monitoring combinations (proved)

Model: `OptCondTorch` as a state machine, including the aliasing of the stored multiplier. Proof: induction over histories of calls. File: Props/OptCond.lean, Props/OptCondFaults.lean.

* `C45_both`: (joint) Along any history on which the conditions monitoring only lambda and only theta answer `la` and `ta`, the condition with any of the "both" settings answers `la and ta` at every call: both criteria are evaluated, and their memories advance, at each call.
* `C45_one`: (either) The same with the "one" settings: the answer is `la or ta`.
* `C45_single`: (single, no interference) Monitoring lambda never reads theta: changing parameters and their gradients changes no answer; and symmetrically.
* `C45_unknown`: (unknown setting) Any other setting makes every call fail with a ValueError.
* `C45_spellings`: (spellings) Every documented spelling of a setting gives the condition of its first spelling: same answers and same memory at every call.

### C46 Optimality condition on lambda measures its motion (partial)

Model: `OptCondTorch` as a state machine, including the aliasing of the stored multiplier. Proof: induction over histories of calls. File: Props/OptCond.lean.

* `C46_relative_false`: (violated, relative) Monitoring the motion of lambda relatively never stops, whatever the trajectory of lambda: even if it is constant.
* `C46_absolute_false`: (violated, absolute) Monitoring the motion of lambda absolutely stops exactly from the third call on, whatever the trajectory of lambda: even if it moves arbitrarily far.
* `C46_gradient_partial`: (what holds) Monitoring lambda by its gradient works: call `k` stops exactly when it is not the first one and the gradient is below the tolerance, relatively to the first one or absolutely. (Missing: the parameter metric.)

### C47 Fits are independent (partial)

Model: `OptCondTorch` as a state machine, including the aliasing of the stored multiplier. Proof: induction over histories of calls. File: Props/OptCond.lean.

* `C47_shared_false`: (violated) A condition with the default settings (gradient metric, relative, monitoring theta) shared by two fits, as the default argument of the estimators is: after a first fit of at least one iteration whose first gradient had norm `n0`, the second fit is compared to `n0` from its very first iteration, so that it stops there when its first gradient is below `tol * n0`, whereas a fit with its own condition never stops at its first iteration.
* `C47_absolute_partial`: (what holds) In absolute mode with the gradient metric, decisions from the second iteration of a fit on do not depend on fits that used the condition before. (Missing: the first iteration, the relative mode, the parameter metric.)
* `C47_no_tolerance_partial`: (what holds) A condition with tolerances `<= 0` carries nothing from one fit to the next.

### C48 Training loops stop on time and report every step (proved)

Model: the two training loops, schedules and `solve_dual_wdro`; optimizer, loss and gradients are arbitrary interacting programs which may raise at any point. Proof: induction over the loop, trace of evaluations. File: Props/Solve.lean.

* `C48_presampled`: (pre-sampled) A completed fit: `A` is the history before the initialisation of the multiplier, `B` the one after. Pre-training made exactly the requested number of steps. The losses returned are those recorded during training, one per training step, and training followed the documented stopping rule over at most `train` iterations.
* `C48_postsampled`: (post-sampled) A completed fit: the same, except that the losses of the pre-training steps are recorded and returned too, again one per step.
* `C48_never_too_long`: Whatever happens, exceptions included, no fit makes more optimizer steps than requested, nor records more losses than steps.
* `C48_stopping_rule`: reading of the stopping rule: only the last recorded loss can be NaN or coincide with a satisfied condition, and every other iteration asked the condition once, with its own number; if fewer than `n` iterations were made, the last one was NaN or satisfied the condition.

### C49 Pre-training is ordinary (ERM) training (partial)

Model: the two training loops, schedules and `solve_dual_wdro`; optimizer, loss and gradients are arbitrary interacting programs which may raise at any point. Proof: induction over the loop, trace of evaluations. File: Props/Solve.lean.

* `C49_presampled`: (pre-sampled) Every evaluation before the initialisation of the multiplier is the ordinary loss, every one after is the robust loss, whatever the optimizer does with the closure, also when the fit is interrupted.
* `C49_postsampled_false`: (violated, post-sampled) No evaluation is ever the ordinary loss, pre-training included: with a positive number of pre-training steps, a completed fit evaluates the robust loss before the multiplier is initialised.
* `C49_postsampled_partial`: (what holds, post-sampled) Training after the initialisation of the multiplier is on the robust loss. (Missing: the pre-training.)

### C50 Training leaves the importance-sampling flag as set (proved)

Model: the two training loops, schedules and `solve_dual_wdro`; optimizer, loss and gradients are arbitrary interacting programs which may raise at any point. Proof: induction over the loop, trace of evaluations. File: Props/Solve.lean.

* `C50_flag_kept`: After every completed fit, the importance-sampling flag has the value it had before, in both regimes, for both metrics and whatever stopped the fit; and the loss is in robust mode.
* `C50_recorded_evaluation`: evaluation in the pre-sampled training loop: importance sampling is used for the recorded loss exactly when the optimality condition is on gradients and the user enabled it

### C51 Solving always yields a result (partial)

Model: the two training loops, schedules and `solve_dual_wdro`; optimizer, loss and gradients are arbitrary interacting programs which may raise at any point. Proof: induction over the loop, trace of evaluations. File: Props/Solve.lean.

* `C51_result_partial`: (what holds) When nothing external raises and at least one training iteration is requested, solving returns the coefficients, intercept and multiplier of the final state and the last recorded loss; the multiplier is reported as 0 unless `rho > 0`. (Missing: schedules without training iterations.)
* `C51_empty_false`: (violated) A schedule without training iterations: pre-sampled solving fails with an IndexError, after having pre-trained; so does post-sampled solving when there is no pre-training either.
* `C51_multiplier`: Whenever solving returns, the multiplier is 0 unless `rho > 0`.

### C52 Integer schedules are split sensibly (proved)

Model: the two training loops, schedules and `solve_dual_wdro`; optimizer, loss and gradients are arbitrary interacting programs which may raise at any point. Proof: induction over the loop, trace of evaluations. File: Props/Solve.lean, Props/WrapProblem.lean.

* `C52_integer`: A number `n >= 0` of iterations is split into `0 <= pretrain <= train = n`, for any split in `[0, 1]` and any monotone rounding that is exact on integers; training then makes `n` iterations.
* `C52_default_exact`: With the default split and exact arithmetic, pre-training is within one iteration of 30% of training.
* `C52_pair`: Pairs are kept.
* `C52_bad_split`: A split outside `[0, 1]` is refused for integers.
* `C52_default_schedule`: Without a schedule, post-sampled losses get 200 pre-training and 2800 training iterations, pre-sampled ones 100 and 10; a given schedule is kept.

### C53 The multiplier stays non-negative (partial)

Model: composite and hybrid optimizers over an arbitrary inner optimizer; first steps of AdamW and LBFGS as formulas for the negations. Proof: induction over histories of steps, loads and resets. File: Props/Optimizers.lean.

* `C53_composite_partial`: (composite optimizer) Starting from a non-negative multiplier, any history of steps (any inner optimizer, any gradients, with or without schedulers over at least one iteration), state loadings and resets goes through, and the multiplier is non-negative.
* `C53_one_step_partial`: (composite optimizer) Even from a negative multiplier, one step suffices. (Missing: the default optimizers without adaptation, AdamW and LBFGS.)
* `C53_projection_exact_partial`: the projection does not alter non-negative updates, nor the parameters
* `C53_empty_schedule_false`: (violated) Without robust iterations (`n_iter=(pre, 0)`, "prodigy"), the schedule of the multiplier is empty: every step raises a ZeroDivisionError, after the parameters were updated and before the multiplier is projected.
* `C53_who_clamps_partial`: which optimizers project: with adaptation (post-sampled only), never otherwise
* `C53_adamw_false`: (violated, AdamW) `adapt=None`, post-sampled, default learning rate 5e-2: for every radius `rho >= 1`, from the multiplier set by the constructor (`1e-3 / rho`), one step on a gradient `rho` (the gradient of the dual in lambda when all samples sit on the data) makes the multiplier negative, and nothing projects it back.
* `C53_lbfgs_false`: (violated, LBFGS) Pre-sampled, default learning rate 1: the same, when only the multiplier has a gradient.

### C54 Optimizer state round trip (partial)

Model: composite and hybrid optimizers over an arbitrary inner optimizer; first steps of AdamW and LBFGS as formulas for the negations. Proof: induction over histories of steps, loads and resets. File: Props/Optimizers.lean.

* `C54_roundtrip_partial`: Loading a saved state restores both inner optimizers, learning rates included, whatever happened in between, and touches neither parameters nor multiplier. (Missing: the positions of the schedulers, see C110.)
* `C54_reset_partial`: After any history, exceptions included, resetting the multiplier's state restores the state it was created with, and nothing else changes. (Missing: the position of its scheduler, see C110.)
* `C54_groups_false`: (violated) Given the generator `module.parameters()`, as the constructor of the post-sampled loss does, the composite optimizer itself only knows the multiplier, although its inner optimizer trains all parameters: none of the parameters is visible in its groups.
* `C54_groups_list_partial`: (what holds) Given a list, all parameters are visible.

### C55 Multiplicative-weights parameters stay positive / on the simplex (proved)

Model: composite and hybrid optimizers over an arbitrary inner optimizer; first steps of AdamW and LBFGS as formulas for the negations. Proof: induction over histories of steps, loads and resets. File: Props/Optimizers.lean.

* `C55_step`: Groups with at most one rule, multiplicative ones being positive, gradients to be clipped being there: for every inner optimizer, a step is accepted, keeps the rules of the groups, and afterwards `mwu` groups are positive, `mwu_simplex` groups positive with sum one, `non_neg` groups non-negative.
* `C55_run`: The same after any number of steps, each with its own inner update and gradients (a backward pass before each, reaching all tensors if gradients are to be clipped): no step is ever refused.
* `C55_sgd`: With plain SGD the whole step is the documented update of every group: multiplicative weights `p * exp(-lr * grad)` (normalised on the simplex), projected descent, ascent for `max`, descent on clipped gradients for `bound`, descent otherwise; values only. A tensor without gradient is treated as having the gradient zero.

### C56 A refused hybrid step changes nothing (partial)

Model: composite and hybrid optimizers over an arbitrary inner optimizer; first steps of AdamW and LBFGS as formulas for the negations. Proof: induction over histories of steps, loads and resets. File: Props/HybridRefused.lean, Props/Optimizers.lean.

* `C56_where_partial`: (what holds for any number of groups and tensors) Groups with at most one rule each, any inner optimizer that does not raise: if a step raises, there is a first tensor to blame — a multiplicative one with a value that is not positive, or one to clip without a gradient — and the exception tells which. It and all tensors after it are unchanged. All tensors before it, in the order of the groups, are left as prepared: in logarithmic scale, negated, or with clipped gradients. (Missing: that the latter are restored.)
* `C56_second_tensor_false`: (violated) Within one group too: whatever the inner optimizer, if the second of two multiplicative tensors holds a value that is not positive, the first one has been replaced by its logarithm.
* `C56_second_group_false`: (violated) Whatever the inner optimizer, stepping two multiplicative groups the second of which holds a non-positive value is refused, but the first group has been replaced by its logarithm.
* `C56_conflict_false`: (violated) A group marked both `mwu` and `non_neg` is refused *after* the inner step: its values are left in logarithmic scale and already updated. With SGD, for all positive values and all gradients.
* `C56_missing_gradient_false`: (violated) Whatever the inner optimizer, with a multiplicative group followed by one whose gradients are to be clipped but of which one tensor has no gradient yet: the step is refused with an `AttributeError`, and the first group has been replaced by its logarithm.
* `C56_single_partial`: (what holds) A single group, without conflicting rules, with a single tensor: if the step is refused, nothing has changed. (Missing: several groups, several tensors, conflicting rules.)

### C57 Legacy solver results round-trip (proved)

Model: `SolverResult` and `wrap_solver_result`. Proof: case analysis and induction over the dictionary. File: Props/Result.lean.

* `C57_tuple`: Every tuple of one to four results is wrapped into an object that iterates back to that tuple, with the documented names.
* `C57_dict`: Every dictionary with string keys (none of them reserved) is wrapped into an object that has every item as attribute and iterates over its values in order; the usual names default to `None`.
* `C57_dict_refused`: A dictionary with a key that is not a string is refused, and so is one with a reserved name.
* `C57_others`: A wrapped result is left unchanged; a tuple of another length fails an assertion; anything else is refused.
* `C57_idempotent`: Wrapping twice is wrapping once.

### C58 Dedicated newsvendor solver never crashes (proved)

Model: the newsvendor solvers, programs constraint by constraint, external solver as a parameter. Proof: sorted-list arguments, explicit transport plans, weak duality. File: Props/Newsvendor.lean.

* `C58_no_crash`: On a non-empty sample of non-negative demands and a non-negative radius, whatever the external solver does, the dedicated newsvendor solver never fails in its index search nor divides by zero.
* `C58_returns`: With an exact external solver and non-negative prices the dedicated solver always returns a non-negative order quantity and a multiplier.

### C59 Dedicated newsvendor solver is optimal (partial)

Model: the newsvendor solvers, programs constraint by constraint, external solver as a parameter. Proof: sorted-list arguments, explicit transport plans, weak duality. File: Props/Newsvendor.lean, Props/NewsvendorExact.lean.

* `C59_nonzero_partial`: partial: when the radius is small enough for the solver's search to apply (the demands other than the second largest sum to more than `n * rho`) and the returned order quantity is not zero, that quantity minimises the worst-case expected cost over the Wasserstein ball. Missing: the other returns, which can be wrong (`C59_zero_false`, `C59_large_radius_false`).
* `C59_zero_false`: is false: with radius 0 on the demands 1 and 100 (prices 5 and 7) the solver answers 0, whose worst-case cost 0 is beaten by ordering 1, which costs -2 under the only distribution of the ball.
* `C59_large_radius_false`: is false in a second way: with one demand of 10 and radius 100 the solver orders 10, whose worst-case cost is at least 50, while ordering nothing costs 0 whatever happens.
* `C59_zero_iff`: Ordering nothing is of least worst-case cost exactly when no order has an average cost below `-u * rho` on the sample.
* `C59_saa_iff`: A positive order of least average cost on the sample is of least worst-case cost exactly when this average cost is at most `-u * rho` (positive order price `k`).
* `C59_exact_partial`: (exactly when it holds) With an exact external solver, prices `k > 0`, `u >= 0` and non-negative demands, the order returned by the dedicated solver is of least worst-case cost exactly when it is zero and no order has an average cost below `-u * rho`, or it is positive and its own average cost is at most `-u * rho`.
* `C59_two_candidates`: The best order is always one of the two the solver chooses from: the least worst-case cost is that of ordering nothing or that of an order of least average cost.

### C60 Sample-average newsvendor programs are exact (proved)

Model: the newsvendor solvers, programs constraint by constraint, external solver as a parameter. Proof: sorted-list arguments, explicit transport plans, weak duality. File: Props/Newsvendor.lean.

* `C60_program2`: An order quantity is part of an optimal solution of the second sample-average program exactly when it minimises the average newsvendor cost over non-negative quantities, and the optimal value is that cost.
* `C60_program`: The same for the first sample-average program, over all real quantities.
* `C60_solver2`: With an exact external solver and non-negative prices, the second sample-average solver returns an order quantity of least average cost among the non-negative ones.
* `C60_solver`: With an exact external solver and `0 <= k <= u`, the first sample-average solver returns an order quantity of least average cost together with that cost.

### C61 Dedicated linear regression objective is the worst-case RMSE (partial)

Model: the regression, logistic and portfolio programs constraint by constraint; balls of probability measures defined by transport plans. Proof: integration against arbitrary plans (upper bound), explicit worst-case laws (lower bound), existence of optima by compactness; C63 over a general polytope: minimax between transport plans and polytope multipliers, bounded multipliers by the Caratheodory argument for cones. File: Props/LinReg.lean.

* `C61_worst_case`: The objective minimised by the dedicated linear regression solver is the largest root mean squared error over all distributions obtained by moving the inputs with mean squared displacement at most `rho^2`; it is reached by a moved data set.
* `C61_solver`: With an exact external solver and a positive radius, the dedicated linear regression solver returns coefficients and an intercept (zero when no intercept is fitted) whose worst-case root mean squared error is the smallest possible.
* `C61_zero_radius_false`: Zero (or negative) radii, which the estimator accepts, are refused.

### C62 Dedicated logistic regression certifies robustness (proved)

Model: the regression, logistic and portfolio programs constraint by constraint; balls of probability measures defined by transport plans. Proof: integration against arbitrary plans (upper bound), explicit worst-case laws (lower bound), existence of optima by compactness; C63 over a general polytope: minimax between transport plans and polytope multipliers, bounded multipliers by the Caratheodory argument for cones. File: Props/Logistic.lean.

* `C62_certificate`: Every feasible point of the program with intercept bounds the expected logistic loss of its coefficients under every law of labelled points at transport distance at most `rho` (moving inputs costs their distance, flipping a label costs `kappa`).
* `C62_certificate0`: The same without intercept.
* `C62_exact`: The certificate is tight: for given coefficients and intercept, the smallest objective of the program is the supremum of the expected logistic loss over the ball.
* `C62_solver`: With an exact external solver and a positive radius, the dedicated logistic solver returns coefficients, an intercept (zero when none is fitted), a multiplier and a robust loss: the robust loss is the supremum of the expected logistic loss of this model over the ball, and no other allowed model has a smaller supremum.

### C63 Dedicated portfolio solver certifies robustness (proved)

Model: the regression, logistic and portfolio programs constraint by constraint; balls of probability measures defined by transport plans. Proof: integration against arbitrary plans (upper bound), explicit worst-case laws (lower bound), existence of optima by compactness; C63 over a general polytope: minimax between transport plans and polytope multipliers, bounded multipliers by the Caratheodory argument for cones. File: Props/Polytope.lean, Props/Portfolio.lean.

* `C63_polytope`: For every polytope that contains the sample, the infimum of the values the program assigns to given weights and threshold is the supremum of their expected loss over the distributions of the ball carried by the polytope: the program neither overestimates nor underestimates the risk.
* `C63_optimal_polytope`: For every polytope that contains the sample, whatever the dedicated portfolio solver returns with an exact external solver is a portfolio and a threshold whose worst-case expected loss over the ball is the returned robust value, and no other portfolio and threshold have a smaller worst-case expected loss.
* `C63_polytope_returns`: For every polytope that contains the sample and valid risk parameters, the dedicated solver with an exact external solver returns, so that `C63_optimal_polytope` describes what it returns.
* `C63_certificate`: Every feasible point of the portfolio program bounds the expected mean-CVaR loss of its weights under every law of returns staying in the polytope and within `rho` of the sample, distances being measured in the norm whose dual norm is constrained.
* `C63_exact`: When the polytope does not restrict the returns (the default: zero matrix), the smallest value the program assigns to given weights and threshold is the supremum of their expected loss over the ball, the average loss of the sample plus `rho (1 + eta/alpha)` times the dual norm of the weights.
* `C63_solver`: With an exact external solver, whatever the dedicated portfolio solver returns is a portfolio (non-negative weights summing to one), a threshold, a multiplier and a robust value: the value bounds the expected loss of this portfolio over the ball, and no feasible point of the program has a smaller value.
* `C63_optimal`: When the returns are unrestricted and the risk parameters are valid, the dedicated solver with an exact external solver returns a portfolio and threshold whose worst-case expected loss over the ball is the returned robust value, and no other portfolio and threshold have a smaller worst-case expected loss.

### C64 Binary labels round-trip (proved)

Model: constructors, `fit`, `predict`, `predict_proba`, `eval`, `score` of the five estimators; training is an arbitrary procedure keeping the shape of the module. Proof: case analysis, tensor index computation, all data sets and all trained parameters. File: Props/Classifier.lean.

* `C64_encoding`: For two classes the encoded labels are exactly −1 (first class in sorted order) and +1 (second one), and decoding the sign of the encoded label gives the label back.
* `C64_binary_predict`: Binary prediction: whatever the route (dedicated or torch), the dimension and the intercept setting, a fitted classifier is an affine score, and `predict` returns, for every sample of any new data set, the second class exactly when its score is `>= 0` and the first one otherwise — in particular always one of the two training classes. Without intercept the score has no offset.
* `C64_single_class`: Data with a single class is refused, whatever the settings.
* `C64_multiclass_predict`: More than two classes: a fitted classifier has one affine score per class, and `predict` returns for every sample of any new data set the class of the largest score, the first one in sorted order on ties — in particular always a training class.

### C65 Predicted probabilities are probabilities (partial)

Model: constructors, `fit`, `predict`, `predict_proba`, `eval`, `score` of the five estimators; training is an arbitrary procedure keeping the shape of the module. Proof: case analysis, tensor index computation, all data sets and all trained parameters. File: Props/Classifier.lean.

* `C65_binary_partial`: (partial: see the violations below) Two classes, dedicated solver, or torch solver with an intercept in dimension at least two: `predict_proba` returns on every data set one row per sample, of two non-negative numbers summing to one; the second is the logistic function of the score that `predict` thresholds.
* `C65_no_intercept_false`: (violated) Without an intercept, after a fit with the torch solver on two classes, `predict_proba` raises `TypeError` on every data set.
* `C65_dimension_one_false`: (violated) In dimension one, after a fit with the torch solver on two classes with an intercept, `predict_proba` returns a single row of `2 N` numbers instead of `N` rows of two.
* `C65_multiclass_false`: (violated) With more than two classes `predict_proba` returns the raw affine scores, not probabilities: for a model without intercept the row of the origin is made of zeros, for every fit.

### C66 Solver choice is honoured (partial)

Model: constructors, `fit`, `predict`, `predict_proba`, `eval`, `score` of the five estimators; training is an arbitrary procedure keeping the shape of the module. Proof: case analysis, tensor index computation, all data sets and all trained parameters. File: Props/Routes.lean.

* `C66_route_partial`: What every estimator does with every solver name (full characterisation of the accepted ones): the deprecated name raises a warning as an error, 'dedicated' runs the dedicated solver except for `Weber` which refuses it, a name containing 'torch' runs the torch solver, any other name is refused.
* `C66_documented_partial`: (partial: `Portfolio` is excluded, see `C66_portfolio_false`) The documented names select the documented sampling: '_pre' pre-samples, '_post' post-samples, for every estimator but `Portfolio`.
* `C66_portfolio_false`: (violated) `Portfolio` does the opposite: '_pre' post-samples and '_post' pre-samples.
* `C66_bare_name_false`: (violated) The bare name 'entropic_torch' does not mean the same thing everywhere: it pre-samples for `NewsVendor`, post-samples for the others.
* `C66_unknown_false`: (violated) Unknown names are not all refused: whatever surrounds it, 'torch' is accepted, and a trailing 'post' that is not the documented name is read as pre-sampling by every estimator.
* `C66_fit`: In every `fit`, a refused name stops before anything is fitted, with the exception of the table above (data accepted and decodable cost).

### C67 Default estimators can be fitted (partial)

Model: constructors, `fit`, `predict`, `predict_proba`, `eval`, `score` of the five estimators; training is an arbitrary procedure keeping the shape of the module. Proof: case analysis, tensor index computation, all data sets and all trained parameters. File: Props/Estimators.lean, Props/Fit.lean, Props/Scores.lean.

* `C67_logistic_partial`: (partial: see the violations) Logistic regression with default arguments: fits all data with at least two classes, provided the training itself returns, and then predicts on all data.
* `C67_linreg_partial`: (partial) Linear regression with torch and a supported cost fits all data, if training returns, and then predicts one number per sample on all data, an affine function of it.
* `C67_logistic_trained`: Logistic regression with default arguments fits all data with at least two classes, through the actual training loops, and then predicts on all data labels it has seen.
* `C67_linreg_trained`: Linear regression with default arguments likewise: it predicts one number per sample, an affine function of it.
* `C67_weber_trained_false`: (violated) A Weber estimator with default arguments fits all data through the actual training loops, but can never be scored.
* `C67_newsvendor_false`: (violated) A newsvendor with default arguments can never be fitted: its default solver is the deprecated name.
* `C67_weber_false`: (violated) A Weber estimator with default arguments fits all data (if training returns), but can never be scored.
* `C67_portfolio_partial`: and the assumptions of the statements above are met: the default portfolio, or one with any admissible risk parameters, fits all data with an exact external solver, and is then scored on all data of any dtype.

### C68 Empirical distributions own their data (partial)

Model: arrays on a heap of mutable cells, `Distribution` accessors and setters. Proof: induction over histories of the caller. File: Props/Problems.lean.

* `C68_labelled_partial`: (labelled half) Whatever the caller does afterwards with the arrays they hold (in particular overwriting those the distribution was built from), in any order and number, a labelled distribution still reads as the data it was built from.
* `C68_unlabelled_false`: is false for unlabelled distributions: the caller's array is kept by reference, so every in-place change of it shows.
* `C68_accessors_partial`: (accessors) The label accessors fail on every unlabelled distribution and the plain one on every labelled distribution, also after any successful assignment.
* `C68_setters_partial`: (assignment) Assigning anything but an array fails with TypeError; assigning an array makes exactly that accessor return it.

### C69 Radius grids (proved)

Model: the grid tuner around an arbitrary search, the generic statistical tuner. Proof: induction on the grid, case analysis on the attributes set by `fit`. File: Props/RhoTuners.lean.

* `C69_grid`: The grid is strictly increasing, has `max_power - min_power` values (none if the bounds are swapped or equal), and they are exactly the powers of ten with exponents from `-max_power` to `-min_power - 1`.
* `C69_choice`: Given a grid search that picks one of the radii offered and refits with it, the tuned estimator has one of these radii; it is positive, and between the bounds.
* `C69_construct`: Construction fails exactly without an estimator; the default grid is the eight powers from 1e-4 to 1e3.

### C70 Conjugate used by the radius heuristic (partial)

Model: `compute_phi_star` for vectors and portfolios. Proof: completion of squares with a Moore-Penrose inverse, Hoelder inequality; witnesses for the negations. File: Props/RhoTuners.lean.

* `C70_scalar_partial`: (partial: dimension one) The value computed is the exact conjugate of `n²` times the documented function. For one sample it is the documented conjugate; the infinite value is exactly the unbounded case.
* `C70_scale_false`: is false for two samples or more (`1 / 2 * n` is parsed as `n / 2`): the documented conjugate is `n²` times the value returned, hence different whenever `z` and a second derivative are non-zero.
* `C70_vector_partial`: (partial: `z` in the range of `A`, and `n²` times the documented function) With a Moore-Penrose pseudo-inverse, the value computed for vectors is the exact conjugate of `n²` times the documented function.
* `C70_range_false`: is false for vectors outside the range (the test for it never succeeds): the documented conjugate is infinite, a number is returned.

### C71 Foreign engines are always refused (partial)

Model: `cost_from_str`, `parse_code_torch`, `cost_from_parse_torch` on lists of characters, with python `float()` on decimal literals. Proof: split/join induction on strings, case analysis on the fields. File: Props/CostDecoder.lean.

* `C71_engine_check_false`: (negation) The two-step decoder accepts a five-field code of a foreign engine, which the one-step decoder refuses.
* `C71_engine_check_partial`: (partial: all codes except five-field ones in the two-step decoder) A code whose first field is not the engine `t` is refused by the one-step decoder, and by the two-step decoder when it has four fields.

### C72 An interrupted training leaves the loss as configured (partial)

Model: the two training loops, schedules and `solve_dual_wdro`; optimizer, loss and gradients are arbitrary interacting programs which may raise at any point. Proof: induction over the loop, trace of evaluations. File: Props/Solve.lean.

* `C72_pretraining_false`: (violated) A pre-sampled fit interrupted while pre-training leaves the loss in ordinary (ERM) mode: any optimizer that first calls the closure, any loss that raises.
* `C72_importance_false`: (violated) A pre-sampled training monitored on parameters, interrupted while the loss of an iteration is evaluated, leaves importance sampling off although the user had it on.
* `C72_postsampled_partial`: (what holds) Post-sampled fits, interrupted or not, keep the importance-sampling flag and end in robust mode. (Missing: pre-sampled fits.)

### C73 The reported robust loss is that of the returned parameters (partial)

Model: the two training loops, schedules and `solve_dual_wdro`; optimizer, loss and gradients are arbitrary interacting programs which may raise at any point. Proof: induction over the loop, trace of evaluations. File: Props/Solve.lean.

* `C73_presampled`: (pre-sampled) The last loss, reported as the robust loss, was evaluated in robust mode after the last optimizer step: nothing but its recording and the optimality condition happened since.
* `C73_postsampled_false`: (violated, post-sampled) The last loss, reported as the robust loss, was evaluated *before* the last optimizer step: the returned parameters are not those it is the loss of.

### C74 Weber loss is the weighted distance (proved)

Model: the built-in losses on tensors, `nn.Linear` and `softmax` as formulas. Proof: index computation, then real analysis (convexity, Lipschitz bounds). File: Props/Losses.lean.

* `C74_weber`: The Weber loss of locations `x_r` with weights `y_r` is the weight times the distance to the facility.
* `C74_shape`: Weber losses are non-negative for non-negative weights, vanish at the facility, and are convex in its position.
* `C74_flat_refused`: flat weights are refused

### C75 Quadratic loss gives one squared error per sample (partial)

Model: the built-in losses on tensors, `nn.Linear` and `softmax` as formulas. Proof: index computation, then real analysis (convexity, Lipschitz bounds). File: Props/Losses.lean.

* `C75_column_partial`: (what holds) With labels as a column the quadratic loss returns one squared error per sample, plus the ridge penalty, on every batch.
* `C75_flat_false`: (violated) With flat labels, `n >= 2` samples give an `n x n` table of losses: entry `(r, c)` compares the prediction of sample `r` with the label of sample `c`.

### C76 Cost codes mean what the estimators document (partial)

Model: constructors, `fit`, `predict`, `predict_proba`, `eval`, `score` of the five estimators; training is an arbitrary procedure keeping the shape of the module. Proof: case analysis, tensor index computation, all data sets and all trained parameters. File: Props/Estimators.lean.

* `C76_order_false`: (violated) Decoding puts the third field in the power and the fourth in the norm order, the opposite of the documented `engine-id-norm-power`: so a code naming distinct norm order `k` and power `p` gives a cost whose norm order is not `k`.
* `C76_equal_partial`: (what holds) When both numbers agree — as in the default codes of the regressions — the documented reading is right.
* `C76_portfolio_partial`: (what holds) The dedicated portfolio solver does read the third field as its norm order (see C63) and ignores the fourth.

### C77 Scores are minus the average loss (partial)

Model: constructors, `fit`, `predict`, `predict_proba`, `eval`, `score` of the five estimators; training is an arbitrary procedure keeping the shape of the module. Proof: case analysis, tensor index computation, all data sets and all trained parameters. File: Props/Scores.lean.

* `C77_newsvendor_partial`: (partial: one product; see the violations) The score of a fitted newsvendor is minus the average newsvendor cost of its order over the evaluation data, whatever the data it was fitted on, for the dedicated solver and solver names containing 'entropic'.
* `C77_newsvendor_products_false`: (violated) With several products the loss trained on is that of the row means (see `newsvendorFit`) but the score averages over products: for every fitted order `th > 0` and unit revenue `u ≠ 0` the score on the demands `(0, 2 th)` is not minus the trained loss.
* `C77_name_false`: (violated) Solver names with 'torch' but without 'entropic' are fitted, but scores then raise `ValueError` on all data, for the three estimators.
* `C77_weber_false`: (violated) A fitted Weber estimator can never be scored, on any data: the evaluation passes no weights, which the loss requires, or refuses the solver name.
* `C77_weber_renamed_false`: (violated) Renaming the solver of a fitted Weber estimator to `dedicated` makes it scorable, but the score is the average inner product of the points with the fitted position: for a position away from the origin and one point at it, it is positive, though minus a distance never is.
* `C77_portfolio_dedicated_partial`: (partial: no risk term) Without risk term (`eta = 0`) the score of a portfolio fitted by the dedicated solver is minus the average loss of its weights and threshold, on all data of any dtype.
* `C77_portfolio_risk_false`: (violated) With a risk term (`eta > 0`) the score of a portfolio fitted by the dedicated solver forgets it: on returns all equal to -1 it is always above minus the average loss trained on.
* `C77_portfolio_torch_partial`: (partial: evaluation data in single precision, see `C77_portfolio_dtype_false`) The score of a portfolio fitted by torch under a name containing 'entropic' is minus the average loss of its weights (a portfolio) at the trained threshold.
* `C77_portfolio_dtype_false`: (violated) On data in another precision (numpy's default, double) a portfolio fitted by torch cannot be scored.

### C78 Constructors refuse unusable hyper-parameters (partial)

Model: constructors, `fit`, `predict`, `predict_proba`, `eval`, `score` of the five estimators; training is an arbitrary procedure keeping the shape of the module. Proof: case analysis, tensor index computation, all data sets and all trained parameters. File: Props/OptCond.lean, Props/Routes.lean.

* `C78_condition_order`: An optimality condition can be built with the order `'inf'` or a positive number (infinity included), and with nothing else: zero, negative numbers, NaN and all other strings are refused with `AssertionError`. The order is the one given.
* `C78_condition_false`: (violated) The other settings are not checked at construction: a condition with a misspelt monitoring is built, and it is its first call that fails (so does training, after its first step).
* `C78_constructors_partial`: (partial: NaN passes, see `C78_nan_false`) Every constructor refuses a negative radius with `ValueError`; `Portfolio` moreover refuses exactly the risk aversions below 0, the confidence levels outside (0,1], the negative regularisations and sample counts, and `solver_reg=None` (with `TypeError`). What is accepted is stored unchanged.
* `C78_nan_false`: (violated) A NaN radius is accepted by every constructor.
* `C78_unchecked_false`: (violated) Only `Portfolio` checks anything but the radius: the other constructors accept a negative regularisation and a negative number of samples.
* `C78_defaults`: The default arguments are accepted.

### C79 fit_intercept is honoured (partial)

Model: constructors, `fit`, `predict`, `predict_proba`, `eval`, `score` of the five estimators; training is an arbitrary procedure keeping the shape of the module. Proof: case analysis, tensor index computation, all data sets and all trained parameters. File: Props/Estimators.lean.

* `C79_linreg_dedicated_partial`: (partial: see `C79_torch_linreg_false`) The dedicated linear regression without intercept has none, on all data: with an exact external solver, whatever is fitted predicts a linear function, zero at the origin.
* `C79_logistic_partial`: (partial) Binary logistic regression without intercept has a linear score, whatever the solver: on a sample at the origin it always answers the second class.
* `C79_multiclass_partial`: (partial) Logistic regression with more classes and without intercept has linear scores: at the origin all are zero, and it always answers the first class.
* `C79_ignored_false`: (violated) With torch, the fit of a linear regression does not depend on `fit_intercept` at all.
* `C79_torch_linreg_false`: (violated) With torch, linear regression ignores `fit_intercept=False`: on all data, a default estimator with `fit_intercept=False` whose training moves the offset to one predicts one at the origin.

### C80 Estimators train on the robust objective they document (proved)

Model: the call of `dualize_primal_loss` made by `fit` for each estimator; evaluation of the resulting loss on drawn samples. Proof: composition of C22, C25-C28, C74 (pointwise losses), C29 (robust formula) and C20 (displaced samples). File: Props/EstObjective.lean, Props/Objective.lean.

* `C80_linreg`: Linear regression, any torch solver: whatever the data, the parameters `l`, the multiplier `lam` and the state of the generator, the value handed to the optimizer is the robust loss of the squared error, plus the ridge penalty on all parameters.
* `C80_logistic`: Logistic regression with two classes: the same with the logistic loss of the margin.
* `C80_multiclass`: Logistic regression with `K` classes and one-hot labels `Y`: the same with the cross entropy of the scores.
* `C80_true_class`: On the labels of the data, encoded by `fit`, this cross entropy is minus the log-probability that the model gives to the true class.
* `C80_signs`: With two classes, the encoded labels are -1 for the smaller class and 1 for the larger one.
* `C80_weber`: Weber: the weight times the distance to the facility.
* `C80_newsvendor`: News vendor with one product and a cost on inputs only: the expected loss of ordering `theta`.
* `C80_portfolio`: Portfolio with a cost on inputs only: mean-CVaR trade-off of the return of the soft-max weights.
* `C80_linreg_presampled`: (pre-sampled solvers, written out) Linear regression: whatever the data, the parameters `l`, the noisy samples `Z`, `W` and the multiplier `lam`, the objective handed to the solver is the soft-max robust loss of the squared error, plus the ridge penalty on all parameters; its cost is that of the code and its regularisation the one given.
* `C80_logistic_presampled`: (pre-sampled solvers, two classes, written out) Logistic regression: the same with the logistic loss of the margin.

### C81 Predictions have one entry per sample (partial)

Model: constructors, `fit`, `predict`, `predict_proba`, `eval`, `score` of the five estimators; training is an arbitrary procedure keeping the shape of the module. Proof: case analysis, tensor index computation, all data sets and all trained parameters. File: Props/Estimators.lean.

* `C81_binary_partial`: (partial: two classes, see `C81_multiclass_false`) Binary prediction returns an array of shape `(n_samples,)`, on all data.
* `C81_multiclass_false`: (violated) With more than two classes the array always has shape `(n_samples, 1)` instead.
* `C81_linreg_partial`: (partial) The linear regression fitted by torch predicts an array of shape `(n_samples,)`; by the dedicated solver too, if the external solver is exact.

### C82 The generic statistical radius tuner returns a fitted estimator (partial)

Model: the grid tuner around an arbitrary search, the generic statistical tuner. Proof: induction on the grid, case analysis on the attributes set by `fit`. File: Props/PortfolioTuner.lean.

* `C82_false`: is false: fitting the generic statistical tuner fails for every estimator of the package, solver and data. When the first fit succeeds the failure is an AttributeError; the radius chosen by the user has been overwritten.

### C83 The portfolio radius tuner chooses a usable radius (partial)

Model: the portfolio tuner, `np.cov`, `np.quantile`, arbitrary draws. Proof: derivatives of the loss, order statistics. File: Props/PortfolioTuner.lean.

* `C83_radius_partial`: what the radius is: `n r²` is the 95% quantile of the values of the conjugate at the draws, a non-negative number
* `C83_partial`: (partial: at least two samples, none at the kink of the fitted loss, see the refutations below) Whatever numbers are drawn, the tuner computes a radius that is a non-negative number, leaves it in the estimator and returns the estimator refitted with it; the other arguments are unchanged.
* `C83_torch_false`: is false with a torch solver: the tuner reads a threshold attribute these fits do not set.
* `C83_single_false`: is false for a single sample, whatever the solver: the tuner always fails.
* `C83_covariance_false`: is false as to what is drawn: the matrix given to the sampler has one row and column per sample, not one per parameter.
* `C83_matrix_partial`: the matrix given to the sampler is that of the covariances between samples, over the `m + 1` coordinates of their gradients: the products of deviations from the row means, divided by `m`; it is symmetric and positive semi-definite, as the sampler requires.
* `C83_kink_false`: is false with the dedicated solver (in exact arithmetic): with a risk term and `alpha n` not an integer, the optimal threshold of the first fit is the loss of some sample, where the loss is not differentiable, and the tuner fails on every data set.

### C84 Per-sample gradients of the portfolio loss (partial)

Model: the portfolio tuner, `np.cov`, `np.quantile`, arbitrary draws. Proof: derivatives of the loss, order statistics. File: Props/PortfolioTuner.lean.

* `C84_gradient`: Away from kinks, the vector computed for a sample is the gradient of the portfolio loss in the weights and the threshold at the fitted values.
* `C84_kink_partial`: (partial: with a risk term, see `C84_no_risk_false`) Where the computation refuses a sample, the loss is indeed not differentiable.
* `C84_no_risk_false`: (violated) Without risk term (`eta = 0`, the default) the portfolio loss is linear in the weights, hence differentiable everywhere, but samples whose return is minus the threshold are refused all the same.

### C85 Conjugate used by the portfolio radius heuristic (partial)

Model: `compute_phi_star` for vectors and portfolios. Proof: completion of squares with a Moore-Penrose inverse, Hoelder inequality; witnesses for the negations. File: Props/PortfolioTuner.lean.

* `C85_upper_partial`: (partial: upper bound, see `C85_false`) The value computed for a portfolio is never below the documented conjugate, whatever the conjugate norm orders, and equals it without risk term.
* `C85_false`: is false with a risk term: two samples, one asset, one loss above the threshold (`eta = alpha = 1`, Euclidean norms): the value returned for `z = 1` is not the documented conjugate.

### C86 Fits return on all valid data (partial)

Model: `dualize_primal_loss` followed by `solve_dual_wdro`: the loops of Model/Solve run on the forward passes, samplers, dual initialisation and optimality condition of the other files; optimizer and autograd are arbitrary. Proof: invariants through both loops (shapes, sampler, drawn samples), for every interaction of the optimizer with the closure. File: Props/Fit.lean, Props/FitRaises.lean.

* `C86_fits_return_partial`: (partial: see `C86_frozen_multiplier_false` and `C86_other_sizes_false` for the two kinds of optimality conditions excluded) Whatever the data, the loss module, the noise, the optimizer (gradient-based, raising nothing by itself) and the optimality condition (any documented settings), a fit asked for at least one iteration with a non-negative or NaN radius returns: no shape error, missing gradient or missing sample can occur on the way. The parameters returned are those of the trained module, as many as at the start.
* `C86_linreg_partial`: Linear regression trained by torch, pre- or post-sampled, fits all data (whatever the initial weights, the noise, the memory of the optimality condition and the optimizer).
* `C86_weber_partial`: The Weber problem likewise.
* `C86_newsvendor_partial`: The newsvendor trained by torch likewise, for demand vectors of any length.
* `C86_portfolio_partial`: The portfolio trained by torch likewise.
* `C86_logistic_partial`: Logistic regression trained by torch fits all data with at least two classes (any number of classes, with or without intercept).
* `C86_frozen_multiplier_false`: (violated by conditions on the gradient of the multiplier) At radius zero the multiplier is frozen and has no gradient: whatever the data, the module, the noise and the optimizer, a fit whose optimality condition looks at the gradient of the multiplier (`monitoring` of the multiplier, alone or with the parameters) raises `ValueError`.
* `C86_other_sizes_false`: (violated by a condition on the motion of the parameters that remembers another problem) Whatever the problem, if the memory holds parameters of another number (both numbers greater than one) the fit raises `RuntimeError`.

### C87 The reported loss can be recomputed from what is returned (proved)

Model: `dualize_primal_loss` followed by `solve_dual_wdro`: the loops of Model/Solve run on the forward passes, samplers, dual initialisation and optimality condition of the other files; optimizer and autograd are arbitrary. Proof: invariants through both loops (shapes, sampler, drawn samples), for every interaction of the optimizer with the closure. File: Props/Fit.lean.

* `C87_reported_loss`: Pre-sampled fits: whatever the optimizer did, the reported robust loss is the one the public construction gives for the returned module (same arguments, same generator), at the reported multiplier and at the samples drawn from its sampler.
* `C87_linreg`: Linear regression, pre-sampled: the reported robust loss is the soft-max formula at the returned coefficients, at the reported multiplier and at the sampled data `Z`, `W`.
* `C87_logistic`: Two-class logistic regression, pre-sampled: the same with the logistic loss of the margin.

### C88 Fits with a fixed random_state are reproducible (partial)

Model: `dualize_primal_loss` followed by `solve_dual_wdro`: the loops of Model/Solve run on the forward passes, samplers, dual initialisation and optimality condition of the other files; optimizer and autograd are arbitrary. Proof: invariants through both loops (shapes, sampler, drawn samples), for every interaction of the optimizer with the closure. File: Props/Fit.lean.

* `C88_seeded_partial`: (partial: from the same initial parameters) With a seed, a fit depends only on its arguments, the initial parameters and the memory of the optimality condition: not on the state of torch's generator.
* `C88_weber`: Weber fits are reproducible: with the same data, settings and condition, they do not depend on what was drawn before.
* `C88_initial_weights_false`: (violated) The same `random_state` does not make linear regression reproducible: the initial weights are drawn before the generator is seeded. Two fits of the default estimator on the same data, in generator states from which different weights are drawn, return different coefficients (here with learning rate zero, on all data).

### C89 Training changes values of parameters only (proved)

Model: `dualize_primal_loss` followed by `solve_dual_wdro`: the loops of Model/Solve run on the forward passes, samplers, dual initialisation and optimality condition of the other files; optimizer and autograd are arbitrary. Proof: invariants through both loops (shapes, sampler, drawn samples), for every interaction of the optimizer with the closure. File: Props/Fit.lean.

* `C89_architecture_kept`: Whatever the problem and the optimizer, training changes the values of the parameters only: the kind of module, its sizes, the presence of a bias and its constants (prices, risk levels) are those of the module given.

### C90 Every argument of an estimator takes effect (partial)

Model: constructor arguments of the five estimators, `torchArgs`, `trainSteps`, `solveRun`. Proof: reading the robust loss built by `dualize`; inversion of the training loops (C48); equality of fits for ignored arguments. File: Props/Settings.lean.

* `C90_robust_loss`: The robust loss built by a fit has the radius, the regularisation, the number of samples and the cost of the arguments; torch's generator is left in the state given by the seed, whatever it was; importance sampling is on exactly for squared Euclidean costs, and for the two regressions only with a post-sampled solver.
* `C90_noise`: The samples of a fit are the data plus standard noise, scaled by `sampler_reg` where the estimator has that argument and it is given, by half the radius otherwise: Laplace noise for the cost of power one and order one, normal noise for the others.
* `C90_schedule`: The training of a completed fit follows `n_iter`: a pair gives the lengths of pre-training and training; a number `n` the length of training, with a pre-training of `0.3 n` steps, rounded as the machine does; without it, (200, 2800) for post-sampled solvers and (100, 10) for pre-sampled ones, except for the Weber estimator, which then trains for 300 steps.
* `C90_newsvendor_l2_false`: (violated) The weight of the ridge penalty has no effect on the newsvendor, whatever the solver,
* `C90_dedicated_l2_false`: nor on the two regressions with the dedicated solver,
* `C90_dedicated_cost_false`: nor do two decodable cost codes make a difference to them;
* `C90_weber_kappa_false`: and the label weight `kappa` of the Weber estimator is not read.

### C91 A robust loss always has the sampler it was given (partial)

Model: the `sampler` property as a slot (deleted, unset, set) with transitions for assignment, deletion, `init_sampler`, `generate_zetas` and the forward pass; `default_sampler` of each loss; the constructor of `Loss`. Proof: induction over histories of calls; C11 for re-centring. File: Props/Lifecycle.lean.

* `C91_lazy_false`: (violated) A robust loss without sampler never builds one: whatever the losses and batches, in any sequence of forward passes, drawings of samples and readings of the sampler every single call fails with a ValueError, and there is still no sampler.
* `C91_deleted`: (deletion) After its deletion the sampler is missing for every use (AttributeError), until another one is provided.
* `C91_none`: (assignment of `None`) A loss whose sampler is set to `None`, like one built without data or by a class without default sampler, has none: every use fails with a ValueError until a sampler is provided.
* `C91_init_labels`: (explicit initialisation) Labels must be given exactly when the loss has labels; otherwise the call fails and changes nothing.
* `C91_assigned`: (assignment) A sampler given by the user is the one used from then on: after any sequence of forward passes (failing or not), drawings and readings there is a sampler, with the same noise laws and seed.
* `C91_initialised`: (explicit initialisation) What `init_sampler` builds is centred on the batch, has a label part exactly if the loss has labels, and stays in place in the same sense.
* `C91_recentred`: (batches) After a forward pass with re-centring that returns a value, the sampler is centred on the batch just evaluated.
* `C91_value`: (values) With a sampler in place, the forward pass gives the value, or the failure, of the robust loss with that sampler (the one studied in C15 and C29 – C38).
* `C91_default_newsvendor`: (default sampler, newsvendor) On every batch of demands it exists and draws normal noise of deviation `sigma` around the demands.
* `C91_default_regressions`: (default sampler, regressions) For the quadratic and the logistic loss, on every labelled batch, it exists and draws normal noise of deviation `sigma` around the inputs, then around the labels (also for the labels of a classification).
* `C91_default_refused`: (default sampler, deviation) A deviation that is not positive is refused by each of the three losses, on every batch.
* `C91_default_none`: (default sampler, wrapped losses) There is none, on any data; nor for the two regressions without labels.
* `C91_documented_call_false`: (violated) The documented call `loss.default_sampler(xi, xi_labels, sigma)` (doc/pytorch.rst:291) is refused by every loss on all data: the seed is mandatory.
* `C91_constructor`: (constructor) A sampler given to the constructor of a loss is kept as it is; without one, and with data, the default one is taken with deviation `sigma`, 0.1 if it is not given, and no seed; without either there is none, so that every use fails.

### C92 The number of adversarial samples drawn is the requested one (proved)

Model: `generate_zetas`. Proof: case analysis on the request; shapes of drawn tensors. File: Props/Lifecycle.lean.

* `C92_count`: Drawing adversarial samples from a loss whose sampler is in place always succeeds: with a positive request `n` it returns `n` of them for each data point of the batch the sampler is centred on, otherwise (no request, zero or negative) the number set at construction; labels are returned exactly if the sampler has a law for them, in the same number.
* `C92_from_sampler`: The samples are drawn from the sampler as it stands: asking for `n` samples is asking the sampler for `n` samples.

### C93 The optimizer built is the documented one (partial)

Model: the optimizer set-ups of the two constructors, `robustify` arguments. Proof: case analysis. File: Props/Lifecycle.lean.

* `C93_adamw`: (post-sampled, no adaptation) AdamW with the given learning rate, 0.05 by default, on the model and, if the radius is positive, the multiplier.
* `C93_lbfgs`: (pre-sampled) LBFGS with the given learning rate, 1 by default, on the same parameters.
* `C93_adaptive`: (post-sampled, adaptation) "prodigy", the default, and "mechanic" give the composite optimizer on the model and the multiplier; the cosine schedules of "prodigy" are as long as all iterations for the model, as the robust ones for the multiplier (what they do to the learning rates is C110). Any other name is refused.
* `C93_learning_rate_false`: (violated) `learning_rate` has no effect with adaptation, which is the default of post-sampled losses.
* `C93_adapt_false`: (violated) `adapt` has no effect on pre-sampled losses, for any name, existing or not.
* `C93_default_rate_false`: (violated) The documented default learning rate 0.05 of pre-sampled losses is not the actual one.
* `C93_trained`: (what is trained) The optimizer of a loss built by `robustify` never updates the radius nor the regularisation, and updates the multiplier only for a radius that is not `<= 0`.
* `C93_assigned`: (user's optimizer) The optimizer read back is the one assigned; reading fails exactly when there is none.

### C94 Fits with the dedicated solvers solve the robust problem the user described (partial)

Model: whole `fit` with `solver="dedicated"` of the four estimators that have one. Proof: composition of C59-C63 with routing, label encoding and unpacking of solver results. File: Props/Dedicated.lean.

* `C94_linreg`: Linear regression with `solver="dedicated"`, a positive radius and a decodable cost: for every data set the fit returns, and the coefficients and intercept it stores have the smallest worst-case RMSE when the inputs move by a mean square of at most `rho^2`, among all the linear models (without intercept if `fit_intercept=False`).
* `C94_logistic`: Binary logistic regression with `solver="dedicated"`, a positive radius and a decodable cost: for every data set with two classes `c0 < c1` the fit returns; the stored coefficients and intercept have the smallest worst-case logistic loss over the laws obtained from the data, labelled `-1` for `c0` and `1` for `c1`, at an average cost of at most `rho`, where changing a label costs 1000; and the stored dual variable bounds the norm of the coefficients.
* `C94_newsvendor_partial`: Newsvendor with `solver="dedicated"`, prices `k, u >= 0`, a non-negative radius and non-negative demands: for every data set the fit returns an order `theta >= 0`, which is either `0` or of least average cost, at the prices given to the estimator, on the demands (the mean of each row). The dual variable stored is `0` for the order `0`, and `u` otherwise. For `k > 0` the order is of least worst-case cost over the ball exactly when it is `0` and no order has an average cost below `-u * rho`, or is positive with an average cost of at most `-u * rho`. Missing: the remaining cases, where it is not (`C94_newsvendor_false`).
* `C94_newsvendor_false`: (violated) The newsvendor fit is not always of least worst-case cost: for some prices, radius and non-negative demands the order it stores is not, whatever the other arguments and the external solver.
* `C94_portfolio`: Portfolio with `solver="dedicated"`, `eta >= 0`, `0 < alpha <= 1`, a non-negative radius and a cost code naming the norm order `q` in its third field: for every polytope containing the sample the fit returns; the stored weights are non-negative, sum to one and, with the stored threshold, have the smallest worst-case mean-CVaR loss, with the estimator's `eta` and `alpha`, over the laws within `rho` of the sample for the norm of order `q`; the stored dual variable is non-negative.

### C95 Minimising over the multiplier computes the worst case over the samples (proved)

Model: the robust loss as a function of its multiplier, on given samples. Proof: derivative in the multiplier, compactness, first-order conditions, Gibbs variational principle. File: Props/StrongDuality.lean.

* `C95_strong_duality`: If some choice of one sample per data point has an average cost below `rho^p`, there is a best non-negative multiplier, and the robust loss there is the penalised expected loss of an admissible adversary — hence (C32) the largest one: minimising over the multiplier computes the worst case over all the re-weightings of the samples of average cost at most `rho^p`.
* `C95_bounded_iff`: The robust loss is bounded below in the multiplier exactly when the cheapest samples (`M i`, the least cost among the samples of data point `i`) have an average cost of at most `rho^p`. Otherwise it tends to minus infinity: there is no best multiplier.
* `C95_feasible_iff`: That same condition says whether there is any admissible adversary at all among the re-weightings of the samples.
* `C95_unbounded_witness`: The samples decide whether there is a best multiplier, and nothing checks that they allow one: with a radius of 1 and samples at a distance of at least 10, the robust loss takes values below any bound.

### C96 More samples bring the robust loss to the exact robust objective (proved)

Model: the robust loss on a sequence of random samples; the forward pass with the cost-based sampler, torch draws assumed independent standard normals, or independent standard Laplace variables for costs of order 1 and power 1. Proof: strong law of large numbers, transfer of laws to product measures. File: Props/Consistency.lean, Props/ConsistencyUnlabelled.lean, Props/LabelNoiseForward.lean, Props/LaplaceForward.lean, Props/LaplaceLabelNoise.lean.

* `C96_almost_sure`: Almost surely, the robust loss on `n` independent samples per data point tends to the robust objective with exact expectations, as the number of samples grows, as soon as those expectations are finite.
* `C96_in_probability`: The same in probability, when for each number `n` of samples the samples are drawn afresh: whatever the tolerance, the probability that the robust loss misses the exact objective by more tends to zero.
* `C96_forward`: Through the forward pass: with an unseeded sampler of a Euclidean or max-norm cost on the inputs, the value returned with `n` samples per point tends in probability to the robust objective with exact expectations under normal noise of the sampler's standard deviation.
* `C96_almost_sure_unlabelled`: Without labels, for a cost of any order and power: almost surely, the robust loss on `n` independent samples per data point tends to the robust objective with exact expectations.
* `C96_in_probability_unlabelled`: Without labels, in probability: whatever the tolerance, the probability that the robust loss on `n` fresh samples misses the exact objective by more tends to zero.
* `C96_forward_unlabelled`: Without labels, through the forward pass: with the unseeded sampler of a Euclidean or max-norm cost, the value returned with `n` samples per point tends in probability to the robust objective with exact expectations under normal noise.
* `C96_forward_label_noise`: Through the forward pass, with labels that move: with an unseeded sampler of a Euclidean or max-norm label cost of positive weight, the value returned with `n` samples per point tends in probability to the robust objective with exact expectations under normal noise on inputs and labels; the standard deviation of the labels is that of the inputs, divided by the weight when the power is 1.
* `C96_forward_unlabelled_laplace`: Without labels, through the forward pass: with the unseeded sampler of a 1-norm cost, the value returned with `n` samples per point tends in probability to the robust objective with exact expectations under Laplace noise.
* `C96_forward_laplace`: Through the forward pass: with an unseeded sampler of a 1-norm cost on the inputs, the value returned with `n` samples per point tends in probability to the robust objective with exact expectations under Laplace noise of the sampler's scale.
* `C96_forward_label_noise_laplace`: Through the forward pass, with labels that move: with an unseeded sampler of a 1-norm label cost of power 1 and positive weight, the value returned with `n` samples per point tends in probability to the robust objective with exact expectations under Laplace noise on inputs and labels; the scale of the label noise is that of the inputs divided by the weight.

### C97 Few samples underestimate the risk, never overestimate it (proved)

Model: the expectation of the robust loss over independent samples. Proof: Jensen inequality for the logarithm; leave-one-out averages. File: Props/ConsistencyUnlabelled.lean, Props/SampleBias.lean.

* `C97_underestimates_unlabelled`: Without labels: on average over the samples, the robust loss never exceeds the robust objective with exact expectations.
* `C97_more_samples_unlabelled`: Without labels: drawing more samples never lowers the robust loss on average.
* `C97_underestimates`: On average over the samples, the robust loss never exceeds the robust objective with exact expectations, however many samples are drawn.
* `C97_more_samples`: Drawing more samples never lowers the robust loss on average.

### C98 With enough samples the robust loss covers every adversary (proved)

Model: arbitrary laws of finite Kullback-Leibler divergence from the law of the samples. Proof: Donsker-Varadhan inequality, C96. File: Props/Adversary.lean, Props/ConsistencyUnlabelled.lean.

* `C98_covers_adversaries`: Almost surely, once enough samples are drawn the robust loss exceeds, up to any tolerance, the expected loss (penalised by the divergence) of any adversary: any law, absolutely continuous or not with respect to the drawn samples, that moves the data at an average cost of at most `rho^p` and has a finite divergence from the law of the samples.
* `C98_worst_case`: The bound is tight: the tilted laws meet it, up to the price of the cost they leave unspent; in particular when they spend exactly `rho^p` on average they are a worst case, and the robust loss converges to their penalised expected loss.
* `C98_covers_adversaries_unlabelled`: Without labels: almost surely, once enough samples are drawn the robust loss exceeds, up to any tolerance, the expected loss (penalised by the divergence) of any law that moves the data at an average cost of at most `rho^p`.
* `C98_worst_case_unlabelled`: Without labels the bound is tight: the tilted laws meet it, up to the price of the cost they leave unspent.

### C99 Importance sampling does not change the value being estimated (partial)

Model: the robust loss with importance sampling on a sequence of random samples; the forward pass with the unlabelled cost sampler. Proof: strong law of large numbers, change of variables by the displacement; with labels a witness where the two limits are 3/2 and 2. File: Props/ImpConsistency.lean, Props/ImpConsistencyLabels.lean.

* `C99_plain_limit`: Without importance sampling (no labels, squared Euclidean cost), the robust loss on `n` independent samples per data point tends almost surely to the robust objective with exact expectations.
* `C99_same_limit`: With importance sampling the robust loss tends to the same value: the limit is the robust objective with expectations under the law of the sampler, centred at the data, whatever the gradients and the multiplier.
* `C99_forward`: Through the forward pass: with the unseeded sampler of a Euclidean or max-norm cost, the value returned with `n` samples per point tends in probability to the robust objective with exact expectations under normal noise around the data, and this holds with importance sampling as well as without it.
* `C99_labelled_limit_partial`: With labels, the robust loss on `n` independent samples per point tends almost surely to the robust objective with expectations under the laws of the samples when importance sampling is off, but under the displaced laws when it is on. Partial: with importance sampling this is not the advertised objective (next theorem).
* `C99_labelled_false`: (violated with labels) With labels and importance sampling the robust loss estimates another value: `robustify` with the squared Euclidean cost on the inputs, loss `x^2 + x + y`, one data point, unit radius, noise and regularisation, at multiplier one. The same normal samples give `3/2`, the advertised objective, without importance sampling and `2` with it, whatever the random generators.

### C100 Training steps follow the gradient of the robust loss (proved)

Model: the loops of Model/Solve on the concrete losses (as C86); optimizer and autograd arbitrary. Proof: Hoare rules for the loops: gradients are cleared before each evaluation; the last action of the last step is traced to the result. File: Props/LastStep.lean.

* `C100_last_step`: Whatever the data, the radius, the mode and the number of iterations (at least one), training hands the optimizer, at each update that follows an evaluation, the gradient of the robust loss at the present parameters and multiplier alone, and returns what the last step wrote: any property `Q` of parameters and multiplier that a step establishes from such a gradient holds of the returned ones.
* `C100_gradient_descent`: With gradient descent, the coefficients returned are a step of length `lr` against the gradient of the robust loss at some module of the same shape, and (for a positive radius) the multiplier returned is the same step on the multiplier of this loss.

### C101 Training is the documented sequence of steps (proved)

Model: as C100, with optimizers keeping the number of parameters. Proof: each loop refines a relation between successive optimizer views; determinism of model and generator states. File: Props/Trajectory.lean.

* `C101_presampled`: Whatever the problem, the optimizer (updating parameters in place), the schedule and the optimality condition, a pre-sampled training that returns is the documented algorithm. From the initial parameters and multiplier: the pre-training steps, on the loss without robustness; the initial guess of the multiplier at the module reached; the reset of the optimizer's state for the multiplier, if it has one; then steps on the robust loss, each followed by the verdict of the condition, until it says stop, the loss is NaN or the iterations are over. All evaluations are at the present parameters and multiplier, on the samples drawn once at the start. The result is read at the end of the last iteration (the field `intercept` is always `0`: it does not contain the trained bias).
* `C101_postsampled`: The same for post-sampled training, except that each step resets the sampler and draws its own samples (the same ones at all steps if the sampler has a seed, C126), that the pre-training steps are already on the robust loss, and that the optimizer's state for the multiplier is not reset. (The loss reported is the one before the last step.)

### C102 Hyper-parameters are what the user set (partial)

Model: Model/Session: estimators and conditions as objects, programs as lists of operations on them, training arbitrary. Proof: invariant over programs; case analysis of each operation. File: Props/Session.lean, Props/SessionFits.lean.

* `C102_arguments_partial`: (partial: `opt_cond=None` is not kept, see `C102_none_false`) Whatever training does, and whatever a program does with this and any other estimator (constructions, fits that return or raise, clones, changes of parameters of others), the arguments `get_params` returns are those last set: same class, same values; the radius as a float of the same number; the same condition unless it was `None`.
* `C102_untouched`: An estimator that is neither fitted nor changed keeps its arguments exactly, `opt_cond=None` included.
* `C102_set`: `set_params` with arguments of the class returns the estimator; each argument given has the last value given for it, all others are as before.
* `C102_set_unknown`: An argument the class does not have is refused; the arguments given before it are set, the others not.
* `C102_none_false`: (false for `None`) An estimator given no condition has one after its first fit with torch, whether it returns or raises: `get_params` does not return the `None` that was set. The condition is a new object, keeping the memory of this training.
* `C102_empty`: `fit` on data without samples or without features raises, and leaves every object, condition and the generator as they were, radius included.

### C103 Estimators do not influence each other (partial)

Model: as C102; the five fits of Model/Fit with what they do to the memory of the condition and the generator (realFits). Proof: frame invariant over programs; for the violation a fit of one site is followed step by step with C101. File: Props/Session.lean, Props/SessionFits.lean.

* `C103_frame_partial`: (partial: when the condition is shared, see `C103_shared_false`) Whatever training does, an estimator whose optimality condition is its own is unaffected by anything a program does with others: its arguments, and the settings and memory of its condition, stay as they are.
* `C103_independent_partial`: (partial, likewise) So its fit has the same outcome whether or not others were constructed, cloned, changed and fitted before: the same result or the same exception. (For trainings that do not read torch's generator before seeding it.)
* `C103_sound`: In any program, estimators refer to conditions that exist: the hypothesis `Sound` of the theorems above holds after `import` and is kept by every operation.
* `C103_weber`: Weber fits do not depend on torch's generator: they meet the hypothesis `Seeded`.
* `C103_dedicated`: Nor do fits with the dedicated solvers, which draw nothing.
* `C103_trained`: What `fit` returns holds the module trained by the computation whose effects on the condition and the generator are recorded.
* `C103_shared_false`: (violated) The conditions given by default are shared by all estimators of a class, and remember: an estimator which, right after its construction, finds 2 in two steps, stops at 1 if another one was fitted on other data before.

### C104 Clones and refits are as good as new (partial)

Model: as C102; deepcopy as described in CondObj.copy. Proof: case analysis of clone; fits compared through C103; for the violations the same witness. File: Props/Refit.lean, Props/Session.lean, Props/SessionFits.lean.

* `C104_after_fit_false`: (violated) Once a condition on the motion of the parameters (built anew) was used by a fit, whatever the estimator, settings and data, no estimator using it can be cloned: the tensors it remembers are not copied by torch.
* `C104_clone`: A clone has the class and the arguments of the original; its condition is a new object, with the settings and the memory of the original's condition (`None` stays `None`), referred to by no other estimator. Nothing else changes.
* `C104_cloned_partial`: (partial: a used condition, see `C104_memory_false` and `C104_refused_false`) Cloning an estimator whose condition was not used yet succeeds whenever its arguments are accepted by the constructor.
* `C104_as_new_partial`: (partial, likewise) The clone of an estimator whose condition was not used yet is as good as new: its fit has the outcome of the fit of an estimator constructed anew with the same arguments and a new condition with the same settings.
* `C104_refused_false`: (false after a fit on motions) If the memory of the condition holds parameters, or a motion of the parameters or of the multiplier, the estimator cannot be cloned.
* `C104_memory_false`: (violated) A clone of a fitted estimator remembers its training, unlike one built anew from the same arguments: on the same data the former stops at 1, the latter finds 2.
* `C104_refit_false`: (violated) Nor is an estimator as new when fitted again: `fit` keeps what the condition remembers of the previous data.

### C105 Any number literal can be written in a cost code (partial)

Model: the scanner of `float()` literals used by both decoders, against an inductive grammar of literals (`Spec/Literals`). Proof: soundness and completeness of the scanner by induction on the derivation and on the scan. File: Props/Literals.lean.

* `C105_literals`: A string is read as a number exactly when it is a literal of the grammar (blanks, sign, digits with single underscores, point, exponent, or the words for the infinity and for "not a number"), with the value written; anything else raises `ValueError`.
* `C105_any_literal_false`: (negation of: every number literal may be written in a code) The literal `1e-3`, which python itself prints for small powers, cannot be used as the power of a cost code: both decoders raise `ValueError`.
* `C105_fields_partial`: (partial: literals without a minus sign) Any literals without a minus sign can be used for the power, the norm order and the label weight, and are read with the values they denote.

### C106 Only the documented cost codes are accepted (partial)

Model: `cost_from_str`, `parse_code_torch`, `cost_from_parse_torch`. Proof: both directions of the characterisation by inversion of the decoders, C105 for the fields. File: Props/Literals.lean.

* `C106_one_step`: The one-step decoder accepts exactly the codes `t-NC-power-norm…` and `t-NLC-power-norm…` whose numeric fields are literals, the fifth field being the label weight; it gives the cost these fields describe, named by the code.
* `C106_two_step`: The two-step decoder accepts exactly the codes `identifier-power-norm`, `t-identifier-power-norm` and `engine-identifier-power-norm-weight` (whatever the engine) whose numeric fields are literals, and gives the cost these fields describe.
* `C106_documented_false`: (negation of: only the documented formats are accepted) The one-step decoder accepts a label weight followed by anything at all, and both accept a label weight for a cost without labels, which then ignores it.

### C107 An optimality condition can be used for several fits (partial)

Model: sessions (Model/Session) with the five fits run by the loops of Model/Fit. Proof: invariant over sequences of fits: conditions on the motion of iterates remember iterates of the right size; for the violation, the memory after a returned training is traced to the first call of the next one. File: Props/OptCondFaults.lean, Props/Refit.lean, Props/Reuse.lean.

* `C107_single_number_false`: (violated) A condition on the motion of the parameters that was last used on a model with a single parameter does not raise on a model with any number of parameters: all of them are compared with that single number. If they are all equal to it the call reports convergence, at the first iteration of the new training, whatever the tolerance and the rest of the memory.
* `C107_to_single_number_false`: (violated) The other way round: on a model with a single parameter, whatever the parameters in memory, the call answers, comparing this parameter with all of those.
* `C107_after_error_false`: (violated) What the `RuntimeError` on a model of another size leaves behind. If the memory held two iterates, it is the same with the last iterate replaced by the parameters of the new model, so that the very same call made again does not raise: it reports convergence, although nothing has been trained. If it held only the first iterate, that one stays, and every later call on a model of the new size raises again.
* `C107_program_partial`: (partial: see `C107_refit_false` for conditions on the motion of the parameters) Whatever fits a program made before, of whatever estimators sharing their conditions or not, on whatever data, a fit returns a fitted estimator. Conditions on the motion of the iterates are used for one number of parameters each, and no condition looks at the gradient of the multiplier in a fit at radius zero.
* `C107_refit_false`: (violated) Whatever the estimators `a` and `b`, which may be the same one, their settings and their data: if they use one condition on the motion of the parameters (built anew) and have different numbers of parameters (more than one each), then after `a.fit` has returned, `b.fit` raises `RuntimeError`. In particular an estimator cannot be fitted again on data with other features.
* `C107_reuse_partial`: (partial: see `C107_other_size_false` for conditions on the motion of the parameters) A condition can serve any number of trainings, of whatever estimators, data and radii, one after the other: each of them returns. With a condition on the motion of the iterates the problems must have the same number of parameters. (At radius zero the condition must not look at the gradient of the multiplier, as in C86.)
* `C107_other_size_false`: (violated) A condition on the motion of the parameters cannot be used for a second problem with another number of parameters (more than one each): whatever the two problems, the estimators and the optimizer, the first training returns and the second raises `RuntimeError`, as the condition still remembers the parameters of the first.

### C108 Evaluating in minibatches gives the loss of the whole data (partial)

Model: `computeDual` on the whole tensors and on the tensors of each batch; batches given by a bijection from places in batches to points. Proof: the robust loss is an average over points (C29), sums over a bijection; for importance sampling a concrete pair of points. File: Props/Batches.lean.

* `C108_values`: The robust loss of the whole data is the average of the robust losses of its batches, weighted by their sizes, for the same multiplier and the same samples: however the points are shuffled and dealt to batches of whatever sizes. Here for any loss and cost values.
* `C108_labelled_partial`: End to end, for a wrapped labelled model and a decoded cost: every call returns, and the values satisfy the weighted average. Partial: without importance sampling (see `C108_importance_false`).
* `C108_equal_batches`: For batches of equal sizes the weights are equal: the robust loss of the whole data is the mean over the batches.
* `C108_zero_radius`: The same for the ordinary loss, evaluated when the radius is zero.
* `C108_importance_false`: (violated with importance sampling) A batch is displaced only if none of its points has a zero gradient, so that the value depends on which points share a batch: here the two points 0 and 1 together, and each on its own.

### C109 A larger radius asks for more robustness (partial)

Model: the dedicated programs and fits (Model/Dedicated), `computeDual` as a function of radius and multiplier. Proof: exchange of the two minimisers in objectives affine in the radius; concrete samples for the jump at radius zero. File: Props/Sweep.lean.

* `C109_linreg_program`: Dedicated linear regression for two radii `r1 < r2` on the same data: the larger radius gives coefficients of smaller or equal norm and a larger or equal training error, and the smallest worst-case error grows between `|w2|` and `|w1|` times the difference of the radii.
* `C109_linreg`: The same for two fits of the estimator with `solver="dedicated"`, equal but for the radius: both return, the larger radius stores coefficients of smaller or equal norm, and has the larger or equal training error.
* `C109_logistic_solver`: Dedicated logistic regression for two radii `r1 < r2`: the multiplier returned for the larger radius is smaller or equal, and the robust value grows at a rate between the two multipliers: the multiplier is the price of the radius.
* `C109_portfolio_solver`: The same for the dedicated portfolio solver.
* `C109_logistic`: Two fits of a binary logistic regression with `solver="dedicated"`, equal but for the radius: both return, and the dual variable stored for the larger radius is smaller or equal.
* `C109_portfolio`: Two fits of a portfolio with `solver="dedicated"`, equal but for the radius: both return, and the dual variable stored for the larger radius is smaller or equal.
* `C109_value`: Between two positive radii, at a given model, multiplier and samples, the robust loss grows by exactly the multiplier times the growth of `rho^p`; in particular a larger radius never gives a smaller robust loss.
* `C109_training_partial`: Exact training for two positive radii: if a model and a multiplier minimise the robust loss for each radius, over the same models (`D`, with losses `L` on the same samples) and all non-negative multipliers, then the multiplier of the larger radius is smaller or equal, and the optimal robust loss grows at a rate (in `rho^p`) between the two multipliers. Partial: positive radii (see `C109_zero_radius_false`).
* `C109_zero_radius_false`: (violated at radius 0) Passing from the radius 0 to a positive radius can lower the loss: radius 0 evaluates the data, a positive radius the samples alone, at the price of their cost. (Here already for the multiplier 1, hence for the best one.)

### C110 Learning rates follow the length of the training (partial)

Model: `CompositeOptimizer` with its two cosine schedulers (torch recursion for the rate, counters kept outside saved states), alone and inside the post-sampled loop. Proof: closed form of the recursion by induction; a counter invariant over the loop; for the violations, the rates of the multiplier after pre-training, of a resumed and of a reset optimizer are computed. File: Props/Schedules.lean.

* `C110_rates`: ("prodigy") Every number of steps with any gradients goes through, and the learning rates are the initial ones times the cosine annealing over all iterations for the model, over the robust iterations for the multiplier.
* `C110_mechanic`: ("mechanic") No schedule: the learning rates never change.
* `C110_fit`: (post-sampled fit with "prodigy") When a fit returns, wherever its stopping rule ended it, the learning rates are those of the cosine annealing after as many iterations as losses were returned.
* `C110_model`: The model's learning rate starts at its initial value, decreases at every iteration, stays positive until the last one and reaches zero exactly at the end of the `p + n` iterations.
* `C110_multiplier_false`: (violated, multiplier) The schedule of the multiplier, as long as the robust training, already runs during pre-training. A fit that made all its `p + n` iterations, `0 < p < n`, ends with a positive learning rate for the multiplier; the rate was already below its initial value when the robust training began, zero after `n - p` of its `n` iterations, and increased at all following ones.
* `C110_no_robust_false`: (violated) A schedule without robust iterations, `n_iter=(p, 0)`: no fit with "prodigy" ever returns, its first step raises (see C53_empty_schedule_false).
* `C110_restore_false`: (violated, saved states) A state saved before the last of the `p + n` iterations and loaded into a new optimizer built for the same schedule: the next step should bring the model's learning rate to zero, as it does in the optimizer that made the previous steps, but leaves it positive, because saved states do not hold the position in the schedule.
* `C110_reset_false`: (violated, reset) Resetting the multiplier's state after `p` iterations, `0 < p < n`, restores its initial learning rate but not its schedule: one step later the rate is below that of a schedule that starts over.

### C111 Small changes of the problem change the robust loss little (proved)

Model: `computeDual` without importance sampling. Proof: monotony and translation of the soft maximum; per-point decomposition of the average. File: Props/Stability.lean.

* `C111_loss`: Two losses that differ by at most `δ` on the samples have robust losses that differ by at most `δ`, whatever the radius, multiplier and regularisation.
* `C111_multiplier`: Changing the multiplier: if all the samples have a cost between `a` and `b`, increasing the multiplier by `δ` changes the robust loss by between `δ * (rho^p - b)` and `δ * (rho^p - a)`.
* `C111_radius`: Changing the radius: the robust loss moves by exactly the multiplier times the change of `rho^p`.
* `C111_one_point`: One data point more or less: replacing the data point `i₀` (its point, label and samples), where the penalised losses `loss - lam*cost` of the old and new samples lie within an interval of length `w`, moves the robust loss by at most `w / m`.

### C112 The choice of units does not matter (partial)

Model: `computeDual`, the ground costs, the default noise scale and regularisation (`expert_hyperparams`). Proof: homogeneity of the p-norms and of the soft maximum; for the violation, the default regularisation is computed for two radii and the soft maximum compared strictly. File: Props/Stability.lean.

* `C112_loss_units`: Units of the loss: measuring the loss in another unit (`c` times the loss), with the multiplier and the regularisation expressed in that unit, gives the robust loss in that unit.
* `C112_cost_units`: The ground costs are homogeneous: multiplying inputs and labels by `t > 0` multiplies the cost by `t^power`.
* `C112_data_units`: Units of the data: measuring inputs, labels and the radius in another unit (multiplying them, and the samples, by `t > 0`), with a model that gives the same losses in the new unit and the multiplier divided by `t^power`, leaves the robust loss unchanged.
* `C112_defaults_partial`: (partial: see `C112_default_false`) The default noise scale is in the unit of the data. The default regularisation is that of a loss independent of the unit of the data for costs of power 1 only: in general it is multiplied by `t^(p-1)`, up to its floor of `1e-7`.
* `C112_default_false`: (violated by the default regularisation) Same data, radius and model in a unit half as large, same loss, everything else left to its default: the robust loss is another function of the multiplier (here it is smaller, for every positive multiplier).

### C113 How many samples are enough can be computed beforehand (proved)

Model: `computeDual` and one forward pass of the post-sampled loss, samples being independent with a given law (`NormalContract`, `LaplaceContract` and their versions for labels that move, for torch). Proof: Hoeffding inequality for the bounded exponentials, logarithm of a relative error, union bound over the data points. File: Props/ConsistencyUnlabelled.lean, Props/LaplaceForward.lean, Props/SampleSize.lean, Props/SampleSizeNoise.lean.

* `C113_tail_unlabelled`: Without labels: with `B i` above the penalised losses of the samples of data point `i` and `q i` the mean of `exp((loss - lam*cost - B i)/eps)`, the probability that the robust loss on `n` samples misses the exact objective by `t` or more is at most the sum over the data points of `2 exp(-2 n (q i (1 - exp(-t/eps)))^2)`.
* `C113_enough_unlabelled`: Without labels, a number of samples that suffices: for a tolerance `t` and a probability of failure `δ`, with `σ` at most every `q i (1 - exp(-t/eps))`, any `n ≥ log(2 m / δ) / (2 σ^2)` will do.
* `C113_forward_unlabelled`: Without labels, through the forward pass: with at least `log(2 m / δ) / (2 σ^2)` samples per point the value returned is within `t` of the exact objective with probability at least `1 - δ`.
* `C113_forward_unlabelled_laplace`: Without labels, through the forward pass: with at least `log(2 m / δ) / (2 σ^2)` samples per point the value returned is within `t` of the exact objective with probability at least `1 - δ`.
* `C113_tail`: Let the penalised losses `loss - lam*cost` of the samples of data point `i` be at most `B i`, and `q i > 0` be the mean of `exp((loss - lam*cost - B i)/eps)`. With `n` independent samples per data point, the probability that the robust loss misses the exact objective by `t` or more is at most the sum over the data points of `2 exp(-2 n (q i (1 - exp(-t/eps)))^2)`.
* `C113_enough`: Hence a number of samples that suffices: for a tolerance `t` and a probability of failure `δ`, with `s` at most every `q i (1 - exp(-t/eps))`, any `n ≥ log(2 m / δ) / (2 s^2)` will do.
* `C113_forward`: The same for one forward pass of the post-sampled loss: from a random generator, with the sampler of a Euclidean or max-norm cost of standard deviation `sigma` and `n_samples ≥ log(2 m / δ) / (2 s^2)`, the value returned is within `t` of the exact objective with probability at least `1 - δ`.
* `C113_forward_laplace`: The same for one forward pass of the post-sampled loss: from a random generator, with the Laplace sampler of a 1-norm cost of scale `sigma` and `n_samples ≥ log(2 m / δ) / (2 s^2)`, the value returned is within `t` of the exact objective with probability at least `1 - δ`.
* `C113_forward_label_noise`: The same when labels move too: from a random generator, with the sampler of a Euclidean or max-norm label cost of standard deviation `sigma` and `n_samples ≥ log(2 m / δ) / (2 s^2)`, the value returned is within `t` of the exact objective with probability at least `1 - δ`.
* `C113_forward_label_noise_laplace`: The same when labels move too: from a random generator, with the Laplace sampler of a 1-norm label cost of scale `sigma` and `n_samples ≥ log(2 m / δ) / (2 s^2)`, the value returned is within `t` of the exact objective with probability at least `1 - δ`.

### C114 Hybrid optimizers are stepped like torch optimizers (partial)

Model: `HybridSGD.step(closure)`: pre-rules, then torch SGD calling the closure, then post-rules. Proof: what holds for groups without pre-rule by unfolding; for the violations, the values after a step computed for an arbitrary loss of one number. File: Props/Hybrid.lean.

* `C114_closure_partial`: (what holds) Groups without rule or kept non-negative: stepping with a closure is calling the closure, then stepping. (Missing: the other rules; the loss returned by the closure.)
* `C114_loss_false`: (violated) The value of the closure is never returned: an accepted step returns `None`, for all groups and losses.
* `C114_mwu_false`: (violated) Multiplicative weights: the closure sees the logarithms of the parameters. Stepping with a closure uses the derivative of the loss at `log x`; calling the closure and then stepping uses the derivative at `x`. For the loss `x^2 / 2` at one, the first does not move whatever the learning rate.
* `C114_max_false`: (violated) Maximisation: the closure sees the opposite of the parameters. For an even loss, such as `x^2 / 2`, stepping with a closure therefore descends where it should ascend.
* `C114_bound_false`: (violated) Clipping: the gradients present before the step are clipped, then the closure replaces them by new ones, which are followed unclipped; and without previous gradients the step is refused.
* `C114_switch_false`: (violated) Setting the key of a rule to `False` does not switch the rule off: for every optimizer, the step is the one of `True`; for multiplicative weights, non-positive values are refused.

### C115 Hybrid SGD converges on convex problems (proved)

Model: hybrid SGD on one tensor under a rule, any sequence of gradients. Proof: potential argument (relative entropy, squared distance) by induction over the steps, Hoeffding's lemma for weights, Jensen's inequality. File: Props/Regret.lean.

* `C115_simplex`: (simplex) Multiplicative weights on the simplex with SGD, from any positive weights: whatever the gradients, in `[a, b]`, that come at each step, after `T` steps the accumulated linear loss exceeds that of any fixed weights `q` by at most `log(1/p0)` averaged by `q`, over the learning rate, plus `lr * T * (b - a)^2 / 8`.
* `C115_simplex_convex`: (simplex, convex problem) The same for a problem `f` on the simplex with uniform first weights and the gradients of `f`: the average of the iterates is optimal up to `log n / (lr T) + lr (b - a)^2 / 8`. `f` is only asked to be convex on weights and to lie above its tangents there.
* `C115_descent`: (plain and non-negative parameters) SGD on a tensor without rule, or kept non-negative: whatever the gradients that come at each step, the accumulated linear loss exceeds that of any fixed `q` (non-negative in the second case) by at most `|p0 - q|^2 / (2 lr)` plus `lr / 2` times the accumulated squared norms of the gradients.

### C116 A call of fit that raises leaves the estimator as it was (partial)

Model: Model/Store: the attributes of an estimator, the assignments of each fit in order up to where it raises, and the methods reading what they find. Proof: Induction over the history for linear regression (`C116_linreg`) and for binary classifiers whose refused data have the same labels (`C116_logistic_partial`); the operations-research estimators keep coef_ and, outside torch solvers, eval. Violated: refused data with other labels relabel a classifier (`C116_relabel_false`), a refused single-class call breaks a multiclass one (`C116_multiclass_false`), a failed training is used for predictions or scores (`C116_untrained_false`, `C116_training_false`), and an estimator never fitted raises AttributeError instead of NotFittedError (`C116_unfitted_false`). File: Props/Store.lean.

* `C116_linreg`: C117 Linear regression: after any history of calls of `fit` — other data, other numbers of features, other settings, some raising — predictions are those of the last call that returned, whatever the calls that raised after it.
* `C116_unfitted_partial`: Linear regression none of whose fits returned: `predict` raises, `NotFittedError` when the data of every call was refused (see `C116_unfitted_false` for the other case).
* `C116_unfitted_false`: (violated) Once a call raised after its data was accepted (solver or cost refused, training failed), an estimator that was never fitted counts as fitted: `predict` raises `AttributeError` instead of `NotFittedError`.
* `C116_logistic_partial`: (partial: see the violations below) A fitted binary classifier whose later fits raise keeps all its predictions and probabilities, as long as the refused data have a single class, no sample, or the two classes it was fitted on.
* `C116_relabel_false`: (violated) When a later fit raises on data with two other labels — its solver or cost code is refused, its training fails — the classifier keeps its coefficients but takes the labels of the refused data: every sample is then classified with the old rule and the new labels.
* `C116_multiclass_false`: (violated) A classifier of more than two classes (and not as many as features) no longer predicts anything once `fit` was called with a single class: that call raises, and so does `predict` afterwards.
* `C116_untrained_false`: (violated) When training a classifier of more than two classes raises, `predict` afterwards classifies with the layer training left, whether the estimator had been fitted before or not.
* `C116_newsvendor_partial`: Newsvendor (partial: see `C116_training_false`): a call of `fit` that raises leaves `coef_`, and what `eval` computes with a solver whose name does not contain 'entropic'; if the call did not use a torch solver it leaves all of `eval`.
* `C116_portfolio_partial`: Portfolio (partial: see `C116_training_false`).
* `C116_weber_partial`: Weber point (partial: see `C116_training_false`).
* `C116_training_false`: (violated) When training a newsvendor raises, `coef_` keeps the order of the earlier fit but the score becomes that of the order training left: attributes and methods disagree.

### C117 What is read after a successful fit comes from that fit (partial)

Model: As C116. Proof: The attributes read by each method are all assigned by every successful fit (`C117_logistic`, `C117_linreg`, `C117_newsvendor`, `C117_portfolio`, `C117_weber`); outcomes do not depend on the store (`C117_outcome`, ...). Violated: robust_loss_ and intercept_ (`C117_stale_false`) and tau_ (`C117_stale_threshold_false`) of an earlier fit stay. File: Props/Store.lean, Props/StoreAttrs.lean.

* `C117_linreg_outcome`: Whether `LinearRegression.fit` raises, and what, does not depend on earlier calls.
* `C117_linreg`: Linear regression: after any history of calls of `fit`, a call that returns determines all predictions.
* `C117_logistic_outcome`: Whether `LogisticRegression.fit` raises, and what, does not depend on earlier calls.
* `C117_logistic`: Logistic regression: after any history of calls of `fit`, a call that returns determines all predictions and probabilities, as if it had been the first one.
* `C117_outcome`: Whether the other three estimators raise in `fit`, and what, does not depend on earlier calls.
* `C117_newsvendor`: After any history of calls of `fit`, a call that returns determines `coef_` and what `eval` computes with the same settings, as if it had been the first one.
* `C117_portfolio`: The same for the portfolio.
* `C117_weber`: The same for the Weber point.
* `C117_stale_false`: (violated) Fits with a dedicated solver do not assign `robust_loss_`, nor `intercept_` for the newsvendor and the portfolio: an estimator fitted with torch and then with the dedicated solver reports those of the earlier fit.
* `C117_stale_threshold_false`: (violated) A portfolio fitted with a torch solver keeps the threshold `tau_` of an earlier fit with the dedicated one.
* `C117_dedicated_linreg`: After any history of calls of `fit`, a call with the dedicated solver that returns has assigned its coefficients and its multiplier, the regressions their intercept, the classifier its classes, the portfolio its threshold: reading them gives those of this call.
* `C117_dedicated_logistic`
* `C117_dedicated_newsvendor`
* `C117_dedicated_portfolio`
* `C117_torch_linreg`: After any history of calls of `fit`, a call with a torch solver that returns has assigned `dual_var_` and `robust_loss_`, with the values training returned in this call.
* `C117_torch_logistic`
* `C117_torch_newsvendor`
* `C117_torch_portfolio`
* `C117_torch_weber`

### C118 An optimality condition that cannot be evaluated raises (proved)

Model: `OptCondTorch.__call__` with its memory (`Model/OptCond`), gradients optional. Proof: case analysis of the two checks and their combination, C44-C46 for the calls that answer. File: Props/OptCondFaults.lean.

* `C118_missing_gradient`: (missing gradient of a parameter) With the gradient metric, if one of the watched parameters has no gradient the call raises `ValueError`, whatever the memory and the iteration; the memory about the parameters is unchanged.
* `C118_missing_multiplier_gradient`: (missing gradient of the multiplier) The same for the multiplier, and the whole memory is unchanged.
* `C118_no_parameters`: (model without parameters) Watching the parameters of a model that has none raises, at every call and with both metrics: a `RuntimeError` when only the parameters are watched.
* `C118_unknown_metric`: (unknown metric) A metric that is neither `grad` nor `param` raises `ValueError` at every call, the memory unchanged, as soon as something is watched; otherwise the metric is not read.
* `C118_unknown_mode`: (unknown mode) A mode that is neither `rel` nor `abs` never makes a call stop before the budget, whatever the memory.
* `C118_unknown_mode_gradient`: (unknown mode) Watching the gradient of the parameters only, the mode is read from the second call on: the first call answers `false` and every later one raises `ValueError`.
* `C118_answers`: (otherwise it answers) With a documented setting, mode and metric, on a fresh condition, if what is watched can be measured at every call (gradients populated, a constant number of parameters), every call answers.

### C119 New data must have the features of the training data (partial)

Model: Model/Store (methods on the attributes left by a history of fits), Model/Estimators (npDot, LinMap.apply, meanDot), Model/Losses (Lin.apply). Proof: the attributes after a fit that returned have the sizes of its data (linregFit_ok, logisticFit_ok, portfolioFit_size), and products with other sizes are refused; the 0-dimensional coefficient of a single feature is the violation. File: Props/Features.lean.

* `C119_linreg`: Linear regression: after any history of calls of `fit`, data with another number of features than those of the last call that returned is refused by `predict`.
* `C119_predict`: Logistic regression: after any history of calls of `fit` the last of which returned, `predict` refuses data with another number of features, whatever the number of classes and the solver.
* `C119_proba_partial`: (partial: see `C119_single_feature_false`) Logistic regression: after any history of calls of `fit` the last of which returned, `predict_proba` refuses data with another number of features when the training data had several features, or more than two classes, or the solver was the dedicated one.
* `C119_single_feature_false`: (violated) A binary classifier trained on a single feature by an entropic solver, with an intercept, accepts data with any number `d'` of features: `predict_proba` returns an array of shape `(d', 2 N)`.
* `C119_portfolio`: Portfolio: after any history of calls of `fit` the last of which returned, `eval` refuses data with another number of assets.

### C120 Gradient descent reaches the robust optimum at a known rate (proved)

Model: Model/Fit, Model/Solve, Model/Dual, with torch.optim.SGD and an autograd that returns gradients (Spec/Descent: derivatives along lines). Proof: the trajectory of C101 step by step: descent lemma and telescoping sum; curvature of the log-sum-exp by Hoeffding's lemma, of the logistic loss by the same lemma on two points; planes and gradients identified by uniqueness of derivatives. File: Props/Convergence.lean.

* `C120_rate`: Pre-sampled training with gradient descent, on a robust loss `f` (of parameters and multiplier, on the samples drawn) which is convex with curvature at most `beta`, with a learning rate at most `1 / beta` and exact gradients. Whatever the schedule and the optimality condition, a training that returns is optimal up to a constant over the number of robust iterations; these start at the parameters reached by the pre-training steps and at the initial guess of the multiplier there.
* `C120_curvature`: (constants) The robust logistic loss on given samples is convex with a known curvature.
* `C120_logistic`: (logistic regression) Pre-sampled two-class logistic regression, trained by gradient descent with exact gradients from any initial layer `l0`, on any data: if all samples `z` with label `w` have `w ^ 2 (|z| ^ 2 + 1) ≤ B ^ 2` and a ground cost at most `K`, and if the learning rate is at most the inverse of `B ^ 2 / 4 + l2_reg + (B ^ 2 + K ^ 2) / epsilon`, then the training reaches the optimum of the robust logistic loss over all parameters and multipliers up to a constant over the number of robust iterations.
* `C120_small_rate`: (some learning rate works) For all data, settings and initial layers, and for the samples drawn, there is a positive learning rate below which gradient descent reaches the optimum in this sense.

### C121 A radius that is not a number is refused by the dedicated solvers (partial)

Model: Model/Estimators (linregAt, newsvendorAt: the comparisons with NaN; the convex programs of the logistic regression and the portfolio are assumed refused by cvxpy when their data holds NaN). Proof: evaluation of the fits; the newsvendor falls back silently on the sample-average program, whose solution is the non-robust optimum (C60). File: Props/NanRadius.lean.

* `C121_linreg`: A dedicated linear regression with a NaN radius raises `AssertionError` on every data set, whatever the external solver.
* `C121_programs`: A dedicated logistic regression with a NaN radius raises on every data set of two classes, and a dedicated portfolio on every data set.
* `C121_newsvendor_false`: (violated) A dedicated newsvendor with a NaN radius is fitted silently on every data set: with an exact external solver and non-negative prices it stores the order of least average cost on the sample, with no robustness at all.

### C122 The reference estimators answer from the last successful fit (partial)

Model: Model/Template (nnFit, nnPredict, nnRun, sqrtTransform, onesPredict; the euclidean distances and argmin on reals; check_array as the refusal of empty data). Proof: induction over the history of calls, first minimum of a finite list; the template estimator checks no number of features (proved negation). File: Props/Template.lean.

* `C122_nearest`: After any history of calls in which some fit returned, the classifier labels every point with the label of the first of the training points closest to it, in the last fit that returned; data with another number of features is refused; before any successful fit predictions raise `NotFittedError`.
* `C122_training`: Training points are given back their own labels, as soon as equal points have equal labels.
* `C122_not_fitted`: Calls before any fit, or after fits that raised only, raise `NotFittedError` (the third estimator on non-empty matrices: it checks the matrix first).
* `C122_transform`: The transformer fitted on `m` features refuses any other number of features, and otherwise returns the numbers whose squares are the data, and NaN exactly at negative entries.
* `C122_width_false`: (violated) Unlike the two others, the reference estimator checks no number of features: once fitted on any data it answers ones to matrices of every width.

### C123 Training on samples drawn at every step does almost as well as any fixed parameters on the same draws (proved)

Model: Model/Fit (solveTorch on the post-sampled path) with the gradient-descent optimizer of C120 and a backward pass assumed exact. Proof: C101 gives the iterations; induction over them with the convexity inequality; the slopes of the log-sum-exp are bounded by those of its terms; non-vacuity on all data with the default schedule. File: Props/OnlineRegret.lean.

* `C123_regret`: Post-sampled training with gradient descent, on a robust loss `F gen` (of parameters and multiplier, on the samples drawn by the generator in state `gen`) which is convex and of slope at most `L gen`, with any learning rate and exact gradients. Whatever the schedule and the optimality condition, a training that returns has met, on average, losses hardly above those of any fixed parameters and multiplier on the same draws. The robust phase starts at the parameters and the state of the generator reached by the pre-training steps and at the initial guess of the multiplier there.
* `C123_slope`: (constants) Without ridge penalty, the robust logistic loss on given samples has a slope at most `B` in the parameters and at most `rho ^ p + K` in the multiplier.
* `C123_logistic`: (logistic regression) Post-sampled two-class logistic regression without ridge penalty and with a cost for which importance sampling is off, trained by gradient descent with exact gradients and any learning rate from any initial layer, on any data. If all samples `z` with label `w` drawn in the state `gen` of the generator have `w ^ 2 (|z| ^ 2 + 1) ≤ (B gen) ^ 2` and a ground cost at most `K gen`, then the losses met are on average hardly above those of any fixed parameters.

### C124 The reported robust loss bounds the worst case of the trained parameters, which is nearly the smallest possible (partial)

Model: as C120, with a multiplier clipped at zero after each step (shown to be the step of HybridSGD with the rule non_neg). Proof: the optimality gap of C120 at the best multiplier of the comparison parameters, which strong duality (C95) bounds by the range of the losses over the slack, turned into the worst case by the Gibbs variational formula; divergence without slack by comparing with ever larger multipliers, witnessed with default settings on all data. File: Props/WorstCase.lean.

* `C124_worst_case`: The worst case over all the re-weightings of the samples of cost at most `rho ^ p`, for the parameters returned by gradient descent with a multiplier kept non-negative: it is at most the loss reported, and at most the worst case of any other parameters `q`, plus a constant over the number `k` of robust iterations. (`J` chooses samples leaving slack; without any there may be no admissible adversary, see `C124_diverges_false`.)
* `C124_logistic`: (logistic regression) Pre-sampled two-class logistic regression, trained with a small enough learning rate by gradient descent with exact gradients and a multiplier kept non-negative, from any initial layer, on any data: if some choice of one sample per data point leaves slack in the budget, the number reported bounds the worst case for the returned parameters, and this worst case is nearly the smallest possible.
* `C124_no_slack`: (without slack) If even the cheapest samples cost more than the budget, no adversary is admissible, and the number reported says nothing on a worst case: it goes below any bound `B` as the number of robust iterations grows (unless the optimality condition stops the training).
* `C124_hybrid_step`: (the optimizer) A step of `HybridSGD` with the rule `non_neg` on the group of the multiplier is a step of gradient descent keeping the multiplier non-negative.
* `C124_diverges_false`: (false) A worst case may not exist: default two-class logistic regression, pre-sampled, on any data, with a generator whose draws are all three. The samples are too far away for any re-weighting of them to be admissible (see `C124_no_slack`), and the longer the training (here without pre-training, and with an optimality condition that does not stop it), the lower the number it reports, below any bound.

### C125 Training on losses with kinks meets, on average, losses hardly above those of any fixed choice (proved)

Model: as C123, with a backward pass that gives subgradients instead of gradients. Proof: the per-sample planes below the loss, weighted by the softmax weights, give a plane below the robust loss (tangent inequality of the softmax); then the regret argument of C123, which only needs subgradients; witnessed by default settings of the news vendor on all demands and by a Weber problem on all locations. File: Props/OnlineRegret.lean, Props/Subgradient.lean.

* `C125_regret`: Post-sampled training with gradient descent, on a robust loss `F gen` (of parameters and multiplier, on the samples drawn by the generator in state `gen`) which need not have gradients, with any learning rate, when the backward pass gives subgradients of length at most `L gen`. Whatever the schedule and the optimality condition, a training that returns has met, on average, losses hardly above those of any fixed parameters and multiplier on the same draws. The robust phase starts at the parameters and the state of the generator reached by the pre-training steps and at the initial guess of the multiplier there.
* `C125_chain_rule`: (chain rule) If each per-sample loss has a plane of slope `a` below it, then their average with the softmax weights used by the backward pass is a subgradient of the robust loss.
* `C125_newsvendor_slope`: (news vendor) The derivative by the chain rule is a subgradient of the robust loss of the order, whatever is taken at the kinks.
* `C125_newsvendor`: (news vendor) Post-sampled training of an order by gradient descent with any learning rate, from any initial order, on any demands, with a price `u ≥ 0` and a cost for which importance sampling is off (such as the default), when the backward pass applies the chain rule. The losses met are on average hardly above those of any fixed order and multiplier on the same draws, if the ground costs of the samples drawn in the state `gen` of the generator are at most `K gen`.
* `C125_weber_slope`: (Weber) With non-negative weights, the derivative by the chain rule is a subgradient of the robust loss of the facility.
* `C125_weber`: (Weber) Post-sampled training of a facility by gradient descent with any learning rate, from any initial place, on any locations, without ridge penalty and with a cost for which importance sampling is off, when the backward pass applies the chain rule. The losses met are on average hardly above those of any fixed place and multiplier on the same draws, if the samples drawn in the state `gen` of the generator have weights between zero and `B gen` and ground costs at most `K gen`.

### C126 With a seed, the solver that should resample at every step trains on one fixed set of samples (proved)

Model: the post-sampled training loop with the reset of the sampler at each forward pass, as in C101. Proof: the sampler of a loss built by `dualize` is unchanged by a reset and the reset seeds the generator, so every forward pass draws from the same state; a simulation turns the run of C101 into a run on these samples; the rate follows as in C120, with the loss taken before the step; witnessed by logistic regression with the default schedule on all data. File: Props/Seeded.lean.

* `C126_fixed_samples`: Post-sampled training of a loss with a seed `k`, whatever the optimizer, the schedule and the optimality condition. Let `Z` be the samples drawn by its sampler from the generator just seeded with `k`. Every step of the training, in the pre-training and in the robust phase, is on these same samples: it is a training on the one robust loss of `Z`.
* `C126_unseeded`: (without a seed) Without a seed, a step of the post-sampled training draws its samples from the present state of the generator, and leaves it in the state after the draw; for a non-zero radius.
* `C126_rate`: (rate) So, with gradient descent on a loss which is convex with curvature at most `beta` and with a learning rate at most `1 / beta`, post-sampled training with a seed nears the optimum of the robust loss on the samples of this seed, at the rate of the inverse of the number of robust iterations, like pre-sampled training.
* `C126_logistic`: (logistic regression) Post-sampled two-class logistic regression with a cost for which importance sampling is off, trained by gradient descent with exact gradients from any initial layer, on any data: its estimator always has a seed, so that this is a descent of the robust logistic loss on the samples drawn after this seeding. With a learning rate below the inverse of `B ^ 2 / 4 + l2_reg + (B ^ 2 + K ^ 2) / epsilon` (where `w ^ 2 (|z| ^ 2 + 1) ≤ B ^ 2` for all samples `z` with label `w`, and `K` bounds the ground cost), the training nears the optimum of this loss.

### C127 Bounds on the returns given to a portfolio are respected or refused (partial)

Model: `Model/PortfolioArgs`: the whole fit with `C` and `d` as optional arrays of any size, `d` of shape `(J,)` or `(J, 1)` (numpy's broadcasting in the program included). Proof: violated: `C127_half_given_false` (one argument alone is ignored), `C127_torch_false` (the torch solvers ignore both), `C127_column_false` (bounds of shape `(J, 1)` are misread, concrete data where the stored weights are not the best). What holds: refusal of wrong sizes, optimality with the documented shapes (from C94), and the value found with a column still bounds the worst case. File: Props/PortfolioArgs.lean.

* `C127_half_given_false`: (violated) If only the matrix or only the vector is given, it is ignored without a word: for all data and settings, the outcome is that of an estimator built without constraints.
* `C127_torch_false`: (violated) The torch solvers ignore the constraints: for all data and settings and all constraints with the right number of columns, whatever their bounds, the outcome is that of an estimator built without constraints.
* `C127_columns_partial`: (partial: a missing argument is not refused, see `C127_half_given_false`) Constraints on another number of assets than the data are refused with a `ValueError`, whatever the solver, the bounds and the data.
* `C127_lengths_partial`: (partial: dedicated solver only) A number of bounds different from the number of constraints is refused with a `ValueError`.
* `C127_optimal_partial`: (partial: dedicated solver, both arguments given with the documented shapes) With bounds of the documented shapes and the dedicated solver, for all data inside the polytope the fit returns, and the stored weights and threshold have the smallest worst-case mean-CVaR loss over the laws of returns staying in the polytope `C x <= d` and within `rho` of the sample.
* `C127_column_partial`: (partial: not optimal, see `C127_column_false`) Bounds given as a column: if the fit returns, its weights are a portfolio and, with the stored threshold, the value of the program still bounds their expected loss under every law in the polytope and within `rho` of the sample.
* `C127_column_false`: (violated) Bounds given as a column, of shape `(2, 1)` instead of `(2,)`, are accepted and silently misread: on a sample inside the polytope the dedicated solver stores equal weights, as if there were no constraints, although some law in the polytope and the ball makes them lose `3/2` on average, while the weights stored for the bounds of shape `(2,)` lose at most `1` under all these laws.

### C128 Training on fresh samples is nearly optimal on average for the expected robust loss (proved)

Model: the whole torch training (`solveTorch`) with a post-sampled loss and no seed; the generator's state is random with a law such that what an evaluation draws is independent of the state it leaves (`FreshDraws`). Proof: each step is a measurable function of the parameters and the next draw (gradients of convex differentiable losses are measurable); independence of the draw and the past makes the expected loss decrease on average, and a last-iterate argument bounds the loss at the returned parameters. `C128_logistic` verifies the assumptions for logistic regression, `fresh_applies` for true normal draws. The estimators always give a seed (C126 is about them), so this is about users of `dualize_primal_loss`. File: Props/FreshLogistic.lean, Props/FreshSamples.lean.

* `C128_logistic`: (logistic regression) Two-class logistic regression with the post-sampled loss, without ridge penalty, without a seed and with a ground cost that is a norm (power one), trained from any layer by gradient descent with exact gradients and any learning rate, on any data. The evaluations draw independent samples `z` with labels `w`, for which `w ^ 2 (|z| ^ 2 + 1)` and the squared ground cost have finite expectations. On average, the returned layer and the loss reported are nearly optimal for the expected robust loss.
* `C128_expected`: Training with the post-sampled loss and without a seed, by gradient descent with exact gradients and any learning rate, for any schedule. The state of the generator is random, and the evaluations draw independent samples; `Phi a` is the loss of parameters and multiplier on the samples `a`, convex and with slopes at most `L a`. The optimality condition never stops the training. Then, on average over the states of the generator, the returned parameters and multiplier and the loss reported are nearly optimal for the expected loss: they exceed that of any fixed parameters and multiplier by what `NearOptimalOnAverage` says. The robust phase starts at the parameters reached by the pre-training steps and at the initial guess of the multiplier there.

### C129 Dedicated fits do not depend on how the data is presented (partial)

Model: the dedicated fits of Model/Estimators on two presentations of the same data; Spec/Presentation defines equal multiplicities and rotations. Proof: plans between the data and a law are pushed along the listing and lifted back by splitting over equal multiplicities, and pushed along isometries, so the Wasserstein balls correspond; then C94 on the presented data gives optimality on the original data; the news vendor sorts its samples, and the counterexample with a repeated demand is computed through the branches of the solver. File: Props/Presentation.lean, Props/PresentationFits.lean, Props/PresentationMore.lean.

* `C129_same_ball`: (shuffled or repeated samples) The laws within a given transport distance of the data are the same.
* `C129_linreg`: Linear regression with `solver="dedicated"`: fitting the samples in another order, all of them repeated equally often, and in another orthonormal system of coordinates, returns the coefficients, in these coordinates, of a model that is optimal for the original data (smallest worst-case RMSE when inputs move by a mean square of at most `rho^2`).
* `C129_logistic`: Logistic regression with `solver="dedicated"`: fitting the samples in another order, all of them repeated equally often, in another orthonormal system of coordinates, with other names for the two classes (`s = -1` if their order is exchanged), returns the coefficients, in these coordinates and for this order of the classes, of a model that is optimal for the original data.
* `C129_portfolio`: Portfolio with `solver="dedicated"`: fitting the returns in another order, all of them repeated equally often, with the assets in another order (in the columns of the data and of the constraints), returns the weights, in this order, of a portfolio that is optimal for the original data.
* `C129_newsvendor_order`: News vendor with `solver="dedicated"`: the order of the samples and of the columns has no influence at all on the outcome of the fit.
* `C129_newsvendor_repeated_false`: is false for the news vendor when the samples are repeated: with the demand 1 (prices 0.7 and 1, radius 0.4) the fit orders 1, but with the same demand given twice it orders nothing.

### C130 Rounding changes the robust loss little, however small the regularization (partial)

Model: Model/Rounding: each operation of the non importance-sampled branch of compute_dual, in sequence, returns any number within its relative accuracy; without rounding this is the value of computeDual (C130_exact). Proof: forward error analysis: sums by induction on the order of summation, exponentials of nonpositive numbers, logsumexp is 1-Lipschitz for the sup norm and the division by epsilon is compensated by the final multiplication; the single-precision logarithm of 2 is compared with rational bounds of log 2. File: Props/Rounding.lean.

* `C130_error`: (rounding) Whatever the way each operation rounds, with relative error at most `u` (and `v` for the logarithm of the number of samples), and whatever the order of the sums, the robust loss computed from the losses `L` and costs `C` of the samples is within `u * (5 lam rho^p + 44 m F + 19 m eps (log n + 1) + 12 n eps) + v eps log n` of the formula, `F` bounding losses plus penalties: the bound does not grow when `eps` goes to zero.
* `C130_exact`: Without rounding the sequence of operations gives the value of the model, and only this one.
* `C130_computed`: The robust loss returned by rounded operations is close to the exact one.
* `C130_double_false`: is false for double precision: the logarithm of the number of samples is computed in single precision. With two samples per point, even if all the other operations are exact, the value is off by at least `10^-9 eps`, whatever the data (the relative accuracy of double precision is about `10^-16`).

### C131 A radius that bypasses the constructor: refused by fit when negative, read when it is text (partial)

Model: the fits of Model/Session (solveTorch, the convex programs) and the programs of C102 to C104. Proof: an evaluation of the loss outside ERM mode raises at a negative radius (C31), and every path of the training loops that returns makes one; raising the multiplier improves any feasible point of the logistic and portfolio programs, so an exact solver returns none; C102 gives the arguments at the time of the later fit; the exception is computed for all non-negative demands. File: Props/LateRadius.lean.

* `C131_training`: Training with torch never succeeds at a negative radius, whatever the optimizer, schedule, optimality condition, module and data.
* `C131_fits`: With a convex solver that is exact, every fit at a negative radius raises, whatever the estimator, the other arguments, the data, the optimizer and the generator, except the dedicated news vendor.
* `C131_newsvendor_false`: The dedicated news vendor does not: at a negative radius, on two or more non-negative demands, its fit returns, with an order of zero.
* `C131_session_partial`: In any program, with an exact convex solver: `set_params(rho=v)` on an existing estimator returns, also when `v` is read by `float` as a negative number. From then on, as long as `set_params` is not called on it again, cloning the estimator raises, and so does fitting it on any data, whatever is done to other objects in between. Missing: the dedicated news vendor (`C131_newsvendor_false`).
* `C131_text_constructor`: A radius given as a text is refused by every constructor.
* `C131_text_set`: `set_params` accepts a text, whatever the fits: afterwards a fit does exactly what it does after setting the number written by the text, and raises on valid data, leaving everything as it was, if the text writes no number.

### C132 The radius from which a dedicated regression ignores the features can be computed from the data (proved)

Model: the fits of Model/Estimators with the convex programs of Model/SpecificSolvers. Proof: from the optimality of the stored model (C94): Cauchy-Schwarz bounds the root mean squared error from below by its tangent at zero coefficients, and the tangent of the logistic loss at zero bounds it likewise; below the critical radius an explicit small step along the average products is strictly better than zero coefficients. File: Props/Threshold.lean.

* `C132_linreg`: Linear regression with `solver="dedicated"`: let `c` be the mean target (zero if no intercept is fitted), and consider the vector of the average products of each feature with `y - c` (with an intercept, the covariances of the features with the target). If its Euclidean norm is less than `rho` times the root mean square of `y - c`, or if all targets are equal to `c`, the fit stores coefficients exactly zero, and the intercept `c`; if it is greater, the coefficients are not zero.
* `C132_logistic`: Binary logistic regression with `solver="dedicated"`, without intercept or with as many samples of each class: consider the vector of the average products of each feature with the label, read as `-1/2` for the first class and `1/2` for the second. If its Euclidean norm is less than `rho`, the fit stores coefficients and an intercept exactly zero: all predicted probabilities are one half. If it is greater, and no sample has a norm above 1000 (the price of a change of label), the coefficients are not zero.

### C133 The numeric class of the radius does not matter to the predictions of the classifier (partial)

Model: Model/Precision: the class check of fit, the precision of the radius tensor, and the predictions with the conversion of the data to that precision; torch and numpy conversion rules are assumed behaviour, stated there. Proof: for every class but numpy doubles the check leaves single precision and the predictions reduce to those of Model/Estimators; after any fit on more than two classes the fitted state holds the linear layer, which refuses data in double precision, while C64 gives the predictions of the same state at a python float. File: Props/Precision.lean.

* `C133_classes_partial`: (partial) Whatever its class, a radius that is not a numpy double has no effect on the predictions: a python number, a numpy integer, a numpy number in single precision or a text all give the same probabilities and the same labels, from every trained state and on all data.
* `C133_binary_partial`: (partial) With at most two classes no class of radius has any effect on the predictions.
* `C133_double_false`: (violated) With more than two classes, after a successful fit with a radius held as a numpy double, as in every grid made by numpy, `predict_proba` and `predict` raise `RuntimeError` on all data, whereas the same fit with the same radius held as a python float predicts.

### C134 The radius from which the dedicated portfolio is equally weighted can be computed from the data (proved)

Model: the convex program of Model/SpecificSolvers and the fit of Model/Estimators without bounds. Proof: by C63 and C94 the stored weights minimise the average loss plus rho (1 + eta/alpha) times the dual norm; weights whose largest exceeds 1/m by D change each return by at most (m-1) D times the spread, and the loss is (1 + eta/alpha)-Lipschitz in the return; for the converse, weights avoiding the worst asset do better below the threshold; for power two, Pythagoras around equal weights. File: Props/EqualWeights.lean.

* `C134_equal`: The dedicated portfolio with a cost of power one (as by default) and no bounds on the returns: as soon as the radius exceeds the number of assets minus one times the average over the samples of the gap between the best and the worst return, the weights stored are exactly equal, whatever the risk aversion and the level.
* `C134_sharp`: The radius above cannot be lowered: for any number of assets there are data for which no smaller radius gives equal weights.
* `C134_rate`: With a cost of power two the weights come near equality at a rate: their Euclidean distance to equal weights is at most twice the average over the samples of the norm of the returns, centred across assets, divided by the radius.

### C135 Errors in the data cost no more than their size (proved)

Model: the dedicated fits of Model/Estimators on two data sets; `dualize` on two inputs of the same shape with the same generator. Proof: triangle inequality for the transport plans of the balls around the two samples; the samplers draw the same noise around the two data sets, the cost is invariant by translation, and the soft maximum is 1-Lipschitz. File: Props/DataErrors.lean.

* `C135_linreg`: Linear regression with `solver="dedicated"` on inputs `X'` known up to an error of mean square `δ^2`, `δ <= rho`: the optimal worst-case error `V` of the data fitted bounds the error of the stored model on the exact inputs `X`, and on all the laws within `rho - δ` of them; and no model has a worst-case error below `V` on the laws within `rho + δ` of the exact inputs.
* `C135_logistic`: The same for binary logistic regression with `solver="dedicated"`, the error being the average displacement of the inputs plus 1000 times the proportion of wrong labels.
* `C135_portfolio`: The same for the portfolio with `solver="dedicated"`, the error being the average displacement of the returns for the norm of order `q`.
* `C135_sampled`: The sampled robust loss, without importance sampling: on inputs `X'` instead of `X` (rounded to single precision, for instance), all other arguments the same, the robust loss is built as well, and whatever the multiplier and the state of the generator, its value differs from the value on `X` by at most the average of the displacements of the inputs, times the Lipschitz constant `K` of the loss in the inputs at the labels drawn.
* `C135_sampled_unlabelled`: The same without labels, for a cost on inputs only.
* `C135_rounding`: inputs rounded with a relative error of at most `u` (`2^-24` in single precision, without underflow) move by at most `u` times their norm
* `C135_logistic_sampled`: Binary logistic regression with a torch solver and without importance sampling: rounding the inputs with a relative error of at most `u` changes the value handed to the optimizer by at most `u`, times the norm of the coefficients, the largest label drawn and the average norm of the inputs.
* `C135_portfolio_sampled`: The same for the portfolio with a cost on inputs only: at most `u (1 + eta / alpha)` times the average norm of the returns.

### C136 With more data, robust regressions and portfolios approach the robust solution for the law of the data (proved)

Model: the dedicated branch of `linregFit`, `logisticFit` and `portfolioFit` on the first points of a sequence of draws; the worst-case risks as suprema over laws given by couplings. Proof: law of large numbers on a dense set of models, common Lipschitz constants, boundedness of the minimisers, hence convergence of the optimal values; exact duality for an arbitrary law (Minkowski and an explicit move for the regression, labels changed above a level and a vanishing fraction moved far away for the classification and the portfolio). File: Props/MoreData.lean, Props/MoreDataFits.lean, Props/MoreDataPortfolio.lean.

* `C136_linreg`: Linear regression with `solver="dedicated"`, fitted on the first `n` points of a sequence of pairwise independent draws of a law with finite second moments: with probability one, as `n` grows, the worst-case error of the stored model when the inputs drawn from the law move by a mean square of at most `rho^2` converges to the best such error over all the linear models, and so does the worst-case error reached on the data.
* `C136_logistic`: Binary logistic regression with `solver="dedicated"`, fitted on the first `n` points of a sequence of pairwise independent draws of a law of inputs with finite means and labels `-1` or `1`, both having a positive probability: with probability one, for `n` large enough the fit returns, and as `n` grows, the worst-case loss of the stored model over the laws obtained by moving the inputs drawn and changing labels, at an average cost of at most `rho` where changing a label costs 1000, converges to the best such loss over all the linear models; so does the worst-case loss reached on the data.
* `C136_portfolio`: Portfolio with `solver="dedicated"`, a level `alpha` below one and no bounds on the returns, fitted on the first `n` points of a sequence of pairwise independent draws of a law of integrable returns: with probability one, as `n` grows, the worst-case mean-CVaR loss of the stored weights and threshold when the returns drawn from the law move by at most `rho` on average converges to the best such loss over all the weights and thresholds, and so does the worst-case loss reached on the data.

### C137 How far the dedicated newsvendor order can be from the best one (partial)

Model: the dedicated branch of `newsvendorFit`, with the search and the comparison of `newsvendorDedicated`. Proof: the quantity compared with zero by the solver differs from the exact criterion of C59 by at most one sample, that is by u / n per unit ordered; ordering nothing is then of least worst-case cost for the price k + u / n; law of large numbers for truncated demands; for average demands below the radius the search fails and the order of least average cost is positive. File: Props/NewsvendorRegret.lean.

* `C137_regret`: Newsvendor with `solver="dedicated"`, prices `k, u >= 0`, a non-negative radius and non-negative demands (the means of the rows). Whenever the demands other than the second largest sum to more than `n * rho`, the worst-case cost of the order stored by the fit exceeds that of any order `t` by at most `u * t / n`.
* `C137_large_radius_false`: (violated for large radii) Whenever the average demand is at most the radius and ordering is worthwhile without ambiguity (`k > 0` and `k * n` less than `u` times the number of positive demands), the order stored by the fit is positive and not of least worst-case cost: ordering nothing costs less in the worst case.
* `C137_more_data`: Demands drawn independently from a law of mean greater than the radius, prices `k > 0`, `u >= 0`: almost surely, for every `eps > 0`, the orders stored by the fits with `solver="dedicated"` on the first `n` demands are, for all large `n`, within `eps` of the least worst-case cost.

### C138 Dedicated regressions do not depend on the external solver (partial)

Model: the dedicated branches of `linregFit` and `logisticFit`, the external solver being any function that returns a minimiser. Proof: equality in the triangle inequality forces the residuals of two solutions to be proportional, and equal unless the data can be fitted exactly, then the coefficients to be equal; strict convexity of the logistic loss gives slack at the midpoint of two solutions that differ at a sample; a solver that prefers another solution whenever there is one gives the counterexample. File: Props/OneSolution.lean.

* `C138_linreg`: Linear regression with `solver="dedicated"` and a positive radius, on data that no allowed linear model (intercept zero if none is fitted) fits exactly: two fits with any two exact solvers, training settings and generators store the same coefficients and intercept.
* `C138_linreg_false`: (violated without this condition) For data fitted exactly by a linear model, two exact solvers may give different coefficients: with one sample `x = 1`, `y = 1`, a radius of 1 and no intercept, this happens.
* `C138_logistic`: Binary logistic regression with `solver="dedicated"` and a positive radius: two fits with any two exact solvers, training settings and generators give the same decision value `x . coef + intercept` at every sample of the data, hence the same probabilities and classes there; and the same coefficients and intercept, when no allowed affine function other than zero vanishes at all samples.

### C139 The guarantees of dedicated fits hold for the transport distance itself (partial)

Model: the dedicated branches of the four fits; the distance is the greatest lower bound of the average costs of the plans (`Verif.Spec.Distance`). Proof: a plan of cost a little above the radius, mixed with the plan that moves nothing, has cost at most the radius; the expected loss of the mixture is the mixture of the expected losses, and its bound passes to the limit; the results on plans (C94) are then transferred. File: Props/Distance.lean.

* `C139_linreg`: Linear regression with `solver="dedicated"`: the stored coefficients have the smallest worst-case error over the laws at a distance of at most `rho`, whether or not a plan attains the distance.
* `C139_logistic`: The same for two-class logistic regression.
* `C139_portfolio`: The same for portfolio choice.
* `C139_newsvendor_partial`: (partial) The newsvendor with `solver="dedicated"`: the stored order has the least worst-case cost over the laws of demands at a distance of at most `rho` exactly in the cases listed. Missing: the remaining cases, where it has not (`C139_newsvendor_false`).
* `C139_newsvendor_false`: (violated) The remaining cases occur: as soon as the average demand is at most the radius and ordering is worthwhile without ambiguity, the stored order has not the least worst-case cost.

### C140 Losses with several values per sample are made robust column by column (proved)

Model: `computeDual`, `integrand`, `finishDual`, `ermBranch` and `reduceLossBatch` on tensors of any width. Proof: broadcasting of the column of costs, then log-sum-exp and mean by exchange of sums; the bound follows from the variational formula of the log-sum-exp. File: Props/WideLoss.lean.

* `C140_mean`: A loss that gives `k` values per sample, without importance sampling: the robust loss is the mean over the `k` columns of the robust losses of the columns.
* `C140_none`: Without reduction, and with more (or less) than one value per sample, it is the whole table: one robust loss for each data point and column.
* `C140_erm`: With a radius of zero, or in ERM mode, it is the mean of all values, or all of them without reduction.
* `C140_bound`: So it bounds the robust loss of the mean of the columns from above.

### C141 At small temperatures the robust loss approaches the objective without regularisation (proved)

Model: `postForward` with the cost-based sampler and a generator of independent normals or Laplace variables, as for C96. Proof: the law of large numbers of C96 at each temperature, and Laplace's principle: the noise charges every open set, so the log-integral tends to the supremum. File: Props/LaplaceWorstCase.lean, Props/SmallTemperature.lean, Props/SmallTemperatureUnlabelled.lean.

* `C141_limit_unlabelled_laplace`: With Laplace noise and without labels, for every order and power of the transport cost: the robust loss tends to the objective without regularisation.
* `C141_covers_unlabelled_laplace`: With Laplace noise, at small temperatures and with many samples the robust loss covers, up to any precision, the expected loss under every distribution within transport distance `rho` of the data, with a probability that tends to one.
* `C141_limit_laplace`: With Laplace noise. Post-sampled evaluation with the unseeded sampler of a 1-norm cost on the inputs, when the loss minus `lam` times the cost is continuous and bounded above in the inputs, with supremum `S i` at data point `i`: for every precision there is a temperature below which the robust loss with `n` samples is that close, with a probability that tends to one, to the objective without regularisation `lam * rho^p + (1/m) sum_i S i`.
* `C141_covers_laplace`: With Laplace noise, at small temperatures the robust loss covers, up to any precision, all the plans that move the inputs at an average cost of at most `rho^p`, with a probability that tends to one: no regularity of the plans is needed.
* `C141_limit`: Post-sampled evaluation with the unseeded sampler of a Euclidean or max-norm cost on the inputs, when the loss minus `lam` times the cost is continuous and bounded above in the inputs, with supremum `S i` at data point `i`: for every precision there is a temperature below which the robust loss with `n` samples is that close, with a probability that tends to one, to the objective without regularisation `lam * rho^p + (1/m) sum_i S i`.
* `C141_unbounded`: If it is unbounded above at some data point (a multiplier too small for the growth of the loss), while the robust loss is defined at all temperatures, the robust loss exceeds any number at small temperatures with many samples.
* `C141_covers`: So at small temperatures the robust loss covers, up to any precision, all the plans that move the inputs at an average cost of at most `rho^p`, with a probability that tends to one: no regularity of the plans is needed.
* `C141_limit_unlabelled`: Without labels, for every order and power of the transport cost: the same limit.
* `C141_covers_unlabelled`: So at small temperatures and with many samples the robust loss covers, up to any precision, the expected loss under every distribution within transport distance `rho` of the data, with a probability that tends to one.

### C142 The option for losses that reduce their spatial dimensions must match the loss (proved)

Model: `WLoss.value` with `reduceFlat` and `view`, and `computeDual`. Proof: the sizes that `view` compares differ; the error goes through both branches of the robust loss. File: Props/SpatialOption.lean.

* `C142_default_refused`: A loss that gives one number per sample, wrapped with the default option, is refused on every batch of samples that does not consist of a single sample.
* `C142_default_refused_unlabelled`: Without labels.
* `C142_option_refused`: A loss that gives several numbers per sample (or none), wrapped with the option for losses that give one, is refused on every non-empty batch of samples.
* `C142_option_refused_unlabelled`: Without labels.
* `C142_default_averages`: On a plain table of data the first mistake goes unnoticed: the result has one entry, the average loss of the table.
* `C142_robust_default`: So the robust loss of a loss that gives one number per sample, wrapped with the default option, is refused for all data sets with at least two points, whatever the radius, the mode and the number of samples.
* `C142_robust_option`: And that of a loss that gives several, wrapped with the option, for all non-empty data sets and numbers of samples.

### C143 At the best multiplier the robust loss is the worst case over the transport ball (proved)

Model: `postForward` as for C96 and C141; the ball is `InBall`, the plans `PlanLosses`. Proof: strong duality of transport proved from scratch (the worst case is a concave function of the budget, its slope at `rho^p` is the multiplier), then C141 at that multiplier; weak duality for the others. File: Props/BallWorstCase.lean, Props/LaplaceWorstCase.lean.

* `C143_worst_case`: A continuous loss without labels that grows no faster than the transport cost: the expected losses under the distributions within transport distance `rho` of the data have a least upper bound `V`, the worst case. For some multiplier `lam` the robust loss comes as close to `V` as one likes, at small temperatures and with a probability that tends to one as the number of samples grows; for no multiplier that keeps the objective finite does it fall below `V` by a fixed amount.
* `C143_worst_case_labelled`: With labels and a plain cost: the worst case is that of the plans that move the inputs and keep every label with its data point.
* `C143_worst_case_laplace`: With Laplace noise. A continuous loss without labels that grows no faster than the transport cost: the expected losses under the distributions within transport distance `rho` of the data have a least upper bound `V`, the worst case. For some multiplier `lam` the robust loss comes as close to `V` as one likes, at small temperatures and with a probability that tends to one as the number of samples grows; for no multiplier that keeps the objective finite does it fall below `V` by a fixed amount.
* `C143_worst_case_labelled_laplace`: With Laplace noise, labels and a plain cost: the worst case is that of the plans that move the inputs and keep every label with its data point.

### C144 The dedicated portfolio has one solution when the cost has power two or more (partial)

Model: the dedicated branch of `portfolioFit`, the external solver being any function that returns a minimiser. Proof: without bounds on the returns the program is the average risk plus the radius times the dual norm of the weights (C63); norms of finite order above one are strictly convex on non-negative directions, and two weight vectors with the same direction are equal; for the default cost the value of a program is computed and an exact solver that returns a chosen solution is built. File: Props/OnePortfolio.lean.

* `C144_one_portfolio`: With a cost of power two or more, a positive radius and no bounds on the returns, the dedicated portfolio has one solution: the weights stored do not depend on the external solver, as long as it is exact, nor on the state of the random generator.
* `C144_one_portfolio_false`: With the default cost, of power one, this fails: with a radius equal to the gap between the returns of two assets, every split of the wealth that favours the better one is a solution, and exact solvers may store any of them.

### C145 At the best multiplier the robust loss is the worst case over the regularised adversaries (proved)

Model: `postForward` with an unseeded sampler under the contract of normal draws (of inputs, or of inputs and labels for label costs), the exact objective `population` of C96 and the adversaries of C98. Proof: strong duality from scratch: the divergence is convex under mixtures, so that the largest penalised loss is a concave function of the budget, which has a slope at the given budget; tilted laws of the exponent cut at growing levels are adversaries, whose values increase to the exact objective at this multiplier; conditioning the noise on a neighbourhood of the data gives adversaries of small budget; every power of a norm has a finite mean under normal noise; losses without labels are reduced to labelled ones, the divergence not growing when labels are dropped; then C96. File: Props/RegularisedLabelNoise.lean, Props/RegularisedLaplace.lean, Props/RegularisedWorstCase.lean, Props/RegularisedWorstCaseUnlabelled.lean.

* `C145_worst_case_label_noise`: A labelled loss with a label cost of positive weight and normal noise, on inputs and labels, under which it is integrable: the expected losses of the adversaries that spend at most `rho^p` on average, penalised by `epsilon` times their divergence from the noise, have a least upper bound `V`. For some multiplier the robust loss tends to `V` in probability as the number of samples grows; for no multiplier that keeps the objective finite does it fall below `V` by a fixed amount.
* `C145_worst_case_unlabelled_laplace`: With Laplace noise and without labels, for every order and power of the transport cost: the same least upper bound, met by some multiplier and never undercut.
* `C145_worst_case_laplace`: A labelled loss with a plain cost and Laplace noise under which it is integrable: the expected losses of the adversaries that spend at most `rho^p` on average, penalised by `epsilon` times their divergence from the noise, have a least upper bound `V`. For some multiplier the robust loss tends to `V` in probability as the number of samples grows; for no multiplier that keeps the objective finite does it fall below `V` by a fixed amount.
* `C145_worst_case_label_noise_laplace`: A labelled loss with a label cost of positive weight and Laplace noise, on inputs and labels, under which it is integrable: the expected losses of the adversaries that spend at most `rho^p` on average, penalised by `epsilon` times their divergence from the noise, have a least upper bound `V`. For some multiplier the robust loss tends to `V` in probability as the number of samples grows; for no multiplier that keeps the objective finite does it fall below `V` by a fixed amount.
* `C145_worst_case`: A labelled loss with a plain cost and normal noise under which it is integrable: the expected losses of the adversaries that spend at most `rho^p` on average, penalised by `epsilon` times their divergence from the noise, have a least upper bound `V`. For some multiplier the robust loss tends to `V` in probability as the number of samples grows; for no multiplier that keeps the objective finite does it fall below `V` by a fixed amount.
* `C145_worst_case_unlabelled`: Without labels, for every order and power of the transport cost: the same least upper bound, met by some multiplier and never undercut.

### C146 At small temperatures no multiplier understates the worst case, and at any temperature some multiplier does not overstate it (proved)

Model: `postForward` with an unseeded sampler under the contract of normal or of Laplace draws, the exact objective of C96 and the transport balls of C139. Proof: at every temperature the log-integral is below the supremum of the exponent, so that the multiplier of C143 overstates nothing; for large multipliers the noise near the data alone gives the bound, the other multipliers form a compact set on which finitely many choices of destinations suffice, the noise near each of them having a positive probability; then C96. File: Props/LaplaceWorstCase.lean, Props/UniformWorstCase.lean.

* `C146_uniform_laplace`: With Laplace noise. A continuous loss without labels that grows no faster than the transport cost, `V` being its worst expected value within transport distance `rho` of the data. One multiplier makes the robust loss at most `V`, up to any margin, at every temperature; and below some temperature, no multiplier at all that keeps the objective finite makes it smaller than `V` by the given margin: with a probability that tends to one as the number of samples grows.
* `C146_uniform_labelled_laplace`: With Laplace noise, labels and a plain cost: no multiplier understates the worst case at small temperatures, for the plans that move the inputs and keep every label with its data point.
* `C146_uniform`: A continuous loss without labels that grows no faster than the transport cost, `V` being its worst expected value within transport distance `rho` of the data. One multiplier makes the robust loss at most `V`, up to any margin, at every temperature; and below some temperature, no multiplier at all that keeps the objective finite makes it smaller than `V` by the given margin: with a probability that tends to one as the number of samples grows.
* `C146_uniform_labelled`: With labels and a plain cost: the same, for the plans that move the inputs and keep every label with its data point.

### C147 With a label cost, the robust loss is the worst case over perturbed inputs and labels (proved)

Model: `postForward` with the unseeded sampler of a label cost, whose draws of inputs and labels are assumed independent standard normals (`NormalContract2`, exhibited by `twoBank_contract`), or independent Laplace variables for a 1-norm cost (`LaplaceContract2`, exhibited by `twoLap_contract`); the ball is `InBall` on labelled points. Proof: law of large numbers of C96 for the joint noise of inputs and labels, strong duality of transport as in C143, and the bound uniform in the multiplier of C146. File: Props/LabelNoiseForward.lean, Props/LaplaceLabelNoise.lean.

* `C147_worst_case`: A loss that is continuous in the input and the label and grows no faster than a label cost of positive weight: the expected losses under the distributions of labelled points within transport distance `rho` of the data have a least upper bound `V`. One multiplier makes the robust loss at most `V`, up to any margin, at every temperature, and close to `V` at small temperatures; and below some temperature, no multiplier at all that keeps the objective finite makes it smaller than `V` by a given margin: with a probability that tends to one as the number of samples grows.
* `C147_worst_case_laplace`: With the Laplace sampler of a 1-norm label cost, a loss that is continuous in the input and the label and grows no faster than a label cost of positive weight: the expected losses under the distributions of labelled points within transport distance `rho` of the data have a least upper bound `V`. One multiplier makes the robust loss at most `V`, up to any margin, at every temperature, and close to `V` at small temperatures; and below some temperature, no multiplier at all that keeps the objective finite makes it smaller than `V` by a given margin: with a probability that tends to one as the number of samples grows.

### C148 The generic statistical radius tuner estimates the covariance of the per-sample gradients (partial)

Model: the gradient buffer that torch adds to in place, the table that aliases it until the first vstack, the covariance and the noise law (Model/TunerGradients; the gradients are inputs, Portfolio is not modelled). Proof: violated: the rows are partial sums, by induction on the samples (`C148_rows_partial`), hence differ from the gradients whenever the first is not zero (`C148_rows_false`); with two samples the covariance computed is zero whatever the data and the one-parameter tuner stops with a ValueError (`C148_two_samples_false`); with equal gradients it is positive though the true one is zero (`C148_constant_false`); and with one parameter the variance is used as standard deviation (`C148_scale_false`). With several parameters the matrix is positive definite whatever the samples (`C148_cov_partial`). File: Props/TunerGradients.lean.

* `C148_rows_partial`: (partial: what is computed) Row `i` of the table is the sum of the gradients of the samples `0` to `i`, and of the first two samples for `i = 0`; the table has one row per sample. With one sample the row is its gradient.
* `C148_rows_false`: is false: with two samples or more, the table is not the table of the gradients as soon as the first gradient is not zero.
* `C148_two_samples_false`: is false for two samples: whatever the two gradients, the covariance computed is zero; that of the gradients themselves is half the product of their differences. With one parameter the tuner stops with a ValueError; otherwise the noise has covariance `1e-4` times the identity whatever the data.
* `C148_constant_false`: is false for samples that all have the same gradient `g`: with three samples or more the variance computed for a parameter is positive whenever its gradient is not zero, although that of the gradients is zero.
* `C148_cov_partial`: (partial: what is drawn) With several parameters the noise has the covariance of the table (with `n - 1` in the denominator) off the diagonal, one common number of at least `1e-4` is added on the diagonal, exactly `1e-4` if the least eigenvalue is not negative, and the result is positive definite whatever the samples. `minEig M` is only assumed to be a lower bound of the quadratic form of `M`.
* `C148_scale_false`: is false for one parameter: the number used as standard deviation is the variance, which agree only when the variance is 1.

## Where the code violates a property

Each item is a theorem about the unchanged code, with a concrete witness or for all inputs of a class.

* C13, `C13_switch_probability_false`: `p` is not the probability of a switch: there is a setting meeting torch's contract in which, with `p = 1/4`, a label is switched with probability `3/4`.
* C15, `C15_fresh_noise_false`: Fresh noise fails for the default seeded samplers: two successive evaluations draw the same noise, although the stream has moved on (the second segment of the stream is different).
* C16, `C16_zero_weight_false`: is false for the label weight 0: finite non-zero gradients and a positive multiplier displace the labels to infinity, where no difference is left to keep.
* C17, `C17_zero_weight_false`: is false for the label weight 0 (accepted by the cost constructor, e.g. code `t-NLC-2-2-0`): finite non-zero gradients and a positive multiplier give a label that is not finite, and the robust loss is NaN.
* C18, `C18_zero_gradient_false`: fails when a single point of the batch has a vanishing gradient: the other points are not displaced, although moving them would be a better attack.
* C18, `C18_threshold_false`: fails for a gradient longer than the threshold `10^10`: the displacement is cut.
* C20, `C20_labelled_weights_false`: is false: for the default labelled setting (squared costs, normal samplers for inputs and labels, label weight 1) a displacement does take place, the correction is nevertheless 0, and the density-ratio identity fails.
* C23, `C23_flat_batch_false`: is false: on a flat labelled batch `(m,d)`, `(m,k)` the value returned is a single number (the average), not one loss per sample, as soon as the user loss returns `(m,1)`. Witness: squared error, two samples.
* C28, `C28_unlabelled_false`: `NewsVendorLoss_torch` refuses unlabelled demand: every evaluation without labels fails.
* C30, `C30_stored_samples_false`: fails on the pre-sampled loss when it reuses stored samples: the batch axis is not removed before the reduction, and every such evaluation stops with an assertion error.
* C31, `C31_erm_mode_false`: fails in ERM mode (the mode in which pre-training is run): the pre-sampled loss accepts the radius -1 and returns a number.
* C37, `C37_sum_false`: fails for the sum reduction: two data points, one sample each.
* C38, `C38_zero_radius_false`: With radius 0 and a loss returning one value per point, as for every wrapped model, an evaluation without samples fails with an AssertionError after samples were provided, although the evaluation with these samples succeeds.
* C39, `C39_eval_false`: `eval()` never puts the loss in ERM mode, after any history.
* C39, `C39_train_true_false`: `train(True)` always puts the loss in ERM mode, after any history.
* C39, `C39_train_flag_false`: `train()` turns torch's training flag off, after any history.
* C39, `C39_eval_value_false`: after `eval()` the loss still evaluates to its robust value: the flag read by the evaluation is the one of a freshly built loss.
* C40, `C40_unfreezes_false`: One importance-sampled evaluation, or one initialisation of the multiplier, of a positive radius: every parameter the user froze becomes trainable, and a model in evaluation mode ends in training mode.
* C40, `C40_failure_freezes_false`: If differentiating the user's loss raises, all parameters and the multiplier are left frozen and the model is left in evaluation mode.
* C46, `C46_relative_false`: Monitoring the motion of lambda relatively never stops, whatever the trajectory of lambda: even if it is constant.
* C46, `C46_absolute_false`: Monitoring the motion of lambda absolutely stops exactly from the third call on, whatever the trajectory of lambda: even if it moves arbitrarily far.
* C47, `C47_shared_false`: A condition with the default settings (gradient metric, relative, monitoring theta) shared by two fits, as the default argument of the estimators is: after a first fit of at least one iteration whose first gradient had norm `n0`, the second fit is compared to `n0` from its very first iteration, so that it stops there when its first gradient is below `tol * n0`, whereas a fit with its own condition never stops at its first iteration.
* C49, `C49_postsampled_false`: No evaluation is ever the ordinary loss, pre-training included: with a positive number of pre-training steps, a completed fit evaluates the robust loss before the multiplier is initialised.
* C51, `C51_empty_false`: A schedule without training iterations: pre-sampled solving fails with an IndexError, after having pre-trained; so does post-sampled solving when there is no pre-training either.
* C53, `C53_empty_schedule_false`: Without robust iterations (`n_iter=(pre, 0)`, "prodigy"), the schedule of the multiplier is empty: every step raises a ZeroDivisionError, after the parameters were updated and before the multiplier is projected.
* C53, `C53_adamw_false`: `adapt=None`, post-sampled, default learning rate 5e-2: for every radius `rho >= 1`, from the multiplier set by the constructor (`1e-3 / rho`), one step on a gradient `rho` (the gradient of the dual in lambda when all samples sit on the data) makes the multiplier negative, and nothing projects it back.
* C53, `C53_lbfgs_false`: Pre-sampled, default learning rate 1: the same, when only the multiplier has a gradient.
* C54, `C54_groups_false`: Given the generator `module.parameters()`, as the constructor of the post-sampled loss does, the composite optimizer itself only knows the multiplier, although its inner optimizer trains all parameters: none of the parameters is visible in its groups.
* C56, `C56_second_tensor_false`: Within one group too: whatever the inner optimizer, if the second of two multiplicative tensors holds a value that is not positive, the first one has been replaced by its logarithm.
* C56, `C56_second_group_false`: Whatever the inner optimizer, stepping two multiplicative groups the second of which holds a non-positive value is refused, but the first group has been replaced by its logarithm.
* C56, `C56_conflict_false`: A group marked both `mwu` and `non_neg` is refused *after* the inner step: its values are left in logarithmic scale and already updated. With SGD, for all positive values and all gradients.
* C56, `C56_missing_gradient_false`: Whatever the inner optimizer, with a multiplicative group followed by one whose gradients are to be clipped but of which one tensor has no gradient yet: the step is refused with an `AttributeError`, and the first group has been replaced by its logarithm.
* C59, `C59_zero_false`: is false: with radius 0 on the demands 1 and 100 (prices 5 and 7) the solver answers 0, whose worst-case cost 0 is beaten by ordering 1, which costs -2 under the only distribution of the ball.
* C59, `C59_large_radius_false`: is false in a second way: with one demand of 10 and radius 100 the solver orders 10, whose worst-case cost is at least 50, while ordering nothing costs 0 whatever happens.
* C61, `C61_zero_radius_false`: Zero (or negative) radii, which the estimator accepts, are refused.
* C65, `C65_no_intercept_false`: Without an intercept, after a fit with the torch solver on two classes, `predict_proba` raises `TypeError` on every data set.
* C65, `C65_dimension_one_false`: In dimension one, after a fit with the torch solver on two classes with an intercept, `predict_proba` returns a single row of `2 N` numbers instead of `N` rows of two.
* C65, `C65_multiclass_false`: With more than two classes `predict_proba` returns the raw affine scores, not probabilities: for a model without intercept the row of the origin is made of zeros, for every fit.
* C66, `C66_portfolio_false`: `Portfolio` does the opposite: '_pre' post-samples and '_post' pre-samples.
* C66, `C66_bare_name_false`: The bare name 'entropic_torch' does not mean the same thing everywhere: it pre-samples for `NewsVendor`, post-samples for the others.
* C66, `C66_unknown_false`: Unknown names are not all refused: whatever surrounds it, 'torch' is accepted, and a trailing 'post' that is not the documented name is read as pre-sampling by every estimator.
* C67, `C67_weber_trained_false`: A Weber estimator with default arguments fits all data through the actual training loops, but can never be scored.
* C67, `C67_newsvendor_false`: A newsvendor with default arguments can never be fitted: its default solver is the deprecated name.
* C67, `C67_weber_false`: A Weber estimator with default arguments fits all data (if training returns), but can never be scored.
* C68, `C68_unlabelled_false`: is false for unlabelled distributions: the caller's array is kept by reference, so every in-place change of it shows.
* C70, `C70_scale_false`: is false for two samples or more (`1 / 2 * n` is parsed as `n / 2`): the documented conjugate is `n²` times the value returned, hence different whenever `z` and a second derivative are non-zero.
* C70, `C70_range_false`: is false for vectors outside the range (the test for it never succeeds): the documented conjugate is infinite, a number is returned.
* C71, `C71_engine_check_false`: The two-step decoder accepts a five-field code of a foreign engine, which the one-step decoder refuses.
* C72, `C72_pretraining_false`: A pre-sampled fit interrupted while pre-training leaves the loss in ordinary (ERM) mode: any optimizer that first calls the closure, any loss that raises.
* C72, `C72_importance_false`: A pre-sampled training monitored on parameters, interrupted while the loss of an iteration is evaluated, leaves importance sampling off although the user had it on.
* C73, `C73_postsampled_false`: The last loss, reported as the robust loss, was evaluated *before* the last optimizer step: the returned parameters are not those it is the loss of.
* C75, `C75_flat_false`: With flat labels, `n >= 2` samples give an `n x n` table of losses: entry `(r, c)` compares the prediction of sample `r` with the label of sample `c`.
* C76, `C76_order_false`: Decoding puts the third field in the power and the fourth in the norm order, the opposite of the documented `engine-id-norm-power`: so a code naming distinct norm order `k` and power `p` gives a cost whose norm order is not `k`.
* C77, `C77_newsvendor_products_false`: With several products the loss trained on is that of the row means (see `newsvendorFit`) but the score averages over products: for every fitted order `th > 0` and unit revenue `u ≠ 0` the score on the demands `(0, 2 th)` is not minus the trained loss.
* C77, `C77_name_false`: Solver names with 'torch' but without 'entropic' are fitted, but scores then raise `ValueError` on all data, for the three estimators.
* C77, `C77_weber_false`: A fitted Weber estimator can never be scored, on any data: the evaluation passes no weights, which the loss requires, or refuses the solver name.
* C77, `C77_weber_renamed_false`: Renaming the solver of a fitted Weber estimator to `dedicated` makes it scorable, but the score is the average inner product of the points with the fitted position: for a position away from the origin and one point at it, it is positive, though minus a distance never is.
* C77, `C77_portfolio_risk_false`: With a risk term (`eta > 0`) the score of a portfolio fitted by the dedicated solver forgets it: on returns all equal to -1 it is always above minus the average loss trained on.
* C77, `C77_portfolio_dtype_false`: On data in another precision (numpy's default, double) a portfolio fitted by torch cannot be scored.
* C78, `C78_condition_false`: The other settings are not checked at construction: a condition with a misspelt monitoring is built, and it is its first call that fails (so does training, after its first step).
* C78, `C78_nan_false`: A NaN radius is accepted by every constructor.
* C78, `C78_unchecked_false`: Only `Portfolio` checks anything but the radius: the other constructors accept a negative regularisation and a negative number of samples.
* C79, `C79_ignored_false`: With torch, the fit of a linear regression does not depend on `fit_intercept` at all.
* C79, `C79_torch_linreg_false`: With torch, linear regression ignores `fit_intercept=False`: on all data, a default estimator with `fit_intercept=False` whose training moves the offset to one predicts one at the origin.
* C81, `C81_multiclass_false`: With more than two classes the array always has shape `(n_samples, 1)` instead.
* C82, `C82_false`: is false: fitting the generic statistical tuner fails for every estimator of the package, solver and data. When the first fit succeeds the failure is an AttributeError; the radius chosen by the user has been overwritten.
* C83, `C83_torch_false`: is false with a torch solver: the tuner reads a threshold attribute these fits do not set.
* C83, `C83_single_false`: is false for a single sample, whatever the solver: the tuner always fails.
* C83, `C83_covariance_false`: is false as to what is drawn: the matrix given to the sampler has one row and column per sample, not one per parameter.
* C83, `C83_kink_false`: is false with the dedicated solver (in exact arithmetic): with a risk term and `alpha n` not an integer, the optimal threshold of the first fit is the loss of some sample, where the loss is not differentiable, and the tuner fails on every data set.
* C84, `C84_no_risk_false`: Without risk term (`eta = 0`, the default) the portfolio loss is linear in the weights, hence differentiable everywhere, but samples whose return is minus the threshold are refused all the same.
* C85, `C85_false`: is false with a risk term: two samples, one asset, one loss above the threshold (`eta = alpha = 1`, Euclidean norms): the value returned for `z = 1` is not the documented conjugate.
* C86, `C86_frozen_multiplier_false`: At radius zero the multiplier is frozen and has no gradient: whatever the data, the module, the noise and the optimizer, a fit whose optimality condition looks at the gradient of the multiplier (`monitoring` of the multiplier, alone or with the parameters) raises `ValueError`.
* C86, `C86_other_sizes_false`: Whatever the problem, if the memory holds parameters of another number (both numbers greater than one) the fit raises `RuntimeError`.
* C88, `C88_initial_weights_false`: The same `random_state` does not make linear regression reproducible: the initial weights are drawn before the generator is seeded. Two fits of the default estimator on the same data, in generator states from which different weights are drawn, return different coefficients (here with learning rate zero, on all data).
* C90, `C90_newsvendor_l2_false`: The weight of the ridge penalty has no effect on the newsvendor, whatever the solver,
* C90, `C90_dedicated_l2_false`: nor on the two regressions with the dedicated solver,
* C90, `C90_dedicated_cost_false`: nor do two decodable cost codes make a difference to them;
* C90, `C90_weber_kappa_false`: and the label weight `kappa` of the Weber estimator is not read.
* C91, `C91_lazy_false`: A robust loss without sampler never builds one: whatever the losses and batches, in any sequence of forward passes, drawings of samples and readings of the sampler every single call fails with a ValueError, and there is still no sampler.
* C91, `C91_documented_call_false`: The documented call `loss.default_sampler(xi, xi_labels, sigma)` (doc/pytorch.rst:291) is refused by every loss on all data: the seed is mandatory.
* C93, `C93_learning_rate_false`: `learning_rate` has no effect with adaptation, which is the default of post-sampled losses.
* C93, `C93_adapt_false`: `adapt` has no effect on pre-sampled losses, for any name, existing or not.
* C93, `C93_default_rate_false`: The documented default learning rate 0.05 of pre-sampled losses is not the actual one.
* C94, `C94_newsvendor_false`: The newsvendor fit is not always of least worst-case cost: for some prices, radius and non-negative demands the order it stores is not, whatever the other arguments and the external solver.
* C99, `C99_labelled_false`: With labels and importance sampling the robust loss estimates another value: `robustify` with the squared Euclidean cost on the inputs, loss `x^2 + x + y`, one data point, unit radius, noise and regularisation, at multiplier one. The same normal samples give `3/2`, the advertised objective, without importance sampling and `2` with it, whatever the random generators.
* C102, `C102_none_false`: An estimator given no condition has one after its first fit with torch, whether it returns or raises: `get_params` does not return the `None` that was set. The condition is a new object, keeping the memory of this training.
* C103, `C103_shared_false`: The conditions given by default are shared by all estimators of a class, and remember: an estimator which, right after its construction, finds 2 in two steps, stops at 1 if another one was fitted on other data before.
* C104, `C104_after_fit_false`: Once a condition on the motion of the parameters (built anew) was used by a fit, whatever the estimator, settings and data, no estimator using it can be cloned: the tensors it remembers are not copied by torch.
* C104, `C104_refused_false`: If the memory of the condition holds parameters, or a motion of the parameters or of the multiplier, the estimator cannot be cloned.
* C104, `C104_memory_false`: A clone of a fitted estimator remembers its training, unlike one built anew from the same arguments: on the same data the former stops at 1, the latter finds 2.
* C104, `C104_refit_false`: Nor is an estimator as new when fitted again: `fit` keeps what the condition remembers of the previous data.
* C105, `C105_any_literal_false`: The literal `1e-3`, which python itself prints for small powers, cannot be used as the power of a cost code: both decoders raise `ValueError`.
* C106, `C106_documented_false`: The one-step decoder accepts a label weight followed by anything at all, and both accept a label weight for a cost without labels, which then ignores it.
* C107, `C107_single_number_false`: A condition on the motion of the parameters that was last used on a model with a single parameter does not raise on a model with any number of parameters: all of them are compared with that single number. If they are all equal to it the call reports convergence, at the first iteration of the new training, whatever the tolerance and the rest of the memory.
* C107, `C107_to_single_number_false`: The other way round: on a model with a single parameter, whatever the parameters in memory, the call answers, comparing this parameter with all of those.
* C107, `C107_after_error_false`: What the `RuntimeError` on a model of another size leaves behind. If the memory held two iterates, it is the same with the last iterate replaced by the parameters of the new model, so that the very same call made again does not raise: it reports convergence, although nothing has been trained. If it held only the first iterate, that one stays, and every later call on a model of the new size raises again.
* C107, `C107_refit_false`: Whatever the estimators `a` and `b`, which may be the same one, their settings and their data: if they use one condition on the motion of the parameters (built anew) and have different numbers of parameters (more than one each), then after `a.fit` has returned, `b.fit` raises `RuntimeError`. In particular an estimator cannot be fitted again on data with other features.
* C107, `C107_other_size_false`: A condition on the motion of the parameters cannot be used for a second problem with another number of parameters (more than one each): whatever the two problems, the estimators and the optimizer, the first training returns and the second raises `RuntimeError`, as the condition still remembers the parameters of the first.
* C108, `C108_importance_false`: A batch is displaced only if none of its points has a zero gradient, so that the value depends on which points share a batch: here the two points 0 and 1 together, and each on its own.
* C109, `C109_zero_radius_false`: Passing from the radius 0 to a positive radius can lower the loss: radius 0 evaluates the data, a positive radius the samples alone, at the price of their cost. (Here already for the multiplier 1, hence for the best one.)
* C110, `C110_multiplier_false`: The schedule of the multiplier, as long as the robust training, already runs during pre-training. A fit that made all its `p + n` iterations, `0 < p < n`, ends with a positive learning rate for the multiplier; the rate was already below its initial value when the robust training began, zero after `n - p` of its `n` iterations, and increased at all following ones.
* C110, `C110_no_robust_false`: A schedule without robust iterations, `n_iter=(p, 0)`: no fit with "prodigy" ever returns, its first step raises (see C53_empty_schedule_false).
* C110, `C110_restore_false`: A state saved before the last of the `p + n` iterations and loaded into a new optimizer built for the same schedule: the next step should bring the model's learning rate to zero, as it does in the optimizer that made the previous steps, but leaves it positive, because saved states do not hold the position in the schedule.
* C110, `C110_reset_false`: Resetting the multiplier's state after `p` iterations, `0 < p < n`, restores its initial learning rate but not its schedule: one step later the rate is below that of a schedule that starts over.
* C112, `C112_default_false`: Same data, radius and model in a unit half as large, same loss, everything else left to its default: the robust loss is another function of the multiplier (here it is smaller, for every positive multiplier).
* C114, `C114_loss_false`: The value of the closure is never returned: an accepted step returns `None`, for all groups and losses.
* C114, `C114_mwu_false`: Multiplicative weights: the closure sees the logarithms of the parameters. Stepping with a closure uses the derivative of the loss at `log x`; calling the closure and then stepping uses the derivative at `x`. For the loss `x^2 / 2` at one, the first does not move whatever the learning rate.
* C114, `C114_max_false`: Maximisation: the closure sees the opposite of the parameters. For an even loss, such as `x^2 / 2`, stepping with a closure therefore descends where it should ascend.
* C114, `C114_bound_false`: Clipping: the gradients present before the step are clipped, then the closure replaces them by new ones, which are followed unclipped; and without previous gradients the step is refused.
* C114, `C114_switch_false`: Setting the key of a rule to `False` does not switch the rule off: for every optimizer, the step is the one of `True`; for multiplicative weights, non-positive values are refused.
* C116, `C116_unfitted_false`: Once a call raised after its data was accepted (solver or cost refused, training failed), an estimator that was never fitted counts as fitted: `predict` raises `AttributeError` instead of `NotFittedError`.
* C116, `C116_relabel_false`: When a later fit raises on data with two other labels — its solver or cost code is refused, its training fails — the classifier keeps its coefficients but takes the labels of the refused data: every sample is then classified with the old rule and the new labels.
* C116, `C116_multiclass_false`: A classifier of more than two classes (and not as many as features) no longer predicts anything once `fit` was called with a single class: that call raises, and so does `predict` afterwards.
* C116, `C116_untrained_false`: When training a classifier of more than two classes raises, `predict` afterwards classifies with the layer training left, whether the estimator had been fitted before or not.
* C116, `C116_training_false`: When training a newsvendor raises, `coef_` keeps the order of the earlier fit but the score becomes that of the order training left: attributes and methods disagree.
* C117, `C117_stale_false`: Fits with a dedicated solver do not assign `robust_loss_`, nor `intercept_` for the newsvendor and the portfolio: an estimator fitted with torch and then with the dedicated solver reports those of the earlier fit.
* C117, `C117_stale_threshold_false`: A portfolio fitted with a torch solver keeps the threshold `tau_` of an earlier fit with the dedicated one.
* C119, `C119_single_feature_false`: A binary classifier trained on a single feature by an entropic solver, with an intercept, accepts data with any number `d'` of features: `predict_proba` returns an array of shape `(d', 2 N)`.
* C121, `C121_newsvendor_false`: A dedicated newsvendor with a NaN radius is fitted silently on every data set: with an exact external solver and non-negative prices it stores the order of least average cost on the sample, with no robustness at all.
* C122, `C122_width_false`: Unlike the two others, the reference estimator checks no number of features: once fitted on any data it answers ones to matrices of every width.
* C124, `C124_diverges_false`: A worst case may not exist: default two-class logistic regression, pre-sampled, on any data, with a generator whose draws are all three. The samples are too far away for any re-weighting of them to be admissible (see `C124_no_slack`), and the longer the training (here without pre-training, and with an optimality condition that does not stop it), the lower the number it reports, below any bound.
* C127, `C127_half_given_false`: If only the matrix or only the vector is given, it is ignored without a word: for all data and settings, the outcome is that of an estimator built without constraints.
* C127, `C127_torch_false`: The torch solvers ignore the constraints: for all data and settings and all constraints with the right number of columns, whatever their bounds, the outcome is that of an estimator built without constraints.
* C127, `C127_column_false`: Bounds given as a column, of shape `(2, 1)` instead of `(2,)`, are accepted and silently misread: on a sample inside the polytope the dedicated solver stores equal weights, as if there were no constraints, although some law in the polytope and the ball makes them lose `3/2` on average, while the weights stored for the bounds of shape `(2,)` lose at most `1` under all these laws.
* C129, `C129_newsvendor_repeated_false`: is false for the news vendor when the samples are repeated: with the demand 1 (prices 0.7 and 1, radius 0.4) the fit orders 1, but with the same demand given twice it orders nothing.
* C130, `C130_double_false`: is false for double precision: the logarithm of the number of samples is computed in single precision. With two samples per point, even if all the other operations are exact, the value is off by at least `10^-9 eps`, whatever the data (the relative accuracy of double precision is about `10^-16`).
* C131, `C131_newsvendor_false`: The dedicated news vendor does not: at a negative radius, on two or more non-negative demands, its fit returns, with an order of zero.
* C133, `C133_double_false`: With more than two classes, after a successful fit with a radius held as a numpy double, as in every grid made by numpy, `predict_proba` and `predict` raise `RuntimeError` on all data, whereas the same fit with the same radius held as a python float predicts.
* C137, `C137_large_radius_false`: Whenever the average demand is at most the radius and ordering is worthwhile without ambiguity (`k > 0` and `k * n` less than `u` times the number of positive demands), the order stored by the fit is positive and not of least worst-case cost: ordering nothing costs less in the worst case.
* C138, `C138_linreg_false`: For data fitted exactly by a linear model, two exact solvers may give different coefficients: with one sample `x = 1`, `y = 1`, a radius of 1 and no intercept, this happens.
* C139, `C139_newsvendor_false`: The remaining cases occur: as soon as the average demand is at most the radius and ordering is worthwhile without ambiguity, the stored order has not the least worst-case cost.
* C144, `C144_one_portfolio_false`: With the default cost, of power one, this fails: with a radius equal to the gap between the returns of two assets, every split of the wealth that favours the better one is a solution, and exact solvers may store any of them.
* C148, `C148_rows_false`: is false: with two samples or more, the table is not the table of the gradients as soon as the first gradient is not zero.
* C148, `C148_two_samples_false`: is false for two samples: whatever the two gradients, the covariance computed is zero; that of the gradients themselves is half the product of their differences. With one parameter the tuner stops with a ValueError; otherwise the noise has covariance `1e-4` times the identity whatever the data.
* C148, `C148_constant_false`: is false for samples that all have the same gradient `g`: with three samples or more the variance computed for a parameter is positive whenever its gradient is not zero, although that of the gradients is zero.
* C148, `C148_scale_false`: is false for one parameter: the number used as standard deviation is the variance, which agree only when the variance is 1.

## Trusted base

### Logic

Lean 4.33.0's kernel, and the axioms `propext`, `Classical.choice`, `Quot.sound` (every property theorem depends on at most these; checked
with `#print axioms`). Mathlib is used as a library of checked proofs. No `sorry`, no added axiom, no `native_decide` or `bv_decide`.

### Reading of the code

The model was written by reading /repo; nothing was executed. Each definition cites the lines it models, so it can be compared with them.

### Assumed behaviour of external code

Definitions in the model (their text is the assumption):

* CPython `float(str)` on the literals that occur in cost codes (`Model/CostDecoder`); other spellings (exponents, underscores,
  whitespace) are covered as far as the comment there says. `str.split`, `in`, `range` are python's.
* torch tensor operations: broadcasting, `view`, `flatten`, `unsqueeze`, `squeeze`, means, `logsumexp`, `norm` (`Model/Tensor`, `Model/Costs`).
* `nn.Linear`, `softmax`, `logsigmoid`, `MSELoss`, `CrossEntropyLoss` with probabilities (`Model/Losses`, `Model/Estimators`).
* `nn.Module.train(mode)` stores the flag, `nn.Module.eval()` calls `self.train(False)` (`Model/DualState`).
* Argument validation of torch's `MultivariateNormal` (on by default): factors must be lower triangular with positive diagonal, matrices
  positive definite (`posDef`, arbitrary). `C11_reset_accepts` assumes that factors of accepted matrices are accepted (`FactorContract`).
  Batches of factors are outside the model (C11, C12, C91).
* numpy: `sort`, `dot`, broadcasting, `vstack`, `cov` (rows are variables, divisor n-1), `quantile` (linear interpolation).
* scikit-learn: `check_X_y`/`check_array` refuse empty data, `unique_labels`, `LabelEncoder` and `OneHotEncoder` sort the classes.
* torch's `CosineAnnealingLR` with `eta_min = 0`: the recursion of `get_lr` on the current rate, the counter `last_epoch` advanced before it, the division by zero for `T_max = 0` (C53, C54, C110). State dictionaries are values: torch hands out references, so a state kept in memory without a copy would follow later steps.
* Plain torch `SGD` (no momentum, no weight decay), which skips tensors without gradient and, given a closure, calls it first (C55, C114, C115).
* First steps of torch's AdamW and LBFGS from a fresh state, used only to exhibit violations (`C53_adamw_false`, `C53_lbfgs_false`).

Hypotheses of theorems (named in the statements):

* Noise: `rsample` adds to the centre a noise depending on generator state, scale and shape, of the requested shape; Bernoulli draws are true
  with the given probability (`BernoulliContract`; `uniformExt_contract` exhibits one); in C96, normal draws
  are independent standard normals (`NormalContract`; `bank_contract` exhibits one), likewise independent standard Laplace variables for `ext.stdLaplace` (`LaplaceContract`, exhibited by `lapBank_contract`), and two successive draws, one for the inputs and one for the labels, are independent (`NormalContract2`, `LaplaceContract2`). `mvnLogDensity` is the log-density used in C19/C20.
* Autograd: the gradients given to the displacement and to the dual initialisation are the gradients of the loss where a statement needs it
  (they are arbitrary otherwise).
* Inner optimizers: arbitrary state machines; `state_dict`/`load_state_dict` save and restore their state (`Model/Optimizers`).
* Optimizers in training loops: arbitrary programs calling the closure any number of times (`OptProg`), possibly raising.
* Convex solver: `ExactSolver` returns an optimal point whenever one exists and nothing else. `exactSolver_exists` shows the assumption is
  consistent. Numerical tolerance of cvxpy/cvxopt is not modelled. cvxpy is assumed to refuse a program whose data holds NaN (C121_programs).
* Training inside estimators: `GoodTrainer` (training keeps kind and sizes of the module), `TotalTrainer` (training returns), `GoodInit`
  (a bias exists exactly when asked for).
* Whole fits (`Model/Fit`, C86-C89): optimizer and autograd are a parameter `Torch`; C86 assumes `GoodTorch` (the optimizer raises nothing
  by itself and does not erase gradients, the backward pass fills the gradients of the parameters), `GradShapes` (gradients have the shapes
  of the inputs); its violation at radius zero assumes `FrozenLam` (a multiplier with `requires_grad` off never gets a gradient). `gdTorch`, `frozenTorch` and `idleTorch` show the assumptions are consistent.
* Sessions (`Model/Session`, C102-C104, C107): training is a parameter `Fits`, instantiated by `realFits`; scikit-learn's `set_params` sets keywords in
  order and refuses unknown ones, `clone` deep-copies the condition and calls the constructor; torch refuses to deep-copy results of
  computations requiring gradients.
* Attributes (`Model/Store`, C116, C117, C119): python's attribute assignment and lookup are `Store.write` and `getAttr`; a call of `fit` is the list of
  assignments it makes and its outcome. Training in place is a parameter `InPlace` (instantiated by `realInPlace`). Left out: attributes no method
  reads (`cost_`, `n_features_in_`, `result_`, ...) and `self.rho = float(self.rho)`. A different number of columns
  given to `predict` than to `fit` is left to the shapes of the arrays, as in the code (C119).
* Gradient descent (C120, C123, C124, C125): `torch.optim.SGD` without momentum is `descentTorch` (with `clip`, `HybridSGD` with the rule `non_neg` and the same step size
  for all parameters); autograd is assumed to return the gradient of the loss recorded (`BackIs`, `PostBackIs`, derivatives along lines), or for losses with kinks the
  chain rule with any derivative at the kinks (`NewsvendorSlope`, `WeberSlope`). `descent_applies`, `regret_applies`, `newsvendor_regret_applies` and
  `weber_regret_applies` show that such an autograd exists on all data.
* Rounding (`Model/Rounding`, C130): every operation returns a number within a relative error of the exact result; sums are made two numbers at a time in some
  order; `logsumexp` subtracts the maximum first; the logarithm of an integer tensor is in torch's default precision (single).
* Precisions (`Model/Precision`, C133): which numeric classes are python floats, the precision `pt.tensor` gives them, and that `nn.Linear` refuses inputs of another
  precision than its own.
* `HalvingGridSearchCV`: arbitrary `search`; where the choice matters it returns a member of the grid.
* `np.random.multivariate_normal`: arbitrary draws. `torch.linalg.pinv`: a Moore-Penrose inverse (`IsPinv`, which exists: `pinv_exists`).

### What is modelled

`base/cost_decoder.py`, `base/costs_torch/*`, `base/losses_torch/*`, `base/samplers/torch/{base_samplers,classif_sampler,cost_samplers,newsvendor_sampler,portfolio_sampler}.py`,
`base/problems.py`, `base/rho_tuners.py`, `base/rho_tuners_computations.py`, `distributions/*`, `wrap_problem.py`,
`solvers/{_dual_interfaces/*,entropic_dual_torch,oracle_torch,optim_cond,hybrid_opt,utils,result,specific_solvers}.py`,
`linear_models/*`, `operations_research/*`, `_template.py`.

### What is not modelled

* `solvers/__entropic_dual_torch_epsilon.py`, a legacy private file that nothing imports.
* Floating-point rounding (except in the robust loss without importance sampling, see C130; errors in the data are bounded in C135) and overflow, precision conversion to float32 (except where torch refuses to mix precisions, see C77 and C133), devices, timing, memory, printing, progress bars, dask clients.
* the second derivatives by autograd in `compute_phi_star` (`rho_tuners_computations.py`): they are an input of C70.
* `BlanchetRhoTunedEstimator.fit`, lines 149-175: the per-sample gradients are an input of C148. Trusted there: torch adds to the gradient of a leaf
  parameter in place, `vstack` copies, `Normal` refuses a scale that is not positive, `eigvalsh` gives a lower bound of the quadratic form. Lines 133-147
  (attribute look-ups of the loss) and the Portfolio branches are not modelled; no estimator of the library reaches them, since none sets `problem_`.
* Convergence of training with optimizers other than plain gradient descent (for which see C120, C123, C124 and C125).
* Plotting, `README`, examples and documentation (used only to know what is promised).

## Concrete cases

Beside the theorems, `example`s apply them to concrete data, so that their hypotheses can be met. Where the theorem's own file has none,
the case is in one of the modules `Props/Wit*` (`WitSampling`, `WitSolve`, `WitSolvers`, `WitFits`, `WitLimits`, `WitLifecycle`, `WitStore`, `WitMoreData`): a
two-point labelled data set with its loss, sampler and robust loss; exact solvers of the optimization problems handed to the
dedicated solvers; gradient descent as an optimizer; a single normal draw, and normal inputs labelled by a fair coin, for the limit theorems. C68_accessors_partial and C13_switch_probability_partial are applied inside other concrete theorems.
The whole project was also built in a scratch copy with Lean's `autoImplicit` option off: no name in a statement is silently generalised.
