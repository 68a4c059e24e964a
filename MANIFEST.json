{
 "claims": [
  {
   "property": "C01",
   "status": "proved",
   "theorems": [
    "Skwdro.C01_fields_roundtrip",
    "Skwdro.C01_decimal_roundtrip",
    "Skwdro.C01_decimal_literals"
   ],
   "note": ""
  },
  {
   "property": "C02",
   "status": "proved",
   "theorems": [
    "Skwdro.C02_decoders_agree",
    "Skwdro.C02_rejections",
    "Skwdro.C02_default"
   ],
   "note": ""
  },
  {
   "property": "C03",
   "status": "proved",
   "theorems": [
    "Skwdro.C03_kappa_nonneg"
   ],
   "note": ""
  },
  {
   "property": "C04",
   "status": "proved",
   "theorems": [
    "Skwdro.C04_formula",
    "Skwdro.C04_point_formula",
    "Skwdro.C04_nonneg",
    "Skwdro.C04_symm",
    "Skwdro.C04_translation",
    "Skwdro.C04_zero_iff",
    "Skwdro.C04_triangle"
   ],
   "note": ""
  },
  {
   "property": "C05",
   "status": "proved",
   "theorems": [
    "Skwdro.C05_formula",
    "Skwdro.C05_point_formula",
    "Skwdro.C05_nonneg",
    "Skwdro.C05_symm",
    "Skwdro.C05_zero_iff",
    "Skwdro.C05_triangle",
    "Skwdro.C05_between"
   ],
   "note": ""
  },
  {
   "property": "C06",
   "status": "proved",
   "theorems": [
    "Skwdro.C06_kappa_limits",
    "Skwdro.C06_kappa_monotone"
   ],
   "note": ""
  },
  {
   "property": "C07",
   "status": "proved",
   "theorems": [
    "Skwdro.C07_missing_labels",
    "Skwdro.C07_labels_ignored",
    "Skwdro.C07_extreme_weights"
   ],
   "note": ""
  },
  {
   "property": "C08",
   "status": "proved",
   "theorems": [
    "Skwdro.C08_default_scale",
    "Skwdro.C08_default_label_scale",
    "Skwdro.C08_supported_costs",
    "Skwdro.C08_scale_refused"
   ],
   "note": ""
  },
  {
   "property": "C09",
   "status": "proved",
   "theorems": [
    "Skwdro.C09_labels_never_sampled",
    "Skwdro.C09_labels_never_displaced"
   ],
   "note": ""
  },
  {
   "property": "C10",
   "status": "proved",
   "theorems": [
    "Skwdro.C10_samples_are_copies",
    "Skwdro.C10_log_prob",
    "Skwdro.C10_sample_log_prob",
    "Skwdro.C10_moments",
    "Skwdro.C10_expand_accepts",
    "Skwdro.C10_expand"
   ],
   "note": ""
  },
  {
   "property": "C11",
   "status": "proved",
   "theorems": [
    "Skwdro.C11_reset_moves_centre_only",
    "Skwdro.C11_produces_labels",
    "Skwdro.C11_reset_keeps_noise",
    "Skwdro.C11_reset_keeps_label_noise",
    "Skwdro.C11_reset_accepts"
   ],
   "note": ""
  },
  {
   "property": "C12",
   "status": "proved",
   "theorems": [
    "Skwdro.C12_first_given_covariance",
    "Skwdro.C12_sigma_is_standard_deviation"
   ],
   "note": ""
  },
  {
   "property": "C13",
   "status": "partial",
   "theorems": [
    "Skwdro.C13_outputs_label_or_opposite",
    "Skwdro.C13_switch_probability_partial",
    "Skwdro.C13_switch_probability_false"
   ],
   "note": "C13_switch_probability_partial: What the code does: with parameter `p`, documented as the probability of a switch, a nonzero label is *kept* with probability `p` and switched with probability `1 - p`. Missing for the documented claim: the two agree only for `p = 1/2`. | C13_switch_probability_false: (documented claim, false) `p` is not the probability of a switch: there is a setting meeting torch's contract in which, with `p = 1/4`, a label is switched with probability `3/4`."
  },
  {
   "property": "C14",
   "status": "proved",
   "theorems": [
    "Skwdro.C14_seeded_evaluation_forgets_generator",
    "Skwdro.C14_seeded_evaluation_forgets_history"
   ],
   "note": ""
  },
  {
   "property": "C15",
   "status": "partial",
   "theorems": [
    "Skwdro.C15_fresh_noise_partial",
    "Skwdro.C15_seeded_noise_repeats_partial",
    "Skwdro.C15_fresh_noise_false"
   ],
   "note": "C15_fresh_noise_partial: (fresh noise, unseeded samplers) Without a seed an evaluation with positive radius draws its samples from the generator state it receives and hands over the state left by these draws, so successive evaluations consume successive segments of the stream. Missing: samplers with a seed, which is the default, see `C15_fresh_noise_false`. | C15_seeded_noise_repeats_partial: (what happens with a seed) Every evaluation of a seeded post-sampled loss on a given batch returns the same value, whatever was evaluated before: the \"fresh\" noise is always the same. | C15_fresh_noise_false: (false) Fresh noise fails for the default seeded samplers: two successive evaluations draw the same noise, although the stream has moved on (the second segment of the stream is different)."
  },
  {
   "property": "C16",
   "status": "partial",
   "theorems": [
    "Skwdro.C16_noise_kept",
    "Skwdro.C16_noise_kept_inputs",
    "Skwdro.C16_noise_kept_labels_partial",
    "Skwdro.C16_zero_weight_false"
   ],
   "note": "C16_noise_kept_labels_partial: The same on the label part. Partial: the label weight must not be zero (see `C16_zero_weight_false`). | C16_zero_weight_false: is false for the label weight 0: finite non-zero gradients and a positive multiplier displace the labels to infinity, where no difference is left to keep."
  },
  {
   "property": "C17",
   "status": "partial",
   "theorems": [
    "Skwdro.C17_displacement",
    "Skwdro.C17_displacement_labelled_partial",
    "Skwdro.C17_zero_weight_false"
   ],
   "note": "C17_displacement_labelled_partial: With labels: if the multiplier is zero, or one gradient (with respect to a point or to a label) vanishes, nothing is displaced; otherwise inputs move as without labels, and all returned labels are finite. Partial: the label weight must not be zero (next theorem). | C17_zero_weight_false: is false for the label weight 0 (accepted by the cost constructor, e.g. code `t-NLC-2-2-0`): finite non-zero gradients and a positive multiplier give a label that is not finite, and the robust loss is NaN."
  },
  {
   "property": "C18",
   "status": "partial",
   "theorems": [
    "Skwdro.C18_best_first_order_attack_partial",
    "Skwdro.C18_zero_gradient_false",
    "Skwdro.C18_threshold_false"
   ],
   "note": "C18_best_first_order_attack_partial: The displaced centre of every point is the unique best first-order attack. Partial: either all the gradients of the batch are non-zero or they all vanish, and none is longer than the threshold `10^10` (see the two theorems below). | C18_zero_gradient_false: fails when a single point of the batch has a vanishing gradient: the other points are not displaced, although moving them would be a better attack. | C18_threshold_false: fails for a gradient longer than the threshold `10^10`: the displacement is cut."
  },
  {
   "property": "C19",
   "status": "proved",
   "theorems": [
    "Skwdro.C19_exact_weights",
    "Skwdro.C19_same_expectation",
    "Skwdro.C19_value"
   ],
   "note": ""
  },
  {
   "property": "C20",
   "status": "partial",
   "theorems": [
    "Skwdro.C20_labelled_correction_partial",
    "Skwdro.C20_labelled_weights_false"
   ],
   "note": "C20_labelled_correction_partial: What the labelled correction is: zero, for every labelled sampler with densities, every displaced centre, every sample. Hence the density-ratio identity holds at a sample if and only if the displaced law and the reference law have the same density there; in particular it holds when nothing was displaced. Partial: the identity is false in general (next theorem). | C20_labelled_weights_false: is false: for the default labelled setting (squared costs, normal samplers for inputs and labels, label weight 1) a displacement does take place, the correction is nevertheless 0, and the density-ratio identity fails."
  },
  {
   "property": "C21",
   "status": "proved",
   "theorems": [
    "Skwdro.C21_refused",
    "Skwdro.C21_enabled_iff",
    "Skwdro.C21_never_unsupported"
   ],
   "note": ""
  },
  {
   "property": "C22",
   "status": "proved",
   "theorems": [
    "Skwdro.C22_pointwise_labels",
    "Skwdro.C22_pointwise_flat_labels",
    "Skwdro.C22_pointwise_nolabels",
    "Skwdro.C22_pointwise_unreduced",
    "Skwdro.C22_pointwise_unreduced_nolabels"
   ],
   "note": ""
  },
  {
   "property": "C23",
   "status": "partial",
   "theorems": [
    "Skwdro.C23_flat_batch_false",
    "Skwdro.C23_flat_batch_partial"
   ],
   "note": "C23_flat_batch_false: **C23 is false**: on a flat labelled batch `(m,d)`, `(m,k)` the value returned is a single number (the average), not one loss per sample, as soon as the user loss returns `(m,1)`. Witness: squared error, two samples. | C23_flat_batch_partial: (partial: full statement fails, see `C23_flat_batch_false`) One loss per sample is returned when the batch has at least two samples and the user loss returns at least two numbers per sample."
  },
  {
   "property": "C24",
   "status": "proved",
   "theorems": [
    "Skwdro.C24_label_contract"
   ],
   "note": ""
  },
  {
   "property": "C25",
   "status": "proved",
   "theorems": [
    "Skwdro.C25_ridge_robust",
    "Skwdro.C25_ridge_robust_nolabels",
    "Skwdro.C25_ridge_per_sample",
    "Skwdro.C25_ridge_per_sample_nolabels"
   ],
   "note": ""
  },
  {
   "property": "C26",
   "status": "proved",
   "theorems": [
    "Skwdro.C26_batch",
    "Skwdro.C26_refused",
    "Skwdro.C26_any_shape",
    "Skwdro.C26_label_count",
    "Skwdro.C26_fresh",
    "Skwdro.C26_dimension",
    "Skwdro.C26_pos",
    "Skwdro.C26_boundary",
    "Skwdro.C26_convex",
    "Skwdro.C26_lipschitz",
    "Skwdro.C26_predict"
   ],
   "note": ""
  },
  {
   "property": "C27",
   "status": "proved",
   "theorems": [
    "Skwdro.C27_weights",
    "Skwdro.C27_pieces",
    "Skwdro.C27_batch",
    "Skwdro.C27_monotone_convex"
   ],
   "note": ""
  },
  {
   "property": "C28",
   "status": "partial",
   "theorems": [
    "Skwdro.C28_unlabelled_false",
    "Skwdro.C28_labelled_partial",
    "Skwdro.C28_estimator_partial",
    "Skwdro.C28_one_product_partial"
   ],
   "note": "C28_unlabelled_false: (violated) `NewsVendorLoss_torch` refuses unlabelled demand: every evaluation without labels fails. | C28_labelled_partial: (what holds) With any labels whatsoever, which are ignored, it returns the newsvendor loss averaged over the products (exactly the newsvendor loss for one product); the regularisation weight is ignored too. | C28_estimator_partial: The loss used by the `NewsVendor` estimator does evaluate on unlabelled demand, on every batch: the average over products of `k * theta - u * min(theta, x)`. | C28_one_product_partial: For one product this is the newsvendor loss itself."
  },
  {
   "property": "C29",
   "status": "proved",
   "theorems": [
    "Skwdro.C29_formula",
    "Skwdro.C29_formula_labelled",
    "Skwdro.C29_formula_presampled",
    "Skwdro.C29_formula_postsampled",
    "Skwdro.C29_formula_unlabelled"
   ],
   "note": ""
  },
  {
   "property": "C30",
   "status": "partial",
   "theorems": [
    "Skwdro.C30_zero_radius",
    "Skwdro.C30_zero_radius_postsampled",
    "Skwdro.C30_zero_radius_presampled",
    "Skwdro.C30_stored_samples_false"
   ],
   "note": "C30_stored_samples_false: **C30 fails** on the pre-sampled loss when it reuses stored samples: the batch axis is not removed before the reduction, and every such evaluation stops with an assertion error."
  },
  {
   "property": "C31",
   "status": "partial",
   "theorems": [
    "Skwdro.C31_negative_postsampled",
    "Skwdro.C31_invalid_radius_partial",
    "Skwdro.C31_erm_mode_false"
   ],
   "note": "C31_invalid_radius_partial: **C31, largest true part** Outside ERM mode, for the core computation and both ways of calling the pre-sampled loss, a negative radius is a ValueError and a NaN radius gives NaN; a NaN radius gives NaN on the post-sampled loss too. Missing: in ERM mode the pre-sampled loss ignores the sign of the radius (next theorem). | C31_erm_mode_false: **C31 fails** in ERM mode (the mode in which pre-training is run): the pre-sampled loss accepts the radius -1 and returns a number."
  },
  {
   "property": "C32",
   "status": "proved",
   "theorems": [
    "Skwdro.C32_bounds_adversaries",
    "Skwdro.C32_tilted_adversary"
   ],
   "note": ""
  },
  {
   "property": "C33",
   "status": "proved",
   "theorems": [
    "Skwdro.C33_monotone",
    "Skwdro.C33_shift"
   ],
   "note": ""
  },
  {
   "property": "C34",
   "status": "proved",
   "theorems": [
    "Skwdro.C34_jointly_convex"
   ],
   "note": ""
  },
  {
   "property": "C35",
   "status": "proved",
   "theorems": [
    "Skwdro.C35_between",
    "Skwdro.C35_decreasing_in_epsilon",
    "Skwdro.C35_near_average",
    "Skwdro.C35_limits"
   ],
   "note": ""
  },
  {
   "property": "C36",
   "status": "proved",
   "theorems": [
    "Skwdro.C36_order_irrelevant",
    "Skwdro.C36_order_irrelevant_unlabelled"
   ],
   "note": ""
  },
  {
   "property": "C37",
   "status": "partial",
   "theorems": [
    "Skwdro.C37_mean_consistent",
    "Skwdro.C37_sum_partial",
    "Skwdro.C37_sum_false"
   ],
   "note": "C37_sum_partial: **C37, largest true part** The sum-reduced robust loss differs from the sum of the unreduced ones by exactly `(m - 1) * (lam * rho^p - eps * log n)`; so it is the sum for a single data point, or when this factor vanishes. Missing: equality in general (next theorem). | C37_sum_false: **C37 fails** for the sum reduction: two data points, one sample each."
  },
  {
   "property": "C38",
   "status": "partial",
   "theorems": [
    "Skwdro.C38_no_samples",
    "Skwdro.C38_reuse_partial",
    "Skwdro.C38_explicit",
    "Skwdro.C38_zero_radius_false"
   ],
   "note": "C38_reuse_partial: (reuse) For a positive (or NaN) radius: after an evaluation with samples `z, zl`, followed by any number of evaluations without samples, an evaluation without samples gives exactly the outcome of the evaluation with `z, zl`, whatever happened earlier and however the loss changed in between. (Missing: radius 0, see below.) | C38_zero_radius_false: (violated for radius 0) With radius 0 and a loss returning one value per point, as for every wrapped model, an evaluation without samples fails with an AssertionError after samples were provided, although the evaluation with these samples succeeds."
  },
  {
   "property": "C39",
   "status": "partial",
   "theorems": [
    "Skwdro.C39_last_call_partial",
    "Skwdro.C39_eval_false",
    "Skwdro.C39_train_true_false",
    "Skwdro.C39_train_flag_false",
    "Skwdro.C39_eval_value_false"
   ],
   "note": "C39_last_call_partial: (what happens instead) After any sequence of calls, both flags only depend on the last call: they are on after `train(True)` and off after `eval()`, `train()` and `train(False)`. In particular `train()` does leave ERM mode. (Missing: `eval()` entering ERM mode, `train(True)` leaving it.) | C39_eval_false: (violated) `eval()` never puts the loss in ERM mode, after any history. | C39_train_true_false: (violated) `train(True)` always puts the loss in ERM mode, after any history. | C39_train_flag_false: (violated) `train()` turns torch's training flag off, after any history. | C39_eval_value_false: (violated, consequence) after `eval()` the loss still evaluates to its robust value: the flag read by the evaluation is the one of a freshly built loss."
  },
  {
   "property": "C40",
   "status": "partial",
   "theorems": [
    "Skwdro.C40_hyper_partial",
    "Skwdro.C40_constructed",
    "Skwdro.C40_hyper_constructed",
    "Skwdro.C40_nonpositive",
    "Skwdro.C40_trainable_partial",
    "Skwdro.C40_plain_partial",
    "Skwdro.C40_unfreezes_false",
    "Skwdro.C40_failure_freezes_false"
   ],
   "note": "C40_hyper_partial: (what is kept) Whatever the history, the flags of `rho` and `epsilon` and the number of parameters never change. | C40_trainable_partial: (nothing frozen) If no call fails, the model is in training mode and neither a parameter nor the multiplier is frozen, then no history changes any flag. (Missing: models with frozen parameters, in evaluation mode, or failing.) | C40_plain_partial: (no importance sampling) Evaluating the robust loss with importance sampling off, in ERM mode, or with radius `<= 0`, changes no flag, whether it fails or not. | C40_unfreezes_false: (violated) One importance-sampled evaluation, or one initialisation of the multiplier, of a positive radius: every parameter the user froze becomes trainable, and a model in evaluation mode ends in training mode. | C40_failure_freezes_false: (violated on failure) If differentiating the user's loss raises, all parameters and the multiplier are left frozen and the model is left in evaluation mode."
  },
  {
   "property": "C41",
   "status": "proved",
   "theorems": [
    "Skwdro.C41_value",
    "Skwdro.C41_squared",
    "Skwdro.C41_power_one",
    "Skwdro.C41_no_ball",
    "Skwdro.C41_constructed",
    "Skwdro.C41_nonneg",
    "Skwdro.C41_optimal"
   ],
   "note": ""
  },
  {
   "property": "C42",
   "status": "proved",
   "theorems": [
    "Skwdro.C42_default_hyperparameters",
    "Skwdro.C42_epsilon_formula"
   ],
   "note": ""
  },
  {
   "property": "C43",
   "status": "proved",
   "theorems": [
    "Skwdro.C43_no_tolerance",
    "Skwdro.C43_budget",
    "Skwdro.C43_budget_reached",
    "Skwdro.C43_no_tolerance_required",
    "Skwdro.C43_first_call_grad",
    "Skwdro.C43_first_calls_param"
   ],
   "note": ""
  },
  {
   "property": "C44",
   "status": "proved",
   "theorems": [
    "Skwdro.C44_gradient",
    "Skwdro.C44_parameters"
   ],
   "note": ""
  },
  {
   "property": "C45",
   "status": "proved",
   "theorems": [
    "Skwdro.C45_both",
    "Skwdro.C45_one",
    "Skwdro.C45_single",
    "Skwdro.C45_unknown",
    "Skwdro.C45_spellings"
   ],
   "note": ""
  },
  {
   "property": "C46",
   "status": "partial",
   "theorems": [
    "Skwdro.C46_relative_false",
    "Skwdro.C46_absolute_false",
    "Skwdro.C46_gradient_partial"
   ],
   "note": "C46_relative_false: (violated, relative) Monitoring the motion of lambda relatively never stops, whatever the trajectory of lambda: even if it is constant. | C46_absolute_false: (violated, absolute) Monitoring the motion of lambda absolutely stops exactly from the third call on, whatever the trajectory of lambda: even if it moves arbitrarily far. | C46_gradient_partial: (what holds) Monitoring lambda by its gradient works: call `k` stops exactly when it is not the first one and the gradient is below the tolerance, relatively to the first one or absolutely. (Missing: the parameter metric.)"
  },
  {
   "property": "C47",
   "status": "partial",
   "theorems": [
    "Skwdro.C47_shared_false",
    "Skwdro.C47_absolute_partial",
    "Skwdro.C47_no_tolerance_partial"
   ],
   "note": "C47_shared_false: (violated) A condition with the default settings (gradient metric, relative, monitoring theta) shared by two fits, as the default argument of the estimators is: after a first fit of at least one iteration whose first gradient had norm `n0`, the second fit is compared to `n0` from its very first iteration, so that it stops there when its first gradient is below `tol * n0`, whereas a fit with its own condition never stops at its first iteration. | C47_absolute_partial: (what holds) In absolute mode with the gradient metric, decisions from the second iteration of a fit on do not depend on fits that used the condition before. (Missing: the first iteration, the relative mode, the parameter metric.) | C47_no_tolerance_partial: (what holds) A condition with tolerances `<= 0` carries nothing from one fit to the next."
  },
  {
   "property": "C48",
   "status": "proved",
   "theorems": [
    "Skwdro.C48_presampled",
    "Skwdro.C48_postsampled",
    "Skwdro.C48_never_too_long",
    "Skwdro.C48_stopping_rule"
   ],
   "note": ""
  },
  {
   "property": "C49",
   "status": "partial",
   "theorems": [
    "Skwdro.C49_presampled",
    "Skwdro.C49_postsampled_false",
    "Skwdro.C49_postsampled_partial"
   ],
   "note": "C49_postsampled_false: (violated, post-sampled) No evaluation is ever the ordinary loss, pre-training included: with a positive number of pre-training steps, a completed fit evaluates the robust loss before the multiplier is initialised. | C49_postsampled_partial: (what holds, post-sampled) Training after the initialisation of the multiplier is on the robust loss. (Missing: the pre-training.)"
  },
  {
   "property": "C50",
   "status": "proved",
   "theorems": [
    "Skwdro.C50_flag_kept",
    "Skwdro.C50_recorded_evaluation"
   ],
   "note": ""
  },
  {
   "property": "C51",
   "status": "partial",
   "theorems": [
    "Skwdro.C51_result_partial",
    "Skwdro.C51_empty_false",
    "Skwdro.C51_multiplier"
   ],
   "note": "C51_result_partial: (what holds) When nothing external raises and at least one training iteration is requested, solving returns the coefficients, intercept and multiplier of the final state and the last recorded loss; the multiplier is reported as 0 unless `rho > 0`. (Missing: schedules without training iterations.) | C51_empty_false: (violated) A schedule without training iterations: pre-sampled solving fails with an IndexError, after having pre-trained; so does post-sampled solving when there is no pre-training either."
  },
  {
   "property": "C52",
   "status": "proved",
   "theorems": [
    "Skwdro.C52_integer",
    "Skwdro.C52_default_exact",
    "Skwdro.C52_pair",
    "Skwdro.C52_bad_split",
    "Skwdro.C52_default_schedule"
   ],
   "note": ""
  },
  {
   "property": "C53",
   "status": "partial",
   "theorems": [
    "Skwdro.C53_composite_partial",
    "Skwdro.C53_one_step_partial",
    "Skwdro.C53_projection_exact_partial",
    "Skwdro.C53_empty_schedule_false",
    "Skwdro.C53_who_clamps_partial",
    "Skwdro.C53_adamw_false",
    "Skwdro.C53_lbfgs_false"
   ],
   "note": "C53_composite_partial: (composite optimizer) Starting from a non-negative multiplier, any history of steps (any inner optimizer, any gradients, with or without schedulers over at least one iteration), state loadings and resets goes through, and the multiplier is non-negative. | C53_one_step_partial: (composite optimizer) Even from a negative multiplier, one step suffices. (Missing: the default optimizers without adaptation, AdamW and LBFGS.) | C53_projection_exact_partial: the projection does not alter non-negative updates, nor the parameters | C53_empty_schedule_false: (violated) Without robust iterations (`n_iter=(pre, 0)`, \"prodigy\"), the schedule of the multiplier is empty: every step raises a ZeroDivisionError, after the parameters were updated and before the multiplier is projected. | C53_who_clamps_partial: which optimizers project: with adaptation (post-sampled only), never otherwise | C53_adamw_false: (violated, AdamW) `adapt=None`, post-sampled, default learning rate 5e-2: for every radius `rho >= 1`, from the multiplier set by the constructor (`1e-3 / rho`), one step on a gradient `rho` (the gradient of the dual in lambda when all samples sit on the data) makes the multiplier negative, and nothing projects it back. | C53_lbfgs_false: (violated, LBFGS) Pre-sampled, default learning rate 1: the same, when only the multiplier has a gradient."
  },
  {
   "property": "C54",
   "status": "partial",
   "theorems": [
    "Skwdro.C54_roundtrip_partial",
    "Skwdro.C54_reset_partial",
    "Skwdro.C54_groups_false",
    "Skwdro.C54_groups_list_partial"
   ],
   "note": "C54_roundtrip_partial: Loading a saved state restores both inner optimizers, learning rates included, whatever happened in between, and touches neither parameters nor multiplier. (Missing: the positions of the schedulers, see C110.) | C54_reset_partial: After any history, exceptions included, resetting the multiplier's state restores the state it was created with, and nothing else changes. (Missing: the position of its scheduler, see C110.) | C54_groups_false: (violated) Given the generator `module.parameters()`, as the constructor of the post-sampled loss does, the composite optimizer itself only knows the multiplier, although its inner optimizer trains all parameters: none of the parameters is visible in its groups. | C54_groups_list_partial: (what holds) Given a list, all parameters are visible."
  },
  {
   "property": "C55",
   "status": "proved",
   "theorems": [
    "Skwdro.C55_step",
    "Skwdro.C55_run",
    "Skwdro.C55_sgd"
   ],
   "note": ""
  },
  {
   "property": "C56",
   "status": "partial",
   "theorems": [
    "Skwdro.C56_where_partial",
    "Skwdro.C56_second_tensor_false",
    "Skwdro.C56_second_group_false",
    "Skwdro.C56_conflict_false",
    "Skwdro.C56_missing_gradient_false",
    "Skwdro.C56_single_partial"
   ],
   "note": "C56_where_partial: (what holds for any number of groups and tensors) Groups with at most one rule each, any inner optimizer that does not raise: if a step raises, there is a first tensor to blame \u2014 a multiplicative one with a value that is not positive, or one to clip without a gradient \u2014 and the exception tells which. It and all tensors after it are unchanged. All tensors before it, in the order of the groups, are left as prepared: in logarithmic scale, negated, or with clipped gradients. (Missing: that the latter are restored.) | C56_second_tensor_false: (violated) Within one group too: whatever the inner optimizer, if the second of two multiplicative tensors holds a value that is not positive, the first one has been replaced by its logarithm. | C56_second_group_false: (violated) Whatever the inner optimizer, stepping two multiplicative groups the second of which holds a non-positive value is refused, but the first group has been replaced by its logarithm. | C56_conflict_false: (violated) A group marked both `mwu` and `non_neg` is refused *after* the inner step: its values are left in logarithmic scale and already updated. With SGD, for all positive values and all gradients. | C56_missing_gradient_false: (violated) Whatever the inner optimizer, with a multiplicative group followed by one whose gradients are to be clipped but of which one tensor has no gradient yet: the step is refused with an `AttributeError`, and the first group has been replaced by its logarithm. | C56_single_partial: (what holds) A single group, without conflicting rules, with a single tensor: if the step is refused, nothing has changed. (Missing: several groups, several tensors, conflicting rules.)"
  },
  {
   "property": "C57",
   "status": "proved",
   "theorems": [
    "Skwdro.C57_tuple",
    "Skwdro.C57_dict",
    "Skwdro.C57_dict_refused",
    "Skwdro.C57_others",
    "Skwdro.C57_idempotent"
   ],
   "note": ""
  },
  {
   "property": "C58",
   "status": "proved",
   "theorems": [
    "Skwdro.C58_no_crash",
    "Skwdro.C58_returns"
   ],
   "note": ""
  },
  {
   "property": "C59",
   "status": "partial",
   "theorems": [
    "Skwdro.C59_nonzero_partial",
    "Skwdro.C59_zero_false",
    "Skwdro.C59_large_radius_false",
    "Skwdro.C59_zero_iff",
    "Skwdro.C59_saa_iff",
    "Skwdro.C59_exact_partial",
    "Skwdro.C59_two_candidates"
   ],
   "note": "C59_nonzero_partial: C59, partial: when the radius is small enough for the solver's search to apply (the demands other than the second largest sum to more than `n * rho`) and the returned order quantity is not zero, that quantity minimises the worst-case expected cost over the Wasserstein ball. Missing: the other returns, which can be wrong (`C59_zero_false`, `C59_large_radius_false`). | C59_zero_false: C59 is false: with radius 0 on the demands 1 and 100 (prices 5 and 7) the solver answers 0, whose worst-case cost 0 is beaten by ordering 1, which costs -2 under the only distribution of the ball. | C59_large_radius_false: C59 is false in a second way: with one demand of 10 and radius 100 the solver orders 10, whose worst-case cost is at least 50, while ordering nothing costs 0 whatever happens. | C59_exact_partial: (exactly when it holds) With an exact external solver, prices `k > 0`, `u >= 0` and non-negative demands, the order returned by the dedicated solver is of least worst-case cost exactly when it is zero and no order has an average cost below `-u * rho`, or it is positive and its own average cost is at most `-u * rho`."
  },
  {
   "property": "C60",
   "status": "proved",
   "theorems": [
    "Skwdro.C60_program2",
    "Skwdro.C60_program",
    "Skwdro.C60_solver2",
    "Skwdro.C60_solver"
   ],
   "note": ""
  },
  {
   "property": "C61",
   "status": "partial",
   "theorems": [
    "Skwdro.C61_worst_case",
    "Skwdro.C61_solver",
    "Skwdro.C61_zero_radius_false"
   ],
   "note": "C61_zero_radius_false: C61. Zero (or negative) radii, which the estimator accepts, are refused."
  },
  {
   "property": "C62",
   "status": "proved",
   "theorems": [
    "Skwdro.C62_certificate",
    "Skwdro.C62_certificate0",
    "Skwdro.C62_exact",
    "Skwdro.C62_solver"
   ],
   "note": ""
  },
  {
   "property": "C63",
   "status": "proved",
   "theorems": [
    "Skwdro.C63_polytope",
    "Skwdro.C63_optimal_polytope",
    "Skwdro.C63_polytope_returns",
    "Skwdro.C63_certificate",
    "Skwdro.C63_exact",
    "Skwdro.C63_solver",
    "Skwdro.C63_optimal"
   ],
   "note": ""
  },
  {
   "property": "C64",
   "status": "proved",
   "theorems": [
    "Skwdro.C64_encoding",
    "Skwdro.C64_binary_predict",
    "Skwdro.C64_single_class",
    "Skwdro.C64_multiclass_predict"
   ],
   "note": ""
  },
  {
   "property": "C65",
   "status": "partial",
   "theorems": [
    "Skwdro.C65_binary_partial",
    "Skwdro.C65_no_intercept_false",
    "Skwdro.C65_dimension_one_false",
    "Skwdro.C65_multiclass_false"
   ],
   "note": "C65_binary_partial: (partial: see the violations below) Two classes, dedicated solver, or torch solver with an intercept in dimension at least two: `predict_proba` returns on every data set one row per sample, of two non-negative numbers summing to one; the second is the logistic function of the score that `predict` thresholds. | C65_no_intercept_false: (violated) Without an intercept, after a fit with the torch solver on two classes, `predict_proba` raises `TypeError` on every data set. | C65_dimension_one_false: (violated) In dimension one, after a fit with the torch solver on two classes with an intercept, `predict_proba` returns a single row of `2 N` numbers instead of `N` rows of two. | C65_multiclass_false: (violated) With more than two classes `predict_proba` returns the raw affine scores, not probabilities: for a model without intercept the row of the origin is made of zeros, for every fit."
  },
  {
   "property": "C66",
   "status": "partial",
   "theorems": [
    "Skwdro.C66_route_partial",
    "Skwdro.C66_documented_partial",
    "Skwdro.C66_portfolio_false",
    "Skwdro.C66_bare_name_false",
    "Skwdro.C66_unknown_false",
    "Skwdro.C66_fit"
   ],
   "note": "C66_route_partial: What every estimator does with every solver name (full characterisation of the accepted ones): the deprecated name raises a warning as an error, 'dedicated' runs the dedicated solver except for `Weber` which refuses it, a name containing 'torch' runs the torch solver, any other name is refused. | C66_documented_partial: (partial: `Portfolio` is excluded, see `C66_portfolio_false`) The documented names select the documented sampling: '_pre' pre-samples, '_post' post-samples, for every estimator but `Portfolio`. | C66_portfolio_false: (violated) `Portfolio` does the opposite: '_pre' post-samples and '_post' pre-samples. | C66_bare_name_false: (violated) The bare name 'entropic_torch' does not mean the same thing everywhere: it pre-samples for `NewsVendor`, post-samples for the others. | C66_unknown_false: (violated) Unknown names are not all refused: whatever surrounds it, 'torch' is accepted, and a trailing 'post' that is not the documented name is read as pre-sampling by every estimator."
  },
  {
   "property": "C67",
   "status": "partial",
   "theorems": [
    "Skwdro.C67_logistic_partial",
    "Skwdro.C67_linreg_partial",
    "Skwdro.C67_logistic_trained",
    "Skwdro.C67_linreg_trained",
    "Skwdro.C67_weber_trained_false",
    "Skwdro.C67_newsvendor_false",
    "Skwdro.C67_weber_false",
    "Skwdro.C67_portfolio_partial"
   ],
   "note": "C67_logistic_partial: (partial: see the violations) Logistic regression with default arguments: fits all data with at least two classes, provided the training itself returns, and then predicts on all data. | C67_linreg_partial: (partial) Linear regression with torch and a supported cost fits all data, if training returns, and then predicts one number per sample on all data, an affine function of it. | C67_weber_trained_false: (violated) A Weber estimator with default arguments fits all data through the actual training loops, but can never be scored. | C67_newsvendor_false: (violated) A newsvendor with default arguments can never be fitted: its default solver is the deprecated name. | C67_weber_false: (violated) A Weber estimator with default arguments fits all data (if training returns), but can never be scored. | C67_portfolio_partial: , and the assumptions of the statements above are met: the default portfolio, or one with any admissible risk parameters, fits all data with an exact external solver, and is then scored on all data of any dtype."
  },
  {
   "property": "C68",
   "status": "partial",
   "theorems": [
    "Skwdro.C68_labelled_partial",
    "Skwdro.C68_unlabelled_false",
    "Skwdro.C68_accessors_partial",
    "Skwdro.C68_setters_partial"
   ],
   "note": "C68_labelled_partial: (labelled half) Whatever the caller does afterwards with the arrays they hold (in particular overwriting those the distribution was built from), in any order and number, a labelled distribution still reads as the data it was built from. | C68_unlabelled_false: is false for unlabelled distributions: the caller's array is kept by reference, so every in-place change of it shows. | C68_accessors_partial: (accessors) The label accessors fail on every unlabelled distribution and the plain one on every labelled distribution, also after any successful assignment. | C68_setters_partial: (assignment) Assigning anything but an array fails with TypeError; assigning an array makes exactly that accessor return it."
  },
  {
   "property": "C69",
   "status": "proved",
   "theorems": [
    "Skwdro.C69_grid",
    "Skwdro.C69_choice",
    "Skwdro.C69_construct"
   ],
   "note": ""
  },
  {
   "property": "C70",
   "status": "partial",
   "theorems": [
    "Skwdro.C70_scalar_partial",
    "Skwdro.C70_scale_false",
    "Skwdro.C70_vector_partial",
    "Skwdro.C70_range_false"
   ],
   "note": "C70_scalar_partial: (partial: dimension one) The value computed is the exact conjugate of `n\u00b2` times the documented function. For one sample it is the documented conjugate; the infinite value is exactly the unbounded case. | C70_scale_false: is false for two samples or more (`1 / 2 * n` is parsed as `n / 2`): the documented conjugate is `n\u00b2` times the value returned, hence different whenever `z` and a second derivative are non-zero. | C70_vector_partial: (partial: `z` in the range of `A`, and `n\u00b2` times the documented function) With a Moore-Penrose pseudo-inverse, the value computed for vectors is the exact conjugate of `n\u00b2` times the documented function. | C70_range_false: is false for vectors outside the range (the test for it never succeeds): the documented conjugate is infinite, a number is returned."
  },
  {
   "property": "C71",
   "status": "partial",
   "theorems": [
    "Skwdro.C71_engine_check_false",
    "Skwdro.C71_engine_check_partial"
   ],
   "note": "C71_engine_check_false: (negation) The two-step decoder accepts a five-field code of a foreign engine, which the one-step decoder refuses. | C71_engine_check_partial: (partial: all codes except five-field ones in the two-step decoder) A code whose first field is not the engine `t` is refused by the one-step decoder, and by the two-step decoder when it has four fields."
  },
  {
   "property": "C72",
   "status": "partial",
   "theorems": [
    "Skwdro.C72_pretraining_false",
    "Skwdro.C72_importance_false",
    "Skwdro.C72_postsampled_partial"
   ],
   "note": "C72_pretraining_false: (violated) A pre-sampled fit interrupted while pre-training leaves the loss in ordinary (ERM) mode: any optimizer that first calls the closure, any loss that raises. | C72_importance_false: (violated) A pre-sampled training monitored on parameters, interrupted while the loss of an iteration is evaluated, leaves importance sampling off although the user had it on. | C72_postsampled_partial: (what holds) Post-sampled fits, interrupted or not, keep the importance-sampling flag and end in robust mode. (Missing: pre-sampled fits.)"
  },
  {
   "property": "C73",
   "status": "partial",
   "theorems": [
    "Skwdro.C73_presampled",
    "Skwdro.C73_postsampled_false"
   ],
   "note": "C73_postsampled_false: (violated, post-sampled) The last loss, reported as the robust loss, was evaluated *before* the last optimizer step: the returned parameters are not those it is the loss of."
  },
  {
   "property": "C74",
   "status": "proved",
   "theorems": [
    "Skwdro.C74_weber",
    "Skwdro.C74_shape",
    "Skwdro.C74_flat_refused"
   ],
   "note": ""
  },
  {
   "property": "C75",
   "status": "partial",
   "theorems": [
    "Skwdro.C75_column_partial",
    "Skwdro.C75_flat_false"
   ],
   "note": "C75_column_partial: (what holds) With labels as a column the quadratic loss returns one squared error per sample, plus the ridge penalty, on every batch. | C75_flat_false: (violated) With flat labels, `n >= 2` samples give an `n x n` table of losses: entry `(r, c)` compares the prediction of sample `r` with the label of sample `c`."
  },
  {
   "property": "C76",
   "status": "partial",
   "theorems": [
    "Skwdro.C76_order_false",
    "Skwdro.C76_equal_partial",
    "Skwdro.C76_portfolio_partial"
   ],
   "note": "C76_order_false: (violated) Decoding puts the third field in the power and the fourth in the norm order, the opposite of the documented `engine-id-norm-power`: so a code naming distinct norm order `k` and power `p` gives a cost whose norm order is not `k`. | C76_equal_partial: (what holds) When both numbers agree \u2014 as in the default codes of the regressions \u2014 the documented reading is right. | C76_portfolio_partial: (what holds) The dedicated portfolio solver does read the third field as its norm order (see C63) and ignores the fourth."
  },
  {
   "property": "C77",
   "status": "partial",
   "theorems": [
    "Skwdro.C77_newsvendor_partial",
    "Skwdro.C77_newsvendor_products_false",
    "Skwdro.C77_name_false",
    "Skwdro.C77_weber_false",
    "Skwdro.C77_weber_renamed_false",
    "Skwdro.C77_portfolio_dedicated_partial",
    "Skwdro.C77_portfolio_risk_false",
    "Skwdro.C77_portfolio_torch_partial",
    "Skwdro.C77_portfolio_dtype_false"
   ],
   "note": "C77_newsvendor_partial: (partial: one product; see the violations) The score of a fitted newsvendor is minus the average newsvendor cost of its order over the evaluation data, whatever the data it was fitted on, for the dedicated solver and solver names containing 'entropic'. | C77_newsvendor_products_false: (violated) With several products the loss trained on is that of the row means (see `newsvendorFit`) but the score averages over products: for every fitted order `th > 0` and unit revenue `u \u2260 0` the score on the demands `(0, 2 th)` is not minus the trained loss. | C77_name_false: (violated) Solver names with 'torch' but without 'entropic' are fitted, but scores then raise `ValueError` on all data, for the three estimators. | C77_weber_false: (violated) A fitted Weber estimator can never be scored, on any data: the evaluation passes no weights, which the loss requires, or refuses the solver name. | C77_weber_renamed_false: (violated) Renaming the solver of a fitted Weber estimator to `dedicated` makes it scorable, but the score is the average inner product of the points with the fitted position: for a position away from the origin and one point at it, it is positive, though minus a distance never is. | C77_portfolio_dedicated_partial: (partial: no risk term) Without risk term (`eta = 0`) the score of a portfolio fitted by the dedicated solver is minus the average loss of its weights and threshold, on all data of any dtype. | C77_portfolio_risk_false: (violated) With a risk term (`eta > 0`) the score of a portfolio fitted by the dedicated solver forgets it: on returns all equal to -1 it is always above minus the average loss trained on. | C77_portfolio_torch_partial: (partial: evaluation data in single precision, see `C77_portfolio_dtype_false`) The score of a portfolio fitted by torch under a name containing 'entropic' is minus the average loss of its weights (a portfolio) at the trained threshold. | C77_portfolio_dtype_false: (violated) On data in another precision (numpy's default, double) a portfolio fitted by torch cannot be scored."
  },
  {
   "property": "C78",
   "status": "partial",
   "theorems": [
    "Skwdro.C78_condition_order",
    "Skwdro.C78_condition_false",
    "Skwdro.C78_constructors_partial",
    "Skwdro.C78_nan_false",
    "Skwdro.C78_unchecked_false",
    "Skwdro.C78_defaults"
   ],
   "note": "C78_condition_false: (violated) The other settings are not checked at construction: a condition with a misspelt monitoring is built, and it is its first call that fails (so does training, after its first step). | C78_constructors_partial: (partial: NaN passes, see `C78_nan_false`) Every constructor refuses a negative radius with `ValueError`; `Portfolio` moreover refuses exactly the risk aversions below 0, the confidence levels outside (0,1], the negative regularisations and sample counts, and `solver_reg=None` (with `TypeError`). What is accepted is stored unchanged. | C78_nan_false: (violated) A NaN radius is accepted by every constructor. | C78_unchecked_false: (violated) Only `Portfolio` checks anything but the radius: the other constructors accept a negative regularisation and a negative number of samples."
  },
  {
   "property": "C79",
   "status": "partial",
   "theorems": [
    "Skwdro.C79_linreg_dedicated_partial",
    "Skwdro.C79_logistic_partial",
    "Skwdro.C79_multiclass_partial",
    "Skwdro.C79_ignored_false",
    "Skwdro.C79_torch_linreg_false"
   ],
   "note": "C79_linreg_dedicated_partial: (partial: see `C79_torch_linreg_false`) The dedicated linear regression without intercept has none, on all data: with an exact external solver, whatever is fitted predicts a linear function, zero at the origin. | C79_logistic_partial: (partial) Binary logistic regression without intercept has a linear score, whatever the solver: on a sample at the origin it always answers the second class. | C79_multiclass_partial: (partial) Logistic regression with more classes and without intercept has linear scores: at the origin all are zero, and it always answers the first class. | C79_ignored_false: (violated) With torch, the fit of a linear regression does not depend on `fit_intercept` at all. | C79_torch_linreg_false: (violated) With torch, linear regression ignores `fit_intercept=False`: on all data, a default estimator with `fit_intercept=False` whose training moves the offset to one predicts one at the origin."
  },
  {
   "property": "C80",
   "status": "proved",
   "theorems": [
    "Skwdro.C80_linreg",
    "Skwdro.C80_logistic",
    "Skwdro.C80_multiclass",
    "Skwdro.C80_true_class",
    "Skwdro.C80_signs",
    "Skwdro.C80_weber",
    "Skwdro.C80_newsvendor",
    "Skwdro.C80_portfolio",
    "Skwdro.C80_linreg_presampled",
    "Skwdro.C80_logistic_presampled"
   ],
   "note": ""
  },
  {
   "property": "C81",
   "status": "partial",
   "theorems": [
    "Skwdro.C81_binary_partial",
    "Skwdro.C81_multiclass_false",
    "Skwdro.C81_linreg_partial"
   ],
   "note": "C81_binary_partial: (partial: two classes, see `C81_multiclass_false`) Binary prediction returns an array of shape `(n_samples,)`, on all data. | C81_multiclass_false: (violated) With more than two classes the array always has shape `(n_samples, 1)` instead. | C81_linreg_partial: (partial) The linear regression fitted by torch predicts an array of shape `(n_samples,)`; by the dedicated solver too, if the external solver is exact."
  },
  {
   "property": "C82",
   "status": "partial",
   "theorems": [
    "Skwdro.C82_false"
   ],
   "note": "C82_false: is false: fitting the generic statistical tuner fails for every estimator of the package, solver and data. When the first fit succeeds the failure is an AttributeError; the radius chosen by the user has been overwritten."
  },
  {
   "property": "C83",
   "status": "partial",
   "theorems": [
    "Skwdro.C83_radius_partial",
    "Skwdro.C83_partial",
    "Skwdro.C83_torch_false",
    "Skwdro.C83_single_false",
    "Skwdro.C83_covariance_false",
    "Skwdro.C83_matrix_partial",
    "Skwdro.C83_kink_false"
   ],
   "note": "C83_radius_partial: what the radius is: `n r\u00b2` is the 95% quantile of the values of the conjugate at the draws, a non-negative number | C83_partial: (partial: at least two samples, none at the kink of the fitted loss, see the refutations below) Whatever numbers are drawn, the tuner computes a radius that is a non-negative number, leaves it in the estimator and returns the estimator refitted with it; the other arguments are unchanged. | C83_torch_false: is false with a torch solver: the tuner reads a threshold attribute these fits do not set. | C83_single_false: is false for a single sample, whatever the solver: the tuner always fails. | C83_covariance_false: is false as to what is drawn: the matrix given to the sampler has one row and column per sample, not one per parameter. | C83_matrix_partial: the matrix given to the sampler is that of the covariances between samples, over the `m + 1` coordinates of their gradients: the products of deviations from the row means, divided by `m`; it is symmetric and positive semi-definite, as the sampler requires. | C83_kink_false: is false with the dedicated solver (in exact arithmetic): with a risk term and `alpha n` not an integer, the optimal threshold of the first fit is the loss of some sample, where the loss is not differentiable, and the tuner fails on every data set."
  },
  {
   "property": "C84",
   "status": "partial",
   "theorems": [
    "Skwdro.C84_gradient",
    "Skwdro.C84_kink_partial",
    "Skwdro.C84_no_risk_false"
   ],
   "note": "C84_kink_partial: (partial: with a risk term, see `C84_no_risk_false`) Where the computation refuses a sample, the loss is indeed not differentiable. | C84_no_risk_false: (violated) Without risk term (`eta = 0`, the default) the portfolio loss is linear in the weights, hence differentiable everywhere, but samples whose return is minus the threshold are refused all the same."
  },
  {
   "property": "C85",
   "status": "partial",
   "theorems": [
    "Skwdro.C85_upper_partial",
    "Skwdro.C85_false"
   ],
   "note": "C85_upper_partial: (partial: upper bound, see `C85_false`) The value computed for a portfolio is never below the documented conjugate, whatever the conjugate norm orders, and equals it without risk term. | C85_false: is false with a risk term: two samples, one asset, one loss above the threshold (`eta = alpha = 1`, Euclidean norms): the value returned for `z = 1` is not the documented conjugate."
  },
  {
   "property": "C86",
   "status": "partial",
   "theorems": [
    "Skwdro.C86_fits_return_partial",
    "Skwdro.C86_linreg_partial",
    "Skwdro.C86_weber_partial",
    "Skwdro.C86_newsvendor_partial",
    "Skwdro.C86_portfolio_partial",
    "Skwdro.C86_logistic_partial",
    "Skwdro.C86_frozen_multiplier_false",
    "Skwdro.C86_other_sizes_false"
   ],
   "note": "C86_fits_return_partial: (partial: see `C86_frozen_multiplier_false` and `C86_other_sizes_false` for the two kinds of optimality conditions excluded) Whatever the data, the loss module, the noise, the optimizer (gradient-based, raising nothing by itself) and the optimality condition (any documented settings), a fit asked for at least one iteration with a non-negative or NaN radius returns: no shape error, missing gradient or missing sample can occur on the way. The parameters returned are those of the trained module, as many as at the start. | C86_linreg_partial: Linear regression trained by torch, pre- or post-sampled, fits all data (whatever the initial weights, the noise, the memory of the optimality condition and the optimizer). | C86_weber_partial: The Weber problem likewise. | C86_newsvendor_partial: The newsvendor trained by torch likewise, for demand vectors of any length. | C86_portfolio_partial: The portfolio trained by torch likewise. | C86_logistic_partial: Logistic regression trained by torch fits all data with at least two classes (any number of classes, with or without intercept). | C86_frozen_multiplier_false: (violated by conditions on the gradient of the multiplier) At radius zero the multiplier is frozen and has no gradient: whatever the data, the module, the noise and the optimizer, a fit whose optimality condition looks at the gradient of the multiplier (`monitoring` of the multiplier, alone or with the parameters) raises `ValueError`. | C86_other_sizes_false: (violated by a condition on the motion of the parameters that remembers another problem) Whatever the problem, if the memory holds parameters of another number (both numbers greater than one) the fit raises `RuntimeError`."
  },
  {
   "property": "C87",
   "status": "proved",
   "theorems": [
    "Skwdro.C87_reported_loss",
    "Skwdro.C87_linreg",
    "Skwdro.C87_logistic"
   ],
   "note": ""
  },
  {
   "property": "C88",
   "status": "partial",
   "theorems": [
    "Skwdro.C88_seeded_partial",
    "Skwdro.C88_weber",
    "Skwdro.C88_initial_weights_false"
   ],
   "note": "C88_seeded_partial: (partial: from the same initial parameters) With a seed, a fit depends only on its arguments, the initial parameters and the memory of the optimality condition: not on the state of torch's generator. | C88_initial_weights_false: (violated) The same `random_state` does not make linear regression reproducible: the initial weights are drawn before the generator is seeded. Two fits of the default estimator on the same data, in generator states from which different weights are drawn, return different coefficients (here with learning rate zero, on all data)."
  },
  {
   "property": "C89",
   "status": "proved",
   "theorems": [
    "Skwdro.C89_architecture_kept"
   ],
   "note": ""
  },
  {
   "property": "C90",
   "status": "partial",
   "theorems": [
    "Skwdro.C90_robust_loss",
    "Skwdro.C90_noise",
    "Skwdro.C90_schedule",
    "Skwdro.C90_newsvendor_l2_false",
    "Skwdro.C90_dedicated_l2_false",
    "Skwdro.C90_dedicated_cost_false",
    "Skwdro.C90_weber_kappa_false"
   ],
   "note": "C90_newsvendor_l2_false: (violated) The weight of the ridge penalty has no effect on the newsvendor, whatever the solver, | C90_dedicated_l2_false: nor on the two regressions with the dedicated solver, | C90_dedicated_cost_false: nor do two decodable cost codes make a difference to them; | C90_weber_kappa_false: and the label weight `kappa` of the Weber estimator is not read."
  },
  {
   "property": "C91",
   "status": "partial",
   "theorems": [
    "Skwdro.C91_lazy_false",
    "Skwdro.C91_deleted",
    "Skwdro.C91_none",
    "Skwdro.C91_init_labels",
    "Skwdro.C91_assigned",
    "Skwdro.C91_initialised",
    "Skwdro.C91_recentred",
    "Skwdro.C91_value",
    "Skwdro.C91_default_newsvendor",
    "Skwdro.C91_default_regressions",
    "Skwdro.C91_default_refused",
    "Skwdro.C91_default_none",
    "Skwdro.C91_documented_call_false",
    "Skwdro.C91_constructor"
   ],
   "note": "C91_lazy_false: (violated) A robust loss without sampler never builds one: whatever the losses and batches, in any sequence of forward passes, drawings of samples and readings of the sampler every single call fails with a ValueError, and there is still no sampler. | C91_documented_call_false: (violated) The documented call `loss.default_sampler(xi, xi_labels, sigma)` (doc/pytorch.rst:291) is refused by every loss on all data: the seed is mandatory."
  },
  {
   "property": "C92",
   "status": "proved",
   "theorems": [
    "Skwdro.C92_count",
    "Skwdro.C92_from_sampler"
   ],
   "note": ""
  },
  {
   "property": "C93",
   "status": "partial",
   "theorems": [
    "Skwdro.C93_adamw",
    "Skwdro.C93_lbfgs",
    "Skwdro.C93_adaptive",
    "Skwdro.C93_learning_rate_false",
    "Skwdro.C93_adapt_false",
    "Skwdro.C93_default_rate_false",
    "Skwdro.C93_trained",
    "Skwdro.C93_assigned"
   ],
   "note": "C93_learning_rate_false: (violated) `learning_rate` has no effect with adaptation, which is the default of post-sampled losses. | C93_adapt_false: (violated) `adapt` has no effect on pre-sampled losses, for any name, existing or not. | C93_default_rate_false: (violated) The documented default learning rate 0.05 of pre-sampled losses is not the actual one."
  },
  {
   "property": "C94",
   "status": "partial",
   "theorems": [
    "Skwdro.C94_linreg",
    "Skwdro.C94_logistic",
    "Skwdro.C94_newsvendor_partial",
    "Skwdro.C94_newsvendor_false",
    "Skwdro.C94_portfolio"
   ],
   "note": "C94_newsvendor_partial: Newsvendor with `solver=\"dedicated\"`, prices `k, u >= 0`, a non-negative radius and non-negative demands: for every data set the fit returns an order `theta >= 0`, which is either `0` or of least average cost, at the prices given to the estimator, on the demands (the mean of each row). The dual variable stored is `0` for the order `0`, and `u` otherwise. For `k > 0` the order is of least worst-case cost over the ball exactly when it is `0` and no order has an average cost below `-u * rho`, or is positive with an average cost of at most `-u * rho`. Missing: the remaining cases, where it is not (`C94_newsvendor_false`). | C94_newsvendor_false: (violated) The newsvendor fit is not always of least worst-case cost: for some prices, radius and non-negative demands the order it stores is not, whatever the other arguments and the external solver."
  },
  {
   "property": "C95",
   "status": "proved",
   "theorems": [
    "Skwdro.C95_strong_duality",
    "Skwdro.C95_bounded_iff",
    "Skwdro.C95_feasible_iff",
    "Skwdro.C95_unbounded_witness"
   ],
   "note": ""
  },
  {
   "property": "C96",
   "status": "proved",
   "theorems": [
    "Skwdro.C96_almost_sure",
    "Skwdro.C96_in_probability",
    "Skwdro.C96_forward",
    "Skwdro.C96_almost_sure_unlabelled",
    "Skwdro.C96_in_probability_unlabelled",
    "Skwdro.C96_forward_unlabelled",
    "Skwdro.C96_forward_label_noise",
    "Skwdro.C96_forward_unlabelled_laplace",
    "Skwdro.C96_forward_laplace",
    "Skwdro.C96_forward_label_noise_laplace"
   ],
   "note": ""
  },
  {
   "property": "C97",
   "status": "proved",
   "theorems": [
    "Skwdro.C97_underestimates_unlabelled",
    "Skwdro.C97_more_samples_unlabelled",
    "Skwdro.C97_underestimates",
    "Skwdro.C97_more_samples"
   ],
   "note": ""
  },
  {
   "property": "C98",
   "status": "proved",
   "theorems": [
    "Skwdro.C98_covers_adversaries",
    "Skwdro.C98_worst_case",
    "Skwdro.C98_covers_adversaries_unlabelled",
    "Skwdro.C98_worst_case_unlabelled"
   ],
   "note": ""
  },
  {
   "property": "C99",
   "status": "partial",
   "theorems": [
    "Skwdro.C99_plain_limit",
    "Skwdro.C99_same_limit",
    "Skwdro.C99_forward",
    "Skwdro.C99_labelled_limit_partial",
    "Skwdro.C99_labelled_false"
   ],
   "note": "C99_labelled_limit_partial: With labels, the robust loss on `n` independent samples per point tends almost surely to the robust objective with expectations under the laws of the samples when importance sampling is off, but under the displaced laws when it is on. Partial: with importance sampling this is not the advertised objective (next theorem). | C99_labelled_false: (violated with labels) With labels and importance sampling the robust loss estimates another value: `robustify` with the squared Euclidean cost on the inputs, loss `x^2 + x + y`, one data point, unit radius, noise and regularisation, at multiplier one. The same normal samples give `3/2`, the advertised objective, without importance sampling and `2` with it, whatever the random generators."
  },
  {
   "property": "C100",
   "status": "proved",
   "theorems": [
    "Skwdro.C100_last_step",
    "Skwdro.C100_gradient_descent"
   ],
   "note": ""
  },
  {
   "property": "C101",
   "status": "proved",
   "theorems": [
    "Skwdro.C101_presampled",
    "Skwdro.C101_postsampled"
   ],
   "note": ""
  },
  {
   "property": "C102",
   "status": "partial",
   "theorems": [
    "Skwdro.C102_arguments_partial",
    "Skwdro.C102_untouched",
    "Skwdro.C102_set",
    "Skwdro.C102_set_unknown",
    "Skwdro.C102_none_false",
    "Skwdro.C102_empty"
   ],
   "note": "C102_arguments_partial: (partial: `opt_cond=None` is not kept, see `C102_none_false`) Whatever training does, and whatever a program does with this and any other estimator (constructions, fits that return or raise, clones, changes of parameters of others), the arguments `get_params` returns are those last set: same class, same values; the radius as a float of the same number; the same condition unless it was `None`. | C102_none_false: (false for `None`) An estimator given no condition has one after its first fit with torch, whether it returns or raises: `get_params` does not return the `None` that was set. The condition is a new object, keeping the memory of this training."
  },
  {
   "property": "C103",
   "status": "partial",
   "theorems": [
    "Skwdro.C103_frame_partial",
    "Skwdro.C103_independent_partial",
    "Skwdro.C103_sound",
    "Skwdro.C103_weber",
    "Skwdro.C103_dedicated",
    "Skwdro.C103_trained",
    "Skwdro.C103_shared_false"
   ],
   "note": "C103_frame_partial: (partial: when the condition is shared, see `C103_shared_false`) Whatever training does, an estimator whose optimality condition is its own is unaffected by anything a program does with others: its arguments, and the settings and memory of its condition, stay as they are. | C103_independent_partial: (partial, likewise) So its fit has the same outcome whether or not others were constructed, cloned, changed and fitted before: the same result or the same exception. (For trainings that do not read torch's generator before seeding it.) | C103_shared_false: (violated) The conditions given by default are shared by all estimators of a class, and remember: an estimator which, right after its construction, finds 2 in two steps, stops at 1 if another one was fitted on other data before."
  },
  {
   "property": "C104",
   "status": "partial",
   "theorems": [
    "Skwdro.C104_after_fit_false",
    "Skwdro.C104_clone",
    "Skwdro.C104_cloned_partial",
    "Skwdro.C104_as_new_partial",
    "Skwdro.C104_refused_false",
    "Skwdro.C104_memory_false",
    "Skwdro.C104_refit_false"
   ],
   "note": "C104_after_fit_false: (violated) Once a condition on the motion of the parameters (built anew) was used by a fit, whatever the estimator, settings and data, no estimator using it can be cloned: the tensors it remembers are not copied by torch. | C104_cloned_partial: (partial: a used condition, see `C104_memory_false` and `C104_refused_false`) Cloning an estimator whose condition was not used yet succeeds whenever its arguments are accepted by the constructor. | C104_as_new_partial: (partial, likewise) The clone of an estimator whose condition was not used yet is as good as new: its fit has the outcome of the fit of an estimator constructed anew with the same arguments and a new condition with the same settings. | C104_refused_false: (false after a fit on motions) If the memory of the condition holds parameters, or a motion of the parameters or of the multiplier, the estimator cannot be cloned. | C104_memory_false: (violated) A clone of a fitted estimator remembers its training, unlike one built anew from the same arguments: on the same data the former stops at 1, the latter finds 2. | C104_refit_false: (violated) Nor is an estimator as new when fitted again: `fit` keeps what the condition remembers of the previous data."
  },
  {
   "property": "C105",
   "status": "partial",
   "theorems": [
    "Skwdro.C105_literals",
    "Skwdro.C105_any_literal_false",
    "Skwdro.C105_fields_partial"
   ],
   "note": "C105_any_literal_false: (negation of: every number literal may be written in a code) The literal `1e-3`, which python itself prints for small powers, cannot be used as the power of a cost code: both decoders raise `ValueError`. | C105_fields_partial: (partial: literals without a minus sign) Any literals without a minus sign can be used for the power, the norm order and the label weight, and are read with the values they denote."
  },
  {
   "property": "C106",
   "status": "partial",
   "theorems": [
    "Skwdro.C106_one_step",
    "Skwdro.C106_two_step",
    "Skwdro.C106_documented_false"
   ],
   "note": "C106_documented_false: (negation of: only the documented formats are accepted) The one-step decoder accepts a label weight followed by anything at all, and both accept a label weight for a cost without labels, which then ignores it."
  },
  {
   "property": "C107",
   "status": "partial",
   "theorems": [
    "Skwdro.C107_single_number_false",
    "Skwdro.C107_to_single_number_false",
    "Skwdro.C107_after_error_false",
    "Skwdro.C107_program_partial",
    "Skwdro.C107_refit_false",
    "Skwdro.C107_reuse_partial",
    "Skwdro.C107_other_size_false"
   ],
   "note": "C107_single_number_false: (violated) A condition on the motion of the parameters that was last used on a model with a single parameter does not raise on a model with any number of parameters: all of them are compared with that single number. If they are all equal to it the call reports convergence, at the first iteration of the new training, whatever the tolerance and the rest of the memory. | C107_to_single_number_false: (violated) The other way round: on a model with a single parameter, whatever the parameters in memory, the call answers, comparing this parameter with all of those. | C107_after_error_false: (violated) What the `RuntimeError` on a model of another size leaves behind. If the memory held two iterates, it is the same with the last iterate replaced by the parameters of the new model, so that the very same call made again does not raise: it reports convergence, although nothing has been trained. If it held only the first iterate, that one stays, and every later call on a model of the new size raises again. | C107_program_partial: (partial: see `C107_refit_false` for conditions on the motion of the parameters) Whatever fits a program made before, of whatever estimators sharing their conditions or not, on whatever data, a fit returns a fitted estimator. Conditions on the motion of the iterates are used for one number of parameters each, and no condition looks at the gradient of the multiplier in a fit at radius zero. | C107_refit_false: (violated) Whatever the estimators `a` and `b`, which may be the same one, their settings and their data: if they use one condition on the motion of the parameters (built anew) and have different numbers of parameters (more than one each), then after `a.fit` has returned, `b.fit` raises `RuntimeError`. In particular an estimator cannot be fitted again on data with other features. | C107_reuse_partial: (partial: see `C107_other_size_false` for conditions on the motion of the parameters) A condition can serve any number of trainings, of whatever estimators, data and radii, one after the other: each of them returns. With a condition on the motion of the iterates the problems must have the same number of parameters. (At radius zero the condition must not look at the gradient of the multiplier, as in C86.) | C107_other_size_false: (violated) A condition on the motion of the parameters cannot be used for a second problem with another number of parameters (more than one each): whatever the two problems, the estimators and the optimizer, the first training returns and the second raises `RuntimeError`, as the condition still remembers the parameters of the first."
  },
  {
   "property": "C108",
   "status": "partial",
   "theorems": [
    "Skwdro.C108_values",
    "Skwdro.C108_labelled_partial",
    "Skwdro.C108_equal_batches",
    "Skwdro.C108_zero_radius",
    "Skwdro.C108_importance_false"
   ],
   "note": "C108_labelled_partial: End to end, for a wrapped labelled model and a decoded cost: every call returns, and the values satisfy the weighted average. Partial: without importance sampling (see `C108_importance_false`). | C108_importance_false: (violated with importance sampling) A batch is displaced only if none of its points has a zero gradient, so that the value depends on which points share a batch: here the two points 0 and 1 together, and each on its own."
  },
  {
   "property": "C109",
   "status": "partial",
   "theorems": [
    "Skwdro.C109_linreg_program",
    "Skwdro.C109_linreg",
    "Skwdro.C109_logistic_solver",
    "Skwdro.C109_portfolio_solver",
    "Skwdro.C109_logistic",
    "Skwdro.C109_portfolio",
    "Skwdro.C109_value",
    "Skwdro.C109_training_partial",
    "Skwdro.C109_zero_radius_false"
   ],
   "note": "C109_training_partial: Exact training for two positive radii: if a model and a multiplier minimise the robust loss for each radius, over the same models (`D`, with losses `L` on the same samples) and all non-negative multipliers, then the multiplier of the larger radius is smaller or equal, and the optimal robust loss grows at a rate (in `rho^p`) between the two multipliers. Partial: positive radii (see `C109_zero_radius_false`). | C109_zero_radius_false: (violated at radius 0) Passing from the radius 0 to a positive radius can lower the loss: radius 0 evaluates the data, a positive radius the samples alone, at the price of their cost. (Here already for the multiplier 1, hence for the best one.)"
  },
  {
   "property": "C110",
   "status": "partial",
   "theorems": [
    "Skwdro.C110_rates",
    "Skwdro.C110_mechanic",
    "Skwdro.C110_fit",
    "Skwdro.C110_model",
    "Skwdro.C110_multiplier_false",
    "Skwdro.C110_no_robust_false",
    "Skwdro.C110_restore_false",
    "Skwdro.C110_reset_false"
   ],
   "note": "C110_multiplier_false: (violated, multiplier) The schedule of the multiplier, as long as the robust training, already runs during pre-training. A fit that made all its `p + n` iterations, `0 < p < n`, ends with a positive learning rate for the multiplier; the rate was already below its initial value when the robust training began, zero after `n - p` of its `n` iterations, and increased at all following ones. | C110_no_robust_false: (violated) A schedule without robust iterations, `n_iter=(p, 0)`: no fit with \"prodigy\" ever returns, its first step raises (see C53_empty_schedule_false). | C110_restore_false: (violated, saved states) A state saved before the last of the `p + n` iterations and loaded into a new optimizer built for the same schedule: the next step should bring the model's learning rate to zero, as it does in the optimizer that made the previous steps, but leaves it positive, because saved states do not hold the position in the schedule. | C110_reset_false: (violated, reset) Resetting the multiplier's state after `p` iterations, `0 < p < n`, restores its initial learning rate but not its schedule: one step later the rate is below that of a schedule that starts over."
  },
  {
   "property": "C111",
   "status": "proved",
   "theorems": [
    "Skwdro.C111_loss",
    "Skwdro.C111_multiplier",
    "Skwdro.C111_radius",
    "Skwdro.C111_one_point"
   ],
   "note": ""
  },
  {
   "property": "C112",
   "status": "partial",
   "theorems": [
    "Skwdro.C112_loss_units",
    "Skwdro.C112_cost_units",
    "Skwdro.C112_data_units",
    "Skwdro.C112_defaults_partial",
    "Skwdro.C112_default_false"
   ],
   "note": "C112_defaults_partial: (partial: see `C112_default_false`) The default noise scale is in the unit of the data. The default regularisation is that of a loss independent of the unit of the data for costs of power 1 only: in general it is multiplied by `t^(p-1)`, up to its floor of `1e-7`. | C112_default_false: (violated by the default regularisation) Same data, radius and model in a unit half as large, same loss, everything else left to its default: the robust loss is another function of the multiplier (here it is smaller, for every positive multiplier)."
  },
  {
   "property": "C113",
   "status": "proved",
   "theorems": [
    "Skwdro.C113_tail_unlabelled",
    "Skwdro.C113_enough_unlabelled",
    "Skwdro.C113_forward_unlabelled",
    "Skwdro.C113_forward_unlabelled_laplace",
    "Skwdro.C113_tail",
    "Skwdro.C113_enough",
    "Skwdro.C113_forward",
    "Skwdro.C113_forward_laplace",
    "Skwdro.C113_forward_label_noise",
    "Skwdro.C113_forward_label_noise_laplace"
   ],
   "note": ""
  },
  {
   "property": "C114",
   "status": "partial",
   "theorems": [
    "Skwdro.C114_closure_partial",
    "Skwdro.C114_loss_false",
    "Skwdro.C114_mwu_false",
    "Skwdro.C114_max_false",
    "Skwdro.C114_bound_false",
    "Skwdro.C114_switch_false"
   ],
   "note": "C114_closure_partial: (what holds) Groups without rule or kept non-negative: stepping with a closure is calling the closure, then stepping. (Missing: the other rules; the loss returned by the closure.) | C114_loss_false: (violated) The value of the closure is never returned: an accepted step returns `None`, for all groups and losses. | C114_mwu_false: (violated) Multiplicative weights: the closure sees the logarithms of the parameters. Stepping with a closure uses the derivative of the loss at `log x`; calling the closure and then stepping uses the derivative at `x`. For the loss `x^2 / 2` at one, the first does not move whatever the learning rate. | C114_max_false: (violated) Maximisation: the closure sees the opposite of the parameters. For an even loss, such as `x^2 / 2`, stepping with a closure therefore descends where it should ascend. | C114_bound_false: (violated) Clipping: the gradients present before the step are clipped, then the closure replaces them by new ones, which are followed unclipped; and without previous gradients the step is refused. | C114_switch_false: (violated) Setting the key of a rule to `False` does not switch the rule off: for every optimizer, the step is the one of `True`; for multiplicative weights, non-positive values are refused."
  },
  {
   "property": "C115",
   "status": "proved",
   "theorems": [
    "Skwdro.C115_simplex",
    "Skwdro.C115_simplex_convex",
    "Skwdro.C115_descent"
   ],
   "note": ""
  },
  {
   "property": "C116",
   "status": "partial",
   "theorems": [
    "Skwdro.C116_linreg",
    "Skwdro.C116_unfitted_partial",
    "Skwdro.C116_unfitted_false",
    "Skwdro.C116_logistic_partial",
    "Skwdro.C116_relabel_false",
    "Skwdro.C116_multiclass_false",
    "Skwdro.C116_untrained_false",
    "Skwdro.C116_newsvendor_partial",
    "Skwdro.C116_portfolio_partial",
    "Skwdro.C116_weber_partial",
    "Skwdro.C116_training_false"
   ],
   "note": "C116_unfitted_partial: Linear regression none of whose fits returned: `predict` raises, `NotFittedError` when the data of every call was refused (see `C116_unfitted_false` for the other case). | C116_unfitted_false: (violated) Once a call raised after its data was accepted (solver or cost refused, training failed), an estimator that was never fitted counts as fitted: `predict` raises `AttributeError` instead of `NotFittedError`. | C116_logistic_partial: (partial: see the violations below) A fitted binary classifier whose later fits raise keeps all its predictions and probabilities, as long as the refused data have a single class, no sample, or the two classes it was fitted on. | C116_relabel_false: (violated) When a later fit raises on data with two other labels \u2014 its solver or cost code is refused, its training fails \u2014 the classifier keeps its coefficients but takes the labels of the refused data: every sample is then classified with the old rule and the new labels. | C116_multiclass_false: (violated) A classifier of more than two classes (and not as many as features) no longer predicts anything once `fit` was called with a single class: that call raises, and so does `predict` afterwards. | C116_untrained_false: (violated) When training a classifier of more than two classes raises, `predict` afterwards classifies with the layer training left, whether the estimator had been fitted before or not. | C116_newsvendor_partial: Newsvendor (partial: see `C116_training_false`): a call of `fit` that raises leaves `coef_`, and what `eval` computes with a solver whose name does not contain 'entropic'; if the call did not use a torch solver it leaves all of `eval`. | C116_portfolio_partial: Portfolio (partial: see `C116_training_false`). | C116_weber_partial: Weber point (partial: see `C116_training_false`). | C116_training_false: (violated) When training a newsvendor raises, `coef_` keeps the order of the earlier fit but the score becomes that of the order training left: attributes and methods disagree."
  },
  {
   "property": "C117",
   "status": "partial",
   "theorems": [
    "Skwdro.C117_linreg_outcome",
    "Skwdro.C117_linreg",
    "Skwdro.C117_logistic_outcome",
    "Skwdro.C117_logistic",
    "Skwdro.C117_outcome",
    "Skwdro.C117_newsvendor",
    "Skwdro.C117_portfolio",
    "Skwdro.C117_weber",
    "Skwdro.C117_stale_false",
    "Skwdro.C117_stale_threshold_false",
    "Skwdro.C117_dedicated_linreg",
    "Skwdro.C117_dedicated_logistic",
    "Skwdro.C117_dedicated_newsvendor",
    "Skwdro.C117_dedicated_portfolio",
    "Skwdro.C117_torch_linreg",
    "Skwdro.C117_torch_logistic",
    "Skwdro.C117_torch_newsvendor",
    "Skwdro.C117_torch_portfolio",
    "Skwdro.C117_torch_weber"
   ],
   "note": "C117_stale_false: (violated) Fits with a dedicated solver do not assign `robust_loss_`, nor `intercept_` for the newsvendor and the portfolio: an estimator fitted with torch and then with the dedicated solver reports those of the earlier fit. | C117_stale_threshold_false: (violated) A portfolio fitted with a torch solver keeps the threshold `tau_` of an earlier fit with the dedicated one."
  },
  {
   "property": "C118",
   "status": "proved",
   "theorems": [
    "Skwdro.C118_missing_gradient",
    "Skwdro.C118_missing_multiplier_gradient",
    "Skwdro.C118_no_parameters",
    "Skwdro.C118_unknown_metric",
    "Skwdro.C118_unknown_mode",
    "Skwdro.C118_unknown_mode_gradient",
    "Skwdro.C118_answers"
   ],
   "note": ""
  },
  {
   "property": "C119",
   "status": "partial",
   "theorems": [
    "Skwdro.C119_linreg",
    "Skwdro.C119_predict",
    "Skwdro.C119_proba_partial",
    "Skwdro.C119_single_feature_false",
    "Skwdro.C119_portfolio"
   ],
   "note": "C119_proba_partial: (partial: see `C119_single_feature_false`) Logistic regression: after any history of calls of `fit` the last of which returned, `predict_proba` refuses data with another number of features when the training data had several features, or more than two classes, or the solver was the dedicated one. | C119_single_feature_false: (violated) A binary classifier trained on a single feature by an entropic solver, with an intercept, accepts data with any number `d'` of features: `predict_proba` returns an array of shape `(d', 2 N)`."
  },
  {
   "property": "C120",
   "status": "proved",
   "theorems": [
    "Skwdro.C120_rate",
    "Skwdro.C120_curvature",
    "Skwdro.C120_logistic",
    "Skwdro.C120_small_rate"
   ],
   "note": ""
  },
  {
   "property": "C121",
   "status": "partial",
   "theorems": [
    "Skwdro.C121_linreg",
    "Skwdro.C121_programs",
    "Skwdro.C121_newsvendor_false"
   ],
   "note": "C121_newsvendor_false: (violated) A dedicated newsvendor with a NaN radius is fitted silently on every data set: with an exact external solver and non-negative prices it stores the order of least average cost on the sample, with no robustness at all."
  },
  {
   "property": "C122",
   "status": "partial",
   "theorems": [
    "Skwdro.C122_nearest",
    "Skwdro.C122_training",
    "Skwdro.C122_not_fitted",
    "Skwdro.C122_transform",
    "Skwdro.C122_width_false"
   ],
   "note": "C122_width_false: (violated) Unlike the two others, the reference estimator checks no number of features: once fitted on any data it answers ones to matrices of every width."
  },
  {
   "property": "C123",
   "status": "proved",
   "theorems": [
    "Skwdro.C123_regret",
    "Skwdro.C123_slope",
    "Skwdro.C123_logistic"
   ],
   "note": ""
  },
  {
   "property": "C124",
   "status": "partial",
   "theorems": [
    "Skwdro.C124_worst_case",
    "Skwdro.C124_logistic",
    "Skwdro.C124_no_slack",
    "Skwdro.C124_hybrid_step",
    "Skwdro.C124_diverges_false"
   ],
   "note": "C124_diverges_false: (false) A worst case may not exist: default two-class logistic regression, pre-sampled, on any data, with a generator whose draws are all three. The samples are too far away for any re-weighting of them to be admissible (see `C124_no_slack`), and the longer the training (here without pre-training, and with an optimality condition that does not stop it), the lower the number it reports, below any bound."
  },
  {
   "property": "C125",
   "status": "proved",
   "theorems": [
    "Skwdro.C125_regret",
    "Skwdro.C125_chain_rule",
    "Skwdro.C125_newsvendor_slope",
    "Skwdro.C125_newsvendor",
    "Skwdro.C125_weber_slope",
    "Skwdro.C125_weber"
   ],
   "note": ""
  },
  {
   "property": "C126",
   "status": "proved",
   "theorems": [
    "Skwdro.C126_fixed_samples",
    "Skwdro.C126_unseeded",
    "Skwdro.C126_rate",
    "Skwdro.C126_logistic"
   ],
   "note": ""
  },
  {
   "property": "C127",
   "status": "partial",
   "theorems": [
    "Skwdro.C127_half_given_false",
    "Skwdro.C127_torch_false",
    "Skwdro.C127_columns_partial",
    "Skwdro.C127_lengths_partial",
    "Skwdro.C127_optimal_partial",
    "Skwdro.C127_column_partial",
    "Skwdro.C127_column_false"
   ],
   "note": "C127_half_given_false: (violated) If only the matrix or only the vector is given, it is ignored without a word: for all data and settings, the outcome is that of an estimator built without constraints. | C127_torch_false: (violated) The torch solvers ignore the constraints: for all data and settings and all constraints with the right number of columns, whatever their bounds, the outcome is that of an estimator built without constraints. | C127_columns_partial: (partial: a missing argument is not refused, see `C127_half_given_false`) Constraints on another number of assets than the data are refused with a `ValueError`, whatever the solver, the bounds and the data. | C127_lengths_partial: (partial: dedicated solver only) A number of bounds different from the number of constraints is refused with a `ValueError`. | C127_optimal_partial: (partial: dedicated solver, both arguments given with the documented shapes) With bounds of the documented shapes and the dedicated solver, for all data inside the polytope the fit returns, and the stored weights and threshold have the smallest worst-case mean-CVaR loss over the laws of returns staying in the polytope `C x <= d` and within `rho` of the sample. | C127_column_partial: (partial: not optimal, see `C127_column_false`) Bounds given as a column: if the fit returns, its weights are a portfolio and, with the stored threshold, the value of the program still bounds their expected loss under every law in the polytope and within `rho` of the sample. | C127_column_false: (violated) Bounds given as a column, of shape `(2, 1)` instead of `(2,)`, are accepted and silently misread: on a sample inside the polytope the dedicated solver stores equal weights, as if there were no constraints, although some law in the polytope and the ball makes them lose `3/2` on average, while the weights stored for the bounds of shape `(2,)` lose at most `1` under all these laws."
  },
  {
   "property": "C128",
   "status": "proved",
   "theorems": [
    "Skwdro.C128_logistic",
    "Skwdro.C128_expected"
   ],
   "note": ""
  },
  {
   "property": "C129",
   "status": "partial",
   "theorems": [
    "Skwdro.C129_same_ball",
    "Skwdro.C129_linreg",
    "Skwdro.C129_logistic",
    "Skwdro.C129_portfolio",
    "Skwdro.C129_newsvendor_order",
    "Skwdro.C129_newsvendor_repeated_false"
   ],
   "note": "C129_newsvendor_repeated_false: C129 is false for the news vendor when the samples are repeated: with the demand 1 (prices 0.7 and 1, radius 0.4) the fit orders 1, but with the same demand given twice it orders nothing."
  },
  {
   "property": "C130",
   "status": "partial",
   "theorems": [
    "Skwdro.C130_error",
    "Skwdro.C130_exact",
    "Skwdro.C130_computed",
    "Skwdro.C130_double_false"
   ],
   "note": "C130_double_false: C130 is false for double precision: the logarithm of the number of samples is computed in single precision. With two samples per point, even if all the other operations are exact, the value is off by at least `10^-9 eps`, whatever the data (the relative accuracy of double precision is about `10^-16`)."
  },
  {
   "property": "C131",
   "status": "partial",
   "theorems": [
    "Skwdro.C131_training",
    "Skwdro.C131_fits",
    "Skwdro.C131_newsvendor_false",
    "Skwdro.C131_session_partial",
    "Skwdro.C131_text_constructor",
    "Skwdro.C131_text_set"
   ],
   "note": "C131_newsvendor_false: The dedicated news vendor does not: at a negative radius, on two or more non-negative demands, its fit returns, with an order of zero. | C131_session_partial: In any program, with an exact convex solver: `set_params(rho=v)` on an existing estimator returns, also when `v` is read by `float` as a negative number. From then on, as long as `set_params` is not called on it again, cloning the estimator raises, and so does fitting it on any data, whatever is done to other objects in between. Missing: the dedicated news vendor (`C131_newsvendor_false`)."
  },
  {
   "property": "C132",
   "status": "proved",
   "theorems": [
    "Skwdro.C132_linreg",
    "Skwdro.C132_logistic"
   ],
   "note": ""
  },
  {
   "property": "C133",
   "status": "partial",
   "theorems": [
    "Skwdro.C133_classes_partial",
    "Skwdro.C133_binary_partial",
    "Skwdro.C133_double_false"
   ],
   "note": "C133_classes_partial: (partial) Whatever its class, a radius that is not a numpy double has no effect on the predictions: a python number, a numpy integer, a numpy number in single precision or a text all give the same probabilities and the same labels, from every trained state and on all data. | C133_binary_partial: (partial) With at most two classes no class of radius has any effect on the predictions. | C133_double_false: (violated) With more than two classes, after a successful fit with a radius held as a numpy double, as in every grid made by numpy, `predict_proba` and `predict` raise `RuntimeError` on all data, whereas the same fit with the same radius held as a python float predicts."
  },
  {
   "property": "C134",
   "status": "proved",
   "theorems": [
    "Skwdro.C134_equal",
    "Skwdro.C134_sharp",
    "Skwdro.C134_rate"
   ],
   "note": ""
  },
  {
   "property": "C135",
   "status": "proved",
   "theorems": [
    "Skwdro.C135_linreg",
    "Skwdro.C135_logistic",
    "Skwdro.C135_portfolio",
    "Skwdro.C135_sampled",
    "Skwdro.C135_sampled_unlabelled",
    "Skwdro.C135_rounding",
    "Skwdro.C135_logistic_sampled",
    "Skwdro.C135_portfolio_sampled"
   ],
   "note": ""
  },
  {
   "property": "C136",
   "status": "proved",
   "theorems": [
    "Skwdro.C136_linreg",
    "Skwdro.C136_logistic",
    "Skwdro.C136_portfolio"
   ],
   "note": ""
  },
  {
   "property": "C137",
   "status": "partial",
   "theorems": [
    "Skwdro.C137_regret",
    "Skwdro.C137_large_radius_false",
    "Skwdro.C137_more_data"
   ],
   "note": "C137_large_radius_false: (violated for large radii) Whenever the average demand is at most the radius and ordering is worthwhile without ambiguity (`k > 0` and `k * n` less than `u` times the number of positive demands), the order stored by the fit is positive and not of least worst-case cost: ordering nothing costs less in the worst case."
  },
  {
   "property": "C138",
   "status": "partial",
   "theorems": [
    "Skwdro.C138_linreg",
    "Skwdro.C138_linreg_false",
    "Skwdro.C138_logistic"
   ],
   "note": "C138_linreg_false: (violated without this condition) For data fitted exactly by a linear model, two exact solvers may give different coefficients: with one sample `x = 1`, `y = 1`, a radius of 1 and no intercept, this happens."
  },
  {
   "property": "C139",
   "status": "partial",
   "theorems": [
    "Skwdro.C139_linreg",
    "Skwdro.C139_logistic",
    "Skwdro.C139_portfolio",
    "Skwdro.C139_newsvendor_partial",
    "Skwdro.C139_newsvendor_false"
   ],
   "note": "C139_newsvendor_partial: (partial) The newsvendor with `solver=\"dedicated\"`: the stored order has the least worst-case cost over the laws of demands at a distance of at most `rho` exactly in the cases listed. Missing: the remaining cases, where it has not (`C139_newsvendor_false`). | C139_newsvendor_false: (violated) The remaining cases occur: as soon as the average demand is at most the radius and ordering is worthwhile without ambiguity, the stored order has not the least worst-case cost."
  },
  {
   "property": "C140",
   "status": "proved",
   "theorems": [
    "Skwdro.C140_mean",
    "Skwdro.C140_none",
    "Skwdro.C140_erm",
    "Skwdro.C140_bound"
   ],
   "note": ""
  },
  {
   "property": "C141",
   "status": "proved",
   "theorems": [
    "Skwdro.C141_limit_unlabelled_laplace",
    "Skwdro.C141_covers_unlabelled_laplace",
    "Skwdro.C141_limit_laplace",
    "Skwdro.C141_covers_laplace",
    "Skwdro.C141_limit",
    "Skwdro.C141_unbounded",
    "Skwdro.C141_covers",
    "Skwdro.C141_limit_unlabelled",
    "Skwdro.C141_covers_unlabelled"
   ],
   "note": ""
  },
  {
   "property": "C142",
   "status": "proved",
   "theorems": [
    "Skwdro.C142_default_refused",
    "Skwdro.C142_default_refused_unlabelled",
    "Skwdro.C142_option_refused",
    "Skwdro.C142_option_refused_unlabelled",
    "Skwdro.C142_default_averages",
    "Skwdro.C142_robust_default",
    "Skwdro.C142_robust_option"
   ],
   "note": ""
  },
  {
   "property": "C143",
   "status": "proved",
   "theorems": [
    "Skwdro.C143_worst_case",
    "Skwdro.C143_worst_case_labelled",
    "Skwdro.C143_worst_case_laplace",
    "Skwdro.C143_worst_case_labelled_laplace"
   ],
   "note": ""
  },
  {
   "property": "C144",
   "status": "partial",
   "theorems": [
    "Skwdro.C144_one_portfolio",
    "Skwdro.C144_one_portfolio_false"
   ],
   "note": "C144_one_portfolio_false: With the default cost, of power one, this fails: with a radius equal to the gap between the returns of two assets, every split of the wealth that favours the better one is a solution, and exact solvers may store any of them."
  },
  {
   "property": "C145",
   "status": "proved",
   "theorems": [
    "Skwdro.C145_worst_case_label_noise",
    "Skwdro.C145_worst_case_unlabelled_laplace",
    "Skwdro.C145_worst_case_laplace",
    "Skwdro.C145_worst_case_label_noise_laplace",
    "Skwdro.C145_worst_case",
    "Skwdro.C145_worst_case_unlabelled"
   ],
   "note": ""
  },
  {
   "property": "C146",
   "status": "proved",
   "theorems": [
    "Skwdro.C146_uniform_laplace",
    "Skwdro.C146_uniform_labelled_laplace",
    "Skwdro.C146_uniform",
    "Skwdro.C146_uniform_labelled"
   ],
   "note": ""
  },
  {
   "property": "C147",
   "status": "proved",
   "theorems": [
    "Skwdro.C147_worst_case",
    "Skwdro.C147_worst_case_laplace"
   ],
   "note": ""
  },
  {
   "property": "C148",
   "status": "partial",
   "theorems": [
    "Skwdro.C148_rows_partial",
    "Skwdro.C148_rows_false",
    "Skwdro.C148_two_samples_false",
    "Skwdro.C148_constant_false",
    "Skwdro.C148_cov_partial",
    "Skwdro.C148_scale_false"
   ],
   "note": "C148_rows_partial: (partial: what is computed) Row `i` of the table is the sum of the gradients of the samples `0` to `i`, and of the first two samples for `i = 0`; the table has one row per sample. With one sample the row is its gradient. | C148_rows_false: is false: with two samples or more, the table is not the table of the gradients as soon as the first gradient is not zero. | C148_two_samples_false: is false for two samples: whatever the two gradients, the covariance computed is zero; that of the gradients themselves is half the product of their differences. With one parameter the tuner stops with a ValueError; otherwise the noise has covariance `1e-4` times the identity whatever the data. | C148_constant_false: is false for samples that all have the same gradient `g`: with three samples or more the variance computed for a parameter is positive whenever its gradient is not zero, although that of the gradients is zero. | C148_cov_partial: (partial: what is drawn) With several parameters the noise has the covariance of the table (with `n - 1` in the denominator) off the diagonal, one common number of at least `1e-4` is added on the diagonal, exactly `1e-4` if the least eigenvalue is not negative, and the result is positive definite whatever the samples. `minEig M` is only assumed to be a lower bound of the quadratic form of `M`. | C148_scale_false: is false for one parameter: the number used as standard deviation is the variance, which agree only when the variance is 1."
  }
 ]
}