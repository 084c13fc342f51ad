{"claims": [
 {"property": "C01", "status": "proved", "theorems": ["Verif.Props.resume_reproduces_run"], "note": "any checkpoint file of a run, any later logging settings"},
 {"property": "C02", "status": "proved", "theorems": ["Verif.Props.regular_checkpoints_exact"], "note": ""},
 {"property": "C03", "status": "proved", "theorems": ["Verif.Props.best_checkpoint_is_first_argmin"], "note": "window length is nhistoryMax-1, as the code has it (see C05)"},
 {"property": "C04", "status": "proved", "theorems": ["Verif.Props.running_average_is_mean"], "note": ""},
 {"property": "C05", "status": "partial", "theorems": ["Verif.Props.history_window_partial", "Verif.Props.history_keeps_limit_fails", "Verif.Props.history_limit_one_gives_nan"], "note": "The property is false of the code: the history keeps nhistory_max-1 values, and limit 1 gives nan. Proved: the exact window and the refutation."},
 {"property": "C06", "status": "proved", "theorems": ["Verif.Props.nan_stops_run", "Verif.Props.no_nan_runs_to_end"], "note": ""},
 {"property": "C07", "status": "partial", "theorems": ["Verif.Props.later_best_recorded_partial", "Verif.Props.nan_epoch_disables_best", "Verif.Props.nan_does_not_disable_best_fails"], "note": "The property is false of the code: a nan clipped energy poisons the running average for the rest of the run. Proved: the refutation, in general and on a concrete run, and the positive part for nans in the unclipped metrics only."},
 {"property": "C08", "status": "proved", "theorems": ["Verif.Props.writer_writes_exactly_once", "Verif.Props.written_is_prefix", "Verif.Props.failed_write_loses_items"], "note": "for writes that return; if write_out_data raises, the thread dies and later items are lost (shown)"},
 {"property": "C09", "status": "proved", "theorems": ["Verif.Props.closing_terminates"], "note": ""},
 {"property": "C10", "status": "proved", "theorems": ["Verif.Props.crash_leaves_completed_files", "Verif.Props.crash_keeps_regular_checkpoints"], "note": "crash = process death; the operating system is assumed to keep completed writes"},
 {"property": "C100", "status": "partial", "theorems": ["Verif.Props.resume_keeps_best_fails", "Verif.Props.resumed_best_forgets", "Verif.Props.resumed_best_partial", "Verif.Props.resumed_best_same_partial", "Verif.Props.resume_from_best_partial"], "note": "The full statement is ResumeKeepsBest, refuted by resume_keeps_best_fails. Both runs are to completion; files are overwritten in the order in which they were queued (C08)."},
 {"property": "C101", "status": "partial", "theorems": ["Verif.Props.repeated_scale", "Verif.Props.repeated_scale_bias", "Verif.Props.repeatedScale_eq", "Verif.Props.layer_gradient", "Verif.Props.qmc_scale_places", "Verif.Props.qmc_scale_partial", "Verif.Props.qmc_scale_fails", "Verif.Props.qmc_init", "Verif.Props.qmc_multiply", "Verif.Props.qmc_psd", "Verif.Props.qmc_posDef", "Verif.Props.qmc_inverse", "Verif.Props.qmc_powers"], "note": "The full statement for QmcBlockedDense is QmcScale, refuted by qmc_scale_fails. Base classes of kfac_jax are modelled from its documentation: the moving average, the covariances of dense layers, and fixed_scale as prefactor of the curvature. Sums over devices, the pi-adjusted inverse and the matching of layers to blocks are not modelled. register_qmc is never called in this repository."},
 {"property": "C102", "status": "proved", "theorems": ["Verif.Props.configured_training_lowers_energy", "Verif.Props.configured_energy_gradient", "Verif.Props.cgSeq_limit_descent", "Verif.Props.solve_limit_descent", "Verif.Props.spring_first", "Verif.Props.average_tendsto", "Verif.Props.fisher_tendsto", "Verif.Props.covGrad_tendsto", "Verif.Props.device_average_tendsto", "Verif.Props.independent_walkers_exist", "Verif.Props.helium_energy", "Verif.Props.helium_gradient_ne"], "note": "Independence of the walkers is a hypothesis: the code's walkers come from one Markov chain each and are correlated in time. The gradients of log|psi| at the walkers are hypothesised to consist of its partial derivatives at almost all positions (automatic differentiation is not modelled); that these form the gradient is proved (C103). Only the first update; Adam after stochastic reconfiguration and KFAC are left out."},
 {"property": "C103", "status": "proved", "theorems": ["Verif.Joint.configured_value_joint", "Verif.Joint.configured_log_joint", "Verif.Joint.configured_energy_joint", "Verif.Joint.configured_log_gradient", "Verif.Joint.configured_value_smooth", "Verif.Joint.decays_smooth", "Verif.Joint.zero_decay_kink"], "note": "Smoothness of the exact function over the reals; automatic differentiation itself is not modelled."},
 {"property": "C104", "status": "partial", "theorems": ["Verif.Props.fresh_directory_partial", "Verif.Props.history_directory", "Verif.Props.continued_directory_partial", "Verif.Props.statistics_describe_run_fails", "Verif.Props.own_energies_trained", "Verif.Props.run_elsewhere"], "note": "False of the code with same_logdir: the energies of an earlier evaluation in the directory stay in the file and enter the statistics; with another number of walkers the run ends with an exception and the old statistics stay. Proved for runs without same_logdir, together with what happens otherwise."},
 {"property": "C105", "status": "partial", "theorems": ["Verif.Props.interruptions_change_nothing_partial", "Verif.Props.new_optimizer_state_loses_rows", "Verif.Props.continuing_reproduces_rows_fails"], "note": "False of runs which were started with new_optimizer_state from a checkpoint of epoch e: their epochs count from 0 although e rows were copied, so a continuation drops e rows of the metric files. Proved for runs started from scratch."},
 {"property": "C106", "status": "proved", "theorems": ["Verif.Props.schedule_admissible_iff", "Verif.Props.configured_sgd_converges", "Verif.Props.stochastic_approximation", "Verif.Props.constant_rate_stays_noisy"], "note": "That gradients are unbiased given the past is a hypothesis: in the code the walkers of successive updates belong to one Markov chain. Exact real arithmetic; clipping, which biases the gradient, is not part of it."},
 {"property": "C107", "status": "proved", "theorems": ["Verif.Props.ferminet_acts_per_walker", "Verif.Props.walkers_do_not_interact", "Verif.Props.electron_ion_without_norms_shape", "Verif.Props.one_walker_without_norms", "Verif.Props.without_norms_not_per_walker"], "note": "Array operations (broadcasting, reshape, split, concatenate, swapaxes, moveaxis, reductions, det) are modelled with all axes; self-attention is any function of the matrices in the last two axes. Exact real arithmetic; parameters have the shapes flax asks for."},
 {"property": "C108", "status": "proved", "theorems": ["Verif.Props.ferminet_computes_per_walker", "Verif.Props.ferminet_batches_antisymmetric", "Verif.Props.configured_ferminet_on_batches"], "note": "Refinement between the array model (Model/Batched.lean) and the per-walker model (Model/Construct.lean). The array model is proved to produce the same exceptions as the per-walker model."},
 {"property": "C109", "status": "proved", "theorems": ["Verif.Props.embedded_computes_per_walker", "Verif.Props.extended_computes_per_walker", "Verif.Props.configured_embedded_on_batches", "Verif.Props.configured_extended_on_batches", "Verif.Props.embedded_batches_antisymmetric", "Verif.Props.extended_batches_antisymmetric"], "note": "Refinement between the array model (Model/BatchedNets.lean) and the per-walker model (Model/Construct.lean), as for C108. With another number of hidden counts both models of the extended network raise, not always the same exception (extended_returns_length)."},
 {"property": "C11", "status": "partial", "theorems": ["Verif.Props.crash_keeps_best_partial", "Verif.Props.best_checkpoint_can_be_lost"], "note": "The property is false of the code: best_checkpoint.npz is truncated in place. Proved: the refutation and the part outside the rewrite."},
 {"property": "C110", "status": "proved", "theorems": ["Verif.Props.antiequivariance_computes_per_walker", "Verif.Props.antiequivariance_returns_parsed", "Verif.Props.configured_antiequivariance_on_batches", "Verif.Props.antiequivariance_batches_antisymmetric"], "note": "Refinement between the array model (Model/BatchedAntieq.lean) and the per-walker model (Model/Construct.lean), as for C108. The code parses the backflow configuration of the covariance after the layers, the per-walker model before them; if both raise, the exceptions can differ, hence the hypothesis (antiequivariance_returns_parsed shows that it holds whenever the code returns)."},
 {"property": "C111", "status": "proved", "theorems": ["Verif.Props.explicit_computes_per_walker", "Verif.Props.configured_explicit_on_batches", "Verif.Props.explicit_batches_antisymmetric", "Verif.Props.explicit_empty_species_raises"], "note": "Refinement between the array model (Model/BatchedExplicit.lean) and the per-walker model (Model/Construct.lean), as for C108. Species without electrons are excluded from the refinement since the permutations of nothing are an array of floats; explicit_empty_species_raises shows what the code does there."},
 {"property": "C112", "status": "partial", "theorems": ["Verif.Props.configured_model_agrees", "Verif.Props.configured_batch_returns_iff", "Verif.Props.configured_batch_value", "Verif.Props.configured_batches_antisymmetric_partial"], "note": "Refinement, callability and values are proved in full. Antisymmetry excludes products covariances with weights, which are not antisymmetric (C63, C77)."},
 {"property": "C113", "status": "proved", "theorems": ["Verif.Props.electron_ion_on_batches", "Verif.Props.electron_electron_on_batches", "Verif.Props.ion_ion_one_number", "Verif.Props.ion_ion_not_documented", "Verif.Props.combined_on_batches", "Verif.Props.molecular_potential_on_batches", "Verif.Props.sampled_none_raises"], "note": "Refinement between the array model (Model/BatchedPotential.lean) and the per-walker potentials (values in C34). The documented shape of the ion-ion potential is disproved."},
 {"property": "C114", "status": "proved", "theorems": ["Verif.Props.amplitudes_match_energies", "Verif.Props.vmapped_local_energies", "Verif.Props.kinetic_batch_raises"], "note": "From C112, C113 and the local energy of a configured model (configured_local_energy). The other types of local energy (ibp, random_particle) are not treated for batches."},
 {"property": "C115", "status": "proved", "theorems": ["Verif.Props.step_on_arrays", "Verif.Props.array_stays_or_moves", "Verif.Props.walk_on_arrays", "Verif.Props.burn_on_arrays", "Verif.Props.dynamic_step_on_arrays", "Verif.Props.update_data_on_arrays", "Verif.Props.configured_walkers", "Verif.Props.walked_amplitudes_match"], "note": "Refinement between Model/BatchedSampling.lean and Model/Metropolis.lean, one device. With configured_walkers the per-walker theorems C16-C24 apply to the array code of every configured model."},
 {"property": "C116", "status": "proved", "theorems": ["Verif.Props.evaluation_epoch", "Verif.Props.training_estimates", "Verif.Props.forward_value", "Verif.Props.forward_derivative"], "note": "From C114, C115 and C30. Standard local energies, one device; derivatives are those of real functions."},
 {"property": "C117", "status": "proved", "theorems": ["Verif.Props.energy_of_one_walker", "Verif.Props.mapped_energies", "Verif.Props.differentiated_batch_raises", "Verif.Props.unknown_type_refused", "Verif.Props.mapped_random_particle_mean", "Verif.Props.random_training_unbiased"], "note": "Refinement between Model/BatchedTypes.lean and Model/Physics.lean, with C35, C86 and C116. One device. The gradient of the function U of the ibp energy is taken for one walker. Three dimensions for the means because C35 is false in two."},
 {"property": "C118", "status": "proved", "theorems": ["Verif.Props.distribute_positions", "Verif.Props.distribute_amplitudes", "Verif.Props.distribute_refuses", "Verif.Props.distributed_data", "Verif.Props.evaluation_epoch_on_devices", "Verif.Props.training_on_devices"], "note": "Model/BatchedDevices.lean: an array with an axis of devices is the list of its slices. Steps with adaptive width, which communicate, are not included. That the gradient of a device is that of its local mean is part of the model (the cotangents of pmean add up to one)."},
 {"property": "C119", "status": "proved", "theorems": ["Verif.Props.centered_energies", "Verif.Props.training_epoch", "Verif.Props.training_run"], "note": "Model/BatchedTraining.lean, by induction on the epochs from C115 and C116. One device, standard local energy; checkpoints and the check for nans are in C01-C07. The optimizer is an arbitrary function of the function whose derivative is the gradient."},
 {"property": "C12", "status": "proved", "theorems": ["Verif.Props.checkpoint_round_trip", "Verif.Props.checkpoint_round_trip_single", "Verif.Props.unwrapped_optimizer_dict_reloads", "Verif.Props.unwrapped_optimizer_changes"], "note": "numpy npz container rules (asanyarray/tolist) are modelled; pickling itself is trusted"},
 {"property": "C120", "status": "proved", "theorems": ["Verif.Props.swappedList_get", "Verif.Props.take_exchanged", "Verif.Props.spin_exchange_on_arrays", "Verif.Props.spin_square_on_arrays", "Verif.Props.polarized_spin_square_on_arrays", "Verif.Props.configured_slog_walkers", "Verif.Props.configured_spin_square"], "note": "Model/BatchedSpin.lean; one device. That the mean of this estimate is the expectation of S\u00b2 is C61."},
 {"property": "C121", "status": "proved", "theorems": ["Verif.Props.exchange_preserving", "Verif.Props.pair_integral", "Verif.Props.spin_square_integral", "Verif.Props.exchange_is_permutation", "Verif.Props.configured_spin_expectation"], "note": "Props/SpinExpectation.lean. Weighted products covariance is left out because such models are not antisymmetric (see C77)."},
 {"property": "C122", "status": "proved", "theorems": ["Verif.Props.dirac_identity", "Verif.Props.antisymmetric_permutation", "Verif.Props.spin_square_of_state", "Verif.Props.spin_expectation_of_state", "Verif.Props.estimator_measures_total_spin", "Verif.Props.configured_total_spin"], "note": "Spec/SpinOperators.lean, Props/SpinOperators.lean. The specification of C61 and C121, Dirac's exchange form, is derived here from the Pauli matrices."},
 {"property": "C123", "status": "proved", "theorems": ["Verif.Props.configured_ibp_one_walker", "Verif.Props.generic_training_estimates", "Verif.Props.generic_training_unbiased"], "note": "Model/BatchedGeneric.lean, Props/BatchedGeneric.lean; one device. C99 is the corresponding statement for walkers one by one."},
 {"property": "C124", "status": "proved", "theorems": ["Verif.Props.spin_square_on_devices", "Verif.Props.configured_spin_on_devices", "Verif.Props.generic_training_on_devices", "Verif.Props.generic_training_on_devices_unbiased"], "note": "Model/BatchedGenericDevices.lean, Props/BatchedGenericDevices.lean. C120 and C123 are the statements on one device."},
 {"property": "C125", "status": "proved", "theorems": ["Verif.Props.adaptive_step_on_devices", "Verif.Props.adaptive_walk_on_devices", "Verif.Props.widths_on_devices", "Verif.Props.widths_on_devices_positive", "Verif.Props.configured_adaptive_walk"], "note": "Model/BatchedAdaptive.lean, Props/BatchedAdaptive.lean."},
 {"property": "C126", "status": "proved", "theorems": ["Verif.Props.training_epoch_on_devices", "Verif.Props.training_run_on_devices", "Verif.Props.fixed_walks", "Verif.Props.adaptive_walks", "Verif.Props.adaptive_training_on_devices", "Verif.Props.fixed_walk_data"], "note": "Model/BatchedTrainingDevices.lean, Props/BatchedTrainingDevices.lean; steps of fixed and of adaptive width, after burning. C119 is the statement on one device."},
 {"property": "C127", "status": "proved", "theorems": ["Verif.Props.evaluation_chain", "Verif.Props.adaptive_evaluation_on_devices"], "note": "Model/BatchedEvaluationDevices.lean, Props/BatchedEvaluationDevices.lean; local energies which do not use random keys. C125 is the walk, C126 the training."},
 {"property": "C128", "status": "proved", "theorems": ["Verif.Props.burned_adaptive_training_on_devices", "Verif.Props.metadata_follow", "Verif.Props.training_run_from_devices"], "note": "Model/BatchedBurnedTraining.lean, Props/BatchedBurnedTraining.lean; from the first epoch, without checkpoints. C125 is the walk, C126 the training, C127 the evaluation."},
 {"property": "C13", "status": "partial", "theorems": ["Verif.Props.append_matches_uninterrupted_partial", "Verif.Props.append_at_epoch_zero_duplicates", "Verif.Props.append_matches_uninterrupted_fails"], "note": "Proved for reload epochs >= 1. False of the code at epoch 0: `if truncate:` treats 0 as \"do not truncate\"."},
 {"property": "C14", "status": "proved", "theorems": ["Verif.Props.unique_name_terminates", "Verif.Props.unique_name_free_and_minimal", "Verif.Props.rstrip_of_no_trailing_sep", "Verif.Props.trailing_separator_goes_inside"], "note": "With a trailing separator the suffixed candidates are built from the unstripped name (logs/ -> logs/_1)."},
 {"property": "C15", "status": "partial", "theorems": ["Verif.Props.config_round_trip_partial", "Verif.Props.config_round_trip_fails"], "note": "Proved for configurations without dicts inside sequences; false of the code otherwise."},
 {"property": "C16", "status": "proved", "theorems": ["Verif.Props.accept_plain_is_probability", "Verif.Props.accept_log_is_probability", "Verif.Props.accept_log_finite"], "note": ""},
 {"property": "C17", "status": "proved", "theorems": ["Verif.Props.detailed_balance_plain", "Verif.Props.detailed_balance_log", "Verif.Props.detailed_balance_log_zero"], "note": ""},
 {"property": "C18", "status": "partial", "theorems": ["Verif.Props.acceptances_agree_partial", "Verif.Props.acceptances_agree_fails"], "note": "Proved unless both values are zero; there plain gives 1 and log gives nan, so the claim is false of the code."},
 {"property": "C19", "status": "proved", "theorems": ["Verif.Props.metropolis_leaves_psi_squared_invariant", "Verif.Props.walk_uses_draws", "Verif.Props.joint_preserves"], "note": "Fixed step width, as in the property; also covers wavefunctions with nodes and plain amplitudes. The draws of jax.random are taken to be independent normal/uniform."},
 {"property": "C20", "status": "proved", "theorems": ["Verif.Props.amplitudes_match_positions", "Verif.Props.step_consistent"], "note": ""},
 {"property": "C21", "status": "proved", "theorems": ["Verif.Props.stays_or_moves", "Verif.Props.nan_acceptance_stays"], "note": ""},
 {"property": "C22", "status": "proved", "theorems": ["Verif.Props.walk_is_n_steps", "Verif.Props.walk_accept_is_probability", "Verif.Props.walk_append", "Verif.Props.burn_is_walk"], "note": ""},
 {"property": "C23", "status": "proved", "theorems": ["Verif.Props.adaptation_every_n_moves", "Verif.Props.dynamic_width_schedule", "Verif.Props.dynamic_width_schedule_pmap"], "note": ""},
 {"property": "C24", "status": "proved", "theorems": ["Verif.Props.adjustment_direction", "Verif.Props.width_stays_positive", "Verif.Props.runner_width_stays_positive"], "note": ""},
 {"property": "C25", "status": "proved", "theorems": ["Verif.Props.fft_autocorr_is_direct", "Verif.Props.autocorr_lag_zero", "Verif.Props.autocorr_constant_chain"], "note": "For every chain with non-zero variance; a constant chain gives nan."},
 {"property": "C26", "status": "partial", "theorems": ["Verif.Props.variance_is_population_variance_partial", "Verif.Props.variance_is_population_variance_fails", "Verif.Props.variance_exact", "Verif.Props.single_chain_variance_nan", "Verif.Props.summary_average"], "note": "The claim is false of the code: the between-chain term uses ddof=1, so the result is the population variance plus 1/M of the sample variance of the chain means, and nan for one chain. Proved: the exact formula and that equality holds iff all chain means coincide."},
 {"property": "C27", "status": "proved", "theorems": ["Verif.Props.tau_is_initial_monotone_sum", "Verif.Props.cut_exists_unique", "Verif.Props.tau_monotone", "Verif.Props.tau_ignores_tail", "Verif.Props.tau_nonneg", "Verif.Props.combined_curve", "Verif.Props.combined_curve_lag_zero", "Verif.Props.std_err_is_real", "Verif.Props.tau_cut_at_start"], "note": ""},
 {"property": "C28", "status": "proved", "theorems": ["Verif.Props.device_mean_is_global_mean", "Verif.Props.distribute_ok_iff", "Verif.Props.distribute_preserves_order", "Verif.Props.distribute_data_ok_iff"], "note": ""},
 {"property": "C29", "status": "partial", "theorems": ["Verif.Props.nanmean_is_global_partial", "Verif.Props.nanmean_is_global_fails", "Verif.Props.nanmean_all_nan_device"], "note": "False of the code when devices have different numbers of nans (mean of per-device nanmeans weights walkers unequally); proved when every device has the same number of non-nan chains."},
 {"property": "C30", "status": "proved", "theorems": ["Verif.Props.energy_statistics", "Verif.Props.sampleVar_nonneg", "Verif.Props.sampleVar_eq_zero_iff", "Verif.Props.sampleVar_shift", "Verif.Props.energy_variance_single_chain"], "note": ""},
 {"property": "C31", "status": "proved", "theorems": ["Verif.Props.clip_center", "Verif.Props.clipping_window", "Verif.Props.clipping_identity_when_equal", "Verif.Props.clipping_shift", "Verif.Props.noclip_metrics_independent", "Verif.Props.clipping_depends_on_layout"], "note": "Window of one device; additionally shown that the window, and so the energy, depends on the device layout."},
 {"property": "C32", "status": "partial", "theorems": ["Verif.Props.nan_safe_energy_partial", "Verif.Props.nan_safe_tolerates_fails", "Verif.Props.nan_walker_poisons_gradient", "Verif.Props.nan_walker_poisons_energy_mean_center"], "note": "False of the code: a nan local energy makes every gradient component nan for every setting, and makes the energy nan for the default centre. Proved: the energy stays finite without clipping or with the median centre."},
 {"property": "C33", "status": "partial", "theorems": ["Verif.Props.gradient_is_covariance_partial", "Verif.Props.gradient_clipped", "Verif.Props.gradient_generic", "Verif.Props.covGrad_eq_cov", "Verif.Props.covGrad_shift", "Verif.Props.covGrad_eigenstate", "Verif.Props.gradient_layout_independent_fails", "Verif.Props.energy_type_unknown"], "note": "Formula and layout independence proved without clipping, formula with clipping and for the integration-by-parts estimator; layout independence is false when clipping is on (per-device window)."},
 {"property": "C34", "status": "proved", "theorems": ["Verif.Props.electron_electron_is_pair_sum", "Verif.Props.electron_ion_is_pair_sum", "Verif.Props.ion_ion_is_pair_sum", "Verif.Props.coulomb_relabelling_invariant", "Verif.Props.coulomb_rigid_invariant", "Verif.Props.coulomb_translation_invariant", "Verif.Props.ion_relabelling_invariant", "Verif.Props.electron_coincidence_is_infinite"], "note": "Any softening, strength and dimension; coincident electrons without softening give +inf."},
 {"property": "C35", "status": "partial", "theorems": ["Verif.Props.random_particle_unbiased_partial", "Verif.Props.sampled_potential_unbiased", "Verif.Props.random_particle_kinetic_average", "Verif.Props.random_particle_kinetic_one_dim", "Verif.Props.kinetic_unbiased_three", "Verif.Props.random_particle_unbiased_fails"], "note": "Proved in three dimensions (and the kinetic part in one). False of the code in two dimensions: the kinetic sampler hard-codes 3 coordinates per particle and clamps the index."},
 {"property": "C36", "status": "proved", "theorems": ["Verif.Props.standard_energy_terms", "Verif.Props.ibp_term_eq", "Verif.Props.ibp_energy_terms", "Verif.Props.random_particle_energy_terms", "Verif.Props.unknown_energy_type_rejected", "Verif.Props.laplacian_kinetic_eq", "Verif.Props.gradient_kinetic_eq"], "note": "The random-particle composition is stated in three dimensions; see C35 for the others."},
 {"property": "C37", "status": "proved", "theorems": ["Verif.Props.oscillator_local_energy_constant", "Verif.Props.oscillator_initial_kernel_energy", "Verif.Props.oscillator_det_ne_zero_iff"], "note": "At least one particle per species (the code raises for an empty species)."},
 {"property": "C38", "status": "proved", "theorems": ["Verif.Props.hydrogen_local_energy_constant", "Verif.Props.hydrogen_wrong_decay_not_constant"], "note": ""},
 {"property": "C39", "status": "proved", "theorems": ["Verif.Props.spin_exchange_is_amplitude_ratio", "Verif.Props.spin_exchange_one_species", "Verif.Props.spin_square_closed_form", "Verif.Props.two_electron_singlet", "Verif.Props.two_electron_triplet", "Verif.Props.polarised_spin_square", "Verif.Props.antisymmetric_is_maximal_spin"], "note": ""},
 {"property": "C40", "status": "proved", "theorems": ["Verif.Props.slog_of_array", "Verif.Props.slog_to_array", "Verif.Props.slog_roundtrip", "Verif.Props.slog_list_roundtrip", "Verif.Props.slog_unique", "Verif.Props.slog_multiply_represents", "Verif.Props.slog_weighted_sum_represents", "Verif.Props.slog_sum_over_axis_represents", "Verif.Props.slog_list_sum_represents", "Verif.Props.slog_sum_represents", "Verif.Props.logdet_product_value"], "note": "Real arithmetic with IEEE infinities; sums of all zeros are C41."},
 {"property": "C41", "status": "partial", "theorems": ["Verif.Props.slog_sum_zero_partial", "Verif.Props.slog_sum_all_zero_is_nan", "Verif.Props.slog_sum_all_zero_fails"], "note": "Cancelling sums give (0, -inf); when every term is zero the code gives (nan, nan)."},
 {"property": "C42", "status": "proved", "theorems": ["Verif.Props.ferminet_antisymmetric", "Verif.Props.ferminet_full_det_antisymmetric", "Verif.Props.ferminet_with_ions_antisymmetric", "Verif.Props.ferminet_is_sum_of_determinants", "Verif.Props.ferminet_pauli"], "note": "whole network, all determinant modes; at coincident same-spin electrons the log-domain sum is (nan, nan), see DESIGN.md"},
 {"property": "C43", "status": "proved", "theorems": ["Verif.Props.input_streams_equivariant", "Verif.Props.residual_block_equivariant", "Verif.Props.residual_blocks_equivariant", "Verif.Props.backflow_equivariant", "Verif.Props.ion_streams_equivariant", "Verif.Props.plain_streams_equivariant", "Verif.Props.ion_streams_are_input_streams", "Verif.Props.plain_streams_are_input_streams", "Verif.Props.ee_norm_values", "Verif.Props.ei_input_values", "Verif.Props.two_electron_stream_local"], "note": "flax self attention is modelled from its documented formula"},
 {"property": "C44", "status": "proved", "theorems": ["Verif.Props.lexicographic_signs_are_parities", "Verif.Props.permutation_list_complete", "Verif.Props.permutation_list_lexicographic"], "note": "the permutation table lists every permutation once in lexicographic order with its parity"},
 {"property": "C45", "status": "proved", "theorems": ["Verif.Props.leaf_antisymmetric", "Verif.Props.factorized_antisymmetric", "Verif.Props.factorized_slog_represents", "Verif.Props.generic_antisymmetric", "Verif.Props.generic_slog_represents", "Verif.Props.generic_is_alternating_sum", "Verif.Props.leaf_is_alternating_sum"], "note": "arbitrary inner function; log-domain versions represent the linear ones when not every term vanishes"},
 {"property": "C46", "status": "proved", "theorems": ["Verif.Props.sign_covariant_odd", "Verif.Props.sign_invariant_even", "Verif.Props.sign_covariant_of_odd", "Verif.Props.sl_sign_covariant_odd", "Verif.Props.sl_sign_covariant_represents", "Verif.Props.products_covariance_odd"], "note": "any number of arrays and any function, linear and (sign, log) versions"},
 {"property": "C47", "status": "proved", "theorems": ["Verif.Props.cofactor_rejects_non_square", "Verif.Props.cofactor_antiequivariant", "Verif.Props.cofactor_sum_is_det", "Verif.Props.slog_cofactor_represents", "Verif.Props.cofactor_layer_antiequivariant", "Verif.Props.per_particle_det_antiequivariant", "Verif.Props.slog_per_particle_det_represents", "Verif.Props.multiplied_features_antiequivariant"], "note": ""},
 {"property": "C48", "status": "partial", "theorems": ["Verif.Props.one_body_formula", "Verif.Props.two_body_formula", "Verif.Props.one_body_symmetric", "Verif.Props.two_body_symmetric", "Verif.Props.backflow_jastrow_symmetric", "Verif.Props.scaled_two_body_at_nuclei", "Verif.Props.scaled_two_body_zero_partial", "Verif.Props.scaled_two_body_zero_fails", "Verif.Props.backflow_jastrow_formula"], "note": "Formulas and permutation symmetry hold in general. The scale factor makes the factor zero for electrons on the nuclei only for electron-electron strength 1; scaled_two_body_zero_fails proves the failure otherwise."},
 {"property": "C49", "status": "partial", "theorems": ["Verif.Props.split_roundtrip_partial", "Verif.Props.nsplits_of_spin_split", "Verif.Props.int_split_roundtrip", "Verif.Props.single_species_split_fails", "Verif.Props.single_species_raises", "Verif.Props.split_pieces_have_counts", "Verif.Props.split_concat"], "note": "holds for two or more species; for one species the split is the empty tuple and get_nelec_per_split raises IndexError"},
 {"property": "C50", "status": "partial", "theorems": ["Verif.Props.per_particle_options_documented", "Verif.Props.cofactor_options_partial", "Verif.Props.cofactor_bias_has_no_effect", "Verif.Props.cofactor_isotropic_means_bias", "Verif.Props.cofactor_softens"], "note": "holds for the per-particle layers; false for the cofactor layers, which pass the options by position to the wrong fields"},
 {"property": "C51", "status": "proved", "theorems": ["Verif.Props.fisher_product_is_damped_fisher", "Verif.Props.fisher_lazy_eq_dense", "Verif.Props.damped_fisher_positive_definite", "Verif.Props.natural_gradient_unique", "Verif.Props.natural_gradient_descent", "Verif.Props.cg_denominators_pos", "Verif.Props.sr_solves", "Verif.Props.sr_descent", "Verif.Props.sr_decreases_model", "Verif.Props.sr_no_iterations", "Verif.Props.sr_configured_solves"], "note": "Both products are identified with 0.25*F+damping*I where F is the covariance of the scores over all walkers of all devices. Beyond the claim, the conjugate-gradient solver (jax 0.4.14 library code, modelled) is proved to reach its tolerance without an iteration limit and to return a descent direction under any limit. Exact real arithmetic."},
 {"property": "C52", "status": "proved", "theorems": ["Verif.Props.sr_norm_constraint", "Verif.Props.sr_norm_constraint_exact", "Verif.Props.spring_constraint", "Verif.Props.constrainNorm_spec", "Verif.Props.constrainNorm_negative"], "note": "For the updates the optimizers compute. Called by itself on a preconditioned gradient with negative inner product with the gradient, constrain_norm would return nan everywhere (constrainNorm_negative); sr_descent shows this cannot happen in exact arithmetic."},
 {"property": "C53", "status": "proved", "theorems": ["Verif.Props.spring_minimizes", "Verif.Props.spring_momentum", "Verif.Props.springT_pos", "Verif.Props.springT_solve", "Verif.Props.spring_normal"], "note": "Per device: every device solves the problem for its own walkers. The Cholesky solve is taken to be exact."},
 {"property": "C54", "status": "proved", "theorems": ["Verif.Props.schedule_constant", "Verif.Props.schedule_inverse_time", "Verif.Props.schedule_rejects"], "note": ""},
 {"property": "C55", "status": "partial", "theorems": ["Verif.Props.eval_keeps_wavefunction", "Verif.Props.eval_threads_key_partial", "Verif.Props.walkOnly_single", "Verif.Props.vmcLoop_keeps_wavefunction", "Verif.Props.eval_random_particle_fails"], "note": "Parameters and optimizer state are unchanged for every local energy. The key claim holds for the deterministic local energies and is false for random_particle: eval_random_particle_fails shows that evaluation over two or more epochs raises."},
 {"property": "C56", "status": "partial", "theorems": ["Verif.Props.updates_stay_replicated_partial", "Verif.Props.gradUpdates_replicated", "Verif.Props.optax_keeps_replicas", "Verif.Props.sr_keeps_replicas", "Verif.Props.cg_replicated", "Verif.Props.spring_replicas_diverge"], "note": "Holds for Adam, SGD and stochastic reconfiguration. False for SPRING (spring_replicas_diverge). KFAC's step is a library call which is not modelled."},
 {"property": "C57", "status": "proved", "theorems": ["Verif.Props.default_flags_accepted_iff", "Verif.Props.reload_flags_accepted_iff", "Verif.Props.conflicting_flags_rejected", "Verif.Props.accepted_config_rules", "Verif.Props.reload_chain_keeps_logdir"], "note": "Configurations are maps from field paths to values; type checks of ml_collections are not modelled. Overrides of base_logdir are lost by design of the code, and overrides of models that are not chosen disappear with them."},
 {"property": "C58", "status": "proved", "theorems": ["Verif.Props.training_phase", "Verif.Props.evaluation_phase", "Verif.Props.evaluation_keeps_parameters"], "note": ""},
 {"property": "C59", "status": "proved", "theorems": ["Verif.Props.log_linear_exp_terms_bounded"], "note": ""},
 {"property": "C60", "status": "proved", "theorems": ["Verif.Props.cone_ei_laplacian", "Verif.Props.cone_ee_laplacian", "Verif.Props.cone_laplacian_is_coulomb", "Verif.Props.cone_laplacian_other_dim_fails"], "note": ""},
 {"property": "C61", "status": "proved", "theorems": ["Verif.Props.estimator_measures_spin_square"], "note": ""},
 {"property": "C62", "status": "proved", "theorems": ["Verif.Props.cyclic_blocks_equivariant", "Verif.Props.cyclic_backflow_equivariant", "Verif.Props.uncyclic_layer_not_equivariant"], "note": ""},
 {"property": "C63", "status": "partial", "theorems": ["Verif.Props.antiequivariance_net_antisymmetric_partial", "Verif.Props.cofactor_net_layer_antiequivariant", "Verif.Props.per_particle_net_layer_antiequivariant", "Verif.Props.weighted_products_net_not_antisymmetric"], "note": "Holds for unweighted products and for the backflow covariance. False for the weighted products covariance, which the code offers: weighted_products_net_not_antisymmetric is a concrete counterexample."},
 {"property": "C64", "status": "proved", "theorems": ["Verif.Props.embedded_ferminet_antisymmetric", "Verif.Props.embedded_ferminet_full_antisymmetric", "Verif.Props.extended_ferminet_antisymmetric", "Verif.Props.extended_ferminet_full_antisymmetric", "Verif.Props.extended_ferminet_is_sum_of_determinants", "Verif.Props.invariant_tensor_invariant"], "note": "Any equivariant input streams; plain_streams_equivariant and ion_streams_equivariant show the code's streams are."},
 {"property": "C65", "status": "proved", "theorems": ["Verif.Props.factorized_net_antisymmetric", "Verif.Props.generic_net_antisymmetric", "Verif.Props.jastrow_model_symmetric", "Verif.Props.factorized_net_represents", "Verif.Props.generic_net_represents"], "note": ""},
 {"property": "C66", "status": "proved", "theorems": ["Verif.Props.copy_all_dicts_separate", "Verif.Props.override_changes_only_its_field", "Verif.Props.shared_override_leaks"], "note": ""},
 {"property": "C67", "status": "proved", "theorems": ["Verif.Props.rerun_reproduces_run"], "note": "Reload epoch 0 is excluded in the statement, see C13. That the file read back equals the checkpoint saved is C12."},
 {"property": "C68", "status": "proved", "theorems": ["Verif.Props.configured_sgd", "Verif.Props.configured_adam", "Verif.Props.configured_sr", "Verif.Props.configured_spring", "Verif.Props.unknown_optimizer_rejected", "Verif.Props.unknown_schedule_rejected", "Verif.Props.sr_options_rejected", "Verif.Props.stepCount_eq", "Verif.Props.adam_first_step_bounded"], "note": "optax.sgd and optax.adam (optax 0.1.7) are modelled from their documented formulas; KFAC's step is not modelled, only its selection."},
 {"property": "C69", "status": "partial", "theorems": ["Verif.Props.sr_move_within_constraint_partial", "Verif.Props.configured_spring", "Verif.Props.sr_momentum_exceeds_constraint"], "note": "Holds for SPRING and for SR with momentum-free SGD. Fails for SR with momentum, because the constraint is applied before the descent optimizer (sr_momentum_exceeds_constraint)."},
 {"property": "C70", "status": "partial", "theorems": ["Verif.Props.log_dense_with_bias", "Verif.Props.log_dense_without_bias", "Verif.Props.run_log_represents", "Verif.Props.log_resnet_represents_partial", "Verif.Props.log_resnet_zero_fails"], "note": "Proved where no bias-free layer and no skip connection sums zeros only; a zero input of the bias-free final layer gives nan (log_resnet_zero_fails)."},
 {"property": "C71", "status": "proved", "theorems": ["Verif.Props.energy_estimates_unbiased", "Verif.Props.expected_covGrad", "Verif.Props.expectedEnergy_hasDerivAt", "Verif.Props.standard_gradient_unbiased", "Verif.Props.generic_gradient_unbiased", "Verif.Props.random_particle_gradient_unbiased", "Verif.Props.mean_eloc_derivative_zero", "Verif.Props.clipped_gradient_biased", "Verif.Props.expected_generic", "Verif.Props.expectedEnergy_hasDerivAt_sum"], "note": "Walkers are independent draws from |psi|^2 (the stationary distribution of C19); the wave function and local energy may be differentiated under the integral sign (SmoothFamily); this is proved for configured models in C96 and C99. The generic estimator needs no means of its two contributions, only of their sum. Clipping is shown to halve the gradient for two walkers and threshold 1/2."},
 {"property": "C72", "status": "partial", "theorems": ["Verif.Props.ibp_kinetic_expectation", "Verif.Props.ibp_ei_expectation", "Verif.Props.ibp_ee_expectation", "Verif.Props.ibp_energy_bias", "Verif.Props.ibp_energy_unbiased_partial", "Verif.Props.ibp_softened_biased"], "note": "Holds without softening; with softened attraction the ibp energy is strictly too low in expectation (ibp_softened_biased), and ibp_energy_bias gives the exact difference."},
 {"property": "C73", "status": "partial", "theorems": ["Verif.Props.initial_position_law_partial", "Verif.Props.initial_position_law_few_electrons_partial", "Verif.Props.choose_probability", "Verif.Props.selection_probability", "Verif.Props.first_electron_probability", "Verif.Props.second_electron_not_proportional", "Verif.Props.gumbelLaw_Iic", "Verif.Props.initial_positions_distinct_ions", "Verif.Props.initial_positions_all_ions", "Verif.Props.init_width_is_not_the_variance"], "note": "The law is proved in both cases with init_width as the standard deviation; the documentation's covariance init_width is refuted for widths other than 0 and 1. With no more electrons than ions the selection is drawing without putting back, for positive charges: the first electron has probability proportional to the charge, the second one has not (second_electron_not_proportional)."},
 {"property": "C74", "status": "proved", "theorems": ["Verif.Props.single_run_draws", "Verif.Props.pmap_run_draws", "Verif.Props.training_draws", "Verif.Props.evaluation_draws", "Verif.Props.single_run_keys_distinct", "Verif.Props.pmap_run_keys_distinct", "Verif.Props.pmap_run_refused", "Verif.Props.evaluation_records"], "note": "Keys are elements of a free structure for the distinctness theorems: different derivations (split, fold_in) give different keys. Local energies without randomness in the evaluation."},
 {"property": "C75", "status": "proved", "theorems": ["Verif.Props.run_amplitudes_match", "Verif.Props.distributed_setup_matches_single", "Verif.Props.dtype_selected"], "note": "A reloaded checkpoint is required to be consistent itself, which holds for checkpoints written by a run."},
 {"property": "C76", "status": "partial", "theorems": ["Verif.Props.deterministic_evaluation_records", "Verif.Props.random_evaluation_first_epoch_partial", "Verif.Props.random_evaluation_fails"], "note": "Holds for all types except random_particle; with random_particle the key is overwritten by the array of walker keys and every second epoch raises (random_evaluation_fails). One device; on several devices each device does the same."},
 {"property": "C77", "status": "partial", "theorems": ["Verif.Props.configured_model_antisymmetric_partial"], "note": "Not covered: products covariances with weights, which are not antisymmetric (C63), and include_ei_norm=False, where evaluation is not modelled."},
 {"property": "C78", "status": "proved", "theorems": ["Verif.Props.model_config_accepted_iff"], "note": "Entries are assumed to have the types of the default configuration, as ml_collections enforces. Recorded: the mode of the determinant function has to be valid even if unused."},
 {"property": "C79", "status": "proved", "theorems": ["Verif.Props.configured_model_callable_iff"], "note": "For include_ei_norm=True (the default) and at least one electron per species. Calls are with existing parameters; errors while creating parameters of the attention layer are C81. Error types are not distinguished."},
 {"property": "C80", "status": "partial", "theorems": ["Verif.Props.configured_model_means_partial", "Verif.Props.softenings_ignored", "Verif.Props.determinant_fn_mode_ignored", "Verif.Props.bias_scale_ignored", "Verif.Props.kernel_scale_ignored_iff"], "note": "False for ei_norm_softening, ee_norm_softening and determinant_fn_mode, which are never read, and for scales of initializers other than orthogonal ones (theorems *_ignored). For the embedded FermiNet the split of the backflow is specified only if there is one hidden count per species; otherwise calls raise (C79). All other options are covered."},
 {"property": "C81", "status": "partial", "theorems": ["Verif.Props.backflow_precision_partial", "Verif.Props.transformer_precision", "Verif.Props.transformer_constants_raise"], "note": "Holds without the transformer. With it the attention parameters have 32 bits whatever the configuration (transformer_precision), and accepted zeros or ones initializers raise a TypeError (transformer_constants_raise). Relies on flax 0.7.2 calling initializers with a positional dtype."},
 {"property": "C82", "status": "partial", "theorems": ["Verif.Props.translation_invariant_partial", "Verif.Props.embedded_not_translation_invariant"], "note": "Holds for all model types except embedded_particle_ferminet, whose hidden particles are placed at absolute positions; embedded_not_translation_invariant gives a configuration, parameters and a displacement with different values. For include_ei_norm=True."},
 {"property": "C83", "status": "partial", "theorems": ["Verif.Props.configured_model_value", "Verif.Props.configured_model_computes_partial", "Verif.Props.model_value_unique"], "note": "Spec/ConstructValue states the function in terms of entries and parameters; model_value_unique shows that it is one value. Calls with include_ei_norm=True; softenings of norms are 0, the only values that reach the layers (C80). For sums of determinants or antisymmetrized products one summand must not vanish (if all vanish, the code returns nan)."},
 {"property": "C84", "status": "partial", "theorems": ["Verif.Props.configured_features_finite_iff", "Verif.Props.float_features_finite_iff", "Verif.Props.float_features_partial", "Verif.Props.float_features_nan", "Verif.Props.float_orbitals_nan", "Verif.Props.float_orbitals_partial"], "note": "False if some species is empty: means over its electrons are 0/0, and all features and orbitals are nan (float_features_nan, float_orbitals_nan), unless transformers are used without a two-electron stream. Otherwise they are finite and equal to those of the real-number model used for the other network properties. Widths of layers are positive; overflow is not modelled."},
 {"property": "C85", "status": "partial", "theorems": ["Verif.Props.ee_norm_derivative", "Verif.Props.ee_norm_derivative_diag", "Verif.Props.plain_norm_derivative_nan", "Verif.Props.ei_norm_derivative_partial", "Verif.Props.ei_norm_derivative_at_ion", "Verif.Props.softened_distance_differentiable", "Verif.Props.softened_ei_derivative_fails"], "note": "Forward mode with the derivative rules of jax. Holds for electron-electron distances of distinct electrons including the diagonal, where the plain norm would give nan, and for electrons at no ion. False for a softened electron-ion distance of an electron at an ion: it is differentiable, but the norm inside gives nan."},
 {"property": "C86", "status": "proved", "theorems": ["Verif.Props.configured_value_smooth", "Verif.Props.configured_kinetic_energy", "Verif.Props.configured_local_energy", "Verif.Props.model_value_nonzero", "Verif.Props.log_coordinate"], "note": "\u03c8 is the function of Spec/ConstructValue.lean, which the built model computes by C83. The three conditions on the positions are the structure SmoothPlace. The logarithm f is what the model returns where that is finite. Regularity of envelopes is a condition on the parameters of networks with anisotropic decay only."},
 {"property": "C87", "status": "partial", "theorems": ["Verif.Props.evaluation_statistics_partial", "Verif.Props.evaluation_average", "Verif.Props.one_epoch_no_statistics", "Verif.Props.one_walker_no_statistics", "Verif.Props.no_records_no_statistics", "Verif.Props.stuck_walker_no_error_estimate", "Verif.Props.evaluation_statistics_fail"], "note": "The average is right with at least two epochs and two walkers. One epoch or one walker raises, as np.loadtxt removes dimensions of size one and the average is taken over two axes. One walker with a constant local energy makes the standard error nan."},
 {"property": "C88", "status": "proved", "theorems": ["Verif.Props.configured_decay", "Verif.Props.neutral_jastrow_decays"], "note": "Rates and constants depend on parameters. Embedded particles, attention in odd factors and Jastrow factors based on backflows are outside the stated conditions."},
 {"property": "C89", "status": "proved", "theorems": ["Verif.Props.configured_wave_function", "Verif.Props.configured_energy_expectation", "Verif.Props.configured_ibp_expectation", "Verif.Props.configured_not_normalisable"], "note": "The hypotheses of C72 are proved here for configured models instead of assumed. The last theorem shows that decay is needed: with decay 0 the default FermiNet of helium can stand for a constant."},
 {"property": "C90", "status": "proved", "theorems": ["Verif.Props.metropolis_converges", "Verif.Props.configured_walk_converges", "Verif.Props.walk_uses_draws", "Verif.Props.noise_positions"], "note": "Fixed step width, as in the property; the runner adjusts the width (C23, C24). The draws of jax.random are taken to be independent. walk_uses_draws ties the walk with draws to the walk of the code with keys."},
 {"property": "C91", "status": "proved", "theorems": ["Verif.Props.evaluation_converges", "Verif.Props.evaluation_uses_draws", "Verif.Props.configured_evaluation_converges", "Verif.Props.configured_ibp_evaluation_converges"], "note": "Fixed step width, as in the property; the runner adjusts the width. evaluation_uses_draws ties the positions to the evaluation of the code with keys, on one device. The energy random_particle is excluded because evaluations with it fail (C76)."},
 {"property": "C92", "status": "partial", "theorems": ["Verif.Props.adaptive_walk_invariant_partial", "Verif.Props.adaptive_walk_fixed", "Verif.Props.adaptive_walk_uses_draws", "Verif.Props.adaptive_width_not_invariant", "Verif.Props.density_positions"], "note": "Holds for the first nmoves moves, and every further block of nmoves moves is a walk of fixed width. False beyond: adaptive_width_not_invariant shows for every normalisable, integrable wave function which is zero almost nowhere that one walker whose width is adjusted after every move is not distributed as |psi|^2 after two moves, for all large enough initial widths. The bias for many walkers and long intervals is not bounded."},
 {"property": "C93", "status": "partial", "theorems": ["Verif.Props.training_device_independent_partial", "Verif.Props.reshape_distributed", "Verif.Props.clipped_training_depends_on_devices", "Verif.Props.spring_depends_on_devices"], "note": "Proved for Adam, SGD and stochastic reconfiguration without clipping or with the integration-by-parts estimator, which is never clipped. False with clipping, which the default configuration has (clipped_training_depends_on_devices: one SGD update with default clipping), and with SPRING (spring_depends_on_devices, with and without its norm constraint). KFAC's step is a library call and not modelled."},
 {"property": "C94", "status": "proved", "theorems": ["Verif.Props.metric_files", "Verif.Props.accept_ratio_mean", "Verif.Props.accept_ratio_nan", "Verif.Props.energy_metrics", "Verif.Props.epoch_dict"], "note": "KFAC's step is a library call; its metrics are not modelled. accept_ratio_nan: one nan acceptance probability makes the recorded ratio nan."},
 {"property": "C95", "status": "proved", "theorems": ["Verif.Props.evaluation_variance_converges", "Verif.Props.configured_energy_variance", "Verif.Props.configured_evaluation_variance_converges", "Verif.Props.energyVariance_eq_zero_iff", "Verif.Props.configured_variance_eq_zero_iff"], "note": "Convergence in probability, with real arithmetic, ideal normal and uniform draws and a fixed step width. The integrated-by-parts local energies are not covered."},
 {"property": "C96", "status": "proved", "theorems": ["Verif.Props.configured_gradient_unbiased", "Verif.Props.configured_random_gradient_unbiased"], "note": "Real arithmetic. Derivatives along any continuously differentiable path of parameters, so in particular partial derivatives. Walkers are independent; the automatic derivative of the model is taken to be its derivative with respect to parameters. Local energies of type standard, and random_particle in three dimensions (elsewhere its kinetic energy is biased, C35) with independent uniform permutations."},
 {"property": "C97", "status": "proved", "theorems": ["Verif.Props.ibp_second_moment_infinite", "Verif.Props.configured_ibp_variance_infinite", "Verif.Props.evaluation_variance_diverges", "Verif.Props.configured_ibp_evaluation_variance_diverges"], "note": "Convergence in probability, with real arithmetic, ideal normal and uniform draws and a fixed step width. Example: the hydrogen molecule with one electron in the antibonding orbital."},
 {"property": "C98", "status": "proved", "theorems": ["Verif.Props.clipped_gradient", "Verif.Props.gradient_large", "Verif.Props.product_second_moment_infinite", "Verif.Props.gradient_second_moment_infinite", "Verif.Props.configured_gradient_variance_infinite"], "note": "Real arithmetic and independent walkers. Example: the default FermiNet for the hydrogen molecule with the weight of a nucleus in an orbital as parameter, 2000 walkers on four devices and the default clipping."},
 {"property": "C99", "status": "proved", "theorems": ["Verif.Props.configured_ibp_family", "Verif.Props.configured_ibp_gradient_unbiased", "Verif.Props.configured_ibp_gradient_energy", "Verif.Props.ibp_product_no_mean", "Verif.Props.mismatched_no_mean", "Verif.Props.configured_ibp_gradient_parts"], "note": "Real arithmetic and independent walkers; the automatic derivatives of model and local energy are taken to be their derivatives. Answers the NOTE and the TODO in core.py (lines 323-325 and 381-383) about the factor and about clipping with the generic estimator. Example: the default FermiNet for the hydrogen molecule with the weight of a nucleus in an orbital as parameter, 2000 walkers on four devices."}
]}
