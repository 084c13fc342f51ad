{"id": "C01", "title": "Resuming from a regular checkpoint reproduces the uninterrupted run", "statement": "If training is run for N epochs and a regular checkpoint file written by that run is reloaded and training is restarted from the reloaded state at the reloaded epoch number, the final parameters, optimizer state, walker data and PRNG key are identical to those of the uninterrupted run.", "quantifier": "for every number of epochs, every checkpoint period, every checkpoint the run wrote, every (deterministic) walker function and update function and every initial state", "why_tests_cant": "A test resumes one short run of one model from one checkpoint; the claim is about every epoch at which a job may be preempted and every pair of walker/update functions.", "anchors": ["vmcnet/train/vmc.py:vmc_loop", "vmcnet/utils/checkpoint.py:save_metrics_and_regular_checkpoint", "vmcnet/train/runners.py:run_molecule"]}
{"id": "C02", "title": "Regular checkpoints: exactly the scheduled epochs, with the state at the start of the epoch", "statement": "With a log directory and period m, a run queues a file named '<k>.npz' in the checkpoint directory exactly for the epochs e it executed with k = e + 1 divisible by m, once each and in increasing order, and each file holds the epoch number e together with parameters, optimizer state, data and key as they were before epoch e's walk and update.", "quantifier": "for every run length, start epoch, period >= 1 and every walker/update function", "why_tests_cant": "Tests look at a few file names after a short run; off-by-one errors and pre/post-update mixups only show for particular period/epoch combinations.", "anchors": ["vmcnet/utils/checkpoint.py:save_metrics_and_regular_checkpoint", "vmcnet/train/vmc.py:vmc_loop"]}
{"id": "C03", "title": "The best-checkpoint file holds the epoch with the lowest error-adjusted running average", "statement": "When a run finishes (or is cut short by nan detection) with best-checkpointing enabled, the last content queued for best_checkpoint.npz is the start-of-epoch state of the first epoch at which the error-adjusted running average of the energy attained its minimum over all epochs run.", "quantifier": "for every finite sequence of finite energies and non-negative variances, every best_checkpoint_every >= 1, history length >= 2 and variance scale", "why_tests_cant": "The answer depends on the whole energy history and on how it interleaves with the save period; sampling a few histories cannot establish the invariant.", "anchors": ["vmcnet/utils/checkpoint.py:track_and_save_best_checkpoint", "vmcnet/utils/checkpoint.py:save_metrics_and_handle_checkpoints", "vmcnet/utils/checkpoint.py:finish_checkpointing"]}
{"id": "C04", "title": "Running average equals the mean of the retained history", "statement": "After any sequence of insertions the stored running average equals the arithmetic mean of the stored history, and the history is a suffix of the inserted values.", "quantifier": "for every sequence of inserted values and every history limit >= 2", "why_tests_cant": "The average is maintained incrementally, so an error at any step persists and depends on the entire insertion history.", "anchors": ["vmcnet/utils/checkpoint.py:RunningMetric.move_history_window"]}
{"id": "C05", "title": "The running history keeps nhistory_max values", "statement": "A value is removed from the running history only when its length would exceed nhistory_max, so that after at least nhistory_max insertions the history holds the last nhistory_max values, for any positive nhistory_max.", "quantifier": "for every sequence of insertions and every positive nhistory_max", "why_tests_cant": "The window length is only visible for histories longer than the limit, and the degenerate limit 1 is not exercised by default settings.", "anchors": ["vmcnet/utils/checkpoint.py:RunningMetric.move_history_window"]}
{"id": "C06", "title": "With nan checking on, training stops at the first nan epoch and records it", "statement": "With nan checking enabled and a log directory, the loop executes no epoch after the first epoch whose unclipped energy, unclipped variance or new parameters contain a nan, reports the detection, and queues a nans_<epoch+1>.npz file with that epoch's starting state; without any nan it runs all epochs and queues no such file.", "quantifier": "for every run length and every sequence of metrics and parameters", "why_tests_cant": "Needs all positions of the first nan and all combinations with the other checkpoint kinds.", "anchors": ["vmcnet/train/vmc.py:vmc_loop", "vmcnet/utils/checkpoint.py:save_metrics_and_regular_checkpoint", "vmcnet/utils/checkpoint.py:_check_for_nans"]}
{"id": "C07", "title": "A nan epoch does not disable later best checkpoints", "statement": "If nan checking is off and one epoch has a nan energy, later epochs whose error-adjusted energy average is below everything seen so far are still recorded as best checkpoints.", "quantifier": "for every run, every position of the nan epoch and every later energy sequence", "why_tests_cant": "A property of long histories after a rare event; unit tests never inject a nan in the middle of a run.", "anchors": ["vmcnet/utils/checkpoint.py:save_metrics_and_handle_checkpoints", "vmcnet/utils/checkpoint.py:RunningMetric.move_history_window"]}
{"id": "C08", "title": "The background writer writes every queued item exactly once, in order", "statement": "Once close_and_await returns, the sequence of items written equals the sequence of items queued before closing: nothing lost, duplicated or reordered.", "quantifier": "for every number of queued items and every interleaving of the producer thread and the writer thread, including every timing of queue time-outs and of the closing flag", "why_tests_cant": "Tests observe one schedule; the loss window between the flag check and the final drain can only be excluded over all interleavings.", "anchors": ["vmcnet/utils/checkpoint.py:ThreadedWriter"]}
{"id": "C09", "title": "Closing the background writer always terminates", "statement": "After the closing flag is set, the writer thread can always take a step until it finishes, and finishes after a number of its own steps bounded in terms of the queue length, so close_and_await cannot hang.", "quantifier": "for every reachable state at the time of closing and every schedule", "why_tests_cant": "Deadlock freedom is a statement about all schedules.", "anchors": ["vmcnet/utils/checkpoint.py:ThreadedWriter._run_thread", "vmcnet/utils/checkpoint.py:ThreadedWriter.close_and_await"]}
{"id": "C10", "title": "A crash never damages an already written regular checkpoint", "statement": "If the process dies at any instant, every checkpoint file whose write had completed before and that is not the file being written at that instant is intact with the data that was queued for it, and at most one file is truncated.", "quantifier": "for every crash point, every sequence of queued checkpoints and every schedule", "why_tests_cant": "Crash points are unbounded in number and cannot be enumerated by tests.", "anchors": ["vmcnet/utils/io.py:save_vmc_state", "vmcnet/utils/checkpoint.py:CheckpointWriter"]}
{"id": "C11", "title": "A crash always leaves a usable best checkpoint once one has been written", "statement": "If the process dies at any instant after a best checkpoint has been completely written, best_checkpoint.npz on disk is a complete checkpoint.", "quantifier": "for every crash point and every sequence of queued checkpoints", "why_tests_cant": "Requires reasoning about the instant between truncating the file and finishing the write.", "anchors": ["vmcnet/utils/io.py:save_vmc_state", "vmcnet/utils/checkpoint.py:BEST_CHECKPOINT_FILE_NAME"]}
{"id": "C12", "title": "Checkpoint save / reload / redistribute round trip", "statement": "Saving a (possibly device-replicated) training state and reloading and redistributing it on the same number of devices returns the same epoch, data, parameters, optimizer state and key.", "quantifier": "for every number of devices and every state whose parameters and optimizer state are replicated, whatever Python container the optimizer state is", "why_tests_cant": "The wrap/unwrap of containers and the take-first/replicate of device axes must be inverse for all shapes and container kinds.", "anchors": ["vmcnet/utils/io.py:process_checkpoint_data_for_saving", "vmcnet/utils/io.py:wrap_singleton", "vmcnet/utils/io.py:unwrap_if_singleton", "vmcnet/utils/distribute.py:distribute_vmc_state_from_checkpoint", "vmcnet/utils/distribute.py:replicate_all_local_devices"]}
{"id": "C13", "title": "Appending after a reload gives the same metric files as an uninterrupted run", "statement": "Reloading at epoch e with append enabled and finishing the run leaves, for each metric, a text file whose rows are the rows of an uninterrupted run: rows 0..e-1 from the old run followed by the rows of epochs e, e+1, ...", "quantifier": "for every reload epoch, run length and metric sequence", "why_tests_cant": "Includes the boundary epoch 0 and runs interrupted long after the checkpoint was taken.", "anchors": ["vmcnet/utils/io.py:copy_txt_stats", "vmcnet/utils/io.py:append_metric_to_file", "vmcnet/train/runners.py:run_molecule"]}
{"id": "C14", "title": "Unique-suffix names never collide with existing entries", "statement": "The name chosen for a new log directory, checkpoint directory or json file does not exist yet, and is the requested name if that is free and otherwise the requested name with the smallest free suffix _1, _2, ...", "quantifier": "for every finite set of existing names and every requested name", "why_tests_cant": "The search loop must terminate and be minimal for arbitrarily many pre-existing names.", "anchors": ["vmcnet/utils/io.py:add_suffix_for_uniqueness"]}
{"id": "C15", "title": "A saved configuration reloads to the same configuration", "statement": "Writing a configuration to json and loading it back gives the same nested configuration, with every sequence restored as a tuple.", "quantifier": "for every nested configuration of dictionaries, tuples and scalars", "why_tests_cant": "Nesting depth and mixing of dictionaries and sequences are unbounded.", "anchors": ["vmcnet/utils/io.py:_convert_to_tuple_if_list", "vmcnet/utils/io.py:_convert_dict_lists_to_tuples", "vmcnet/utils/io.py:load_config_dict"]}
{"id": "C16", "title": "Acceptance values are probabilities and never depend on the sign of the amplitude", "statement": "For any amplitudes the Metropolis acceptance value lies in [0,1] whenever it is not nan, equals 1 for moves that do not lower |psi|, and is unchanged if either amplitude changes sign; with finite log-amplitudes or with plain amplitudes it is never nan.", "quantifier": "for all real amplitudes (zero included) and all log-amplitudes including minus infinity", "why_tests_cant": "A statement over the continuum of amplitudes with special cases at zero and infinity.", "anchors": ["vmcnet/mcmc/metropolis.py:metropolis_symmetric_acceptance"]}
{"id": "C17", "title": "Detailed balance of the acceptance rule with respect to |psi|^2", "statement": "|psi(x)|^2 * accept(x->y) = |psi(y)|^2 * accept(y->x), both for plain amplitudes and for log-amplitudes.", "quantifier": "for all pairs of amplitudes", "why_tests_cant": "Equality over all real pairs; tests sample a handful.", "anchors": ["vmcnet/mcmc/metropolis.py:metropolis_symmetric_acceptance"]}
{"id": "C18", "title": "Plain and log acceptance agree", "statement": "For the same pair of wavefunction values the acceptance computed from amplitudes equals the one computed from log|amplitude|.", "quantifier": "for all pairs of wavefunction values", "why_tests_cant": "Agreement at zero amplitudes is a corner case on a measure-zero set that sampled tests do not hit.", "anchors": ["vmcnet/mcmc/metropolis.py:metropolis_symmetric_acceptance"]}
{"id": "C19", "title": "The Metropolis step leaves |psi|^2 invariant", "statement": "If walker positions are distributed with density proportional to |psi|^2, then after one fixed-width Gaussian Metropolis step (and hence after any number of steps) they still are.", "quantifier": "for every measurable wavefunction that vanishes nowhere (log domain), every step width, every dimension and every number of steps", "why_tests_cant": "A distributional statement; tests can only compare histograms statistically.", "anchors": ["vmcnet/mcmc/metropolis.py:make_metropolis_step", "vmcnet/mcmc/metropolis.py:gaussian_proposal", "vmcnet/mcmc/metropolis.py:walk_data", "vmcnet/mcmc/position_amplitude_core.py:make_position_amplitude_gaussian_metropolis_step"]}
{"id": "C20", "title": "Stored amplitudes always match stored positions", "statement": "At every point of burning, walking and parameter updating, the amplitude stored for each walker equals the wavefunction evaluated at that walker's stored position with the current parameters.", "quantifier": "for every number of burn steps, walk steps, epochs, every random key and every optimizer", "why_tests_cant": "An invariant over unbounded histories of steps and updates.", "anchors": ["vmcnet/mcmc/position_amplitude_core.py:make_position_amplitude_update", "vmcnet/mcmc/position_amplitude_core.py:get_update_data_fn", "vmcnet/updates/params.py:create_grad_energy_update_param_fn"]}
{"id": "C21", "title": "Each walker either stays put or moves to its own proposal", "statement": "After a Metropolis step every walker's position and amplitude are either both unchanged or both equal to that walker's proposal, the choice is made by comparing that walker's own uniform draw with its own acceptance value, and a nan acceptance value never moves a walker.", "quantifier": "for all numbers of walkers, proposals and draws", "why_tests_cant": "Masking/broadcast errors only show for particular shapes and masks.", "anchors": ["vmcnet/mcmc/metropolis.py:make_metropolis_step", "vmcnet/mcmc/position_amplitude_core.py:make_position_amplitude_update"]}
{"id": "C22", "title": "walk_data is n single steps with the mean acceptance; burn_data is the same trajectory", "statement": "Walking n >= 1 steps returns the data and key of n successive single steps and the average of the n acceptance values, which lies in [0,1]; walking m then n steps is walking m+n steps; burning n steps gives the same data and key.", "quantifier": "for every n, every step function, every state", "why_tests_cant": "Unbounded numbers of steps; compositionality is needed to reason about checkpoints between walks.", "anchors": ["vmcnet/mcmc/metropolis.py:walk_data", "vmcnet/mcmc/metropolis.py:burn_data", "vmcnet/mcmc/metropolis.py:make_jitted_burning_step"]}
{"id": "C23", "title": "Step-width adaptation fires exactly every nmoves moves and uses the average of exactly those moves", "statement": "Starting from fresh metadata, the step width changes only after moves n, 2n, 3n, ..., and the adjustment applied there uses the average acceptance fraction of exactly the last n moves; in between the counter is below n and the running sum is the sum of the acceptances since the last adjustment.", "quantifier": "for every n >= 1, every sequence of acceptance masks and every adjustment function", "why_tests_cant": "Counter reset mistakes show up only over several periods.", "anchors": ["vmcnet/mcmc/dynamic_width_position_amplitude.py:make_update_move_metadata_fn"]}
{"id": "C24", "title": "The adaptive step width stays positive and moves toward the target acceptance", "statement": "With adjustment factor in (0,1) a positive step width stays positive for ever; it grows exactly when the average acceptance exceeds target + threshold, shrinks exactly when it is below target - threshold, and never changes by more than the factor per adjustment.", "quantifier": "for every number of moves and every acceptance history", "why_tests_cant": "Long-run invariants of a feedback loop.", "anchors": ["vmcnet/mcmc/dynamic_width_position_amplitude.py:make_threshold_adjust_std_move", "vmcnet/train/runners.py:_get_mcmc_fns"]}
{"id": "C25", "title": "FFT autocorrelation equals the direct definition", "statement": "The autocorrelation curve computed through the zero-padded Fourier transform equals, at each lag k, the average over the N-k available pairs of the product of centred samples, divided by the lag-0 value; in particular it is 1 at lag 0.", "quantifier": "for every chain length, every lag below it and every sample sequence with non-zero variance", "why_tests_cant": "An identity for all N and samples; insufficient zero padding would only corrupt large lags.", "anchors": ["vmcnet/mcmc/statistics.py:per_chain_autocorr_fast"]}
{"id": "C26", "title": "The multi-chain variance is the population variance of all samples", "statement": "The variance reported for a set of equally long chains equals the population variance sum (x - mean)^2 / count of all samples.", "quantifier": "for every number of chains and samples", "why_tests_cant": "An algebraic identity over all sample matrices; a test with one matrix and loose tolerance does not separate n from n-1 factors.", "anchors": ["vmcnet/mcmc/statistics.py:multi_chain_autocorr_and_variance"]}
{"id": "C27", "title": "Integrated autocorrelation follows the initial monotone sequence rule", "statement": "The integrated autocorrelation equals -1 + 2 * (sum of the running minima of consecutive-pair sums up to the first negative pair sum); it is monotone in the curve on the retained part, insensitive to everything after the first negative pair, and the reported standard error is a real number whenever the curve starts with a non-negative pair sum large enough to make it non-negative.", "quantifier": "for every finite curve of every length, odd lengths included", "why_tests_cant": "Truncation, odd-length and running-minimum logic must compose for all curves.", "anchors": ["vmcnet/mcmc/statistics.py:tau", "vmcnet/mcmc/statistics.py:get_stats_summary"]}
{"id": "C28", "title": "Cross-device means equal global means", "statement": "The mean over devices of per-device means equals the mean over all chains when chains are distributed evenly; distributing is rejected with an error when the number of chains is not divisible by the number of devices, and otherwise preserves the order of the chains.", "quantifier": "for every number of devices and chains per device", "why_tests_cant": "CI runs on one device; the claim is for every device count.", "anchors": ["vmcnet/utils/distribute.py:mean_all_local_devices", "vmcnet/utils/distribute.py:reshape_data_leaves_for_distribution", "vmcnet/utils/distribute.py:default_distribute_data"]}
{"id": "C29", "title": "Nan-safe cross-device means equal the mean over all non-nan chains", "statement": "With nan-safe averaging on, the reported energy is the mean of all non-nan local energies, independent of how chains are spread over devices.", "quantifier": "for every number of devices, chains and every pattern of nans", "why_tests_cant": "Unequal nan counts per device never occur in tests.", "anchors": ["vmcnet/utils/distribute.py:nanmean_all_local_devices", "vmcnet/physics/core.py:get_statistics_from_local_energy"]}
{"id": "C30", "title": "Reported energy and variance are the sample mean and the unbiased sample variance", "statement": "For n >= 2 chains the reported energy is the mean of the local energies and the variance is sum (e - mean)^2/(n-1); the variance is non-negative, zero exactly when all energies coincide, and unchanged when a constant is added to all energies; both are independent of the number of devices.", "quantifier": "for all n >= 2, all local energies and all device counts dividing n", "why_tests_cant": "Algebraic identities over all vectors and device layouts.", "anchors": ["vmcnet/physics/core.py:get_statistics_from_local_energy"]}
{"id": "C31", "title": "Clipping keeps energies inside the window, keeps order, and leaves inliers alone", "statement": "Clipped local energies lie within threshold * (mean absolute deviation) of the chosen centre, the clipping is monotone, leaves energies already inside the window unchanged, is the identity when all energies coincide, and is shift-equivariant; the unclipped metrics do not depend on clipping.", "quantifier": "for every list of finite energies, centre choice and positive threshold", "why_tests_cant": "Order/idempotence/shift laws over all energy vectors.", "anchors": ["vmcnet/train/runners.py:total_variation_clipping_fn", "vmcnet/physics/core.py:get_clipped_energies_and_aux_data"]}
{"id": "C32", "title": "Nan-safe training tolerates a walker with a nan local energy", "statement": "With nan_safe enabled, one walker with a nan local energy does not turn the energy used for training nor the energy gradient into nan as long as another walker is finite.", "quantifier": "for every clipping setting and every position of the nan", "why_tests_cant": "The nan has to pass through centre, clip, mean and reverse-mode differentiation; no test injects one.", "anchors": ["vmcnet/physics/core.py:create_value_and_grad_energy_fn", "vmcnet/train/runners.py:total_variation_clipping_fn", "vmcnet/physics/core.py:get_clipped_energies_and_aux_data"]}
{"id": "C33", "title": "The energy gradient estimator is the covariance of local energy and log-psi gradient", "statement": "The gradient returned for n walkers is 2/(n-1) * sum_i (E_i - mean E) * grad log|psi|(x_i), i.e. twice the unbiased sample covariance: unaffected by adding a constant to all local energies, zero when all local energies coincide (an exact eigenstate), and identical for every device layout.", "quantifier": "for every n >= 2, parameter dimension, local energies, gradients and device counts dividing n", "why_tests_cant": "Identity over all inputs and layouts, beyond sampled numeric checks.", "anchors": ["vmcnet/physics/core.py:create_value_and_grad_energy_fn", "vmcnet/updates/params.py:create_grad_energy_update_param_fn"]}
{"id": "C34", "title": "Coulomb terms count every pair once and are symmetric under relabelling and rigid motion", "statement": "The electron-electron term is the sum over unordered pairs of strength/distance, the electron-ion term is minus the sum over all electron-ion pairs of charge/distance, the ion-ion term is the sum over unordered ion pairs; they are invariant under any permutation of electrons and under translating electrons and ions together.", "quantifier": "for all numbers of electrons and ions, any dimension, all positions without coincidences", "why_tests_cant": "Sums over all pairs for arbitrary particle numbers.", "anchors": ["vmcnet/physics/potential.py:create_electron_electron_coulomb_potential", "vmcnet/physics/potential.py:create_electron_ion_coulomb_potential", "vmcnet/physics/potential.py:create_ion_ion_coulomb_potential"]}
{"id": "C35", "title": "The random-particle local energy is an unbiased estimate of the full local energy", "statement": "Averaged over all permutations of the particles, the random-particle kinetic, electron-ion and electron-electron terms equal the corresponding full terms, for any number of sampled particles between 1 and the number of particles and any spatial dimension.", "quantifier": "for every number of particles, sampled particles, dimension and configuration", "why_tests_cant": "Averages over n! permutations for all n.", "anchors": ["vmcnet/physics/core.py:laplacian_psi_over_psi", "vmcnet/physics/random_particle.py:assemble_random_particle_local_energy", "vmcnet/physics/potential.py:create_electron_electron_coulomb_potential"]}
{"id": "C36", "title": "Every local-energy configuration contains each Hamiltonian term exactly once", "statement": "For each choice of local-energy type and of the set of terms handled by integration by parts or by random sampling, the assembled local energy contains kinetic, electron-ion, electron-electron and ion-ion contributions exactly once each, in the requested form; unknown types are rejected.", "quantifier": "for every local-energy type string and every subset of parts", "why_tests_cant": "All combinations of flags and all particle numbers, with the wavefunction arbitrary.", "anchors": ["vmcnet/train/runners.py:_assemble_mol_local_energy_fn", "vmcnet/physics/ibp.py:create_ibp_local_energy", "vmcnet/physics/random_particle.py:create_molecular_random_particle_local_energy", "vmcnet/physics/core.py:combine_local_energy_terms"]}
{"id": "C37", "title": "Harmonic-oscillator eigenstate has constant local energy", "statement": "For non-interacting harmonic oscillators with the model's frequency equal to the potential's, the local energy of the Slater determinant of the lowest n orbitals is omega * n^2 / 2 at every configuration where the wavefunction is non-zero.", "quantifier": "for every number of particles per species, every frequency > 0 and every configuration", "why_tests_cant": "An identity for all n and all configurations; tests check a few points for small n.", "anchors": ["vmcnet/examples/harmonic_oscillator.py:make_hermite_polynomials", "vmcnet/examples/harmonic_oscillator.py:HarmonicOscillatorOrbitals", "vmcnet/examples/harmonic_oscillator.py:make_harmonic_oscillator_local_energy"]}
{"id": "C38", "title": "Hydrogen-like ground state has constant local energy", "statement": "For the exact decay rate the hydrogen-like wavefunction's local energy is the same constant at every non-zero electron position.", "quantifier": "for every nuclear charge, every decay parameter matching it, every position", "why_tests_cant": "Continuum of positions.", "anchors": ["vmcnet/examples/hydrogen_like_atom.py:HydrogenLikeWavefunction", "vmcnet/examples/hydrogen_like_atom.py:make_hydrogen_like_local_energy"]}
{"id": "C39", "title": "Spin-exchange estimator", "statement": "The local spin-exchange value equals -n_up*n_down*psi(swapped)/psi, is 0 when one spin species is absent, and for a wavefunction symmetric under the up/down swap the S^2 estimate equals the closed form; in particular the singlet of two electrons gives S^2 = 0 and an antisymmetric spatial function of two electrons gives S^2 = 2.", "quantifier": "for every n_up, n_down, wavefunction and sample set with non-zero amplitudes", "why_tests_cant": "All electron counts and wavefunctions.", "anchors": ["vmcnet/physics/spin.py:create_local_spin_exchange", "vmcnet/physics/spin.py:create_spin_square_expectation"]}
{"id": "C40", "title": "Sign/log arithmetic represents real arithmetic", "statement": "Converting to (sign, log|.|) form and back is the identity; products, sums over an axis and weighted sums computed in that form represent the product, sum and weighted sum of the represented numbers, including when terms cancel exactly or are zero, provided not all terms are zero.", "quantifier": "for all finite families of represented numbers and weights", "why_tests_cant": "All magnitudes and cancellation patterns, including log 0 = -infinity.", "anchors": ["vmcnet/utils/slog_helpers.py", "vmcnet/utils/log_linear_exp.py:log_linear_exp"]}
{"id": "C41", "title": "A sum of all-zero amplitudes in sign/log form is zero, not nan", "statement": "Summing represented numbers that are all zero gives the representation of zero (log = -infinity) rather than nan.", "quantifier": "for every number of terms", "why_tests_cant": "Configurations on which every determinant vanishes are a measure-zero set.", "anchors": ["vmcnet/utils/log_linear_exp.py:log_linear_exp", "vmcnet/utils/slog_helpers.py:slog_sum_over_axis"]}
{"id": "C42", "title": "FermiNet is antisymmetric under exchange of same-spin electrons", "statement": "Permuting electrons within each spin species multiplies the FermiNet wavefunction by the product of the signs of the permutations (so log|psi| is unchanged), for the determinant-sum, full-determinant and sign-covariant, parallel-even and pairwise-even determinant-function variants.", "quantifier": "for all numbers of spins, electrons, ions, layers, determinants, all parameter values and all permutations", "why_tests_cant": "Tests evaluate random parameters for one small architecture and one permutation.", "anchors": ["vmcnet/models/construct.py:FermiNet", "vmcnet/models/antisymmetry.py:slogdet_product", "vmcnet/models/equivariance.py:FermiNetBackflow", "vmcnet/models/equivariance.py:FermiNetOrbitalLayer"]}
{"id": "C43", "title": "The FermiNet feature streams are permutation equivariant", "statement": "Permuting electrons within spin species permutes the one-electron features in the same way and the two-electron features in both particle indices, for input streams and after any number of residual blocks, with or without cyclic spin averaging.", "quantifier": "for all sizes, depths, options, parameter values and permutations", "why_tests_cant": "Depth and size unbounded.", "anchors": ["vmcnet/models/equivariance.py:compute_input_streams", "vmcnet/models/equivariance.py:FermiNetOneElectronLayer", "vmcnet/models/equivariance.py:FermiNetTwoElectronLayer", "vmcnet/models/equivariance.py:FermiNetResidualBlock"]}
{"id": "C44", "title": "The sign attached to each lexicographic permutation is its parity", "statement": "The sign vector used for explicit antisymmetrization agrees entry by entry with the parity of the permutations in lexicographic order.", "quantifier": "for every n", "why_tests_cant": "n! entries for every n; tests check small n.", "anchors": ["vmcnet/models/antisymmetry.py:_get_lexicographic_signs", "vmcnet/models/antisymmetry.py:ParallelPermutations"]}
{"id": "C45", "title": "Explicit antisymmetrizers produce antisymmetric functions", "statement": "The generic and the factorized antisymmetrizers applied to any function yield a function which changes by the parity under within-spin permutations.", "quantifier": "for every inner function, all spin splits, electron numbers and ranks", "why_tests_cant": "Any inner network; unbounded sizes.", "anchors": ["vmcnet/models/antisymmetry.py:FactorizedAntisymmetrize", "vmcnet/models/antisymmetry.py:GenericAntisymmetrize"]}
{"id": "C46", "title": "Sign symmetrization produces odd (or even) functions in every sign", "statement": "Applying the covariant (invariant) sign symmetrization to any function gives a function that flips sign (is unchanged) whenever any one of its symmetrized inputs is negated.", "quantifier": "for every number of inputs, every input and every function", "why_tests_cant": "2^n orbit for arbitrary n and arbitrary function.", "anchors": ["vmcnet/models/sign_symmetry.py:_get_sign_array_1d", "vmcnet/models/sign_symmetry.py:make_array_list_fn_sign_covariant", "vmcnet/models/sign_symmetry.py:make_array_list_fn_sign_invariant"]}
{"id": "C47", "title": "Cofactor and per-particle-determinant layers are antiequivariant", "statement": "Permuting electrons of one spin permutes the outputs of the cofactor layer and multiplies them by the parity; the outputs for one spin sum to the determinant of that spin's orbital matrix; non-square matrices are rejected.", "quantifier": "for every n, orbital matrix and permutation", "why_tests_cant": "All n and all matrices including singular ones.", "anchors": ["vmcnet/models/antiequivariance.py:cofactor_antieq", "vmcnet/models/antiequivariance.py:slog_cofactor_antieq", "vmcnet/models/antiequivariance.py:get_submatrices_along_first_col", "vmcnet/models/antiequivariance.py:PerParticleDeterminantAntiequivarianceLayer"]}
{"id": "C48", "title": "Jastrow factors are symmetric and cusp-scaled as documented", "statement": "One- and two-body exponential-decay Jastrow factors are invariant under every permutation of all electrons; the molecule-scaled two-body factor is 0 in log form when each nucleus of charge Z carries Z electrons on top of it.", "quantifier": "for all numbers of electrons and ions, parameter values, positions and permutations", "why_tests_cant": "All configurations and sizes.", "anchors": ["vmcnet/models/jastrow.py:OneBodyExpDecay", "vmcnet/models/jastrow.py:TwoBodyExpDecay", "vmcnet/models/jastrow.py:get_two_body_decay_scaled_for_chargeless_molecules"]}
{"id": "C49", "title": "Spin-split helpers are inverse to each other", "statement": "For any list of electron counts, the split indices derived from it recover exactly those counts and number of spins, for integer and index-list splits.", "quantifier": "for every list of electron counts and every total", "why_tests_cant": "Arbitrary lists.", "anchors": ["vmcnet/models/core.py:get_spin_split", "vmcnet/models/core.py:get_nelec_per_split", "vmcnet/models/core.py:get_nsplits"]}
{"id": "C50", "title": "Orbital-layer options reach the orbital layer", "statement": "Setting the orbital bias option, or the isotropic-decay option, of a cofactor or per-particle-determinant antiequivariance layer has exactly that effect on its orbitals and no other: no bias when bias is off, unsoftened envelopes, isotropic decay when requested.", "quantifier": "for all option values and inputs", "why_tests_cant": "Options have default values for which a mix-up is invisible.", "anchors": ["vmcnet/models/antiequivariance.py:OrbitalCofactorAntiequivarianceLayer", "vmcnet/models/antiequivariance.py:PerParticleDeterminantAntiequivarianceLayer", "vmcnet/models/equivariance.py:FermiNetOrbitalLayer"]}
{"id": "C51", "title": "Lazy and dense Fisher products agree and give a well-posed solve", "statement": "The matrix-free Fisher-vector product and the explicit one give the same vector; for positive damping the damped Fisher matrix is symmetric positive definite, so the natural-gradient direction is the unique solution and is a descent direction.", "quantifier": "for all numbers of walkers and parameters, all Jacobians and vectors, any damping > 0", "why_tests_cant": "Algebraic identity for all sizes.", "anchors": ["vmcnet/updates/sr.py:get_fisher_inverse_fn"]}
{"id": "C52", "title": "Norm-constrained updates respect the constraint and keep the direction", "statement": "After norm constraining, the update is a non-negative multiple (at most 1) of the unconstrained one and its (natural) squared norm times the learning rate squared does not exceed the constraint; updates within the constraint are untouched.", "quantifier": "for all gradients, learning rates and positive constraints, zero gradients included", "why_tests_cant": "All magnitudes including 0.", "anchors": ["vmcnet/updates/sr.py:constrain_norm", "vmcnet/updates/spring.py:constrain_norm"]}
{"id": "C53", "title": "SPRING solves its regularized least-squares problem", "statement": "The SPRING direction minimizes ||O t - e||^2 + damping * ||t - mu * previous||^2 with centred O and centred energies, and is the unique minimizer.", "quantifier": "for every number of walkers and parameters, any damping > 0 and any previous direction", "why_tests_cant": "Optimality over all of parameter space.", "anchors": ["vmcnet/updates/spring.py:get_spring_update_fn"]}
{"id": "C54", "title": "Learning-rate schedules", "statement": "The constant schedule returns the base rate at every step; the inverse-time schedule starts at the base rate, is positive and non-increasing and equals rate/(1 + decay*t); any other schedule name is rejected.", "quantifier": "for every step count, rate > 0 and decay >= 0, every schedule name", "why_tests_cant": "All step counts.", "anchors": ["vmcnet/updates/parse_config.py:_get_learning_rate_schedule"]}
{"id": "C55", "title": "Evaluation never changes the wavefunction and threads the PRNG key", "statement": "Running evaluation for any number of epochs returns the parameters, optimizer state unchanged, positions change only through the walker function, and the key handed to the next epoch is a single key.", "quantifier": "for every number of evaluation epochs, local energy type and walker function", "why_tests_cant": "Multi-epoch behaviour of every local-energy type.", "anchors": ["vmcnet/updates/params.py:create_eval_update_param_fn", "vmcnet/train/vmc.py:vmc_loop"]}
{"id": "C56", "title": "Replicated parameters stay identical on all devices", "statement": "If parameters and optimizer state are identical on all devices before an update, they are identical after any number of updates.", "quantifier": "for every device count, number of updates, data split and optimizer", "why_tests_cant": "CI has one device; divergence needs several devices and several steps.", "anchors": ["vmcnet/updates/params.py:create_grad_energy_update_param_fn", "vmcnet/updates/sr.py:constrain_norm", "vmcnet/updates/spring.py:get_spring_update_fn"]}
{"id": "C57", "title": "Command-line configuration rules", "statement": "Options given on the command line override reloaded or preset values, which override defaults; asking for both kinds of preset, or for a preset together with a reloaded configuration, is rejected; debugging nans always turns distribution off; the original log directory is remembered.", "quantifier": "for every combination of flags, presets and reloaded files", "why_tests_cant": "Combinatorial decision logic.", "anchors": ["vmcnet/train/parse_config_flags.py:parse_flags"]}
{"id": "C58", "title": "run_molecule phase logic", "statement": "Burning is skipped exactly when a checkpoint is reloaded without reburn; the epoch counter and optimizer state continue exactly when a checkpoint is reloaded without requesting a new optimizer state; evaluation runs exactly when no nans were detected, never writes checkpoints, and reuses training walkers exactly when asked to and the chain counts agree.", "quantifier": "for every combination of reload and evaluation options", "why_tests_cant": "All option combinations with arbitrary training outcomes.", "anchors": ["vmcnet/train/runners.py:run_molecule", "vmcnet/train/runners.py:_burn_and_run_vmc"]}
{"id": "C59", "title": "log_linear_exp never overflows", "statement": "In the weighted log-sum-exp every exponential that is evaluated has argument at most zero, so each term has absolute value at most the absolute weight, however large the log magnitudes are.", "quantifier": "for every non-empty list of signs, finite or minus-infinite log magnitudes and weights", "why_tests_cant": "The log magnitudes are unbounded reals.", "anchors": ["vmcnet/utils/slog_helpers.py", "vmcnet/utils/log_linear_exp.py:log_linear_exp"]}
{"id": "C60", "title": "Integration-by-parts cones", "statement": "The Laplacian over all electron coordinates of the cone potentials whose gradients enter the integrated-by-parts energy equals (d-1)/2 times the Coulomb potential they replace, hence exactly the Coulomb potential in three dimensions without softening, and not in other dimensions.", "quantifier": "for all positions of distinct electrons off the nuclei, all charges, all dimensions", "why_tests_cant": "Second derivatives over a continuum of positions.", "anchors": ["vmcnet/physics/ibp.py", "vmcnet/physics/potential.py"]}
{"id": "C61", "title": "The estimator measures S squared", "statement": "For a spatial function antisymmetric within each spin species, averaging the local value 0.25(n_up-n_down)^2 + 0.5(n_up+n_down) + exchange with weights |F|^2 over configurations closed under same-spin exchanges gives exactly the quadratic form of Dirac's exchange form of the operator S^2.", "quantifier": "for all n_up, n_down >= 1, all such functions and all finite closed sets of configurations with non-zero amplitude", "why_tests_cant": "Quantifies over all wavefunctions and electron counts.", "anchors": ["vmcnet/physics/spin.py:create_local_spin_exchange", "vmcnet/physics/spin.py:create_spin_square_expectation"]}
{"id": "C62", "title": "Cyclic spin sharing treats the spins alike", "statement": "With cyclic_spins every residual block, and so the whole backflow, commutes with cyclic relabelling of spin species with equally many electrons; without cyclic_spins this fails.", "quantifier": "for all numbers of species, electrons per species, shifts, layer parameters and inputs", "why_tests_cant": "All networks and inputs of all sizes.", "anchors": ["vmcnet/models/equivariance.py:_rolled_concat", "vmcnet/models/equivariance.py:FermiNetOneElectronLayer"]}
{"id": "C63", "title": "Antiequivariance networks are antisymmetric", "statement": "The orbital-cofactor and per-particle-determinant networks, with or without multiplication by equivariant features and with any of the sign covariances, change by the product of the parities when electrons are permuted within species.", "quantifier": "for all numbers of species and electrons, all backflows, orbitals, parameters and positions", "why_tests_cant": "All networks, sizes and positions.", "anchors": ["vmcnet/models/construct.py:AntiequivarianceNet", "vmcnet/models/construct.py:get_sign_covariance_from_config", "vmcnet/models/sign_symmetry.py:ProductsSignCovariance"]}
{"id": "C64", "title": "Hidden-fermion FermiNets are antisymmetric", "statement": "The embedded-particle and extended-orbital-matrix FermiNets change by the product of the parities when the visible electrons are permuted within species, for split and full determinants; the extended network is the sum of products of determinants of orbital matrices padded with invariant rows.", "quantifier": "for all numbers of visible and hidden particles, all networks and positions", "why_tests_cant": "All networks, sizes and positions.", "anchors": ["vmcnet/models/construct.py:EmbeddedParticleFermiNet", "vmcnet/models/construct.py:ExtendedOrbitalMatrixFermiNet", "vmcnet/models/invariance.py:InvariantTensor"]}
{"id": "C65", "title": "Explicitly antisymmetrized networks", "statement": "The factorized and generic antisymmetry networks with any of the Jastrow factors change by the product of the parities when electrons are permuted within species, and represent exp(Jastrow) times the alternating sums of the ResNets.", "quantifier": "for all numbers of electrons, all functions in place of the ResNets, all backflows, Jastrow parameters and positions", "why_tests_cant": "All functions and positions; sums over all permutations.", "anchors": ["vmcnet/models/construct.py:FactorizedAntisymmetry", "vmcnet/models/construct.py:GenericAntisymmetry"]}
{"id": "C66", "title": "Copied configuration dictionaries share nothing", "statement": "_copy_all_dicts returns a nested dictionary with the same contents in which no dictionary object occurs at two places and none of the original objects is used, so setting a field by a flag changes that field and no other.", "quantifier": "for all nested dictionaries with any sharing, all fields and values", "why_tests_cant": "Aliasing shows up only for particular sharing patterns.", "anchors": ["vmcnet/train/default_config.py:_copy_all_dicts"]}
{"id": "C67", "title": "Restarting a run reproduces it", "statement": "A run that reloads a checkpoint (epoch 1 or later) of an earlier run with the default reload options and the same settings ends with the same trained state, metric files, evaluation and statistics as the earlier run.", "quantifier": "for all setups, configurations, numbers of epochs and checkpoint files", "why_tests_cant": "Unbounded runs, arbitrary updates and arbitrary checkpoints.", "anchors": ["vmcnet/train/runners.py:run_molecule", "vmcnet/utils/io.py:copy_txt_stats"]}
{"id": "C68", "title": "The configured optimizer takes the documented steps", "statement": "get_update_fn_and_init_optimizer builds the optimizer named by optimizer_type with the learning-rate schedule of that optimizer's own section, rejects all other names, and its update number s uses the learning rate scheduled for step s: SGD moves by the (Nesterov) discounted sum of past gradients, Adam by the bias-corrected mean over root mean square, SR feeds the descent optimizer of descent_type with the norm-constrained natural gradient, SPRING moves along its regularized least-squares direction.", "quantifier": "for all configurations, gradients, data, numbers of devices, walkers, parameters and update steps", "why_tests_cant": "Unbounded sequences of updates with feedback of the parameters into the gradients.", "anchors": ["vmcnet/updates/parse_config.py:get_update_fn_and_init_optimizer", "vmcnet/updates/parse_config.py:get_sr_update_fn_and_state", "vmcnet/updates/parse_config.py:get_spring_update_fn_and_state", "vmcnet/updates/parse_config.py:_get_sgd_optax_optimizer"]}
{"id": "C69", "title": "The norm constraint bounds the actual parameter move", "statement": "With a norm constraint, every parameter move of SR (in the natural norm) and SPRING (in the Euclidean norm) respects the constraint.", "quantifier": "for all gradients, data, configurations and update steps", "why_tests_cant": "Depends on the interplay of constraint, momentum and schedule over many steps.", "anchors": ["vmcnet/updates/parse_config.py:get_sr_update_fn_and_state", "vmcnet/updates/sr.py:constrain_norm", "vmcnet/updates/spring.py:constrain_norm"]}
{"id": "C70", "title": "Log-domain networks compute the linear-domain networks", "statement": "LogDomainDense and LogDomainResNet with the same parameters return the (sign, log) representation of what Dense and SimpleResNet return, for every input.", "quantifier": "for all inputs, parameters, depths, widths, and log-domain activations matching their linear-domain ones", "why_tests_cant": "One layer stack, one input and one activation are tested; zeros and cancellation are not.", "anchors": ["vmcnet/models/core.py:LogDomainDense", "vmcnet/models/core.py:LogDomainResNet", "vmcnet/models/core.py:SimpleResNet"]}
{"id": "C71", "title": "Energy, variance and gradient estimates are unbiased", "statement": "For independent walkers distributed as |psi|^2, without clipping and nans, the reported energy, variance and gradient have as expectation exactly the expected local energy, its variance and the derivative of the expected energy: for the standard estimator when the Hamiltonian is symmetric, for the generic (ibp) estimator for any local energy, and for random_particle when each randomised local energy is unbiased. With clipping the gradient estimate is biased.", "quantifier": "for all numbers of walkers >= 2, device layouts, wave-function families differentiable under the integral sign, measures, and parameters", "why_tests_cant": "An expectation over all samples cannot be observed in a test; tests compare one batch with a formula that has the same factor n/(n-1).", "anchors": ["vmcnet/physics/core.py:get_statistics_from_local_energy", "vmcnet/physics/core.py:create_value_and_grad_energy_fn", "vmcnet/train/runners.py:_get_clipping_fn"]}
{"id": "C72", "title": "Integration by parts keeps the expected energy", "statement": "For walkers distributed as |psi|^2 the ibp local energy, for every choice of integrated parts, has the same expectation as the standard local energy.", "quantifier": "for all normalisable wave functions of any number of electrons in three dimensions with finite energy (cusps and nodes allowed), ions, charges, lists of parts and softening parameters", "why_tests_cant": "The equality holds for integrals over all of configuration space, not for any walker or batch; tests compare formulas at single points.", "anchors": ["vmcnet/physics/ibp.py:create_ibp_energy_term", "vmcnet/physics/ibp.py:create_ibp_local_energy", "vmcnet/train/runners.py:_assemble_mol_local_energy_fn"]}
{"id": "C73", "title": "Distribution of the initial electron positions", "statement": "Each electron of each chain starts at an ion chosen with probability proportional to the ion's charge (without putting two electrons of a chain at the same ion if there are not more electrons than ions), displaced by independent normal noise with covariance init_width in every coordinate, as documented; with more electrons than ions all electrons of all chains are independent.", "quantifier": "for all numbers of chains, electrons, ions and dimensions, ion positions, nonnegative charges, widths and generators", "why_tests_cant": "A distribution cannot be observed from one sample; the tests only look at shapes and at one seeded draw.", "anchors": ["vmcnet/physics/core.py:initialize_molecular_pos"]}
{"id": "C74", "title": "Every random number of a run is drawn from its own key", "statement": "Initial positions, model parameters, optimizer, all moves and acceptances of burning and walking steps, and all updates of training and evaluation draw from keys that are all different from each other; on several devices also from device to device and from process to process except for the draws which must agree on all devices. Each draw depends only on its key, and the run is the one obtained by drawing move and acceptance of step i with the key for step i.", "quantifier": "for all seeds, numbers of chains, devices, processes, burning steps, epochs, steps per epoch, optimizers and generators in which different derivations give different keys", "why_tests_cant": "Reused keys give correlated walkers which look plausible in every test; the tests would have to compare all pairs of keys of runs of all lengths.", "anchors": ["vmcnet/physics/core.py:initialize_molecular_pos", "vmcnet/train/runners.py:_setup_vmc", "vmcnet/train/runners.py:_make_new_data_for_eval", "vmcnet/utils/distribute.py:make_different_rng_key_on_all_devices", "vmcnet/mcmc/metropolis.py:make_metropolis_step"]}
{"id": "C75", "title": "The setup hands consistent state to training and evaluation", "statement": "The stored amplitudes are those of the stored positions for the current parameters from the setup to the end of the evaluation, with any reloading options and with reused or new evaluation walkers; the distributed setup is the single-device setup with the chains dealt out one to one and equal parameters and move metadata on all devices; exactly the documented precisions are accepted.", "quantifier": "for all inputs, seeds, numbers of devices dividing the number of chains, reload options, wave functions, optimizers and generators", "why_tests_cant": "The invariant involves all epochs and all option combinations; a stale amplitude changes acceptance ratios only slightly.", "anchors": ["vmcnet/train/runners.py:_setup_vmc", "vmcnet/train/runners.py:_setup_eval", "vmcnet/train/runners.py:_make_new_data_for_eval", "vmcnet/train/runners.py:_get_dtype", "vmcnet/mcmc/position_amplitude_core.py:get_update_data_fn"]}
{"id": "C76", "title": "An evaluation runs through all its epochs and records each", "statement": "Evaluation with any accepted local_energy_type finishes all epochs and records in every epoch the local energies of the walkers after the walking steps done so far; random_particle evaluates each walker with a key of its own.", "quantifier": "for all numbers of epochs, steps, walkers, wave functions, Metropolis steps, local energies and generators", "why_tests_cant": "The tests run evaluations of one epoch or with the standard local energy only; the failure needs the second epoch of a random_particle evaluation.", "anchors": ["vmcnet/updates/params.py:create_eval_update_param_fn", "vmcnet/train/runners.py:_setup_eval", "vmcnet/mcmc/metropolis.py:walk_data"]}
{"id": "C77", "title": "Every model made from a configuration is antisymmetric", "statement": "For every model configuration accepted by get_model_from_config the wave function changes by the parity of the permutation when electrons are permuted within species, whatever the parameters; all layers split the electrons at the boundaries of the species (for the embedded-particle FermiNet, at those of visible plus hidden particles).", "quantifier": "for all configurations of the six model types, all numbers of electrons per species, ions, dimensions, parameters, positions and permutations within species", "why_tests_cant": "Tests check antisymmetry of hand-built models at random points; an option combination or a wrong split in the construction is easily missed.", "anchors": ["vmcnet/models/construct.py:get_model_from_config", "vmcnet/models/construct.py:get_backflow_from_config", "vmcnet/models/construct.py:get_sign_covariance_from_config", "vmcnet/models/construct.py:FermiNet", "vmcnet/models/construct.py:EmbeddedParticleFermiNet", "vmcnet/models/construct.py:ExtendedOrbitalMatrixFermiNet", "vmcnet/models/construct.py:AntiequivarianceNet", "vmcnet/models/construct.py:FactorizedAntisymmetry", "vmcnet/models/construct.py:GenericAntisymmetry"]}
{"id": "C78", "title": "Exactly the sensible model configurations are accepted", "statement": "get_model_from_config raises unless all initializer names, activations, modes, types and widths that are used are valid, and accepts every other configuration.", "quantifier": "for all model configurations, numbers of electrons, ions and precisions", "why_tests_cant": "The set of configurations is infinite and each test exercises one; which entries are checked although unused shows only over all of them.", "anchors": ["vmcnet/models/construct.py:get_model_from_config", "vmcnet/models/construct.py:get_backflow_from_config", "vmcnet/models/construct.py:get_residual_blocks_for_ferminet_backflow", "vmcnet/models/construct.py:_get_named_activation_fn", "vmcnet/models/weights.py:get_kernel_initializer", "vmcnet/models/weights.py:get_bias_initializer"]}
{"id": "C79", "title": "Whether an accepted model can be called depends on its configuration only", "statement": "Whether a call of a configured model raises depends neither on parameters nor on positions, and the configurations which raise are exactly those with one species where species counts are needed, the wrong number of hidden-fermion counts, pairwise determinant functions or products covariances without two determinant factors, an unparsable covariance backflow, rank 0, or a two-body Jastrow factor without two-electron streams.", "quantifier": "for all accepted configurations whose streams have norms, all parameters and all positions, with at least one electron per species", "why_tests_cant": "Errors appear only when a particular combination of options is run; the tests run a few of them.", "anchors": ["vmcnet/models/construct.py:get_model_from_config", "vmcnet/models/construct.py:FermiNet", "vmcnet/models/construct.py:EmbeddedParticleFermiNet", "vmcnet/models/construct.py:ExtendedOrbitalMatrixFermiNet", "vmcnet/models/construct.py:AntiequivarianceNet", "vmcnet/models/construct.py:FactorizedAntisymmetry", "vmcnet/models/core.py:get_nelec_per_split"]}
{"id": "C80", "title": "Each option reaches the layer it is meant for", "statement": "The layers of a configured model have exactly the widths, initializers, activations, skip connections and other options of the corresponding entries of the configuration, one residual block per entry of ndense_list in order.", "quantifier": "for all accepted configurations of the six model types, numbers of electrons, ions and precisions", "why_tests_cant": "Swapped positional arguments of the same type go unnoticed by tests, since every model is still antisymmetric and trainable.", "anchors": ["vmcnet/models/construct.py:get_model_from_config", "vmcnet/models/construct.py:get_backflow_from_config", "vmcnet/models/construct.py:get_residual_blocks_for_ferminet_backflow", "vmcnet/models/construct.py:get_compute_input_streams_from_config", "vmcnet/models/construct.py:get_resnet_determinant_fn_for_ferminet", "vmcnet/models/weights.py:get_kernel_init_from_config", "vmcnet/models/weights.py:get_bias_init_from_config"]}
{"id": "C81", "title": "Parameters are initialized with the configured precision", "statement": "All parameters of a backflow are created with the configured precision, and creating them does not raise.", "quantifier": "for all accepted backflow configurations, numbers of layers and precisions, with and without two-electron streams", "why_tests_cant": "Single precision parameters in a double precision run change results only slightly, and constant initial values for the transformer are never tested.", "anchors": ["vmcnet/models/weights.py:get_kernel_initializer", "vmcnet/models/core.py:Dense", "vmcnet/models/equivariance.py:FermiNetOneElectronLayer", "vmcnet/models/equivariance.py:FermiNetTwoElectronLayer", "vmcnet/models/equivariance.py:FermiNetBackflow"]}
{"id": "C82", "title": "Moving molecule and electrons together leaves the wave function unchanged", "statement": "When all ions and all electrons are moved by the same vector, a configured model has the same sign and the same logarithm of the wave function.", "quantifier": "for all accepted configurations, numbers of electrons and ions, dimensions, parameters, positions and displacements", "why_tests_cant": "Tests use a molecule at one place; an absolute coordinate entering a stream, an envelope or a Jastrow factor changes neither antisymmetry nor trainability.", "anchors": ["vmcnet/models/equivariance.py:compute_input_streams", "vmcnet/models/construct.py:get_model_from_config", "vmcnet/models/construct.py:EmbeddedParticleFermiNet"]}
{"id": "C83", "title": "A configured model computes the function its configuration stands for", "statement": "A model built from a configuration returns sign and logarithm of the wave function which the entries of the configuration describe: features of alternating one- and two-electron layers of the given widths, activations, biases and skip connections; orbitals times envelopes; determinants per species or full, combined as configured; or products with antiequivariant features or explicit antisymmetrization times the Jastrow factor.", "quantifier": "for all accepted configurations, numbers of electrons and ions, dimensions, parameters and positions", "why_tests_cant": "Tests check a few models for antisymmetry or shape; a layer with a wrong activation, a shared parameter, a missing bias or one layer too many gives another antisymmetric function.", "anchors": ["vmcnet/models/construct.py:get_model_from_config", "vmcnet/models/construct.py:get_backflow_from_config", "vmcnet/models/construct.py:FermiNet", "vmcnet/models/construct.py:ExplicitAntisym", "vmcnet/models/core.py:SimpleResNet", "vmcnet/models/equivariance.py:FermiNetOneElectronLayer"]}
{"id": "C84", "title": "Features and orbitals are finite for every number of electrons per species", "statement": "For finite inputs and parameters, the features which the backflow computes for electrons, and the orbitals computed from them, are finite numbers, for every number of electrons per species.", "quantifier": "for all configurations of the backflow, numbers of species and of electrons in each, parameters and input streams", "why_tests_cant": "Tests use systems with electrons of both kinds; a system such as the hydrogen atom, with no electron of one kind, needs its own test.", "anchors": ["vmcnet/models/equivariance.py:FermiNetOneElectronLayer", "vmcnet/models/core.py:_split_mean", "vmcnet/models/equivariance.py:FermiNetBackflow", "vmcnet/models/equivariance.py:FermiNetOrbitalLayer"]}
{"id": "C85", "title": "Automatic differentiation gives finite true derivatives of distances", "statement": "Wherever a distance feature is differentiable as a function of the positions, automatic differentiation returns its value and its true directional derivative, also for the vanishing distance of an electron to itself.", "quantifier": "for all numbers of electrons and ions, dimensions, positions, velocities and softening constants", "why_tests_cant": "A gradient test at random positions sees neither the diagonal entries nor an electron at an ion, and a nan on the diagonal would need a test of exactly this feature.", "anchors": ["vmcnet/models/core.py:compute_ee_norm_with_safe_diag", "vmcnet/models/equivariance.py:compute_electron_ion"]}
{"id": "C86", "title": "Configured wave functions are smooth away from coalescence, and their local energy is H\u03c8/\u03c8", "statement": "Let \u03c8 be the wave function for which a model configuration stands. Where no two particles (electrons, ions and, for embedded-particle networks, hidden particles) coincide, envelopes are regular (softened, isotropic, or with invertible decay matrices) and no feature vector whose length enters a Jastrow factor vanishes, \u03c8 is infinitely often differentiable and even analytic in the electron positions. If moreover \u03c8 is not zero there, the standard local energy computed from the model built from this configuration is (-\u00bd\u2207\u00b2\u03c8 + V\u03c8)/\u03c8.", "quantifier": "for all model types and configurations, parameters, numbers of species, electrons and ions, dimensions and positions", "why_tests_cant": "A finite-difference test checks one network at a few positions; a kink of an activation, norm or determinant function, or a wrong sign of the logarithm, shows only at special positions or for special options.", "anchors": ["vmcnet/models/construct.py:get_model_from_config", "vmcnet/models/core.py:compute_ee_norm_with_safe_diag", "vmcnet/models/equivariance.py:FermiNetOrbitalLayer", "vmcnet/physics/kinetic.py:create_laplacian_kinetic_energy"]}
{"id": "C87", "title": "Every evaluation which records local energies ends with a statistics file", "statement": "An evaluation which records local energies ends by saving statistics whose average is the mean, over all devices, walkers and epochs, of the local energies at the positions visited, and whose standard error is a real number.", "quantifier": "for all numbers of devices, walkers per device and epochs, not zero, and all finite local energies", "why_tests_cant": "The tests run a few epochs of a few moving walkers; the failures need a single epoch, a single walker or a walker which does not move.", "anchors": ["vmcnet/train/runners.py:_compute_and_save_energy_statistics", "vmcnet/train/runners.py:run_molecule", "vmcnet/utils/io.py:append_metric_to_file", "vmcnet/mcmc/statistics.py:get_stats_summary"]}
{"id": "C88", "title": "Configured wave functions decay exponentially", "statement": "The wave function which a configured model stands for decays exponentially in the distances of the electrons from the origin, and so do its first derivatives, and its second derivatives up to the inverse distances between electrons and from ions, whatever the other parameters are. This needs decaying envelopes (isotropic decay not zero, or invertible anisotropic scales) for determinants, cofactors and per-particle determinants, without attention in the factor which makes antiequivariant values odd; or, for explicit antisymmetrization, a one-body Jastrow factor of strength not zero, or a two-body Jastrow factor whose attraction exceeds the repulsion by all other electrons.", "quantifier": "for all numbers of electrons, spins, ions and dimensions, all configurations and parameters with these conditions, and all positions without coalescence", "why_tests_cant": "The tests evaluate models at a few positions of size one; decay is a statement about all positions at all distances and about derivatives.", "anchors": ["vmcnet/models/construct.py:get_model_from_config", "vmcnet/models/equivariance.py:FermiNetOrbitalLayer", "vmcnet/models/equivariance.py:_compute_exponential_envelopes_on_leaf", "vmcnet/models/jastrow.py", "vmcnet/models/core.py"]}
{"id": "C89", "title": "Mean local energies of configured models are their energies", "statement": "A configured model whose envelopes or Jastrow factor decay (as in C88) and which is not zero somewhere has a wave function which is normalisable, zero almost nowhere, and has finite kinetic, electron-ion and electron-electron energies. Its standard local energy is finite for almost all walkers, and its mean over walkers distributed as the squared wave function is finite and equal to the energy, the integral of half the squared gradient plus potential times squared value over the integral of the squared value. In three dimensions and without softening, the integrated-by-parts energy has the same mean whichever parts are integrated. Without decay this fails.", "quantifier": "for all numbers of electrons, spins and ions with distinct positions, all charges, at least two dimensions, all softenings (standard energy), all configurations and parameters with the conditions of C88", "why_tests_cant": "An expectation over a continuous distribution is never computed by a test; a test averages finitely many walkers and cannot tell a finite mean from an infinite one.", "anchors": ["vmcnet/models/construct.py:get_model_from_config", "vmcnet/physics/core.py", "vmcnet/physics/kinetic.py", "vmcnet/physics/potential.py", "vmcnet/physics/ibp.py", "vmcnet/train/runners.py:_assemble_mol_local_energy_fn"]}
{"id": "C90", "title": "Walkers converge to |psi|^2 from every start", "statement": "Walkers which make fixed-width Metropolis steps with fresh draws forget where they started: the joint distribution of all walkers after n steps converges, uniformly over all sets of positions, to independent walkers with density proportional to |psi|^2. The wave function need only be normalisable and not zero almost everywhere, and the amplitudes need be right only almost everywhere and at the start. Configured models which decay (C88) qualify, started at positions without coalescence at which they are not zero.", "quantifier": "for all wave functions of this kind in the plain and the log domain, all dimensions, numbers of walkers, widths not zero, all symmetric noises which reach every region (Gaussian ones in particular), all starts", "why_tests_cant": "Convergence in distribution from an arbitrary start is a limit over infinitely many steps; tests burn a few hundred steps and compare means with a tolerance.", "anchors": ["vmcnet/mcmc/metropolis.py:make_metropolis_step", "vmcnet/mcmc/metropolis.py:metropolis_symmetric_acceptance", "vmcnet/mcmc/metropolis.py:gaussian_proposal", "vmcnet/mcmc/metropolis.py:walk_data", "vmcnet/mcmc/metropolis.py:burn_data", "vmcnet/mcmc/position_amplitude_core.py"]}
{"id": "C91", "title": "Saved averages of evaluations converge to the energy", "statement": "As the number of epochs grows, the probability tends to 1 that all recorded local energies are finite, the statistics file is saved and the saved average is within any given distance of the energy: the mean of the local energy over |psi|^2, which for configured models which decay (C88) is the integral of half the squared gradient plus potential times squared value over the integral of the squared value.", "quantifier": "for all starts, numbers of burning steps, at least one step in an epoch, at least two walkers on any number of devices, all distances, wave functions as in C90 and local energies which are finite almost everywhere, at the start and in the mean; for the standard local energy with any softening and the integrated-by-parts one without softening in three dimensions", "why_tests_cant": "A law of large numbers for dependent samples; a test runs one evaluation with one seed and a loose tolerance.", "anchors": ["vmcnet/mcmc/metropolis.py:make_metropolis_step", "vmcnet/mcmc/metropolis.py:metropolis_symmetric_acceptance", "vmcnet/mcmc/metropolis.py:gaussian_proposal", "vmcnet/mcmc/metropolis.py:walk_data", "vmcnet/mcmc/metropolis.py:burn_data", "vmcnet/mcmc/position_amplitude_core.py", "vmcnet/train/vmc.py:vmc_loop", "vmcnet/train/runners.py:_burn_and_run_vmc", "vmcnet/train/runners.py:_compute_and_save_energy_statistics", "vmcnet/updates/params.py:create_eval_update_param_fn"]}
{"id": "C92", "title": "Adjusting the step width leaves |psi|^2 invariant", "statement": "Walkers distributed as |psi|^2 remain so when they walk with the step of the runner, which adjusts its width every nmoves_per_width_update moves from the share of accepted moves.", "quantifier": "for all wave functions, widths, intervals between adjustments and numbers of moves", "why_tests_cant": "A small bias of the sampled distribution cannot be told from noise by a test.", "anchors": ["vmcnet/mcmc/dynamic_width_position_amplitude.py:make_update_move_metadata_fn", "vmcnet/mcmc/dynamic_width_position_amplitude.py:make_threshold_adjust_std_move", "vmcnet/mcmc/dynamic_width_position_amplitude.py:make_dynamic_pos_amp_gaussian_step", "vmcnet/train/runners.py:_get_mcmc_fns"]}
{"id": "C93", "title": "Training does not depend on the number of devices", "statement": "Given the same walkers (and the same keys of the walkers for the random_particle energy) at every update, training on D devices leaves on every device the parameters which training on one device leaves.", "quantifier": "for all configurations (KFAC is not modelled), wave functions, numbers of devices and of walkers per device, walkers at each update, and numbers of updates", "why_tests_cant": "A run has one number of devices; the tests compare no two layouts and cannot cover all of them.", "anchors": ["vmcnet/physics/core.py:create_value_and_grad_energy_fn", "vmcnet/train/runners.py:_get_clipping_fn", "vmcnet/train/runners.py:total_variation_clipping_fn", "vmcnet/updates/params.py:create_grad_energy_update_param_fn", "vmcnet/updates/parse_config.py:get_update_fn_and_init_optimizer", "vmcnet/utils/distribute.py:reshape_data_leaves_for_distribution"]}
{"id": "C94", "title": "Metric files hold the statistics of all walkers, one line per epoch", "statement": "After N epochs of training in an empty directory, energy_noclip.txt and variance_noclip.txt hold for each epoch the mean and the unbiased variance of the local energies of all walkers of all devices, taken after the walk and with the parameters before the update; energy.txt and variance.txt the same for the clipped local energies; accept_ratio.txt the mean of the acceptance probabilities over all moves, devices and walkers; param_l1_norm.txt, if requested, the L1 norm of the parameters after the update on the first device; amplitude_min.txt and amplitude_max.txt, if requested, the extrema of the amplitudes after the update. There are no further metric files.", "quantifier": "for all numbers of devices and walkers (at least two walkers in total), moves per epoch (at least one), epochs, energy types, clipping options and optimizers with a gradient-based update; local energies, acceptance probabilities and amplitudes are finite", "why_tests_cant": "Metrics are reduced in several places (walkers, devices, moves) and some reductions coincide for one device or one move.", "anchors": ["vmcnet/mcmc/metropolis.py:make_jitted_walker_fn", "vmcnet/mcmc/metropolis.py:walk_data", "vmcnet/updates/params.py:_update_metrics_with_noclip", "vmcnet/updates/params.py:_make_traced_fn_with_single_metrics", "vmcnet/updates/params.py:create_grad_energy_update_param_fn", "vmcnet/utils/checkpoint.py:_add_amplitude_to_metrics_if_requested", "vmcnet/utils/checkpoint.py:MetricsWriter", "vmcnet/utils/pytree_helpers.py:tree_reduce_l1", "vmcnet/utils/io.py:append_metric_to_file", "vmcnet/train/vmc.py:vmc_loop"]}
{"id": "C95", "title": "The variance saved by evaluations converges to the variance of the energy", "statement": "For configured wave functions which decay exponentially, in three or more dimensions, the standard local energy has a finite second moment over |psi|^2, and its variance is the integral of |H psi - E psi|^2 divided by the integral of |psi|^2, E being the energy of psi; it is zero exactly for eigenfunctions. The variance which an evaluation saves in its statistics tends in probability to this value as the number of epochs grows.", "quantifier": "for all configurations and parameters which decay (as in C88), dimensions at least 3, distinct ions, softenings, step widths other than zero, at least two walkers in total on any number of devices started where electrons are apart from each other and from ions and psi is not zero, any number of burning steps, at least one move per epoch, all tolerances", "why_tests_cant": "Finiteness of the second moment depends on integrals over Coulomb singularities and nodes, which samples never show.", "anchors": ["vmcnet/mcmc/statistics.py:get_stats_summary", "vmcnet/train/runners.py:_compute_and_save_energy_statistics", "vmcnet/physics/core.py:combine_local_energy_terms", "vmcnet/physics/kinetic.py:create_laplacian_kinetic_energy", "vmcnet/mcmc/metropolis.py:walk_data", "vmcnet/models/construct.py:get_model_from_config"]}
{"id": "C96", "title": "The gradient is the derivative of the energy for configured models", "statement": "For configured models whose wave functions decay exponentially, and whose parameters depend continuously differentiably on a number t, the energy of psi (the integral of |grad psi|^2/2 + V psi^2 divided by the integral of psi^2) is a differentiable function of t. The logarithm which the model returns is differentiable in t for almost all walkers. The gradient which the standard estimator computes from local energies and these derivatives, without clipping, has the derivative of the energy as its mean over independent walkers distributed as |psi|^2. In three dimensions the same holds with energies of randomly sampled electrons, in the mean over walkers and uniform permutations. No assumption about exchanging derivatives and integrals is made.", "quantifier": "for all configurations and paths of parameters which decay near the point (as in C88), at least one electron, dimensions at least 2, distinct ions, softenings, psi not zero at some place where particles are apart, at least two walkers, any layout on devices, with and without nan-safe means", "why_tests_cant": "The derivative of an integral over all space involves wave functions near nodes, Coulomb singularities and infinity; tests compare gradients with finite samples only.", "anchors": ["vmcnet/updates/params.py:create_grad_energy_update_param_fn", "vmcnet/physics/core.py:create_value_and_grad_energy_fn", "vmcnet/physics/core.py:get_statistics_from_local_energy", "vmcnet/physics/kinetic.py:create_laplacian_kinetic_energy", "vmcnet/models/construct.py:get_model_from_config"]}
{"id": "C97", "title": "Kinetic energies integrated by parts have infinite variance at nodes", "statement": "If a configured wave function which decays exponentially has a node where particles are apart from each other and from ions and where its gradient is not zero, then in three dimensions without softening the local energy with the kinetic part integrated by parts has the energy of psi as its mean over |psi|^2, but an infinite second moment. The variance which an evaluation saves exceeds every bound with a probability which tends to 1 as the number of epochs grows, while the saved average still tends to the energy (C91).", "quantifier": "for all configurations and parameters which decay (as in C88), distinct ions, any set of parts integrated by parts which contains the kinetic part, step widths other than zero, at least two walkers in total on any number of devices started where particles are apart and psi is not zero, any number of burning steps, at least one move per epoch, all bounds", "why_tests_cant": "Every sample has a finite variance; only the limit shows that there is nothing it estimates.", "anchors": ["vmcnet/physics/ibp.py:create_gradient_squared_kinetic_energy", "vmcnet/physics/ibp.py:create_ibp_local_energy", "vmcnet/mcmc/statistics.py:get_stats_summary", "vmcnet/train/runners.py:_compute_and_save_energy_statistics", "vmcnet/train/default_config.py:get_default_eval_config"]}
{"id": "C98", "title": "The gradient has infinite variance at nodes which move, and clipping does not change that", "statement": "If a configured wave function which decays exponentially has a node where particles are apart from each other and from ions, its gradient in space is not zero, H psi is not zero, and its derivative with respect to a parameter is not zero, then the square of the gradient which the standard estimator computes for that parameter has no finite mean over independent walkers distributed as |psi|^2, although the gradient itself has a finite mean which, without clipping, is the derivative of the energy (C96). The same holds with clipping of local energies, for every threshold and either centre: the width of the window is proportional to the mean deviation on the device, which itself grows with the largest energy.", "quantifier": "for all configurations and smooth paths of parameters which decay (as in C96) in three dimensions, distinct ions, all softenings, at least two walkers in total on any number of devices, all clipping thresholds (thresholds which are not positive disable clipping), mean or median as centre, nan-safe or not", "why_tests_cant": "Every sample of gradients has a finite variance; that there is no value it estimates is a statement about integrals near a set of measure zero.", "anchors": ["vmcnet/physics/core.py:create_value_and_grad_energy_fn", "vmcnet/physics/core.py:get_clipped_energies_and_aux_data", "vmcnet/train/runners.py:total_variation_clipping_fn", "vmcnet/train/runners.py:_get_clipping_fn", "vmcnet/train/default_config.py:get_default_vmc_config"]}
{"id": "C99", "title": "The generic gradient estimator is exact for configured models, but only with matching factors and without clipping", "statement": "For configured models whose wave functions decay exponentially, and whose parameters depend continuously differentiably on a number t, local energies in which any of the terms are integrated by parts are differentiable with respect to t for almost all walkers. The gradient which the generic estimator computes from local energies, their derivatives and the derivatives of log|psi| has as its mean over independent walkers distributed as |psi|^2 the derivative of the mean local energy, and in three dimensions without softening the derivative of the energy of psi (the integral of |grad psi|^2/2 + V psi^2 divided by the integral of psi^2). No assumption about exchanging derivatives and integrals is made. If the kinetic energy is integrated by parts and psi has a node which moves with the parameter, neither of the two contributions to this gradient has a mean: their sum has one only because both have the same scale, so leaving out the factor nchains / (nchains - 1), or any other change of the factor, leaves a gradient without a mean. The same is true if local energies are clipped in the first contribution, for thresholds below a quarter of the number of walkers per device.", "quantifier": "for all configurations and smooth paths of parameters which decay near the point (as in C88), at least one electron, dimensions at least 2, distinct ions, all softenings, all choices of terms to integrate by parts, psi not zero at some place where particles are apart, at least two walkers on any number of devices, with and without nan-safe means; for the second part nodes where particles are apart and neither the gradient of psi in space nor its derivative with respect to the parameter is zero, mean or median as centre of clipping", "why_tests_cant": "A test sees one batch, for which every variant of the estimator gives some finite number; that the variants with other factors estimate nothing is a statement about integrals near nodes.", "anchors": ["vmcnet/physics/core.py:create_value_and_grad_energy_fn", "vmcnet/physics/core.py:get_clipped_energies_and_aux_data", "vmcnet/physics/ibp.py:create_ibp_local_energy", "vmcnet/train/runners.py:_get_clipping_fn"]}
{"id": "C100", "title": "Continuing a run in its directory keeps the best checkpoint", "statement": "After a run and its continuation from one of its checkpoint files in the same directory, best_checkpoint.npz is the one which an uninterrupted run would have written. FALSE of the code: the metric starts again at infinity and the history is empty, so whatever the energies were, the file afterwards belongs to the reloaded epoch or a later one; an energy of -1 in the first epoch is forgotten although all later ones are 0. What holds: the file is the first epoch with the lowest error-adjusted average among those since the reloaded checkpoint, with averages over these epochs only. If averages are over one epoch, this is the file of the uninterrupted run when its best epoch is not before the reloaded one, in particular when best_checkpoint.npz itself is reloaded (the default).", "quantifier": "for all loop functions, configurations with log directory and best checkpoints, without nan checks, all lengths of both runs, all windows and save intervals, all finite energies and non-negative variances, and every checkpoint file of the first run", "why_tests_cant": "Tests of reloading compare final states; nobody runs long enough on both sides of a reload to see which epoch a file overwritten in the second part belongs to.", "anchors": ["vmcnet/train/vmc.py:vmc_loop", "vmcnet/utils/checkpoint.py:initialize_checkpointing", "vmcnet/utils/checkpoint.py:track_and_save_best_checkpoint", "vmcnet/train/runners.py:_get_logdir_and_save_config"]}
{"id": "C101", "title": "Curvature blocks of KFAC", "statement": "Where inputs and output derivatives of a layer are independent and contributions of different places are uncorrelated, the Fisher matrix of the layer is the Kronecker product of the two factors of its curvature block, times the block's fixed_scale. For RepeatedDenseBlock this is true, with and without bias and for any axes between batch and features. For QmcBlockedDense it is FALSE: the scale is the second axis of the weights instead of the number of places (electrons) the layer is applied to, so one electron in three dimensions gets a matrix three times too large; it is right if the two numbers are equal. For QmcBlockedDense further: after any batches multiply_matpower with power 1 is the product with the block-diagonal matrix of Kronecker products of the moving averages of second moments, plus the damping; this matrix is symmetric, positive semidefinite, and definite with damping; power -1 with cached inverses undoes multiplication with the factors; exactly the powers 1 and (cached, not exact) -1 are supported.", "quantifier": "for all sizes of batches, places and axes, all inputs and derivatives, all histories of batches with moving average weights which are not negative (for positivity), all weights, dampings and powers", "why_tests_cant": "The blocks are only exercised inside KFAC runs whose result is compared with nothing; a wrong constant factor changes the effective step size and no test can tell.", "anchors": ["vmcnet/utils/curvature_tags_and_blocks.py:RepeatedDenseBlock.fixed_scale", "vmcnet/utils/curvature_tags_and_blocks.py:RepeatedDenseBlock.update_curvature_matrix_estimate", "vmcnet/utils/curvature_tags_and_blocks.py:QmcBlockedDense.fixed_scale", "vmcnet/utils/curvature_tags_and_blocks.py:QmcBlockedDense.update_curvature_matrix_estimate", "vmcnet/utils/curvature_tags_and_blocks.py:QmcBlockedDense.multiply_matpower"]}
{"id": "C102", "title": "Enough walkers and a small learning rate lower the energy", "statement": "Take a configured model whose parameters depend smoothly on finitely many numbers, at parameters near which it decays, and independent walkers distributed as |psi|^2. If the gradient of the exact energy does not vanish, then with probability one there is a number of walkers per device from which on the first parameter update lowers the exact energy on every device, provided the learning rate is small enough. This is true of SGD (with or without momentum and Nesterov), of Adam, of stochastic reconfiguration followed by SGD with every iteration limit of the conjugate gradient solver, both Fisher modes, every damping and norm constraint, and of SPRING with every mu, momentum below 1 and with or without norm constraint. The gradient and centred local energies are those of the standard local energy without clipping, as the code computes them on any number of devices.", "quantifier": "for all configured models which decay, all molecules with separate nuclei, all numbers of devices, all optimizer settings as described, almost all infinite sequences of walkers and all sufficiently large numbers of walkers", "why_tests_cant": "Convergence of averages over random walkers and the energy of a wave function are statements about infinitely many samples and about integrals over all positions; tests run a few steps and compare with recorded numbers.", "anchors": ["vmcnet/updates/parse_config.py:get_update_fn_and_init_optimizer", "vmcnet/updates/sr.py:get_fisher_inverse_fn", "vmcnet/updates/spring.py:get_spring_update_fn", "vmcnet/physics/core.py:create_value_and_grad_energy_fn", "vmcnet/updates/params.py:create_grad_energy_update_param_fn"]}
{"id": "C103", "title": "Logarithm and local energy are smooth in parameters and positions together", "statement": "Take a configured model whose parameters are functions of some argument (any subset of the parameters, or a normed space of them), and positions where no two particles coincide, no hidden layer sees a kink of its activation or residual, no envelope sits at the kink of its norm, and the wave function does not vanish. If the entries of the parameters are k times continuously differentiable (or analytic), so are the wave function and the logarithm which the model returns, as functions of argument and positions together; the standard local energy is two orders less smooth. In particular the partial derivatives of the logarithm with respect to single parameters form its gradient. These conditions hold at all positions with separate particles for models which decay. A decay of 0 in an envelope, which the initializer 'zeros' yields, has to be excluded: there the logarithm of the default model for helium has no derivative with respect to the decay at any position with separate particles.", "quantifier": "for all configurations which the code accepts, all parameters and positions as described, all orders of differentiability including analytic", "why_tests_cant": "Smoothness is a statement about all points near a point and about all orders; tests evaluate gradients at a few points.", "anchors": ["vmcnet/models/construct.py:get_model_from_config", "vmcnet/models/equivariance.py:_compute_exponential_envelopes_on_leaf", "vmcnet/models/jastrow.py:OneBodyExpDecay", "vmcnet/physics/kinetic.py:create_laplacian_kinetic_energy"]}
{"id": "C104", "title": "The statistics in a log directory describe the run which wrote them", "statement": "Consider any succession of runs on one disk. A run which ends without an exception leaves in eval/statistics.json of its log directory the statistics of the local energies of its own evaluation, and eval/local_energies.txt holds exactly these energies.", "quantifier": "for all successions of runs, all configurations, reload options and directories", "why_tests_cant": "Tests run the evaluation once in an empty temporary directory; the files of several runs in one directory are never looked at.", "anchors": ["vmcnet/train/runners.py:_get_logdir_and_save_config", "vmcnet/train/runners.py:run_molecule", "vmcnet/utils/io.py:append_metric_to_file", "vmcnet/mcmc/statistics.py:get_stats_summary"]}
{"id": "C105", "title": "Interruptions do not change the results", "statement": "However often a run is interrupted and continued from one of its checkpoints with the default reload options, it ends with the same parameters, data and optimizer state, the same metric file, evaluation and statistics as the run without interruptions.", "quantifier": "for all configurations, numbers of interruptions, checkpoints of epoch 1 or later and numbers of rows which were written beyond the checkpoint", "why_tests_cant": "Tests continue a run once; the number of interruptions and the places where they happen are unbounded.", "anchors": ["vmcnet/train/runners.py:run_molecule", "vmcnet/train/runners.py:_burn_and_run_vmc", "vmcnet/utils/io.py:copy_txt_stats", "vmcnet/train/vmc.py:vmc_loop", "vmcnet/utils/checkpoint.py:CheckpointWriter"]}
{"id": "C106", "title": "Training with SGD and the inverse-time schedule is a stochastic approximation which converges", "statement": "The schedule inverse_time with a positive rate and decay meets the conditions of Robbins and Monro (the sum of the rates is infinite, that of their squares finite); the schedule constant and inverse_time without decay do not. With the optimizer sgd, this schedule and no momentum, as in the default configuration, on any number of devices: if the gradients averaged over the devices are unbiased given the past, with mean squares which grow no faster than those of the exact gradient, and the exact energy is bounded below with a Lipschitz continuous gradient, then the mean energy converges, and the exact gradient comes arbitrarily close to 0 infinitely often, almost surely and in mean square. The decay is needed: with a constant rate there is noise for which the mean square of the gradient never drops below the square of the rate.", "quantifier": "for all configurations of SGD without momentum, all numbers of devices and parameters, all energies and random gradients as described, all starting points", "why_tests_cant": "Convergence is a statement about infinitely many updates and about probabilities; tests run a few updates with fixed seeds.", "anchors": ["vmcnet/updates/parse_config.py:_get_learning_rate_schedule", "vmcnet/updates/parse_config.py:_get_sgd_optax_optimizer", "vmcnet/updates/parse_config.py:get_update_fn_and_init_optimizer", "vmcnet/updates/params.py:create_grad_energy_update_param_fn"]}
{"id": "C107", "title": "Evaluating a FermiNet on a batch of walkers is evaluating it on every walker", "statement": "With electron-ion distances among the inputs (include_ei_norm=True, the default), calling a FermiNet on positions of shape (batch_dims, nelec, d) and on the positions of one of the walkers raises the same exception, or returns in both cases; then the result has the documented shape (batch_dims,), and its entry for the walker is the result for the walker alone. So the value for a walker does not depend on the other walkers, on their number or on their arrangement. This covers every backflow (means or attention, cyclic spins or not, with or without two-electron stream, with or without skip connections), isotropic and anisotropic envelopes, full and split determinants and all determinant functions. Without the distances (include_ei_norm=False) it is false: the one-electron input has one axis more than documented, and a single walker with two electrons near two nuclei gets two numbers.", "quantifier": "for all FermiNet descriptions, parameters, ion positions, numbers of electrons and dimensions, all numbers and lengths of batch axes, all walkers of the batch", "why_tests_cant": "The code only ever sees axes counted from the end, broadcasting and reshapes; a wrong axis is noticed only for the shapes which are tried, and often not at all if two axes happen to have the same length.", "anchors": ["vmcnet/models/construct.py:FermiNet.__call__", "vmcnet/models/construct.py:_reshape_raw_ferminet_orbitals", "vmcnet/models/equivariance.py:compute_input_streams", "vmcnet/models/equivariance.py:compute_electron_ion", "vmcnet/models/equivariance.py:FermiNetOneElectronLayer", "vmcnet/models/equivariance.py:FermiNetOrbitalLayer", "vmcnet/models/jastrow.py:_anisotropy_on_leaf", "vmcnet/models/sign_symmetry.py:make_array_list_fn_sign_covariant"]}
{"id": "C108", "title": "The array code of a FermiNet computes its wave function for every walker of a batch", "statement": "With electron-ion distances among the inputs, at least one determinant, one electron and one ion, and layers split at the numbers of electrons per species (which holds for every configured FermiNet), calling the array code on positions of shape (batch_dims, nelec, d) raises the exception, or returns in the entry of every walker the value, which the mathematical formula of the network gives for the electrons of that walker. So the splits, rolled concatenations, broadcasts, reshapes and axis moves of the code pick the right entries: permuting the electrons of each walker within the species, each walker in its own way, multiplies the entry of each walker by the sign of its permutation; and a FermiNet built from a configuration returns for every walker of a batch the value which the configuration stands for (unless all terms of the sum of determinants vanish).", "quantifier": "for all FermiNet descriptions and configurations, numbers of electrons of any number of species, dimensions, ion positions, parameters, numbers and lengths of batch axes, walkers of the batch, permutations", "why_tests_cant": "The existing tests compare shapes and equivariance on a few random arrays; an axis or split which is off gives a valid looking number.", "anchors": ["vmcnet/models/construct.py:FermiNet.__call__", "vmcnet/models/construct.py:get_model_from_config", "vmcnet/models/construct.py:_reshape_raw_ferminet_orbitals", "vmcnet/models/equivariance.py:FermiNetOneElectronLayer", "vmcnet/models/equivariance.py:FermiNetOrbitalLayer", "vmcnet/models/equivariance.py:_rolled_concat", "vmcnet/models/jastrow.py:_isotropy_on_leaf", "vmcnet/models/antisymmetry.py:slogdet_product"]}
{"id": "C109", "title": "The array code of the FermiNets with hidden fermions computes their wave functions for every walker of a batch", "statement": "With electron-ion distances among the inputs, at least one determinant, one electron and one ion, and layers split at the numbers of particles per species (which holds for every configured network), calling the array code of the embedded-particle FermiNet, or of the extended-orbital-matrix FermiNet with one hidden count per species, on positions of shape (batch_dims, nelec, d) raises the exception, or returns in the entry of every walker the value, which the mathematical formula of the network gives for the electrons of that walker: hidden particles are inserted behind the electrons of their own species and walker, hidden rows are stacked below the orbitals of their own species, walker and determinant. Permuting the electrons of each walker within the species, each walker in its own way, multiplies the entry of each walker by the sign of its permutation; and a network built from a configuration returns for every walker of a batch the value which the configuration stands for.", "quantifier": "for all descriptions and configurations of the two networks, numbers of electrons and of hidden fermions of any number of species, dimensions, ion positions, parameters, numbers and lengths of batch axes, walkers of the batch, permutations", "why_tests_cant": "The tests of these networks compare shapes and antisymmetry for one random input; a hidden particle which is inserted in another species, or a reshape which mixes determinants and hidden rows, keeps the shapes.", "anchors": ["vmcnet/models/construct.py:EmbeddedParticleFermiNet._get_elec_pos_and_orbitals_split", "vmcnet/models/construct.py:ExtendedOrbitalMatrixFermiNet", "vmcnet/models/construct.py:get_model_from_config", "vmcnet/models/invariance.py:SplitMeanDense", "vmcnet/models/invariance.py:InvariantTensor"]}
{"id": "C110", "title": "The array code of the antiequivariance networks computes their wave functions for every walker of a batch", "statement": "With electron-ion distances among the inputs, at least one electron and one ion, layers split at the numbers of particles per species, and a covariance whose backflow configuration (if it has one) can be parsed, calling the array code of the orbital cofactor network or of the per-particle determinant network on positions of shape (batch_dims, nelec, d) raises the exception, or returns in the entry of every walker the value, which the mathematical formula of the network gives for the electrons of that walker; the covariance may be a sum of products, with or without weights, or a sign-symmetrized backflow, for which the axis of signs is added in front of the electron axis and behind the batch axes. Without weights, permuting the electrons of each walker within the species, each walker in its own way, multiplies the entry of each walker by the sign of its permutation; and a network built from a configuration returns for every walker of a batch the value which the configuration stands for.", "quantifier": "for all descriptions and configurations of the two networks, numbers of electrons of any number of species, dimensions, ion positions, parameters, numbers and lengths of batch axes, walkers of the batch, permutations", "why_tests_cant": "The tests of these layers use one random input each and at most one batch axis; deleting rows along a wrong axis, tiling instead of repeating, or signs along the electron axis can keep all shapes.", "anchors": ["vmcnet/models/construct.py:AntiequivarianceNet", "vmcnet/models/antiequivariance.py:get_submatrices_along_first_col", "vmcnet/models/antiequivariance.py:OrbitalCofactorAntiequivarianceLayer", "vmcnet/models/antiequivariance.py:PerParticleDeterminantAntiequivarianceLayer", "vmcnet/models/equivariance.py:DoublyEquivariantOrbitalLayer", "vmcnet/models/sign_symmetry.py:ProductsSignCovariance", "vmcnet/models/construct.py:get_sign_covariance_from_config"]}
{"id": "C111", "title": "The array code of the explicitly antisymmetrized networks computes their wave functions for every walker of a batch", "statement": "With electron-ion distances among the inputs, at least one electron of each species and one ion, and layers split at the numbers of particles per species, calling the array code of an explicitly antisymmetrized network, factorized or generic, with a one-body, two-body or backflow-based Jastrow factor or a sum of two of these, on positions of shape (batch_dims, nelec, d) raises the exception, or returns in the entry of every walker the value, which the mathematical formula of the network gives for the electrons of that walker: the axis of permutations is put behind the batch axes and reduced again. Permuting the electrons of each walker within the species, each walker in its own way, multiplies the entry of each walker by the sign of its permutation; and a network built from a configuration returns for every walker of a batch the value which the configuration stands for. If some species has no electrons, the generic network raises an exception for every walker.", "quantifier": "for all descriptions and configurations of these networks, numbers of electrons of any number of species, dimensions, ion positions, parameters, numbers and lengths of batch axes, walkers of the batch, permutations", "why_tests_cant": "The tests of these layers use one random input each and at most one batch axis; a wrong place for the axis of permutations, or signs multiplied along another axis of the same length, can keep all shapes.", "anchors": ["vmcnet/models/construct.py:FactorizedAntisymmetry", "vmcnet/models/construct.py:GenericAntisymmetry", "vmcnet/models/antisymmetry.py:ParallelPermutations", "vmcnet/models/antisymmetry.py:FactorizedAntisymmetrize", "vmcnet/models/antisymmetry.py:GenericAntisymmetrize", "vmcnet/models/jastrow.py:OneBodyExpDecay", "vmcnet/models/jastrow.py:TwoBodyExpDecay", "vmcnet/models/jastrow.py:get_two_body_decay_scaled_for_chargeless_molecules", "vmcnet/models/jastrow.py:BackflowJastrow"]}
{"id": "C112", "title": "The model built from a configuration computes its wave function for every walker of a batch", "statement": "With distances among the inputs, at least one determinant, at least one electron of each species and at least one ion, calling the model which get_model_from_config builds on positions of shape (batch_dims, nelec, d), with at least one walker, returns exactly if the configuration is callable (the same condition for every batch shape, all parameters and all positions). The result has shape batch_dims, and the entry of each walker is the value which the configuration stands for at the positions of that walker, and does not depend on the other walkers. Permuting the electrons of each walker within the species, each walker in its own way, multiplies the entry of each walker by the sign of its permutation, unless the model is an antiequivariance network with weights in its products covariance.", "quantifier": "for all model configurations of every type, numbers of electrons of any number of species, dimensions, ion positions and charges, parameters, numbers and lengths of batch axes, walkers of the batch, permutations", "why_tests_cant": "The tests check one random input of a few fixed models with one batch axis; mixing walkers keeps all shapes, and agreement for all configurations and batch shapes cannot be enumerated.", "anchors": ["vmcnet/models/construct.py:get_model_from_config", "vmcnet/models/construct.py:FermiNet", "vmcnet/models/construct.py:AntiequivarianceNet", "vmcnet/models/construct.py:FactorizedAntisymmetry", "vmcnet/models/construct.py:GenericAntisymmetry", "vmcnet/models/construct.py:EmbeddedParticleFermiNet", "vmcnet/models/construct.py:ExtendedOrbitalMatrixFermiNet"]}
{"id": "C113", "title": "The potential energies are computed for every walker of a batch", "statement": "On positions of shape (batch_dims, nelec, d) the electron-ion and electron-electron potentials return arrays of shape batch_dims whose entry for each walker is the Coulomb energy (softened, with the strength given, and scaled up from the first particles if only some are used) of that walker alone. The ion-ion potential returns one number for every batch, not an array of the documented shape. The sum of terms has shape batch_dims nevertheless, with the sum of the energies of each walker in its entry. Sampling no particles raises ZeroDivisionError.", "quantifier": "for all numbers of electrons and ions, dimensions, ion positions and charges, strengths, softening terms, numbers of sampled particles, numbers and lengths of batch axes, walkers, lists of terms beginning with one which is computed per walker", "why_tests_cant": "The tests use fixed positions with one or two batch axes; a sum over a wrong axis or a broadcast along a batch axis can keep the shapes when lengths coincide.", "anchors": ["vmcnet/physics/potential.py:compute_displacements", "vmcnet/physics/potential.py:compute_soft_norm", "vmcnet/physics/potential.py:create_electron_ion_coulomb_potential", "vmcnet/physics/potential.py:create_electron_electron_coulomb_potential", "vmcnet/physics/potential.py:create_ion_ion_coulomb_potential", "vmcnet/physics/core.py:combine_local_energy_terms"]}
{"id": "C114", "title": "Mapping the local energy over a batch gives the local energies of the wave function sampled", "statement": "For a model built from a configuration with distances among the inputs, at least one determinant, electron of each species and ion, the log amplitude of a walker in the batch call, which the sampler uses, is the number which the model returns for that walker alone, which the local energy differentiates. jax.vmap of the standard local energy over a batch returns one energy per walker, and the energy of every walker at which the wave function is not zero and has no kink is the Hamiltonian applied to the wave function of the configuration, divided by it. The kinetic energy itself raises for a batch, so the mapping is needed.", "quantifier": "for all callable configurations, numbers of electrons of any number of species, dimensions, distinct ion positions, charges, parameters, softening terms, positive numbers of walkers and walkers", "why_tests_cant": "The tests compare local energies of simple hand-written functions; nothing compares the amplitudes of a batch with what is differentiated for a single walker for the networks themselves.", "anchors": ["vmcnet/train/runners.py:_assemble_mol_local_energy_fn", "vmcnet/physics/core.py:create_value_and_grad_energy_fn", "vmcnet/physics/core.py:combine_local_energy_terms", "vmcnet/physics/core.py:laplacian_psi_over_psi", "vmcnet/physics/kinetic.py:create_laplacian_kinetic_energy", "vmcnet/updates/params.py:create_eval_update_param_fn", "vmcnet/models/construct.py:slog_psi_to_log_psi_apply"]}
{"id": "C115", "title": "The array code of the sampler moves every walker of a batch on its own", "statement": "On arrays of positions of shape (nwalkers, nelec, d) and amplitudes of shape (nwalkers,), for a model which acts on each walker separately, the Metropolis step, walk_data, burn_data, the step with adaptive width and the update of amplitudes do to every walker what the walker-by-walker functions do: a walker moves to its own proposal exactly if its own random number is below the acceptance computed from its own old and new amplitudes, and otherwise keeps position and amplitude; the fraction of accepted moves which adjusts the width is the mean of the mask. A model built from a configuration is such a model. For it, computing amplitudes, burning and walking always return, keep the shapes, and calling the model on the positions returned gives the amplitudes returned.", "quantifier": "for all numbers of walkers, electrons, dimensions, random arrays of the requested shapes, step widths and metadata updates, numbers of burning and walking steps, keys; for the last part all callable configurations with distances among the inputs, at least one determinant, electron of each species, ion and walker, and all parameters", "why_tests_cant": "The tests walk a few steps with a fixed random key and one-dimensional toy models; a mask broadcast along a wrong axis keeps all shapes when lengths coincide, and a mismatch of amplitudes and positions for some network and batch is not looked for.", "anchors": ["vmcnet/mcmc/metropolis.py:make_metropolis_step", "vmcnet/mcmc/metropolis.py:walk_data", "vmcnet/mcmc/metropolis.py:burn_data", "vmcnet/mcmc/metropolis.py:gaussian_proposal", "vmcnet/mcmc/metropolis.py:metropolis_symmetric_acceptance", "vmcnet/mcmc/position_amplitude_core.py:make_position_amplitude_gaussian_proposal", "vmcnet/mcmc/position_amplitude_core.py:make_position_amplitude_update", "vmcnet/mcmc/position_amplitude_core.py:get_update_data_fn", "vmcnet/mcmc/dynamic_width_position_amplitude.py:make_dynamic_pos_amp_gaussian_step"]}
{"id": "C116", "title": "An epoch on arrays reports the energy, variance and gradient of the wave function sampled", "statement": "For a callable configuration with distances among the inputs, at least one determinant, electron of each species, ion and two walkers, an epoch of an evaluation on one device (walk, map the local energy over the array of positions, reduce) returns the parameters unchanged and walkers whose stored amplitudes are those of the model at their positions; if none of these walkers is at a node or kink, the energy reported is the mean of H\u03c8/\u03c8 over them, the variance the unbiased sample variance, and the local energies recorded are those of the walkers in order. The estimates of an epoch of training from an array of such walkers are the mean and variance of the clipped and of the unclipped local energies, and the function which jax.grad differentiates has along every differentiable path of parameters the derivative 2 N/(N-1) times the mean over the walkers of (clipped energy minus mean) times the derivative of log|\u03c8| of the same walker.", "quantifier": "for all such configurations, parameters and paths of parameters, numbers of walkers, steps, keys and random arrays, distinct ion positions, charges, softening terms, clipping functions returning numbers, nan-safe or not", "why_tests_cant": "No test compares the metrics of an epoch with the Hamiltonian of the network evaluated; pairing energies and log amplitudes of different walkers would keep all shapes.", "anchors": ["vmcnet/updates/params.py:create_eval_update_param_fn", "vmcnet/physics/core.py:create_value_and_grad_energy_fn", "vmcnet/physics/core.py:get_statistics_from_local_energy", "vmcnet/physics/core.py:get_clipped_energies_and_aux_data", "vmcnet/mcmc/metropolis.py:walk_data", "vmcnet/train/vmc.py:vmc_loop"]}
{"id": "C117", "title": "Every type of local energy, mapped over a batch with one key per walker, gives each walker its own local energy, and random-particle training is unbiased", "statement": "For the types standard, ibp and random_particle, and every log amplitude which is one number for one walker, the array code of the local energy which _assemble_mol_local_energy_fn builds, mapped with jax.vmap over positions of shape (nwalkers, nelec, d) and one key per walker, returns one entry per walker, equal to the local energy of this type for the walker's own positions and own key; other types are refused, and so are batches where one walker is needed. For a configured model in three dimensions with between 1 and nelec sampled particles and any sampled parts, the mean over the permutations of one walker of its random-particle entry is H\u03c8/\u03c8, whatever the keys of the other walkers are. If the permutations of the walkers are independent and uniform, the means of the energy and of the gradient of an epoch of training with random particles and without clipping are the mean of H\u03c8/\u03c8 over the walkers and the gradient which the local energies H\u03c8/\u03c8 give.", "quantifier": "for all numbers of walkers (at least two for training), electrons and ions, dimensions (three for the means), keys, integrated or sampled parts, nonzero numbers of sampled particles, softening terms, log amplitudes; for the means all callable configurations with distances among the inputs, at least one determinant, electron of each species and ion, all parameters and walkers neither at a node nor at a kink, all differentiable paths of parameters", "why_tests_cant": "The tests train a harmonic oscillator in one dimension with a given seed for each type; no test evaluates the molecular energies integrated by parts or with random particles, checks that the entry of a walker depends on its own key only, or that the gradient is unbiased.", "anchors": ["vmcnet/physics/random_particle.py:create_molecular_random_particle_local_energy", "vmcnet/physics/random_particle.py:assemble_random_particle_local_energy", "vmcnet/physics/ibp.py:create_ibp_local_energy", "vmcnet/physics/core.py:create_value_and_grad_energy_fn", "vmcnet/train/runners.py:_assemble_mol_local_energy_fn"]}
{"id": "C118", "title": "On several devices every walker stays with its own amplitude, and energies and gradients are those of all walkers together", "statement": "Distributing D*w walkers to D devices gives device i the walkers i*w, ..., i*w+w-1, each with its own amplitude, and is refused if D does not divide the number of walkers. For every configured model, an epoch of an evaluation on the devices, with a static width of the steps, leaves the parameters as they are and moves the walkers of each device as they would be moved on one device with the key of this device; if no walker then is at a node or a kink, the reported energy and variance are the mean and the unbiased sample variance of H\u03c8/\u03c8 over the walkers of all devices. The energy of an epoch of training is the mean of the clipped energies over all devices, and the mean over the devices of their gradients is 2 N/(N-1) times the mean over all N = D*w walkers of (E - mean E) \u2202log|\u03c8|, so that without clipping distributing changes neither.", "quantifier": "for all numbers of devices and of walkers per device (at least two walkers in total), all callable configurations with distances among the inputs, at least one determinant, electron of each species and ion, all dimensions, softening terms, step widths, numbers of steps, random arrays of the requested shapes, keys, parameters and positions, clipping functions with finite values, differentiable paths of parameters", "why_tests_cant": "The tests run on the devices of the machine, of which there usually is one, and compare a few numbers; that walkers and amplitudes stay together and that the statistics do not depend on the distribution is not tested for the networks.", "anchors": ["vmcnet/utils/distribute.py:reshape_data_leaves_for_distribution", "vmcnet/mcmc/position_amplitude_core.py:distribute_position_amplitude_data", "vmcnet/mcmc/metropolis.py:make_jitted_walker_fn", "vmcnet/updates/params.py:create_eval_update_param_fn", "vmcnet/updates/params.py:create_grad_energy_update_param_fn", "vmcnet/physics/core.py:create_value_and_grad_energy_fn"]}
{"id": "C119", "title": "Training on arrays never loses track of the wave function it samples", "statement": "For every configured model, training on one device from any array of positions of at least two walkers, with any optimizer, clipping function, numbers of burning steps, steps and epochs, raises nothing. At the start of every epoch the stored amplitudes are those of the current parameters at the stored positions, also after the parameters have changed. In every epoch the walkers move with the parameters of this epoch; if none of them arrives at a node or a kink, the metrics recorded for the epoch are mean and unbiased sample variance of the (clipped and unclipped) local energies H\u03c8/\u03c8 of the wave function before the update, the centered energies given to the optimizer are those of the walkers, in order, and the gradient given to it is 2 N/(N-1) times the mean of (E - mean E) \u2202log|\u03c8| at these walkers. The next epoch starts from these walkers with the updated parameters.", "quantifier": "for all callable configurations with distances among the inputs, at least one determinant, electron of each species and ion, all dimensions, numbers of walkers (at least two), softening terms, initial parameters, positions and optimizer states, optimizers (any function of gradient, parameters, state, data and centered energies), clipping functions with finite values, static and adaptive step widths, random arrays of the requested shapes, numbers of burning steps, steps and epochs, differentiable paths of parameters", "why_tests_cant": "Integration tests train a few epochs from one seed and compare with stored numbers; that no amplitudes of old parameters are used after an update, and that metrics and gradient belong to the same parameters and walkers, cannot be seen from them for all models, optimizers and lengths of runs.", "anchors": ["vmcnet/train/vmc.py:vmc_loop", "vmcnet/updates/params.py:create_grad_energy_update_param_fn", "vmcnet/physics/core.py:create_value_and_grad_energy_fn", "vmcnet/mcmc/position_amplitude_core.py:get_update_data_fn", "vmcnet/train/runners.py:_burn_and_run_vmc"]}
{"id": "C120", "title": "The spin of an array of walkers is estimated from the exchanged wave function", "statement": "The index list of the estimator exchanges exactly the first spin-up and the first spin-down electron, of every walker of an array. For any amplitude which acts on each walker separately, and so for every configured model of two species, the estimate of S\u00b2 from an array of walkers none of which is at a node is (n\u2191-n\u2193)\u00b2/4 + (n\u2191+n\u2193)/2 - n\u2191 n\u2193 times the mean over the walkers of \u03c8 at the exchanged positions divided by \u03c8, and nothing is raised. With one species only the estimate is S(S+1) with S = n/2 for any walkers, and the amplitude is not used.", "quantifier": "for all callable configurations with distances among the inputs, at least one determinant, electron of each species and ion, all dimensions, numbers of electrons and walkers, parameters and positions where \u03c8 is not zero (and the exchanged positions are not at a node), with and without nan-safe means", "why_tests_cant": "The tests evaluate the estimator for a few hand-written functions of at most four electrons; that the right pair of particles is exchanged on the right axis for every number of electrons, and that it agrees with the configured wave functions, needs all shapes.", "anchors": ["vmcnet/physics/spin.py:create_spin_square_expectation", "vmcnet/physics/spin.py:create_local_spin_exchange"]}
{"id": "C121", "title": "The mean of the spin estimates is the expectation of S\u00b2", "statement": "For every square-integrable function on R^(N d) which changes sign under exchanges of equal spins and is zero almost nowhere, the integral of F\u00b2 times the estimator's local value is the integral of F times Dirac's exchange form of S\u00b2 applied to F, and both exist: exchanging one pair of unequal spins stands for all pairs. So for every configured model of two species which decays, almost every array of walkers gives an estimate without an error, this estimate is the mean over the walkers of a local value, and the mean of this value over walkers distributed as |\u03c8|\u00b2 is <\u03c8|S\u00b2|\u03c8>/<\u03c8|\u03c8>.", "quantifier": "for all numbers of electrons of two species (at least one each) and all dimensions (at least two for configured models), all square-integrable functions antisymmetric within the species; all callable configurations with distances among the inputs, without weights in the products covariance, which decay in the sense of C88 and are not zero everywhere, all numbers of walkers", "why_tests_cant": "The tests use functions for which the local value is constant, so that no integral is needed; in general the identity holds only for the mean over infinitely many walkers.", "anchors": ["vmcnet/physics/spin.py:create_spin_square_expectation", "vmcnet/physics/spin.py:create_local_spin_exchange"]}
{"id": "C122", "title": "The spin estimator measures Sx\u00b2 + Sy\u00b2 + Sz\u00b2 of the antisymmetrized state", "statement": "Let S\u00b2 = Sx\u00b2 + Sy\u00b2 + Sz\u00b2 be made of the Pauli matrices of N particles, and let \u03a8 be the state antisymmetrize(F(R) xi(s)) of the docstring, with the first n\u2191 spins up. Then S\u00b2 is N(4-N)/4 plus the sum of all exchanges of two spins; for every function F which changes sign under exchanges of equal spins, S\u00b2\u03a8 at this assignment of the spins is Dirac's exchange form of F, the state at all other assignments is a permutation of it or zero, and <\u03a8|S\u00b2|\u03a8>/<\u03a8|\u03a8>, with sums over all spins and integrals over all positions, is the mean over |F|\u00b2 of the estimator's local value. So the documented (params, x) -> <psi|S\u00b2|psi>/<psi|psi> holds in the mean for every configured model of two species which decays.", "quantifier": "for all numbers of electrons of two species (at least one each) and all dimensions, all square-integrable functions antisymmetric within the species and zero almost nowhere; configured models as in C121", "why_tests_cant": "The tests compare with numbers computed by hand from the same exchange formula for at most four electrons; the operators, spins and the antisymmetrized state never occur in them.", "anchors": ["vmcnet/physics/spin.py:create_spin_square_expectation", "vmcnet/physics/spin.py:create_local_spin_exchange"]}
{"id": "C123", "title": "Training on arrays with local energies integrated by parts is unbiased", "statement": "On an array of at least two walkers none of which is at a node or kink, generic_energy_val_and_grad returns the mean and sample variance of the ibp local energies of the configured wave function, without clipping whatever is configured, and the gradient along any path of parameters is the covariance of local energies and log amplitudes (as for the standard estimator) plus the mean of the derivatives of the local energies. In three dimensions and without softening, for every smooth path of parameters along which the wave function decays, this gradient is finite for almost all arrays, and its mean over independent walkers distributed as |psi|^2 is the derivative of the energy, whichever terms are integrated by parts.", "quantifier": "for all configured models which can be called, all spins, ions and numbers of walkers >= 2, all choices of terms to integrate by parts, all softenings (first part), all smooth paths of parameters (second part)", "why_tests_cant": "The only test of this estimator trains a harmonic oscillator and checks that the final parameter is within 1.0 of the right one; no test evaluates the generic gradient of a configured model, and none can integrate over walkers.", "anchors": ["vmcnet/physics/core.py:create_value_and_grad_energy_fn", "vmcnet/physics/ibp.py:create_ibp_local_energy"]}
{"id": "C124", "title": "Training by parts and spin estimates on several devices are those over all walkers", "statement": "With the walkers distributed equally to several devices, the spin-square estimate of a configured wave function is the mean over the walkers of all devices, and generic_energy_val_and_grad gives every device the mean and sample variance of the ibp local energies over the walkers of all devices. The gradients of the devices, averaged over the devices, are the covariance of local energies and log amplitudes over all walkers plus the mean of the derivatives of all local energies. In three dimensions and without softening their mean over independent walkers distributed as |psi|^2 is the derivative of the energy.", "quantifier": "for all configured models which can be called, all numbers of devices and of walkers per device (two walkers in all for training), all choices of terms to integrate by parts, all smooth paths of parameters", "why_tests_cant": "Tests evaluate the spin exchange and spin square of amplitudes written by hand on one array; no test evaluates the generic gradient or the spin estimate of a configured model on several devices, and none can integrate over walkers.", "anchors": ["vmcnet/physics/core.py:create_value_and_grad_energy_fn", "vmcnet/physics/spin.py:create_spin_square_expectation", "vmcnet/utils/distribute.py:get_mean_over_first_axis_fn"]}
{"id": "C125", "title": "Adaptive walks on several devices keep one width, adapted to all walkers", "statement": "Walking on several devices with adaptive step width, on arrays: every walker of every device moves to its proposed place exactly if its uniform number is below its acceptance ratio, and otherwise stays; amplitudes stay those of the configured model at the positions. After any number of moves all devices have the same width. It has been adapted after every nmoves_per_width_update moves, to the mean over exactly these moves of the fraction of the walkers of all devices which moved, and it stays positive. The reported acceptance is the mean over the devices of the mean over the steps of the mean acceptance ratios.", "quantifier": "for all configured models which can be called, all numbers of devices, walkers, moves and moves per update, all adjustment functions (positivity: all threshold adjustments with 0 < factor < 1), all random numbers", "why_tests_cant": "Tests of the adaptive step check the metadata of single updates with averages given by hand; none compares the widths of several devices after a walk, and none can cover all sequences of acceptances.", "anchors": ["vmcnet/mcmc/dynamic_width_position_amplitude.py:make_update_move_metadata_fn", "vmcnet/mcmc/dynamic_width_position_amplitude.py:make_dynamic_pos_amp_gaussian_step", "vmcnet/mcmc/metropolis.py:walk_data", "vmcnet/utils/distribute.py:mean_all_local_devices"]}
{"id": "C126", "title": "Training on several devices keeps the replicas equal and is training on all walkers", "statement": "Training on arrays on several devices which start with the same parameters and optimizer state raises nothing, for any number of epochs and any optimizer which is a function of averaged gradient, parameters and state. At the start of every epoch all devices have the same parameters, the same optimizer state and (with steps of adaptive width) the same width, and the amplitudes of the configured model with these parameters at their positions. If no walker is at a node or kink, the metrics are means and sample variances over the walkers of all devices, for the parameters before the update, and the averaged gradient is that estimated from the walkers of all devices.", "quantifier": "for all configured models which can be called, all numbers of devices, walkers (two in all), steps and epochs, all random numbers, all clipping functions, all paths of parameters", "why_tests_cant": "Tests train for a few epochs on whatever devices the machine has and compare with stored or approximate numbers; none compares the replicas of the parameters, and none can cover all optimizers and numbers of epochs.", "anchors": ["vmcnet/updates/params.py:create_grad_energy_update_param_fn", "vmcnet/train/vmc.py:vmc_loop", "vmcnet/physics/core.py:create_value_and_grad_energy_fn", "vmcnet/utils/distribute.py:pmean_if_pmap"]}
{"id": "C127", "title": "Burning and evaluating with adaptive width on several devices is one chain of moves", "statement": "An evaluation with the standard local energy on arrays on several devices with steps of adaptive width raises nothing, for any number of burning moves and epochs. Burning and all epochs are one chain of moves of the walkers of all devices with one set of parameters: the epoch with number e, counted from 0, evaluates the walkers after nburn + (e + 1) nsteps moves. The width is adapted after every nmoves moves counted from the first move of the burning, also across the ends of burning and epochs, and is the same on all devices. All amplitudes are those of the model at the positions of the walkers. If no walker is at a node or kink, energy and variance of an epoch are the mean and the sample variance of the local energies of the walkers of all devices.", "quantifier": "for all configured models which can be called, all numbers of devices, walkers (two in all), burning moves, moves and epochs, all random numbers", "why_tests_cant": "The test of the runner burns 5 moves, evaluates 3 epochs and checks that the logged numbers are finite and that there are enough of them, which a wrong chain of moves passes; none looks at the widths across the end of burning, and none can cover all numbers of moves and devices.", "anchors": ["vmcnet/train/runners.py:_burn_and_run_vmc", "vmcnet/mcmc/metropolis.py:burn_data", "vmcnet/updates/params.py:create_eval_update_param_fn", "vmcnet/mcmc/dynamic_width_position_amplitude.py:make_dynamic_pos_amp_gaussian_step", "vmcnet/train/vmc.py:vmc_loop"]}
{"id": "C128", "title": "The width schedule of training on several devices runs through burning and all parameter updates", "statement": "Burning and training with steps of adaptive width on arrays on several devices raises nothing, for any number of burning moves and epochs. Training starts from the walkers after the burning moves. The width is adapted after every nmoves moves, counted from the first move of the burning, to the mean fraction of the walkers of all devices which moved in these nmoves moves, whichever parameters they moved with: at the start of the epoch with number e, counted from 0, every device has the width adapted (nburn + e nsteps) / nmoves times and has counted (nburn + e nsteps) mod nmoves moves since. Parameters and optimizer state are the same on all devices, amplitudes are those of the model with the current parameters, and metrics and gradient of every epoch are those of the walkers of all devices if no walker is at a node or kink.", "quantifier": "for all configured models which can be called, all numbers of devices, walkers (two in all), burning moves, moves per epoch, moves per adaptation (at least one) and epochs, all random numbers, clipping functions and optimizers which are functions of averaged gradient, parameters and state", "why_tests_cant": "The test of the runner burns two moves, trains for a few epochs and checks files and that the logged numbers are finite; the widths are not logged, and default settings adapt the width after more moves than the test does.", "anchors": ["vmcnet/train/runners.py:_burn_and_run_vmc", "vmcnet/mcmc/metropolis.py:burn_data", "vmcnet/mcmc/dynamic_width_position_amplitude.py:make_update_move_metadata_fn", "vmcnet/train/vmc.py:vmc_loop", "vmcnet/updates/params.py:create_grad_energy_update_param_fn"]}
