# vmcnet: formal model and proofs

The model is a shallow embedding in Lean 4 (4.33.0 with Mathlib): every modelled
Python function becomes one Lean function with the same branches, and a comment citing
the lines of `/repo` it mirrors. Properties are in `properties.jsonl`, the theorems that
settle them in `MANIFEST.json`, mutation tests in `seeded/LOG.jsonl`.

## Layout

* `lean/Verif/Model/*.lean`  definitions that mirror the code (no theorems about properties)
* `lean/Verif/Spec/*.lean`   small independent vocabulary used to state properties
* `lean/Verif/Lemmas/*.lean` helper lemmas
* `lean/Verif/Props/*.lean`  the property theorems, each with a non-trivial `example`

## Trusted base

* Lean's kernel (4.33.0) and the axioms `propext`, `Classical.choice`, `Quot.sound`
  (Mathlib uses all three; no theorem here depends on anything else, checked with
  `#print axioms` on every theorem named in the manifest). No axiom of our own, no
  `sorry`, no `native_decide`.
* That the Lean definitions transcribe the Python faithfully. Each carries its source
  lines; simplifications are noted next to the definition and summarised below.
* Numbers. Floating point rounding is not modelled. Where only algebra matters the
  scalars are real (or complex) numbers. Where nan, infinities, log 0 or division by
  zero decide the behaviour the scalars are `XR`: exact reals plus `nan`, `+inf`,
  `-inf`, with the IEEE rules for these (signed zero is not modelled).
* JAX/NumPy primitives (`jnp.where`, `mean`, `sum`, `clip`, `split`, `slogdet`, `fft`,
  `vmap`, `pmap`, `pmean`, reverse-mode differentiation) are modelled by their
  documented meaning; tracing, jit compilation and device placement are not modelled.
  `jax.random` is an arbitrary deterministic function of the key; where a property is
  about probabilities (C19, C73) the draws are independent normal/uniform variables; where it is about distinct keys (C74)
  different derivations give different keys.
* Python's `queue.Queue`, `threading.Thread`, file system calls and `json` are modelled
  by their documented meaning (atomic queue operations, `open(.., "wb")` truncates).
* Arrays are functions on finite index types; flax parameters are arbitrary values of the
  right shape, so theorems hold for every parameter value; activation functions,
  initializers and inner networks are arbitrary functions.
* Three library routines are transcribed because a property is about their result:
  `jax.scipy.sparse.linalg.cg` and `jax.random.choice` (jax 0.4.14) and flax
  `SelfAttention`.

## What is modelled

| source in `/repo/vmcnet` | model | not modelled there |
|---|---|---|
| `utils/checkpoint.py`, `train/vmc.py` | `Checkpoint` | console logging, amplitude extrema as numbers (kept abstract) |
| `utils/checkpoint.py` `ThreadedWriter`, `CheckpointWriter`, `MetricsWriter` | `ThreadedWriter` | thread start failures |
| `utils/io.py`, `utils/distribute.py` (reshape, replicate, key handling) | `IO` | pickling inside npz, `jnp` array encodings |
| `mcmc/metropolis.py`, `mcmc/position_amplitude_core.py`, `mcmc/simple_position_amplitude.py`, `mcmc/dynamic_width_position_amplitude.py` | `Metropolis` | |
| `mcmc/statistics.py` | `Statistics` | one-dimensional input of `loadtxt` (a single chain) |
| `physics/core.py`, `updates/parse_config.py` clipping, `utils/distribute.py` means | `Energy` | |
| `physics/potential.py`, `kinetic.py`, `ibp.py`, `random_particle.py`, `train/runners.py` `_assemble_mol_local_energy_fn` | `Physics` | |
| `physics/spin.py` | `Spin` | |
| `examples/*` | `Examples` | |
| `utils/slog_helpers.py`, `utils/log_linear_exp.py` | `Slog` | |
| `models/core.py` | `Split`, `Network`, `ResNet`, `FloatNet`, `Dual` | parameter initialisation |
| `models/antisymmetry.py` | `Antisymmetry` | |
| `models/sign_symmetry.py` | `SignSymmetry` | |
| `models/equivariance.py`, `models/invariance.py` | `Network`, `Nets`, `FloatNet` (nan of empty species), `Dual` (derivatives of distances) | |
| `models/antiequivariance.py` | `Antiequivariance` | |
| `models/jastrow.py` | `Jastrow` | |
| `models/construct.py` (all network classes) | `Network`, `Nets` | |
| `models/construct.py` `FermiNet`, `EmbeddedParticleFermiNet`, `ExtendedOrbitalMatrixFermiNet`, `AntiequivarianceNet` and the explicitly antisymmetrized networks with all their layers, as array code with batch axes | `Arrays`, `Batched`, `BatchedNets`, `BatchedAntieq`, `BatchedExplicit` | positions without ions |
| `physics/potential.py`, the standard local energy and its `jax.vmap` as array code with batch axes | `BatchedPotential`, `BatchedEnergy` | |
| the ibp and random-particle local energies, the choice of the type, `jax.vmap` with keys, training with random particles as array code | `BatchedTypes` | the gradient of `U` is that for one walker |
| `generic_energy_val_and_grad` as array code, on one device | `BatchedGeneric` | `jax.grad` is an operation on functions of the parameters, taken as the derivative along a path |
| `mcmc/metropolis.py`, `position_amplitude_core.py`, the step with adaptive width, an epoch of evaluation and the estimates of an epoch of training as array code on one device | `BatchedSampling`, `BatchedEpoch` | |
| `physics/spin.py` as array code | `BatchedSpin` | - |
| walks with adaptive step width on several devices as array code | `BatchedAdaptive` | all devices take a step together |
| burning and training on several devices as array code | `BatchedBurnedTraining` | `skip_burn` and starting from a later epoch; checkpoints |
| burning and evaluating on several devices as array code | `BatchedEvaluationDevices` | local energies with random keys; recording local energies and amplitudes |
| epochs of training on several devices as array code | `BatchedTrainingDevices` | optimizers which use the data of the walkers (KFAC, SPRING); checkpoints |
| `generic_energy_val_and_grad` and the spin estimate on several devices as array code | `BatchedGenericDevices` | `jax.pmap` is a map over the slices |
| epochs of training with any optimizer on one device as array code | `BatchedTraining` | checkpoints (see `Checkpoint`); training with ibp is `BatchedGeneric`, one epoch |
| distribution to several devices, walks, evaluation and estimates of training on them as array code | `BatchedDevices` | `jax.pmap` is a map over the slices, transposed `pmean` is the identity of the local mean |
| `models/construct.py` `get_model_from_config` and helpers, `models/weights.py` | `Construct`, `Weights` | evaluation for `include_ei_norm=False`; types of configuration entries; values drawn by initializers (only name, scale, precision); `get_constant_init`, `slog_psi_to_log_psi_apply` wrapper |
| `updates/sr.py`, `spring.py`, `params.py`, `parse_config.py`, metrics in `train/vmc.py` | `Updates`, `Optimizers`, `Training`, `Records` | the KFAC optimizer; `optax.sgd` and `optax.adam` are modelled from optax 0.1.7 |
| `train/parse_config_flags.py`, `default_config.py` | `Config` | the default values themselves, type checks of `ml_collections` |
| `train/runners.py` `run_molecule` | `Runner`, `LogTree` (several runs on one disk) | construction of the functions it calls (given as parameters) |
| `physics/core.py` `initialize_molecular_pos`, `train/runners.py` `_setup_vmc`, `_setup_eval`, `_make_new_data_for_eval`, `_get_dtype`, keys in `utils/distribute.py`, `updates/params.py` `create_eval_update_param_fn` | `Setup`, `EvalKeys` | the bits of keys and random numbers; `jax.random.choice` is modelled from jax 0.4.14 |
| `utils/curvature_tags_and_blocks.py` | `Curvature` | graph patterns, `_dense`, `sync`, `_update_cache` |

Not modelled at all: `kfac_jax` (external; only what the copied blocks in
`utils/curvature_tags_and_blocks.py` use of it, C101); logging.

C81 relies on flax 0.7.2: `SelfAttention` calls its initializers with a positional dtype, the
default `param_dtype` (32 bits), whereas `Dense` in `models/core.py` calls them without one.

## Per property plan

| id | what is modelled | how it is proved |
|----|------------------|------------------|
| C01 | `vmc_loop` as recursion over epochs emitting queue events; reload + restart | induction on epochs; determinism of the epoch step |
| C02 | same, regular checkpoint branch | induction on the epoch range, list filter spec |
| C03 | running metrics + best-checkpoint branch + final flush, scalars `XR` | invariant: stored metric is the minimum so far, pending/saved data is its first argmin |
| C04 | `move_history_window` | invariant over insertions (limit >= 2) |
| C05 | same | FALSE: code pops at `>=`, so only nhistory_max-1 values are kept and limit 1 divides by zero. Negation and a `_partial` with the real window |
| C06 | nan branch of the loop | induction; first-nan spec |
| C07 | best checkpoint with `XR.nan` | FALSE (`jnp.minimum` propagates nan): negation + what does hold |
| C08 | two-thread transition system of `ThreadedWriter` | inductive invariant over all interleavings |
| C09 | same | enabledness + decreasing measure |
| C10 | writer with non-atomic file writes and crash at any state | inductive invariant on the disk |
| C11 | same | FALSE (file truncated in place): negation + partial |
| C12 | io/distribute round trip | equational, case analysis on containers |
| C13 | text files as lists of rows | list lemmas; FALSE for reload epoch 0 (`if truncate:`): negation + partial |
| C14 | suffix search with an existence predicate | well-founded search on a finite set of names; trailing separator case separately |
| C15 | nested values, json write, list-to-tuple conversion | structural induction; FALSE for dicts inside sequences: negation + partial |
| C16-C18 | acceptance on `XR` | case analysis, exp/log lemmas; C18 FALSE at zero amplitude for both sides: negation + partial |
| C19 | one walker step as a function of noise and uniform draw; measure theory | reversibility by change of variables, then induction on steps |
| C20-C22 | Metropolis step/walk/burn over arbitrary walkers, keys and models | invariant by induction |
| C23-C24 | metadata update | invariant over mask histories |
| C25 | discrete Fourier transform over the complex numbers | orthogonality of roots of unity |
| C26 | multi-chain variance | algebra; FALSE by the between-chain factor: negation + exact formula |
| C27 | `tau` on lists | induction on lists |
| C28-C30 | per-device means, pmean, reshape | finite sums; C29 FALSE when nan counts differ between devices |
| C31-C32 | clipping and nan handling on `XR`, reverse-mode rule of `where`/`*` | order lemmas; C32 FALSE with mean centre and in the gradient |
| C33 | gradient estimator as a finite sum | algebra; device independence FALSE with clipping |
| C34-C36 | potentials, ibp, random particle assembly | finite sums, permutation re-indexing; C35 FALSE for d = 2 |
| C37-C38 | example models with real derivatives | calculus in Mathlib |
| C39 | spin estimators | algebra |
| C40-C41 | slog helpers on `XR` | exp/log lemmas; C41 FALSE when every term is zero |
| C42-C43 | FermiNet pipeline over arbitrary index types | equivariance by re-indexing sums; determinant row permutation |
| C44-C45 | permutation list and sign vector recursion | induction on n |
| C46 | sign orbit | bijection on sign vectors |
| C47 | cofactor expansion | Mathlib determinants |
| C48 | Jastrow sums | re-indexing; scale FALSE for strengths other than 1 |
| C49 | split helpers on lists | induction; FALSE for one species |
| C50 | positional construction of the orbital layer | FALSE for the cofactor layer; proved for per-particle determinant |
| C51-C53 | SR/SPRING linear algebra, conjugate gradients | Mathlib matrices; Krylov-type induction for CG |
| C54 | schedule | real inequalities |
| C55 | eval update in the loop | induction; key part FALSE for random_particle |
| C56 | per-device update | induction; FALSE for SPRING |
| C57 | configurations as maps from paths to values; `parse_flags` | characterisation of acceptance by a spec of the command line, case analysis |
| C58 | `run_molecule` | case analysis on the flags, composition of the loop theorems |
| C59 | `log_linear_exp` | order lemmas on `XR` |
| C60 | cone potentials | second derivatives of norms |
| C61 | spin estimator averaged over a finite set closed under exchanges | group action, re-indexing |
| C62 | residual blocks under cyclic relabelling | induction on blocks; counterexample without `cyclic_spins` |
| C63 | antiequivariance networks | composition of C46 and C47; FALSE for weighted products |
| C64 | hidden-fermion networks | equivariance + determinant row permutation on padded matrices |
| C65 | explicitly antisymmetrized networks with Jastrow | composition of C45 and C48 |
| C66 | nested dictionaries with object identities | mutual structural induction |
| C67 | whole run twice | C01, C12, C13 and C58 combined |
| C68 | optimizer selection; trajectories with feedback of parameters into gradients | closed forms of the optimizer states by induction on the number of updates |
| C69 | moves of SR and SPRING | C52 along the trajectories of C68; two-step counterexample with momentum |
| C70 | `LogDomainDense`, `LogDomainResNet`, `SimpleResNet` over any layer stack | C40 per layer, induction over the layers; FALSE where a bias-free layer gets zeros only |
| C71 | estimators of C28 and C33 on independent walkers drawn from `born`, product measures | expectation of sample covariances; differentiation under the integral; FALSE with clipping |
| C72 | local energies of C36 integrated against `born` on all of configuration space | integration by parts along almost every coordinate line (Fubini and the fundamental theorem of calculus), null coalescence sets; FALSE with softening |
| C73 | `initializeMolecularPos` on uniform and normal numbers, `jax.random.choice` from its cumulative sums | intervals of the uniform number of length p, mixture of products, image of Gaussian measures; without replacement, sorting `log p` plus Gumbel numbers is a race of exponential clocks (`Lemmas/Race.lean`), won in any given order with the probability of drawing without putting back; documented covariance FALSE, and beyond the first electron the probability is not proportional to the charge |
| C74 | whole run from the seed over an abstract generator, `Spec/Keys.lean` slots; free keys | run = reference run that draws with numbered keys; numbering injective, depth of derivations |
| C75 | `setupSingle`, `setupPmap`, evaluation data, `runMolecule` | invariant through burning, epochs, phases; bijection of rows |
| C76 | `evalEpochs` with keys and arrays of keys, `jax.random.split` refusing arrays | induction over epochs; FALSE for `random_particle` from the second epoch on |
| C77 | `getModelFromConfig` and evaluation of all six model types from one parameter record | reduction to C42, C63, C65 ff. per type; splits traced through the construction; weighted products excluded |
| C78 | the same construction, errors as values | both directions by unfolding, against a predicate on configurations |
| C79 | evaluation with errors as values | every layer's error condition, combined per model type |
| C80 | descriptions of layers with all options | relation between configuration and layers written independently; negations for options which are never read |
| C81 | calls of initializers with and without a third argument | induction over blocks; FALSE with the transformer |
| C82 | `getModelFromConfig` and evaluation of all model types | input streams, envelopes and the Jastrow scale depend on differences only; witness with one hidden fermion for the embedded FermiNet |
| C83 | `getModelFromConfig` and evaluation of all model types | separate specification `ModelValue` with sums, determinants and exponentials; each part of a model is shown to compute its clause, and the clauses leave no choice |
| C84 | backflow and orbital layers with `XR` numbers (`FloatNet`) | by induction over blocks features are the real ones, or all nan once a mean over an empty species is taken; configured backflows take such means unless they use transformers without two-electron stream |
| C85 | distance features with dual numbers over `XR` and the rules of jax (`Dual`) | each operation tracks value and derivative, `sqrt` away from 0; at 0 the rule gives `0 * inf = nan` |
| C86 | nothing new: the functions of configurations (C83) and the local energy (C36) | every part of the specification is a smooth function of smooth functions: activations, attention with positive denominators, distances of particles apart, envelopes, determinants as polynomials, ResNets, Jastrow exponents; `f = log abs ψ` near such a point, so `f'' + f'^2 = ψ''/ψ` in each coordinate |
| C87 | the rows of `local_energies.txt`, `np.loadtxt`, `_compute_and_save_energy_statistics` (Model/EvalStats.lean) on top of the statistics (C25-C27) and the evaluation loop (C76); local energies are finite and text round trips exactly | `_partial` for two epochs and two walkers: rows are walkers device by device, so means over the file are means over devices, walkers and epochs; the rest is false |
| C88 | the values of configured models (C85, C86); bounds, conditions on envelopes and Jastrow factors in Spec/Decay.lean, independent of the model's helpers | every stage of a network is followed with jets: values, first and second derivatives along a coordinate grow at most polynomially up to inverse distances, uniformly for parameters in a compact set (Lemmas/Tame.lean), envelopes and Jastrow factors decay exponentially and absorb the growth |
| C89 | configured models, their local energies, Lebesgue measure; the energy is an integral in Spec/Decay.lean | C88 with integrability of Coulomb singularities in at least two dimensions (Lemmas/Coulomb.lean) and identity theorem for analytic functions (Lemmas/Bounds.lean) give all assumptions of C72, which then gives the means; witness of the negation without decay |
| C90 | the walk of C19 as a function of draws, for amplitudes of any origin; independent draws | the operator of a reversible chain is a symmetric contraction on square integrable functions, its powers converge to the projection on constants if moves leave no information (Lemmas/Ergodic.lean); accept/reject moves have this property and a start density after the first accepted move (Lemmas/Mixing.lean); products over walkers (Lemmas/Chain.lean) |
| C91 | burning, the evaluation loop (C76) and the statistics file (C87) with the walk of C90; the energy of C89 | variances of sums grow slower than quadratically by C90, cut off deviations carry the weak law from almost all to all starts (Lemmas/LargeNumbers.lean); k steps at a time; null sets are avoided along the path; fixed width only |
| C92 | `dynamicStep` with given draws, tied to keys by `adaptive_walk_uses_draws` | induction for the first moves; negation for every wave function: by reversibility the bias after two moves is the difference of two pairings of the acceptance probability, which for large widths tend to multiples of a positive integral with different factors (Lemmas/Adaptive.lean) |
| C93 | `trainParams`: energy, gradient and configured optimizer (`Model/Training.lean`) | simulation: on every layout the averaged gradient is the same (C33) and so is the preconditioner of stochastic reconfiguration; FALSE with clipping and with SPRING |
| C94 | walk, update and metrics of an epoch on all devices, dictionaries as lists, files as lists of lines (`Model/Records.lean`) | induction on moves and on epochs, statistics from C30 and clipping from C31 |
| C95 | as C91; `hamiltonian` and `energyVariance` in `Spec/EnergyVariance.lean` | squares of Coulomb singularities are integrable against exponentials in three dimensions (`Lemmas/CoulombSquare.lean`), so that the bounds of C88 make `Hψ` square-integrable; law of large numbers (C91) for the local energy of each walker and its square; the saved variance is a continuous function of these averages |
| C96 | as C89 and C71; paths of parameters in `Spec/ParamPath.lean` | the bounds of C88 hold uniformly for parameters in a compact interval, together with the derivative with respect to the parameter and continuity of second derivatives in it (`Lemmas/Tame.lean`); difference quotients of `∫ ψHψ` are integrals of difference quotients of `ψ` times `Hψ` because `H` is symmetric, and converge by dominated convergence (`Props/ParamGradient.lean`); C71's estimator. Random particles: ψ times the local energy of every permutation has the same bounds, and their mean is the full local energy (`Props/RandomGradient.lean`) |
| C97 | as C91; `RegularNode` in `Props/NodeVariance.lean` | `ψ²` times the local energy is continuous at the node with value `½|∇ψ|² > 0`, and `1/ψ²` is not integrable around it (integrals over lines, `Lemmas/Node.lean`), so `ψ²e² = (ψ²e)²/ψ²` is not; the law of large numbers (C91) for squares cut off at ever larger values bounds the saved variance from below |
| C98 | as C96 and C28; `Clips`, `gradientOf` in `Props/ClippedGradient.lean` | the gradient of clipped energies as a sum over walkers; a walker with a large energy keeps about half of the fraction `min 1 (threshold / n)` of its distance from the others after clipping, so the gradient is at least of the order of its energy times its derivative; that product has no second moment because `ψ²·(Hψ/ψ)²·(∂ψ/ψ)² = (Hψ·∂ψ)²/ψ²` is not integrable at the node (C97), while all other terms have one (Fubini, `Lemmas/NodeGradient.lean`) |
| C99 | as C96, C97 and C71; energies integrated by parts as in C72 | `ψ²` times the local energy is a polynomial in `ψ` and its derivatives, so with the bounds of C96 — also for mixed derivatives in space and parameter — it is differentiable under the integral (`Props/GenericGradient.lean`); C71's estimator, which now needs a mean of `2 e ∂log ψ + ∂e` only.  Near a moving node `ψ²·e·∂log ψ` is like `1/ψ` and not integrable; the standard contribution is at least of that order (C98), also what clipping removes from it, so no other combination with the second contribution has a mean (Fubini) |
| C100 | two runs of `vmc_loop` into one directory: the queues of files appended | FALSE (metric and history start anew): every continued run forgets earlier epochs (`Props/Resume.lean`); C03 for the second run with C01's states gives what the file is, and equality with the uninterrupted run for a window of one epoch |
| C101 | the two curvature blocks (`Model/Curvature.lean`), flattened axes row-major, kfac_jax's moving average and dense covariances | einsums and reshapes as sums over index types; the moving average seen through linear functions is a weighted mean, so quadratic forms are sums of squares; Kronecker products of semidefinite matrices (`Props/Curvature.lean`).  The scale of `QmcBlockedDense` is FALSE: counterexample with one electron, and the factor which would be right |
| C102 | the models of C96, C51-C53 and of the configured optimizers together with the exact energy; walkers are independent random positions with law `|ψ|²` on an abstract probability space (`Props/Sampling.lean`) | strong law of large numbers for the averages in gradient and Fisher matrix; conjugate gradients are continuous in matrix and right-hand side as long as they run, so iterates near the limit keep a positive inner product with the gradient (`Props/CGLimit.lean`); SPRING's first direction solves the device's own damped Fisher equation; then the derivative of the exact energy along the step is negative (`Props/Descent.lean`).  Example: helium with the orbital decay as parameter, where the energy is `a²T + aU` by scaling, so its gradient vanishes at one decay at most |
| C103 | the configured models of C83 with parameters which depend on an argument (`Spec/ParamPath.lean`: a condition on all entries of `Params`), the Coulomb potentials and the Laplacian | layer by layer, `ContDiffAt` in argument and positions together (`Props/SmoothJoint.lean`); then logarithm, Laplacian and potentials (`Props/JointEnergy.lean`).  Norms and absolute values are smooth away from 0, which is what `SmoothPoint` asks for.  Example: helium with the orbital decay as parameter, analytic at every decay but 0; at 0 the logarithm is `log 6 - |a| Σ r` (`zero_decay_kink`) |
| C104 | log directories and what successive runs append to them (`Model/LogTree.lean`), on top of `Runner`, the choice of the directory (C14) and the statistics (C87) | FALSE with `same_logdir` (witness: two runs of the counting example).  A run without it has a directory which did not exist (the suffix), so its file of energies holds its own rows only; induction over the succession of runs (`Props/LogTree.lean`).  With `same_logdir`: average over old and new rows, or an exception if numbers of walkers differ |
| C105 | `Runner`, with the checkpoints of any run in the chain as files which the next one reads | induction over the interruptions: each run is the rest of the uninterrupted one (`Props/Interruptions.lean`), with C01 and C02 for one continuation.  FALSE for runs with `new_optimizer_state`: `e` rows are lost |
| C106 | schedules and SGD (`Optimizers`), with random data and keys on an abstract probability space; energy, exact gradient and noise are given by conditions | sums of `1/(n + a)^s`; descent lemma for Lipschitz gradients; pull-out property of conditional expectations; the mean energies minus the noise so far decrease; monotone convergence for the almost sure part (`Props/StochasticApproximation.lean`).  Example and counterexample (constant rate): a parabola whose gradient is disturbed by coins |
| C107 | the FermiNet as array code with all axes: arrays of any rank with broadcasting, reshape, split, concatenate, swapaxes, moveaxis, reductions, determinants (`Model/Arrays.lean`), and on top of them input streams, backflow, orbitals, determinant functions line by line (`Model/Batched.lean`) | a relation between an array and its part at an index of the batch axes is kept by every operation (`Lemmas/Arrays.lean`), hence by every layer (`Lemmas/Batched.lean`); the axis of determinants in front of the batch axes is handled by two such relations at once.  Counterexample without distances in `Props/Batched.lean` |
| C108 | the array code of C107 and the per-walker model of the FermiNet (`Model/Construct.lean`), whose values C83 and others are about; the parameters of the one are those of the other, with kernels flattened as in flax (`fermiA`) | for one walker every array operation is computed on arrays given by functions of indices (`Lemmas/ArrayViews.lean`), then every layer (`ArrayViewsSplit/Backflow/Orbitals/Dets/Net.lean`); with C107 this gives the value for every walker of a batch |
| C109 | `models/invariance.py` and the two FermiNets with hidden fermions as array code (`Model/BatchedNets.lean`), on top of the array code of C107 | as C108: the array code on one walker is computed on arrays given by functions of indices (`Lemmas/ArrayViewsEmbedded.lean`, `ArrayViewsExtended.lean`), and acts on each walker of a batch alone (`Lemmas/BatchedNets.lean`); values from C83, antisymmetry from C77 |
| C110 | `models/antiequivariance.py`, the doubly equivariant layers, `ProductsSignCovariance` and `AntiequivarianceNet` as array code (`Model/BatchedAntieq.lean`) | as C108, with `Lemmas/BatchedAntieq.lean` (one walker of a batch), `Lemmas/ArrayViewsAntieq.lean` and `ArrayViewsAntieqNet.lean` (arrays as functions of indices; cofactors as determinants of submatrices, the sign axis of a symmetrized backflow as a sum over sign patterns); values from C83, antisymmetry from C77 |
| C111 | `models/jastrow.py`, `models/antisymmetry.py` and the explicitly antisymmetrized networks of `models/construct.py` as array code (`Model/BatchedExplicit.lean`) | as C108, with `Lemmas/BatchedExplicit.lean` (one walker of a batch) and `Lemmas/ArrayViewsJastrow.lean`, `ArrayViewsFactorized.lean`, `ArrayViewsGeneric.lean`, `ArrayViewsExplicit.lean` (arrays as functions of indices; the grid of permutations of all species as a nested sum); values from C83, antisymmetry from C77. `explicit_empty_species_raises`: for a species without electrons `jnp.array([()])` is an array of floats, which `jnp.take` refuses; the per-walker theorems about such systems (C77, C83) therefore describe the formula and not a call of the code |
| C112 | `Model.onBatch` (defined in `Props/BatchedModel.lean`), the array code of whichever network `get_model_from_config` builds | cases on the type of the model, each from C108-C111; callability from `configured_model_callable_iff`, values from `configured_model_value`, signs from `configured_model_antisymmetric_partial`. Needs at least one electron of each species (otherwise the array code and the formula differ, see C111) |
| C113 | `physics/potential.py` and `combine_local_energy_terms` as array code (`Model/BatchedPotential.lean`) | as C108, with `Lemmas/BatchedPotential.lean`; the sum of terms by induction on the list, with broadcasting of the one number of the ion-ion term |
| C114 | `slog_psi_to_log_psi_apply`, the kinetic energy, the standard local energy and `jax.vmap` as array code (`Model/BatchedEnergy.lean`); derivatives are those of real functions | C112 for arrays with and without a batch axis, C113, and `configured_local_energy` |
| C115 | the functions of `mcmc/` as array code on one device (`Model/BatchedSampling.lean`); random numbers are any arrays of the requested shape | `Spec.arraysOf` lays out the walkers of `Model/Metropolis.lean` along the first axis; each array function commutes with it, walks by induction on the number of steps. For configured models by C112; consistency of amplitudes from C20 |
| C116 | `eval_update_param_fn`, `standard_energy_val_and_grad` and an epoch as array code (`Model/BatchedEpoch.lean`) | energies by C114, statistics by C30, walk by C115; the function differentiated is computed in closed form and then differentiated |
| C117 | the ibp and random-particle local energies, `_assemble_mol_local_energy_fn`, `jax.vmap` with keys and `random_particle_energy_val_and_grad` as array code (`Model/BatchedTypes.lean`) | terms one by one for one walker (C113 without batch axes), then the map; means by C35 and linearity over independent permutations, gradient by C116 |
| C118 | distribution of the data, walks, evaluation and the estimates of training on several devices as array code (`Model/BatchedDevices.lean`) | layout of the walkers by arithmetic of indices, walks of each device by C115, statistics of all devices by C30, gradients in closed form as for C116 |
| C119 | `update_param_fn`, epochs of training and the start of `_burn_and_run_vmc` as array code (`Model/BatchedTraining.lean`); optimizer arbitrary | one epoch from C115 and C116 and the refreshed amplitudes, then induction on the epochs; `Spec.EpochEstimates` says what an epoch has to report |
| C120 | `create_local_spin_exchange`, `create_spin_square_expectation` as array code (`Model/BatchedSpin.lean`) | the index list is the transposition (`swappedList_get`), then the shape lemmas of C114 and `slog_quotient`; configured models by C113 |
| C121 | as C120 | exchanges of electrons preserve volume; all pairs of unequal spins have equal overlap integrals (`pair_integral`), then the algebra of C61; for configured models antisymmetry almost everywhere from C77 and square-integrability from C89 |
| C122 | as C120; spec: Pauli matrices, antisymmetrized state and expectation in `Spec/SpinOperators.lean` | Dirac's identity pair by pair; permutations within the species by induction on the support; every assignment of the spins is a permutation of the first one and gives the same integral; then C121 |
| C123 | `generic_energy_val_and_grad` as array code (`Model/BatchedGeneric.lean`) | local energies of one walker (C117) near the given parameters, so that their derivatives are those of the formula; standard contribution by `forward_derivative` (C116); means over walkers by the families of C99 and `generic_gradient_unbiased` |
| C124 | `generic_energy_val_and_grad` and `create_spin_square_expectation` on several devices (`Model/BatchedGenericDevices.lean`) | each device by C120 and C123 (`generic_walkers`), sums over devices of sums over their walkers reindexed by `Spec.onDevice`; the averaged gradients are the gradient on one device with all walkers, hence unbiased |
| C125 | `make_dynamic_pos_amp_gaussian_step` and `walk_data` on several devices as array code (`Model/BatchedAdaptive.lean`) | a step of all devices is `Spec.devicesNext`, walker by walker, then induction over the steps; the metadata follows the schedule of C23 and C24 with the fraction of all walkers |
| C126 | epochs of `vmc_loop` with `create_grad_energy_update_param_fn` on several devices, each with its copy of the parameters (`Model/BatchedTrainingDevices.lean`) | an epoch by C118, for any walk which returns (`Spec.Walks`; steps of fixed width by C115, of adaptive width by C125), the averaged gradient is one vector for all devices, then induction over the epochs |
| C127 | `_burn_and_run_vmc` with `burn_data` and the epochs of `vmc_loop` with `create_eval_update_param_fn` on several devices, with steps of adaptive width (`Model/BatchedEvaluationDevices.lean`) | states after any number of moves as iterates of the move of C125, then induction over burning moves and epochs; statistics by C118 |
| C128 | `_burn_and_run_vmc` with `burn_data` and the epochs of training of C126 (`Model/BatchedBurnedTraining.lean`) | burning as iterates of the move of C125, training by C126 from the data on the devices, the metadata as one sequence over all moves, then the schedule of one walk |

## Where the code differs from its documentation or from a property

Proved as theorems (see the partial claims in the manifest):

* `create_ion_ion_coulomb_potential` documents the shape `electron_positions.shape[:-2]` but returns one number (C113)
* running history keeps `nhistory_max - 1` values; `nhistory_max = 1` gives nan (C05)
* a nan clipped energy disables best checkpoints for the rest of the run (C07)
* the best checkpoint file is truncated in place (C11); a raising write kills the writer
  thread and later items are lost (C08)
* reload at epoch 0 with append duplicates rows (C13)
* dictionaries inside sequences do not survive the json round trip (C15)
* acceptance is 1 (plain) but nan (log) when both amplitudes vanish (C18)
* the multi-chain variance has an extra between-chain term, nan for one chain (C26)
* nan-safe means weight walkers unequally between devices (C29); an all-nan device gives nan
* the clipping window depends on the device layout (C31, C33)
* one nan local energy makes the whole gradient nan even with `nan_safe` (C32)
* the random-particle kinetic energy is biased in two dimensions (C35)
* log-domain sums of zeros are `(nan, nan)`, so FermiNet gives nan at coincident same-spin
  electrons instead of `(0, -inf)` (C41, C42)
* the scaled two-body Jastrow is only zero on the nuclei for strength 1 (C48)
* `get_nelec_per_split` raises for one species given as an index list (C49)
* cofactor layers pass `use_bias` and `isotropic_decay` to the wrong fields (C50)
* evaluation with `random_particle` raises at its second epoch, because the array of walker
  keys is returned as the key (C55, C76)
* SPRING parameters diverge between devices (C56)
* with momentum the moves of stochastic reconfiguration exceed the norm constraint (C69)
* `LogDomainResNet` is nan where `SimpleResNet` is 0: the final layer has no bias (C70)
* clipping biases the gradient, which the comments call unbiased (C71)
* with softening, the ibp local energy has another expectation than the standard one (C72)
* `initialize_molecular_pos` documents `init_width` as covariance, the code makes it the standard deviation (C73; the only caller uses 1)
* with no more electrons than ions, ions are drawn without putting them back, so that only the first electron is at an ion with probability proportional to the charge (C73)
* all processes start from the same parameters and the same initial positions, because the setup keys do not depend on the process; later draws differ (C74)
* `ei_norm_softening`, `ee_norm_softening` and `determinant_fn_mode` are never read; the mode
  comes from `det_resnet.mode` and has to be valid even if unused (C78, C80)
* scales of initializers count only for orthogonal kernels, although documented as passed to
  the constructor (C80)
* with the transformer, `zeros` and `ones` initializers raise a TypeError, and attention
  parameters are always single precision (C81)
* with one species, models which need the number of electrons per species (all but explicit
  antisymmetrization and full determinants without embedded particles) are accepted, but a call
  raises an IndexError (C79)
* a one-element `nhidden_fermions_per_spin` is broadcast in the construction of the embedded
  FermiNet but refused by its call (C78, C79)
* hidden particles of the embedded FermiNet are outputs of a network on translation invariant
  streams, but are used as absolute positions (C82)
* with an empty species (hydrogen atom, `nelec = (1, 0)`) means over it are nan, and so are all
  features and orbitals (C84)
* softened electron-ion distances are differentiable at the ion, but their automatic derivative
  is nan, as the plain norm is taken first (C85)
* an evaluation of one epoch or with one walker raises at its end, because `np.loadtxt` removes
  dimensions of size one (C87)
* one walker whose local energy is constant during an evaluation makes the integrated
  autocorrelation and the standard error of all walkers nan (C87)
* the width of Metropolis steps depends on the fate of earlier moves, so the walk of the runner does not leave |psi|^2
  invariant; the bias is proved for one walker whose width is adjusted after every move (C92)
* training with clipping (the default) or with SPRING depends on the number of devices (C93)
* with the kinetic energy integrated by parts (the default for `ibp`) the local energy has infinite variance if the wave
  function has nodes, so the variance, and with it the standard error, which evaluations save estimates nothing (C97)
* clipping by mean deviations does not make the variance of gradients finite; at nodes which move with a parameter it is
  infinite for every threshold (C98)
* the NOTE on the factor `nchains / (nchains - 1)` and the TODO on clipping in the generic estimator (core.py:323-325,
  381-383): without the factor, or with clipping, the gradient has no mean at nodes which move (C99)
* a run continued in the same directory overwrites `best_checkpoint.npz` with the best epoch since the reload, also if an
  earlier one was better (C100)
* `QmcBlockedDense.fixed_scale` is the second axis of the weights, not the number of places the layer is applied to (C101;
  the block is never registered)
* with `same_logdir` the evaluation appends to `eval/local_energies.txt` of the earlier one and computes its statistics from
  both; with another number of walkers `np.loadtxt` raises at the end (C104)
* a run with `new_optimizer_state` copies the rows of the reloaded epochs but counts its own from 0; continuing it drops
  as many rows of the metric files (C105)
* without electron-ion distances the one-electron input has one axis more than documented, and a FermiNet gives an array instead
  of a number for one walker (C107)
* integration-by-parts cones reproduce Coulomb only in three dimensions (C60)
* the weighted products covariance is not antisymmetric (C63)

Visible in the model but not stated as properties: `walk_data` with 0 steps divides 0 by 0;
the isotropic envelope and
`OneBodyExpDecay` have one decay rate for all ions although documented per ion; the
two-body Jastrow counts pairs once although documented as a double sum; `make_hermite_polynomials` returns a `(0, 2)` array for no particles;
`same_logdir` without a reload logs to `NONE`; `--config.base_logdir` overrides are lost;
a trailing separator gives `logs/_1`.
