import Verif.Model.XRSum
import Mathlib.LinearAlgebra.Matrix.NonsingularInverse
import Mathlib.Analysis.Real.Sqrt

/-!
Model of the parameter updates in vmcnet/updates: natural gradient (sr.py), SPRING (spring.py),
the optimizer steps of parse_config.py and the update functions of params.py.

A pytree of parameters or gradients is the family of its scalar leaves entries, indexed by a finite
type `K`.  Programs under `pmap` are modelled as functions of one value per device (`Fin D → α`);
running without pmap is `D = 1`.  Each device has `n` walkers.  Real arithmetic, no nans: the
nan-safe means equal the plain ones here.
-/

namespace Verif.Updates

variable {K : Type*} [Fintype K] {D n : ℕ}

/-- `tree_inner_product`.  utils/pytree_helpers.py:38-41 -/
def treeInner (a b : K → ℝ) : ℝ := ∑ k, a k * b k

/-- `pmean_if_pmap` of one number per device.  utils/distribute.py:60 -/
noncomputable def pmean (x : Fin D → ℝ) : ℝ := (∑ d, x d) / D

/-- `get_mean_over_first_axis_fn` applied to one number per walker: the local mean, then the mean
over devices.  utils/distribute.py:73-94 -/
noncomputable def meanFirst (x : Fin D → Fin n → ℝ) : ℝ := pmean fun d => (∑ i, x d i) / n

/-- `fisher_apply` in DEBUG mode; `J d i k` is the derivative of
`log|psi|` of walker `i` on device `d` with respect to parameter `k`.  updates/sr.py:97-115 -/
noncomputable def fisherDense (damping : ℝ) (J : Fin D → Fin n → K → ℝ) (x : Fin D → K → ℝ)
    (d : Fin D) (k : K) : ℝ :=
  let centered := fun d i k => J d i k - meanFirst fun d i => J d i k
  let centeredJvp := fun d i => ∑ l, centered d i l * x d l
  let localFisherTimesX := fun d => (∑ i, centered d i k * centeredJvp d i) / n
  pmean localFisherTimesX + damping * x d k

/-- `fisher_apply` in LAZY mode: `jax.jvp` multiplies by the Jacobian and `vjp_fn` by its
transpose.  updates/sr.py:131-150 -/
noncomputable def fisherLazy (damping : ℝ) (J : Fin D → Fin n → K → ℝ) (x : Fin D → K → ℝ)
    (d : Fin D) (k : K) : ℝ :=
  let jvp := fun d i => ∑ l, J d i l * x d l
  let centeredJvp := fun d i => jvp d i - meanFirst jvp
  let localFisherTimesX := fun d => 1 / (n : ℝ) * ∑ i, J d i k * centeredJvp d i
  pmean localFisherTimesX + damping * x d k

/-! ### Conjugate gradients

`jax.scipy.sparse.linalg.cg` of jax 0.4.14 (a dependency, not in the repository) as it is called
in sr.py: no preconditioner, `tol=1e-5`, `atol=0`. -/

/-- The state `(x, r, gamma, p)` of `_cg_solve`. -/
structure CG (K : Type*) where
  x : K → ℝ
  r : K → ℝ
  gamma : ℝ
  p : K → ℝ

/-- `body_fun`, given `Ap = A(p)`.  A division by zero gives 0 here and nan in jax;
`cg_denominators_pos` shows that it does not happen. -/
noncomputable def cgBody (Ap : K → ℝ) (s : CG K) : CG K :=
  let alpha := s.gamma / treeInner s.p Ap
  let r' := fun k => s.r k - alpha * Ap k
  let gamma' := treeInner r' r'
  let beta := gamma' / s.gamma
  ⟨fun k => s.x k + alpha * s.p k, r', gamma', fun k => r' k + beta * s.p k⟩

/-- One iteration on all devices. -/
noncomputable def cgStep (A : (Fin D → K → ℝ) → Fin D → K → ℝ) (s : Fin D → CG K) :
    Fin D → CG K := fun d => cgBody (A (fun d => (s d).p) d) (s d)

open Classical in
/-- The while loop with at most the given number of iterations.  The devices run in lockstep; that
they agree about stopping is shown in `cg_replicated`. -/
noncomputable def cgLoop (A : (Fin D → K → ℝ) → Fin D → K → ℝ) (atol2 : Fin D → ℝ) :
    ℕ → (Fin D → CG K) → Fin D → CG K
  | 0, s => s
  | m + 1, s => if ∀ d, (s d).gamma > atol2 d then cgLoop A atol2 m (cgStep A s) else s

/-- The initial state. -/
noncomputable def cgInit (A : (Fin D → K → ℝ) → Fin D → K → ℝ) (b x0 : Fin D → K → ℝ)
    (d : Fin D) : CG K :=
  let r0 := fun k => b d k - A x0 d k
  ⟨x0 d, r0, treeInner r0 r0, r0⟩

/-- `atol2`. -/
noncomputable def cgTol (b : K → ℝ) : ℝ := max ((1e-5 : ℝ) ^ 2 * treeInner b b) 0

/-- `cg(A, b, x0, maxiter)`; without `maxiter` ten times the number of unknowns. -/
noncomputable def cg (A : (Fin D → K → ℝ) → Fin D → K → ℝ) (b x0 : Fin D → K → ℝ)
    (maxiter : Option ℕ) : Fin D → CG K :=
  cgLoop A (fun d => cgTol (b d)) (maxiter.getD (10 * Fintype.card K)) (cgInit A b x0)

/-- `SRMode` -/
inductive SRMode | lazy | debug

/-- `precondition_grad_with_fisher`.  updates/sr.py:84-167 -/
noncomputable def preconditionGrad (mode : SRMode) (damping : ℝ) (maxiter : Option ℕ)
    (J : Fin D → Fin n → K → ℝ) (grad : Fin D → K → ℝ) (d : Fin D) : K → ℝ :=
  match mode with
  | .debug => (cg (fisherDense damping J) grad grad maxiter d).x
  | .lazy => (cg (fisherLazy damping J) grad grad maxiter d).x

/-- `maxiter` from the configuration: negative numbers mean no limit.
updates/parse_config.py:488 -/
def srMaxiter (maxiter : ℤ) : Option ℕ := if maxiter ≥ 0 then some maxiter.toNat else none

/-! ### Norm constraints -/

/-- `jnp.minimum(jnp.sqrt(norm_constraint / sq_norm), 1)`.  updates/sr.py:184-185 -/
noncomputable def normCoefficient (normConstraint sqNorm : ℝ) : XR :=
  XR.minimum (XR.sqrt (XR.fin normConstraint / XR.fin sqNorm)) (.fin 1)

/-- `constrain_norm` of sr.py.  updates/sr.py:170-188 -/
noncomputable def constrainNorm (grads pre : Fin D → K → ℝ) (learningRate : Fin D → ℝ)
    (normConstraint : ℝ) (d : Fin D) (k : K) : XR :=
  normCoefficient normConstraint
    (pmean fun d => treeInner (pre d) (grads d) * learningRate d ^ 2) * .fin (pre d k)

/-- `constrain_norm` of spring.py.  updates/spring.py:77-92 -/
noncomputable def constrainNormSpring (grad : Fin D → K → ℝ) (normConstraint : ℝ) (d : Fin D)
    (k : K) : XR :=
  normCoefficient normConstraint (pmean fun d => treeInner (grad d) (grad d)) * .fin (grad d k)

/-! ### SPRING -/

/-- `Ohat`: the Jacobian over `sqrt(nchains)`, centred over the walkers of this device.
updates/spring.py:53-56 -/
noncomputable def springO (J : Fin n → K → ℝ) : Matrix (Fin n) K ℝ := Matrix.of fun i k =>
  J i k / Real.sqrt n - (∑ j, J j k / Real.sqrt n) / n

/-- `T_reg`.  updates/spring.py:58-60 -/
noncomputable def springT (damping : ℝ) (J : Fin n → K → ℝ) : Matrix (Fin n) (Fin n) ℝ :=
  springO J * (springO J).transpose +
    Matrix.of (fun _ _ => 1 / (n : ℝ)) + damping • (1 : Matrix (Fin n) (Fin n) ℝ)

/-- `spring_update_fn` on one device; the Cholesky solve is the exact solution.
updates/spring.py:42-72 -/
noncomputable def springUpdate (damping mu momentum : ℝ) (J : Fin n → K → ℝ)
    (centeredEnergies : Fin n → ℝ) (prevGrad : K → ℝ) : K → ℝ :=
  let prevGradDecayed := fun k => mu * prevGrad k
  let epsilonBar := fun i => centeredEnergies i / Real.sqrt n
  let epsilonTilde := epsilonBar - (springO J).mulVec prevGradDecayed
  let dthetaResidual :=
    (springO J).transpose.mulVec ((springT damping J)⁻¹.mulVec epsilonTilde)
  let srG := dthetaResidual + prevGradDecayed
  fun k => (1 - momentum) * srG k + momentum * prevGrad k

/-! ### Learning-rate schedules -/

/-- `_get_learning_rate_schedule`.  updates/parse_config.py:37-59 -/
noncomputable def learningRateSchedule (scheduleType : String) (learningRate decayRate : ℝ) :
    Except String (ℕ → ℝ) :=
  if scheduleType = "constant" then .ok fun _ => learningRate
  else if scheduleType = "inverse_time" then
    .ok fun t => learningRate / (1 + decayRate * t)
  else .error "Learning rate schedule type not supported"

/-! ### Update functions on several devices -/

/-- What runs on all devices together: gradient, parameters, optimizer state, data and auxiliary
energy data of each device go to its new parameters and optimizer state. -/
abbrev OptimizerApply (D : ℕ) (K S Dat Aux : Type*) :=
  (Fin D → K → ℝ) → (Fin D → K → ℝ) → (Fin D → S) → (Fin D → Dat) → (Fin D → Aux) →
    Fin D → (K → ℝ) × S

/-- `optimizer_apply` of the Adam and SGD updates: an optax transformation, which is some function
of gradient, state and parameters, then `optax.apply_updates`.
updates/parse_config.py:317-321 -/
def optaxApply {S Dat Aux : Type*} (update : (K → ℝ) → S → (K → ℝ) → (K → ℝ) × S) :
    OptimizerApply D K S Dat Aux := fun grad params opt _ _ d =>
  let u := update (grad d) (opt d) (params d)
  (fun k => params d k + u.1 k, u.2)

/-- `optimizer_apply` of stochastic reconfiguration.  `jac` is the Jacobian of `log|psi|` at given
parameters and data; `stepCount` reads the step count from the optimizer state; `update` is the
optax transformation (of possibly nan gradients).  updates/parse_config.py:516-528 -/
noncomputable def srApply {S Dat Aux : Type*} (mode : SRMode) (damping : ℝ) (maxiter : Option ℕ)
    (normConstraint : ℝ) (schedule : ℕ → ℝ) (stepCount : S → ℕ)
    (jac : (K → ℝ) → Dat → Fin n → K → ℝ)
    (update : (K → XR) → S → (K → ℝ) → (K → ℝ) × S) : OptimizerApply D K S Dat Aux :=
  fun grad params opt data _ d =>
  let pre := preconditionGrad mode damping maxiter (fun d => jac (params d) (data d)) grad
  let lr := fun d => schedule (stepCount (opt d))
  let constrained := constrainNorm grad pre lr normConstraint
  let u := update (constrained d) (opt d) (params d)
  (fun k => params d k + u.1 k, u.2)

/-- A number which is known to be finite, read as a real number. -/
def toReal : XR → ℝ
  | .fin r => r
  | _ => 0

/-- State of `optax.sgd(momentum=0)`: the trace (the last gradient) and the step count. -/
structure SpringState (K : Type*) where
  trace : K → ℝ
  count : ℕ

/-- `optimizer_apply` of SPRING: `aux` is the centred local energies of the device's walkers.  The
optax step stores the gradient as trace and returns minus the learning rate times it.
`normConstraint` is `none` if `constrain_norm` is off.  Entries of constrained updates are finite
(`spring_constraint`), so they are read as real numbers with `toReal`.
updates/parse_config.py:592-619 -/
noncomputable def springApply {Dat : Type*} (damping mu momentum : ℝ)
    (normConstraint : Option ℝ) (schedule : ℕ → ℝ) (jac : (K → ℝ) → Dat → Fin n → K → ℝ) :
    OptimizerApply D K (SpringState K) Dat (Fin n → ℝ) :=
  fun _ params opt data aux d =>
  let grad := fun d => springUpdate damping mu momentum (jac (params d) (data d)) (aux d)
    (opt d).trace
  let updates := fun d k => -(schedule (opt d).count) * grad d k
  let constrained := match normConstraint with
    | none => updates
    | some c => fun d k => toReal (constrainNormSpring updates c d k)
  (fun k => params d k + constrained d k, ⟨grad d, (opt d).count + 1⟩)

/-- One parameter update on all devices: `update_param_fn` of
`create_grad_energy_update_param_fn` under pmap.  `valGrad` is the energy function, which may
communicate between devices; its gradients are averaged over the devices.  (Data and metrics are
not needed here.)  updates/params.py:103-128 -/
noncomputable def gradUpdate {S Dat Key Aux : Type*}
    (valGrad : (Fin D → K → ℝ) → (Fin D → Key) → (Fin D → Dat) → Fin D → Aux × (K → ℝ))
    (apply : OptimizerApply D K S Dat Aux) (params : Fin D → K → ℝ) (opt : Fin D → S)
    (data : Fin D → Dat) (keys : Fin D → Key) : (Fin D → K → ℝ) × (Fin D → S) :=
  let vg := valGrad params keys data
  let meanGrad := fun _ k => pmean fun d => (vg d).2 k
  let r := apply meanGrad params opt data fun d => (vg d).1
  (fun d => (r d).1, fun d => (r d).2)

/-- Any number of updates, with the data and keys which the walkers have at each of them. -/
noncomputable def gradUpdates {S Dat Key Aux : Type*}
    (valGrad : (Fin D → K → ℝ) → (Fin D → Key) → (Fin D → Dat) → Fin D → Aux × (K → ℝ))
    (apply : OptimizerApply D K S Dat Aux) :
    List ((Fin D → Dat) × (Fin D → Key)) → (Fin D → K → ℝ) → (Fin D → S) →
    (Fin D → K → ℝ) × (Fin D → S)
  | [], params, opt => (params, opt)
  | (data, keys) :: rest, params, opt =>
    let r := gradUpdate valGrad apply params opt data keys
    gradUpdates valGrad apply rest r.1 r.2

/-! ### Evaluation -/

/-- What a variable holding PRNG keys can be: a single key or an array of keys. -/
inductive Keys (κ : Type*)
  | single (k : κ)
  | batch (ks : List κ)

/-- `jax.random.split(key, num)`: raises a TypeError for an array of keys (jax 0.4.14). -/
def Keys.split {κ : Type*} (split : κ → ℕ → List κ) (num : ℕ) : Keys κ → Except String (List κ)
  | .single k => .ok (split k num)
  | .batch _ => .error "split accepts a single key, but was given a key array"

/-- `eval_update_param_fn`; `stats` computes the metrics from parameters, data and one key per
walker (or none).  updates/params.py:246-266 -/
def evalUpdate {P Dat S M κ : Type*} (split : κ → ℕ → List κ) (usePRNGKey : Bool)
    (nbatch : Dat → ℕ) (stats : P → Dat → Option (List κ) → M)
    (params : P) (data : Dat) (opt : S) (key : Keys κ) :
    Except String (P × Dat × S × M × Keys κ) :=
  if usePRNGKey then
    match key.split split (nbatch data) with
    | .ok ks => .ok (params, data, opt, stats params data (some ks), .batch ks)
    | .error e => .error e
  else .ok (params, data, opt, stats params data none, key)

/-- The epochs of `vmc_loop` without checkpointing, for functions which may raise.
train/vmc.py:104-126 -/
def evalEpochs {P Dat S M κ : Type*} (walker : P → Dat → Keys κ → Except String (Dat × Keys κ))
    (update : P → Dat → S → Keys κ → Except String (P × Dat × S × M × Keys κ)) :
    ℕ → P → Dat → S → Keys κ → Except String (P × Dat × S × Keys κ)
  | 0, params, data, opt, key => .ok (params, data, opt, key)
  | m + 1, params, data, opt, key =>
    match walker params data key with
    | .error e => .error e
    | .ok (data, key) =>
      match update params data opt key with
      | .error e => .error e
      | .ok (params, data, opt, _, key) => evalEpochs walker update m params data opt key

end Verif.Updates
