import Verif.Model.Updates

/-!
Model of the choice of optimizer in updates/parse_config.py and of the two optax optimizers it
uses, `optax.sgd` and `optax.adam` of optax 0.1.7 (a dependency, not in the repository).  KFAC's
step is a library call which is not modelled; only its selection is.
-/

namespace Verif.Updates

variable {K : Type*} {D n : ℕ}

/-! ### optax -/

/-- State of `optax.sgd`: the trace if there is momentum, and the step count of the schedule. -/
structure SgdState (K : Type*) where
  trace : Option (K → ℝ)
  count : ℕ

/-- `optax.sgd(...).init`: zero trace, count 0. -/
def sgdInit (momentum : Option ℝ) : SgdState K := ⟨momentum.map fun _ _ => 0, 0⟩

/-- `optax.sgd(learning_rate, momentum, nesterov).update`: `trace` if momentum is not None, then
`scale_by_schedule` with the step `-learning_rate(count)`. -/
def sgdUpdate (schedule : ℕ → ℝ) (momentum : Option ℝ) (nesterov : Bool) (g : K → ℝ)
    (s : SgdState K) (_params : K → ℝ) : (K → ℝ) × SgdState K :=
  match momentum, s.trace with
  | some m, some t =>
    let newTrace := fun k => g k + m * t k
    let u := if nesterov then fun k => g k + m * newTrace k else newTrace
    (fun k => -schedule s.count * u k, ⟨some newTrace, s.count + 1⟩)
  | _, t => (fun k => -schedule s.count * g k, ⟨t, s.count + 1⟩)

/-- State of `optax.adam`: first and second moments and step count of `scale_by_adam`, and the step
count of the schedule. -/
structure AdamState (K : Type*) where
  mu : K → ℝ
  nu : K → ℝ
  adamCount : ℕ
  count : ℕ

/-- `optax.adam(...).init`. -/
def adamInit : AdamState K := ⟨fun _ => 0, fun _ => 0, 0, 0⟩

/-- `optax.adam(learning_rate, b1, b2, eps, eps_root).update`: `scale_by_adam`, then
`scale_by_schedule`. -/
noncomputable def adamUpdate (schedule : ℕ → ℝ) (b1 b2 eps epsRoot : ℝ) (g : K → ℝ)
    (s : AdamState K) (_params : K → ℝ) : (K → ℝ) × AdamState K :=
  let mu := fun k => (1 - b1) * g k + b1 * s.mu k
  let nu := fun k => (1 - b2) * g k ^ 2 + b2 * s.nu k
  let countInc := s.adamCount + 1
  let muHat := fun k => mu k / (1 - b1 ^ countInc)
  let nuHat := fun k => nu k / (1 - b2 ^ countInc)
  let u := fun k => muHat k / (Real.sqrt (nuHat k + epsRoot) + eps)
  (fun k => -schedule s.count * u k, ⟨mu, nu, countInc, s.count + 1⟩)

/-! ### Configuration -/

/-- The entries every optimizer section has.  train/default_config.py:324-326 and likewise in the
other sections -/
structure ScheduleConfig where
  scheduleType : String
  learningRate : ℝ
  learningDecayRate : ℝ

/-- `optimizer.adam`.  train/default_config.py:328-336 -/
structure AdamConfig where
  rate : ScheduleConfig
  b1 : ℝ
  b2 : ℝ
  eps : ℝ
  epsRoot : ℝ

/-- `optimizer.sgd`.  train/default_config.py:337-343 -/
structure SgdConfig where
  rate : ScheduleConfig
  momentum : ℝ
  nesterov : Bool

/-- `optimizer.sr`.  train/default_config.py:344-353 -/
structure SrConfig where
  rate : ScheduleConfig
  damping : ℝ
  maxiter : ℤ
  descentType : String
  normConstraint : ℝ
  mode : String

/-- `optimizer.spring`.  train/default_config.py:354-365 -/
structure SpringConfig where
  rate : ScheduleConfig
  mu : ℝ
  momentum : ℝ
  damping : ℝ
  constrainNorm : Bool
  normConstraint : ℝ

/-- The part of `vmc_config` which selects the optimizer; of the KFAC section only the learning
rate is modelled.  train/default_config.py:313-366 -/
structure OptimizerConfig where
  optimizerType : String
  kfac : ScheduleConfig
  adam : AdamConfig
  sgd : SgdConfig
  sr : SrConfig
  spring : SpringConfig

/-- `vmc_config.optimizer[name]` as far as the schedule reads it; other names raise a KeyError. -/
def OptimizerConfig.rateSection (c : OptimizerConfig) (name : String) : Except String ScheduleConfig :=
  if name = "kfac" then .ok c.kfac
  else if name = "adam" then .ok c.adam.rate
  else if name = "sgd" then .ok c.sgd.rate
  else if name = "sr" then .ok c.sr.rate
  else if name = "spring" then .ok c.spring.rate
  else .error "KeyError"

/-- How a descent direction becomes an update: an optax optimizer with its parameters. -/
inductive Descent
  | sgd (schedule : ℕ → ℝ) (momentum : Option ℝ) (nesterov : Bool)
  | adam (schedule : ℕ → ℝ) (b1 b2 eps epsRoot : ℝ)

/-- The update rule which `get_update_fn_and_init_optimizer` builds. -/
inductive UpdateRule
  | kfac (schedule : ℕ → ℝ)
  | plain (descent : Descent)
  | sr (mode : SRMode) (damping : ℝ) (maxiter : Option ℕ) (normConstraint : ℝ)
      (schedule : ℕ → ℝ) (descent : Descent)
  | spring (damping mu momentum : ℝ) (normConstraint : Option ℝ) (schedule : ℕ → ℝ)

/-- `_get_adam_optax_optimizer`.  updates/parse_config.py:274-284 -/
def adamOptimizer (schedule : ℕ → ℝ) (c : AdamConfig) : Descent :=
  .adam schedule c.b1 c.b2 c.eps c.epsRoot

open Classical in
/-- `_get_sgd_optax_optimizer`: momentum 0 is passed on as None.
updates/parse_config.py:287-295 -/
noncomputable def sgdOptimizer (schedule : ℕ → ℝ) (c : SgdConfig) : Descent :=
  .sgd schedule (if c.momentum ≠ 0 then some c.momentum else none) c.nesterov

/-- `SRMode[name.upper()]` -/
def srModeOf (name : String) : Except String SRMode :=
  if name.toUpper = "LAZY" then .ok .lazy
  else if name.toUpper = "DEBUG" then .ok .debug
  else .error "KeyError"

/-- `get_sr_update_fn_and_state`, as far as the choices go.  The descent section
`vmc_config.optimizer[descent_type]` is looked up first.
updates/parse_config.py:152-167, 488-511 -/
noncomputable def srRule (schedule : ℕ → ℝ) (c : OptimizerConfig) : Except String UpdateRule := do
  let _ ← c.rateSection c.sr.descentType
  let maxiter := srMaxiter c.sr.maxiter
  let mode ← srModeOf c.sr.mode
  let descent ←
    if c.sr.descentType = "adam" then .ok (adamOptimizer schedule c.adam)
    else if c.sr.descentType = "sgd" then .ok (sgdOptimizer schedule c.sgd)
    else .error "Requested descent type not supported"
  .ok (.sr mode c.sr.damping maxiter c.sr.normConstraint schedule descent)

/-- `get_update_fn_and_init_optimizer`.  updates/parse_config.py:105-193 -/
noncomputable def getUpdateRule (c : OptimizerConfig) : Except String UpdateRule := do
  let sec ← c.rateSection c.optimizerType
  let schedule ← learningRateSchedule sec.scheduleType sec.learningRate sec.learningDecayRate
  if c.optimizerType = "kfac" then .ok (.kfac schedule)
  else if c.optimizerType = "sgd" then .ok (.plain (sgdOptimizer schedule c.sgd))
  else if c.optimizerType = "adam" then .ok (.plain (adamOptimizer schedule c.adam))
  else if c.optimizerType = "sr" then srRule schedule c
  else if c.optimizerType = "spring" then
    .ok (.spring c.spring.damping c.spring.mu c.spring.momentum
      (if c.spring.constrainNorm then some c.spring.normConstraint else none) schedule)
  else .error "Requested optimizer type not supported"

/-- State of either descent. -/
inductive DescentState (K : Type*)
  | sgd (s : SgdState K)
  | adam (s : AdamState K)

/-- `optimizer.init` -/
def Descent.init : Descent → DescentState K
  | .sgd _ m _ => .sgd (sgdInit m)
  | .adam .. => .adam adamInit

/-- `optimizer.update`; a state of the wrong kind does not occur and is left alone. -/
noncomputable def Descent.update : Descent → (K → ℝ) → DescentState K → (K → ℝ) →
    (K → ℝ) × DescentState K
  | .sgd sch m nest, g, .sgd s, p => let r := sgdUpdate sch m nest g s p; (r.1, .sgd r.2)
  | .adam sch b1 b2 e er, g, .adam s, p =>
    let r := adamUpdate sch b1 b2 e er g s p; (r.1, .adam r.2)
  | _, _, s, _ => (fun _ => 0, s)

/-- `get_optimizer_step_count`: `optimizer_state[1].count`, the count of the schedule.
updates/parse_config.py:513-514 -/
def DescentState.stepCount : DescentState K → ℕ
  | .sgd s => s.count
  | .adam s => s.count

/-- `optimizer_apply` of the rule for SGD, Adam.  updates/parse_config.py:317-321 -/
noncomputable def plainRuleApply {Dat Aux : Type*} (descent : Descent) :
    OptimizerApply D K (DescentState K) Dat Aux := optaxApply descent.update

/-- `optimizer_apply` of the rule for stochastic reconfiguration; constrained gradients are finite
numbers (`sr_norm_constraint`).  updates/parse_config.py:516-528 -/
noncomputable def srRuleApply [Fintype K] {Dat Aux : Type*} (mode : SRMode) (damping : ℝ)
    (maxiter : Option ℕ) (normConstraint : ℝ) (schedule : ℕ → ℝ) (descent : Descent)
    (jac : (K → ℝ) → Dat → Fin n → K → ℝ) : OptimizerApply D K (DescentState K) Dat Aux :=
  srApply mode damping maxiter normConstraint schedule DescentState.stepCount jac
    fun g s p => descent.update (fun k => toReal (g k)) s p

end Verif.Updates
