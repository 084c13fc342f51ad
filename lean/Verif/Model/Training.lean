import Verif.Model.Energy
import Verif.Model.Optimizers

/-!
Model of the parameter updates of a training run from the configuration, on any number of devices:
`create_value_and_grad_energy_fn` (physics/core.py) inside `create_grad_energy_update_param_fn`
(updates/params.py) with the optimizer of the configuration (updates/parse_config.py).

Simplifications: gradients and centred energies are read as real numbers (`toReal`), i.e. they are
assumed to be finite.  KFAC, whose step is a library call, is not modelled.
-/

namespace Verif.Updates
open Energy

variable {K X : Type} {D n : ℕ}

/-- The entries of `config.vmc` which determine the parameter updates. -/
structure TrainingConfig where
  optimizer : OptimizerConfig
  energyType : EnergyType
  clipThreshold : ℝ
  clipCenter : Center
  nanSafe : Bool

/-- `energy_data_val_and_grad` on all devices, physics/core.py:258-407 with the clipping of
train/runners.py:312-322.  `X` is what the local energy of one walker depends on besides the
parameters: its position, and its key if the energy type is `random_particle`.  `nchains` is the
number of walkers on all devices, train/runners.py:345-356.  The result is, for each device, its
centred local energies and its gradient. -/
noncomputable def energyValGrad (c : TrainingConfig) (walker : (K → ℝ) → X → Walker K)
    (params : Fin D → K → ℝ) (_keys : Fin D → Unit) (data : Fin D → Fin n → X) (d : Fin D) :
    (Fin n → ℝ) × (K → ℝ) :=
  let devs := List.ofFn fun d => List.ofFn fun i => walker (params d) (data d i)
  let r := valueAndGrad c.energyType (D * n) (getClippingFn c.clipThreshold c.clipCenter)
    c.nanSafe devs
  (fun i => toReal ((r.2.1.centered.getD d []).getD i .nan),
   fun k => toReal (r.2.2.getD d (fun _ => .nan) k))

/-- The Jacobian of `log|psi|` used by stochastic reconfiguration and SPRING, updates/sr.py:84-92,
updates/spring.py:36-40. -/
noncomputable def walkerJac (walker : (K → ℝ) → X → Walker K) (p : K → ℝ) (data : Fin n → X)
    (i : Fin n) (k : K) : ℝ := toReal ((walker p (data i)).gradLogPsi k)

/-- Parameters on all devices after the updates with the given data, starting from replicated
parameters and a replicated new optimizer state (utils/distribute.py:32-38,
updates/parse_config.py:298-305).  `steps` is the data of all devices at each update. -/
noncomputable def trainParams [Fintype K] (c : TrainingConfig) (walker : (K → ℝ) → X → Walker K)
    (steps : List (Fin D → Fin n → X)) (params : K → ℝ) : Except String (Fin D → K → ℝ) := do
  let rule ← getUpdateRule c.optimizer
  let steps := steps.map fun x => (x, fun (_ : Fin D) => ())
  match rule with
  | .kfac _ => .error "not modelled"
  | .plain descent => .ok (gradUpdates (energyValGrad c walker) (plainRuleApply descent) steps
      (fun _ => params) fun _ => descent.init).1
  | .sr mode damping maxiter normConstraint schedule descent =>
    .ok (gradUpdates (energyValGrad c walker) (srRuleApply mode damping maxiter normConstraint
      schedule descent (walkerJac walker)) steps (fun _ => params) fun _ => descent.init).1
  | .spring damping mu momentum normConstraint schedule =>
    .ok (gradUpdates (energyValGrad c walker) (springApply damping mu momentum normConstraint
      schedule (walkerJac walker)) steps (fun _ => params) fun _ => ⟨fun _ => 0, 0⟩).1

end Verif.Updates
