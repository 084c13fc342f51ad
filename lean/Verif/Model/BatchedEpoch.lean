import Verif.Model.BatchedSampling
import Verif.Model.BatchedEnergy
import Verif.Model.Energy

/-!
An epoch of an evaluation, and the estimates of an epoch of training, as array code on one device: the walk, the
local energies of all walkers, their statistics, and the function whose derivative is the gradient.
-/

namespace Verif.Arrays
open Verif.MCMC Verif.Energy

variable {P K M : Type}

/-- The entries of an array with one axis. -/
noncomputable def entriesA {α : Type} [Inhabited α] (a : Arr α) : List α :=
  (List.range (a.shape.getLastD 0)).map fun t => a.get [t]

/-- `eval_update_param_fn` for the standard local energy; returns the parameters, the data, energy and variance,
and the local energies if they are recorded.  updates/params.py:246-268 -/
noncomputable def evalUpdateA (localEnergy : P → Arr ℝ → Except String (Arr XR)) (nchains : ℕ)
    (nanSafe record : Bool) (params : P) (data : PADataA M) :
    Except String (P × PADataA M × (XR × XR) × Option (Arr XR)) := do
  let es ← vmapA (localEnergy params) data.position
  return (params, data, getStatistics [entriesA es] nchains nanSafe, if record then some es else none)

/-- An epoch of an evaluation: walk, then evaluate.  train/vmc.py:117-121, train/runners.py:446-483 -/
noncomputable def evalEpochA (step : P → PADataA M → K → Except String (XR × PADataA M × K)) (nsteps : ℕ)
    (localEnergy : P → Arr ℝ → Except String (Arr XR)) (nchains : ℕ) (nanSafe record : Bool) (params : P)
    (data : PADataA M) (key : K) : Except String (P × PADataA M × (XR × XR) × Option (Arr XR)) := do
  let walked ← walkDataA step nsteps params data key
  evalUpdateA localEnergy nchains nanSafe record params walked.2.1

/-- `standard_estimator_forward`.  physics/core.py:316-331 -/
noncomputable def forwardA (logPsi : P → Arr ℝ → Except String (Arr XR)) (nchains : ℕ) (nanSafe : Bool)
    (params : P) (positions : Arr ℝ) (centered : Arr XR) : Except String XR := do
  let l ← logPsi params positions
  let products ← centered.zip (· * ·) l
  return gradFactor nchains * allreduceMean nanSafe [entriesA products]

/-- `local_energies - energy` with the energies after clipping.  physics/core.py:337 -/
noncomputable def centeredA (es : List XR) (energy : XR) : Arr XR :=
  A1 fun t : Fin es.length => es.get t - energy

/-- `standard_energy_val_and_grad`: energy, auxiliary data, and the function of the parameters which `jax.grad`
differentiates.  physics/core.py:333-354 -/
noncomputable def valueAndForwardA (localEnergy logPsi : P → Arr ℝ → Except String (Arr XR)) (nchains : ℕ)
    (clipping : Option (List XR → XR → List XR)) (nanSafe : Bool) (params : P) (positions : Arr ℝ) :
    Except String (XR × Aux × (P → Except String XR)) := do
  let es ← vmapA (localEnergy params) positions
  let r := getClipped [entriesA es] nchains clipping nanSafe
  return (r.1, r.2.2, fun params' =>
    forwardA logPsi nchains nanSafe params' positions (centeredA r.2.1.flatten r.1))

/-- The number which `jax.grad` differentiates.  Simplification as for `scalarOf`. -/
noncomputable def numberOf : Except String XR → ℝ
  | .ok (.fin r) => r
  | _ => 0

end Verif.Arrays
