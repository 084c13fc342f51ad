import Verif.Model.BatchedAdaptive
import Verif.Model.BatchedTraining

/-!
Training as array code on several devices.  Every device has its own copy of parameters and optimizer state.
-/

namespace Verif.Arrays
open Verif.MCMC Verif.Energy

variable {P O M K G : Type} [AddCommGroup G] [Module ℝ G]

/-- `update_param_fn` on several devices after the walk: estimate, average the gradients of the devices with
`pmean_if_pmap`, update.  `grad f params` is the gradient of `f`, and the optimizer is any function of averaged gradient,
parameters and state.  The metrics, which are equal on all devices, are those of the first.
updates/params.py:36-65, 103-128, physics/core.py:333-354 -/
noncomputable def updateParamDevicesA (grad : (P → Except String XR) → P → G)
    (split : K → K × K) (localEnergy logPsi : P → Arr ℝ → Except String (Arr XR))
    (nchains : ℕ) (clipping : Option (List XR → XR → List XR)) (nanSafe : Bool)
    (optimizer : G → P → O → P × O) (acceptRatio : XR) (s : List (TrainStateA P O M K)) :
    Except String (List (TrainStateA P O M K) × TrainMetricsA) := do
  let es ← s.mapM fun s => vmapA (localEnergy s.params) s.data.position
  let r := getClipped (es.map entriesA) nchains clipping nanSafe
  let grads := (s.zip r.2.1).map fun se =>
    grad (fun params => forwardA logPsi nchains nanSafe params se.1.data.position (centeredA se.2 r.1)) se.1.params
  let mean := (grads.length : ℝ)⁻¹ • grads.sum
  let new ← s.mapM fun s => do
    let po := optimizer mean s.params s.optState
    let data ← updateDataA logPsi s.data po.1
    return (⟨po.1, data, po.2, (split s.key).1⟩ : TrainStateA P O M K)
  return (new, ⟨r.1, r.2.2.variance, r.2.2.energyNoclip, r.2.2.varianceNoclip, acceptRatio⟩)

/-- The walk of all devices with steps of fixed width, which do not communicate.  mcmc/metropolis.py:181-198 -/
noncomputable def walkFixedA (step : P → PADataA M → K → Except String (XR × PADataA M × K)) (nsteps : ℕ)
    (params : List P) (data : List (PADataA M × K)) : Except String (XR × List (PADataA M × K)) := do
  let rs ← (params.zip data).mapM fun pdk => walkDataA step nsteps pdk.1 pdk.2.1 pdk.2.2
  return (pmean (rs.map (·.1)), rs.map (·.2))

/-- An epoch of training on several devices: walk, then update.  train/vmc.py:117-127 -/
noncomputable def trainEpochDevicesA
    (walk : List P → List (PADataA M × K) → Except String (XR × List (PADataA M × K)))
    (update : XR → List (TrainStateA P O M K) → Except String (List (TrainStateA P O M K) × TrainMetricsA))
    (s : List (TrainStateA P O M K)) : Except String (List (TrainStateA P O M K) × TrainMetricsA) := do
  let walked ← walk (s.map (·.params)) (s.map fun s => (s.data, s.key))
  update walked.1 ((s.zip walked.2).map fun sw => ⟨sw.1.params, sw.2.1, sw.1.optState, sw.2.2⟩)

/-- The epochs of `vmc_loop` on several devices, without checkpoints and without the check for nans.
train/vmc.py:106-127 -/
noncomputable def trainLoopDevicesA
    (epoch : List (TrainStateA P O M K) → Except String (List (TrainStateA P O M K) × TrainMetricsA)) :
    ℕ → List (TrainStateA P O M K) → Except String (List (TrainStateA P O M K) × List TrainMetricsA)
  | 0, s => .ok (s, [])
  | k + 1, s => do
    let r ← epoch s
    let rest ← trainLoopDevicesA epoch k r.1
    return (rest.1, r.2 :: rest.2)

end Verif.Arrays
