import Verif.Model.BatchedEpoch

/-!
Training as array code on one device: epochs of walking, estimating and updating parameters and amplitudes.
-/

namespace Verif.Arrays
open Verif.MCMC Verif.Energy

variable {P O M K : Type}

/-- What an epoch of `vmc_loop` takes over to the next one.  train/vmc.py:101-121 -/
structure TrainStateA (P O M K : Type) where
  params : P
  data : PADataA M
  optState : O
  key : K

/-- The metrics of an epoch of training.  updates/params.py:120-127, train/vmc.py:127 -/
structure TrainMetricsA where
  energy : XR
  variance : XR
  energyNoclip : XR
  varianceNoclip : XR
  acceptRatio : XR

/-- `update_param_fn` of `create_grad_energy_update_param_fn` for the standard local energy, which does not use the
subkey.  The optimizer is any function of the function which is differentiated, and thereby of the gradient, of
parameters, state, data and centered local energies.
updates/params.py:103-128 -/
noncomputable def updateParamA (split : K → K × K) (localEnergy logPsi : P → Arr ℝ → Except String (Arr XR))
    (nchains : ℕ) (clipping : Option (List XR → XR → List XR)) (nanSafe : Bool)
    (optimizer : (P → Except String XR) → P → O → PADataA M → List (List XR) → P × O)
    (acceptRatio : XR) (s : TrainStateA P O M K) : Except String (TrainStateA P O M K × TrainMetricsA) := do
  let r ← valueAndForwardA localEnergy logPsi nchains clipping nanSafe s.params s.data.position
  let po := optimizer r.2.2 s.params s.optState s.data r.2.1.centered
  let data ← updateDataA logPsi s.data po.1
  return (⟨po.1, data, po.2, (split s.key).1⟩,
    ⟨r.1, r.2.1.variance, r.2.1.energyNoclip, r.2.1.varianceNoclip, acceptRatio⟩)

/-- An epoch of training: walk, then update.  train/vmc.py:117-127 -/
noncomputable def trainEpochA (step : P → PADataA M → K → Except String (XR × PADataA M × K)) (nsteps : ℕ)
    (split : K → K × K) (localEnergy logPsi : P → Arr ℝ → Except String (Arr XR))
    (nchains : ℕ) (clipping : Option (List XR → XR → List XR)) (nanSafe : Bool)
    (optimizer : (P → Except String XR) → P → O → PADataA M → List (List XR) → P × O)
    (s : TrainStateA P O M K) : Except String (TrainStateA P O M K × TrainMetricsA) := do
  let walked ← walkDataA step nsteps s.params s.data s.key
  updateParamA split localEnergy logPsi nchains clipping nanSafe optimizer walked.1
    ⟨s.params, walked.2.1, s.optState, walked.2.2⟩

/-- The epochs of `vmc_loop`, without checkpoints and without the check for nans; returns the metrics of all epochs.
train/vmc.py:106-127 -/
noncomputable def trainLoopA (epoch : TrainStateA P O M K → Except String (TrainStateA P O M K × TrainMetricsA)) :
    ℕ → TrainStateA P O M K → Except String (TrainStateA P O M K × List TrainMetricsA)
  | 0, s => .ok (s, [])
  | k + 1, s => do
    let r ← epoch s
    let rest ← trainLoopA epoch k r.1
    return (rest.1, r.2 :: rest.2)

/-- Training from the first positions on: amplitudes, burning, epochs.
train/runners.py:163-177, 556-567 -/
noncomputable def trainA (step : P → PADataA M → K → Except String (XR × PADataA M × K)) (nburn nsteps : ℕ)
    (split : K → K × K) (localEnergy logPsi : P → Arr ℝ → Except String (Arr XR))
    (nchains : ℕ) (clipping : Option (List XR → XR → List XR)) (nanSafe : Bool)
    (optimizer : (P → Except String XR) → P → O → PADataA M → List (List XR) → P × O)
    (nepochs : ℕ) (params : P) (positions : Arr ℝ) (md : M) (optState : O) (key : K) :
    Except String (TrainStateA P O M K × List TrainMetricsA) := do
  let amplitude ← logPsi params positions
  let burned ← burnDataA step params nburn (⟨positions, amplitude, md⟩, key)
  trainLoopA (trainEpochA step nsteps split localEnergy logPsi nchains clipping nanSafe optimizer) nepochs
    ⟨params, burned.1, optState, burned.2⟩

end Verif.Arrays
