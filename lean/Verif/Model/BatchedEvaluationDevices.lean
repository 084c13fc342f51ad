import Verif.Model.BatchedTrainingDevices

/-!
Burning and evaluating on several devices as array code, with steps which may communicate.
-/

namespace Verif.Arrays
open Verif.MCMC Verif.Energy

variable {P M K : Type}

/-- `burn_data` with the burning step of `make_jitted_burning_step` under `jax.pmap`.
mcmc/metropolis.py:143-150, 201-226 -/
noncomputable def burnDevicesA
    (step : List P → List (PADataA M × K) → Except String (List (XR × PADataA M × K))) (params : List P) :
    ℕ → List (PADataA M × K) → Except String (List (PADataA M × K))
  | 0, data => .ok data
  | k + 1, data => do
    let r ← step params data
    burnDevicesA step params k (r.map (·.2))

/-- An epoch of an evaluation on several devices: walk, then evaluate the local energies, which do not use the key.  New
data and keys, and energy, variance and acceptance ratio.  train/vmc.py:117-127, updates/params.py:246-275 -/
noncomputable def evalEpochWalkA
    (walk : List P → List (PADataA M × K) → Except String (XR × List (PADataA M × K)))
    (localEnergy : P → Arr ℝ → Except String (Arr XR)) (nchains : ℕ) (nanSafe : Bool) (params : List P)
    (data : List (PADataA M × K)) : Except String (List (PADataA M × K) × (XR × XR) × XR) := do
  let walked ← walk params data
  let es ← (params.zip walked.2).mapM fun pd => vmapA (localEnergy pd.1) pd.2.1.position
  return (walked.2, getStatistics (es.map entriesA) nchains nanSafe, walked.1)

/-- The epochs of `vmc_loop` in an evaluation; the parameters stay the same.  train/vmc.py:106-127 -/
noncomputable def evalLoopDevicesA
    (epoch : List (PADataA M × K) → Except String (List (PADataA M × K) × (XR × XR) × XR)) :
    ℕ → List (PADataA M × K) → Except String (List (PADataA M × K) × List ((XR × XR) × XR))
  | 0, data => .ok (data, [])
  | k + 1, data => do
    let r ← epoch data
    let rest ← evalLoopDevicesA epoch k r.1
    return (rest.1, r.2 :: rest.2)

/-- `_burn_and_run_vmc` for an evaluation on several devices.  train/runners.py:525-578, 735-748 -/
noncomputable def evaluateDevicesA
    (step : List P → List (PADataA M × K) → Except String (List (XR × PADataA M × K)))
    (walk : List P → List (PADataA M × K) → Except String (XR × List (PADataA M × K)))
    (localEnergy : P → Arr ℝ → Except String (Arr XR)) (nchains : ℕ) (nanSafe : Bool) (nburn nepochs : ℕ)
    (params : List P) (data : List (PADataA M × K)) :
    Except String (List (PADataA M × K) × List ((XR × XR) × XR)) := do
  let burned ← burnDevicesA step params nburn data
  evalLoopDevicesA (evalEpochWalkA walk localEnergy nchains nanSafe params) nepochs burned

end Verif.Arrays
