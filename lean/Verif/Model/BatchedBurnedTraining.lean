import Verif.Model.BatchedEvaluationDevices

/-!
Burning and training on several devices as array code.
-/

namespace Verif.Arrays
open Verif.MCMC Verif.Energy

variable {P O M K : Type}

/-- `_burn_and_run_vmc` for training on several devices, from the first epoch and without `skip_burn`; files and checkpoints are
not modelled here.  train/runners.py:525-578, 682-697 -/
noncomputable def burnAndTrainDevicesA
    (step : List P → List (PADataA M × K) → Except String (List (XR × PADataA M × K)))
    (epoch : List (TrainStateA P O M K) → Except String (List (TrainStateA P O M K) × TrainMetricsA)) (nburn nepochs : ℕ)
    (s : List (TrainStateA P O M K)) : Except String (List (TrainStateA P O M K) × List TrainMetricsA) := do
  let burned ← burnDevicesA step (s.map (·.params)) nburn (s.map fun s => (s.data, s.key))
  trainLoopDevicesA epoch nepochs ((s.zip burned).map fun sb => ⟨sb.1.params, sb.2.1, sb.1.optState, sb.2.2⟩)

end Verif.Arrays
