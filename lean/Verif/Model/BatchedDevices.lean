import Verif.Model.BatchedEpoch

/-!
Array code on several devices: the walkers are distributed, walk on each device, and energies and gradients are
averaged over the devices.  An array with a leading axis of devices is the list of its slices.
-/

namespace Verif.Arrays
open Verif.MCMC Verif.Energy

variable {P K M : Type}

/-- `reshape_data_leaves_for_distribution`.  utils/distribute.py:105-116 -/
noncomputable def distributeA {α : Type} [Inhabited α] (ndev : ℕ) (x : Arr α) : Except String (List (Arr α)) :=
  let w := x.shape.getLastD 0
  if w % ndev ≠ 0 then .error "Number of chains must be divisible by number of devices"
  else .ok ((List.range ndev).map fun i =>
    .of (x.shape.dropLast ++ [w / ndev]) fun j => x.get (j.dropLast ++ [i * (w / ndev) + j.getLastD 0]))

/-- `distribute_data` of position amplitude data: positions and amplitudes are split, the metadata is replicated.
mcmc/position_amplitude_core.py:121-136 -/
noncomputable def distributeDataA (ndev : ℕ) (data : PADataA M) : Except String (List (PADataA M)) := do
  let positions ← distributeA ndev data.position
  let amplitudes ← distributeA ndev data.amplitude
  return (positions.zip amplitudes).map fun xa => ⟨xa.1, xa.2, data.moveMetadata⟩

/-- `make_jitted_walker_fn` with `jax.pmap`: each device walks with its own key, then the acceptance ratios are
averaged.  The step does not communicate between devices (steps with adaptive width do).
mcmc/metropolis.py:181-198 -/
noncomputable def walkDevicesA (step : P → PADataA M → K → Except String (XR × PADataA M × K)) (nsteps : ℕ)
    (params : P) (data : List (PADataA M)) (keys : List K) : Except String (XR × List (PADataA M × K)) := do
  let rs ← (data.zip keys).mapM fun dk => walkDataA step nsteps params dk.1 dk.2
  return (pmean (rs.map (·.1)), rs.map (·.2))

/-- An epoch of an evaluation on several devices.  train/vmc.py:117-121, updates/params.py:246-275 -/
noncomputable def evalEpochDevicesA (step : P → PADataA M → K → Except String (XR × PADataA M × K)) (nsteps : ℕ)
    (localEnergy : P → Arr ℝ → Except String (Arr XR)) (nchains : ℕ) (nanSafe : Bool) (params : P)
    (data : List (PADataA M)) (keys : List K) :
    Except String (P × List (PADataA M) × (XR × XR)) := do
  let walked ← walkDevicesA step nsteps params data keys
  let es ← walked.2.mapM fun r => vmapA (localEnergy params) r.1.position
  return (params, walked.2.map (·.1), getStatistics (es.map entriesA) nchains nanSafe)

/-- `standard_energy_val_and_grad` on several devices: energy, auxiliary data, and for each device the function of the
parameters whose derivative is the gradient of this device; the transpose of `pmean` adds up to 1, so that it is the
mean over the walkers of this device.  physics/core.py:333-354 -/
noncomputable def valueAndForwardDevicesA (localEnergy logPsi : P → Arr ℝ → Except String (Arr XR)) (nchains : ℕ)
    (clipping : Option (List XR → XR → List XR)) (nanSafe : Bool) (params : P) (positions : List (Arr ℝ)) :
    Except String (XR × Aux × List (P → Except String XR)) := do
  let es ← positions.mapM fun x => vmapA (localEnergy params) x
  let r := getClipped (es.map entriesA) nchains clipping nanSafe
  return (r.1, r.2.2, (positions.zip r.2.1).map fun xe params' =>
    forwardA logPsi nchains nanSafe params' xe.1 (centeredA xe.2 r.1))

end Verif.Arrays
