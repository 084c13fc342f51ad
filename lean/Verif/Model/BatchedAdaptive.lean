import Verif.Model.BatchedDevices

/-!
Walks with adaptive step width on several devices, as array code.  The devices communicate: the average acceptance of a
move is one over the walkers of all devices.
-/

namespace Verif.Arrays
open Verif.MCMC Verif.Energy

variable {P K : Type}

/-- What a device has computed of a Metropolis step before the data is updated. -/
structure Move (M K : Type) where
  accept : Arr XR
  proposed : PADataA M
  mask : Arr Bool
  key : K

/-- Proposal, acceptance and mask in `make_metropolis_step`.  mcmc/metropolis.py:49-61 -/
noncomputable def moveA {M : Type} (split : K → K × K) (uniform : K → List ℕ → Arr ℝ) (normal : K → List ℕ → Arr ℝ)
    (modelApply : P → Arr ℝ → Except String (Arr XR)) (getStd : PADataA M → ℝ) (logabs : Bool) (params : P)
    (data : PADataA M) (key : K) : Except String (Move M K) := do
  let ks := split key
  let prop ← paProposalA split normal modelApply getStd params data ks.1
  let acceptProb ← acceptanceA logabs data.amplitude prop.1.amplitude
  let mask ← maskA (uniform ks.2 acceptProb.shape) acceptProb
  return ⟨acceptProb, prop.1, mask, prop.2⟩

/-- `make_dynamic_pos_amp_gaussian_step` under `jax.pmap`: `mean_all_local_devices(current_move_mask)` is the `pmean` of
the means of the masks of the devices.  Every device has its own copy of the
parameters.  For each device its mean acceptance, new data and new key.
mcmc/metropolis.py:49-67, mcmc/dynamic_width_position_amplitude.py:144-173, 178-212 -/
noncomputable def dynamicStepDevicesA (split : K → K × K) (uniform : K → List ℕ → Arr ℝ)
    (normal : K → List ℕ → Arr ℝ) (meanFn : Arr XR → XR) (modelApply : P → Arr ℝ → Except String (Arr XR))
    (nmoves : ℕ) (adjust : ℝ → ℝ → ℝ) (logabs : Bool) (params : List P) (data : List (PADataA MoveMetadata × K)) :
    Except String (List (XR × PADataA MoveMetadata × K)) := do
  let moves ← (params.zip data).mapM fun pdk =>
    moveA split uniform normal modelApply (fun data => data.moveMetadata.stdMove) logabs pdk.1 pdk.2.1 pdk.2.2
  let average := (moves.map fun mv => maskMeanA mv.mask).sum / moves.length
  (data.zip moves).mapM fun dm => do
    let new ← paUpdateA (some fun md _ => updateMoveMetadata nmoves adjust md average) dm.1.1 dm.2.proposed dm.2.mask
    return (meanFn dm.2.accept, new, dm.2.key)

/-- The scan in `walk_data` on all devices, for the steps which are left.  mcmc/metropolis.py:107-112 -/
noncomputable def walkLoopDevicesA
    (step : List P → List (PADataA MoveMetadata × K) → Except String (List (XR × PADataA MoveMetadata × K)))
    (params : List P) :
    ℕ → List (XR × PADataA MoveMetadata × K) → Except String (List (XR × PADataA MoveMetadata × K))
  | 0, carry => .ok carry
  | k + 1, carry => do
    let r ← step params (carry.map (·.2))
    walkLoopDevicesA step params k ((carry.zip r).map fun cr => (cr.1.1 + cr.2.1, cr.2.2.1, cr.2.2.2))

/-- `make_jitted_walker_fn` with `jax.pmap`, for steps which communicate.  mcmc/metropolis.py:70-114, 181-198 -/
noncomputable def walkDynamicDevicesA
    (step : List P → List (PADataA MoveMetadata × K) → Except String (List (XR × PADataA MoveMetadata × K))) (nsteps : ℕ)
    (params : List P) (data : List (PADataA MoveMetadata × K)) :
    Except String (XR × List (PADataA MoveMetadata × K)) := do
  let out ← walkLoopDevicesA step params nsteps (data.map fun dk => (.fin 0, dk.1, dk.2))
  return (pmean (out.map fun r => r.1 / XR.ofNat nsteps), out.map (·.2))

end Verif.Arrays
