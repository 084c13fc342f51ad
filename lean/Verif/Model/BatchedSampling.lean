import Verif.Model.Arrays
import Verif.Model.Metropolis
import Verif.Model.BatchedPotential

/-!
The Metropolis step and walks as array code: the walkers are the first axis of the arrays of positions and
amplitudes.  `Model/Metropolis.lean` has the same functions walker by walker.  One device; `jax.random` is any
function of the key and the shape which returns arrays of that shape.
-/

namespace Verif.Arrays
open Verif.MCMC

/-- `PositionAmplitudeData`.  mcmc/position_amplitude_core.py:16-66 -/
structure PADataA (M : Type) where
  position : Arr ℝ
  amplitude : Arr XR
  moveMetadata : M

variable {P K M : Type}

/-- `get_update_data_fn`.  mcmc/position_amplitude_core.py:105-118 -/
noncomputable def updateDataA (modelApply : P → Arr ℝ → Except String (Arr XR)) (data : PADataA M) (params : P) :
    Except String (PADataA M) := do
  let amplitude ← modelApply params data.position
  return ⟨data.position, amplitude, data.moveMetadata⟩

/-- `gaussian_proposal`.  mcmc/metropolis.py:229-243 -/
noncomputable def gaussianProposalA (split : K → K × K) (normal : K → List ℕ → Arr ℝ) (positions : Arr ℝ)
    (std : ℝ) (key : K) : Except String (Arr ℝ × K) := do
  let ks := split key
  let moved ← positions.zip (· + ·) ((normal ks.2 positions.shape).map (std * ·))
  return (moved, ks.1)

/-- `make_position_amplitude_gaussian_proposal`.  mcmc/position_amplitude_core.py:139-175 -/
noncomputable def paProposalA (split : K → K × K) (normal : K → List ℕ → Arr ℝ)
    (modelApply : P → Arr ℝ → Except String (Arr XR)) (getStd : PADataA M → ℝ) (params : P) (data : PADataA M)
    (key : K) : Except String (PADataA M × K) := do
  let pk ← gaussianProposalA split normal data.position (getStd data) key
  let amplitude ← modelApply params pk.1
  return (⟨pk.1, amplitude, data.moveMetadata⟩, pk.2)

/-- `metropolis_symmetric_acceptance`, elementwise.  mcmc/metropolis.py:276-295 -/
noncomputable def acceptanceA (logabs : Bool) (amplitude proposed : Arr XR) : Except String (Arr XR) :=
  amplitude.zip (accept logabs) proposed

open Classical in
/-- `jax.random.uniform(subkey, shape=accept_prob.shape) < accept_prob`.  mcmc/metropolis.py:58-61 -/
noncomputable def maskA (uniform : Arr ℝ) (acceptProb : Arr XR) : Except String (Arr Bool) :=
  uniform.zip (fun u a => decide (XR.lt (.fin u) a)) acceptProb

/-- `jnp.reshape(move_mask, (-1, 1, ..., 1))` to `ndim` axes.  Masks have one axis.
mcmc/position_amplitude_core.py:246 -/
noncomputable def shapedMask (ndim : ℕ) (mask : Arr Bool) : Except String (Arr Bool) :=
  match mask.shape with
  | [w] => .ok (.of (List.replicate (ndim - 1) 1 ++ [w]) fun i => mask.get [i.getLastD 0])
  | _ => .error "masks have one axis"

/-- `jnp.where` -/
noncomputable def whereA {α : Type} [Inhabited α] (condition : Arr Bool) (x y : Arr α) :
    Except String (Arr α) := do
  let chosen ← condition.zip Prod.mk x
  chosen.zip (fun cx y => if cx.1 then cx.2 else y) y

/-- `mask_on_first_dimension`.  mcmc/position_amplitude_core.py:245-247 -/
noncomputable def maskOnFirst {α : Type} [Inhabited α] (mask : Arr Bool) (old proposal : Arr α) :
    Except String (Arr α) := do
  let shaped ← shapedMask old.shape.length mask
  whereA shaped proposal old

/-- `make_position_amplitude_update`.  mcmc/position_amplitude_core.py:206-263 -/
noncomputable def paUpdateA (updateMeta : Option (M → Arr Bool → M)) (data proposed : PADataA M)
    (mask : Arr Bool) : Except String (PADataA M) := do
  let position ← maskOnFirst mask data.position proposed.position
  let amplitude ← maskOnFirst mask data.amplitude proposed.amplitude
  return ⟨position, amplitude,
    match updateMeta with
    | none => proposed.moveMetadata
    | some f => f data.moveMetadata mask⟩

/-- `make_metropolis_step` with the functions of `make_position_amplitude_gaussian_metropolis_step`.
mcmc/metropolis.py:49-67, mcmc/position_amplitude_core.py:266-298 -/
noncomputable def paStepA (split : K → K × K) (uniform : K → List ℕ → Arr ℝ) (normal : K → List ℕ → Arr ℝ)
    (meanFn : Arr XR → XR) (modelApply : P → Arr ℝ → Except String (Arr XR)) (getStd : PADataA M → ℝ)
    (updateMeta : Option (M → Arr Bool → M)) (logabs : Bool) (params : P) (data : PADataA M) (key : K) :
    Except String (XR × PADataA M × K) := do
  let ks := split key
  let prop ← paProposalA split normal modelApply getStd params data ks.1
  let acceptProb ← acceptanceA logabs data.amplitude prop.1.amplitude
  let mask ← maskA (uniform ks.2 acceptProb.shape) acceptProb
  let new ← paUpdateA updateMeta data prop.1 mask
  return (meanFn acceptProb, new, prop.2)

/-- The scan in `walk_data`, for the steps which are left.  mcmc/metropolis.py:107-112 -/
noncomputable def walkLoopA (step : P → PADataA M → K → Except String (XR × PADataA M × K)) (params : P) :
    ℕ → XR × PADataA M × K → Except String (XR × PADataA M × K)
  | 0, carry => .ok carry
  | k + 1, carry => do
    let r ← step params carry.2.1 carry.2.2
    walkLoopA step params k (carry.1 + r.1, r.2.1, r.2.2)

/-- `walk_data`.  mcmc/metropolis.py:70-114 -/
noncomputable def walkDataA (step : P → PADataA M → K → Except String (XR × PADataA M × K)) (nsteps : ℕ)
    (params : P) (data : PADataA M) (key : K) : Except String (XR × PADataA M × K) := do
  let out ← walkLoopA step params nsteps (.fin 0, data, key)
  return (out.1 / XR.ofNat nsteps, out.2.1, out.2.2)

/-- `burn_data` with the burning step of `make_jitted_burning_step`.  mcmc/metropolis.py:143-145, 201-226 -/
noncomputable def burnDataA (step : P → PADataA M → K → Except String (XR × PADataA M × K)) (params : P) :
    ℕ → PADataA M × K → Except String (PADataA M × K)
  | 0, dk => .ok dk
  | k + 1, dk => do
    let r ← step params dk.1 dk.2
    burnDataA step params k (r.2.1, r.2.2)

/-- `jnp.mean` of a mask.  utils/distribute.py:63-65 -/
noncomputable def maskMeanA (mask : Arr Bool) : ℝ :=
  (mask.reduceFront (β := ℝ) fun l => (l.map fun b : Bool => if b then (1 : ℝ) else 0).sum / l.length).get []

/-- `make_dynamic_pos_amp_gaussian_step`.  mcmc/dynamic_width_position_amplitude.py:178-212 -/
noncomputable def dynamicStepA (split : K → K × K) (uniform : K → List ℕ → Arr ℝ)
    (normal : K → List ℕ → Arr ℝ) (meanFn : Arr XR → XR) (modelApply : P → Arr ℝ → Except String (Arr XR))
    (nmoves : ℕ) (adjust : ℝ → ℝ → ℝ) (logabs : Bool) :
    P → PADataA MoveMetadata → K → Except String (XR × PADataA MoveMetadata × K) :=
  paStepA split uniform normal meanFn modelApply (fun data => data.moveMetadata.stdMove)
    (some fun md mask => updateMoveMetadata nmoves adjust md (maskMeanA mask)) logabs

end Verif.Arrays
