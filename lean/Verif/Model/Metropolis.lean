import Verif.Model.Checkpoint
import Mathlib.Algebra.BigOperators.Group.Finset.Basic
import Mathlib.Algebra.BigOperators.Ring.Finset
import Mathlib.Data.Fintype.BigOperators

/-!
Model of vmcnet/mcmc: acceptance rule, Metropolis step, walking, burning and the adaptive
step width.

Walkers are indexed by an arbitrary type `W`.  On one device `W` is the chain index; under
`pmap` it is (device, chain), `K` holds one key per device, `P` one copy of the parameters
per device and `M` one copy of the metadata per device.  All functions below act walker by
walker except the metadata update, which is an arbitrary function of all masks and so may
contain the `pmean` of the code.
-/

namespace Verif.MCMC

open Classical in
/-- `metropolis_symmetric_acceptance(..., logabs=False)`, vmcnet/mcmc/metropolis.py:276-286,
one walker. -/
noncomputable def acceptPlain (amplitude proposed : XR) : XR :=
  let probOld := amplitude * amplitude
  let probNew := proposed * proposed
  let ratio := probNew / probOld
  if XR.lt probOld probNew ∨ probOld = .fin 0 then .fin 1 else ratio

open Classical in
/-- `metropolis_symmetric_acceptance(..., logabs=True)`, vmcnet/mcmc/metropolis.py:288-295,
one walker. -/
noncomputable def acceptLog (amplitude proposed : XR) : XR :=
  let logOld := XR.fin 2 * amplitude
  let logNew := XR.fin 2 * proposed
  if XR.lt logOld logNew then .fin 1 else XR.exp (logNew - logOld)

/-- `metropolis_symmetric_acceptance`, vmcnet/mcmc/metropolis.py:246-295. -/
noncomputable def accept (logabs : Bool) (amplitude proposed : XR) : XR :=
  if logabs then acceptLog amplitude proposed else acceptPlain amplitude proposed

/-- `make_metropolis_step`, vmcnet/mcmc/metropolis.py:17-67.  `split` and `uniform` stand for
`jax.random`; `meanFn` is `jnp.mean` over the walkers of the acceptance values.  The mask is
`uniform(subkey) < accept_prob`, with the comparison of `XR` (false on nan). -/
noncomputable def metropolisStep {P D K W : Type} (split : K → K × K) (uniform : K → W → ℝ)
    (meanFn : (W → XR) → XR)
    (proposal : P → D → K → D × K) (acceptance : P → D → D → W → XR)
    (update : D → D → (W → Prop) → D) (params : P) (data : D) (key : K) : XR × D × K :=
  let ks := split key
  let subkey := ks.2
  let prop := proposal params data ks.1
  let acceptProb := acceptance params data prop.1
  let mask : W → Prop := fun w => XR.lt (.fin (uniform subkey w)) (acceptProb w)
  (meanFn acceptProb, update data prop.1 mask, prop.2)

/-- Body of the scan in `walk_data`, vmcnet/mcmc/metropolis.py:107-110. -/
noncomputable def walkBody {P D K : Type} (step : P → D → K → XR × D × K) (params : P)
    (carry : XR × D × K) : XR × D × K :=
  let r := step params carry.2.1 carry.2.2
  (carry.1 + r.1, r.2.1, r.2.2)

/-- `walk_data`, vmcnet/mcmc/metropolis.py:70-114 (`jax.lax.scan` is iteration). -/
noncomputable def walkData {P D K : Type} (nsteps : ℕ) (params : P) (data : D) (key : K)
    (step : P → D → K → XR × D × K) : XR × D × K :=
  let out := (walkBody step params)^[nsteps] (.fin 0, data, key)
  (out.1 / XR.ofNat nsteps, out.2.1, out.2.2)

/-- `burning_step` in `make_jitted_burning_step`, vmcnet/mcmc/metropolis.py:143-145. -/
noncomputable def burningStep {P D K : Type} (step : P → D → K → XR × D × K) (params : P)
    (data : D) (key : K) : D × K :=
  let r := step params data key
  (r.2.1, r.2.2)

/-- `burn_data`, vmcnet/mcmc/metropolis.py:201-226. -/
noncomputable def burnData {P D K : Type} (burn : P → D → K → D × K) (n : ℕ) (params : P)
    (data : D) (key : K) : D × K :=
  (fun dk : D × K => burn params dk.1 dk.2)^[n] (data, key)

/-- `PositionAmplitudeData`, vmcnet/mcmc/position_amplitude_core.py:16-66. -/
structure PAData (W X M : Type) where
  position : W → X
  amplitude : W → XR
  moveMetadata : M

section step

variable {P K W X M : Type} [AddCommGroup X] [Module ℝ X]

/-- `get_update_data_fn`, position_amplitude_core.py:105-118.  `psi params w` is the model
evaluated on one walker (`model_apply` acts on each walker separately). -/
def updateData (psi : P → W → X → XR) (data : PAData W X M) (params : P) : PAData W X M :=
  ⟨data.position, fun w => psi params w (data.position w), data.moveMetadata⟩

/-- `gaussian_proposal`, vmcnet/mcmc/metropolis.py:229-243. -/
noncomputable def gaussianProposal (split : K → K × K) (normal : K → W → X)
    (positions : W → X) (std : W → ℝ) (key : K) : (W → X) × K :=
  let ks := split key
  (fun w => positions w + std w • normal ks.2 w, ks.1)

/-- `make_position_amplitude_gaussian_proposal`, position_amplitude_core.py:139-175.
`getStd data w` is the step width on the device of walker `w`. -/
noncomputable def paProposal (split : K → K × K) (normal : K → W → X) (psi : P → W → X → XR)
    (getStd : PAData W X M → W → ℝ) (params : P) (data : PAData W X M) (key : K) :
    PAData W X M × K :=
  let pk := gaussianProposal split normal data.position (getStd data) key
  (⟨pk.1, fun w => psi params w (pk.1 w), data.moveMetadata⟩, pk.2)

/-- `make_position_amplitude_metropolis_symmetric_acceptance`,
position_amplitude_core.py:178-203. -/
noncomputable def paAcceptance (logabs : Bool) (_params : P) (data proposed : PAData W X M)
    (w : W) : XR :=
  accept logabs (data.amplitude w) (proposed.amplitude w)

open Classical in
/-- `make_position_amplitude_update`, position_amplitude_core.py:206-263. -/
noncomputable def paUpdate (updateMeta : Option (M → (W → Prop) → M))
    (data proposed : PAData W X M) (mask : W → Prop) : PAData W X M :=
  ⟨fun w => if mask w then proposed.position w else data.position w,
   fun w => if mask w then proposed.amplitude w else data.amplitude w,
   match updateMeta with
   | none => proposed.moveMetadata
   | some f => f data.moveMetadata mask⟩

/-- `make_position_amplitude_gaussian_metropolis_step`,
position_amplitude_core.py:266-298. -/
noncomputable def paStep (split : K → K × K) (uniform : K → W → ℝ) (normal : K → W → X)
    (meanFn : (W → XR) → XR) (psi : P → W → X → XR) (getStd : PAData W X M → W → ℝ)
    (updateMeta : Option (M → (W → Prop) → M)) (logabs : Bool) :
    P → PAData W X M → K → XR × PAData W X M × K :=
  metropolisStep split uniform meanFn (paProposal split normal psi getStd)
    (paAcceptance logabs) (paUpdate updateMeta)

end step

/-! ### Adaptive step width -/

/-- `MoveMetadata`, vmcnet/mcmc/dynamic_width_position_amplitude.py:17-34.  Real numbers
instead of `XR`: none of the operations below divides by zero. -/
structure MoveMetadata where
  stdMove : ℝ
  acceptanceSum : ℝ
  movesSinceUpdate : ℕ

open Classical in
/-- `make_threshold_adjust_std_move`, dynamic_width_position_amplitude.py:81-119. -/
noncomputable def thresholdAdjust (target threshold adjustment : ℝ) (oldStd avg : ℝ) : ℝ :=
  let s1 := if target + threshold < avg then oldStd * (1 + adjustment) else oldStd
  if avg < target - threshold then s1 * (1 - adjustment) else s1

/-- `update_move_metadata`, dynamic_width_position_amplitude.py:144-173, given the average
acceptance of the current move (`current_avg_acceptance`). -/
noncomputable def updateMoveMetadata (nmoves : ℕ) (adjust : ℝ → ℝ → ℝ) (md : MoveMetadata)
    (currentAvg : ℝ) : MoveMetadata :=
  let sum := md.acceptanceSum + currentAvg
  let moves := md.movesSinceUpdate + 1
  if nmoves ≤ moves then ⟨adjust md.stdMove (sum / moves), 0, 0⟩
  else ⟨md.stdMove, sum, moves⟩

open Classical in
/-- `mean_all_local_devices(current_move_mask)`, dynamic_width_position_amplitude.py:151 and
utils/distribute.py:63-65, for the walkers of one device: the fraction of accepted moves. -/
noncomputable def maskMean {W : Type} [Fintype W] (mask : W → Prop) : ℝ :=
  (∑ w, if mask w then (1 : ℝ) else 0) / Fintype.card W

/-- `make_dynamic_pos_amp_gaussian_step` on one device,
dynamic_width_position_amplitude.py:178-212. -/
noncomputable def dynamicStep {P K W X : Type} [Fintype W] [AddCommGroup X] [Module ℝ X]
    (split : K → K × K) (uniform : K → W → ℝ) (normal : K → W → X)
    (meanFn : (W → XR) → XR) (psi : P → W → X → XR) (nmoves : ℕ) (adjust : ℝ → ℝ → ℝ)
    (logabs : Bool) :
    P → PAData W X MoveMetadata → K → XR × PAData W X MoveMetadata × K :=
  paStep split uniform normal meanFn psi (fun d _ => d.moveMetadata.stdMove)
    (some fun md mask => updateMoveMetadata nmoves adjust md (maskMean mask)) logabs

/-- `make_dynamic_pos_amp_gaussian_step` under `pmap` over `nd` devices: every device keeps
its own metadata and width, and the average acceptance is the `pmean` over devices of the
per-device means (utils/distribute.py:60-65). -/
noncomputable def dynamicStepPmap {P K C X : Type} [Fintype C] {nd : ℕ} [AddCommGroup X]
    [Module ℝ X] (split : K → K × K) (uniform : K → Fin nd × C → ℝ)
    (normal : K → Fin nd × C → X) (meanFn : (Fin nd × C → XR) → XR)
    (psi : P → Fin nd × C → X → XR) (nmoves : ℕ) (adjust : ℝ → ℝ → ℝ) (logabs : Bool) :
    P → PAData (Fin nd × C) X (Fin nd → MoveMetadata) → K →
      XR × PAData (Fin nd × C) X (Fin nd → MoveMetadata) × K :=
  paStep split uniform normal meanFn psi (fun d w => (d.moveMetadata w.1).stdMove)
    (some fun md mask => fun dev => updateMoveMetadata nmoves adjust (md dev)
      ((∑ d : Fin nd, maskMean fun c => mask (d, c)) / nd)) logabs

/-! ### Walking inside the training loop -/

/-- `_make_initial_single_device_data` / `_make_initial_distributed_data`,
vmcnet/train/runners.py:140-173: amplitudes computed from the initial positions. -/
def initialData {P W X M : Type} (psi : P → W → X → XR) (initPos : W → X) (params : P)
    (metadata : M) : PAData W X M :=
  ⟨initPos, fun w => psi params w (initPos w), metadata⟩

/-- `update_param_fn` of `create_grad_energy_update_param_fn`, vmcnet/updates/params.py:
104-128, and of `create_kfac_update_param_fn`, params.py:176-207: some optimizer step on
(params, optimizer state), then `update_data_fn`.  `optStep` is arbitrary: it receives
params, data, optimizer state and the subkey, and returns new params, optimizer state and
the metrics. -/
def updateParamFn {P D S K : Type} (split : K → K × K) (optStep : P → D → S → K → P × S × Metrics)
    (updateDataFn : D → P → D) (params : P) (data : D) (opt : S) (key : K) :
    P × D × S × Option Metrics × K :=
  let ks := split key
  let r := optStep params data opt ks.2
  (r.1, updateDataFn data r.1, r.2.1, some r.2.2, ks.1)

/-- Walker and update functions assembled as in vmcnet/train/runners.py:201-219, 402-426. -/
noncomputable def trainFns {P S K W X M : Type} (nsteps : ℕ)
    (step : P → PAData W X M → K → XR × PAData W X M × K) (split : K → K × K)
    (optStep : P → PAData W X M → S → K → P × S × Metrics) (psi : P → W → X → XR) :
    LoopFns P (PAData W X M) S K where
  walker := fun p d k => walkData nsteps p d k step
  update := updateParamFn split optStep (updateData psi)

end Verif.MCMC
