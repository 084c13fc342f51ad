import Verif.Model.Training
import Verif.Model.Metropolis

/-!
Model of the metrics of a training run, on any number of devices: the acceptance ratio of
`make_jitted_walker_fn` (mcmc/metropolis.py), the metrics of `create_grad_energy_update_param_fn`
(updates/params.py), their completion in `vmc_loop` (train/vmc.py, utils/checkpoint.py) and the
text files written by `MetricsWriter` (utils/checkpoint.py).

Running without pmap is the case of one device.  Simplifications: the order in which files are
written within one epoch and the threads are left out (see `Model/ThreadedWriter.lean`); the run is
not ended by nans (see `Model/Checkpoint.lean`).
-/

namespace Verif.Records
open Energy Updates

variable {K X Dat Key S : Type} {D n : ℕ}

/-- A Python dictionary from names to numbers. -/
abbrev Dict := List (String × XR)

/-- `d[name] = value`, and `d.update({name: value})`. -/
def Dict.set (d : Dict) (name : String) (value : XR) : Dict :=
  if d.any fun e => e.1 = name then d.map fun e => if e.1 = name then (name, value) else e
  else d ++ [(name, value)]

/-- `_update_metrics_with_noclip`, updates/params.py:30-37. -/
def updateMetricsWithNoclip (energyNoclip varianceNoclip : Option XR) (metrics : Dict) : Dict :=
  let metrics := match energyNoclip with
    | some e => metrics.set "energy_noclip" e
    | none => metrics
  match varianceNoclip with
    | some v => metrics.set "variance_noclip" v
    | none => metrics

/-- `tree_reduce_l1` of the parameters, utils/pytree_helpers.py:44-47. -/
noncomputable def treeReduceL1 [Fintype K] (p : K → ℝ) : XR := .fin (∑ k, |p k|)

/-- The metrics of `update_param_fn` on device `d`, updates/params.py:103-128.  `params` are the
parameters before the update, `newParams` those after it. -/
noncomputable def updateMetrics [Fintype K] (c : TrainingConfig) (recordL1 : Bool)
    (walker : (K → ℝ) → X → Walker K) (params newParams : Fin D → K → ℝ)
    (data : Fin D → Fin n → X) (d : Fin D) : Dict :=
  let r := valueAndGrad c.energyType (D * n) (getClippingFn c.clipThreshold c.clipCenter)
    c.nanSafe (List.ofFn fun d => List.ofFn fun i => walker (params d) (data d i))
  let metrics := updateMetricsWithNoclip (some r.2.1.energyNoclip) (some r.2.1.varianceNoclip)
    [("energy", r.1), ("variance", r.2.1.variance)]
  if recordL1 then metrics.set "param_l1_norm" (treeReduceL1 (newParams d)) else metrics

/-- One Metropolis step on all devices: the acceptance probabilities of all walkers, the new data
and the new keys.  What it returns for the acceptance is the mean on each device,
mcmc/metropolis.py:60-66. -/
abbrev Step (D n : ℕ) (K Dat Key : Type) :=
  (Fin D → K → ℝ) → Dat → Key → (Fin D → Fin n → XR) × Dat × Key

/-- Body of the scan in `walk_data` on all devices, mcmc/metropolis.py:107-110. -/
noncomputable def walkBody (step : Step D n K Dat Key) (params : Fin D → K → ℝ)
    (carry : (Fin D → XR) × Dat × Key) : (Fin D → XR) × Dat × Key :=
  let r := step params carry.2.1 carry.2.2
  (fun d => carry.1 d + mean (List.ofFn (r.1 d)), r.2.1, r.2.2)

/-- The function returned by `make_jitted_walker_fn`, mcmc/metropolis.py:181-196: `walk_data`
(lines 112-114), mean of the acceptance ratios over the devices, of which the first one is taken
(all are equal). -/
noncomputable def walkerFn (nsteps : ℕ) (step : Step D n K Dat Key) (params : Fin D → K → ℝ)
    (data : Dat) (key : Key) : XR × Dat × Key :=
  let out := (walkBody step params)^[nsteps] (fun _ => .fin 0, data, key)
  (Energy.pmean (List.ofFn fun d => out.1 d / XR.ofNat nsteps), out.2.1, out.2.2)

/-- `jnp.min` and `jnp.max` of all amplitudes, `_add_amplitude_to_metrics_if_requested`,
utils/checkpoint.py:248-262. -/
noncomputable def addAmplitudes (record : Bool) (amplitudes : List XR) (metrics : Dict) : Dict :=
  if record then
    (metrics.set "amplitude_min" (amplitudes.foldr XR.minimum .pinf)).set "amplitude_max"
      (amplitudes.foldr XR.maximum .ninf)
  else metrics

/-- The functions and options of a run. -/
structure Run (D n : ℕ) (K X Dat Key S : Type) where
  config : TrainingConfig
  recordL1 : Bool
  recordAmplitudes : Bool
  nsteps : ℕ
  step : Step D n K Dat Key
  /-- `jax.random.split`, the first half is kept -/
  split : Key → Key × Key
  /-- what the local energies depend on: position and, for `random_particle`, the walker's key -/
  inputs : Dat → Key → Fin D → Fin n → X
  walker : (K → ℝ) → X → Walker K
  apply : OptimizerApply D K S (Fin n → X) (Fin n → ℝ)
  updateData : Dat → (Fin D → K → ℝ) → Dat
  amplitudes : Dat → Fin D → Fin n → XR

/-- Local variables of `vmc_loop`. -/
structure State (D : ℕ) (K Dat Key S : Type) where
  params : Fin D → K → ℝ
  opt : Fin D → S
  data : Dat
  key : Key

/-- One epoch of `vmc_loop`, train/vmc.py:117-128, with `update_param_fn` of
updates/params.py:103-128, the choice of the first device (lines 50-62), and the amplitudes added in
utils/checkpoint.py:409-411: the metrics to be written and the new state. -/
noncomputable def epoch [Fintype K] [NeZero D] (r : Run D n K X Dat Key S) (s : State D K Dat Key S) :
    Dict × State D K Dat Key S :=
  let w := walkerFn r.nsteps r.step s.params s.data s.key
  let keys := r.split w.2.2
  let x := r.inputs w.2.1 keys.2
  let u := gradUpdate (energyValGrad r.config r.walker) r.apply s.params s.opt x fun _ => ()
  let data := r.updateData w.2.1 u.1
  let metrics := updateMetrics r.config r.recordL1 r.walker s.params u.1 x 0
  let metrics := metrics.set "accept_ratio" w.1
  let metrics := addAmplitudes r.recordAmplitudes
    (List.ofFn fun d => List.ofFn (r.amplitudes data d)).flatten metrics
  (metrics, ⟨u.1, u.2, data, keys.1⟩)

/-- `MetricsWriter.write_out_data`, utils/checkpoint.py:194-198 with `append_metric_to_file`,
utils/io.py:29-34: the lines of all text files, by name of the metric. -/
def writeOut (files : String → List XR) (metrics : Dict) : String → List XR :=
  metrics.foldl (fun files e name => if name = e.1 then files name ++ [e.2] else files name) files

/-- The text files after the given number of epochs. -/
noncomputable def runFiles [Fintype K] [NeZero D] (r : Run D n K X Dat Key S) :
    ℕ → State D K Dat Key S → (String → List XR) → String → List XR
  | 0, _, files => files
  | m + 1, s, files => let e := epoch r s; runFiles r m e.2 (writeOut files e.1)

end Verif.Records
