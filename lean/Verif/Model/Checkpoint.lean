import Verif.Model.XR

/-!
Model of `vmcnet/utils/checkpoint.py` (running averages, checkpoint decisions) and of the
main loop `vmcnet/train/vmc.py`.

Types `P D S K` stand for arbitrary parameter / walker data / optimizer state / PRNG key
pytrees.  Writers are modelled here by the sequence of `save_data` calls made on them
(`ckptQ`, `metricsQ`); what the background threads do with those calls is modelled in
`Verif.Model.ThreadedWriter`.
-/

namespace Verif

/-- `RunningMetric` dataclass, vmcnet/utils/checkpoint.py:36-51. -/
structure RunningMetric where
  nhistoryMax : ℤ
  avg : XR
  history : List XR

/-- `RunningMetric(nhistory_max)` with the dataclass defaults, checkpoint.py:49-51. -/
noncomputable def RunningMetric.new (n : ℤ) : RunningMetric := ⟨n, .fin 0, []⟩

/-- `RunningMetric.move_history_window`, vmcnet/utils/checkpoint.py:53-74.
`deque.append` is `++ [v]`, `popleft` takes the head (the deque is never empty there). -/
noncomputable def RunningMetric.moveHistoryWindow (m : RunningMetric) (v : XR) :
    RunningMetric :=
  if m.nhistoryMax ≤ 0 then m
  else
    let len0 := m.history.length
    let hist1 := m.history ++ [v]
    let sum1 := XR.ofNat len0 * m.avg + v
    let len1 := len0 + 1
    if m.nhistoryMax ≤ (len1 : ℤ) then
      let oldest := hist1.headD v
      let hist2 := hist1.tail
      let sum2 := sum1 - oldest
      let len2 := len1 - 1
      ⟨m.nhistoryMax, sum2 / XR.ofNat len2, hist2⟩
    else
      ⟨m.nhistoryMax, sum1 / XR.ofNat len1, hist1⟩

open Classical in
/-- `get_checkpoint_metric`, vmcnet/utils/checkpoint.py:265-295.  `variance_scale` is a
finite Python float. -/
noncomputable def getCheckpointMetric (energyAvg varianceAvg : XR) (nsamples : ℤ)
    (varianceScale : ℝ) : XR :=
  if varianceScale ≤ 0 ∨ nsamples ≤ 0 then energyAvg
  else
    let effectiveNsamples : ℝ := (nsamples : ℝ) / varianceScale
    energyAvg + XR.sqrt (varianceAvg / .fin effectiveNsamples)

/-- `CheckpointData` = (epoch, data, params, optimizer_state, key), utils/typing.py. -/
structure Ckpt (P D S K : Type) where
  epoch : ℕ
  data : D
  params : P
  opt : S
  key : K

/-- Files handed to the checkpoint writer.  `regular k` is
`<logdir>/<checkpoint_dir>/<k>.npz` (checkpoint.py:606-610), `nans k` is
`<logdir>/<checkpoint_dir>/nans_<k>.npz` (618-622), `best` is
`<logdir>/best_checkpoint.npz` (541-543).  Paths are rendered by `FileName.render`. -/
inductive FileName where
  | regular (k : ℕ)
  | nans (k : ℕ)
  | best
  deriving DecidableEq

/-- Path of a checkpoint file; checkpoint.py:32, 606-608, 618-620. -/
def FileName.render (logdir ckptDir : String) : FileName → String
  | .regular k => logdir ++ "/" ++ ckptDir ++ "/" ++ toString k ++ ".npz"
  | .nans k => logdir ++ "/" ++ ckptDir ++ "/" ++ "nans_" ++ toString k ++ ".npz"
  | .best => logdir ++ "/" ++ "best_checkpoint.npz"

/-- The metrics dict of one epoch.  `energy`, `variance` are required (vmc.py:56-57);
the noclip entries are those read by `_check_metrics_for_nans` (checkpoint.py:298-301);
`other` stands for all further entries.  Simplification: the keys are record fields, so
the `KeyError` for a missing noclip entry is not represented. -/
structure Metrics where
  energy : XR
  variance : XR
  energyNoclip : XR
  varianceNoclip : XR
  acceptRatio : XR
  amplitudeMinMax : Option (XR × XR)

/-- Arguments of `vmc_loop` that stay fixed during the loop, vmc.py:13-33.
Simplifications: `logdir` only matters through being None or not; `record_amplitudes`
together with `get_amplitude_fn` is an optional function giving min and max of the
amplitudes (checkpoint.py:248-262), which leaves out the `ValueError` raised when the
function is missing. -/
structure LoopCfg (P D : Type) where
  nchains : ℤ
  hasLogdir : Bool
  checkpointEvery : Option ℕ
  bestCheckpointEvery : Option ℕ
  varianceScale : ℝ
  checkForNans : Bool
  recordAmplitudes : Option (D → XR × XR)
  nhistoryMax : ℤ
  paramsHaveNan : P → Prop

/-- `walker_fn` and `update_param_fn`, vmc.py:117-121. -/
structure LoopFns (P D S K : Type) where
  walker : P → D → K → XR × D × K
  update : P → D → S → K → P × D × S × Option Metrics × K

/-- The part of the loop state that determines the computation. -/
structure Core (P D S K : Type) where
  params : P
  data : D
  opt : S
  key : K

/-- Local variables of `vmc_loop` plus the calls made so far on the two writers. -/
structure LoopState (P D S K : Type) where
  core : Core P D S K
  ckMetric : XR
  energy : RunningMetric
  variance : RunningMetric
  bestData : Option (Ckpt P D S K)
  nansDetected : Bool
  ckptQ : List (FileName × Ckpt P D S K)
  metricsQ : List Metrics

variable {P D S K : Type}

open Classical in
/-- `_check_for_nans`, vmcnet/utils/checkpoint.py:304-310. -/
noncomputable def checkForNansFn (cfg : LoopCfg P D) (m : Metrics) (newParams : P) : Bool :=
  decide (m.energyNoclip.isNan ∨ m.varianceNoclip.isNan ∨ cfg.paramsHaveNan newParams)

/-- `save_metrics_and_regular_checkpoint`, vmcnet/utils/checkpoint.py:552-625.
Returns the calls made on the checkpoint writer and `nans_detected`. -/
noncomputable def saveMetricsAndRegular (cfg : LoopCfg P D) (epoch : ℕ)
    (old : Core P D S K) (newParams : P) (m : Metrics) :
    List (FileName × Ckpt P D S K) × Bool :=
  let checkpointData : Ckpt P D S K := ⟨epoch, old.data, old.params, old.opt, old.key⟩
  let regular :=
    match cfg.checkpointEvery with
    | none => []
    | some n => if (epoch + 1) % n = 0 then [(FileName.regular (epoch + 1), checkpointData)]
                else []
  let nansDetected := cfg.checkForNans && checkForNansFn cfg m newParams
  let nansCk := if nansDetected then [(FileName.nans (epoch + 1), checkpointData)] else []
  (regular ++ nansCk, nansDetected)

/-- Result of `track_and_save_best_checkpoint`. -/
structure BestResult (P D S K : Type) where
  energy : RunningMetric
  variance : RunningMetric
  errorAdjusted : XR
  bestData : Option (Ckpt P D S K)
  puts : List (FileName × Ckpt P D S K)

open Classical in
/-- `track_and_save_best_checkpoint`, vmcnet/utils/checkpoint.py:460-549. -/
noncomputable def trackAndSaveBest (cfg : LoopCfg P D) (epoch : ℕ) (old : Core P D S K)
    (m : Metrics) (energy variance : RunningMetric) (ckMetric : XR)
    (bestData : Option (Ckpt P D S K)) : BestResult P D S K :=
  match cfg.bestCheckpointEvery with
  | some n =>
    let energy' := energy.moveHistoryWindow m.energy
    let variance' := variance.moveHistoryWindow m.variance
    let adj := getCheckpointMetric energy'.avg variance'.avg
      (cfg.nchains * energy'.history.length) cfg.varianceScale
    let best' := if XR.lt adj ckMetric then
        some ⟨epoch, old.data, old.params, old.opt, old.key⟩ else bestData
    let shouldSave := (epoch + 1) % n = 0
    match best' with
    | some ck => if shouldSave then ⟨energy', variance', adj, none, [(.best, ck)]⟩
                 else ⟨energy', variance', adj, some ck, []⟩
    | none => ⟨energy', variance', adj, none, []⟩
  | none => ⟨energy, variance, ckMetric, bestData, []⟩

/-- `save_metrics_and_handle_checkpoints`, vmcnet/utils/checkpoint.py:315-457, for
`metrics` that are not None (the loop calls it only then, vmc.py:123-125).
`st` carries the loop variables from before the call, `newCore` the state after the
update of this epoch. -/
noncomputable def handleCheckpoints (cfg : LoopCfg P D) (epoch : ℕ) (old newCore : Core P D S K)
    (m : Metrics) (st : LoopState P D S K) : LoopState P D S K :=
  if cfg.hasLogdir = false then
    { st with core := newCore, nansDetected := false }
  else
    let m := match cfg.recordAmplitudes with
      | some f => { m with amplitudeMinMax := some (f newCore.data) }
      | none => m
    let reg := saveMetricsAndRegular cfg epoch old newCore.params m
    let b := trackAndSaveBest cfg epoch old m st.energy st.variance st.ckMetric st.bestData
    { core := newCore
      ckMetric := XR.minimum b.errorAdjusted st.ckMetric
      energy := b.energy
      variance := b.variance
      bestData := b.bestData
      nansDetected := reg.2
      ckptQ := st.ckptQ ++ reg.1 ++ b.puts
      metricsQ := st.metricsQ ++ [m] }

/-- Body of the epoch loop, vmcnet/train/vmc.py:105-158. -/
noncomputable def epochStep (cfg : LoopCfg P D) (fns : LoopFns P D S K) (epoch : ℕ)
    (st : LoopState P D S K) : LoopState P D S K :=
  let old := st.core
  let w := fns.walker old.params old.data old.key
  let u := fns.update old.params w.2.1 old.opt w.2.2
  let newCore : Core P D S K := ⟨u.1, u.2.1, u.2.2.1, u.2.2.2.2⟩
  match u.2.2.2.1 with
  | none => { st with core := newCore }
  | some m => handleCheckpoints cfg epoch old newCore { m with acceptRatio := w.1 } st

/-- The `for epoch in range(...)` loop with its `break`, vmc.py:105-161. -/
noncomputable def runEpochs (cfg : LoopCfg P D) (fns : LoopFns P D S K) :
    List ℕ → LoopState P D S K → LoopState P D S K
  | [], st => st
  | e :: es, st =>
    let st' := epochStep cfg fns e st
    if st'.nansDetected then st' else runEpochs cfg fns es st'

/-- `initialize_checkpointing` (checkpoint.py:201-233) plus vmc.py:100. -/
noncomputable def initState (cfg : LoopCfg P D) (c : Core P D S K) : LoopState P D S K :=
  { core := c, ckMetric := .pinf, energy := .new cfg.nhistoryMax
    variance := .new cfg.nhistoryMax, bestData := none, nansDetected := false
    ckptQ := [], metricsQ := [] }

/-- `finish_checkpointing`, vmcnet/utils/checkpoint.py:236-245. -/
noncomputable def finishCheckpointing (cfg : LoopCfg P D) (st : LoopState P D S K) :
    LoopState P D S K :=
  match st.bestData with
  | some ck => if cfg.hasLogdir then { st with ckptQ := st.ckptQ ++ [(.best, ck)] } else st
  | none => st

/-- `vmc_loop`, vmcnet/train/vmc.py:13-167: `range(start_epoch, nepochs)` is
`List.range' start (nepochs - start)`. -/
noncomputable def vmcLoop (cfg : LoopCfg P D) (fns : LoopFns P D S K) (start nepochs : ℕ)
    (c : Core P D S K) : LoopState P D S K :=
  finishCheckpointing cfg
    (runEpochs cfg fns (List.range' start (nepochs - start)) (initState cfg c))

end Verif
