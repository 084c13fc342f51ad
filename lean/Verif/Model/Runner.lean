import Verif.Model.Config
import Verif.Model.IO
import Verif.Model.Metropolis

/-!
Model of the phases of `run_molecule` in `vmcnet/train/runners.py`: reloading, burning,
training, evaluation.
-/

namespace Verif.Runner

open Verif.Config Verif.Files Verif.MCMC

variable {P D S K F R : Type}

/-- The entries of `config.vmc` (or `config.eval`, which lacks the checkpointing ones) read
by `_burn_and_run_vmc`, runners.py:541-580, and by `run_molecule`, runners.py:721-759. -/
structure PhaseCfg (D : Type) where
  nburn : ℕ
  nepochs : ℕ
  nchains : ℤ
  checkpointEvery : Option ℕ
  bestCheckpointEvery : Option ℕ
  varianceScale : ℝ
  checkForNans : Bool
  recordAmplitudes : Option (D → XR × XR)
  nhistoryMax : ℤ
  useDataFromTraining : Bool
  recordLocalEnergies : Bool

/-- The keyword arguments chosen for `vmc_loop`, runners.py:541-554 and 560-580.  The log
directory is always given. -/
noncomputable def loopCfg (run : PhaseCfg D) (isEval : Bool) (paramsHaveNan : P → Prop) :
    LoopCfg P D :=
  { nchains := run.nchains
    hasLogdir := true
    checkpointEvery := if isEval then none else run.checkpointEvery
    bestCheckpointEvery := if isEval then none else run.bestCheckpointEvery
    varianceScale := if isEval then 0 else run.varianceScale
    checkForNans := if isEval then false else run.checkForNans
    recordAmplitudes := run.recordAmplitudes
    nhistoryMax := if isEval then 0 else run.nhistoryMax
    paramsHaveNan := paramsHaveNan }

/-- `_burn_and_run_vmc`, runners.py:525-580. -/
noncomputable def burnAndRunVmc (run : PhaseCfg D) (isEval : Bool) (paramsHaveNan : P → Prop)
    (burn : P → D → K → D × K) (fns : LoopFns P D S K) (skipBurn : Bool) (start : ℕ)
    (c : Core P D S K) : LoopState P D S K :=
  let dk := if skipBurn then (c.data, c.key) else burnData burn run.nburn c.params c.data c.key
  vmcLoop (loopCfg run isEval paramsHaveNan) fns start run.nepochs
    ⟨c.params, dk.1, c.opt, dk.2⟩

/-- What the setup functions provide: `_setup_vmc` (called in runners.py:625-643),
`_setup_eval`, `_make_new_data_for_eval`, and reading a checkpoint file of type `F`
(`reload_vmc_state`, followed by `distribute_vmc_state_from_checkpoint` if the run is
distributed, runners.py:653-674; what these two do is modelled in `Model/IO.lean`). -/
structure Setup (P D S K F : Type) where
  init : Core P D S K
  burn : P → D → K → D × K
  fns : LoopFns P D S K
  evalBurn : P → D → K → D × K
  evalFns : LoopFns P D Unit K
  newEvalData : P → K → K × D
  readState : Bool → F → Ckpt P D S K
  paramsHaveNan : P → Prop

/-- The state of the disk that matters: checkpoint files by path, the rows of a metric file
in the reloaded log directory, and the rows of that metric already present in the log
directory of this run (non-empty only if a directory is reused). -/
structure Disk (F R : Type) where
  checkpoints : String → Option F
  reloadRows : List R
  presentRows : List R

/-- What a run leaves: the training loop, the rows of the metric file, the evaluation loop
if there was one, and whether the energy statistics were computed. -/
structure Outcome (P D S K R : Type) where
  train : LoopState P D S K
  rows : List R
  eval : Option (LoopState P D Unit K)
  statistics : Bool

/-- `reload_from_checkpoint`, runners.py:600-603. -/
def reloadFromCheckpoint (reload : ReloadFlags) : Bool :=
  reload.logdir != noName && reload.useCheckpointFile

/-- The state handed to training and the start epoch, runners.py:645-678.  `none` stands
for the exception raised when the checkpoint file does not exist. -/
def trainingStart (reload : ReloadFlags) (distribute : Bool) (disk : Disk F R)
    (su : Setup P D S K F) : Option (Core P D S K × ℕ × List R) :=
  if reloadFromCheckpoint reload then
    match disk.checkpoints (osJoin reload.logdir reload.checkpointPath) with
    | none => none
    | some file =>
      let ck := su.readState distribute file
      let rows := if reload.append then copyTxtStats disk.reloadRows (some ck.epoch)
        else disk.presentRows
      if reload.newOptimizerState then
        some (⟨ck.params, ck.data, su.init.opt, ck.key⟩, 0, rows)
      else some (⟨ck.params, ck.data, ck.opt, ck.key⟩, ck.epoch, rows)
  else some (su.init, 0, disk.presentRows)

/-- The evaluation phase, runners.py:708-748.  The loop runs without an optimizer state. -/
noncomputable def evaluation (vmc ev : PhaseCfg D) (su : Setup P D S K F) (c : Core P D S K) :
    LoopState P D Unit K :=
  let kd := if !ev.useDataFromTraining || !(decide (vmc.nchains = ev.nchains)) then
      su.newEvalData c.params c.key
    else (c.key, c.data)
  burnAndRunVmc ev true su.paramsHaveNan su.evalBurn su.evalFns false 0
    ⟨c.params, kd.2, (), kd.1⟩

/-- `run_molecule`, runners.py:596-759, after the flags are parsed.  `row` is the line
written for one metrics dictionary.  Simplification: `local_energies.txt` exists exactly
if the evaluation wrote metrics, i.e. the evaluation directory was empty before. -/
noncomputable def runMolecule (reload : ReloadFlags) (distribute : Bool) (vmc ev : PhaseCfg D)
    (row : Metrics → R) (disk : Disk F R) (su : Setup P D S K F) :
    Option (Outcome P D S K R) :=
  match trainingStart reload distribute disk su with
  | none => none
  | some (c, start, rows0) =>
    let tr := burnAndRunVmc vmc false su.paramsHaveNan su.burn su.fns
      (reloadFromCheckpoint reload && !reload.reburn) start c
    let rows := (tr.metricsQ.map row).foldl appendMetric rows0
    if tr.nansDetected then some ⟨tr, rows, none, false⟩
    else
      let e := evaluation vmc ev su tr.core
      some ⟨tr, rows, some e, ev.recordLocalEnergies && !e.metricsQ.isEmpty⟩

end Verif.Runner
