import Verif.Model.Runner
import Verif.Model.EvalStats

/-!
Model of the log directories left by a succession of runs: `_get_logdir_and_save_config`
(vmcnet/train/runners.py:43-59), the directories handed to training and evaluation in `run_molecule`
(runners.py:616, 655-657, 700, 748-759), and what they append to existing files.

Simplifications: one of the metric files of training stands for all of them; log directories are told
apart by their paths as strings; runs end by themselves or by one of the modelled exceptions, they are
not killed; the checkpoint files which can be reloaded are given with each run.
-/

namespace Verif.Runner

open Verif.Config Verif.Files Verif.MCMC Verif.Stat

variable {P D S K F R : Type}

/-- The files of a log directory: a metric file of training, `eval/local_energies.txt` (no file and an
empty one are the same here) and `eval/statistics.json`. -/
structure LogDir (R : Type) where
  train : List R
  energies : List (List ℝ)
  statistics : Option Summary

/-- A new directory. -/
def LogDir.empty : LogDir R := ⟨[], [], none⟩

/-- The log directories on the disk. -/
abbrev LogTree (R : Type) := String → Option (LogDir R)

/-- Everything which determines a run.  `base` is `config.logdir` after the names of subfolders are
joined, runners.py:47-52; `energies` are the local energies of all walkers which the evaluation update
records (updates/params.py:248-265). -/
structure Args (P D S K F R : Type) where
  reload : ReloadFlags
  distribute : Bool
  vmc : PhaseCfg D
  ev : PhaseCfg D
  row : Metrics → R
  checkpoints : String → Option F
  su : Setup P D S K F
  energies : P → D → K → List ℝ
  base : String

/-- The directory a run logs to, runners.py:44-53.  `other` are the paths which exist besides log
directories. -/
def IsLogdir (other : String → Bool) (tree : LogTree R) (a : Args P D S K F R) (logdir : String) : Prop :=
  if a.reload.sameLogdir then logdir = a.reload.logdir
  else AddSuffix (fun p => other p || (tree p).isSome) a.base "" logdir

/-- The rows of `local_energies` of `n` epochs: walk, record, update (train/vmc.py:117-121). -/
def recordEpochs (energies : P → D → K → List ℝ) (fns : LoopFns P D Unit K) :
    ℕ → Core P D Unit K → List (List ℝ)
  | 0, _ => []
  | n + 1, c =>
    let w := fns.walker c.params c.data c.key
    let u := fns.update c.params w.2.1 c.opt w.2.2
    energies c.params w.2.1 w.2.2 :: recordEpochs energies fns n ⟨u.1, u.2.1, u.2.2.1, u.2.2.2.2⟩

/-- The rows of local energies which the evaluation of a run records, in the state in which training
left `c`; runners.py:718-748. -/
noncomputable def recordedEnergies (a : Args P D S K F R) (c : Core P D S K) : List (List ℝ) :=
  let kd := if !a.ev.useDataFromTraining || !(decide (a.vmc.nchains = a.ev.nchains)) then
      a.su.newEvalData c.params c.key
    else (c.key, c.data)
  let dk := burnData a.su.evalBurn a.ev.nburn c.params kd.2 kd.1
  if a.ev.recordLocalEnergies then
    recordEpochs a.energies a.su.evalFns a.ev.nepochs ⟨c.params, dk.1, (), dk.2⟩
  else []

/-- `run_molecule` seen from the disk, runners.py:596-759: the directories afterwards, and whether the
run ended without an exception.  `eval/local_energies.txt` is opened for appending (utils/io.py:33),
and the statistics are computed from all of it. -/
noncomputable def runInTree (a : Args P D S K F R) (tree : LogTree R) (logdir : String) :
    LogTree R × Bool :=
  let here := (tree logdir).getD .empty
  let source := (tree a.reload.logdir).getD .empty
  match runMolecule a.reload a.distribute a.vmc a.ev a.row
      ⟨a.checkpoints, source.train, here.train⟩ a.su with
  | none => (Function.update tree logdir (some here), false)
  | some out =>
    match out.eval with
    | none => (Function.update tree logdir (some { here with train := out.rows }), true)
    | some _ =>
      let rows := (recordedEnergies a out.train.core).foldl appendMetric here.energies
      match finishEvaluation a.ev.recordLocalEnergies rows with
      | .error _ => (Function.update tree logdir (some ⟨out.rows, rows, here.statistics⟩), false)
      | .ok none => (Function.update tree logdir (some ⟨out.rows, rows, here.statistics⟩), true)
      | .ok (some s) => (Function.update tree logdir (some ⟨out.rows, rows, some s⟩), true)

end Verif.Runner
