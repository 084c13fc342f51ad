import Verif.Model.Runner
import Verif.Spec.Loop

/-!
Vocabulary for the phases of a run.
-/

namespace Verif.Spec

open Verif.Runner

variable {P D S K F R : Type}

/-- The state after burning `n` times: only walkers and key move. -/
def burned (burn : P → D → K → D × K) (c : Core P D S K) : ℕ → Core P D S K
  | 0 => c
  | n + 1 =>
    let b := burned burn c n
    let dk := burn b.params b.data b.key
    ⟨b.params, dk.1, b.opt, dk.2⟩

/-- The state stored in a checkpoint. -/
def stored (ck : Ckpt P D S K) : Core P D S K := ⟨ck.params, ck.data, ck.opt, ck.key⟩

/-- The run reloads a checkpoint. -/
def ReloadsCheckpoint (r : Config.ReloadFlags) : Prop :=
  r.logdir ≠ "NONE" ∧ r.useCheckpointFile = true

/-- An epoch of training ends the run: nans are checked for and one shows up. -/
def TrainingNan (vmc : PhaseCfg D) (su : Setup P D S K F) (c : Core P D S K) (i : ℕ) : Prop :=
  vmc.checkForNans = true ∧ nanEpoch su.paramsHaveNan su.fns c i

/-- The state in which evaluation starts, before its burning: parameters of the trained
model, walkers of the training or new ones. -/
def evalStart (su : Setup P D S K F) (reuse : Prop) [Decidable reuse] (c : Core P D S K) :
    Core P D Unit K :=
  if reuse then ⟨c.params, c.data, (), c.key⟩
  else ⟨c.params, (su.newEvalData c.params c.key).2, (), (su.newEvalData c.params c.key).1⟩

end Verif.Spec
