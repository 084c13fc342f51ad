import Verif.Model.Checkpoint
import Mathlib.Algebra.BigOperators.Group.Finset.Basic
import Mathlib.Order.Interval.Finset.Nat

/-!
Vocabulary for stating properties of training runs.  Nothing here mentions checkpoint
bookkeeping, queues or running metrics: only the mathematical trajectory of the state
under "walk, then update".
-/

namespace Verif.Spec

variable {P D S K : Type}

/-- One epoch of training seen from outside: walk, then update. -/
def coreStep (fns : LoopFns P D S K) (c : Core P D S K) : Core P D S K :=
  let w := fns.walker c.params c.data c.key
  let u := fns.update c.params w.2.1 c.opt w.2.2
  ⟨u.1, u.2.1, u.2.2.1, u.2.2.2.2⟩

/-- State after `n` epochs. -/
def traj (fns : LoopFns P D S K) (c : Core P D S K) : ℕ → Core P D S K
  | 0 => c
  | n + 1 => coreStep fns (traj fns c n)

/-- Metrics reported by the update of the `n`-th epoch (counting from 0). -/
def rawMetrics (fns : LoopFns P D S K) (c : Core P D S K) (n : ℕ) : Option Metrics :=
  let s := traj fns c n
  let w := fns.walker s.params s.data s.key
  (fns.update s.params w.2.1 s.opt w.2.2).2.2.2.1

/-- The `n`-th epoch reported metrics and shows a nan in the unclipped metrics or in the
updated parameters. -/
def nanEpoch (paramsHaveNan : P → Prop) (fns : LoopFns P D S K) (c : Core P D S K) (n : ℕ) :
    Prop :=
  ∃ m, rawMetrics fns c n = some m ∧
    (m.energyNoclip = .nan ∨ m.varianceNoclip = .nan ∨ paramsHaveNan (traj fns c (n + 1)).params)

open Classical in
/-- Number of epochs executed out of `n` when execution stops after the first `bad` one. -/
noncomputable def epochsRun (bad : ℕ → Prop) : ℕ → ℕ
  | 0 => 0
  | n + 1 => if ∃ i < n, bad i then epochsRun bad n else n + 1

/-- The checkpoint a user expects for the `n`-th epoch of a run started at epoch number
`start`: epoch number and the state at the start of that epoch. -/
def startOfEpoch (fns : LoopFns P D S K) (c : Core P D S K) (start n : ℕ) : Ckpt P D S K :=
  let s := traj fns c n
  ⟨start + n, s.data, s.params, s.opt, s.key⟩

/-- Mean of `f` over the last (at most) `w` indices up to and including `n`. -/
noncomputable def windowMean (w : ℕ) (f : ℕ → ℝ) (n : ℕ) : ℝ :=
  (∑ i ∈ Finset.Ico (n + 1 - w) (n + 1), f i) / (min w (n + 1) : ℕ)

/-- `e` is the first index below `n` at which `a` attains its minimum over `[0,n)`. -/
def IsFirstArgmin (a : ℕ → ℝ) (n e : ℕ) : Prop :=
  e < n ∧ (∀ i < n, a e ≤ a i) ∧ ∀ i < e, a e < a i

open Classical in
/-- Error-adjusted running average after epoch `n`: window mean of the energy plus the
standard error estimated from the window mean of the variance. -/
noncomputable def errorAdjusted (w : ℕ) (nchains : ℤ) (scale : ℝ) (en va : ℕ → ℝ) (n : ℕ) : ℝ :=
  if 0 < scale ∧ 0 < nchains then
    windowMean w en n +
      Real.sqrt (windowMean w va n / ((nchains : ℝ) * (min w (n + 1) : ℕ) / scale))
  else windowMean w en n

/-- Content most recently queued for file `f`. -/
def lastPut {β : Type} (f : FileName) (q : List (FileName × β)) : Option β :=
  ((q.filter (fun x => decide (x.1 = f))).getLast?).map (·.2)

end Verif.Spec
