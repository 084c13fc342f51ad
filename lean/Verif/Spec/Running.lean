import Verif.Model.Checkpoint

/-! Vocabulary for running averages. -/

namespace Verif.Spec

/-- Result of inserting the values of a list one after another. -/
noncomputable def insertAll (m : RunningMetric) (vals : List XR) : RunningMetric :=
  vals.foldl RunningMetric.moveHistoryWindow m

/-- Arithmetic mean of a list of reals. -/
noncomputable def listMean (l : List ℝ) : ℝ := l.sum / l.length

/-- The last `k` entries of a list (all of them if there are fewer). -/
def lastN {α : Type} (k : ℕ) (l : List α) : List α := l.drop (l.length - k)

end Verif.Spec
