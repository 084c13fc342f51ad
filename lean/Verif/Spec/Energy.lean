import Mathlib.Data.Real.Basic
import Mathlib.Algebra.BigOperators.Group.List.Basic

/-! Sample statistics of lists of reals and layouts of walkers over devices. -/

namespace Verif.Spec

/-- Arithmetic mean. -/
noncomputable def avgL (l : List ℝ) : ℝ := l.sum / l.length

/-- Unbiased sample variance. -/
noncomputable def sampleVar (l : List ℝ) : ℝ :=
  (l.map fun e => (e - avgL l) ^ 2).sum / ((l.length : ℝ) - 1)

/-- Unbiased sample covariance of a list of pairs. -/
noncomputable def sampleCov (l : List (ℝ × ℝ)) : ℝ :=
  (l.map fun p => (p.1 - avgL (l.map Prod.fst)) * (p.2 - avgL (l.map Prod.snd))).sum /
    ((l.length : ℝ) - 1)

/-- Mean absolute deviation from `c`. -/
noncomputable def meanAbsDev (l : List ℝ) (c : ℝ) : ℝ := avgL (l.map fun e => |e - c|)

/-- `rows` spreads the entries of `l`, in order, over at least one device with `n ≥ 1` entries on
each. -/
structure IsLayout {α : Type*} (l : List α) (rows : List (List α)) (n : ℕ) : Prop where
  flatten : rows.flatten = l
  ne : rows ≠ []
  pos : 0 < n
  len : ∀ r ∈ rows, r.length = n

/-- `m` is a median: at least half of the entries are `≤ m` and at least half are `≥ m`. -/
def IsMedian (l : List ℝ) (m : ℝ) : Prop :=
  l.length ≤ 2 * (l.filter fun x => decide (x ≤ m)).length ∧
  l.length ≤ 2 * (l.filter fun x => decide (m ≤ x)).length

end Verif.Spec
