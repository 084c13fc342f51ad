import Verif.Model.XR
import Mathlib.Algebra.BigOperators.Intervals

/-! Direct definitions of the statistics, independent of the code. -/

namespace Verif.Spec

/-- Arithmetic mean of the first `n` numbers. -/
noncomputable def avg (n : ℕ) (x : ℕ → ℝ) : ℝ := (∑ t ∈ Finset.range n, x t) / n

/-- Average over the `N - k` available pairs of the product of centred samples. -/
noncomputable def autocov (N : ℕ) (x : ℕ → ℝ) (k : ℕ) : ℝ :=
  (∑ t ∈ Finset.range (N - k), (x t - avg N x) * (x (t + k) - avg N x)) / ((N - k : ℕ) : ℝ)

/-- Mean of all `N * M` samples. -/
noncomputable def grandMean (N M : ℕ) (x : ℕ → ℕ → ℝ) : ℝ :=
  (∑ t ∈ Finset.range N, ∑ c ∈ Finset.range M, x t c) / (N * M)

/-- Population variance of all `N * M` samples. -/
noncomputable def popVar (N M : ℕ) (x : ℕ → ℕ → ℝ) : ℝ :=
  (∑ t ∈ Finset.range N, ∑ c ∈ Finset.range M, (x t c - grandMean N M x) ^ 2) / (N * M)

/-- `j`-th sum of adjacent pairs of a curve. -/
noncomputable def pairSum (c : List ℝ) (j : ℕ) : ℝ := c.getD (2 * j) 0 + c.getD (2 * j + 1) 0

/-- `T` is the index of the first negative pair sum, or the number of pairs if there is
none. -/
def IsCut (c : List ℝ) (T : ℕ) : Prop :=
  T ≤ c.length / 2 ∧ (∀ j < T, 0 ≤ pairSum c j) ∧ (T < c.length / 2 → pairSum c T < 0)

/-- Minimum of `s 0, ..., s j`. -/
noncomputable def runMin (s : ℕ → ℝ) : ℕ → ℝ
  | 0 => s 0
  | j + 1 => min (runMin s j) (s (j + 1))

end Verif.Spec
