import Mathlib.Data.Real.Basic
import Mathlib.Algebra.BigOperators.Fin
import Mathlib.Analysis.Real.Sqrt

/-! Closed forms of the directions of SGD with momentum and of Adam. -/

namespace Verif.Spec

/-- `∑ r ≤ s, w^(s-r) * f r`: the past values, discounted by `w` per step. -/
def discountedSum (w : ℝ) (f : ℕ → ℝ) (s : ℕ) : ℝ :=
  ∑ r ∈ Finset.range (s + 1), w ^ (s - r) * f r

/-- Weighted mean of the past values with weights `w^(s-r)`. -/
noncomputable def discountedMean (w : ℝ) (f : ℕ → ℝ) (s : ℕ) : ℝ :=
  discountedSum w f s / discountedSum w (fun _ => 1) s

/-- Direction of SGD with momentum, in one coordinate with gradients `g`. -/
def momentumDirection (m : ℝ) (nesterov : Bool) (g : ℕ → ℝ) (s : ℕ) : ℝ :=
  if nesterov then g s + m * discountedSum m g s else discountedSum m g s

/-- Direction of Adam: mean gradient over root mean squared gradient. -/
noncomputable def adamDirection (b1 b2 eps epsRoot : ℝ) (g : ℕ → ℝ) (s : ℕ) : ℝ :=
  discountedMean b1 g s / (Real.sqrt (discountedMean b2 (fun r => g r ^ 2) s + epsRoot) + eps)

end Verif.Spec
