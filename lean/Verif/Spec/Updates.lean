import Mathlib.Data.Matrix.Mul
import Mathlib.Data.Real.Basic
import Mathlib.Algebra.BigOperators.Fin
import Mathlib.Data.Fintype.BigOperators

/-! What the natural gradient and the SPRING direction are supposed to be. -/

namespace Verif.Spec

variable {K : Type*} [Fintype K] {D n : ℕ}

/-- Mean over all walkers of all devices. -/
noncomputable def walkerMean (f : Fin D → Fin n → ℝ) : ℝ := (∑ d, ∑ i, f d i) / (D * n : ℕ)

/-- Covariance over all walkers of all devices. -/
noncomputable def walkerCov (f g : Fin D → Fin n → ℝ) : ℝ :=
  walkerMean fun d i => (f d i - walkerMean f) * (g d i - walkerMean g)

/-- The empirical Fisher information matrix of the density `|psi|²`: the covariance of its scores
`∂ log |psi|² = 2 ∂ log |psi|`. -/
noncomputable def fisher (J : Fin D → Fin n → K → ℝ) : Matrix K K ℝ := fun k l =>
  walkerCov (fun d i => 2 * J d i k) (fun d i => 2 * J d i l)

/-- `0.25 * F + damping * I` -/
noncomputable def dampedFisher [DecidableEq K] (damping : ℝ) (J : Fin D → Fin n → K → ℝ) :
    Matrix K K ℝ := fun k l => 1 / 4 * fisher J k l + if k = l then damping else 0

/-- Symmetric with positive quadratic form. -/
def PositiveDefinite (A : Matrix K K ℝ) : Prop :=
  (∀ k l, A k l = A l k) ∧ ∀ x : K → ℝ, x ≠ 0 → 0 < x ⬝ᵥ A.mulVec x

/-- The objective of SPRING: mean squared residual of the centred log-derivatives against the
centred energies, plus the distance to the decayed previous direction. -/
noncomputable def springObjective (damping mu : ℝ) (J : Fin n → K → ℝ) (energies : Fin n → ℝ)
    (previous t : K → ℝ) : ℝ :=
  (∑ i, (∑ k, (J i k - (∑ j, J j k) / n) * t k - energies i) ^ 2) / n +
    damping * ∑ k, (t k - mu * previous k) ^ 2

/-- All devices hold the same value. -/
def SameOnAllDevices {α : Type*} (x : Fin D → α) : Prop := ∀ d d', x d = x d'

end Verif.Spec
