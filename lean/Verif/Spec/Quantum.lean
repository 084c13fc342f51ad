import Verif.Spec.Physics
import Verif.Spec.Variational
import Mathlib.MeasureTheory.Constructions.Pi
import Mathlib.MeasureTheory.Measure.Lebesgue.EqHaar

/-! Wave functions of `n` electrons in `d` dimensions with finite energy. -/

namespace Verif.Spec
open MeasureTheory

variable {n m d : ℕ}

/-- `ψ` is a normalisable wave function, almost nowhere zero, with first and second derivatives
`ψ1 i k` and `ψ2 i k` with respect to coordinate `(i, k)` and finite kinetic energy in both forms.
The derivatives are required along almost every line parallel to a coordinate axis only, so cusps at
coalescence points are allowed. -/
structure WaveFunction (ψ : (Fin n → Fin d → ℝ) → ℝ) (ψ1 ψ2 : Fin n → Fin d → (Fin n → Fin d → ℝ) → ℝ) :
    Prop where
  measurable : AEStronglyMeasurable ψ volume
  measurable1 : ∀ i k, AEStronglyMeasurable (ψ1 i k) volume
  ne_zero : ∀ᵐ x, ψ x ≠ 0
  deriv1 : ∀ i k, ∀ᵐ x, ∀ t,
    HasDerivAt (fun t => ψ (shift x i k t)) (ψ1 i k (shift x i k t)) t
  deriv2 : ∀ i k, ∀ᵐ x, ∀ t,
    HasDerivAt (fun t => ψ1 i k (shift x i k t)) (ψ2 i k (shift x i k t)) t
  normalisable : Integrable fun x => ψ x ^ 2
  gradient_sq : ∀ i k, Integrable fun x => ψ1 i k x ^ 2
  laplacian : ∀ i k, Integrable fun x => ψ x * ψ2 i k x

/-- Finite electron-ion energy. -/
def FiniteEI (ψ : (Fin n → Fin d → ℝ) → ℝ) (s : ℝ) (R : Fin m → Fin d → ℝ) : Prop :=
  ∀ i I, Integrable fun x => ψ x ^ 2 / softDist s (x i) (R I)

/-- Finite electron-electron energy. -/
def FiniteEE (ψ : (Fin n → Fin d → ℝ) → ℝ) (s : ℝ) : Prop :=
  ∀ i j, i < j → Integrable fun x => ψ x ^ 2 / softDist s (x i) (x j)

/-- The logarithm of the absolute value of the wave function. -/
noncomputable def logAbs (ψ : (Fin n → Fin d → ℝ) → ℝ) (x : Fin n → Fin d → ℝ) : ℝ :=
  Real.log |ψ x|

/-- `∫ ... |ψ|² / ∫ |ψ|²`. -/
noncomputable def expect (ψ e : (Fin n → Fin d → ℝ) → ℝ) : ℝ := expectedEnergy volume ψ e

end Verif.Spec
