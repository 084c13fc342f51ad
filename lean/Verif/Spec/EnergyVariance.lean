import Verif.Spec.Quantum
import Verif.Spec.Decay

/-! The variance of the energy of a wave function. -/

namespace Verif.Spec
open MeasureTheory

variable {N d : ℕ}

/-- `Hψ = -½∇²ψ + Vψ`. -/
noncomputable def hamiltonian (ψ V : (Fin N → Fin d → ℝ) → ℝ) (x : Fin N → Fin d → ℝ) : ℝ :=
  -(1 / 2) * (∑ i, ∑ k, partial2 ψ i k x) + V x * ψ x

/-- `∫ |Hψ - Eψ|² / ∫ |ψ|²` with the energy `E` of `ψ`. -/
noncomputable def energyVariance (ψ V : (Fin N → Fin d → ℝ) → ℝ) : ℝ :=
  (∫ x, (hamiltonian ψ V x - rayleigh ψ V * ψ x) ^ 2) / ∫ x, ψ x ^ 2

end Verif.Spec
