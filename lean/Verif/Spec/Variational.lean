import Mathlib.MeasureTheory.Integral.Bochner.ContinuousLinearMap
import Mathlib.Analysis.Calculus.Deriv.Basic

/-! Expectation values in the state `ψ`, with respect to a reference measure `ν` on the
configurations. -/

namespace Verif.Spec
open MeasureTheory Topology

variable {X : Type*} [MeasurableSpace X]

/-- The probability distribution with density proportional to `|ψ|²`. -/
noncomputable def born (ν : Measure X) (ψ : X → ℝ) : Measure X :=
  ν.withDensity fun x => ENNReal.ofReal (ψ x ^ 2 / ∫ y, ψ y ^ 2 ∂ν)

/-- The expectation of the local energy `e`. -/
noncomputable def expectedEnergy (ν : Measure X) (ψ e : X → ℝ) : ℝ := ∫ x, e x ∂(born ν ψ)

/-- The wave functions `ψ θ` and local energies `e θ` depend smoothly enough on the parameter `θ`
near `θ₀` for integrals of `|ψ|²` and `|ψ|² e` to be differentiated under the integral sign; `ψ θ₀`
is normalisable and almost nowhere zero.  The functions `A θ` which are differentiated need only agree
with `|ψ|² e` almost everywhere: where `ψ θ` is zero, the local energy has no value. -/
structure SmoothFamily (ν : Measure X) (ψ e : ℝ → X → ℝ) (θ₀ : ℝ) : Prop where
  measurable : ∀ᶠ θ in 𝓝 θ₀, AEMeasurable (ψ θ) ν
  measurable_energy : ∀ᶠ θ in 𝓝 θ₀, AEStronglyMeasurable (fun x => ψ θ x ^ 2 * e θ x) ν
  ne_zero : ∀ᵐ x ∂ν, ψ θ₀ x ≠ 0
  normalisable : Integrable (fun x => ψ θ₀ x ^ 2) ν
  norm_pos : 0 < ∫ x, ψ θ₀ x ^ 2 ∂ν
  integrable_energy : Integrable (fun x => ψ θ₀ x ^ 2 * e θ₀ x) ν
  dominated : ∃ s ∈ 𝓝 θ₀, ∃ A w' a' : ℝ → X → ℝ, ∃ bound : X → ℝ,
    (∀ θ ∈ s, ∀ᵐ x ∂ν, ψ θ x ^ 2 * e θ x = A θ x) ∧
    (∀ᵐ x ∂ν, ∀ᶠ θ in 𝓝 θ₀, ψ θ x ^ 2 * e θ x = A θ x) ∧
    AEStronglyMeasurable (w' θ₀) ν ∧ AEStronglyMeasurable (a' θ₀) ν ∧ Integrable bound ν ∧
    ∀ᵐ x ∂ν, ∀ θ ∈ s, HasDerivAt (fun θ => ψ θ x ^ 2) (w' θ x) θ ∧
      HasDerivAt (fun θ => A θ x) (a' θ x) θ ∧ |w' θ x| ≤ bound x ∧ |a' θ x| ≤ bound x

end Verif.Spec
