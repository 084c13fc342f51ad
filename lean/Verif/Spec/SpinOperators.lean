import Verif.Spec.Spin
import Mathlib.Analysis.Complex.Basic
import Mathlib.GroupTheory.Perm.Sign
import Mathlib.MeasureTheory.Integral.Bochner.Basic
import Mathlib.MeasureTheory.Measure.Lebesgue.Basic
import Mathlib.MeasureTheory.Constructions.Pi

/-!
The spin of `N` particles of spin 1/2, independent of the estimator: Pauli matrices, `S² = Sx² + Sy² + Sz²`, and the
state made from a function of the positions and one assignment of the spins by antisymmetrization.
-/

namespace Verif.Spec
open MeasureTheory

variable {N d : ℕ}

/-- The other spin for particle `i`; `true` is up. -/
def flipSpin (i : Fin N) (s : Fin N → Bool) : Fin N → Bool := Function.update s i (!s i)

/-- `Sx = ∑ σx / 2`. -/
noncomputable def spinX (χ : (Fin N → Bool) → ℂ) (s : Fin N → Bool) : ℂ := ∑ i, 1 / 2 * χ (flipSpin i s)

/-- `Sy = ∑ σy / 2`. -/
noncomputable def spinY (χ : (Fin N → Bool) → ℂ) (s : Fin N → Bool) : ℂ :=
  ∑ i, (if s i then -Complex.I / 2 else Complex.I / 2) * χ (flipSpin i s)

/-- `Sz = ∑ σz / 2`. -/
noncomputable def spinZ (χ : (Fin N → Bool) → ℂ) (s : Fin N → Bool) : ℂ :=
  ∑ i, (if s i then 1 / 2 else -1 / 2) * χ s

/-- `S² = Sx² + Sy² + Sz²`. -/
noncomputable def totalSpinSquare (χ : (Fin N → Bool) → ℂ) (s : Fin N → Bool) : ℂ :=
  spinX (spinX χ) s + spinY (spinY χ) s + spinZ (spinZ χ) s

/-- The first `nUp` spins are up. -/
def upFirst (nUp : ℕ) : Fin N → Bool := fun i => decide (i.val < nUp)

/-- `antisymmetrize(F(R) xi(s))`, with `xi` the assignment in which the first `nUp` spins are up.
The statement of physics/spin.py:75-83. -/
noncomputable def spinState {α : Type*} (nUp : ℕ) (F : (Fin N → α) → ℝ) (x : Fin N → α) (s : Fin N → Bool) : ℂ :=
  ∑ π : Equiv.Perm (Fin N), if s ∘ π = upFirst nUp then ((Equiv.Perm.sign π : ℤ) : ℂ) * (F (x ∘ π) : ℂ) else 0

/-- `⟨Ψ|A|Ψ⟩ / ⟨Ψ|Ψ⟩` for an operator `A` on spins. -/
noncomputable def spinExpectation (A : ((Fin N → Bool) → ℂ) → (Fin N → Bool) → ℂ)
    (Ψ : (Fin N → Fin d → ℝ) → (Fin N → Bool) → ℂ) : ℂ :=
  (∑ s, ∫ x, starRingEnd ℂ (Ψ x s) * A (Ψ x) s) / ∑ s, ∫ x, starRingEnd ℂ (Ψ x s) * Ψ x s

end Verif.Spec
