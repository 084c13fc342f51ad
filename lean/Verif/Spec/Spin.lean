import Verif.Spec.Slog
import Mathlib.Data.Real.Basic
import Mathlib.GroupTheory.Perm.Basic
import Mathlib.Algebra.BigOperators.Group.Finset.Basic
import Mathlib.Data.Fintype.BigOperators
import Mathlib.Logic.Equiv.Basic

/-!
Spin vocabulary, independent of the estimator: exchanging two labels, antisymmetry within a
species, and Dirac's exchange form of the operator S².
-/

namespace Verif.Spec
variable {α : Type*} {n : ℕ}

/-- the configuration with the positions of electrons `i` and `j` exchanged -/
def exchange (i j : Fin n) (x : Fin n → α) : Fin n → α := fun k => x (Equiv.swap i j k)

/-- electron `i` is spin-up: it is one of the first `nUp` -/
def IsUp (nUp : ℕ) (i : Fin n) : Prop := i.val < nUp

instance (nUp : ℕ) (i : Fin n) : Decidable (IsUp nUp i) := inferInstanceAs (Decidable (_ < _))

/-- the spatial function changes sign when two electrons of equal spin are exchanged -/
def SpinAntisymmetric (nUp : ℕ) (F : (Fin n → α) → ℝ) : Prop :=
  ∀ i j, i ≠ j → (IsUp nUp i ↔ IsUp nUp j) → ∀ x, F (exchange i j x) = -F x

/-- Dirac's form of S² on the spatial part of an antisymmetric state of `n` electrons:
`n (4 - n) / 4 - Σ_{i<j} P_ij`, with `P_ij` exchanging the positions of `i` and `j`. -/
noncomputable def diracSpinSquare (F : (Fin n → α) → ℝ) (x : Fin n → α) : ℝ :=
  (n : ℝ) * (4 - n) / 4 * F x -
    ∑ p ∈ Finset.univ.filter (fun p : Fin n × Fin n => p.1 < p.2), F (exchange p.1 p.2 x)

end Verif.Spec
