import Verif.Model.XR
import Mathlib.Data.Sign.Basic

/-!
What it means for a (sign, log) pair to stand for a real number, written without the model's
conversion functions.
-/

namespace Verif.Spec

/-- The pair `p` stands for the real number `r`: its first entry is the sign of `r` and its
second the logarithm of `|r|`, with `-inf` for zero. -/
def Represents (p : XR × XR) (r : ℝ) : Prop :=
  (0 < r ∧ p = (.fin 1, .fin (Real.log r))) ∨
  (r < 0 ∧ p = (.fin (-1), .fin (Real.log (-r)))) ∨
  (r = 0 ∧ p = (.fin 0, .ninf))

end Verif.Spec
