import Verif.Model.Slog
import Verif.Model.Energy
import Mathlib.Data.Fin.Basic

/-!
The spin-square estimator, `physics/spin.py`.  A walker is a family of electron positions (any
type `α`) labelled by `Fin (nUp + nDown)`, spin-up electrons first.
-/

namespace Verif.Spin
open Verif.Slog Verif.Energy

/-- `swapped_indices = list(range(n)); swapped_indices[0], swapped_indices[a] = a, 0`: the list
is a function on the labels, an item assignment is an update.  physics/spin.py:122-124 -/
def swappedIndices {n : ℕ} (z a : Fin n) : Fin n → Fin n :=
  Function.update (Function.update id z a) a z

/-- The value of `local_spin_exchange` at one walker (the code maps over the walkers).  The two
branches are the two definitions chosen by `nelec[0] == 0 or nelec[1] == 0`.
physics/spin.py:112-132 -/
noncomputable def localSpinExchange {α : Type*} {nUp nDown : ℕ}
    (slogPsi : (Fin (nUp + nDown) → α) → SL) (x : Fin (nUp + nDown) → α) : XR :=
  if h : nUp = 0 ∨ nDown = 0 then .fin 0
  else
    let psi := slogPsi x
    let swapped := swappedIndices (n := nUp + nDown) ⟨0, by omega⟩ ⟨nUp, by omega⟩
    let xExchanged : Fin (nUp + nDown) → α := fun i => x (swapped i)
    let psiExchanged := slogPsi xExchanged
    let signOut := psi.1 * psiExchanged.1
    let logOut := psiExchanged.2 - psi.2
    (-XR.ofNat nUp) * XR.ofNat nDown * signOut * XR.exp logOut

/-- `spin_square_expectation`, for walkers distributed over devices.  The mean is
`get_mean_over_first_axis_fn(nan_safe)` (utils/distribute.py:73-94): a local (nan)mean followed
by a mean over devices, which is `allreduceMean`.  physics/spin.py:58-69 -/
noncomputable def spinSquareExpectation {α : Type*} {nUp nDown : ℕ} (nanSafe : Bool)
    (exchange : (Fin (nUp + nDown) → α) → XR) (walkers : List (List (Fin (nUp + nDown) → α))) :
    XR :=
  .fin (0.25 * ((nUp : ℝ) - nDown) ^ 2) + .fin (0.5 * ((nUp : ℝ) + nDown)) +
    allreduceMean nanSafe (walkers.map fun dev => dev.map exchange)

end Verif.Spin
