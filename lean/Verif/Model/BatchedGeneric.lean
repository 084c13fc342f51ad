import Verif.Model.BatchedTypes

/-!
The generic gradient estimator as array code.
-/

namespace Verif.Arrays
open Verif.Energy

variable {K P : Type}

/-- `generic_energy_val_and_grad`, used for local energies integrated by parts: local energies with one key (`None`) for
all walkers, estimates without clipping, and the sum of the standard contribution and the mean of the gradients of the
local energies.  `grad` is `jax.grad`, for one entry of the parameters or along one direction; one device.
physics/core.py:369-398 -/
noncomputable def genericValueAndGradA (grad : (P → Except String XR) → XR)
    (localEnergy : P → Arr ℝ → K → Except String (Arr XR)) (logPsi : P → Arr ℝ → Except String (Arr XR))
    (nchains : ℕ) (nanSafe : Bool) (params : P) (key : K) (positions : Arr ℝ) :
    Except String (XR × Aux × XR) := do
  let es ← vmapKeysA (localEnergy params) positions fun _ => key
  let grads := (List.range (positions.shape.getLastD 0)).map fun t =>
    grad fun params' => (localEnergy params' (positions.part [t]) key).map fun y => y.get []
  let generic := allreduceMean nanSafe [grads]
  let r := getClipped [entriesA es] nchains none nanSafe
  let standard := grad fun params' =>
    forwardA logPsi nchains nanSafe params' positions (centeredA r.2.1.flatten r.1)
  return (r.1, r.2.2, standard + generic)

end Verif.Arrays
