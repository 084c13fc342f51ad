import Verif.Model.BatchedGeneric
import Verif.Model.BatchedDevices
import Verif.Model.BatchedSpin

/-!
The generic gradient estimator and the spin-square estimator on several devices, as array code.  An array with a leading
axis of devices is the list of its slices.
-/

namespace Verif.Arrays
open Verif.Energy Verif.Slog

variable {K P : Type}

/-- `generic_energy_val_and_grad` on several devices: energy, auxiliary data, and the gradient of each device, before the
mean over the devices which the optimizers take.  The mean of the gradients of the local energies is already one over
all devices; the transpose of `pmean` adds up to 1, so that the standard contribution is the mean over the walkers of
this device.  physics/core.py:369-398 -/
noncomputable def genericValueAndGradDevicesA (grad : (P → Except String XR) → XR)
    (localEnergy : P → Arr ℝ → K → Except String (Arr XR)) (logPsi : P → Arr ℝ → Except String (Arr XR))
    (nchains : ℕ) (nanSafe : Bool) (params : P) (key : K) (positions : List (Arr ℝ)) :
    Except String (XR × Aux × List XR) := do
  let es ← positions.mapM fun x => vmapKeysA (localEnergy params) x fun _ => key
  let grads := positions.map fun x => (List.range (x.shape.getLastD 0)).map fun t =>
    grad fun params' => (localEnergy params' (x.part [t]) key).map fun y => y.get []
  let generic := allreduceMean nanSafe grads
  let r := getClipped (es.map entriesA) nchains none nanSafe
  return (r.1, r.2.2, (positions.zip r.2.1).map fun xe =>
    grad (fun params' => forwardA logPsi nchains nanSafe params' xe.1 (centeredA xe.2 r.1)) + generic)

/-- `spin_square_expectation` on several devices; all devices return the same number.  physics/spin.py:60-67 -/
noncomputable def spinSquareDevicesA (slogPsi : Arr ℝ → Except String (Arr SL)) (nUp nDown : ℕ) (nanSafe : Bool)
    (x : List (Arr ℝ)) : Except String XR := do
  let out ← x.mapM fun x => spinExchangeA slogPsi nUp nDown x
  return .fin (0.25 * ((nUp : ℝ) - nDown) ^ 2) + .fin (0.5 * ((nUp : ℝ) + nDown)) +
    allreduceMean nanSafe (out.map entriesA)

end Verif.Arrays
