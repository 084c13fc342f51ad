import Verif.Model.BatchedPotential
import Verif.Lemmas.ArrayViews

/-!
The local energies of a batch of walkers, as training and evaluations compute them: the local energy function is
written for one walker and mapped over the walkers.
-/

namespace Verif.Arrays
open Verif.Slog Verif.Phys

/-- `slog_psi_to_log_psi_apply`.  models/construct.py:99-105 -/
noncomputable def logPsiA (slogPsi : Arr ℝ → Except String (Arr SL)) (x : Arr ℝ) : Except String (Arr XR) :=
  (slogPsi x).map fun y => y.map Prod.snd

/-- The number in an array without axes which `jax.grad` differentiates.  Simplification: derivatives are those of
real functions, and where there is no finite number it is 0 here. -/
noncomputable def scalarOf : Except String (Arr XR) → ℝ
  | .ok y => match y.get [] with
    | .fin r => r
    | _ => 0
  | .error _ => 0

/-- `create_laplacian_kinetic_energy`; `jax.grad` raises if the function returns an array with axes, as it does
for a batch.  physics/kinetic.py:10-32, physics/core.py:97-182 -/
noncomputable def kineticA (logPsi : Arr ℝ → Except String (Arr XR)) (x : Arr ℝ) : Except String (Arr XR) := do
  let y ← logPsi x
  match y.shape, x.shape with
  | [], [d, n] => return .of [] fun _ =>
      laplacianKinetic (fun pos : Pos n d => scalarOf (logPsi (A2 pos))) fun i k => x.get [k.val, i.val]
  | _, _ => .error "Gradient only defined for scalar-output functions"

/-- The standard local energy of a molecule.  train/runners.py:232-246, physics/core.py:72-94 -/
noncomputable def localEnergyA (logPsi : Arr ℝ → Except String (Arr XR)) (ions charges : Arr ℝ)
    (eiSoftening eeSoftening : ℝ) : Arr ℝ → Except String (Arr XR) :=
  combineTermsA [kineticA logPsi, electronIonA ions charges 1 eiSoftening none,
    electronElectronA 1 eeSoftening none, ionIonA ions charges]

/-- `jax.vmap(f, in_axes=0, out_axes=0)` for at least one walker: `f` of each walker, along a new first axis.
physics/core.py:346-348, updates/params.py:256-258 -/
noncomputable def vmapA (f : Arr ℝ → Except String (Arr XR)) (x : Arr ℝ) : Except String (Arr XR) := do
  let ys ← (List.range (x.shape.getLastD 0)).mapM fun t => f (x.part [t])
  match ys with
  | [] => .error "at least one walker"
  | y :: _ => return .of (y.shape ++ [ys.length]) fun i => (ys.getD (i.getLastD 0) y).get i.dropLast

end Verif.Arrays
