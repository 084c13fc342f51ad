import Verif.Model.Network
import Verif.Model.XRSum

/-!
Forward-mode automatic differentiation of the distance features: numbers with a tangent, and the
rules of jax for the operations used.  Constants have no tangent (symbolic zero in jax), so sums
and products with constants are separate operations.
-/

namespace Verif.Dual
open Verif.Net

/-- A number and its tangent. -/
structure D where
  v : XR
  t : XR

/-- `jax.lax.add` of a constant. -/
noncomputable def addConst (a : D) (c : ℝ) : D := ⟨a.v + .fin c, a.t⟩

/-- `jax.lax.sub`. -/
noncomputable def sub (a b : D) : D := ⟨a.v - b.v, a.t - b.t⟩

/-- `jax.lax.mul` with a constant. -/
noncomputable def mulConst (a : D) (c : ℝ) : D := ⟨a.v * .fin c, a.t * .fin c⟩

/-- `jax.lax.mul`: `g * y + x * g'`. -/
noncomputable def mul (a b : D) : D := ⟨a.v * b.v, a.t * b.v + a.v * b.t⟩

/-- `jax.lax.integer_pow` with exponent 2: `g * (2 * x)`. -/
noncomputable def square (a : D) : D := ⟨a.v * a.v, a.t * (.fin 2 * a.v)⟩

/-- `jax.lax.sqrt`: `g * (0.5 / ans)`. -/
noncomputable def sqrt (a : D) : D :=
  ⟨XR.sqrt a.v, a.t * (.fin (1 / 2) / XR.sqrt a.v)⟩

/-- `jnp.sum` over one axis. -/
noncomputable def sum {d : ℕ} (a : Fin d → D) : D := ⟨∑ k, (a k).v, ∑ k, (a k).t⟩

/-- `jnp.linalg.norm(x, axis=-1)`: `sqrt(sum(x * x))`. -/
noncomputable def norm {d : ℕ} (x : Fin d → D) : D := sqrt (sum fun k => mul (x k) (x k))

/-- `sqrt(r**2 + c**2) - c`.  models/core.py:65, models/equivariance.py:147-149 -/
noncomputable def softened (r : D) (c : ℝ) : D :=
  addConst (sqrt (addConst (square r) (c ^ 2))) (-c)

/-- `compute_ee_norm_with_safe_diag`.  models/core.py:45-66 -/
noncomputable def eeNormSafeDiag {α : Type*} [DecidableEq α] {d : ℕ} (c : ℝ)
    (ree : α → α → Fin d → D) (i j : α) : D :=
  let eye : ℝ := if i = j then 1 else 0
  mulConst (softened (norm fun k => addConst (ree i j k) eye) c) (1 - eye)

/-- The softened electron-ion norm.  models/equivariance.py:145-149 -/
noncomputable def eiNorm {d : ℕ} (c : ℝ) (rei : Fin d → D) : D := softened (norm rei) c

/-- Positions moving with velocities `u`. -/
def moving {α : Type*} {d : ℕ} (x u : α → Fin d → ℝ) (i : α) (k : Fin d) : D :=
  ⟨.fin (x i k), .fin (u i k)⟩

/-- `compute_displacements(x, x)`.  physics/potential.py:11-21 -/
noncomputable def eeDisplacements {α : Type*} {d : ℕ} (x : α → Fin d → D) (i j : α) (k : Fin d) : D :=
  sub (x i k) (x j k)

/-- `compute_displacements(x, ions)`; the ions do not move.  physics/potential.py:11-21 -/
noncomputable def eiDisplacements {α β : Type*} {d : ℕ} (x : α → Fin d → D) (R : β → Fin d → ℝ) (i : α)
    (j : β) (k : Fin d) : D := addConst (x i k) (-R j k)

end Verif.Dual
