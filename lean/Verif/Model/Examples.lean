import Verif.Model.Physics
import Mathlib.LinearAlgebra.Matrix.Determinant.Basic

/-!
The two exactly solvable systems: `examples/harmonic_oscillator.py` and
`examples/hydrogen_like_atom.py`, for one walker.  Log-amplitudes are real valued (walkers off
the nodes).
-/

namespace Verif.Examples
open Verif.Phys

/-- The list `H` of Hermite polynomial values at one point, built by the loop
`for n in range(2, nparticles)`; `[1]` for one particle.
examples/harmonic_oscillator.py:29-39 -/
def hermiteList (nparticles : ℕ) (x : ℝ) : List ℝ :=
  if nparticles = 1 then [1]
  else (List.range' 2 (nparticles - 2)).foldl
    (fun H n => H ++ [2 * x * H.getD (n - 1) 0 - 2 * ((n : ℝ) - 1) * H.getD (n - 2) 0]) [1, 2 * x]

/-- `make_hermite_polynomials`: entry (i, j) is the j-th polynomial at point i.  Concatenation
along the last axis; the result is `(n, n)` for `n ≥ 1` (for `n = 0` the code returns a
`(0, 2)` array, not modelled).  examples/harmonic_oscillator.py:12-39 -/
def makeHermitePolynomials {n : ℕ} (x : Fin n → ℝ) : Matrix (Fin n) (Fin n) ℝ :=
  fun i j => (hermiteList n (x i)).getD j.val 0

/-- `HarmonicOscillatorOrbitals._single_leaf_call`; `kernel` is the single entry of the 1x1
Dense kernel (initialised to `sqrt(omega_init)`), no bias.
examples/harmonic_oscillator.py:97-114 -/
noncomputable def oscillatorOrbitals {n : ℕ} (kernel : ℝ) (x : Pos n 1) :
    Matrix (Fin n) (Fin n) ℝ :=
  let y : Fin n → ℝ := fun i => ∑ k : Fin 1, x i k * kernel
  fun i j => Real.exp (-(y i ^ 2) / 2) * makeHermitePolynomials y i j

/-- `kernel_init` of the Dense layer: `jnp.sqrt(omega_init)`.
examples/harmonic_oscillator.py:99-105 -/
noncomputable def oscillatorKernelInit (omegaInit : ℝ) : ℝ := Real.sqrt omegaInit

/-- `make_harmonic_oscillator_spin_half_model`: split after `n₁` particles, orbitals per leaf,
`logdet_product` (sum over leaves of log|det|, models/antisymmetry.py:45-63).
examples/harmonic_oscillator.py:121-145 -/
noncomputable def oscillatorLogPsi (n₁ n₂ : ℕ) (kernel : ℝ) (x : Pos (n₁ + n₂) 1) : ℝ :=
  Real.log |(oscillatorOrbitals kernel (fun i : Fin n₁ => x (Fin.castAdd n₂ i))).det| +
    Real.log |(oscillatorOrbitals kernel (fun i : Fin n₂ => x (Fin.natAdd n₁ i))).det|

/-- `harmonic_oscillator_potential`.  examples/harmonic_oscillator.py:148-166 -/
noncomputable def oscillatorPotential {n d : ℕ} (omega : ℝ) (x : Pos n d) : XR :=
  .fin (0.5 * ∑ i, ∑ k, (omega * x i k) ^ 2)

/-- `make_harmonic_oscillator_local_energy` with type "standard".
examples/harmonic_oscillator.py:169-211 -/
noncomputable def oscillatorLocalEnergy {n d : ℕ} {K : Type} (omega : ℝ) (logPsi : Pos n d → ℝ) :
    LocalEnergy n d K :=
  combineTerms (laplacianKinetic logPsi) [oscillatorPotential omega]

/-- `HydrogenLikeWavefunction`: `-(decay * ||x||)` for one electron; the Dense layer is a 1x1
kernel without bias.  examples/hydrogen_like_atom.py:13-49 -/
noncomputable def hydrogenLogPsi {d : ℕ} (decay : ℝ) (x : Pos 1 d) : ℝ :=
  -(∑ i, Real.sqrt (∑ k, x i k ^ 2) * decay)

/-- `make_hydrogen_like_local_energy`: one ion at the origin.
examples/hydrogen_like_atom.py:52-81 -/
noncomputable def hydrogenLocalEnergy {d : ℕ} {K : Type} (logPsi : Pos 1 d → ℝ) (charge : ℝ) :
    LocalEnergy 1 d K :=
  combineTerms (laplacianKinetic logPsi)
    [electronIonPotential (fun (_ : Fin 1) (_ : Fin d) => (0 : ℝ)) (fun _ => charge) 1 0 none]

end Verif.Examples
