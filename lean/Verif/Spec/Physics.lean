import Mathlib.Data.Real.Basic
import Mathlib.Analysis.Real.Sqrt
import Mathlib.Algebra.BigOperators.Group.Finset.Basic
import Mathlib.Data.Fintype.BigOperators
import Mathlib.Analysis.Calculus.Deriv.Basic

/-!
The molecular Hamiltonian in plain mathematics: distances, Coulomb sums over pairs, and
derivatives of a function of all coordinates.
-/

namespace Verif.Spec

variable {n m d : ℕ}

/-- distance of two points, softened by `s` (plain Euclidean distance for `s = 0`) -/
noncomputable def softDist (s : ℝ) (a b : Fin d → ℝ) : ℝ :=
  Real.sqrt ((∑ k, (a k - b k) ^ 2) + s ^ 2)

/-- the unordered pairs of `n` labels, each listed once with the smaller label first -/
def pairs (n : ℕ) : Finset (Fin n × Fin n) := Finset.univ.filter fun p => p.1 < p.2

/-- repulsion of `n` electrons -/
noncomputable def coulombEE (strength s : ℝ) (x : Fin n → Fin d → ℝ) : ℝ :=
  ∑ p ∈ pairs n, strength / softDist s (x p.1) (x p.2)

/-- attraction of electrons and ions -/
noncomputable def coulombEI (strength s : ℝ) (R : Fin m → Fin d → ℝ) (Z : Fin m → ℝ)
    (x : Fin n → Fin d → ℝ) : ℝ :=
  -∑ p : Fin n × Fin m, strength * (Z p.2 / softDist s (x p.1) (R p.2))

/-- repulsion of ions -/
noncomputable def coulombII (R : Fin m → Fin d → ℝ) (Z : Fin m → ℝ) : ℝ :=
  ∑ p ∈ pairs m, Z p.1 * Z p.2 / softDist 0 (R p.1) (R p.2)

/-- no two distinct labels at the same place -/
def Distinct (x : Fin n → Fin d → ℝ) : Prop := ∀ i j, i ≠ j → x i ≠ x j

/-- no electron on an ion -/
def Apart (x : Fin n → Fin d → ℝ) (R : Fin m → Fin d → ℝ) : Prop := ∀ i I, x i ≠ R I

/-- a map of space that keeps all distances: translations, rotations, reflections, ... -/
def Rigid (T : (Fin d → ℝ) → Fin d → ℝ) : Prop :=
  ∀ a b, ∑ k, (T a k - T b k) ^ 2 = ∑ k, (a k - b k) ^ 2

/-- move coordinate `k` of electron `i` by `t` -/
def shift (x : Fin n → Fin d → ℝ) (i : Fin n) (k : Fin d) (t : ℝ) : Fin n → Fin d → ℝ :=
  Function.update x i (Function.update (x i) k (x i k + t))

/-- first partial derivative of `f` at `x` -/
noncomputable def partial1 (f : (Fin n → Fin d → ℝ) → ℝ) (i : Fin n) (k : Fin d)
    (x : Fin n → Fin d → ℝ) : ℝ := deriv (fun t => f (shift x i k t)) 0

/-- second partial derivative of `f` at `x` -/
noncomputable def partial2 (f : (Fin n → Fin d → ℝ) → ℝ) (i : Fin n) (k : Fin d)
    (x : Fin n → Fin d → ℝ) : ℝ := deriv (deriv (fun t => f (shift x i k t))) 0

/-- what coordinate `(i, k)` contributes to `(∇² ψ)/ψ` when `f = log|ψ|` -/
noncomputable def coordLaplacian (f : (Fin n → Fin d → ℝ) → ℝ) (x : Fin n → Fin d → ℝ)
    (i : Fin n) (k : Fin d) : ℝ := partial1 f i k x ^ 2 + partial2 f i k x

end Verif.Spec

namespace Verif.Spec

variable {n m d : ℕ}

/-- kinetic energy `-½ ∇²ψ / ψ` from `f = log|ψ|` -/
noncomputable def kineticLaplacian (f : (Fin n → Fin d → ℝ) → ℝ) (x : Fin n → Fin d → ℝ) : ℝ :=
  -(1 / 2) * ∑ i, ∑ k, coordLaplacian f x i k

/-- kinetic energy `½ |∇ψ / ψ|²` from `f = log|ψ|` -/
noncomputable def kineticGradient (f : (Fin n → Fin d → ℝ) → ℝ) (x : Fin n → Fin d → ℝ) : ℝ :=
  1 / 2 * ∑ i, ∑ k, partial1 f i k x ^ 2

/-- `-½ Σ Z r` over electron-ion pairs, whose Laplacian in 3D is the electron-ion energy -/
noncomputable def coneEI (s : ℝ) (R : Fin m → Fin d → ℝ) (Z : Fin m → ℝ)
    (x : Fin n → Fin d → ℝ) : ℝ :=
  -∑ p : Fin n × Fin m, Z p.2 / 2 * softDist s (x p.1) (R p.2)

/-- `¼ Σ r` over electron pairs, whose Laplacian in 3D is the electron-electron energy -/
noncomputable def coneEE (s : ℝ) (x : Fin n → Fin d → ℝ) : ℝ :=
  ∑ p ∈ pairs n, softDist s (x p.1) (x p.2) / 4

/-- the integrated-by-parts form `-2 ∇log|ψ| · ∇U` of a term with cone `U` -/
noncomputable def ibpForm (f U : (Fin n → Fin d → ℝ) → ℝ) (x : Fin n → Fin d → ℝ) : ℝ :=
  -2 * ∑ i, ∑ k, partial1 f i k x * partial1 U i k x

/-- the first `k` of the `n` labels -/
def firstLabels (n k : ℕ) : Finset (Fin n) := Finset.univ.filter fun i => i.val < k

/-- kinetic energy of the sampled electrons `σ 0, ..., σ (k-1)`, rescaled -/
noncomputable def sampledKinetic (k : ℕ) (σ : Equiv.Perm (Fin n))
    (f : (Fin n → Fin d → ℝ) → ℝ) (x : Fin n → Fin d → ℝ) : ℝ :=
  (n : ℝ) / k * (-(1 / 2) * ∑ i ∈ firstLabels n k, ∑ c, coordLaplacian f x (σ i) c)

/-- electron-ion energy of the sampled electrons, rescaled -/
noncomputable def sampledEI (k : ℕ) (σ : Equiv.Perm (Fin n)) (s : ℝ) (R : Fin m → Fin d → ℝ)
    (Z : Fin m → ℝ) (x : Fin n → Fin d → ℝ) : ℝ :=
  (n : ℝ) / k * -∑ i ∈ firstLabels n k, ∑ I, Z I / softDist s (x (σ i)) (R I)

/-- half the repulsion of each sampled electron with all other electrons, rescaled -/
noncomputable def sampledEE (k : ℕ) (σ : Equiv.Perm (Fin n)) (s : ℝ)
    (x : Fin n → Fin d → ℝ) : ℝ :=
  (n : ℝ) / k * ((∑ i ∈ firstLabels n k, ∑ j, if j ≠ σ i then 1 / softDist s (x (σ i)) (x j)
    else 0) / 2)

end Verif.Spec
