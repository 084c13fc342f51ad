import Verif.Model.Network
import Mathlib.LinearAlgebra.Matrix.Determinant.Basic

/-!
Antiequivariant layers: `models/antiequivariance.py`, and the orbital layer with one matrix per
particle from `models/equivariance.py`.  Conventions as in `Model/Network.lean`.
-/

namespace Verif.Antieq
open Verif.Slog Verif.Net

variable {S : ℕ} {n : Fin S → ℕ}

/-- `jnp.delete(x, i)` along an axis of length `k + 1`. -/
def delete {k : ℕ} {α : Type*} (i : Fin (k + 1)) (v : Fin (k + 1) → α) : Fin k → α :=
  fun a => v (i.succAbove a)

/-- `get_submatrices_along_first_col` of one `(n, m)` matrix: raises unless `n = m`; submatrix `i`
lacks row `i` and column 0.  For `n = 0` stacking the empty list raises.
models/antiequivariance.py:22-44 -/
def getSubmatrices : {n m : ℕ} → (Fin n → Fin m → ℝ) →
    Except String (Fin n → Matrix (Fin (n - 1)) (Fin (n - 1)) ℝ)
  | 0, 0, _ => .error "Need at least one array to stack."
  | k + 1, m, x =>
    if h : k + 1 = m then
      .ok fun i => Matrix.of fun a b => (delete 0 ((delete i x) a ∘ Fin.cast h)) b
    else .error "Calculating cofactors requires shape (..., n, n)"
  | 0, _ + 1, _ => .error "Calculating cofactors requires shape (..., n, n)"

/-- The first column `x[..., 0]` of a matrix with as many columns as rows. -/
def firstCol {n m : ℕ} (x : Fin n → Fin m → ℝ) (i : Fin n) : ℝ :=
  if h : 0 < m then x i ⟨0, h⟩ else 0

/-- `cofactor_antieq`.  models/antiequivariance.py:47-78 -/
noncomputable def cofactorAntieq {n m : ℕ} (x : Fin n → Fin m → ℝ) : Except String (Fin n → ℝ) :=
  (getSubmatrices x).map fun submats i =>
    firstCol x i * ((Antisym.getAlternatingSigns n).getD i 0 * (submats i).det)

/-- `slog_cofactor_antieq`.  models/antiequivariance.py:81-110 -/
noncomputable def slogCofactorAntieq {n m : ℕ} (x : Fin n → Fin m → ℝ) :
    Except String (Fin n → SL) :=
  (getSubmatrices x).map fun submats i =>
    let o := arrayToSlog (.fin (firstCol x i))
    let c := Antisym.slogdet (submats i)
    (o.1 * c.1 * .fin ((Antisym.getAlternatingSigns n).getD i 0), o.2 + c.2)

/-- `multiply_antieq_by_eq_features`: piece `s`, electron `i`, feature `k`.
models/antiequivariance.py:113-131 -/
def multiplyByEqFeatures {d : ℕ} (antieq : ∀ s, Fin (n s) → Fin 1 → ℝ) (eq : Stream1 n d)
    (s : Fin S) (i : Fin (n s)) (k : Fin d) : ℝ := eq ⟨s, i⟩ k * antieq s i 0

/-- The orbital layer which `OrbitalCofactorAntiequivarianceLayer` really builds: the options are
passed by position, so `orbitals_use_bias` lands in `envelope_softening` (`True` acts as 1),
`isotropic_decay` lands in `use_bias`, and `isotropic_decay` keeps its default `False`.
models/antiequivariance.py:230-239 (and 316-325), models/equivariance.py:803-812 -/
def cofactorOrbitalLayer {d1 nion d : ℕ} {norb : Fin S → ℕ} (P : OrbitalLayer S d1 nion d norb)
    (orbitalsUseBias isotropicDecay : Bool) : OrbitalLayer S d1 nion d norb :=
  { P with
    envelopeSoftening := if orbitalsUseBias then 1 else 0
    useBias := isotropicDecay
    isotropicDecay := false }

/-- `OrbitalCofactorAntiequivarianceLayer.__call__`: one column of cofactor terms per species.
models/antiequivariance.py:204-245 -/
noncomputable def cofactorLayer {d1 nion d : ℕ} (P : OrbitalLayer S d1 nion d n)
    (orbitalsUseBias isotropicDecay : Bool) (x : Stream1 n d1)
    (rei : Option (Elec n → Fin nion → Fin d → ℝ)) (s : Fin S) :
    Except String (Fin (n s) → Fin 1 → ℝ) :=
  (cofactorAntieq ((cofactorOrbitalLayer P orbitalsUseBias isotropicDecay).apply x rei s)).map
    fun c i _ => c i

/-- Parameters of `DoublyEquivariantOrbitalLayer`: the dense kernel acts on the concatenation of
the features of two electrons.  models/equivariance.py:899-906 -/
structure DoublyLayer (S d1 nion d : ℕ) (norb : Fin S → ℕ) where
  kernel : ∀ s, Fin d1 ⊕ Fin d1 → Fin (norb s) → ℝ
  bias : ∀ s, Fin (norb s) → ℝ
  envelopes : OrbitalLayer S d1 nion d norb
  useBias : Bool
  isotropicDecay : Bool

/-- `DoublyEquivariantOrbitalLayer.__call__`: entry `(i, j)` of the matrix of electron `p`; the
dense inputs are the features of `p` followed by those of `i`, and the (unsoftened) envelope of
electron `i` multiplies every matrix.  models/equivariance.py:916-1005 -/
noncomputable def DoublyLayer.apply {d1 nion d : ℕ} {norb : Fin S → ℕ}
    (L : DoublyLayer S d1 nion d norb) (x : Stream1 n d1)
    (rei : Option (Elec n → Fin nion → Fin d → ℝ)) (s : Fin S) (p i : Fin (n s))
    (o : Fin (norb s)) : ℝ :=
  let orb := dense L.useBias (L.kernel s) (L.bias s) (Sum.elim (x ⟨s, p⟩) (x ⟨s, i⟩)) o
  match rei with
  | none => orb
  | some r => orb * envelope
      { L.envelopes with envelopeSoftening := 0, isotropicDecay := L.isotropicDecay } s (r ⟨s, i⟩) o

/-- `PerParticleDeterminantAntiequivarianceLayer.__call__`; here the options reach the orbital
layer because it has no softening field.  models/antiequivariance.py:382-416 -/
noncomputable def perParticleDetLayer {d1 nion d : ℕ} (P : DoublyLayer S d1 nion d n)
    (orbitalsUseBias isotropicDecay : Bool) (x : Stream1 n d1)
    (rei : Option (Elec n → Fin nion → Fin d → ℝ)) (s : Fin S) (p : Fin (n s)) (_ : Fin 1) : ℝ :=
  Matrix.det (Matrix.of fun i o =>
    DoublyLayer.apply { P with useBias := orbitalsUseBias, isotropicDecay := isotropicDecay }
      x rei s p i o)

/-- `SLogPerParticleDeterminantAntiequivarianceLayer.__call__`.
models/antiequivariance.py:466-501 -/
noncomputable def slogPerParticleDetLayer {d1 nion d : ℕ} (P : DoublyLayer S d1 nion d n)
    (orbitalsUseBias isotropicDecay : Bool) (x : Stream1 n d1)
    (rei : Option (Elec n → Fin nion → Fin d → ℝ)) (s : Fin S) (p : Fin (n s)) (_ : Fin 1) : SL :=
  Antisym.slogdet (Matrix.of fun i o =>
    DoublyLayer.apply { P with useBias := orbitalsUseBias, isotropicDecay := isotropicDecay }
      x rei s p i o)

end Verif.Antieq
