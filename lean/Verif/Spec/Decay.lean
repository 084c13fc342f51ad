import Verif.Spec.Physics
import Verif.Spec.ConstructValue
import Mathlib.MeasureTheory.Measure.Lebesgue.Basic
import Mathlib.MeasureTheory.Constructions.Pi
import Mathlib.MeasureTheory.Integral.Bochner.Basic

/-!
Exponential decay of wave functions, the configurations and parameters for which it is claimed, and
the energy of a wave function.
-/

namespace Verif.Spec
open Verif.Construct Verif.Net MeasureTheory

section bounds

variable {N m d : ℕ}

/-- No two electrons and no electron and ion coincide. -/
def Good (R : Fin m → Fin d → ℝ) (x : Fin N → Fin d → ℝ) : Prop := Distinct x ∧ Apart x R

/-- One plus the inverse distances of all electrons from ions and from each other. -/
noncomputable def sing (R : Fin m → Fin d → ℝ) (x : Fin N → Fin d → ℝ) : ℝ :=
  1 + (∑ i, ∑ j, 1 / softDist 0 (x i) (R j)) + ∑ i, ∑ j, 1 / softDist 0 (x i) (x j)

/-- `ψ` and its first derivatives decay exponentially with rate `β`, and so do its second
derivatives up to Coulomb singularities. -/
structure Bounded (R : Fin m → Fin d → ℝ) (ψ : (Fin N → Fin d → ℝ) → ℝ) (β C : ℝ) : Prop where
  value : ∀ x, Good R x → |ψ x| ≤ C * Real.exp (-(β * ∑ e, ‖x e‖))
  first : ∀ i k x, Good R x → |partial1 ψ i k x| ≤ C * Real.exp (-(β * ∑ e, ‖x e‖))
  second : ∀ i k x, Good R x →
    |partial2 ψ i k x| ≤ C * Real.exp (-(β * ∑ e, ‖x e‖)) * sing R x

/-- The energy of a wave function in the potential `V`: `∫ (½|∇ψ|² + Vψ²) / ∫ ψ²`. -/
noncomputable def rayleigh (ψ V : (Fin N → Fin d → ℝ) → ℝ) : ℝ :=
  (∫ x, (1 / 2 * (∑ i, ∑ k, partial1 ψ i k x ^ 2) + V x * ψ x ^ 2)) / ∫ x, ψ x ^ 2

end bounds

variable {K nion d : ℕ}

/-- An envelope which decays in all directions: its isotropic decay is not zero, or the matrices
which scale displacements are invertible. -/
def EnvelopeDecays (isotropic : Bool) (isoK : ℝ) (anisoK : Fin nion → Fin d → Fin d → ℝ) : Prop :=
  if isotropic = true then isoK ≠ 0
  else ∀ j (v : Fin d → ℝ), (∀ l', ∑ l, v l * anisoK j l l' = 0) → v = 0

/-- All envelopes of a layer of orbitals decay. -/
def LayerDecays (isotropic : Bool) {S m : ℕ} {norb : Fin S → ℕ}
    (L : OrbitalLayer S m nion d norb) : Prop :=
  ∀ s o, EnvelopeDecays isotropic (L.isoKernel s o) fun j l l' => L.anisoKernel s j l l' o

/-- All envelopes which matter for antiequivariant values decay; cofactors get the options of
C50. -/
def AntiDecays (c : ModelCfg) (P : Params (K + 1) nion d) (n : Fin (K + 1) → ℕ) : Prop :=
  if c.type = "per_particle_dets_net" then
    ∀ m s o, EnvelopeDecays c.isotropicDecay ((P.doubly m n).envelopes.isoKernel s o) fun j l l' =>
      (P.doubly m n).envelopes.anisoKernel s j l l' o
  else ∀ m, LayerDecays false (P.orbitals m n)

/-- Which Jastrow factors decay: those of one body with a strength, and those of two bodies with
an attraction which exceeds the repulsion by all other electrons. -/
def JastrowDecays (c : ModelCfg) (P : Params (K + 1) nion d) (charges : Fin nion → ℝ)
    (n : Fin (K + 1) → ℕ) : Prop :=
  (c.jastrow.type = "one_body_decay" ∧ P.oneBodyKernel 0 ≠ 0 ∧ 0 < nion) ∨
  (c.jastrow.type = "two_body_decay" ∧
    max (if c.jastrow.trainable = true then P.eeStrength else c.jastrow.initEeStrength) 0 *
      ((∑ s, n s : ℕ) - 1) < ∑ j, (if c.jastrow.trainable = true then P.eiStrength else charges) j)

/-- Configurations and parameters for which the wave function decays: every envelope decays, or the
Jastrow factor does; odd backflows do without attention.  Hidden particles with positions of their
own and Jastrow factors based on lengths of features are left out. -/
def Decays (c : ModelCfg) (P : Params (K + 1) nion d) (charges : Fin nion → ℝ)
    (n : Fin (K + 1) → ℕ) : Prop :=
  ((c.type = "ferminet" ∨ c.type = "extended_orbital_matrix_ferminet") ∧
    ∀ m norb, LayerDecays c.isotropicDecay (P.orbitals m norb)) ∨
  ((c.type = "orbital_cofactor_net" ∨ c.type = "per_particle_dets_net") ∧ AntiDecays c P n ∧
    (c.useProductsCovariance = false → c.invarianceBackflow.useTransformer = false)) ∨
  (c.type = "explicit_antisym" ∧ JastrowDecays c P charges n)

end Verif.Spec
