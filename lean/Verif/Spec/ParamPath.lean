import Verif.Spec.Decay
import Mathlib.Analysis.Calculus.ContDiff.Defs

/-!
Parameters which depend on a number, or on any other argument: a condition on all of their entries.
-/

namespace Verif.Spec
open Verif.Construct Verif.Net

variable {E : Type*}

/-- Every entry of the parameters of a dense layer satisfies `Q`, as a function of the argument. -/
structure DenseEntries (Q : (E → ℝ) → Prop) {m m' : ℕ} (P : E → DenseParams m m') : Prop where
  kernel : ∀ a j, Q fun θ => (P θ).kernel a j
  bias : ∀ j, Q fun θ => (P θ).bias j

/-- Every entry of the parameters of a ResNet satisfies `Q`. -/
structure ResNetEntries (Q : (E → ℝ) → Prop) (P : E → ResNetParams) : Prop where
  inner : ∀ b m m', DenseEntries Q fun θ => (P θ).inner b m m'
  final : ∀ m m', DenseEntries Q fun θ => (P θ).final m m'

/-- Every entry of the parameters of an attention layer satisfies `Q`. -/
structure AttentionEntries (Q : (E → ℝ) → Prop) {m H m' : ℕ} (A : E → Attention m H m') : Prop where
  qKernel : ∀ a h b, Q fun θ => (A θ).qKernel a h b
  qBias : ∀ h b, Q fun θ => (A θ).qBias h b
  kKernel : ∀ a h b, Q fun θ => (A θ).kKernel a h b
  kBias : ∀ h b, Q fun θ => (A θ).kBias h b
  vKernel : ∀ a h b, Q fun θ => (A θ).vKernel a h b
  vBias : ∀ h b, Q fun θ => (A θ).vBias h b
  oKernel : ∀ h a b, Q fun θ => (A θ).oKernel h a b
  oBias : ∀ b, Q fun θ => (A θ).oBias b

/-- Every entry of the parameters of a one-electron layer satisfies `Q`. -/
structure OneEntries (Q : (E → ℝ) → Prop) {S m₁ m₂ m H : ℕ} (P : E → OneParams S m₁ m₂ m H) :
    Prop where
  unmixedKernel : ∀ a j, Q fun θ => (P θ).unmixedKernel a j
  bias : ∀ j, Q fun θ => (P θ).bias j
  attention : AttentionEntries Q fun θ => (P θ).attention
  mixedKernel : ∀ p j, Q fun θ => (P θ).mixedKernel p j
  kernel2e : ∀ p j, Q fun θ => (P θ).kernel2e p j

/-- Every entry of the parameters of a backflow satisfies `Q`. -/
structure BackflowEntries (Q : (E → ℝ) → Prop) {S : ℕ} (P : E → BackflowParams S) : Prop where
  one : ∀ b m₁ m₂ m H, OneEntries Q fun θ => (P θ).one b m₁ m₂ m H
  two : ∀ b m m', DenseEntries Q fun θ => (P θ).two b m m'

/-- Every entry of the parameters of a layer of orbitals satisfies `Q`. -/
structure OrbitalEntries (Q : (E → ℝ) → Prop) {S m nion d : ℕ} {norb : Fin S → ℕ}
    (L : E → OrbitalLayer S m nion d norb) : Prop where
  kernel : ∀ s a o, Q fun θ => (L θ).kernel s a o
  bias : ∀ s o, Q fun θ => (L θ).bias s o
  isoKernel : ∀ s o, Q fun θ => (L θ).isoKernel s o
  anisoKernel : ∀ s j l l' o, Q fun θ => (L θ).anisoKernel s j l l' o
  ionKernel : ∀ s o j, Q fun θ => (L θ).ionKernel s o j

/-- Every entry of the parameters of a layer of orbitals of pairs satisfies `Q`. -/
structure DoublyEntries (Q : (E → ℝ) → Prop) {S m nion d : ℕ} {norb : Fin S → ℕ}
    (L : E → Antieq.DoublyLayer S m nion d norb) : Prop where
  kernel : ∀ s a o, Q fun θ => (L θ).kernel s a o
  bias : ∀ s o, Q fun θ => (L θ).bias s o
  envelopes : OrbitalEntries Q fun θ => (L θ).envelopes

/-- Every entry of the parameters of an invariant layer satisfies `Q`. -/
structure InvariantEntries (Q : (E → ℝ) → Prop) {S m : ℕ} {rows cols : Fin S → ℕ}
    (J : E → InvariantDense S m rows cols) : Prop where
  kernel : ∀ s a o, Q fun θ => (J θ).kernel s a o
  bias : ∀ s o, Q fun θ => (J θ).bias s o

/-- Every entry of the parameters of a model satisfies `Q`. -/
structure Entries (Q : (E → ℝ) → Prop) {S nion d : ℕ} (P : E → Params S nion d) : Prop where
  backflow : BackflowEntries Q fun θ => (P θ).backflow
  invBackflow : BackflowEntries Q fun θ => (P θ).invBackflow
  jastrowBackflow : BackflowEntries Q fun θ => (P θ).jastrowBackflow
  covBackflow : BackflowEntries Q fun θ => (P θ).covBackflow
  orbitals : ∀ m norb, OrbitalEntries Q fun θ => (P θ).orbitals m norb
  doubly : ∀ m norb, DoublyEntries Q fun θ => (P θ).doubly m norb
  invariance : ∀ m rows cols, InvariantEntries Q fun θ => (P θ).invariance m rows cols
  detFn : ResNetEntries Q fun θ => (P θ).detFn
  productsKernel : ∀ a b, Q fun θ => (P θ).productsKernel a b
  oneBodyKernel : ∀ a, Q fun θ => (P θ).oneBodyKernel a
  eiStrength : ∀ j, Q fun θ => (P θ).eiStrength j
  eeStrength : Q fun θ => (P θ).eeStrength
  resnets : ∀ s r, ResNetEntries Q fun θ => (P θ).resnets s r

/-- All parameters are continuously differentiable functions of one number. -/
def SmoothPath {S nion d : ℕ} (P : ℝ → Params S nion d) : Prop := Entries (ContDiff ℝ 1) P

end Verif.Spec
