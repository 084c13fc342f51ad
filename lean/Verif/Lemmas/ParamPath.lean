import Verif.Spec.ParamPath
import Mathlib.Analysis.Calculus.ContDiff.Basic

/-! Conditions on the entries of parameters. -/

namespace Verif.Spec
open Verif.Construct Verif.Net

variable {E F : Type*} {Q : (E → ℝ) → Prop} {Q' : (F → ℝ) → Prop}

theorem DenseEntries.comp {m m' : ℕ} {P : E → DenseParams m m'} (h : DenseEntries Q P)
    (g : F → E) (hQ : ∀ p, Q p → Q' fun y => p (g y)) : DenseEntries Q' fun y => P (g y) :=
  ⟨fun a0 a1 => hQ _ (h.kernel a0 a1),
    fun a0 => hQ _ (h.bias a0)⟩

theorem DenseEntries.const {m m' : ℕ} (hQ : ∀ c, Q fun _ => c)
    (P : DenseParams m m') : DenseEntries Q fun _ => P :=
  ⟨fun _ _ => hQ _,
    fun _ => hQ _⟩

theorem ResNetEntries.comp {P : E → ResNetParams} (h : ResNetEntries Q P)
    (g : F → E) (hQ : ∀ p, Q p → Q' fun y => p (g y)) : ResNetEntries Q' fun y => P (g y) :=
  ⟨fun a0 a1 a2 => (h.inner a0 a1 a2).comp g hQ,
    fun a0 a1 => (h.final a0 a1).comp g hQ⟩

theorem ResNetEntries.const (hQ : ∀ c, Q fun _ => c)
    (P : ResNetParams) : ResNetEntries Q fun _ => P :=
  ⟨fun _ _ _ => DenseEntries.const hQ _,
    fun _ _ => DenseEntries.const hQ _⟩

theorem AttentionEntries.comp {m H m' : ℕ} {A : E → Attention m H m'} (h : AttentionEntries Q A)
    (g : F → E) (hQ : ∀ p, Q p → Q' fun y => p (g y)) : AttentionEntries Q' fun y => A (g y) :=
  ⟨fun a0 a1 a2 => hQ _ (h.qKernel a0 a1 a2),
    fun a0 a1 => hQ _ (h.qBias a0 a1),
    fun a0 a1 a2 => hQ _ (h.kKernel a0 a1 a2),
    fun a0 a1 => hQ _ (h.kBias a0 a1),
    fun a0 a1 a2 => hQ _ (h.vKernel a0 a1 a2),
    fun a0 a1 => hQ _ (h.vBias a0 a1),
    fun a0 a1 a2 => hQ _ (h.oKernel a0 a1 a2),
    fun a0 => hQ _ (h.oBias a0)⟩

theorem AttentionEntries.const {m H m' : ℕ} (hQ : ∀ c, Q fun _ => c)
    (A : Attention m H m') : AttentionEntries Q fun _ => A :=
  ⟨fun _ _ _ => hQ _,
    fun _ _ => hQ _,
    fun _ _ _ => hQ _,
    fun _ _ => hQ _,
    fun _ _ _ => hQ _,
    fun _ _ => hQ _,
    fun _ _ _ => hQ _,
    fun _ => hQ _⟩

theorem OneEntries.comp {S m₁ m₂ m H : ℕ} {P : E → OneParams S m₁ m₂ m H} (h : OneEntries Q P)
    (g : F → E) (hQ : ∀ p, Q p → Q' fun y => p (g y)) : OneEntries Q' fun y => P (g y) :=
  ⟨fun a0 a1 => hQ _ (h.unmixedKernel a0 a1),
    fun a0 => hQ _ (h.bias a0),
    h.attention.comp g hQ,
    fun a0 a1 => hQ _ (h.mixedKernel a0 a1),
    fun a0 a1 => hQ _ (h.kernel2e a0 a1)⟩

theorem OneEntries.const {S m₁ m₂ m H : ℕ} (hQ : ∀ c, Q fun _ => c)
    (P : OneParams S m₁ m₂ m H) : OneEntries Q fun _ => P :=
  ⟨fun _ _ => hQ _,
    fun _ => hQ _,
    AttentionEntries.const hQ _,
    fun _ _ => hQ _,
    fun _ _ => hQ _⟩

theorem BackflowEntries.comp {S : ℕ} {P : E → BackflowParams S} (h : BackflowEntries Q P)
    (g : F → E) (hQ : ∀ p, Q p → Q' fun y => p (g y)) : BackflowEntries Q' fun y => P (g y) :=
  ⟨fun a0 a1 a2 a3 a4 => (h.one a0 a1 a2 a3 a4).comp g hQ,
    fun a0 a1 a2 => (h.two a0 a1 a2).comp g hQ⟩

theorem BackflowEntries.const {S : ℕ} (hQ : ∀ c, Q fun _ => c)
    (P : BackflowParams S) : BackflowEntries Q fun _ => P :=
  ⟨fun _ _ _ _ _ => OneEntries.const hQ _,
    fun _ _ _ => DenseEntries.const hQ _⟩

theorem OrbitalEntries.comp {S m nion d : ℕ} {norb : Fin S → ℕ} {L : E → OrbitalLayer S m nion d norb}
    (h : OrbitalEntries Q L)
    (g : F → E) (hQ : ∀ p, Q p → Q' fun y => p (g y)) : OrbitalEntries Q' fun y => L (g y) :=
  ⟨fun a0 a1 a2 => hQ _ (h.kernel a0 a1 a2),
    fun a0 a1 => hQ _ (h.bias a0 a1),
    fun a0 a1 => hQ _ (h.isoKernel a0 a1),
    fun a0 a1 a2 a3 a4 => hQ _ (h.anisoKernel a0 a1 a2 a3 a4),
    fun a0 a1 a2 => hQ _ (h.ionKernel a0 a1 a2)⟩

theorem OrbitalEntries.const {S m nion d : ℕ} {norb : Fin S → ℕ} (hQ : ∀ c, Q fun _ => c)
    (L : OrbitalLayer S m nion d norb) : OrbitalEntries Q fun _ => L :=
  ⟨fun _ _ _ => hQ _,
    fun _ _ => hQ _,
    fun _ _ => hQ _,
    fun _ _ _ _ _ => hQ _,
    fun _ _ _ => hQ _⟩

theorem DoublyEntries.comp {S m nion d : ℕ} {norb : Fin S → ℕ} {L : E → Antieq.DoublyLayer S m nion d norb}
    (h : DoublyEntries Q L)
    (g : F → E) (hQ : ∀ p, Q p → Q' fun y => p (g y)) : DoublyEntries Q' fun y => L (g y) :=
  ⟨fun a0 a1 a2 => hQ _ (h.kernel a0 a1 a2),
    fun a0 a1 => hQ _ (h.bias a0 a1),
    h.envelopes.comp g hQ⟩

theorem DoublyEntries.const {S m nion d : ℕ} {norb : Fin S → ℕ} (hQ : ∀ c, Q fun _ => c)
    (L : Antieq.DoublyLayer S m nion d norb) : DoublyEntries Q fun _ => L :=
  ⟨fun _ _ _ => hQ _,
    fun _ _ => hQ _,
    OrbitalEntries.const hQ _⟩

theorem InvariantEntries.comp {S m : ℕ} {rows cols : Fin S → ℕ} {J : E → InvariantDense S m rows cols}
    (h : InvariantEntries Q J)
    (g : F → E) (hQ : ∀ p, Q p → Q' fun y => p (g y)) : InvariantEntries Q' fun y => J (g y) :=
  ⟨fun a0 a1 a2 => hQ _ (h.kernel a0 a1 a2),
    fun a0 a1 => hQ _ (h.bias a0 a1)⟩

theorem InvariantEntries.const {S m : ℕ} {rows cols : Fin S → ℕ} (hQ : ∀ c, Q fun _ => c)
    (J : InvariantDense S m rows cols) : InvariantEntries Q fun _ => J :=
  ⟨fun _ _ _ => hQ _,
    fun _ _ => hQ _⟩

theorem Entries.comp {S nion d : ℕ} {P : E → Params S nion d} (h : Entries Q P)
    (g : F → E) (hQ : ∀ p, Q p → Q' fun y => p (g y)) : Entries Q' fun y => P (g y) :=
  ⟨h.backflow.comp g hQ,
    h.invBackflow.comp g hQ,
    h.jastrowBackflow.comp g hQ,
    h.covBackflow.comp g hQ,
    fun a0 a1 => (h.orbitals a0 a1).comp g hQ,
    fun a0 a1 => (h.doubly a0 a1).comp g hQ,
    fun a0 a1 a2 => (h.invariance a0 a1 a2).comp g hQ,
    h.detFn.comp g hQ,
    fun a0 a1 => hQ _ (h.productsKernel a0 a1),
    fun a0 => hQ _ (h.oneBodyKernel a0),
    fun a0 => hQ _ (h.eiStrength a0),
    hQ _ h.eeStrength,
    fun a0 a1 => (h.resnets a0 a1).comp g hQ⟩

theorem Entries.const {S nion d : ℕ} (hQ : ∀ c, Q fun _ => c)
    (P : Params S nion d) : Entries Q fun _ => P :=
  ⟨BackflowEntries.const hQ _,
    BackflowEntries.const hQ _,
    BackflowEntries.const hQ _,
    BackflowEntries.const hQ _,
    fun _ _ => OrbitalEntries.const hQ _,
    fun _ _ => DoublyEntries.const hQ _,
    fun _ _ _ => InvariantEntries.const hQ _,
    ResNetEntries.const hQ _,
    fun _ _ => hQ _,
    fun _ => hQ _,
    fun _ => hQ _,
    hQ _,
    fun _ _ => ResNetEntries.const hQ _⟩

theorem Entries.mono {Q' : (E → ℝ) → Prop} {S nion d : ℕ} {P : E → Params S nion d}
    (h : Entries Q P) (hQ : ∀ p, Q p → Q' p) : Entries Q' P :=
  h.comp id hQ

/-- Parameters which are constant form a smooth path. -/
theorem SmoothPath.const {S nion d : ℕ} (P : Params S nion d) : SmoothPath fun _ => P :=
  Entries.const (fun _ => contDiff_const) P

end Verif.Spec
