import Mathlib.Data.Real.Basic
import Mathlib.Data.Matrix.Basic
import Mathlib.Algebra.BigOperators.Fin
import Mathlib.Data.Fintype.BigOperators

/-!
# Vocabulary for curvature blocks (C101)
-/

namespace Verif.Spec
open Matrix

/-- The indices of a weight array `kmjn`. -/
abbrev WIdx (K M J N : ℕ) := Fin K × Fin M × Fin J × Fin N

/-- Block-diagonal in `j`, in each block the Kronecker product of a matrix for the inputs and one for the outputs. -/
def blockKron {K M J N : ℕ} (A : Fin J → Fin K → Fin K → ℝ) (G : Fin J → Fin M × Fin N → Fin M × Fin N → ℝ) :
    Matrix (WIdx K M J N) (WIdx K M J N) ℝ :=
  Matrix.of fun a b => if a.2.2.1 = b.2.2.1 then
    A a.2.2.1 a.1 b.1 * G a.2.2.1 (a.2.1, a.2.2.2) (b.2.1, b.2.2.2) else 0

/-- The mean of products of two functions over a batch. -/
noncomputable def meanProd {Ω : Type} [Fintype Ω] (f g : Ω → ℝ) : ℝ :=
  (∑ o, f o * g o) / Fintype.card Ω

/-- Weights of an exponential moving average: the last value has its own weight, earlier ones are multiplied by the
factors of all later steps. -/
def emaWeights : List (ℝ × ℝ) → List ℝ
  | [] => []
  | (_, new) :: t => (new * (t.map Prod.fst).prod) :: emaWeights t

/-- Inputs and derivatives are independent of each other over the samples `b` and the places `i`, and contributions of
different places are uncorrelated. -/
def Factors {B R : ℕ} {α β : Type} (x : Fin B → Fin R → α → ℝ) (dy : Fin B → Fin R → β → ℝ) : Prop :=
  ∀ k l p q,
    (∑ b, ∑ i, ∑ i' ∈ Finset.univ.erase i, x b i k * dy b i p * (x b i' l * dy b i' q) = 0) ∧
    meanProd (fun o : Fin B × Fin R => x o.1 o.2 k * x o.1 o.2 l) (fun o => dy o.1 o.2 p * dy o.1 o.2 q) =
      meanProd (fun o : Fin B × Fin R => x o.1 o.2 k) (fun o => x o.1 o.2 l) *
      meanProd (fun o : Fin B × Fin R => dy o.1 o.2 p) (fun o => dy o.1 o.2 q)

/-- The empirical Fisher matrix of a layer which is applied at several places: the mean over samples of the products
of its gradients, which are sums over the places. -/
noncomputable def layerFisher {B R : ℕ} {α β : Type} (x : Fin B → Fin R → α → ℝ) (dy : Fin B → Fin R → β → ℝ)
    (k : α) (p : β) (l : α) (q : β) : ℝ :=
  meanProd (fun b => ∑ i, x b i k * dy b i p) fun b => ∑ i, x b i l * dy b i q

end Verif.Spec
