import Verif.Model.Network

/-!
Fully connected residual networks of `models/core.py`, in the linear and in the (sign, log) domain.
One vector of features is modelled; the code maps over all other axes.  Parameters are arbitrary
real numbers.
-/

namespace Verif.Net
open Verif.Slog

/-- Kernel and bias of one dense layer; without bias the second is unused. -/
structure DenseParams (d d' : ℕ) where
  kernel : Fin d → Fin d' → ℝ
  bias : Fin d' → ℝ

/-- The inner dense layers, from width `d` to width `e`.  models/core.py:323-343, 389-407 -/
inductive InnerLayers : ℕ → ℕ → Type
  | nil {d : ℕ} : InnerLayers d d
  | cons {d d' e : ℕ} (layer : DenseParams d d') (rest : InnerLayers d' e) : InnerLayers d e

/-- `x + prev_x` if `_valid_skip`, i.e. if the widths agree.  models/core.py:112-113, 358-359 -/
def skipSum {d d' : ℕ} (prev : Fin d → ℝ) (x : Fin d' → ℝ) (j : Fin d') : ℝ :=
  if h : d' = d then x j + prev (Fin.cast h j) else x j

/-- The loop of `SimpleResNet.__call__`.  models/core.py:354-359 -/
def InnerLayers.run (useBias : Bool) (activation : ∀ m, (Fin m → ℝ) → Fin m → ℝ) :
    {d e : ℕ} → InnerLayers d e → (Fin d → ℝ) → Fin e → ℝ
  | _, _, .nil, x => x
  | _, _, .cons layer rest, x =>
    rest.run useBias activation
      (skipSum x (activation _ (dense useBias layer.kernel layer.bias x)))

/-- `SimpleResNet.__call__`: the final dense layer never has a bias.  models/core.py:345-361 -/
def simpleResNet {d e o : ℕ} (useBias : Bool) (activation : ∀ m, (Fin m → ℝ) → Fin m → ℝ)
    (inner : InnerLayers d e) (final : DenseParams e o) (x : Fin d → ℝ) : Fin o → ℝ :=
  dense false final.kernel final.bias (inner.run useBias activation x)

/-- `LogDomainDense.__call__`: with bias, the input is extended by a one, whose kernel row is the
bias.  models/core.py:266-292 -/
noncomputable def logDense {d d' : ℕ} (useBias : Bool) (P : DenseParams d d') (x : Fin d → SL) :
    Fin d' → SL :=
  if useBias then
    let signs : Fin (d + 1) → XR := Fin.snoc (α := fun _ => XR) (fun i => (x i).1) (.fin 1)
    let logs : Fin (d + 1) → XR := Fin.snoc (α := fun _ => XR) (fun i => (x i).2) (.fin 0)
    let kernel : Fin (d + 1) → Fin d' → XR :=
      Fin.snoc (α := fun _ => Fin d' → XR) (fun i j => .fin (P.kernel i j)) fun j => .fin (P.bias j)
    logLinearExp signs logs kernel
  else logLinearExp (fun i => (x i).1) (fun i => (x i).2) fun i j => .fin (P.kernel i j)

/-- `slog_sum(x, prev_x)` if `_sl_valid_skip`.  models/core.py:116-117, 422-423 -/
noncomputable def skipSlogSum {d d' : ℕ} (prev : Fin d → SL) (x : Fin d' → SL) (j : Fin d') : SL :=
  if h : d' = d then slogSum (x j) (prev (Fin.cast h j)) else x j

/-- The loop of `LogDomainResNet.__call__`.  models/core.py:418-423 -/
noncomputable def InnerLayers.runLog (useBias : Bool)
    (activation : ∀ m, (Fin m → SL) → Fin m → SL) :
    {d e : ℕ} → InnerLayers d e → (Fin d → SL) → Fin e → SL
  | _, _, .nil, x => x
  | _, _, .cons layer rest, x =>
    rest.runLog useBias activation (skipSlogSum x (activation _ (logDense useBias layer x)))

/-- `LogDomainResNet.__call__`.  models/core.py:409-425 -/
noncomputable def logResNet {d e o : ℕ} (useBias : Bool)
    (activation : ∀ m, (Fin m → SL) → Fin m → SL) (inner : InnerLayers d e)
    (final : DenseParams e o) (x : Fin d → SL) : Fin o → SL :=
  logDense false final (inner.runLog useBias activation x)

end Verif.Net
