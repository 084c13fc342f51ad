import Mathlib.Data.Real.Basic
import Mathlib.Data.Matrix.Mul
import Mathlib.Logic.Equiv.Fin.Basic
import Mathlib.Algebra.BigOperators.Fin

/-!
# Curvature blocks for KFAC

vmcnet/utils/curvature_tags_and_blocks.py.  Arrays are functions on index types; flattened axes are row-major
(`finProdFinEquiv`).  The base classes are those of kfac_jax, which is not part of the repository: modelled are the
moving average (`WeightedMovingAverage`) and the covariances of `DenseTwoKroneckerFactored`; sums over devices (`sync`)
and the pi-adjusted inverse are not.
-/

namespace Verif.Kfac

open Matrix

/-- An array of inputs of a layer which multiplies `x : (b, i, j, k)` by `w : (k, m, j, n)`
(curvature_tags_and_blocks.py:103-104). -/
abbrev Inp (B I J K : ℕ) := Fin B → Fin I → Fin J → Fin K → ℝ
/-- Derivatives with respect to the outputs of this layer. -/
abbrev Out (B I J M N : ℕ) := Fin B → Fin I → Fin J → Fin M → Fin N → ℝ
/-- The weights `kmjn`. -/
abbrev Wgt (K M J N : ℕ) := Fin K → Fin M → Fin J → Fin N → ℝ

/-- `dy = jnp.reshape(dy, dy.shape[:-2] + (-1,))`, curvature_tags_and_blocks.py:106. -/
def flatOut {B I J M N : ℕ} (dy : Out B I J M N) : Fin B → Fin I → Fin J → Fin (M * N) → ℝ :=
  fun b i j q => dy b i j (finProdFinEquiv.symm q).1 (finProdFinEquiv.symm q).2

/-- `jnp.einsum("bijk,bijl->jkl", x, x) / normalizer` with `normalizer = x.shape[0] * x.shape[1]`,
curvature_tags_and_blocks.py:102, 105 and 107. -/
noncomputable def cov {B I J K : ℕ} (x : Inp B I J K) (j : Fin J) : Matrix (Fin K) (Fin K) ℝ :=
  Matrix.of fun k l => (∑ b, ∑ i, x b i j k * x b i j l) / ((B : ℝ) * I)

/-- `kfac_jax.utils.WeightedMovingAverage`: the weight and the raw value. -/
structure Ema (α : Type) where
  weight : ℝ
  raw : α

/-- `WeightedMovingAverage.zero`, used in curvature_tags_and_blocks.py:136-137. -/
def Ema.zero {α : Type} [Zero α] : Ema α := ⟨0, 0⟩

/-- `WeightedMovingAverage.update(value, old_weight_multiplier, new_weight)` (kfac_jax), used in
curvature_tags_and_blocks.py:108-109. -/
def Ema.update {α : Type} [Add α] [SMul ℝ α] (e : Ema α) (v : α) (old new : ℝ) : Ema α :=
  ⟨e.weight * old + new, old • e.raw + new • v⟩

/-- `WeightedMovingAverage.value` (kfac_jax). -/
noncomputable def Ema.value {α : Type} [SMul ℝ α] (e : Ema α) : α := e.weight⁻¹ • e.raw

/-- The state of a block: `inputs_factor`, `outputs_factor` and, for the power -1, a cached pair,
curvature_tags_and_blocks.py:133-138. -/
structure Qmc (J K M N : ℕ) where
  inputs : Ema (Fin J → Matrix (Fin K) (Fin K) ℝ)
  outputs : Ema (Fin J → Matrix (Fin (M * N)) (Fin (M * N)) ℝ)
  cache : Option ((Fin J → Matrix (Fin K) (Fin K) ℝ) × (Fin J → Matrix (Fin (M * N)) (Fin (M * N)) ℝ))

/-- Exceptions of the block (`NotImplementedError`, and a `KeyError` of `state.cache[str(power)]`). -/
inductive Err
  | notImplemented
  | noCache
deriving DecidableEq

/-- `QmcBlockedDense._init`, curvature_tags_and_blocks.py:111-138. -/
def Qmc.init {J K M N : ℕ} (exactPowers approxPowers : List ℤ) : Except Err (Qmc J K M N) :=
  if exactPowers ≠ [] then .error .notImplemented
  else if ∃ p ∈ approxPowers, p ≠ -1 then .error .notImplemented
  else .ok ⟨.zero, .zero, if approxPowers = [] then none else some (0, 0)⟩

/-- `QmcBlockedDense.update_curvature_matrix_estimate`, curvature_tags_and_blocks.py:89-109; the assertion on the
batch size is in the type. -/
noncomputable def Qmc.update {B I J K M N : ℕ} (s : Qmc J K M N) (x : Inp B I J K) (dy : Out B I J M N)
    (old new : ℝ) : Qmc J K M N :=
  { s with
    inputs := s.inputs.update (cov x) old new
    outputs := s.outputs.update (cov (flatOut dy)) old new }

/-- `jnp.transpose(v, [2, 0, 1, 3]).reshape([j, k, m * n])`, curvature_tags_and_blocks.py:190. -/
def toBlocks {K M J N : ℕ} (v : Wgt K M J N) (j : Fin J) : Matrix (Fin K) (Fin (M * N)) ℝ :=
  Matrix.of fun k q => v k (finProdFinEquiv.symm q).1 j (finProdFinEquiv.symm q).2

/-- `jnp.transpose(v.reshape([j, k, m, n]), [1, 2, 0, 3])`, curvature_tags_and_blocks.py:194. -/
def ofBlocks {K M J N : ℕ} (v : Fin J → Matrix (Fin K) (Fin (M * N)) ℝ) : Wgt K M J N :=
  fun k m j n => v j k (finProdFinEquiv (m, n))

/-- The two matrix products for every `j`, curvature_tags_and_blocks.py:190-194 and 208-212. -/
noncomputable def sandwich {K M J N : ℕ} (A : Fin J → Matrix (Fin K) (Fin K) ℝ)
    (G : Fin J → Matrix (Fin (M * N)) (Fin (M * N)) ℝ) (v : Wgt K M J N) : Wgt K M J N :=
  ofBlocks fun j => A j * toBlocks v j * G j

/-- `QmcBlockedDense.multiply_matpower`, curvature_tags_and_blocks.py:175-214. -/
noncomputable def Qmc.multiply {K M J N : ℕ} (s : Qmc J K M N) (w : Wgt K M J N) (damping : ℝ) (power : ℤ)
    (exactPower useCached : Bool) : Except Err (Wgt K M J N) :=
  if power = 1 then .ok (sandwich s.inputs.value s.outputs.value w + damping • w)
  else if exactPower then .error .notImplemented
  else if useCached = false then .error .notImplemented
  else if power = -1 then
    match s.cache with
    | some (A, G) => .ok (sandwich A G w)
    | none => .error .noCache
  else .error .noCache

/-- `QmcBlockedDense.fixed_scale`, curvature_tags_and_blocks.py:86-87: `parameters_shapes[0][1]` with the shape
`(k, m, j, n)`. -/
def Qmc.fixedScale (_K M _J _N : ℕ) : ℝ := M

/-- `RepeatedDenseBlock.fixed_scale`, curvature_tags_and_blocks.py:52-54: the product of the shape of the inputs, integer
division by the first times the last axis. -/
def repeatedScale (xShape : List ℕ) : ℝ :=
  ((xShape.prod / (xShape.headD 0 * xShape.getLastD 0) : ℕ) : ℝ)

/-- `x.reshape([-1, x.shape[-1]])`, curvature_tags_and_blocks.py:69-70, of an array whose axes between the first and
the last are flattened to one of `R` entries. -/
def flatRows {B R K : ℕ} (x : Fin B → Fin R → Fin K → ℝ) : Fin (B * R) → Fin K → ℝ :=
  fun q => x (finProdFinEquiv.symm q).1 (finProdFinEquiv.symm q).2

/-- The covariance of `DenseTwoKroneckerFactored.update_curvature_matrix_estimate` (kfac_jax): `einsum("ay,az->yz")`
divided by the batch size. -/
noncomputable def denseCov {B K : ℕ} (x : Fin B → Fin K → ℝ) : Matrix (Fin K) (Fin K) ℝ :=
  Matrix.of fun k l => (∑ b, x b k * x b l) / B

/-- Inputs with a one appended for layers with bias (kfac_jax `append_homog` in
`DenseTwoKroneckerFactored.update_curvature_matrix_estimate`). -/
def homog {B K : ℕ} (x : Fin B → Fin K → ℝ) : Fin B → Fin (K + 1) → ℝ := fun b => Fin.snoc (x b) 1

end Verif.Kfac
