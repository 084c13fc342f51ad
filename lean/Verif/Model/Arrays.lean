import Verif.Model.Construct

/-!
Arrays with any number of axes, and the array operations of the models, as they are written in the
code: with axes counted from the end, broadcasting and reshaping.  The other models drop the axes of
the batch (the walkers); here they are kept.

Shapes and indices are listed from the last axis to the first, so axis `-1` is at place 0 of the list,
axis `-2` at place 1, and so on; axis `0` is the last entry of the list.  Entries are exact reals (or
pairs of sign and logarithm); the mean of nothing is 0 here.
-/

namespace Verif.Arrays
open Verif.Slog

/-- An index: as many numbers as there are axes, each below the length of its axis. -/
abbrev Ix (i shape : List ℕ) : Prop := List.Forall₂ (· < ·) i shape

/-- An array.  Lists which are not indices have a default value. -/
structure Arr (α : Type) [Inhabited α] where
  shape : List ℕ
  get : List ℕ → α
  off : ∀ i, ¬ Ix i shape → get i = default

instance : Inhabited SL := ⟨(.nan, .nan)⟩

variable {α β γ : Type} [Inhabited α] [Inhabited β] [Inhabited γ]

open Classical in
/-- The array of a shape with given entries. -/
noncomputable def Arr.of (shape : List ℕ) (f : List ℕ → α) : Arr α :=
  ⟨shape, fun i => if Ix i shape then f i else default, fun _ h => if_neg h⟩

/-- `a[b]` for an index `b` into the leading axes: what is left are the other axes. -/
noncomputable def Arr.part (a : Arr α) (b : List ℕ) : Arr α :=
  .of (a.shape.take (a.shape.length - b.length)) fun j => a.get (j ++ b)

/-- An elementwise function. -/
noncomputable def Arr.map (f : α → β) (a : Arr α) : Arr β := .of a.shape fun i => f (a.get i)

/-- The shape of the broadcast of two shapes, if there is one: axes are aligned at the last one, and
axes of length 1 are stretched. -/
def bshape : List ℕ → List ℕ → Option (List ℕ)
  | [], t => some t
  | s, [] => some s
  | k :: s, l :: t =>
    if k = l ∨ l = 1 then (bshape s t).map (k :: ·)
    else if k = 1 then (bshape s t).map (l :: ·)
    else none

/-- The entry of an array of shape `s` which a broadcast has at index `i`. -/
def proj (i s : List ℕ) : List ℕ := List.zipWith (fun i k => if k = 1 then 0 else i) i s

/-- An elementwise binary operator with broadcasting; incompatible shapes raise. -/
noncomputable def Arr.zip (f : α → β → γ) (a : Arr α) (b : Arr β) : Except String (Arr γ) :=
  match bshape a.shape b.shape with
  | none => .error "Incompatible shapes for broadcasting"
  | some s => .ok (.of s fun i => f (a.get (proj i a.shape)) (b.get (proj i b.shape)))

/-- `jnp.expand_dims`: a new axis of length 1 at place `p`. -/
noncomputable def Arr.expand (p : ℕ) (a : Arr α) : Arr α :=
  .of (a.shape.insertIdx p 1) fun i => a.get (i.eraseIdx p)

/-- Reductions (`jnp.sum`, `jnp.mean`, `jnp.prod`, `jnp.linalg.norm`, …) over the axis at place `p`,
with and without `keepdims`. -/
noncomputable def Arr.reduce (f : List α → β) (p : ℕ) (keep : Bool) (a : Arr α) : Arr β :=
  if keep then .of (a.shape.set p 1) fun i =>
    f ((List.range (a.shape.getD p 0)).map fun t => a.get (i.set p t))
  else .of (a.shape.eraseIdx p) fun i =>
    f ((List.range (a.shape.getD p 0)).map fun t => a.get (i.insertIdx p t))

/-- The entry at `i` of a concatenation along the axis at place `p`. -/
def pick (p : ℕ) : List (Arr α) → List ℕ → α
  | [], _ => default
  | a :: as, i =>
    if i.getD p 0 < a.shape.getD p 0 then a.get i
    else pick p as (i.modify p (· - a.shape.getD p 0))

/-- `jnp.concatenate` along the axis at place `p`: raises for the empty list and if the lengths of
other axes differ. -/
noncomputable def concat (p : ℕ) : List (Arr α) → Except String (Arr α)
  | [] => .error "Need at least one array to concatenate."
  | a :: as =>
    if ∀ c ∈ as, c.shape.set p 0 = a.shape.set p 0 then
      .ok (.of (a.shape.set p ((a :: as).map fun c => c.shape.getD p 0).sum) (pick p (a :: as)))
    else .error "Cannot concatenate arrays with shapes that differ in other dimensions"

/-- `jnp.stack(arrays, axis=-1)`. -/
noncomputable def stackLast (as : List (Arr α)) : Except String (Arr α) := concat 0 (as.map (·.expand 0))

/-- The part from `lo` to `hi` along the axis at place `p`. -/
noncomputable def Arr.slice (p lo hi : ℕ) (a : Arr α) : Arr α :=
  .of (a.shape.set p (hi - lo)) fun i => a.get (i.modify p (· + lo))

/-- The parts between `lo`, the given places and the end. -/
noncomputable def splitFrom (p : ℕ) (a : Arr α) : ℕ → List ℕ → List (Arr α)
  | lo, [] => [a.slice p lo (a.shape.getD p 0)]
  | lo, k :: ks => a.slice p lo k :: splitFrom p a k ks

/-- `jnp.split(a, indices, axis)`; `lax.slice` raises if the places are not increasing up to the length
of the axis. -/
noncomputable def split (p : ℕ) (indices : List ℕ) (a : Arr α) : Except String (List (Arr α)) :=
  if List.Pairwise (· ≤ ·) (0 :: indices ++ [a.shape.getD p 0]) then .ok (splitFrom p a 0 indices)
  else .error "slice limit_indices must be less than or equal to operand shape"

/-- `jnp.split(a, k, axis)`: `k` parts of equal length. -/
noncomputable def splitEqual (p k : ℕ) (a : Arr α) : Except String (List (Arr α)) :=
  if k ≠ 0 ∧ a.shape.getD p 0 % k = 0 then
    split p ((List.range (k - 1)).map fun t => (t + 1) * (a.shape.getD p 0 / k)) a
  else .error "array split does not result in an equal division"

/-- `jnp.swapaxes` of the axes at places `p` and `q`. -/
def swapList (p q : ℕ) (l : List ℕ) : List ℕ := (l.set p (l.getD q 0)).set q (l.getD p 0)

@[inherit_doc swapList]
noncomputable def Arr.swap (p q : ℕ) (a : Arr α) : Arr α :=
  .of (swapList p q a.shape) fun i => a.get (swapList p q i)

/-- `jnp.squeeze` of the axis at place `p`. -/
noncomputable def Arr.squeeze (p : ℕ) (a : Arr α) : Except String (Arr α) :=
  if a.shape.getD p 0 = 1 then .ok (.of (a.shape.eraseIdx p) fun i => a.get (i.insertIdx p 0))
  else .error "cannot select an axis to squeeze out which has size not equal to one"

/-- `jnp.reshape(a, a.shape[:-2] + (-1,))`: the last two axes become one.  The length of the new axis
cannot be inferred if one of the other axes is empty; without `infer`, it is given as
`a.shape[-1] * a.shape[-2]`. -/
noncomputable def flatten (infer : Bool) (a : Arr α) : Except String (Arr α) :=
  match a.shape with
  | k :: m :: rest =>
    if infer ∧ 0 ∈ rest then .error "cannot infer the length of a dimension"
    else .ok (.of (m * k :: rest) fun i => a.get (i.headD 0 % k :: i.headD 0 / k :: i.tail))
  | _ => .error "not enough axes"

/-- `jnp.reshape(a, a.shape[:-1] + (l, k))`: the last axis becomes two; raises if the sizes of the arrays
differ. -/
noncomputable def unflatten (l k : ℕ) (a : Arr α) : Except String (Arr α) :=
  match a.shape with
  | m :: rest =>
    if (m :: rest).prod = (k :: l :: rest).prod then
      .ok (.of (k :: l :: rest) fun i => a.get ((i.getD 1 0 * k + i.headD 0) :: i.drop 2))
    else .error "cannot reshape array"
  | [] => .error "not enough axes"

/-- `jnp.moveaxis(a, axis, 0)` for the axis at place `p`. -/
noncomputable def Arr.toFront (p : ℕ) (a : Arr α) : Arr α :=
  .of (a.shape.eraseIdx p ++ [a.shape.getD p 0]) fun i =>
    a.get (i.dropLast.insertIdx p (i.getLastD 0))

/-- `jnp.moveaxis(a, 0, -1)`. -/
noncomputable def Arr.toLast (a : Arr α) : Arr α :=
  .of (a.shape.getLastD 0 :: a.shape.dropLast) fun i => a.get (i.tail ++ [i.headD 0])

/-- A reduction over axis 0, the first one. -/
noncomputable def Arr.reduceFront (f : List α → β) (a : Arr α) : Arr β :=
  .of a.shape.dropLast fun i =>
    f ((List.range (a.shape.getLastD 0)).map fun t => a.get (i ++ [t]))

/-- `jnp.linalg.det` and `slogdet`: a function of the matrices in the last two axes, which must be
square. -/
noncomputable def onSquares (f : ∀ m : ℕ, Matrix (Fin m) (Fin m) ℝ → β) (a : Arr ℝ) :
    Except String (Arr β) :=
  match a.shape with
  | k :: m :: rest =>
    if k = m then .ok (.of rest fun i => f m (Matrix.of fun r c => a.get (c.val :: r.val :: i)))
    else .error "Argument to determinant must be square"
  | _ => .error "not enough axes"

/-- A function of the matrices in the last two axes whose result has the same number of rows (flax
`SelfAttention`, which treats all other axes as batch axes; library behaviour). -/
noncomputable def onRows (f : ℕ → ℕ → (ℕ → ℕ → ℝ) → ℕ → ℕ → ℝ) (d' : ℕ) (a : Arr ℝ) : Arr ℝ :=
  .of (a.shape.set 0 d') fun i =>
    f (a.shape.getD 1 0) (a.shape.getD 0 0) (fun r c => a.get (c :: r :: i.drop 2)) (i.getD 1 0)
      (i.headD 0)

/-- The same function of lists of arrays, elementwise in the list (`jax.tree_map`, `tree_sum`,
`tree_prod`); lists of different lengths raise. -/
def treeMap2 {δ ε ζ : Type} (f : δ → ε → Except String ζ) : List δ → List ε → Except String (List ζ)
  | [], [] => .ok []
  | a :: as, b :: bs => do
    let c ← f a b
    let cs ← treeMap2 f as bs
    return c :: cs
  | _, _ => .error "Mismatch custom node data"

end Verif.Arrays
