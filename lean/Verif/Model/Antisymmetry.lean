import Verif.Model.Slog
import Mathlib.LinearAlgebra.Matrix.Determinant.Basic

/-!
Explicit antisymmetrization and determinant products: `models/antisymmetry.py`.

Batch axes are dropped: all functions here act on one walker.  The leaves of a pytree (one per
spin) are a family indexed by `Fin (k + 1)`; leaf `s` has `n s` particles with `d s` features.
Arrays have real entries.
-/

namespace Verif.Antisym
open Verif.Slog

/-- `functools.reduce(f, xs)` on a non-empty list of leaves, from left to right. -/
def reduceLeaves {α : Type*} {k : ℕ} (f : α → α → α) (x : Fin (k + 1) → α) : α :=
  (List.ofFn fun i : Fin k => x i.succ).foldl f (x 0)

/-- `jnp.linalg.slogdet` of one matrix (exact arithmetic). -/
noncomputable def slogdet {n : ℕ} (M : Matrix (Fin n) (Fin n) ℝ) : SL := arrayToSlog (.fin M.det)

/-- `slogdet_product`: product of the signs and sum of the logs of the leaf determinants.
models/antisymmetry.py:23-42 -/
noncomputable def slogdetProduct {k : ℕ} {n : Fin (k + 1) → ℕ}
    (xs : ∀ s, Matrix (Fin (n s)) (Fin (n s)) ℝ) : SL :=
  reduceLeaves (fun a b => (a.1 * b.1, a.2 + b.2)) fun s => slogdet (xs s)

/-- `logdet_product`.  models/antisymmetry.py:45-63 -/
noncomputable def logdetProduct {k : ℕ} {n : Fin (k + 1) → ℕ}
    (xs : ∀ s, Matrix (Fin (n s)) (Fin (n s)) ℝ) : XR :=
  reduceLeaves (· + ·) fun s => (slogdet (xs s)).2

/-- `get_alternating_signs`: `jnp.ones(n).at[1::2].set(-1)`.  models/core.py:74-76 -/
def getAlternatingSigns (n : ℕ) : List ℝ :=
  (List.range n).map fun i => if i % 2 = 1 then -1 else 1

/-- `_get_lexicographic_signs`: the loop `for i in range(2, n + 1)`.
models/antisymmetry.py:66-74 -/
def getLexicographicSigns (n : ℕ) : List ℝ :=
  (List.range' 2 (n - 1)).foldl
    (fun signs i => ((getAlternatingSigns i).map fun sign => signs.map fun s => sign * s).flatten)
    [1]

/-- `itertools.permutations` of a list, full length.  Library behaviour as documented: "the
permutation tuples are emitted in lexicographic order according to the order of the input":
first all permutations starting with the first element, and so on.  The first argument is the
number of places still to be filled. -/
def itertoolsPermutations {α : Type*} : ℕ → List α → List (List α)
  | 0, _ => [[]]
  | r + 1, l => (List.finRange l.length).flatMap fun (i : Fin l.length) =>
      (itertoolsPermutations r (l.eraseIdx i.val)).map fun rest => l.get i :: rest

/-- `permutation_list = list(itertools.permutations(range(n)))`.
models/antisymmetry.py:96-98 -/
def permutationList (n : ℕ) : List (List ℕ) := itertoolsPermutations n (List.range n)

/-- One entry of `jnp.take(x, permutation_list, axis=-2)`: row `i` of the output is row `p[i]`
of `x`.  (Out-of-range indices do not occur; `i` is used to make the function total.) -/
def takeRows {n : ℕ} {β : Type*} (x : Fin n → β) (p : List ℕ) (i : Fin n) : β :=
  x (if h : p.getD i 0 < n then ⟨p.getD i 0, h⟩ else i)

/-- `ParallelPermutations.__call__`: all permuted inputs and the sign vector.
models/antisymmetry.py:100-111 -/
def parallelPermutations {n : ℕ} {β : Type*} (x : Fin n → β) : List (Fin n → β) × List ℝ :=
  ((permutationList n).map (takeRows x), getLexicographicSigns n)

/-- Row-major `reshape` of an `(n, d)` array to `(n * d,)`, as a list. -/
def reshapeRow {n d : ℕ} (x : Fin n → Fin d → ℝ) : List ℝ :=
  (List.ofFn fun i => List.ofFn (x i)).flatten

/-- `FactorizedAntisymmetrize._single_leaf_call`, output component `c`: elementwise product of
signs and outputs, summed over the permutations.  models/antisymmetry.py:133-150 -/
def factorizedLeaf {n d dout : ℕ} (fn : List ℝ → Fin dout → ℝ) (x : Fin n → Fin d → ℝ)
    (c : Fin dout) : ℝ :=
  let (xPerm, signs) := parallelPermutations x
  (List.zipWith (fun s y => s * fn (reshapeRow y) c) signs xPerm).sum

/-- `FactorizedAntisymmetrize.__call__` with `logabs=False`.
models/antisymmetry.py:166-176 -/
def factorizedAntisymmetrize {k dout : ℕ} {n d : Fin (k + 1) → ℕ}
    (fns : Fin (k + 1) → List ℝ → Fin dout → ℝ) (xs : ∀ s, Fin (n s) → Fin (d s) → ℝ)
    (c : Fin dout) : ℝ :=
  reduceLeaves (· * ·) fun s => factorizedLeaf (fns s) (xs s) c

/-- `FactorizedAntisymmetrize.__call__` with `logabs=True`.
models/antisymmetry.py:166-180 -/
noncomputable def factorizedAntisymmetrizeSlog {k dout : ℕ} {n d : Fin (k + 1) → ℕ}
    (fns : Fin (k + 1) → List ℝ → Fin dout → ℝ) (xs : ∀ s, Fin (n s) → Fin (d s) → ℝ)
    (c : Fin dout) : SL :=
  reduceLeaves slogMultiply fun s => arrayToSlog (.fin (factorizedLeaf (fns s) (xs s) c))

/-- `GenericAntisymmetrize.__call__` with `logabs=False`.  `κ` runs over the grid of axes
`(n_1!, ..., n_k!)`; the reshapes and broadcasts put permutation `κ s` of leaf `s` at grid point
`κ`, the flattened leaves are concatenated, the sign arrays are multiplied in along their own
axis, and the sum runs over all grid axes and the output axis.
models/antisymmetry.py:222-284 -/
noncomputable def genericAntisymmetrize {k dout : ℕ} {n d : Fin (k + 1) → ℕ}
    (fn : List ℝ → Fin dout → ℝ) (xs : ∀ s, Fin (n s) → Fin (d s) → ℝ) : ℝ :=
  ∑ κ : ∀ s, Fin (permutationList (n s)).length, ∑ c : Fin dout,
    let concatPerms := (List.ofFn fun s =>
      reshapeRow (takeRows (xs s) ((permutationList (n s)).get (κ s)))).flatten
    let reshapedSigns := List.ofFn fun s => (parallelPermutations (xs s)).2.getD (κ s) 0
    reshapedSigns.foldl (· * ·) (fn concatPerms c)

/-- `GenericAntisymmetrize.__call__` with `logabs=True`.
models/antisymmetry.py:285-288 -/
noncomputable def genericAntisymmetrizeSlog {k dout : ℕ} {n d : Fin (k + 1) → ℕ}
    (fn : List ℝ → Fin dout → ℝ) (xs : ∀ s, Fin (n s) → Fin (d s) → ℝ) : SL :=
  arrayToSlog (.fin (genericAntisymmetrize fn xs))

end Verif.Antisym
