import Mathlib.Data.List.Basic
import Mathlib.Data.Int.Notation
import Mathlib.Algebra.BigOperators.Group.List.Basic

/-!
Particle splits: `models/core.py` `split`, `get_nsplits`, `get_nelec_per_split`,
`get_spin_split`.
-/

namespace Verif.Split

/-- `ParticleSplit`: an int or a sequence of ints (utils/typing.py). -/
inductive ParticleSplit where
  | int (k : ℕ)
  | indices (l : List ℤ)

/-- Python exceptions raised here. -/
inductive Err where
  | indexError | zeroDivision | valueError
  deriving DecidableEq

/-- `get_nsplits`.  models/core.py:79-84 -/
def getNsplits : ParticleSplit → ℕ
  | .int k => k
  | .indices l => l.length + 1

/-- `jnp.diff`: differences of neighbouring entries. -/
def diff : List ℤ → List ℤ
  | [] => []
  | [_] => []
  | a :: b :: l => (b - a) :: diff (b :: l)

/-- `get_nelec_per_split`.  `nelec_total // 0` and `split[0]` of an empty tuple raise.
models/core.py:87-102 -/
def getNelecPerSplit (split : ParticleSplit) (nelecTotal : ℤ) : Except Err (List ℤ) :=
  match split with
  | .int k => if k = 0 then .error .zeroDivision else .ok (List.replicate k (nelecTotal / (k : ℤ)))
  | .indices l =>
    let spinDiffs := diff l
    match l.head?, l.getLast? with
    | some first, some last => .ok (first :: (spinDiffs ++ [nelecTotal - last]))
    | _, _ => .error .indexError

/-- `np.cumsum` continued from a running total. -/
def cumsumFrom (acc : ℤ) : List ℤ → List ℤ
  | [] => []
  | a :: l => (acc + a) :: cumsumFrom (acc + a) l

/-- `get_spin_split`: `np.cumsum(n_per_split[:-1])`.  models/core.py:105-109 -/
def getSpinSplit (nPerSplit : List ℤ) : List ℤ := cumsumFrom 0 nPerSplit.dropLast

/-- The pieces of `jnp.split(x, indices)`: `x[0:i0], x[i0:i1], ..., x[ik:]` for sorted
non-negative indices. -/
def splitAtIndices {α : Type*} (x : List α) (start : ℕ) : List ℕ → List (List α)
  | [] => [x.drop start]
  | i :: l => ((x.drop start).take (i - start)) :: splitAtIndices x i l

/-- `split(x, split)` along the particle axis.  `jnp.split` with an int requires equal pieces.
models/core.py:26-28 -/
def split {α : Type*} (x : List α) : ParticleSplit → Except Err (List (List α))
  | .int k =>
    if k = 0 then .error .zeroDivision
    else if x.length % k ≠ 0 then .error .valueError
    else .ok ((List.range k).map fun i => (x.drop (i * (x.length / k))).take (x.length / k))
  | .indices l => .ok (splitAtIndices x 0 (l.map Int.toNat))

end Verif.Split
