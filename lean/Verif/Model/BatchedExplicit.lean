import Verif.Model.BatchedNets

/-!
The explicitly antisymmetrized networks as array code: `models/jastrow.py`, `models/antisymmetry.py:72-288`,
`models/construct.py:1398-1571`, for positions with any number of batch axes.  Conventions as in
`Model/Batched.lean`.  Sums over several axes are taken one axis after the other.
-/

namespace Verif.Arrays
open Verif.Slog Verif.Construct Verif.Net

/-! ### Jastrow factors -/

/-- `OneBodyExpDecay.__call__`.  models/jastrow.py:120-128 -/
noncomputable def oneBodyA (kernel : ℕ → ℝ) (rei : Arr ℝ) : Except String (Arr ℝ) := do
  let scaled ← isotropyA kernel 1 rei
  let distances := scaled.reduce norm 0 false
  let total := ((distances.reduce List.sum 0 false).reduce List.sum 0 false).reduce List.sum 0 false
  return total.map (-·)

/-- `jnp.triu` of the matrices in the last two axes. -/
noncomputable def Arr.triu (a : Arr ℝ) : Arr ℝ :=
  .of a.shape fun i => if i.getD 1 0 ≤ i.headD 0 then a.get i else 0

/-- Distances to the ions times strengths, which are dense layers with one feature if trainable.
models/jastrow.py:197-210, 218 -/
noncomputable def scaledEi (trainable : Bool) (kernel : ℕ → DenseA) (strengths : ℕ → ℝ)
    (ei : Arr ℝ) : Except String (Arr ℝ) :=
  if trainable then do
    let parts ← splitEqual 0 (ei.shape.getD 0 0) ei
    concat 0 (denseParts false kernel 0 parts (List.replicate (ei.shape.getD 0 0) 1))
  else
    (Arr.of [ei.shape.getD 0 0] fun i => strengths (i.headD 0)).zip (· * ·) ei

/-- Sums of distances between electrons times their strength.  models/jastrow.py:212-216, 219 -/
noncomputable def scaledEe (trainable : Bool) (kernel : DenseA) (strength : ℝ) (ee : Arr ℝ) : Arr ℝ :=
  if trainable then dense false kernel 1 ee else ee.map (strength * ·)

/-- `TwoBodyExpDecay.__call__`.  models/jastrow.py:192-227 -/
noncomputable def twoBodyA (trainable : Bool) (eiKernel : ℕ → DenseA) (eeKernel : DenseA)
    (strengths : ℕ → ℝ) (strength scale : ℝ) (rei ree : Arr ℝ) : Except String (Arr ℝ) := do
  let ei := rei.reduce norm 0 false
  let norms ← eeNorms 0 ree
  let ee ← norms.squeeze 0
  let sumEe := ee.triu.reduce List.sum 0 true
  let scaled ← scaledEi trainable eiKernel strengths ei
  let sumEe ← (scaledEe trainable eeKernel strength sumEe).squeeze 0
  let sumEi := scaled.reduce List.sum 0 false
  let diff ← sumEe.zip (· - ·) sumEi
  return (diff.reduce List.sum 0 false).map (· + scale)

/-- `BackflowJastrow.__call__` from the stream on.  models/jastrow.py:327 -/
noncomputable def backflowJastrowA (stream : Arr ℝ) : Arr ℝ :=
  ((stream.reduce norm 0 false).reduce mean 0 false).map (-·)

/-- Parameters of the explicitly antisymmetrized networks. -/
structure ExplicitA where
  backflow : ℕ → BlockA
  jastrowBackflow : List BlockDesc → ℕ → BlockA
  oneBody : ℕ → ℝ
  ei : ℕ → DenseA
  ee : DenseA
  resnets : ℕ → ℕ → ResNetA

/-- The backflow-based Jastrow factor: with its own backflow or without.
models/jastrow.py:324-330 -/
noncomputable def backflowBasedA (P : List BlockDesc → ℕ → BlockA) (in1e : Arr ℝ)
    (in2e : Option (Arr ℝ)) (stream : Arr ℝ) : Option (List BlockDesc) → Except String (Arr ℝ)
  | none => .ok (backflowJastrowA stream)
  | some bs => do
    let own ← backflowA (P bs) 0 bs in1e in2e
    return backflowJastrowA own

/-- The call of a Jastrow factor; `None` for the displacements of electrons raises.
models/jastrow.py, models/core.py:146-149 (`AddedModel`) -/
noncomputable def jastrowA {nion : ℕ} (P : ExplicitA) (in1e : Arr ℝ) (in2e : Option (Arr ℝ))
    (stream rei : Arr ℝ) (ree : Option (Arr ℝ)) : JastrowDesc nion → Except String (Arr ℝ)
  | .oneBody _ => oneBodyA P.oneBody rei
  | .twoBody charges strength scale trainable =>
    match ree with
    | none => .error "TypeError"
    | some ree => twoBodyA trainable P.ei P.ee (fun j => if h : j < nion then charges ⟨j, h⟩ else 0)
        strength scale rei ree
  | .backflow bs => backflowBasedA P.jastrowBackflow in1e in2e stream bs
  | .added a b => do
    let x ← jastrowA P in1e in2e stream rei ree a
    let y ← jastrowA P in1e in2e stream rei ree b
    x.zip (· + ·) y

/-! ### Antisymmetrization -/

/-- `ParallelPermutations.__call__`: `jnp.take(x, permutation_list, axis=-2)`.  The list of the
permutations of nothing is an array of floats, which are no indices.
models/antisymmetry.py:95-111 -/
noncomputable def takePerms (x : Arr ℝ) : Except String (Arr ℝ) :=
  match x.shape with
  | d :: n :: rest =>
    if n = 0 then .error "take requires integer indices"
    else .ok (.of (d :: n :: (Antisym.permutationList n).length :: rest) fun i =>
      x.get (i.headD 0 :: ((Antisym.permutationList n).getD (i.getD 2 0) []).getD (i.getD 1 0) 0 ::
        i.drop 3))
  | _ => .error "not enough axes"

/-- The signs of the permutations of `n` particles, of shape `(n!, 1)`.
models/antisymmetry.py:66-74, 144 -/
noncomputable def leafSigns (n : ℕ) : Arr ℝ :=
  .of [1, (Antisym.getLexicographicSigns n).length] fun i =>
    (Antisym.getLexicographicSigns n).getD (i.getD 1 0) 0

/-- `FactorizedAntisymmetrize._single_leaf_call`.  models/antisymmetry.py:134-150 -/
noncomputable def factorizedLeafA (fn : Arr ℝ → Except String (Arr ℝ)) (x : Arr ℝ) :
    Except String (Arr ℝ) := do
  let perms ← takePerms x
  let flat ← flatten false perms
  let out ← fn flat
  let signed ← (leafSigns (x.shape.getD 1 0)).zip (· * ·) out
  return signed.reduce List.sum 1 false

/-- `fn_to_antisymmetrize`: the outputs of `rank` ResNets.  models/construct.py:1426-1439 -/
noncomputable def resNetsA (r : ResNetDesc) (P : ℕ → ResNetA) (rank : ℕ) (x : Arr ℝ) :
    Except String (Arr ℝ) := do
  let outs ← (List.range rank).mapM fun i => resNetA r (P i) 1 x
  concat 0 outs

/-- The antisymmetrized functions of the leaves with numbers from `s` on.
models/antisymmetry.py:171-175 -/
noncomputable def factorizedLeaves (fn : ℕ → Arr ℝ → Except String (Arr ℝ)) :
    ℕ → List (Arr ℝ) → Except String (List (Arr ℝ))
  | _, [] => .ok []
  | s, x :: xs => do
    let y ← factorizedLeafA (fn s) x
    let ys ← factorizedLeaves fn (s + 1) xs
    return y :: ys

/-- `FactorizedAntisymmetrize.__call__`.  models/antisymmetry.py:171-180 -/
noncomputable def factorizedA (fn : ℕ → Arr ℝ → Except String (Arr ℝ)) (xs : List (Arr ℝ)) :
    Except String (Arr SL) := do
  let antisyms ← factorizedLeaves fn 0 xs
  foldE (fun a c => a.zip slogMultiply c) (antisyms.map (·.map fun x => arrayToSlog (.fin x)))

/-- `slog_sum_over_axis` over the last axis.  utils/slog_helpers.py:69-72 -/
noncomputable def slogSumLast (x : Arr SL) : Arr SL :=
  x.reduce (fun l => slogSumOverAxis fun i : Fin l.length => l.get i) 0 false

/-- `ith_factorial` from its last axis on: `k` axes of length 1, but `m` for axis number `i` from the
front.  models/antisymmetry.py:247 -/
def ithFactorial (k i m : ℕ) : List ℕ := (List.replicate k 1).set (k - 1 - i) m

/-- `jnp.reshape(leaf_perms, reshape_x_shape)`: the axis of permutations becomes axis `i` of `k`.
models/antisymmetry.py:259-265 -/
noncomputable def reshapePerms (k i : ℕ) (x : Arr ℝ) : Arr ℝ :=
  .of (x.shape.take 2 ++ ithFactorial k i (x.shape.getD 2 0) ++ x.shape.drop 3) fun t =>
    x.get (t.take 2 ++ t.getD (2 + (k - 1 - i)) 0 :: t.drop (2 + k))

/-- `jnp.broadcast_to`. -/
noncomputable def broadcastTo (s : List ℕ) (x : Arr ℝ) : Except String (Arr ℝ) :=
  if bshape s x.shape = some s then .ok (.of s fun i => x.get (proj i x.shape))
  else .error "Incompatible shapes for broadcasting"

/-- The permutations of leaf number `i` on the grid of the permutations of all leaves.
models/antisymmetry.py:246-268 -/
noncomputable def gridPerms (nperms : List ℕ) (i : ℕ) (x : Arr ℝ) : Except String (Arr ℝ) := do
  let y ← broadcastTo (x.shape.take 2 ++ nperms.reverse ++ x.shape.drop 3)
    (reshapePerms nperms.length i x)
  flatten true y

/-- The same for the leaves with numbers from `i` on. -/
noncomputable def gridPermsAll (nperms : List ℕ) : ℕ → List (Arr ℝ) → Except String (List (Arr ℝ))
  | _, [] => .ok []
  | i, x :: xs => do
    let y ← gridPerms nperms i x
    let ys ← gridPermsAll nperms (i + 1) xs
    return y :: ys

/-- The signs of leaf number `i` of `k`, along their own axis.  models/antisymmetry.py:247-252 -/
noncomputable def gridSigns (k i n : ℕ) : Arr ℝ :=
  .of (1 :: ithFactorial k i (Antisym.getLexicographicSigns n).length) fun t =>
    (Antisym.getLexicographicSigns n).getD (t.getD (1 + (k - 1 - i)) 0) 0

/-- The product with the signs of the leaves with numbers from `i` on.
models/antisymmetry.py:280 -/
noncomputable def multiplyGridSigns (k : ℕ) : ℕ → List ℕ → Arr ℝ → Except String (Arr ℝ)
  | _, [], x => .ok x
  | i, n :: ns, x => do
    let y ← x.zip (· * ·) (gridSigns k i n)
    multiplyGridSigns k (i + 1) ns y

/-- The sum over the last `k` axes. -/
noncomputable def sumLast : ℕ → Arr ℝ → Arr ℝ
  | 0, x => x
  | k + 1, x => sumLast k (x.reduce List.sum 0 false)

/-- `GenericAntisymmetrize.__call__`.  models/antisymmetry.py:237-288 -/
noncomputable def genericA (fn : Arr ℝ → Except String (Arr ℝ)) (xs : List (Arr ℝ)) :
    Except String (Arr SL) := do
  let perms ← xs.mapM takePerms
  let flat ← gridPermsAll (perms.map fun x => x.shape.getD 2 0) 0 perms
  let all ← concat 0 flat
  let out ← fn all
  let signed ← multiplyGridSigns xs.length 0 (xs.map fun x => x.shape.getD 1 0) out
  return (sumLast (xs.length + 1) signed).map fun x => arrayToSlog (.fin x)

/-! ### Networks -/

/-- The antisymmetric part of the networks.  models/construct.py:1426-1450, 1556-1566 -/
noncomputable def antisymA (a : AntisymDesc) (r : ResNetDesc) (P : ℕ → ℕ → ResNetA)
    (xs : List (Arr ℝ)) : Except String (Arr SL) :=
  match a with
  | .factorized rank => slogSumLast <$> factorizedA (fun s => resNetsA r (P s) rank) xs
  | .generic => genericA (resNetA r (P 0 0) 1) xs

/-- `FactorizedAntisymmetry.__call__` and `GenericAntisymmetry.__call__`.
models/construct.py:1406-1456, 1537-1571 -/
noncomputable def explicitA {nion : ℕ} (spinSplit : List ℤ) (s : StreamsDesc) (bs : List BlockDesc)
    (j : JastrowDesc nion) (a : AntisymDesc) (r : ResNetDesc) (P : ExplicitA) (ions pos : Arr ℝ) :
    Except String (Arr SL) := do
  let (in1e, in2e, rei, ree) ← inputStreams s ions pos
  let stream ← backflowA P.backflow 0 bs in1e in2e
  let parts ← split 1 (places spinSplit) stream
  let psi ← antisymA a r P.resnets parts
  let jastrow ← jastrowA P in1e in2e stream rei ree j
  psi.zip (fun p j => (p.1, p.2 + .fin j)) jastrow

end Verif.Arrays
