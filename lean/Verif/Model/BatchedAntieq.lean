import Verif.Model.BatchedNets

/-!
The antiequivariance networks as array code, for positions with any number of batch axes:
`models/antiequivariance.py`, `models/equivariance.py:899-1005`, `models/sign_symmetry.py:300-370`,
`models/construct.py:484-511, 1299-1324`.  Conventions as in `Model/Arrays.lean` and
`Model/Batched.lean`.
-/

namespace Verif.Arrays
open Verif.Slog Verif.Construct Verif.Net

variable {α : Type} [Inhabited α]

/-- `jnp.delete(a, i, axis)` for the axis at place `p` and a number below its length. -/
noncomputable def Arr.delete (p i : ℕ) (a : Arr α) : Arr α :=
  .of (a.shape.modify p (· - 1)) fun j => a.get (j.modify p fun t => if t < i then t else t + 1)

/-- `jnp.stack` with the new axis at place `p`. -/
noncomputable def stackAt (p : ℕ) (as : List (Arr α)) : Except String (Arr α) :=
  if as = [] then .error "Need at least one array to stack." else concat p (as.map (·.expand p))

/-- `a[..., i]`, the entries at number `i` of the axis at place 0. -/
noncomputable def Arr.at0 (i : ℕ) (a : Arr α) : Arr α := .of a.shape.tail fun j => a.get (i :: j)

/-- `jnp.repeat(a, k, axis)` for the axis at place `p`. -/
noncomputable def Arr.repeat (p k : ℕ) (a : Arr α) : Arr α :=
  .of (a.shape.modify p (· * k)) fun j => a.get (j.modify p (· / k))

/-- `jnp.reshape` which cuts the axis at place 1 into an axis of length `l` and one of length `k`; raises
if the sizes of the arrays differ. -/
noncomputable def splitAxis1 (l k : ℕ) (a : Arr α) : Except String (Arr α) :=
  match a.shape with
  | d :: m :: rest =>
    if (d :: m :: rest).prod = (d :: k :: l :: rest).prod then
      .ok (.of (d :: k :: l :: rest) fun i =>
        a.get (i.headD 0 :: (i.getD 2 0 * k + i.getD 1 0) :: i.drop 3))
    else .error "cannot reshape array"
  | _ => .error "not enough axes"

/-! ### Antiequivariant layers -/

/-- `get_submatrices_along_first_col`.  models/antiequivariance.py:22-44 -/
noncomputable def submatricesA (x : Arr ℝ) : Except String (Arr ℝ) :=
  if x.shape.getD 0 0 ≠ x.shape.getD 1 0 then
    .error "Calculating cofactors requires shape (..., n, n)"
  else stackAt 2 ((List.range (x.shape.getD 0 0)).map fun i => (x.delete 1 i).delete 0 0)

/-- `cofactor_antieq`.  models/antiequivariance.py:47-78 -/
noncomputable def cofactorA (x : Arr ℝ) : Except String (Arr ℝ) := do
  let submats ← submatricesA x
  let dets ← onSquares (fun _ M => M.det) submats
  let signs : Arr ℝ := .of [x.shape.getD 0 0] fun i =>
    (Antisym.getAlternatingSigns (x.shape.getD 0 0)).getD (i.headD 0) 0
  let cofactors ← signs.zip (· * ·) dets
  (x.at0 0).zip (· * ·) cofactors

/-- `OrbitalCofactorAntiequivarianceLayer.__call__`; the options land in other fields of the orbital
layer, see `Antieq.cofactorOrbitalLayer`.  models/antiequivariance.py:206-245 -/
noncomputable def cofactorLayerA (o : OrbitalDesc) (P : OrbitalsA) (spinSplit : List ℤ) (x rei : Arr ℝ) :
    Except String (List (Arr ℝ)) := do
  let nelec ← nelecPerSplit spinSplit (x.shape.getD 1 0)
  let orbs ← orbitalLayer { o with
      useBias := o.isotropicDecay
      isotropicDecay := false } (if o.useBias then 1 else 0) P spinSplit (places nelec) x rei
  let cofactors ← orbs.mapM cofactorA
  return cofactors.map (·.expand 0)

/-- `_get_orbital_matrices_one_split`.  The second `reshape` is to the shape which the array already has.
models/equivariance.py:920-958 -/
noncomputable def doublyOne (useBias : Bool) (P : DenseA) (norb : ℕ) (x : Arr ℝ) :
    Except String (Arr ℝ) := do
  let nelec := x.shape.getD 1 0
  let axis2 ← splitAxis1 nelec nelec (x.repeat 1 nelec)
  let axis3 := (x.expand 2).repeat 2 nelec
  let inputs ← concat 0 [axis2, axis3]
  return dense useBias P norb inputs

/-- The matrices of all splits, from number `s` on.  models/equivariance.py:985-988 -/
noncomputable def doublyAll (useBias : Bool) (P : ℕ → DenseA) :
    ℕ → List (Arr ℝ) → List ℕ → Except String (List (Arr ℝ))
  | _, [], _ => .ok []
  | _, _ :: _, [] => .error "IndexError"
  | s, x :: xs, m :: ms => do
    let y ← doublyOne useBias (P s) m x
    let ys ← doublyAll useBias P (s + 1) xs ms
    return y :: ys

/-- `DoublyEquivariantOrbitalLayer.__call__`.  models/equivariance.py:963-1005 -/
noncomputable def doublyLayerA (o : OrbitalDesc) (P : OrbitalsA) (spinSplit : List ℤ) (norb : List ℕ)
    (x rei : Arr ℝ) : Except String (List (Arr ℝ)) := do
  let parts ← split 1 (places spinSplit) x
  let orbs ← doublyAll o.useBias P.linear 0 parts norb
  let disps ← split 2 (places spinSplit) rei
  let envs ← envelopes o 0 P 0 disps norb
  treeMap2 (fun a c => a.zip (· * ·) c) orbs (envs.map (·.expand 2))

/-- `PerParticleDeterminantAntiequivarianceLayer.__call__`.  models/antiequivariance.py:378-416 -/
noncomputable def perParticleLayerA (o : OrbitalDesc) (P : OrbitalsA) (spinSplit : List ℤ)
    (x rei : Arr ℝ) : Except String (List (Arr ℝ)) := do
  let nelec ← nelecPerSplit spinSplit (x.shape.getD 1 0)
  let orbs ← doublyLayerA o P spinSplit (places nelec) x rei
  let dets ← orbs.mapM (onSquares fun _ M => M.det)
  return dets.map (·.expand 0)

/-- The antiequivariant layer of the network. -/
noncomputable def antieqLayerA (perParticle : Bool) (o : OrbitalDesc) (P : OrbitalsA)
    (spinSplit : List ℤ) (x rei : Arr ℝ) : Except String (List (Arr ℝ)) :=
  if perParticle then perParticleLayerA o P spinSplit x rei else cofactorLayerA o P spinSplit x rei

/-- `multiply_antieq_by_eq_features`, if the option is set.
models/antiequivariance.py:113-131, models/construct.py:1316-1319 -/
noncomputable def multiplyA (multiply : Bool) (spinSplit : List ℤ) (antieq : List (Arr ℝ))
    (features : Arr ℝ) : Except String (List (Arr ℝ)) :=
  if multiply then do
    let parts ← split 1 (places spinSplit) features
    treeMap2 (fun a c => a.zip (· * ·) c) parts antieq
  else .ok antieq

/-! ### Sign covariances -/

/-- `jax.lax.dot_general` which contracts the last axes, with all axes but the last two as batch axes:
raises if these differ.  models/sign_symmetry.py:343-351 -/
noncomputable def pairwiseDotsA (x y : Arr ℝ) : Except String (Arr ℝ) :=
  match x.shape, y.shape with
  | k :: m :: rest, k' :: m' :: rest' =>
    if k = k' ∧ rest = rest' then
      .ok (.of (m' :: m :: rest) fun i => ∑ t ∈ Finset.range k,
        x.get (t :: i.getD 1 0 :: i.drop 2) * y.get (t :: i.headD 0 :: i.drop 2))
    else .error "dot_general requires equal contracting and batch dimensions"
  | _, _ => .error "not enough axes"

/-- `ProductsSignCovariance.__call__` with one output feature.  models/sign_symmetry.py:324-370 -/
noncomputable def productsA (weights : Option DenseA) : List (Arr ℝ) → Except String (Arr ℝ)
  | [up, down] => do
    let dots ← pairwiseDotsA up down
    match weights with
    | none => return ((dots.reduce List.sum 0 false).reduce List.sum 0 false).expand 0
    | some P =>
      let flat ← flatten false dots
      return dense false P 1 flat
  | _ => .error "Products covariance only supported for nspins=2"

/-- `backflow_based_equivariance` on arrays with the axis of signs; the configuration is parsed in the
call.  models/construct.py:498-505 -/
noncomputable def backflowEquivarianceA (cfg : BackflowCfg) (spinSplit : List ℤ) (dtype : ℕ)
    (P : List BlockDesc → ℕ → BlockA) (xs : List (Arr ℝ)) : Except String (Arr ℝ) := do
  let x ← concat 1 xs
  let bs ← getBackflow cfg spinSplit dtype
  backflowA (P bs) 0 bs x none

/-- Parameters of a sign covariance; those of the backflow depend on its blocks. -/
structure CovarianceA where
  products : DenseA
  backflow : List BlockDesc → ℕ → BlockA

/-- `array_list_sign_covariance`.  models/construct.py:491-511 -/
noncomputable def covarianceA (c : CovarianceDesc) (P : CovarianceA) (xs : List (Arr ℝ)) :
    Except String (Arr ℝ) :=
  match c with
  | .products _ useWeights => productsA (if useWeights then some P.products else none) xs
  | .backflow cfg spinSplit dtype => do
    let odd ← signCovariantA 2 (backflowEquivarianceA cfg spinSplit dtype P.backflow) xs
    return odd.reduce List.sum 1 false

/-- `AntiequivarianceNet.__call__`.  models/construct.py:1303-1324 -/
noncomputable def antiequivarianceA (spinSplit : List ℤ) (s : StreamsDesc) (bs : List BlockDesc)
    (perParticle : Bool) (layerSplit : List ℤ) (o : OrbitalDesc) (c : CovarianceDesc) (multiply : Bool)
    (P : ℕ → BlockA) (L : OrbitalsA) (C : CovarianceA) (ions pos : Arr ℝ) :
    Except String (Arr SL) := do
  let (in1e, in2e, rei, _) ← inputStreams s ions pos
  let features ← backflowA P 0 bs in1e in2e
  let antieq ← antieqLayerA perParticle o L layerSplit features rei
  let antieq ← multiplyA multiply spinSplit antieq features
  let antisym ← covarianceA c C antieq
  return (antisym.reduce List.sum 0 false).map fun x => arrayToSlog (.fin x)

end Verif.Arrays
