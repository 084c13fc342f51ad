import Verif.Model.Arrays

/-!
The FermiNet as array code: `models/equivariance.py`, `models/jastrow.py:15-62`,
`models/sign_symmetry.py`, `models/construct.py:650-1022`, for positions with any number of batch axes.
Axes are at the places at which the code has them; see `Model/Arrays.lean` for the places.

Parameters are functions of indices: they are taken to have the shapes which flax asks for.  Reals are
exact, and means of nothing are 0 (in the code nan).
-/

namespace Verif.Arrays
open Verif.Slog Verif.Construct Verif.Net

/-- Kernel and bias of a dense layer; the first index of the kernel is the input. -/
structure DenseA where
  kernel : ℕ → ℕ → ℝ
  bias : ℕ → ℝ

/-- `Dense.__call__` on the last axis.  models/core.py:190-211 -/
noncomputable def dense (useBias : Bool) (P : DenseA) (features : ℕ) (a : Arr ℝ) : Arr ℝ :=
  .of (a.shape.set 0 features) fun i =>
    (∑ k ∈ Finset.range (a.shape.getD 0 0), a.get (i.set 0 k) * P.kernel k (i.headD 0)) +
      if useBias then P.bias (i.headD 0) else 0

/-- `jnp.linalg.norm` over one axis. -/
noncomputable def norm (l : List ℝ) : ℝ := Real.sqrt ((l.map (· ^ 2)).sum)

/-- `jnp.mean` over one axis. -/
noncomputable def mean (l : List ℝ) : ℝ := l.sum / l.length

/-! ### Input streams -/

/-- `compute_displacements`.  physics/potential.py:11-21 -/
noncomputable def displacementsA (x y : Arr ℝ) : Except String (Arr ℝ) :=
  (x.expand 1).zip (· - ·) (y.expand 2)

/-- `compute_electron_ion` with ion positions.  models/equivariance.py:139-153 -/
noncomputable def electronIon (ions : Arr ℝ) (includeEiNorm : Bool) (softening : ℝ) (pos : Arr ℝ) :
    Except String (Arr ℝ × Arr ℝ) := do
  let rei ← displacementsA pos ions
  if includeEiNorm then
    let norms := (rei.reduce norm 0 true).map fun r => softened r softening
    let withNorm ← concat 0 [rei, norms]
    let input ← flatten true withNorm
    return (input, rei)
  else return (rei, rei)

/-- `compute_ee_norm_with_safe_diag`.  models/core.py:45-66 -/
noncomputable def eeNorms (softening : ℝ) (ree : Arr ℝ) : Except String (Arr ℝ) := do
  let n := ree.shape.getD 1 0
  let eye : Arr ℝ := .of [1, n, n] fun i => if i.getD 1 0 = i.getD 2 0 then 1 else 0
  let shifted ← ree.zip (· + ·) eye
  let norms := (shifted.reduce norm 0 true).map fun r => softened r softening
  norms.zip (· * ·) (eye.map (1 - ·))

/-- `compute_electron_electron`.  models/equivariance.py:156-187 -/
noncomputable def electronElectron (includeEeNorm : Bool) (softening : ℝ) (pos : Arr ℝ) :
    Except String (Arr ℝ × Arr ℝ) := do
  let ree ← displacementsA pos pos
  if includeEeNorm then
    let norms ← eeNorms softening ree
    let input ← concat 0 [ree, norms]
    return (input, ree)
  else return (ree, ree)

/-- `compute_input_streams`: `(input_1e, input_2e, r_ei, r_ee)`.
models/equivariance.py:37-108 -/
noncomputable def inputStreams (s : StreamsDesc) (ions pos : Arr ℝ) :
    Except String (Arr ℝ × Option (Arr ℝ) × Arr ℝ × Option (Arr ℝ)) := do
  let (input, rei) ← electronIon ions s.includeEiNorm s.eiSoftening pos
  if s.include2e then
    let (input2, ree) ← electronElectron s.includeEeNorm s.eeSoftening pos
    return (input, some input2, rei, some ree)
  else return (input, none, rei, none)

/-! ### Backflow -/

/-- Parameters of a residual block.  The attention is any function of the matrices in the last two
axes. -/
structure BlockA where
  unmixed : DenseA
  mixed : DenseA
  dense2e : DenseA
  attention : ℕ → ℕ → (ℕ → ℕ → ℝ) → ℕ → ℕ → ℝ
  two : DenseA

/-- Places of a split, as natural numbers. -/
def places (spinSplit : List ℤ) : List ℕ := spinSplit.map Int.toNat

/-- `_split_mean`.  models/core.py:31-42 -/
noncomputable def splitMeanA (p : ℕ) (keep : Bool) (spinSplit : List ℤ) (x : Arr ℝ) :
    Except String (List (Arr ℝ)) := do
  let parts ← split p (places spinSplit) x
  return parts.map (·.reduce mean p keep)

/-- `_rolled_concat` along the last axis.  models/equivariance.py:29-34 -/
noncomputable def rolledConcat (arrays : List (Arr ℝ)) (n : ℕ) : Except String (Arr ℝ) :=
  concat 0 (arrays.drop n ++ arrays.take n)

/-- `_compute_transformed_1e_means`.  models/equivariance.py:307-349 -/
noncomputable def transformed1e (o : OneDesc) (P : BlockA) (means : List (Arr ℝ)) :
    Except String (List (Arr ℝ)) :=
  if o.cyclic then do
    let concats ← (List.range means.length).mapM (rolledConcat means)
    let all ← concat 1 concats
    splitEqual 1 concats.length (dense false P.mixed o.ndense all)
  else do
    let all ← concat 0 means
    return List.replicate means.length (dense false P.mixed o.ndense all)

/-- The concatenation of the means for one part of the electrons.
models/equivariance.py:379-388 -/
noncomputable def concatMeans (o : OneDesc) (spin : ℕ) (means : List (Arr ℝ)) :
    Except String (Arr ℝ) :=
  if o.cyclic then rolledConcat means spin else concat 0 means

/-- The means of a two-electron stream over the second electron, concatenated, for the parts of the
first electron with numbers from `spin` on.  models/equivariance.py:374-390 -/
noncomputable def concat2e (o : OneDesc) : ℕ → List (Arr ℝ) → Except String (List (Arr ℝ))
  | _, [] => .ok []
  | spin, a :: as => do
    let means ← splitMeanA 1 false o.spinSplit a
    let c ← concatMeans o spin means
    let cs ← concat2e o (spin + 1) as
    return c :: cs

/-- `_compute_transformed_2e_means`.  models/equivariance.py:351-395 -/
noncomputable def transformed2eA (o : OneDesc) (P : BlockA) (in2e : Arr ℝ) :
    Except String (List (Arr ℝ)) := do
  let parts ← split 2 (places o.spinSplit) in2e
  let concats ← concat2e o 0 parts
  let all ← concat 1 concats
  split 1 (places o.spinSplit) (dense false P.dense2e o.ndense all)

/-- `_compute_mixed_split`.  models/equivariance.py:397-407, 189-203 -/
noncomputable def mixedSplit (o : OneDesc) (P : BlockA) (in1e : Arr ℝ) :
    Except String (List (Arr ℝ)) :=
  if o.useTransformer then do
    let parts ← split 1 (places o.spinSplit) in1e
    return parts.map (onRows P.attention o.ndense)
  else do
    let means ← splitMeanA 1 true o.spinSplit in1e
    transformed1e o P means

/-- The skip connection.  models/equivariance.py:468-469, 523-524; models/core.py:112-113 -/
noncomputable def skipA (skip : Bool) (scale : ℝ) (x out : Arr ℝ) : Except String (Arr ℝ) :=
  if skip ∧ x.shape.getD 0 0 = out.shape.getD 0 0 then do
    let sum ← out.zip (· + ·) x
    return sum.map (scale * ·)
  else .ok out

/-- The sum of two lists of arrays, `tree_sum`.  utils/pytree_helpers.py:14-16 -/
noncomputable def treeSumA (xs ys : List (Arr ℝ)) : Except String (List (Arr ℝ)) :=
  treeMap2 (fun a c => a.zip (· + ·) c) xs ys

/-- The contribution of the two-electron stream, if there is one.
models/equivariance.py:451-460 -/
noncomputable def add2e (o : OneDesc) (P : BlockA) (out : List (Arr ℝ)) :
    Option (Arr ℝ) → Except String (List (Arr ℝ))
  | none => .ok out
  | some y => do
    let from2e ← transformed2eA o P y
    treeSumA out from2e

/-- `FermiNetOneElectronLayer.__call__`.  models/equivariance.py:404-471 -/
noncomputable def oneLayer (o : OneDesc) (P : BlockA) (in1e : Arr ℝ) (in2e : Option (Arr ℝ)) :
    Except String (Arr ℝ) := do
  let unmixed ← split 1 (places o.spinSplit) (dense o.useBias P.unmixed o.ndense in1e)
  let mixed ← mixedSplit o P in1e
  let out ← treeSumA unmixed mixed
  let out ← add2e o P out in2e
  let all ← concat 1 out
  skipA o.skip o.skipScale in1e (all.map o.activation.fn)

/-- `FermiNetTwoElectronLayer.__call__`.  models/equivariance.py:512-526 -/
noncomputable def twoLayer (t : TwoDesc) (P : BlockA) (x : Arr ℝ) : Except String (Arr ℝ) :=
  skipA t.skip t.skipScale x ((dense t.useBias P.two t.ndense x).map t.activation.fn)

/-- The two-electron stream of a block.  models/equivariance.py:568-573 -/
noncomputable def block2e (t : Option TwoDesc) (P : BlockA) (in2e : Option (Arr ℝ)) :
    Except String (Option (Arr ℝ)) :=
  match t, in2e with
  | some t, some y => some <$> twoLayer t P y
  | _, _ => .ok in2e

/-- `FermiNetResidualBlock.__call__`.  models/equivariance.py:555-575 -/
noncomputable def block (d : BlockDesc) (P : BlockA) (in1e : Arr ℝ) (in2e : Option (Arr ℝ)) :
    Except String (Arr ℝ × Option (Arr ℝ)) := do
  let out ← oneLayer d.one P in1e in2e
  let out2 ← block2e d.two P in2e
  return (out, out2)

/-- `FermiNetBackflow.__call__`, blocks from number `i` on.  models/equivariance.py:603-625 -/
noncomputable def backflowA (P : ℕ → BlockA) :
    ℕ → List BlockDesc → Arr ℝ → Option (Arr ℝ) → Except String (Arr ℝ)
  | _, [], x, _ => .ok x
  | i, d :: ds, x, y => do
    let (x', y') ← block d (P i) x y
    backflowA P (i + 1) ds x' y'

/-! ### Orbitals -/

/-- Parameters of the orbital layers; the first index is the split. -/
structure OrbitalsA where
  linear : ℕ → DenseA
  iso : ℕ → ℕ → ℝ
  aniso : ℕ → ℕ → DenseA
  ion : ℕ → ℕ → ℕ → ℝ

/-- Dense layers with numbers from `s` on for the parts of a split.
models/equivariance.py:693 -/
noncomputable def denseParts (useBias : Bool) (P : ℕ → DenseA) :
    ℕ → List (Arr ℝ) → List ℕ → List (Arr ℝ)
  | s, x :: xs, m :: ms => dense useBias (P s) m x :: denseParts useBias P (s + 1) xs ms
  | _, _, _ => []

/-- `SplitDense`.  models/equivariance.py:657-693 -/
noncomputable def splitDense (useBias : Bool) (P : ℕ → DenseA) (spinSplit : List ℤ) (ndense : List ℕ)
    (x : Arr ℝ) : Except String (List (Arr ℝ)) :=
  if ndense.length ≠ spinSplit.length + 1 then
    .error "Incorrect number of dense output shapes specified for number of splits"
  else do
    let parts ← split 1 (places spinSplit) x
    return denseParts useBias P 0 parts ndense

/-- `_isotropy_on_leaf`.  models/jastrow.py:15-32, models/core.py:232-238 -/
noncomputable def isotropyA (kernel : ℕ → ℝ) (norb : ℕ) (rei : Arr ℝ) : Except String (Arr ℝ) := do
  let x := (rei.swap 0 1).expand 0
  let x : Arr ℝ := .of (x.shape.set 0 norb) fun i => x.get (i.set 0 0)
  let out ← x.zip (· * ·) (.of [norb, 1] fun i => kernel (i.headD 0))
  return out.swap 0 2

/-- `_anisotropy_on_leaf`.  models/jastrow.py:35-62 -/
noncomputable def anisotropyA (kernel : ℕ → DenseA) (norb : ℕ) (rei : Arr ℝ) :
    Except String (Arr ℝ) := do
  let d := rei.shape.getD 0 0
  let nion := rei.shape.getD 1 0
  let parts ← splitEqual 1 nion rei
  let all ← concat 1 (denseParts false kernel 0 parts (List.replicate nion (d * norb)))
  let out ← unflatten d norb all
  return (out.swap 0 2).swap 0 1

/-- The scaled displacements of an envelope.  models/equivariance.py:709-720 -/
noncomputable def scaledDisplacements (o : OrbitalDesc) (P : OrbitalsA) (s : ℕ) (rei : Arr ℝ)
    (norb : ℕ) : Except String (Arr ℝ) :=
  if o.isotropicDecay then isotropyA (P.iso s) norb rei else anisotropyA (P.aniso s) norb rei

/-- `_compute_exponential_envelopes_on_leaf`.  models/equivariance.py:696-731 -/
noncomputable def envelopeA (o : OrbitalDesc) (softening : ℝ) (P : OrbitalsA) (s : ℕ) (rei : Arr ℝ)
    (norb : ℕ) : Except String (Arr ℝ) := do
  let scaled ← scaledDisplacements o P s rei norb
  let decays := (scaled.reduce norm 0 false).map fun r => Real.exp (-softened r softening)
  let weighted ← decays.zip (· * ·)
    (.of [decays.shape.getD 0 0, decays.shape.getD 1 0, 1] fun i => P.ion s (i.getD 1 0) (i.headD 0))
  return weighted.reduce List.sum 0 false

/-- `_compute_exponential_envelopes_all_splits` on the parts with numbers from `s` on.
models/equivariance.py:734-755 -/
noncomputable def envelopes (o : OrbitalDesc) (softening : ℝ) (P : OrbitalsA) :
    ℕ → List (Arr ℝ) → List ℕ → Except String (List (Arr ℝ))
  | _, [], [] => .ok []
  | s, x :: xs, m :: ms => do
    let e ← envelopeA o softening P s x m
    let es ← envelopes o softening P (s + 1) xs ms
    return e :: es
  | _, _, _ => .error "Mismatch custom node data"

/-- `FermiNetOrbitalLayer.__call__`.  models/equivariance.py:814-851 -/
noncomputable def orbitalLayer (o : OrbitalDesc) (softening : ℝ) (P : OrbitalsA) (spinSplit : List ℤ)
    (norb : List ℕ) (x rei : Arr ℝ) : Except String (List (Arr ℝ)) := do
  let orbs ← splitDense o.useBias P.linear spinSplit norb x
  let parts ← split 2 (places spinSplit) rei
  let envs ← envelopes o softening P 0 parts norb
  treeMap2 (fun a c => a.zip (· * ·) c) orbs envs

/-- `_reshape_raw_ferminet_orbitals` of one array.  models/construct.py:709-724 -/
noncomputable def reshapeRawA (ndet : ℕ) (orb : Arr ℝ) : Except String (Arr ℝ) :=
  if ndet = 0 then .error "ZeroDivisionError: integer division or modulo by zero"
  else do
    let out ← unflatten ndet (orb.shape.getD 0 0 / ndet) orb
    return out.toFront 1

/-! ### Determinants -/

/-- Parameters of a ResNet. -/
structure ResNetA where
  inner : ℕ → DenseA
  final : DenseA

/-- The residual connection of a ResNet.  models/core.py:351-352 -/
noncomputable def addInput (x y : Arr ℝ) : Except String (Arr ℝ) :=
  if x.shape.getD 0 0 = y.shape.getD 0 0 then y.zip (· + ·) x else .ok y

/-- Inner layers of a ResNet from number `i` on, `k` of them.  models/core.py:347-353 -/
noncomputable def innerA (r : ResNetDesc) (P : ResNetA) : ℕ → ℕ → Arr ℝ → Except String (Arr ℝ)
  | _, 0, x => .ok x
  | i, k + 1, x => do
    let y := (dense r.useBias (P.inner i) r.ndense x).map r.activation.fn
    let y ← addInput x y
    innerA r P (i + 1) k y

/-- `SimpleResNet.__call__`.  models/core.py:323-355 -/
noncomputable def resNetA (r : ResNetDesc) (P : ResNetA) (dout : ℕ) (x : Arr ℝ) :
    Except String (Arr ℝ) := do
  let y ← innerA r P 0 (r.nlayers - 1) x
  return dense false P.final dout y

/-- The determinant function.  models/construct.py:680-692 -/
noncomputable def detFnA (r : ResNetDesc) (P : ResNetA) (dout : ℕ) (dets : List (Arr ℝ)) :
    Except String (Arr ℝ) := do
  let all ← concat 0 dets
  resNetA r P dout all

/-- `_get_sign_orbit_single_array` with the new axis at place `p`.
models/sign_symmetry.py:17-76 -/
noncomputable def signOrbit (p i N : ℕ) (x : Arr ℝ) : Except String (Arr ℝ) :=
  (Arr.of ((List.replicate (x.shape.length + 1) 1).set p (2 ^ N)) fun t =>
    SignSym.signArray1d i (t.getD p 0)).zip (· * ·) (x.expand p)

/-- `_get_sign_orbit_for_list`, arrays from number `i` on.  models/sign_symmetry.py:121-167 -/
noncomputable def signOrbits (p N : ℕ) : ℕ → List (Arr ℝ) → Except String (List (Arr ℝ))
  | _, [] => .ok []
  | i, x :: xs => do
    let o ← signOrbit p i N x
    let os ← signOrbits p N (i + 1) xs
    return o :: os

/-- `_multiply_sign_along_axis`.  models/sign_symmetry.py:240-241 -/
noncomputable def multiplySign (p : ℕ) (signs : Arr ℝ) (x : Arr ℝ) : Except String (Arr ℝ) := do
  let y ← signs.zip (· * ·) (x.swap p 0)
  return y.swap p 0

/-- `make_array_list_fn_sign_covariant`.  models/sign_symmetry.py:275-299, 232-236 -/
noncomputable def signCovariantA (p : ℕ) (fn : List (Arr ℝ) → Except String (Arr ℝ))
    (xs : List (Arr ℝ)) : Except String (Arr ℝ) := do
  let syms ← signOrbits p xs.length 0 xs
  let out ← fn syms
  let signed ← multiplySign p
    (.of [2 ^ xs.length] fun t => SignSym.combinedSigns xs.length (t.headD 0)) out
  return signed.reduce List.sum p false

/-- `make_array_list_fn_sign_invariant`.  models/sign_symmetry.py:302-327, 232-236 -/
noncomputable def signInvariantA (p : ℕ) (fn : List (Arr ℝ) → Except String (Arr ℝ))
    (xs : List (Arr ℝ)) : Except String (Arr ℝ) := do
  let syms ← signOrbits p xs.length 0 xs
  let out ← fn syms
  return out.reduce List.sum p false

/-- `_calculate_psi_parallel_even`.  models/construct.py:878-891 -/
noncomputable def parallelEven (fn : ℕ → List (Arr ℝ) → Except String (Arr ℝ)) (ndet : ℕ)
    (dets : List (Arr ℝ)) : Except String (Arr ℝ) := do
  let even ← signInvariantA 1 (fn ndet) dets
  let stacked ← stackLast dets
  let weighted ← (stacked.reduce List.prod 0 false).zip (· * ·) even
  return weighted.reduce List.sum 0 false

/-- `_calculate_psi_pairwise_even`.  models/construct.py:893-922 -/
noncomputable def pairwiseEven (fn : ℕ → List (Arr ℝ) → Except String (Arr ℝ)) (ndet : ℕ) :
    List (Arr ℝ) → Except String (Arr ℝ)
  | [up, down] => do
    let even ← signInvariantA 1 (fn (ndet ^ 2)) [up, down]
    let prod ← (up.expand 0).zip (· * ·) (down.expand 1)
    let prod ← flatten false prod
    let weighted ← prod.zip (· * ·) even
    return weighted.reduce List.sum 0 false
  | _ => .error "only norb_splits=2 is supported"

/-- `functools.reduce` with a function which may raise. -/
noncomputable def foldE {δ : Type} (f : δ → δ → Except String δ) : List δ → Except String δ
  | [] => .error "reduce() of empty iterable with no initial value"
  | a :: as => as.foldlM f a

/-- `slogdet_product`.  models/antisymmetry.py:23-42 -/
noncomputable def slogdetProductA (xs : List (Arr ℝ)) : Except String (Arr SL) := do
  let slogdets ← xs.mapM (onSquares fun _ M => Antisym.slogdet M)
  foldE (fun a c => a.zip slogMultiply c) slogdets

/-- `slog_sum_over_axis` over axis 0.  utils/slog_helpers.py:69-72 -/
noncomputable def slogSumFront (x : Arr SL) : Arr SL :=
  x.reduceFront fun l => slogSumOverAxis fun i : Fin l.length => l.get i

/-- All parameters of a FermiNet. -/
structure FermiA where
  backflow : ℕ → BlockA
  orbitals : OrbitalsA
  detFn : ResNetA

/-- `_get_norbitals_per_split`.  models/construct.py:929-938 -/
noncomputable def norbitals (f : FermiDesc) (pos : Arr ℝ) : Except String (List ℕ) :=
  let n := pos.shape.getD 1 0
  if f.fullDet then .ok (List.replicate (Split.getNsplits (.indices f.spinSplit)) n)
  else (nelecPerSplit f.spinSplit n).map places

/-- The orbitals whose determinants are taken.  models/construct.py:1002-1004 -/
noncomputable def matricesA (f : FermiDesc) (orbs : List (Arr ℝ)) : Except String (List (Arr ℝ)) :=
  if f.fullDet then (fun a => [a]) <$> concat 1 orbs else .ok orbs

/-- The value of the wavefunction from the determinants of shape `(..., ndeterminants)`, with a
determinant function.  models/construct.py:1011-1020 -/
noncomputable def psiA (f : FermiDesc) (r : ResNetDesc) (P : FermiA) (dets : List (Arr ℝ)) :
    Except String (Arr ℝ) :=
  match f.mode with
  | .signCovariance => do
    let out ← signCovariantA 1 (detFnA r P.detFn 1) dets
    out.squeeze 0
  | .parallelEven => parallelEven (detFnA r P.detFn) f.ndeterminants dets
  | .pairwiseEven => pairwiseEven (detFnA r P.detFn) f.ndeterminants dets

/-- The determinants and what is made of them.  models/construct.py:1006-1022 -/
noncomputable def detsA (f : FermiDesc) (P : FermiA) (orbs : List (Arr ℝ)) :
    Except String (Arr SL) :=
  match f.detFn with
  | none => slogSumFront <$> slogdetProductA orbs
  | some r => do
    let dets ← orbs.mapM (onSquares fun _ M => M.det)
    let psi ← psiA f r P (dets.map (·.toLast))
    return psi.map fun x => arrayToSlog (.fin x)

/-- The end of `FermiNet.__call__`, for orbitals of shape `(ndeterminants, ..., nelec[i], norb[i])`.
models/construct.py:1001-1022 -/
noncomputable def combineA (f : FermiDesc) (P : FermiA) (orbs : List (Arr ℝ)) :
    Except String (Arr SL) := do
  let orbs ← matricesA f orbs
  detsA f P orbs

/-- `FermiNet.__call__`.  models/construct.py:969-1022 -/
noncomputable def fermiNetA (f : FermiDesc) (P : FermiA) (ions pos : Arr ℝ) :
    Except String (Arr SL) := do
  let (in1e, in2e, rei, _) ← inputStreams f.streams ions pos
  let stream ← backflowA P.backflow 0 f.backflow in1e in2e
  let norb ← norbitals f pos
  let raw ← orbitalLayer f.orbitals f.envelopeSoftening P.orbitals f.spinSplit
    (norb.map (· * f.ndeterminants)) stream rei
  let orbs ← raw.mapM (reshapeRawA f.ndeterminants)
  combineA f P orbs

end Verif.Arrays
