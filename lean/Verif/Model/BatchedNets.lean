import Verif.Model.Batched

/-!
The FermiNets with hidden fermions as array code: `models/invariance.py` and
`models/construct.py:1025-1240`, for positions with any number of batch axes.  Conventions as in
`Model/Batched.lean`.
-/

namespace Verif.Arrays
open Verif.Slog Verif.Construct Verif.Net

/-- Parameters of an invariance: of its backflow, and of its dense layers (one per split). -/
structure InvarianceA where
  backflow : ℕ → BlockA
  dense : ℕ → DenseA

/-- `SplitMeanDense.__call__`.  A layer without nodes gives an array of the same shape as the empty array
of the code.  models/invariance.py:42-82 -/
noncomputable def splitMeanDenseA (useBias : Bool) (P : ℕ → DenseA) (spinSplit : List ℤ)
    (ndense : List ℕ) (x : Arr ℝ) : Except String (List (Arr ℝ)) := do
  let means ← splitMeanA 1 false spinSplit x
  return denseParts useBias P 0 means ndense

/-- The list of reshaped arrays.  models/invariance.py:140-144, 175-178 -/
noncomputable def reshapeAll : List (Arr ℝ) → List (ℕ × ℕ) → Except String (List (Arr ℝ))
  | x :: xs, (rows, cols) :: shapes => do
    let y ← unflatten rows cols x
    let ys ← reshapeAll xs shapes
    return y :: ys
  | _, _ => .ok []

/-- `InvariantTensor.__call__` after the backflow, with output shapes `(rows, cols)`.
models/invariance.py:121-178 -/
noncomputable def invariantTensorA (useBias : Bool) (P : ℕ → DenseA) (spinSplit : List ℤ)
    (shapes : List (ℕ × ℕ)) (x : Arr ℝ) : Except String (List (Arr ℝ)) :=
  if shapes.length ≠ spinSplit.length + 1 then .error "ValueError"
  else do
    let flat ← splitMeanDenseA useBias P spinSplit (shapes.map fun s => s.1 * s.2) x
    reshapeAll flat shapes

/-- `[p for i in range(nspins) for p in [visible[i], hidden[i]]]`; the lists have the same length.
models/construct.py:1121-1125 -/
def interleave : List (Arr ℝ) → List (Arr ℝ) → List (Arr ℝ)
  | x :: xs, y :: ys => x :: y :: interleave xs ys
  | _, _ => []

/-- The positions of all particles in `_get_elec_pos_and_orbitals_split`.
models/construct.py:1101-1128 -/
noncomputable def allParticles (spinSplit : List ℤ) (nhidden : List ℕ) (invStreams : StreamsDesc)
    (invBackflow : List BlockDesc) (inv : InvarianceDesc) (I : InvarianceA) (ions pos : Arr ℝ) :
    Except String (Arr ℝ) := do
  let visible ← split 1 (places spinSplit) pos
  let (in1e, in2e, _, _) ← inputStreams invStreams ions pos
  let stream ← backflowA I.backflow 0 invBackflow in1e in2e
  let hidden ← invariantTensorA inv.useBias I.dense spinSplit
    (nhidden.map fun h => (h, pos.shape.getD 0 0)) stream
  concat 1 (interleave visible hidden)

/-- `EmbeddedParticleFermiNet.__call__`: FermiNet on all particles, with orbitals split at the numbers of
all particles.  models/construct.py:1085-1130, 969-1022 -/
noncomputable def embeddedA (f : FermiDesc) (nhidden : List ℕ) (invStreams : StreamsDesc)
    (invBackflow : List BlockDesc) (inv : InvarianceDesc) (P : FermiA) (I : InvarianceA)
    (ions pos : Arr ℝ) : Except String (Arr SL) := do
  let perSpin ← nelecPerSplit f.spinSplit (pos.shape.getD 1 0)
  if nhidden.length ≠ perSpin.length then
    .error "Length of nhidden_fermions_per_spin does not match number of spins."
  else
    let all ← allParticles f.spinSplit nhidden invStreams invBackflow inv I ions pos
    let total := List.zipWith (· + ·) perSpin (nhidden.map Int.ofNat)
    fermiNetA { f with spinSplit := Split.getSpinSplit total } P ions all

/-- `_get_norbitals_per_split` with extended matrices.  Fewer hidden counts than splits raise here, if
the determinants are not full.  models/construct.py:1199-1212 -/
noncomputable def extendedNorbitals (f : FermiDesc) (nhidden : List ℕ) (pos : Arr ℝ) :
    Except String (List ℕ) :=
  let n := pos.shape.getD 1 0
  if f.fullDet then .ok (List.replicate (Split.getNsplits (.indices f.spinSplit)) (n + nhidden.sum))
  else do
    let perSplit ← nelecPerSplit f.spinSplit n
    if nhidden.length < perSplit.length then .error "IndexError"
    else return List.zipWith (fun n h => n.toNat + h) perSplit nhidden

/-- The stream from which the invariance is made.  models/construct.py:1180-1184 -/
noncomputable def invarianceStream (invBackflow : Option (List BlockDesc)) (I : InvarianceA)
    (in1e : Arr ℝ) (in2e : Option (Arr ℝ)) (stream : Arr ℝ) : Except String (Arr ℝ) :=
  match invBackflow with
  | some bs => backflowA I.backflow 0 bs in1e in2e
  | none => .ok stream

/-- `_get_invariance`.  More hidden counts than splits raise in the comprehension.
models/construct.py:1168-1197 -/
noncomputable def invarianceRows (f : FermiDesc) (nhidden : List ℕ)
    (invBackflow : Option (List BlockDesc)) (inv : InvarianceDesc) (I : InvarianceA) (norb : List ℕ)
    (in1e : Arr ℝ) (in2e : Option (Arr ℝ)) (stream : Arr ℝ) : Except String (List (Arr ℝ)) :=
  if norb.length < nhidden.length then .error "IndexError"
  else do
    let stream ← invarianceStream invBackflow I in1e in2e stream
    let raw ← invariantTensorA inv.useBias I.dense f.spinSplit
      (List.zipWith (fun h m => (h, m * f.ndeterminants)) nhidden norb) stream
    raw.mapM (reshapeRawA f.ndeterminants)

/-- `[jnp.concatenate([eq, inv], axis=-2) for (eq, inv) in zip(...)]`.
models/construct.py:1235-1238 -/
noncomputable def stackRows : List (Arr ℝ) → List (Arr ℝ) → Except String (List (Arr ℝ))
  | x :: xs, y :: ys => do
    let z ← concat 1 [x, y]
    let zs ← stackRows xs ys
    return z :: zs
  | _, _ => .ok []

/-- `ExtendedOrbitalMatrixFermiNet.__call__`.  models/construct.py:1133-1240, 969-1022 -/
noncomputable def extendedA (f : FermiDesc) (nhidden : List ℕ) (invBackflow : Option (List BlockDesc))
    (inv : InvarianceDesc) (P : FermiA) (I : InvarianceA) (ions pos : Arr ℝ) :
    Except String (Arr SL) := do
  let (in1e, in2e, rei, _) ← inputStreams f.streams ions pos
  let stream ← backflowA P.backflow 0 f.backflow in1e in2e
  let norb ← extendedNorbitals f nhidden pos
  let raw ← orbitalLayer f.orbitals f.envelopeSoftening P.orbitals f.spinSplit
    (norb.map (· * f.ndeterminants)) stream rei
  let equivariant ← raw.mapM (reshapeRawA f.ndeterminants)
  let invariant ← invarianceRows f nhidden invBackflow inv I norb in1e in2e stream
  let orbs ← stackRows equivariant invariant
  combineA f P orbs

end Verif.Arrays
