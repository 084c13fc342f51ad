import Verif.Model.Network
import Verif.Model.Antiequivariance
import Verif.Model.Jastrow

/-!
The other wavefunction models of `models/construct.py`, with `models/invariance.py`.  Conventions
as in `Model/Network.lean`.
-/

namespace Verif.Net
open Verif.Slog

variable {S : ℕ} {n : Fin S → ℕ}

/-- `SplitMeanDense.__call__` on one walker: mean over each species, then one dense layer per
species (no output for width 0).  models/invariance.py:64-82 -/
noncomputable def splitMeanDense {d1 : ℕ} {m : Fin S → ℕ} (useBias : Bool)
    (kernel : ∀ s, Fin d1 → Fin (m s) → ℝ) (bias : ∀ s, Fin (m s) → ℝ) (x : Stream1 n d1)
    (s : Fin S) : Fin (m s) → ℝ := dense useBias (kernel s) (bias s) (splitMean x s)

/-- The dense layers of an `InvariantTensor` with output shapes `(rows s, cols s)`.
models/invariance.py:85-144 -/
structure InvariantDense (S d1 : ℕ) (rows cols : Fin S → ℕ) where
  kernel : ∀ s, Fin d1 → Fin (rows s * cols s) → ℝ
  bias : ∀ s, Fin (rows s * cols s) → ℝ
  useBias : Bool

/-- `InvariantTensor.__call__` after the backflow.  models/invariance.py:146-178 -/
noncomputable def InvariantDense.apply {d1 : ℕ} {rows cols : Fin S → ℕ}
    (I : InvariantDense S d1 rows cols) (x : Stream1 n d1) (s : Fin S) (a : Fin (rows s))
    (b : Fin (cols s)) : ℝ :=
  splitMeanDense I.useBias I.kernel I.bias x s (finProdFinEquiv (a, b))

/-! ### FermiNets with hidden fermions -/

/-- Visible particles of each species followed by its hidden ones.
models/construct.py:1118-1128 -/
def embedParticles {h : Fin S → ℕ} {d : ℕ} (pos : Stream1 n d) (hidden : ∀ s, Fin (h s) → Fin d → ℝ) :
    Stream1 (fun s => n s + h s) d := fun e =>
  Fin.append (fun i => pos ⟨e.1, i⟩) (hidden e.1) e.2

/-- Positions of all particles from `_get_elec_pos_and_orbitals_split` of the embedded-particle
FermiNet.  (The code raises if the number of hidden counts is not the number of species; here
there is one per species.)  models/construct.py:1085-1130 -/
noncomputable def embeddedPositions {h : Fin S → ℕ} {nion d : ℕ} {v v' : ℕ × ℕ}
    (invStreams : Stream1 n d → Streams n v × Option (Elec n → Fin nion → Fin d → ℝ))
    (invBackflow : Blocks S v v') (I : InvariantDense S v'.1 h fun _ => d) (pos : Stream1 n d) :
    Stream1 (fun s => n s + h s) d :=
  embedParticles pos (I.apply (invBackflow.backflow (invStreams pos).1))

/-- `EmbeddedParticleFermiNet.__call__` with `full_det=False`: FermiNet on all particles.
models/construct.py:1025-1130, 969-1022 -/
noncomputable def embeddedFermiNet {K ndet nion d : ℕ} {n h : Fin (K + 1) → ℕ} {v v' w w' : ℕ × ℕ}
    (invStreams : Stream1 n d → Streams n v × Option (Elec n → Fin nion → Fin d → ℝ))
    (invBackflow : Blocks (K + 1) v v') (I : InvariantDense (K + 1) v'.1 h fun _ => d)
    (streams : Stream1 (fun s => n s + h s) d → Streams (fun s => n s + h s) w ×
      Option (Elec (fun s => n s + h s) → Fin nion → Fin d → ℝ))
    (backflow : Blocks (K + 1) w w')
    (L : OrbitalLayer (K + 1) w'.1 nion d fun s => ndet * (n s + h s))
    (detFn : Option (((dout : ℕ) → (Fin (K + 1) → Fin ndet → ℝ) → Fin dout → ℝ) × DetFnMode))
    (pos : Stream1 n d) : Except String SL :=
  fermiNet streams backflow L detFn (embeddedPositions invStreams invBackflow I pos)

/-- `EmbeddedParticleFermiNet.__call__` with `full_det=True`. -/
noncomputable def embeddedFermiNetFull {ndet nion d : ℕ} {h : Fin S → ℕ} {v v' w w' : ℕ × ℕ}
    (invStreams : Stream1 n d → Streams n v × Option (Elec n → Fin nion → Fin d → ℝ))
    (invBackflow : Blocks S v v') (I : InvariantDense S v'.1 h fun _ => d)
    (streams : Stream1 (fun s => n s + h s) d → Streams (fun s => n s + h s) w ×
      Option (Elec (fun s => n s + h s) → Fin nion → Fin d → ℝ))
    (backflow : Blocks S w w') (L : OrbitalLayer S w'.1 nion d fun _ => ndet * ∑ s, (n s + h s))
    (detFn : Option (((dout : ℕ) → (Fin 1 → Fin ndet → ℝ) → Fin dout → ℝ) × DetFnMode))
    (pos : Stream1 n d) : Except String SL :=
  fermiNetFull streams backflow L detFn (embeddedPositions invStreams invBackflow I pos)

/-- `ExtendedOrbitalMatrixFermiNet._eval_orbitals`: for determinant `i` and species `s` the rows
of the visible electrons followed by rows which are functions of species means, both with the
columns of determinant `i`.  The invariance uses its own backflow if there is one.
models/construct.py:1168-1240 -/
noncomputable def extendedRows {nion d ndet : ℕ} {h norb : Fin S → ℕ} {w w' v : ℕ × ℕ}
    (L : OrbitalLayer S w'.1 nion d fun s => ndet * norb s)
    (inv : (Blocks S w v × InvariantDense S v.1 h fun s => ndet * norb s) ⊕
      InvariantDense S w'.1 h fun s => ndet * norb s)
    (inputs : Streams n w) (stream : Stream1 n w'.1)
    (rei : Option (Elec n → Fin nion → Fin d → ℝ)) (i : Fin ndet) (s : Fin S) :
    Fin (n s + h s) → Fin (norb s) → ℝ :=
  let invariance := match inv with
    | .inl (bs, I) => I.apply (bs.backflow inputs)
    | .inr I => I.apply stream
  Fin.append (fun a => reshapeRaw (L.apply stream rei s a) i)
    (fun b => reshapeRaw (invariance s b) i)

/-- `ExtendedOrbitalMatrixFermiNet.__call__` with `full_det=False`.
models/construct.py:1133-1240, 969-1022 -/
noncomputable def extendedFermiNet {K ndet nion d : ℕ} {n h : Fin (K + 1) → ℕ} {w w' v : ℕ × ℕ}
    (streams : Stream1 n d → Streams n w × Option (Elec n → Fin nion → Fin d → ℝ))
    (backflow : Blocks (K + 1) w w')
    (L : OrbitalLayer (K + 1) w'.1 nion d fun s => ndet * (n s + h s))
    (inv : (Blocks (K + 1) w v × InvariantDense (K + 1) v.1 h fun s => ndet * (n s + h s)) ⊕
      InvariantDense (K + 1) w'.1 h fun s => ndet * (n s + h s))
    (detFn : Option (((dout : ℕ) → (Fin (K + 1) → Fin ndet → ℝ) → Fin dout → ℝ) × DetFnMode))
    (pos : Stream1 n d) : Except String SL :=
  combine (m := fun s => n s + h s) detFn fun i s => Matrix.of <|
    extendedRows (norb := fun s => n s + h s) L inv (streams pos).1
      (backflow.backflow (streams pos).1) (streams pos).2 i s

/-- `ExtendedOrbitalMatrixFermiNet.__call__` with `full_det=True`. -/
noncomputable def extendedFermiNetFull {ndet nion d : ℕ} {h : Fin S → ℕ} {w w' v : ℕ × ℕ}
    (streams : Stream1 n d → Streams n w × Option (Elec n → Fin nion → Fin d → ℝ))
    (backflow : Blocks S w w') (L : OrbitalLayer S w'.1 nion d fun _ => ndet * ∑ s, (n s + h s))
    (inv : (Blocks S w v × InvariantDense S v.1 h fun _ => ndet * ∑ s, (n s + h s)) ⊕
      InvariantDense S w'.1 h fun _ => ndet * ∑ s, (n s + h s))
    (detFn : Option (((dout : ℕ) → (Fin 1 → Fin ndet → ℝ) → Fin dout → ℝ) × DetFnMode))
    (pos : Stream1 n d) : Except String SL :=
  combine (K := 0) (m := fun _ => ∑ s, (n s + h s)) detFn fun i _ =>
    concatRows (n := fun s => n s + h s) <|
      extendedRows (norb := fun _ => ∑ s, (n s + h s)) L inv (streams pos).1
        (backflow.backflow (streams pos).1) (streams pos).2 i

/-! ### AntiequivarianceNet -/

/-- A list comprehension whose entries may raise. -/
def sequence : {S : ℕ} → {α : Fin S → Type} → (∀ s, Except String (α s)) →
    Except String (∀ s, α s)
  | 0, _, _ => .ok fun s => s.elim0
  | S + 1, α, f =>
    match f 0, sequence (S := S) (α := fun s => α s.succ) fun s => f s.succ with
    | .ok a, .ok r => .ok (Fin.cons a r)
    | .error e, _ => .error e
    | .ok _, .error e => .error e

/-- `multiply_by_eq_features`: the width of the antiequivariance becomes that of the features. -/
inductive Multiply (d1 : ℕ) : ℕ → Type
  | no : Multiply d1 1
  | yes : Multiply d1 d1

/-- models/construct.py:1316-1319 -/
def Multiply.apply {d1 da : ℕ} : Multiply d1 da → (∀ s, Fin (n s) → Fin 1 → ℝ) → Stream1 n d1 →
    ∀ s, Fin (n s) → Fin da → ℝ
  | .no, a, _ => a
  | .yes, a, x => Antieq.multiplyByEqFeatures a x

/-- The sign covariances of `get_sign_covariance_from_config`: products of the two species'
values, unweighted or with one weight per pair of electrons, or a sign-symmetrized backflow.
models/construct.py:484-511 -/
inductive Covariance (S da : ℕ)
  | products
  | weightedProducts (kernel : ℕ → ℕ → ℝ)
  | backflow {w2 : ℕ} {w' : ℕ × ℕ} (bs : Blocks S (da, w2) w')

/-- `array_list_sign_covariance`, summed over the last axis as the network does; the products
raise unless there are two species.
models/construct.py:489-509, 1321-1322; models/sign_symmetry.py:334-370 -/
noncomputable def Covariance.apply {da : ℕ} (C : Covariance S da)
    (x : ∀ s, Fin (n s) → Fin da → ℝ) : Except String ℝ :=
  match C with
  | .products =>
    if h : S = 2 then .ok (SignSym.productsCovariance (x ⟨0, by omega⟩) (x ⟨1, by omega⟩))
    else .error "Products covariance only supported for nspins=2"
  | .weightedProducts kernel =>
    if h : S = 2 then .ok (∑ c, SignSym.productsCovarianceWeighted (features := 1)
      (fun i j _ => kernel i j) (x ⟨0, by omega⟩) (x ⟨1, by omega⟩) c)
    else .error "Products covariance only supported for nspins=2"
  | .backflow (w' := w') bs => .ok <| ∑ c : Fin w'.1, ∑ e : Elec n,
      SignSym.arrayListSignCovariant (ι := fun s => Fin (n s) × Fin da) (o := Elec n × Fin w'.1)
        (fun y p => bs.backflow (n := n) (fun e k => y e.1 (e.2, k), none) p.1 p.2)
        (fun s p => x s p.1 p.2) (e, c)

/-- `AntiequivarianceNet.__call__` for any antiequivariant layer.
models/construct.py:1299-1324 -/
noncomputable def antiequivarianceNet {nion d da : ℕ} {w w' : ℕ × ℕ}
    (streams : Stream1 n d → Streams n w × Option (Elec n → Fin nion → Fin d → ℝ))
    (backflow : Blocks S w w')
    (layer : Stream1 n w'.1 → Option (Elec n → Fin nion → Fin d → ℝ) →
      ∀ s, Except String (Fin (n s) → Fin 1 → ℝ))
    (multiply : Multiply w'.1 da) (C : Covariance S da) (pos : Stream1 n d) : Except String SL :=
  let backflowOut := backflow.backflow (streams pos).1
  (sequence (layer backflowOut (streams pos).2)).bind fun a =>
    (C.apply (multiply.apply a backflowOut)).map fun r => arrayToSlog (.fin r)

/-- The layer of `orbital_cofactor_net`.  models/construct.py:276-296 -/
noncomputable def cofactorNetLayer {d1 nion d : ℕ} (P : OrbitalLayer S d1 nion d n)
    (orbitalsUseBias isotropicDecay : Bool) (x : Stream1 n d1)
    (rei : Option (Elec n → Fin nion → Fin d → ℝ)) (s : Fin S) :
    Except String (Fin (n s) → Fin 1 → ℝ) :=
  Antieq.cofactorLayer P orbitalsUseBias isotropicDecay x rei s

/-- The layer of `per_particle_dets_net`.  models/construct.py:297-314 -/
noncomputable def perParticleNetLayer {d1 nion d : ℕ} (P : Antieq.DoublyLayer S d1 nion d n)
    (orbitalsUseBias isotropicDecay : Bool) (x : Stream1 n d1)
    (rei : Option (Elec n → Fin nion → Fin d → ℝ)) (s : Fin S) :
    Except String (Fin (n s) → Fin 1 → ℝ) :=
  .ok (Antieq.perParticleDetLayer P orbitalsUseBias isotropicDecay x rei s)

/-! ### Explicitly antisymmetrized networks -/

/-- The Jastrow factors of the `explicit_antisym` models.  models/construct.py:330-378 -/
inductive JastrowModel (S nion : ℕ) (w : ℕ × ℕ)
  | oneBody (kernel : Fin 1 → ℝ)
  | twoBody (z : Fin nion → ℝ) (q logScaleFactor : ℝ)
  | backflowBased
  | separateBackflow {w' : ℕ × ℕ} (bs : Blocks S w w')
  | added (a b : JastrowModel S nion w)

/-- An array with an electron axis, in electron order. -/
def flat {β : Type*} (x : Elec n → β) : Fin (∑ s, n s) → β := fun a => x (finSigmaFinEquiv.symm a)

/-- The Jastrow call `self._jastrow(input_stream_1e, input_stream_2e, stream_1e, r_ei, r_ee)`;
a missing displacement array (`None`) makes the array operations raise.
models/construct.py:1450-1452, models/jastrow.py, models/core.py:146-149 (`AddedModel`) -/
noncomputable def JastrowModel.apply {nion d d1 : ℕ} {w : ℕ × ℕ} (inputs : Streams n w)
    (stream : Stream1 n d1) (rei : Option (Elec n → Fin nion → Fin d → ℝ))
    (ree : Option (Stream2 n d)) : JastrowModel S nion w → Except String ℝ
  | .oneBody kernel => match rei with
    | some rei => .ok (Jastrow.oneBodyExpDecay kernel true (flat rei))
    | none => .error "TypeError"
  | .twoBody z q c => match rei, ree with
    | some rei, some ree =>
      .ok (Jastrow.twoBodyExpDecay z q c true (flat rei) fun a => flat (flat ree a))
    | _, _ => .error "TypeError"
  | .backflowBased => .ok (Jastrow.backflowJastrow true (flat stream))
  | .separateBackflow bs => .ok (Jastrow.backflowJastrow true (flat (bs.backflow inputs)))
  | .added a b => match a.apply inputs stream rei ree, b.apply inputs stream rei ree with
    | .ok x, .ok y => .ok (x + y)
    | .error e, _ => .error e
    | .ok _, .error e => .error e

/-- `r_ee` from `compute_input_streams`.  models/equivariance.py:100-108 -/
def eeDisplacements {d : ℕ} (include2e : Bool) (pos : Stream1 n d) : Option (Stream2 n d) :=
  if include2e then some (displacements pos pos) else none

/-- `FactorizedAntisymmetry.__call__` with ions; `resnets s` is the function which concatenates
the outputs of the `rank` ResNets of species `s` (any function of the flattened features).
models/construct.py:1398-1456 -/
noncomputable def factorizedNet {K nion d rank : ℕ} {n : Fin (K + 1) → ℕ}
    (ions : Fin nion → Fin d → ℝ) (i2 : Bool) (c : ℝ) (ie : Bool) (c' : ℝ) {w' : ℕ × ℕ}
    (backflow : Blocks (K + 1) (nion * (d + 1), if ie then d + 1 else d) w')
    (jastrow : JastrowModel (K + 1) nion (nion * (d + 1), if ie then d + 1 else d))
    (resnets : Fin (K + 1) → List ℝ → Fin rank → ℝ) (pos : Stream1 n d) : Except String SL :=
  let inputs := ionStreams ions i2 c ie c' pos
  let stream := backflow.backflow inputs.1
  let slogAntisyms := Antisym.factorizedAntisymmetrizeSlog resnets fun s i => stream ⟨s, i⟩
  let psi := slogSumOverAxis slogAntisyms
  (jastrow.apply inputs.1 stream inputs.2 (eeDisplacements i2 pos)).map fun j =>
    (psi.1, psi.2 + .fin j)

/-- `GenericAntisymmetry.__call__` with ions.  models/construct.py:1532-1571 -/
noncomputable def genericNet {K nion d : ℕ} {n : Fin (K + 1) → ℕ}
    (ions : Fin nion → Fin d → ℝ) (i2 : Bool) (c : ℝ) (ie : Bool) (c' : ℝ) {w' : ℕ × ℕ}
    (backflow : Blocks (K + 1) (nion * (d + 1), if ie then d + 1 else d) w')
    (jastrow : JastrowModel (K + 1) nion (nion * (d + 1), if ie then d + 1 else d))
    (resnet : List ℝ → Fin 1 → ℝ) (pos : Stream1 n d) : Except String SL :=
  let inputs := ionStreams ions i2 c ie c' pos
  let stream := backflow.backflow inputs.1
  let psi := Antisym.genericAntisymmetrizeSlog resnet fun s i => stream ⟨s, i⟩
  (jastrow.apply inputs.1 stream inputs.2 (eeDisplacements i2 pos)).map fun j =>
    (psi.1, psi.2 + .fin j)

end Verif.Net
