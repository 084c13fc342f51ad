import Verif.Model.SignSymmetry
import Verif.Model.Antisymmetry
import Mathlib.Analysis.SpecialFunctions.Pow.Real
import Mathlib.Analysis.SpecialFunctions.Exp

/-!
Equivariant network parts and FermiNet: `models/equivariance.py`, parts of `models/core.py`,
`models/jastrow.py` and `models/construct.py`.

Batch axes are dropped: all functions act on one walker, with exact real arithmetic.  The
electron axis of an array, together with the spin split, is the index type `Elec n`: pairs
(species `s`, place `i` within the species).  `split(x, spin_split)` gives piece `s` as
`fun i => x ⟨s, i⟩` and concatenation along the electron axis is the inverse; that the code's
split indices produce this layout is C49.  Concatenation of `S` feature arrays along the last axis
gives features indexed by `Fin S × Fin d`.  Parameters (kernels, biases) are arbitrary numbers
stored in the structures below, so that every theorem holds for every parameter value.
Activations are functions applied entry by entry, which is what the named activations of
construct.py:81-88 are.  The mean over an empty species is 0/0 = nan in the code; in the model
division by zero gives 0.
-/

namespace Verif.Net
open Verif.Slog

variable {S : ℕ} {n : Fin S → ℕ}

/-- Places of the electron axis: species and position within the species. -/
abbrev Elec {S : ℕ} (n : Fin S → ℕ) := Σ s : Fin S, Fin (n s)

/-- One-electron stream of shape `(nelec, d)`. -/
abbrev Stream1 {S : ℕ} (n : Fin S → ℕ) (d : ℕ) := Elec n → Fin d → ℝ

/-- Two-electron stream of shape `(nelec, nelec, d)`. -/
abbrev Stream2 {S : ℕ} (n : Fin S → ℕ) (d : ℕ) := Elec n → Elec n → Fin d → ℝ

/-- `Dense.__call__`: `jnp.dot(inputs, kernel)`, plus the bias if `use_bias`.
models/core.py:190-211 -/
def dense {ι : Type*} [Fintype ι] {d' : ℕ} (useBias : Bool) (kernel : ι → Fin d' → ℝ)
    (bias : Fin d' → ℝ) (x : ι → ℝ) (j : Fin d') : ℝ :=
  (∑ i, x i * kernel i j) + if useBias then bias j else 0

/-! ### Input streams -/

/-- `compute_displacements(x, y)`: `x_i - y_j`.  physics/potential.py:11-21 -/
def displacements {α β : Type*} {d : ℕ} (x : α → Fin d → ℝ) (y : β → Fin d → ℝ) (i : α) (j : β)
    (k : Fin d) : ℝ := x i k - y j k

/-- Euclidean norm over the last axis (`jnp.linalg.norm(., axis=-1)`). -/
noncomputable def norm2 {d : ℕ} (v : Fin d → ℝ) : ℝ := Real.sqrt (∑ k, v k ^ 2)

/-- `sqrt(r^2 + c^2) - c`.  models/equivariance.py:147-149, models/core.py:65 -/
noncomputable def softened (r c : ℝ) : ℝ := Real.sqrt (r ^ 2 + c ^ 2) - c

/-- What `compute_electron_ion` returns first: positions without ions, the flattened
displacements with norms, or, without norms, displacements which are *not* flattened although
the documentation says that the shape is `(..., nelec, nion * d)`. -/
inductive Input1 {S : ℕ} (n : Fin S → ℕ) (nion d : ℕ)
  | positions (x : Stream1 n d)
  | flattened (x : Stream1 n (nion * (d + 1)))
  | unflattened (x : Elec n → Fin nion → Fin d → ℝ)

/-- The flattened one-electron input with norms: entry `j * (d + 1) + k` of electron `e` is entry
`k` of the displacement to ion `j` with the softened norm appended.
models/equivariance.py:145-151 -/
noncomputable def eiInput {nion d : ℕ} (softening : ℝ) (rei : Elec n → Fin nion → Fin d → ℝ) :
    Stream1 n (nion * (d + 1)) := fun e a =>
  Fin.snoc (α := fun _ => ℝ) (rei e (finProdFinEquiv.symm a).1)
    (softened (norm2 (rei e (finProdFinEquiv.symm a).1)) softening) (finProdFinEquiv.symm a).2

/-- `compute_electron_ion`.  models/equivariance.py:111-153 -/
noncomputable def computeElectronIon {nion d : ℕ} (pos : Stream1 n d)
    (ionPos : Option (Fin nion → Fin d → ℝ)) (includeEiNorm : Bool) (softening : ℝ) :
    Input1 n nion d × Option (Elec n → Fin nion → Fin d → ℝ) :=
  match ionPos with
  | none => (.positions pos, none)
  | some ions =>
    let rei := displacements pos ions
    if includeEiNorm then (.flattened (eiInput softening rei), some rei)
    else (.unflattened rei, some rei)

/-- `compute_ee_norm_with_safe_diag`: ones are added on the diagonal before taking norms and the
diagonal is set to 0 after.  models/core.py:45-66 -/
noncomputable def eeNormSafeDiag {α : Type*} [DecidableEq α] {d : ℕ} (softening : ℝ)
    (ree : α → α → Fin d → ℝ) (i j : α) : ℝ :=
  let eye : ℝ := if i = j then 1 else 0
  softened (norm2 fun k => ree i j k + eye) softening * (1 - eye)

/-- `compute_electron_electron` with `include_ee_norm=True`.
models/equivariance.py:179-186 -/
noncomputable def eeInputWithNorm {d : ℕ} (softening : ℝ) (pos : Stream1 n d) : Stream2 n (d + 1) :=
  fun e e' => Fin.snoc (α := fun _ => ℝ) (displacements pos pos e e')
    (eeNormSafeDiag softening (displacements pos pos) e e')

/-- `compute_electron_electron`; the width is `d + 1` with norms and `d` without.
models/equivariance.py:156-187 -/
noncomputable def computeElectronElectron {d : ℕ} (pos : Stream1 n d) (includeEeNorm : Bool)
    (softening : ℝ) : Stream2 n (if includeEeNorm then d + 1 else d) × Stream2 n d :=
  match includeEeNorm with
  | true => (eeInputWithNorm softening pos, displacements pos pos)
  | false => (displacements pos pos, displacements pos pos)

/-- `compute_input_streams`: `(input_1e, input_2e, r_ei, r_ee)`.
models/equivariance.py:37-108 -/
noncomputable def computeInputStreams {nion d : ℕ} (ionPos : Option (Fin nion → Fin d → ℝ))
    (include2e includeEiNorm : Bool) (eiSoftening : ℝ) (includeEeNorm : Bool) (eeSoftening : ℝ)
    (pos : Stream1 n d) :
    Input1 n nion d × Option (Stream2 n (if includeEeNorm then d + 1 else d)) ×
      Option (Elec n → Fin nion → Fin d → ℝ) × Option (Stream2 n d) :=
  let ei := computeElectronIon pos ionPos includeEiNorm eiSoftening
  if include2e then
    let ee := computeElectronElectron pos includeEeNorm eeSoftening
    (ei.1, some ee.1, ei.2, some ee.2)
  else (ei.1, none, ei.2, none)

/-! ### Residual blocks -/

/-- `_split_mean(x, splits)`: the mean over one species.  models/core.py:31-42 -/
noncomputable def splitMean {ι : Type*} (x : Elec n → ι → ℝ) (s : Fin S) (k : ι) : ℝ :=
  (∑ i, x ⟨s, i⟩ k) / n s

/-- Position `p` of `_rolled_concat(arrays, s)` is array number `(s + p) mod S`.
models/equivariance.py:29-34 -/
def rolled (s p : Fin S) : Fin S := ⟨(s.val + p.val) % S, Nat.mod_lt _ (Nat.lt_of_le_of_lt (Nat.zero_le _) s.2)⟩

/-- The concatenated means seen by species `s`: rolled if `cyclic_spins`, in order otherwise.
models/equivariance.py:331-348, 371-389 -/
def concatMeans {d : ℕ} (cyclic : Bool) (s : Fin S) (means : Fin S → Fin d → ℝ)
    (p : Fin S × Fin d) : ℝ :=
  means (if cyclic then rolled s p.1 else p.1) p.2

/-- Parameters of flax `SelfAttention` with `num_heads = H`, `qkv_features = ndense * H`,
`out_features = ndense` (so each head has `ndense` features).
models/equivariance.py:292-299 -/
structure Attention (d H d' : ℕ) where
  qKernel : Fin d → Fin H → Fin d' → ℝ
  qBias : Fin H → Fin d' → ℝ
  kKernel : Fin d → Fin H → Fin d' → ℝ
  kBias : Fin H → Fin d' → ℝ
  vKernel : Fin d → Fin H → Fin d' → ℝ
  vBias : Fin H → Fin d' → ℝ
  oKernel : Fin H → Fin d' → Fin d' → ℝ
  oBias : Fin d' → ℝ

/-- flax `SelfAttention.__call__` on the `m` electrons of one species (library behaviour: dot
product attention with softmax over the key axis and `1/sqrt(head_dim)` scaling, no mask and no
dropout). -/
noncomputable def Attention.apply {d H d' m : ℕ} (A : Attention d H d') (x : Fin m → Fin d → ℝ)
    (i : Fin m) (c : Fin d') : ℝ :=
  let proj (K : Fin d → Fin H → Fin d' → ℝ) (b : Fin H → Fin d' → ℝ) (j : Fin m) (h : Fin H)
      (a : Fin d') : ℝ := (∑ k, x j k * K k h a) + b h a
  let score (j : Fin m) (h : Fin H) : ℝ :=
    Real.exp (∑ a, proj A.qKernel A.qBias i h a / Real.sqrt d' * proj A.kKernel A.kBias j h a)
  (∑ h, ∑ a, (∑ j, score j h / (∑ j', score j' h) * proj A.vKernel A.vBias j h a) *
    A.oKernel h a c) + A.oBias c

/-- The mixing part of a one-electron layer: `use_transformer` chooses between the attention
layer and the dense layer on concatenated means. -/
inductive Mixing (S d d' : ℕ)
  | transformer {H : ℕ} (attention : Attention d H d')
  | means (kernel : Fin S × Fin d → Fin d' → ℝ)

/-- Parameters and options of `FermiNetOneElectronLayer`, input widths `d1` and `d2`, output
width `d'`.  models/equivariance.py:260-307 -/
structure OneElectronLayer (S d1 d2 d' : ℕ) where
  unmixedKernel : Fin d1 → Fin d' → ℝ
  bias : Fin d' → ℝ
  useBias : Bool
  mixing : Mixing S d1 d'
  kernel2e : Fin S × Fin d2 → Fin d' → ℝ
  activation : ℝ → ℝ
  skip : Bool
  skipScale : ℝ
  cyclic : Bool

/-- `_compute_mixed_split`, at electron `i` of species `s`; the mean-based result is the same for
all electrons of a species (broadcast).  models/equivariance.py:307-349, 397-407 -/
noncomputable def mixed {d1 d2 d' : ℕ} (L : OneElectronLayer S d1 d2 d') (x : Stream1 n d1) :
    Stream1 n d' := fun e =>
  match L.mixing with
  | .transformer A => A.apply (fun j => x ⟨e.1, j⟩) e.2
  | .means K => dense false K 0 (concatMeans L.cyclic e.1 (splitMean x))

/-- `_compute_transformed_2e_means`, at electron `e`.  models/equivariance.py:351-395 -/
noncomputable def transformed2e {d1 d2 d' : ℕ} (L : OneElectronLayer S d1 d2 d')
    (y : Stream2 n d2) : Stream1 n d' := fun e =>
  dense false L.kernel2e 0 (concatMeans L.cyclic e.1 (splitMean (y e)))

/-- The skip connection: `scale * (out + in)` if asked for and the widths agree.
models/equivariance.py:468-469, 523-524; models/core.py:112-113 -/
def skipConnect {d d' : ℕ} (skip : Bool) (scale : ℝ) (x : Fin d → ℝ) (out : Fin d' → ℝ) :
    Fin d' → ℝ :=
  if h : d' = d then (if skip then fun j => scale * (out j + x (Fin.cast h j)) else out) else out

/-- `FermiNetOneElectronLayer.__call__`.  models/equivariance.py:404-471 -/
noncomputable def OneElectronLayer.apply {d1 d2 d' : ℕ} (L : OneElectronLayer S d1 d2 d')
    (x : Stream1 n d1) (y : Option (Stream2 n d2)) : Stream1 n d' := fun e =>
  let denseOut := fun j => dense L.useBias L.unmixedKernel L.bias (x e) j + mixed L x e j
  let denseOut := match y with
    | none => denseOut
    | some y => fun j => denseOut j + transformed2e L y e j
  skipConnect L.skip L.skipScale (x e) fun j => L.activation (denseOut j)

/-- Parameters and options of `FermiNetTwoElectronLayer`.  models/equivariance.py:493-511 -/
structure TwoElectronLayer (d d' : ℕ) where
  kernel : Fin d → Fin d' → ℝ
  bias : Fin d' → ℝ
  useBias : Bool
  activation : ℝ → ℝ
  skip : Bool
  skipScale : ℝ

/-- `FermiNetTwoElectronLayer.__call__`.  models/equivariance.py:512-526 -/
noncomputable def TwoElectronLayer.apply {d d' : ℕ} (L : TwoElectronLayer d d')
    (y : Stream2 n d) : Stream2 n d' := fun e e' =>
  skipConnect L.skip L.skipScale (y e e') fun j =>
    L.activation (dense L.useBias L.kernel L.bias (y e e') j)

/-- A residual block, with or without a two-electron layer; widths of both streams before and
after.  models/equivariance.py:529-553 -/
inductive Block (S : ℕ) : ℕ × ℕ → ℕ × ℕ → Type
  | both {d1 d2 d1' d2' : ℕ} (one : OneElectronLayer S d1 d2 d1') (two : TwoElectronLayer d2 d2') :
      Block S (d1, d2) (d1', d2')
  | oneOnly {d1 d2 d1' : ℕ} (one : OneElectronLayer S d1 d2 d1') : Block S (d1, d2) (d1', d2)

/-- Both streams, the second one optional. -/
abbrev Streams {S : ℕ} (n : Fin S → ℕ) (w : ℕ × ℕ) := Stream1 n w.1 × Option (Stream2 n w.2)

/-- `FermiNetResidualBlock.__call__`: the one-electron layer sees the old two-electron stream.
models/equivariance.py:555-575 -/
noncomputable def Block.apply {w w' : ℕ × ℕ} : Block S w w' → Streams n w → Streams n w'
  | .both one two, xs => (one.apply xs.1 xs.2, xs.2.map two.apply)
  | .oneOnly one, xs => (one.apply xs.1 xs.2, xs.2)

/-- A sequence of residual blocks with matching widths. -/
inductive Blocks (S : ℕ) : ℕ × ℕ → ℕ × ℕ → Type
  | nil {w : ℕ × ℕ} : Blocks S w w
  | cons {w w' w'' : ℕ × ℕ} (b : Block S w w') (bs : Blocks S w' w'') : Blocks S w w''

/-- The loop of `FermiNetBackflow.__call__`.  models/equivariance.py:620-623 -/
noncomputable def Blocks.run {w w' : ℕ × ℕ} : Blocks S w w' → Streams n w → Streams n w'
  | .nil, xs => xs
  | .cons b bs, xs => bs.run (b.apply xs)

/-- `FermiNetBackflow.__call__`.  models/equivariance.py:603-625 -/
noncomputable def Blocks.backflow {w w' : ℕ × ℕ} (bs : Blocks S w w') (xs : Streams n w) :
    Stream1 n w'.1 := (bs.run xs).1

/-! ### Orbitals -/

/-- Parameters of the orbital layers for `S` splits with `norb s` orbitals each.
models/equivariance.py:758-812 -/
structure OrbitalLayer (S d1 nion d : ℕ) (norb : Fin S → ℕ) where
  kernel : ∀ s, Fin d1 → Fin (norb s) → ℝ
  bias : ∀ s, Fin (norb s) → ℝ
  isoKernel : ∀ s, Fin (norb s) → ℝ
  anisoKernel : ∀ s, Fin nion → Fin d → Fin d → Fin (norb s) → ℝ
  ionKernel : ∀ s, Fin (norb s) → Fin nion → ℝ
  envelopeSoftening : ℝ
  useBias : Bool
  isotropicDecay : Bool

/-- `_isotropy_on_leaf` at one electron: every displacement is multiplied by one number per
orbital (the kernel has shape `(1, norbitals)`, so it is shared by all ions).
models/jastrow.py:15-31 -/
def isotropyOnLeaf {nion d m : ℕ} (kernel : Fin m → ℝ) (r : Fin nion → Fin d → ℝ) (o : Fin m)
    (j : Fin nion) (k : Fin d) : ℝ := r j k * kernel o

/-- `_anisotropy_on_leaf` at one electron: for each ion a dense layer `d → d * norbitals` whose
output is reshaped to `(d, norbitals)`.  models/jastrow.py:35-62 -/
def anisotropyOnLeaf {nion d m : ℕ} (kernel : Fin nion → Fin d → Fin d → Fin m → ℝ)
    (r : Fin nion → Fin d → ℝ) (o : Fin m) (j : Fin nion) (k : Fin d) : ℝ :=
  ∑ l, r j l * kernel j l k o

/-- `_compute_exponential_envelopes_on_leaf` at one electron.
models/equivariance.py:696-731 -/
noncomputable def envelope {S d1 nion d : ℕ} {norb : Fin S → ℕ} (L : OrbitalLayer S d1 nion d norb)
    (s : Fin S) (r : Fin nion → Fin d → ℝ) (o : Fin (norb s)) : ℝ :=
  let scaleOut := if L.isotropicDecay then isotropyOnLeaf (L.isoKernel s) r
    else anisotropyOnLeaf (L.anisoKernel s) r
  ∑ j, Real.exp (-softened (norm2 (scaleOut o j)) L.envelopeSoftening) * L.ionKernel s o j

/-- `FermiNetOrbitalLayer.__call__`: one matrix per split, rows are electrons.
models/equivariance.py:814-851, 628-693 -/
noncomputable def OrbitalLayer.apply {d1 nion d : ℕ} {norb : Fin S → ℕ}
    (L : OrbitalLayer S d1 nion d norb) (x : Stream1 n d1)
    (rei : Option (Elec n → Fin nion → Fin d → ℝ)) (s : Fin S) (i : Fin (n s)) (o : Fin (norb s)) :
    ℝ :=
  let orb := dense L.useBias (L.kernel s) (L.bias s) (x ⟨s, i⟩) o
  match rei with
  | none => orb
  | some r => orb * envelope L s (r ⟨s, i⟩) o

/-! ### FermiNet -/

/-- The determinant function modes.  models/construct.py:73-78 -/
inductive DetFnMode | signCovariance | parallelEven | pairwiseEven

/-- The end of `FermiNet.__call__` for orbital matrices `M i s` (determinant `i`, split `s`):
without a determinant function a log-domain sum of products of determinants, otherwise one of the
three symmetrized forms.  `PAIRWISE_EVEN` raises unless there are two splits.
models/construct.py:850-876 (setup), 878-922, 1004-1022 -/
noncomputable def combine {K ndet : ℕ} {m : Fin (K + 1) → ℕ}
    (detFn : Option (((dout : ℕ) → (Fin (K + 1) → Fin ndet → ℝ) → Fin dout → ℝ) × DetFnMode))
    (M : Fin ndet → ∀ s, Matrix (Fin (m s)) (Fin (m s)) ℝ) : Except String SL :=
  match detFn with
  | none => .ok (slogSumOverAxis fun i => Antisym.slogdetProduct (M i))
  | some (fn, mode) =>
    let dets : Fin (K + 1) → Fin ndet → ℝ := fun s i => (M i s).det
    match mode with
    | .signCovariance =>
      .ok (arrayToSlog (.fin (SignSym.arrayListSignCovariant (fn 1) dets 0)))
    | .parallelEven =>
      .ok (arrayToSlog (.fin
        (∑ i, (∏ s, dets s i) * SignSym.arrayListSignInvariant (fn ndet) dets i)))
    | .pairwiseEven =>
      if h : K = 1 then
        .ok (arrayToSlog (.fin (∑ a : Fin (ndet * ndet),
          (dets ⟨0, by omega⟩ (finProdFinEquiv.symm a).1 *
            dets ⟨1, by omega⟩ (finProdFinEquiv.symm a).2) *
            SignSym.arrayListSignInvariant (fn (ndet * ndet)) dets a)))
      else .error "only norb_splits=2 is supported"

/-- `_reshape_raw_ferminet_orbitals`: the orbitals of determinant `i` are the `i`-th block of
adjacent raw orbitals.  models/construct.py:695-724 -/
def reshapeRaw {ndet norb : ℕ} (raw : Fin (ndet * norb) → ℝ) (i : Fin ndet) (o : Fin norb) : ℝ :=
  raw (finProdFinEquiv (i, o))

/-- `FermiNet.__call__` from the backflow output on, with `full_det=False`: one square matrix
per species and determinant.  models/construct.py:937-967, 989-1022 -/
noncomputable def fermiNetSplitDet {K ndet d1 nion d : ℕ} {n : Fin (K + 1) → ℕ}
    (L : OrbitalLayer (K + 1) d1 nion d fun s => ndet * n s)
    (detFn : Option (((dout : ℕ) → (Fin (K + 1) → Fin ndet → ℝ) → Fin dout → ℝ) × DetFnMode))
    (stream : Stream1 n d1) (rei : Option (Elec n → Fin nion → Fin d → ℝ)) : Except String SL :=
  combine detFn fun i s => Matrix.of fun a o => reshapeRaw (L.apply stream rei s a) i o

/-- The concatenation of the rows of all species in electron order (`full_det=True`), as one
square matrix.  models/construct.py:928-935, 1001-1002 -/
def concatRows {n : Fin S → ℕ} (rows : ∀ s, Fin (n s) → Fin (∑ s, n s) → ℝ) :
    Matrix (Fin (∑ s, n s)) (Fin (∑ s, n s)) ℝ :=
  Matrix.of fun a o => rows (finSigmaFinEquiv.symm a).1 (finSigmaFinEquiv.symm a).2 o

/-- `FermiNet.__call__` from the backflow output on, with `full_det=True`: one matrix per
determinant with orbitals for all electrons.  models/construct.py:928-1022 -/
noncomputable def fermiNetFullDet {ndet d1 nion d : ℕ}
    (L : OrbitalLayer S d1 nion d fun _ => ndet * ∑ s, n s)
    (detFn : Option (((dout : ℕ) → (Fin 1 → Fin ndet → ℝ) → Fin dout → ℝ) × DetFnMode))
    (stream : Stream1 n d1) (rei : Option (Elec n → Fin nion → Fin d → ℝ)) : Except String SL :=
  combine (K := 0) (m := fun _ => ∑ s, n s) detFn fun i _ =>
    concatRows fun s a => reshapeRaw (L.apply stream rei s a) i

/-- `FermiNet.__call__` with `full_det=False`, for any function computing the input streams.
models/construct.py:969-1022 -/
noncomputable def fermiNet {K ndet nion d : ℕ} {n : Fin (K + 1) → ℕ} {w w' : ℕ × ℕ}
    (streams : Stream1 n d → Streams n w × Option (Elec n → Fin nion → Fin d → ℝ))
    (backflow : Blocks (K + 1) w w') (L : OrbitalLayer (K + 1) w'.1 nion d fun s => ndet * n s)
    (detFn : Option (((dout : ℕ) → (Fin (K + 1) → Fin ndet → ℝ) → Fin dout → ℝ) × DetFnMode))
    (pos : Stream1 n d) : Except String SL :=
  fermiNetSplitDet L detFn (backflow.backflow (streams pos).1) (streams pos).2

/-- `FermiNet.__call__` with `full_det=True`.  models/construct.py:969-1022 -/
noncomputable def fermiNetFull {ndet nion d : ℕ} {w w' : ℕ × ℕ}
    (streams : Stream1 n d → Streams n w × Option (Elec n → Fin nion → Fin d → ℝ))
    (backflow : Blocks S w w') (L : OrbitalLayer S w'.1 nion d fun _ => ndet * ∑ s, n s)
    (detFn : Option (((dout : ℕ) → (Fin 1 → Fin ndet → ℝ) → Fin dout → ℝ) × DetFnMode))
    (pos : Stream1 n d) : Except String SL :=
  fermiNetFullDet L detFn (backflow.backflow (streams pos).1) (streams pos).2

/-- `compute_input_streams` with ion positions and `include_ei_norm=True`, as typed streams:
`r_ee` is not used by FermiNet.  models/equivariance.py:37-108 -/
noncomputable def ionStreams {nion d : ℕ} (ions : Fin nion → Fin d → ℝ) (include2e : Bool)
    (eiSoftening : ℝ) (includeEeNorm : Bool) (eeSoftening : ℝ) (pos : Stream1 n d) :
    Streams n (nion * (d + 1), if includeEeNorm then d + 1 else d) ×
      Option (Elec n → Fin nion → Fin d → ℝ) :=
  ((eiInput eiSoftening (displacements pos ions),
    if include2e then some (computeElectronElectron pos includeEeNorm eeSoftening).1 else none),
    some (displacements pos ions))

/-- `compute_input_streams` without ion positions, as typed streams.
models/equivariance.py:37-108 -/
noncomputable def plainStreams {nion d : ℕ} (include2e : Bool) (includeEeNorm : Bool)
    (eeSoftening : ℝ) (pos : Stream1 n d) :
    Streams n (d, if includeEeNorm then d + 1 else d) ×
      Option (Elec n → Fin nion → Fin d → ℝ) :=
  ((pos, if include2e then some (computeElectronElectron pos includeEeNorm eeSoftening).1 else none),
    none)

end Verif.Net
