import Verif.Model.Weights
import Verif.Model.Split
import Verif.Model.Nets
import Verif.Model.ResNet
import Mathlib.Analysis.SpecialFunctions.Trigonometric.Basic

/-!
Construction of a wavefunction model from a configuration: `get_model_from_config` and the
functions it calls (vmcnet/models/construct.py), with the defaults of
vmcnet/train/default_config.py, and the evaluation of the constructed model.

The result of the construction is a description of the layers, with every option that was
passed to them.  Parameters are supplied to the evaluation.
-/

namespace Verif.Construct
open Verif.Net Verif.Slog

/-! ### Configurations -/

/-- `input_streams` of a model configuration.  train/default_config.py:121-127 -/
structure StreamsCfg where
  include2eStream : Bool := true
  includeEiNorm : Bool := true
  eiNormSoftening : ℝ := 0
  includeEeNorm : Bool := true
  eeNormSoftening : ℝ := 0

/-- A backflow configuration; the entries of `ndense_list` are tuples.
train/default_config.py:129-152 -/
structure BackflowCfg where
  ndenseList : List (List ℕ) := [[256, 16], [256, 16], [256, 16], [256]]
  kernelInitUnmixed : InitCfg := ⟨"orthogonal", some 2⟩
  kernelInitMixed : InitCfg := ⟨"orthogonal", some 1⟩
  kernelInitTransformer : InitCfg := ⟨"orthogonal", some 1⟩
  kernelInit2e1eStream : InitCfg := ⟨"orthogonal", some 1⟩
  kernelInit2e2eStream : InitCfg := ⟨"orthogonal", some 2⟩
  biasInit1eStream : InitCfg := ⟨"normal", none⟩
  biasInit2eStream : InitCfg := ⟨"normal", none⟩
  biasInitTransformer : InitCfg := ⟨"normal", none⟩
  activationFn : String := "tanh"
  useBias : Bool := true
  oneElectronSkip : Bool := true
  oneElectronSkipScale : ℝ := 1
  twoElectronSkip : Bool := true
  twoElectronSkipScale : ℝ := 1
  cyclicSpins : Bool := false
  useTransformer : Bool := false
  numHeads : ℕ := 1

/-- `det_resnet`.  train/default_config.py:154-162 -/
structure DetResnetCfg where
  ndense : ℕ := 10
  nlayers : ℕ := 3
  activation : String := "gelu"
  kernelInit : InitCfg := ⟨"orthogonal", some 2⟩
  biasInit : InitCfg := ⟨"normal", none⟩
  useBias : Bool := true
  mode : String := "parallel_even"

/-- `invariance` of the two models with hidden fermions.  train/default_config.py:211-217, 223-228 -/
structure InvarianceCfg where
  inputStreams : StreamsCfg := {}
  backflow : BackflowCfg := {}
  kernelInitializer : InitCfg := ⟨"orthogonal", some 2⟩
  biasInitializer : InitCfg := ⟨"normal", none⟩
  useBias : Bool := true

/-- `jastrow` of `explicit_antisym`; the default separate backflow has other initial scales
and `gelu`.  train/default_config.py:245-273 -/
structure JastrowCfg where
  type : String := "backflow_based"
  oneBodyKernelInit : InitCfg := ⟨"ones", none⟩
  initEeStrength : ℝ := 1
  trainable : Bool := true
  useSeparateJastrowBackflow : Bool := true
  backflow : BackflowCfg := { kernelInitUnmixed := ⟨"orthogonal", some 1⟩,
                              kernelInit2e2eStream := ⟨"orthogonal", some 1⟩,
                              activationFn := "gelu" }

/-- A model configuration after `choose_model_type_in_model_config`.  The record has the
entries of all model types; entries of other types than `type` are not read.
train/default_config.py:97-109, 164-275 -/
structure ModelCfg where
  type : String := "ferminet"
  inputStreams : StreamsCfg := {}
  backflow : BackflowCfg := {}
  -- all but explicit_antisym
  kernelInitOrbitalLinear : InitCfg := ⟨"orthogonal", some 2⟩
  kernelInitEnvelopeDim : InitCfg := ⟨"ones", none⟩
  kernelInitEnvelopeIon : InitCfg := ⟨"ones", none⟩
  biasInitOrbitalLinear : InitCfg := ⟨"normal", none⟩
  orbitalsUseBias : Bool := true
  isotropicDecay : Bool := true
  -- the FermiNets
  ndeterminants : ℕ := 1
  envelopeSoftening : ℝ := 0
  useDetResnet : Bool := false
  detResnet : DetResnetCfg := {}
  determinantFnMode : String := "parallel_even"
  fullDet : Bool := false
  -- FermiNets with hidden fermions
  nhiddenFermionsPerSpin : List ℕ := [2, 2]
  useSeparateInvarianceBackflow : Bool := false
  invariance : InvarianceCfg := {}
  -- orbital_cofactor_net and per_particle_dets_net
  useProductsCovariance : Bool := true
  invarianceBackflow : BackflowCfg := { ndenseList := [[32], [32], [1]] }
  productsKernelInit : InitCfg := ⟨"orthogonal", some 2⟩
  productsUseWeights : Bool := false
  multiplyByEqFeatures : Bool := false
  -- explicit_antisym
  antisymType : String := "generic"
  rank : ℕ := 1
  ndenseResnet : ℕ := 64
  nlayersResnet : ℕ := 2
  kernelInitResnet : InitCfg := ⟨"orthogonal", some 2⟩
  biasInitResnet : InitCfg := ⟨"normal", none⟩
  activationFnResnet : String := "tanh"
  resnetUseBias : Bool := true
  jastrow : JastrowCfg := {}

/-! ### Descriptions of layers -/

/-- The named activations. -/
inductive Activation | tanh | gelu
  deriving DecidableEq

/-- `jnp.tanh`, and `jax.nn.gelu`, whose default is the approximation by `tanh` (library
behaviour). -/
noncomputable def Activation.fn : Activation → ℝ → ℝ
  | .tanh, x => Real.tanh x
  | .gelu, x => 0.5 * x * (1 + Real.tanh (Real.sqrt (2 / Real.pi) * (x + 0.044715 * x ^ 3)))

/-- Options of a `compute_input_streams` function with ion positions. -/
structure StreamsDesc where
  include2e : Bool
  includeEiNorm : Bool
  eiSoftening : ℝ
  includeEeNorm : Bool
  eeSoftening : ℝ

/-- Fields of a `FermiNetOneElectronLayer`.  models/equivariance.py:260-274 -/
structure OneDesc where
  spinSplit : List ℤ
  ndense : ℕ
  kernelTransformer : Initializer
  kernelUnmixed : Initializer
  kernelMixed : Initializer
  kernel2e : Initializer
  bias : Initializer
  biasTransformer : Initializer
  activation : Activation
  useBias : Bool
  skip : Bool
  skipScale : ℝ
  cyclic : Bool
  useTransformer : Bool
  numHeads : ℕ

/-- Fields of a `FermiNetTwoElectronLayer`.  models/equivariance.py:493-499 -/
structure TwoDesc where
  ndense : ℕ
  kernel : Initializer
  bias : Initializer
  activation : Activation
  useBias : Bool
  skip : Bool
  skipScale : ℝ

/-- Fields of a `FermiNetResidualBlock`. -/
structure BlockDesc where
  one : OneDesc
  two : Option TwoDesc

/-- Options of orbital layers. -/
structure OrbitalDesc where
  kernelLinear : Initializer
  kernelEnvelopeDim : Initializer
  kernelEnvelopeIon : Initializer
  biasLinear : Initializer
  useBias : Bool
  isotropicDecay : Bool

/-- Options of a `SimpleResNet` without the output width. -/
structure ResNetDesc where
  ndense : ℕ
  nlayers : ℕ
  activation : Activation
  kernel : Initializer
  bias : Initializer
  useBias : Bool

/-- Options of the dense layers of an `InvariantTensor`. -/
structure InvarianceDesc where
  kernel : Initializer
  bias : Initializer
  useBias : Bool

/-- Fields which all FermiNets have.  models/construct.py:831-844 -/
structure FermiDesc where
  spinSplit : List ℤ
  streams : StreamsDesc
  backflow : List BlockDesc
  ndeterminants : ℕ
  orbitals : OrbitalDesc
  envelopeSoftening : ℝ
  detFn : Option ResNetDesc
  mode : DetFnMode
  fullDet : Bool

/-- The sign covariance of an `AntiequivarianceNet`.  The backflow is only built when the
network is called. -/
inductive CovarianceDesc
  | products (kernel : Initializer) (useWeights : Bool)
  | backflow (cfg : BackflowCfg) (spinSplit : List ℤ) (dtype : ℕ)

/-- The Jastrow factors.  `scale` is the log scale factor of the two-body decay. -/
inductive JastrowDesc (nion : ℕ)
  | oneBody (kernel : Initializer)
  | twoBody (charges : Fin nion → ℝ) (initEeStrength scale : ℝ) (trainable : Bool)
  | backflow (blocks : Option (List BlockDesc))
  | added (a b : JastrowDesc nion)

/-- What is antisymmetrized explicitly: for `factorized`, a number of ResNets per species. -/
inductive AntisymDesc | factorized (rank : ℕ) | generic

/-- The module returned by `get_model_from_config`. -/
inductive Model (nion : ℕ)
  | fermiNet (f : FermiDesc)
  | embedded (f : FermiDesc) (nhidden : List ℕ) (invStreams : StreamsDesc)
      (invBackflow : List BlockDesc) (inv : InvarianceDesc)
  | extended (f : FermiDesc) (nhidden : List ℕ) (invBackflow : Option (List BlockDesc))
      (inv : InvarianceDesc)
  | antiequivariance (spinSplit : List ℤ) (streams : StreamsDesc) (backflow : List BlockDesc)
      (perParticle : Bool) (layerSplit : List ℤ) (orbitals : OrbitalDesc)
      (covariance : CovarianceDesc) (multiply : Bool)
  | explicit (spinSplit : List ℤ) (streams : StreamsDesc) (backflow : List BlockDesc)
      (jastrow : JastrowDesc nion) (antisym : AntisymDesc) (resnet : ResNetDesc)

/-! ### Construction -/

/-- `_get_named_activation_fn`.  models/construct.py:82-88 -/
def getNamedActivationFn (name : String) : Except String Activation :=
  if name = "tanh" then .ok .tanh
  else if name = "gelu" then .ok .gelu
  else .error "Activations besides tanh and gelu are not yet supported."

/-- `DeterminantFnMode[name.upper()]`.  models/construct.py:73-78, 170 -/
def getMode (name : String) : Except String DetFnMode :=
  if name.toUpper = "SIGN_COVARIANCE" then .ok .signCovariance
  else if name.toUpper = "PARALLEL_EVEN" then .ok .parallelEven
  else if name.toUpper = "PAIRWISE_EVEN" then .ok .pairwiseEven
  else .error "KeyError"

/-- `get_compute_input_streams_from_config`: the softenings are not passed on, so
`compute_input_streams` uses its defaults 0.
models/construct.py:422-432, models/equivariance.py:37-46 -/
def getStreams (cfg : StreamsCfg) : StreamsDesc where
  include2e := cfg.include2eStream
  includeEiNorm := cfg.includeEiNorm
  eiSoftening := 0
  includeEeNorm := cfg.includeEeNorm
  eeSoftening := 0

/-- The loop body of `get_residual_blocks_for_ferminet_backflow` for one tuple of
`ndense_list`.  models/construct.py:612-643 -/
def residualBlock (one : ℕ → OneDesc) (two : ℕ → TwoDesc) : List ℕ → Except String BlockDesc
  | [] => .error "IndexError: tuple index out of range"
  | [ndense1] => .ok ⟨one ndense1, none⟩
  | ndense1 :: ndense2 :: _ => .ok ⟨one ndense1, some (two ndense2)⟩

/-- `get_backflow_from_config` and `get_residual_blocks_for_ferminet_backflow`; the layers get
their arguments by position, in the order of the fields above.
models/construct.py:435-481, 514-644 -/
noncomputable def getBackflow (cfg : BackflowCfg) (spinSplit : List ℤ) (dtype : ℕ) :
    Except String (List BlockDesc) := do
  let kernelTransformer ← getKernelInit dtype cfg.kernelInitTransformer
  let kernelUnmixed ← getKernelInit dtype cfg.kernelInitUnmixed
  let kernelMixed ← getKernelInit dtype cfg.kernelInitMixed
  let kernel2e1e ← getKernelInit dtype cfg.kernelInit2e1eStream
  let kernel2e2e ← getKernelInit dtype cfg.kernelInit2e2eStream
  let biasTransformer ← getBiasInit dtype cfg.biasInitTransformer
  let bias1e ← getBiasInit dtype cfg.biasInit1eStream
  let bias2e ← getBiasInit dtype cfg.biasInit2eStream
  let activation ← getNamedActivationFn cfg.activationFn
  let one (ndense : ℕ) : OneDesc :=
    ⟨spinSplit, ndense, kernelTransformer, kernelUnmixed, kernelMixed, kernel2e1e, bias1e,
      biasTransformer, activation, cfg.useBias, cfg.oneElectronSkip, cfg.oneElectronSkipScale,
      cfg.cyclicSpins, cfg.useTransformer, cfg.numHeads⟩
  let two (ndense : ℕ) : TwoDesc :=
    ⟨ndense, kernel2e2e, bias2e, activation, cfg.useBias, cfg.twoElectronSkip,
      cfg.twoElectronSkipScale⟩
  cfg.ndenseList.mapM (residualBlock one two)

/-- The determinant ResNet: `None` unless `use_det_resnet`.  models/construct.py:135-145 -/
noncomputable def getDetFn (cfg : ModelCfg) (dtype : ℕ) : Except String (Option ResNetDesc) :=
  if cfg.useDetResnet then do
    let activation ← getNamedActivationFn cfg.detResnet.activation
    let kernel ← getKernelInit dtype cfg.detResnet.kernelInit
    let bias ← getBiasInit dtype cfg.detResnet.biasInit
    return some ⟨cfg.detResnet.ndense, cfg.detResnet.nlayers, activation, kernel, bias,
      cfg.detResnet.useBias⟩
  else .ok none

/-- The initializers and options of the orbitals, evaluated in this order in all five
models which have orbitals.  models/construct.py:154-168, 198-212, 241-255, 281-294, 299-312 -/
noncomputable def getOrbitals (cfg : ModelCfg) (dtype : ℕ) : Except String OrbitalDesc := do
  let kernelLinear ← getKernelInit dtype cfg.kernelInitOrbitalLinear
  let kernelDim ← getKernelInit dtype cfg.kernelInitEnvelopeDim
  let kernelIon ← getKernelInit dtype cfg.kernelInitEnvelopeIon
  let bias ← getBiasInit dtype cfg.biasInitOrbitalLinear
  return ⟨kernelLinear, kernelDim, kernelIon, bias, cfg.orbitalsUseBias, cfg.isotropicDecay⟩

/-- The arguments common to the three FermiNets; the mode of the determinant function is
looked up even when there is no such function.
models/construct.py:150-171, 193-214, 237-258 -/
noncomputable def getFermi (cfg : ModelCfg) (spinSplit : List ℤ) (streams : StreamsDesc)
    (backflow : List BlockDesc) (detFn : Option ResNetDesc) (dtype : ℕ) :
    Except String FermiDesc := do
  let orbitals ← getOrbitals cfg dtype
  let mode ← getMode cfg.detResnet.mode
  return ⟨spinSplit, streams, backflow, cfg.ndeterminants, orbitals, cfg.envelopeSoftening,
    detFn, mode, cfg.fullDet⟩

/-- The dense layers of the invariance.  models/construct.py:218-224, 261-267 -/
noncomputable def getInvariance (cfg : InvarianceCfg) (dtype : ℕ) :
    Except String InvarianceDesc := do
  let kernel ← getKernelInit dtype cfg.kernelInitializer
  let bias ← getBiasInit dtype cfg.biasInitializer
  return ⟨kernel, bias, cfg.useBias⟩

/-- The backflow of the invariance of `extended_orbital_matrix_ferminet`, if separate.
models/construct.py:228-235 -/
noncomputable def getSeparateBackflow (cfg : ModelCfg) (spinSplit : List ℤ) (dtype : ℕ) :
    Except String (Option (List BlockDesc)) :=
  if cfg.useSeparateInvarianceBackflow then
    (getBackflow cfg.invariance.backflow spinSplit dtype).map some
  else .ok none

/-- `jnp.array(nhidden) + nelec` with broadcasting of one-dimensional arrays.
models/construct.py:174 -/
def broadcastAdd (a b : List ℤ) : Except String (List ℤ) :=
  if a.length = b.length then .ok (List.zipWith (· + ·) a b)
  else match a, b with
    | [x], b => .ok (b.map (x + ·))
    | a, [y] => .ok (a.map (· + y))
    | _, _ => .error "TypeError: incompatible shapes for broadcasting"

/-- `_get_backflow_based_jastrow`.  models/construct.py:339-348 -/
noncomputable def getBackflowJastrow {nion : ℕ} (cfg : JastrowCfg) (spinSplit : List ℤ)
    (dtype : ℕ) : Except String (JastrowDesc nion) :=
  if cfg.useSeparateJastrowBackflow then
    (getBackflow cfg.backflow spinSplit dtype).map fun bs => .backflow (some bs)
  else .ok (.backflow none)

/-- The choice of the Jastrow factor.  models/construct.py:328-370 -/
noncomputable def getJastrow {nion d : ℕ} (cfg : JastrowCfg) (spinSplit : List ℤ)
    (ionPos : Fin nion → Fin d → ℝ) (charges : Fin nion → ℝ) (dtype : ℕ) :
    Except String (JastrowDesc nion) :=
  let twoBody : JastrowDesc nion := .twoBody charges cfg.initEeStrength
    (Jastrow.chargelessScaleFactor ionPos charges) cfg.trainable
  if cfg.type = "one_body_decay" then
    (getKernelInit dtype cfg.oneBodyKernelInit).map .oneBody
  else if cfg.type = "two_body_decay" then .ok twoBody
  else if cfg.type = "backflow_based" then getBackflowJastrow cfg spinSplit dtype
  else if cfg.type = "two_body_decay_and_backflow_based" then
    (getBackflowJastrow cfg spinSplit dtype).map fun b => .added twoBody b
  else .error "Unsupported jastrow type"

/-- `get_sign_covariance_from_config`.  models/construct.py:484-511 -/
noncomputable def getCovariance (cfg : ModelCfg) (spinSplit : List ℤ) (dtype : ℕ) :
    Except String CovarianceDesc :=
  if cfg.useProductsCovariance then
    (getKernelInit dtype cfg.productsKernelInit).map fun k => .products k cfg.productsUseWeights
  else .ok (.backflow cfg.invarianceBackflow spinSplit dtype)

/-- The ResNet of `explicit_antisym`.  models/construct.py:378-389, 397-408 -/
noncomputable def getAntisymResnet (cfg : ModelCfg) (dtype : ℕ) : Except String ResNetDesc := do
  let kernel ← getKernelInit dtype cfg.kernelInitResnet
  let bias ← getBiasInit dtype cfg.biasInitResnet
  let activation ← getNamedActivationFn cfg.activationFnResnet
  return ⟨cfg.ndenseResnet, cfg.nlayersResnet, activation, kernel, bias, cfg.resnetUseBias⟩

/-- `get_model_from_config`; `dtype` is the width of the floats.
models/construct.py:108-419 -/
noncomputable def getModelFromConfig {nion d : ℕ} (cfg : ModelCfg) (nelec : List ℤ)
    (ionPos : Fin nion → Fin d → ℝ) (charges : Fin nion → ℝ) (dtype : ℕ) :
    Except String (Model nion) := do
  let spinSplit := Split.getSpinSplit nelec
  let streams := getStreams cfg.inputStreams
  let backflow ← getBackflow cfg.backflow spinSplit dtype
  if cfg.type = "ferminet" then
    let detFn ← getDetFn cfg dtype
    let f ← getFermi cfg spinSplit streams backflow detFn dtype
    return .fermiNet f
  else if cfg.type = "embedded_particle_ferminet" then
    let detFn ← getDetFn cfg dtype
    let totalNelec ← broadcastAdd (cfg.nhiddenFermionsPerSpin.map Int.ofNat) nelec
    let totalBackflow ← getBackflow cfg.backflow (Split.getSpinSplit totalNelec) dtype
    let invStreams := getStreams cfg.invariance.inputStreams
    let invBackflow ← getBackflow cfg.invariance.backflow spinSplit dtype
    let f ← getFermi cfg spinSplit streams totalBackflow detFn dtype
    let inv ← getInvariance cfg.invariance dtype
    return .embedded f cfg.nhiddenFermionsPerSpin invStreams invBackflow inv
  else if cfg.type = "extended_orbital_matrix_ferminet" then
    let detFn ← getDetFn cfg dtype
    let invBackflow ← getSeparateBackflow cfg spinSplit dtype
    let f ← getFermi cfg spinSplit streams backflow detFn dtype
    let inv ← getInvariance cfg.invariance dtype
    return .extended f cfg.nhiddenFermionsPerSpin invBackflow inv
  else if cfg.type = "orbital_cofactor_net" ∨ cfg.type = "per_particle_dets_net" then
    let orbitals ← getOrbitals cfg dtype
    let covariance ← getCovariance cfg spinSplit dtype
    return .antiequivariance spinSplit streams backflow
      (decide (cfg.type = "per_particle_dets_net")) spinSplit orbitals covariance
      cfg.multiplyByEqFeatures
  else if cfg.type = "explicit_antisym" then
    let jastrow ← getJastrow cfg.jastrow spinSplit ionPos charges dtype
    if cfg.antisymType = "factorized" then
      let resnet ← getAntisymResnet cfg dtype
      return .explicit spinSplit streams backflow jastrow (.factorized cfg.rank) resnet
    else if cfg.antisymType = "generic" then
      let resnet ← getAntisymResnet cfg dtype
      return .explicit spinSplit streams backflow jastrow .generic resnet
    else .error "Unsupported explicit antisymmetry type"
  else .error "Unsupported model type"

/-! ### Initialization of parameters -/

/-- The widths of the floats in the parameters of a `Dense` layer.  models/core.py:202-208 -/
def denseDtypes (kernel bias : Initializer) (useBias : Bool) : Except String (List ℕ) := do
  let k ← kernel.callDtype none
  if useBias then
    let b ← bias.callDtype none
    return [k, b]
  else return [k]

/-- The same for `flax.linen.SelfAttention`: kernels and biases of queries, keys, values and
outputs, whose initializers are called with the layer's `param_dtype` as third argument; it is
left at its default, 32 bits (library behaviour).  models/equivariance.py:295-301 -/
def attentionDtypes (kernel bias : Initializer) : Except String (List ℕ) := do
  let k ← kernel.callDtype (some 32)
  let b ← bias.callDtype (some 32)
  return [k, b, k, b, k, b, k, b]

/-- The same for a one-electron layer; `with2e` says whether there is a two-electron stream.
The bias initializers of the two dense layers without bias are irrelevant.
models/equivariance.py:284-305, 451-463 -/
def OneDesc.initDtypes (o : OneDesc) (with2e : Bool) : Except String (List ℕ) := do
  let unmixed ← denseDtypes o.kernelUnmixed o.bias o.useBias
  let mixed ← if o.useTransformer then attentionDtypes o.kernelTransformer o.biasTransformer
    else denseDtypes o.kernelMixed o.bias false
  let two ← if with2e then denseDtypes o.kernel2e o.bias false else .ok []
  return unmixed ++ mixed ++ two

/-- The same for the two-electron layer of a block, which is only called if there is a stream.
models/equivariance.py:505-510, 572-574 -/
def twoDtypes (t : Option TwoDesc) (with2e : Bool) : Except String (List ℕ) :=
  match t, with2e with
  | some t, true => denseDtypes t.kernel t.bias t.useBias
  | _, _ => .ok []

/-- The same for a residual block.  models/equivariance.py:570-574 -/
def BlockDesc.initDtypes (b : BlockDesc) (with2e : Bool) : Except String (List ℕ) := do
  let one ← b.one.initDtypes with2e
  let two ← twoDtypes b.two with2e
  return one ++ two

/-- The same for a backflow: `init` applies the blocks in order. -/
def backflowDtypes (with2e : Bool) : List BlockDesc → Except String (List ℕ)
  | [] => .ok []
  | b :: bs => do
    let x ← b.initDtypes with2e
    let y ← backflowDtypes with2e bs
    return x ++ y

/-! ### Evaluation -/

/-- Parameters of one one-electron layer.  Those of the transformer and those of the means are
both present, but only one of them is read. -/
structure OneParams (S d1 d2 d' H : ℕ) where
  unmixedKernel : Fin d1 → Fin d' → ℝ
  bias : Fin d' → ℝ
  attention : Attention d1 H d'
  mixedKernel : Fin S × Fin d1 → Fin d' → ℝ
  kernel2e : Fin S × Fin d2 → Fin d' → ℝ

/-- Parameters of a backflow, for block number `i` and all widths; only those of the widths in
the network are read. -/
structure BackflowParams (S : ℕ) where
  one : ℕ → ∀ d1 d2 d' H : ℕ, OneParams S d1 d2 d' H
  two : ℕ → ∀ d d' : ℕ, DenseParams d d'

/-- The one-electron layer with the options of `o` and parameters `P`.
models/equivariance.py:278-305 -/
noncomputable def OneDesc.layer {S d1 d2 : ℕ} (o : OneDesc)
    (P : OneParams S d1 d2 o.ndense o.numHeads) : OneElectronLayer S d1 d2 o.ndense where
  unmixedKernel := P.unmixedKernel
  bias := P.bias
  useBias := o.useBias
  mixing := if o.useTransformer then .transformer P.attention else .means P.mixedKernel
  kernel2e := P.kernel2e
  activation := o.activation.fn
  skip := o.skip
  skipScale := o.skipScale
  cyclic := o.cyclic

/-- The two-electron layer with the options of `t` and parameters `P`. -/
noncomputable def TwoDesc.layer {d : ℕ} (t : TwoDesc) (P : DenseParams d t.ndense) :
    TwoElectronLayer d t.ndense :=
  ⟨P.kernel, P.bias, t.useBias, t.activation.fn, t.skip, t.skipScale⟩

/-- Widths of the streams after a block. -/
def BlockDesc.out (b : BlockDesc) (w : ℕ × ℕ) : ℕ × ℕ :=
  (b.one.ndense, match b.two with
    | some t => t.ndense
    | none => w.2)

/-- Widths of the streams after all blocks. -/
def outWidths : List BlockDesc → ℕ × ℕ → ℕ × ℕ
  | [], w => w
  | b :: bs, w => outWidths bs (b.out w)

/-- The block with the options of `b`, number `i` of its backflow. -/
noncomputable def BlockDesc.block {S : ℕ} (P : BackflowParams S) (i : ℕ) :
    (b : BlockDesc) → (w : ℕ × ℕ) → Block S w (b.out w)
  | ⟨one, some two⟩, w =>
    .both (one.layer (P.one i w.1 w.2 _ _)) (two.layer (P.two i w.2 _))
  | ⟨one, none⟩, w => .oneOnly (one.layer (P.one i w.1 w.2 _ _))

/-- The blocks of a backflow, for input widths `w`. -/
noncomputable def blocks {S : ℕ} (P : BackflowParams S) :
    ℕ → (bs : List BlockDesc) → (w : ℕ × ℕ) → Blocks S w (outWidths bs w)
  | _, [], _ => .nil
  | i, b :: bs, w => .cons (b.block P i w) (blocks P (i + 1) bs (b.out w))

/-- Parameters of the inner layers of a ResNet and of its final layer. -/
structure ResNetParams where
  inner : ℕ → ∀ d d' : ℕ, DenseParams d d'
  final : ∀ d d' : ℕ, DenseParams d d'

/-- The width after `k` inner layers of width `ndense`. -/
def innerWidth (ndense : ℕ) : ℕ → ℕ → ℕ
  | 0, d => d
  | k + 1, _ => innerWidth ndense k ndense

/-- `k` inner layers of width `ndense`.  models/core.py:329-337 -/
def innerLayers (P : ResNetParams) (ndense : ℕ) :
    ℕ → (k d : ℕ) → InnerLayers d (innerWidth ndense k d)
  | _, 0, _ => .nil
  | i, k + 1, d => .cons (P.inner i d ndense) (innerLayers P ndense (i + 1) k ndense)

/-- A `SimpleResNet` with the options of `r`: `nlayers - 1` inner layers and the final one.
models/core.py:323-361 -/
noncomputable def ResNetDesc.apply (r : ResNetDesc) (P : ResNetParams) (dout : ℕ) {d : ℕ}
    (x : Fin d → ℝ) : Fin dout → ℝ :=
  simpleResNet r.useBias (fun _ y j => r.activation.fn (y j))
    (innerLayers P r.ndense 0 (r.nlayers - 1) d) (P.final _ dout) x

/-- The determinant function: a ResNet on the concatenated determinants.
models/construct.py:680-692 -/
noncomputable def detFnOf {K ndet : ℕ} (P : ResNetParams) (mode : DetFnMode)
    (r : Option ResNetDesc) :
    Option (((dout : ℕ) → (Fin (K + 1) → Fin ndet → ℝ) → Fin dout → ℝ) × DetFnMode) :=
  r.map fun r => (fun dout dets => r.apply P dout fun a : Fin ((K + 1) * ndet) =>
    dets (finProdFinEquiv.symm a).1 (finProdFinEquiv.symm a).2, mode)

/-- All parameters of a model. -/
structure Params (S nion d : ℕ) where
  backflow : BackflowParams S
  invBackflow : BackflowParams S
  jastrowBackflow : BackflowParams S
  covBackflow : BackflowParams S
  orbitals : ∀ (d1 : ℕ) (norb : Fin S → ℕ), OrbitalLayer S d1 nion d norb
  doubly : ∀ (d1 : ℕ) (norb : Fin S → ℕ), Antieq.DoublyLayer S d1 nion d norb
  invariance : ∀ (d1 : ℕ) (rows cols : Fin S → ℕ), InvariantDense S d1 rows cols
  detFn : ResNetParams
  productsKernel : ℕ → ℕ → ℝ
  oneBodyKernel : Fin 1 → ℝ
  eiStrength : Fin nion → ℝ
  eeStrength : ℝ
  resnets : ℕ → ℕ → ResNetParams

/-- Error of the evaluation in the model (not in the code) if a layer splits the electrons at
other places than the species. -/
def splitMismatch : String := "split mismatch"

/-- All blocks split at the boundaries of species with `counts` particles. -/
def BlocksMatch (counts : List ℤ) (bs : List BlockDesc) : Prop :=
  ∀ b ∈ bs, b.one.spinSplit = Split.getSpinSplit counts

/-- The orbital layer of a FermiNet: its parameters with the options of the description. -/
def FermiDesc.orbitalLayer {S d1 nion d : ℕ} {norb : Fin S → ℕ} (f : FermiDesc)
    (L : OrbitalLayer S d1 nion d norb) : OrbitalLayer S d1 nion d norb :=
  { L with
    envelopeSoftening := f.envelopeSoftening
    useBias := f.orbitals.useBias
    isotropicDecay := f.orbitals.isotropicDecay }

/-- `get_nelec_per_split` on the split of the model: an `IndexError` for a single species. -/
def nelecPerSplit (spinSplit : List ℤ) (total : ℤ) : Except String (List ℤ) :=
  match Split.getNelecPerSplit (.indices spinSplit) total with
  | .ok l => .ok l
  | .error _ => .error "IndexError: tuple index out of range"

variable {K nion d : ℕ} {n : Fin (K + 1) → ℕ}

/-- The input widths of a backflow. -/
abbrev inWidths (nion d : ℕ) (includeEe : Bool) : ℕ × ℕ :=
  (nion * (d + 1), if includeEe then d + 1 else d)

/-- Number of electrons per species as a list. -/
def counts {S : ℕ} (n : Fin S → ℕ) : List ℤ := List.ofFn fun s => (n s : ℤ)

/-- Calling a FermiNet.  models/construct.py:969-1022 -/
noncomputable def FermiDesc.apply (f : FermiDesc) (P : Params (K + 1) nion d)
    (ions : Fin nion → Fin d → ℝ) (pos : Stream1 n d) : Except String SL :=
  let streams := ionStreams (n := n) ions f.streams.include2e f.streams.eiSoftening
    f.streams.includeEeNorm f.streams.eeSoftening
  let backflow := blocks P.backflow 0 f.backflow (inWidths nion d f.streams.includeEeNorm)
  if f.fullDet then
    fermiNetFull (ndet := f.ndeterminants) streams backflow (f.orbitalLayer (P.orbitals _ _))
      (detFnOf P.detFn f.mode f.detFn) pos
  else do
    let _ ← nelecPerSplit f.spinSplit (counts n).sum
    fermiNet (ndet := f.ndeterminants) streams backflow (f.orbitalLayer (P.orbitals _ _))
      (detFnOf P.detFn f.mode f.detFn) pos

/-- The dense layers of an invariance with the options of the description. -/
def InvarianceDesc.layers {S d1 : ℕ} {rows cols : Fin S → ℕ} (i : InvarianceDesc)
    (I : InvariantDense S d1 rows cols) : InvariantDense S d1 rows cols :=
  { I with useBias := i.useBias }

/-- The hidden counts as a function of the species. -/
def hiddenOf (K : ℕ) (nhidden : List ℕ) (s : Fin (K + 1)) : ℕ := nhidden.getD s 0

/-- Calling an embedded-particle FermiNet.  models/construct.py:1085-1130, 969-1022 -/
noncomputable def applyEmbedded (f : FermiDesc) (nhidden : List ℕ) (invStreams : StreamsDesc)
    (invBackflow : List BlockDesc) (inv : InvarianceDesc) (P : Params (K + 1) nion d)
    (ions : Fin nion → Fin d → ℝ) (pos : Stream1 n d) : Except String SL := do
  let perSpin ← nelecPerSplit f.spinSplit (counts n).sum
  if nhidden.length ≠ perSpin.length then
    .error "Length of nhidden_fermions_per_spin does not match number of spins."
  else
    let iStreams := ionStreams (n := n) ions invStreams.include2e invStreams.eiSoftening
      invStreams.includeEeNorm invStreams.eeSoftening
    let iBackflow := blocks P.invBackflow 0 invBackflow (inWidths nion d invStreams.includeEeNorm)
    let streams := ionStreams (n := fun s => n s + hiddenOf K nhidden s) ions f.streams.include2e
      f.streams.eiSoftening f.streams.includeEeNorm f.streams.eeSoftening
    let backflow := blocks P.backflow 0 f.backflow (inWidths nion d f.streams.includeEeNorm)
    if f.fullDet then
      embeddedFermiNetFull (ndet := f.ndeterminants) (h := hiddenOf K nhidden) iStreams iBackflow
        (inv.layers (P.invariance _ _ _)) streams backflow (f.orbitalLayer (P.orbitals _ _))
        (detFnOf P.detFn f.mode f.detFn) pos
    else
      embeddedFermiNet (ndet := f.ndeterminants) (h := hiddenOf K nhidden) iStreams iBackflow
        (inv.layers (P.invariance _ _ _)) streams backflow (f.orbitalLayer (P.orbitals _ _))
        (detFnOf P.detFn f.mode f.detFn) pos

/-- The separate backflow of the invariance of an extended FermiNet, with its dense layers. -/
noncomputable def extendedInvariance (invBackflow : Option (List BlockDesc))
    (inv : InvarianceDesc) (P : Params (K + 1) nion d) (w w' : ℕ × ℕ) (h cols : Fin (K + 1) → ℕ) :
    (Blocks (K + 1) w (outWidths (invBackflow.getD []) w) ×
      InvariantDense (K + 1) (outWidths (invBackflow.getD []) w).1 h cols) ⊕
      InvariantDense (K + 1) w'.1 h cols :=
  match invBackflow with
  | some bs => .inl (blocks P.invBackflow 0 bs w, inv.layers (P.invariance _ _ _))
  | none => .inr (inv.layers (P.invariance _ _ _))

/-- Calling an extended-orbital-matrix FermiNet.  A list of hidden counts with another length
than the number of species raises. models/construct.py:1164-1240, 969-1022 -/
noncomputable def applyExtended (f : FermiDesc) (nhidden : List ℕ)
    (invBackflow : Option (List BlockDesc)) (inv : InvarianceDesc) (P : Params (K + 1) nion d)
    (ions : Fin nion → Fin d → ℝ) (pos : Stream1 n d) : Except String SL :=
  let streams := ionStreams (n := n) ions f.streams.include2e f.streams.eiSoftening
    f.streams.includeEeNorm f.streams.eeSoftening
  let w := inWidths nion d f.streams.includeEeNorm
  let backflow := blocks P.backflow 0 f.backflow w
  if f.fullDet then
    if nhidden.length ≠ Split.getNsplits (.indices f.spinSplit) then .error "ValueError"
    else extendedFermiNetFull (ndet := f.ndeterminants) (h := hiddenOf K nhidden) streams backflow
      (f.orbitalLayer (P.orbitals _ _))
      (extendedInvariance invBackflow inv P w (outWidths f.backflow w) _ _)
      (detFnOf P.detFn f.mode f.detFn) pos
  else do
    let perSpin ← nelecPerSplit f.spinSplit (counts n).sum
    if nhidden.length ≠ perSpin.length then .error "IndexError"
    else
      extendedFermiNet (ndet := f.ndeterminants) (h := hiddenOf K nhidden) streams backflow
        (f.orbitalLayer (P.orbitals _ _))
        (extendedInvariance invBackflow inv P w (outWidths f.backflow w) _ _)
        (detFnOf P.detFn f.mode f.detFn) pos

/-- The width of the antiequivariance after the optional multiplication. -/
def multiplyWidth (multiply : Bool) (d1 : ℕ) : ℕ :=
  match multiply with
  | true => d1
  | false => 1

/-- `multiply_by_eq_features` as an operation. -/
def multiplyOf (multiply : Bool) (d1 : ℕ) : Multiply d1 (multiplyWidth multiply d1) :=
  match multiply with
  | true => .yes
  | false => .no

/-- The sign covariance, called; the backflow configuration is parsed here.
models/construct.py:489-511 -/
noncomputable def CovarianceDesc.build {S nion d : ℕ} (c : CovarianceDesc) (P : Params S nion d)
    (da : ℕ) : Except String (Covariance S da) :=
  match c with
  | .products _ useWeights =>
    .ok (if useWeights then .weightedProducts P.productsKernel else .products)
  | .backflow cfg spinSplit dtype =>
    (getBackflow cfg spinSplit dtype).map fun bs =>
      .backflow (blocks P.covBackflow 0 bs (da, 0))

/-- Calling an antiequivariance network.  models/construct.py:1303-1324 -/
noncomputable def applyAntiequivariance (spinSplit : List ℤ) (s : StreamsDesc)
    (bs : List BlockDesc) (perParticle : Bool) (o : OrbitalDesc) (c : CovarianceDesc)
    (multiply : Bool) (P : Params (K + 1) nion d) (ions : Fin nion → Fin d → ℝ)
    (pos : Stream1 n d) : Except String SL := do
  let _ ← nelecPerSplit spinSplit (counts n).sum
  let streams := ionStreams (n := n) ions s.include2e s.eiSoftening s.includeEeNorm s.eeSoftening
  let w := inWidths nion d s.includeEeNorm
  let covariance ← c.build P (multiplyWidth multiply (outWidths bs w).1)
  if perParticle then
    antiequivarianceNet streams (blocks P.backflow 0 bs w)
      (perParticleNetLayer (P.doubly _ _) o.useBias o.isotropicDecay) (multiplyOf multiply _)
      covariance pos
  else
    antiequivarianceNet streams (blocks P.backflow 0 bs w)
      (cofactorNetLayer (P.orbitals _ _) o.useBias o.isotropicDecay) (multiplyOf multiply _)
      covariance pos

/-- The Jastrow factor with its parameters; the strengths of a two-body decay are parameters
only if trainable.  models/jastrow.py:165-229 -/
noncomputable def JastrowDesc.build {S nion d : ℕ} (P : Params S nion d) (w : ℕ × ℕ) :
    JastrowDesc nion → JastrowModel S nion w
  | .oneBody _ => .oneBody P.oneBodyKernel
  | .twoBody charges ee scale trainable =>
    if trainable then .twoBody P.eiStrength P.eeStrength scale else .twoBody charges ee scale
  | .backflow (some bs) => .separateBackflow (blocks P.jastrowBackflow 0 bs w)
  | .backflow none => .backflowBased
  | .added a b => .added (a.build P w) (b.build P w)

/-- Calling an explicitly antisymmetrized network.  The `rank` ResNets of a species have their
own parameters; with none of them the concatenation of their outputs raises.
models/construct.py:1406-1456, 1537-1571 -/
noncomputable def applyExplicit (s : StreamsDesc) (bs : List BlockDesc) (j : JastrowDesc nion)
    (a : AntisymDesc) (r : ResNetDesc) (P : Params (K + 1) nion d) (ions : Fin nion → Fin d → ℝ)
    (pos : Stream1 n d) : Except String SL :=
  let w := inWidths nion d s.includeEeNorm
  match a with
  | .factorized rank =>
    if rank = 0 then .error "Need at least one array to concatenate."
    else factorizedNet (rank := rank) ions s.include2e s.eiSoftening s.includeEeNorm s.eeSoftening
      (blocks P.backflow 0 bs w) (j.build P w)
      (fun sp x i => r.apply (P.resnets sp i) 1 x.get 0) pos
  | .generic =>
    genericNet ions s.include2e s.eiSoftening s.includeEeNorm s.eeSoftening
      (blocks P.backflow 0 bs w) (j.build P w) (fun x => r.apply (P.resnets 0 0) 1 x.get) pos

/-- All splits in a Jastrow factor are at the boundaries of the species. -/
def JastrowDesc.Matches {nion : ℕ} (counts : List ℤ) : JastrowDesc nion → Prop
  | .oneBody _ => True
  | .twoBody .. => True
  | .backflow none => True
  | .backflow (some bs) => BlocksMatch counts bs
  | .added a b => a.Matches counts ∧ b.Matches counts

/-- All splits in a model are at the boundaries of the species with `counts` electrons; the
backflow of an embedded-particle FermiNet sees the hidden particles too (a call raises if the
number of hidden counts is wrong). -/
def Model.Matches {nion : ℕ} (counts : List ℤ) : Model nion → Prop
  | .fermiNet f => f.spinSplit = Split.getSpinSplit counts ∧ BlocksMatch counts f.backflow
  | .embedded f nhidden _ invBackflow _ => f.spinSplit = Split.getSpinSplit counts ∧
      (nhidden.length = counts.length →
        BlocksMatch (List.zipWith (· + ·) (nhidden.map Int.ofNat) counts) f.backflow) ∧
      BlocksMatch counts invBackflow
  | .extended f _ invBackflow _ => f.spinSplit = Split.getSpinSplit counts ∧
      BlocksMatch counts f.backflow ∧ ∀ bs ∈ invBackflow, BlocksMatch counts bs
  | .antiequivariance spinSplit _ bs _ layerSplit _ c _ =>
      spinSplit = Split.getSpinSplit counts ∧ layerSplit = Split.getSpinSplit counts ∧
      BlocksMatch counts bs ∧ match c with
        | .products .. => True
        | .backflow _ s _ => s = Split.getSpinSplit counts
  | .explicit spinSplit _ bs j _ _ => spinSplit = Split.getSpinSplit counts ∧
      BlocksMatch counts bs ∧ j.Matches counts

/-- All input streams have electron-ion norms. -/
def Model.EiNorms {nion : ℕ} : Model nion → Prop
  | .fermiNet f => f.streams.includeEiNorm = true
  | .embedded f _ invStreams _ _ =>
    f.streams.includeEiNorm = true ∧ invStreams.includeEiNorm = true
  | .extended f _ _ _ => f.streams.includeEiNorm = true
  | .antiequivariance _ s _ _ _ _ _ _ => s.includeEiNorm = true
  | .explicit _ s _ _ _ _ => s.includeEiNorm = true

/-- Error of the evaluation in the model (not in the code) if input streams have no
electron-ion norms. -/
def notModelled : String := "include_ei_norm=False is not modelled"

open Classical in
/-- Calling a model at the positions of one walker, electrons sorted by species.  Only models
whose input streams have norms are covered (`include_ei_norm=True`, the default); for the
others and for splits which are not the species the result is an error which is not the
code's. -/
noncomputable def Model.apply (m : Model nion) (P : Params (K + 1) nion d)
    (ions : Fin nion → Fin d → ℝ) (pos : Stream1 n d) : Except String SL :=
  if ¬ m.Matches (counts n) then .error splitMismatch
  else if ¬ m.EiNorms then .error notModelled
  else match m with
    | .fermiNet f => f.apply P ions pos
    | .embedded f nhidden invStreams invBackflow inv =>
      applyEmbedded f nhidden invStreams invBackflow inv P ions pos
    | .extended f nhidden invBackflow inv => applyExtended f nhidden invBackflow inv P ions pos
    | .antiequivariance spinSplit s bs pp _ o c multiply =>
      applyAntiequivariance spinSplit s bs pp o c multiply P ions pos
    | .explicit _ s bs j a r => applyExplicit s bs j a r P ions pos

end Verif.Construct
