import Verif.Model.Construct

/-! What a model configuration has to look like, stated on the configuration alone. -/

namespace Verif.Spec
open Verif.Construct

/-- Names of kernel initializers. -/
def KernelName (s : String) : Prop :=
  s ∈ ["zeros", "ones", "uniform", "normal", "orthogonal", "delta_orthogonal", "xavier_normal",
    "xavier_uniform", "glorot_normal", "glorot_uniform", "kaiming_normal", "kaiming_uniform",
    "he_normal", "he_uniform", "lecun_normal", "lecun_uniform"]

/-- Names of bias initializers. -/
def BiasName (s : String) : Prop := s = "zeros" ∨ s = "ones" ∨ s = "uniform" ∨ s = "normal"

/-- Names of activations. -/
def ActivationName (s : String) : Prop := s = "tanh" ∨ s = "gelu"

/-- Names of modes of the determinant function, in any case. -/
def ModeName (s : String) : Prop :=
  s.toUpper = "SIGN_COVARIANCE" ∨ s.toUpper = "PARALLEL_EVEN" ∨ s.toUpper = "PAIRWISE_EVEN"

/-- An acceptable backflow configuration. -/
structure BackflowOk (c : BackflowCfg) : Prop where
  unmixed : KernelName c.kernelInitUnmixed.type
  mixed : KernelName c.kernelInitMixed.type
  transformer : KernelName c.kernelInitTransformer.type
  kernel21 : KernelName c.kernelInit2e1eStream.type
  kernel22 : KernelName c.kernelInit2e2eStream.type
  bias1 : BiasName c.biasInit1eStream.type
  bias2 : BiasName c.biasInit2eStream.type
  biasTransformer : BiasName c.biasInitTransformer.type
  activation : ActivationName c.activationFn
  widths : ∀ t ∈ c.ndenseList, t ≠ []

/-- Acceptable initializers of orbitals. -/
def OrbitalsOk (c : ModelCfg) : Prop :=
  KernelName c.kernelInitOrbitalLinear.type ∧ KernelName c.kernelInitEnvelopeDim.type ∧
    KernelName c.kernelInitEnvelopeIon.type ∧ BiasName c.biasInitOrbitalLinear.type

/-- Acceptable entries of a FermiNet.  The mode has to be valid in any case. -/
def FermiOk (c : ModelCfg) : Prop :=
  OrbitalsOk c ∧ ModeName c.detResnet.mode ∧
    (c.useDetResnet = true → ActivationName c.detResnet.activation ∧
      KernelName c.detResnet.kernelInit.type ∧ BiasName c.detResnet.biasInit.type)

/-- Acceptable dense layers of an invariance. -/
def InvarianceOk (c : InvarianceCfg) : Prop :=
  KernelName c.kernelInitializer.type ∧ BiasName c.biasInitializer.type

/-- An acceptable Jastrow factor. -/
def JastrowOk (c : JastrowCfg) : Prop :=
  (c.type = "one_body_decay" ∧ KernelName c.oneBodyKernelInit.type) ∨
  c.type = "two_body_decay" ∨
  ((c.type = "backflow_based" ∨ c.type = "two_body_decay_and_backflow_based") ∧
    (c.useSeparateJastrowBackflow = true → BackflowOk c.backflow))

/-- A model configuration for `species` kinds of electrons from which a model can be made. -/
def Acceptable (c : ModelCfg) (species : ℕ) : Prop :=
  BackflowOk c.backflow ∧
  ((c.type = "ferminet" ∧ FermiOk c) ∨
   (c.type = "embedded_particle_ferminet" ∧ FermiOk c ∧ InvarianceOk c.invariance ∧
      BackflowOk c.invariance.backflow ∧
      (c.nhiddenFermionsPerSpin.length = species ∨ c.nhiddenFermionsPerSpin.length = 1 ∨
        species = 1)) ∨
   (c.type = "extended_orbital_matrix_ferminet" ∧ FermiOk c ∧ InvarianceOk c.invariance ∧
      (c.useSeparateInvarianceBackflow = true → BackflowOk c.invariance.backflow)) ∨
   ((c.type = "orbital_cofactor_net" ∨ c.type = "per_particle_dets_net") ∧ OrbitalsOk c ∧
      (c.useProductsCovariance = true → KernelName c.productsKernelInit.type)) ∨
   (c.type = "explicit_antisym" ∧ JastrowOk c.jastrow ∧
      (c.antisymType = "factorized" ∨ c.antisymType = "generic") ∧
      KernelName c.kernelInitResnet.type ∧ BiasName c.biasInitResnet.type ∧
      ActivationName c.activationFnResnet))

/-- All input streams contain electron-ion norms. -/
def UsesNorms (c : ModelCfg) : Prop :=
  c.inputStreams.includeEiNorm = true ∧
    (c.type = "embedded_particle_ferminet" → c.invariance.inputStreams.includeEiNorm = true)

/-- An antiequivariance network whose products covariance has weights for single pairs. -/
def WeightedProducts (c : ModelCfg) : Prop :=
  (c.type = "orbital_cofactor_net" ∨ c.type = "per_particle_dets_net") ∧
    c.useProductsCovariance = true ∧ c.productsUseWeights = true

/-- Configurations of FermiNets whose determinant function pairs the determinants of two
splits, although there are not two. -/
def PairsWithoutTwo (c : ModelCfg) (species : ℕ) : Prop :=
  c.useDetResnet = true ∧ c.detResnet.mode.toUpper = "PAIRWISE_EVEN" ∧
    (c.fullDet = true ∨ species ≠ 2)

/-- A model made from `c` can be called with electrons of `species` kinds, at least one of each
kind. -/
def Callable (c : ModelCfg) (species : ℕ) : Prop :=
  (c.type = "ferminet" ∧ (c.fullDet = true ∨ species ≠ 1) ∧ ¬ PairsWithoutTwo c species) ∨
  (c.type = "embedded_particle_ferminet" ∧ c.nhiddenFermionsPerSpin.length = species ∧
    species ≠ 1 ∧ ¬ PairsWithoutTwo c species) ∨
  (c.type = "extended_orbital_matrix_ferminet" ∧ c.nhiddenFermionsPerSpin.length = species ∧
    (c.fullDet = true ∨ species ≠ 1) ∧ ¬ PairsWithoutTwo c species) ∨
  ((c.type = "orbital_cofactor_net" ∨ c.type = "per_particle_dets_net") ∧ species ≠ 1 ∧
    (c.useProductsCovariance = true → species = 2) ∧
    (c.useProductsCovariance = false → BackflowOk c.invarianceBackflow)) ∨
  (c.type = "explicit_antisym" ∧ (c.antisymType = "factorized" → c.rank ≠ 0) ∧
    (c.jastrow.type = "two_body_decay" ∨ c.jastrow.type = "two_body_decay_and_backflow_based" →
      c.inputStreams.include2eStream = true))

/-! ### What the options mean -/

/-- What the names of initializers stand for; Xavier and Glorot are one person, and Kaiming and
He are one person. -/
inductive Named : String → InitKind → Prop
  | zeros : Named "zeros" .zeros
  | ones : Named "ones" .ones
  | uniform : Named "uniform" .uniform
  | normal : Named "normal" .normal
  | orthogonal : Named "orthogonal" .orthogonal
  | deltaOrthogonal : Named "delta_orthogonal" .deltaOrthogonal
  | xavierNormal : Named "xavier_normal" .xavierNormal
  | glorotNormal : Named "glorot_normal" .xavierNormal
  | xavierUniform : Named "xavier_uniform" .xavierUniform
  | glorotUniform : Named "glorot_uniform" .xavierUniform
  | kaimingNormal : Named "kaiming_normal" .kaimingNormal
  | heNormal : Named "he_normal" .kaimingNormal
  | kaimingUniform : Named "kaiming_uniform" .kaimingUniform
  | heUniform : Named "he_uniform" .kaimingUniform
  | lecunNormal : Named "lecun_normal" .lecunNormal
  | lecunUniform : Named "lecun_uniform" .lecunUniform

/-- The kernel initializer meant by an entry: a scale counts for orthogonal matrices only. -/
structure KernelMeans (c : InitCfg) (dtype : ℕ) (i : Initializer) : Prop where
  kind : Named c.type i.kind
  scale : i.scale = if i.kind = .orthogonal ∨ i.kind = .deltaOrthogonal then
    some (match c.scale with | some r => r | none => 1) else none
  dtype : i.dtype = dtype

/-- The bias initializer meant by an entry; a scale does not count. -/
structure BiasMeans (c : InitCfg) (dtype : ℕ) (i : Initializer) : Prop where
  kind : Named c.type i.kind
  scale : i.scale = none
  dtype : i.dtype = dtype

/-- The activation meant by a name. -/
inductive ActivationMeans : String → Activation → Prop
  | tanh : ActivationMeans "tanh" .tanh
  | gelu : ActivationMeans "gelu" .gelu

/-- The one-electron layer for an entry of `ndense_list`. -/
structure OneMeans (c : BackflowCfg) (split : List ℤ) (dtype width : ℕ) (l : OneDesc) : Prop where
  split : l.spinSplit = split
  width : l.ndense = width
  transformer : KernelMeans c.kernelInitTransformer dtype l.kernelTransformer
  unmixed : KernelMeans c.kernelInitUnmixed dtype l.kernelUnmixed
  mixed : KernelMeans c.kernelInitMixed dtype l.kernelMixed
  fromTwo : KernelMeans c.kernelInit2e1eStream dtype l.kernel2e
  bias : BiasMeans c.biasInit1eStream dtype l.bias
  biasTransformer : BiasMeans c.biasInitTransformer dtype l.biasTransformer
  activation : ActivationMeans c.activationFn l.activation
  useBias : l.useBias = c.useBias
  skip : l.skip = c.oneElectronSkip
  skipScale : l.skipScale = c.oneElectronSkipScale
  cyclic : l.cyclic = c.cyclicSpins
  useTransformer : l.useTransformer = c.useTransformer
  heads : l.numHeads = c.numHeads

/-- The two-electron layer for an entry of `ndense_list`. -/
structure TwoMeans (c : BackflowCfg) (dtype width : ℕ) (l : TwoDesc) : Prop where
  width : l.ndense = width
  kernel : KernelMeans c.kernelInit2e2eStream dtype l.kernel
  bias : BiasMeans c.biasInit2eStream dtype l.bias
  activation : ActivationMeans c.activationFn l.activation
  useBias : l.useBias = c.useBias
  skip : l.skip = c.twoElectronSkip
  skipScale : l.skipScale = c.twoElectronSkipScale

/-- The block for one entry: the first number is the width of the one-electron layer, and the
second, if there is one, that of the two-electron layer. -/
structure BlockMeans (c : BackflowCfg) (split : List ℤ) (dtype : ℕ) (widths : List ℕ)
    (b : BlockDesc) : Prop where
  one : ∃ w, widths[0]? = some w ∧ OneMeans c split dtype w b.one
  two : match widths[1]? with
    | some w => ∃ l, b.two = some l ∧ TwoMeans c dtype w l
    | none => b.two = none

/-- One block per entry, in order. -/
def BackflowMeans (c : BackflowCfg) (split : List ℤ) (dtype : ℕ) (bs : List BlockDesc) : Prop :=
  bs.length = c.ndenseList.length ∧ ∀ (i : ℕ) t b, c.ndenseList[i]? = some t → bs[i]? = some b →
    BlockMeans c split dtype t b

/-- Input streams without softening. -/
structure StreamsMeans (c : StreamsCfg) (s : StreamsDesc) : Prop where
  two : s.include2e = c.include2eStream
  ei : s.includeEiNorm = c.includeEiNorm
  ee : s.includeEeNorm = c.includeEeNorm
  eiSoftening : s.eiSoftening = 0
  eeSoftening : s.eeSoftening = 0

/-- Orbitals. -/
structure OrbitalsMean (c : ModelCfg) (dtype : ℕ) (o : OrbitalDesc) : Prop where
  linear : KernelMeans c.kernelInitOrbitalLinear dtype o.kernelLinear
  dim : KernelMeans c.kernelInitEnvelopeDim dtype o.kernelEnvelopeDim
  ion : KernelMeans c.kernelInitEnvelopeIon dtype o.kernelEnvelopeIon
  bias : BiasMeans c.biasInitOrbitalLinear dtype o.biasLinear
  useBias : o.useBias = c.orbitalsUseBias
  isotropic : o.isotropicDecay = c.isotropicDecay

/-- The ResNet of determinants. -/
structure DetResnetMeans (c : DetResnetCfg) (dtype : ℕ) (r : ResNetDesc) : Prop where
  width : r.ndense = c.ndense
  layers : r.nlayers = c.nlayers
  activation : ActivationMeans c.activation r.activation
  kernel : KernelMeans c.kernelInit dtype r.kernel
  bias : BiasMeans c.biasInit dtype r.bias
  useBias : r.useBias = c.useBias

/-- The common part of FermiNets; `seen` counts the electrons seen by the backflow. -/
structure FermiMeans (c : ModelCfg) (nelec seen : List ℤ) (dtype : ℕ) (f : FermiDesc) : Prop where
  split : f.spinSplit = Split.getSpinSplit nelec
  streams : StreamsMeans c.inputStreams f.streams
  backflow : BackflowMeans c.backflow (Split.getSpinSplit seen) dtype f.backflow
  determinants : f.ndeterminants = c.ndeterminants
  orbitals : OrbitalsMean c dtype f.orbitals
  softening : f.envelopeSoftening = c.envelopeSoftening
  mode : f.mode = (if c.detResnet.mode.toUpper = "SIGN_COVARIANCE" then .signCovariance
    else if c.detResnet.mode.toUpper = "PARALLEL_EVEN" then .parallelEven else .pairwiseEven)
  full : f.fullDet = c.fullDet
  resnet : if c.useDetResnet = true then
    ∃ r, f.detFn = some r ∧ DetResnetMeans c.detResnet dtype r else f.detFn = none

/-- The invariance. -/
structure InvarianceMeans (c : InvarianceCfg) (dtype : ℕ) (i : InvarianceDesc) : Prop where
  kernel : KernelMeans c.kernelInitializer dtype i.kernel
  bias : BiasMeans c.biasInitializer dtype i.bias
  useBias : i.useBias = c.useBias

/-- The ResNet of an explicit antisymmetrization. -/
structure ResnetMeans (c : ModelCfg) (dtype : ℕ) (r : ResNetDesc) : Prop where
  width : r.ndense = c.ndenseResnet
  layers : r.nlayers = c.nlayersResnet
  activation : ActivationMeans c.activationFnResnet r.activation
  kernel : KernelMeans c.kernelInitResnet dtype r.kernel
  bias : BiasMeans c.biasInitResnet dtype r.bias
  useBias : r.useBias = c.resnetUseBias

/-- A two-body decay Jastrow factor with the strength from the configuration. -/
def TwoBodyMeans {nion d : ℕ} (c : JastrowCfg) (ionPos : Fin nion → Fin d → ℝ)
    (charges : Fin nion → ℝ) (j : JastrowDesc nion) : Prop :=
  j = .twoBody charges c.initEeStrength (Jastrow.chargelessScaleFactor ionPos charges) c.trainable

/-- A Jastrow factor based on a backflow of its own or on that of the model. -/
def BackflowJastrowMeans {nion : ℕ} (c : JastrowCfg) (split : List ℤ) (dtype : ℕ)
    (j : JastrowDesc nion) : Prop :=
  if c.useSeparateJastrowBackflow = true then
    ∃ bs, j = .backflow (some bs) ∧ BackflowMeans c.backflow split dtype bs
  else j = .backflow none

/-- The Jastrow factor of a name. -/
inductive JastrowMeans {nion d : ℕ} (c : JastrowCfg) (split : List ℤ)
    (ionPos : Fin nion → Fin d → ℝ) (charges : Fin nion → ℝ) (dtype : ℕ) : JastrowDesc nion → Prop
  | one (k : Initializer) : c.type = "one_body_decay" → KernelMeans c.oneBodyKernelInit dtype k →
      JastrowMeans c split ionPos charges dtype (.oneBody k)
  | two (j : JastrowDesc nion) : c.type = "two_body_decay" → TwoBodyMeans c ionPos charges j →
      JastrowMeans c split ionPos charges dtype j
  | backflow (j : JastrowDesc nion) : c.type = "backflow_based" →
      BackflowJastrowMeans c split dtype j → JastrowMeans c split ionPos charges dtype j
  | both (a b : JastrowDesc nion) : c.type = "two_body_decay_and_backflow_based" →
      TwoBodyMeans c ionPos charges a → BackflowJastrowMeans c split dtype b →
      JastrowMeans c split ionPos charges dtype (.added a b)

/-- The sign covariance of an antiequivariance network. -/
def CovarianceMeans (c : ModelCfg) (split : List ℤ) (dtype : ℕ) (v : CovarianceDesc) : Prop :=
  if c.useProductsCovariance = true then
    ∃ k, v = .products k c.productsUseWeights ∧ KernelMeans c.productsKernelInit dtype k
  else v = .backflow c.invarianceBackflow split dtype

/-- The model a configuration stands for. -/
inductive ModelMeans {nion d : ℕ} (c : ModelCfg) (nelec : List ℤ) (ionPos : Fin nion → Fin d → ℝ)
    (charges : Fin nion → ℝ) (dtype : ℕ) : Model nion → Prop
  | fermiNet (f : FermiDesc) : c.type = "ferminet" → FermiMeans c nelec nelec dtype f →
      ModelMeans c nelec ionPos charges dtype (.fermiNet f)
  | embedded (f : FermiDesc) (hidden : List ℕ) (seen : List ℤ) (s : StreamsDesc)
      (bs : List BlockDesc) (i : InvarianceDesc) : c.type = "embedded_particle_ferminet" →
      hidden = c.nhiddenFermionsPerSpin →
      (hidden.length = nelec.length → seen.length = nelec.length ∧ ∀ (k : ℕ) h e,
        hidden[k]? = some h → nelec[k]? = some e → seen[k]? = some (e + (h : ℤ))) →
      FermiMeans c nelec seen dtype f → StreamsMeans c.invariance.inputStreams s →
      BackflowMeans c.invariance.backflow (Split.getSpinSplit nelec) dtype bs →
      InvarianceMeans c.invariance dtype i →
      ModelMeans c nelec ionPos charges dtype (.embedded f hidden s bs i)
  | extended (f : FermiDesc) (hidden : List ℕ) (bs : Option (List BlockDesc))
      (i : InvarianceDesc) : c.type = "extended_orbital_matrix_ferminet" →
      hidden = c.nhiddenFermionsPerSpin → FermiMeans c nelec nelec dtype f →
      (if c.useSeparateInvarianceBackflow = true then
        ∃ b, bs = some b ∧ BackflowMeans c.invariance.backflow (Split.getSpinSplit nelec) dtype b
        else bs = none) →
      InvarianceMeans c.invariance dtype i →
      ModelMeans c nelec ionPos charges dtype (.extended f hidden bs i)
  | antiequivariance (s : StreamsDesc) (bs : List BlockDesc) (perParticle : Bool)
      (o : OrbitalDesc) (v : CovarianceDesc) (multiply : Bool) :
      (c.type = "orbital_cofactor_net" ∧ perParticle = false ∨
        c.type = "per_particle_dets_net" ∧ perParticle = true) →
      StreamsMeans c.inputStreams s →
      BackflowMeans c.backflow (Split.getSpinSplit nelec) dtype bs →
      OrbitalsMean c dtype o → CovarianceMeans c (Split.getSpinSplit nelec) dtype v →
      multiply = c.multiplyByEqFeatures →
      ModelMeans c nelec ionPos charges dtype (.antiequivariance (Split.getSpinSplit nelec) s bs
        perParticle (Split.getSpinSplit nelec) o v multiply)
  | explicit (s : StreamsDesc) (bs : List BlockDesc) (j : JastrowDesc nion) (a : AntisymDesc)
      (r : ResNetDesc) : c.type = "explicit_antisym" →
      (c.antisymType = "factorized" ∧ a = .factorized c.rank ∨
        c.antisymType = "generic" ∧ a = .generic) →
      StreamsMeans c.inputStreams s →
      BackflowMeans c.backflow (Split.getSpinSplit nelec) dtype bs →
      JastrowMeans c.jastrow (Split.getSpinSplit nelec) ionPos charges dtype j →
      ResnetMeans c dtype r →
      ModelMeans c nelec ionPos charges dtype (.explicit (Split.getSpinSplit nelec) s bs j a r)

/-! ### Parameters of a backflow -/

/-- The number of parameter arrays of the dense layers for one entry of `ndense_list`, without
those which mix the electrons: a kernel and a bias for the electron itself, a kernel for the
pairs if there are pairs, and a kernel and a bias for the pairs' own layer. -/
def ownParams (c : BackflowCfg) (pairs : Bool) (widths : List ℕ) : ℕ :=
  let dense := if c.useBias = true then 2 else 1
  dense + if pairs = true then 1 + (if 1 < widths.length then dense else 0) else 0

/-- The name of an initializer of constants. -/
def ConstantName (s : String) : Prop := s = "zeros" ∨ s = "ones"

end Verif.Spec
