import Verif.Spec.Construct

/-!
The functions which configurations stand for, written with sums, determinants and exponentials
in terms of the entries of a configuration and of the parameters.  Types of configurations,
parameters and streams are those of the model; its functions are not used.
-/

namespace Verif.Spec
open Verif.Construct Verif.Net

variable {K nion d : ℕ} {n : Fin (K + 1) → ℕ}

/-! ### Dense layers and ResNets -/

/-- The activation of a name. -/
noncomputable def activationValue (name : String) (z : ℝ) : ℝ :=
  if name = "tanh" then Real.tanh z
  else z / 2 * (1 + Real.tanh (Real.sqrt (2 / Real.pi) * (z + 0.044715 * z ^ 3)))

/-- `y + x`, scaled, if wanted and if both have the same width, and otherwise `y`. -/
def skipped {m m' : ℕ} (wanted : Bool) (scale : ℝ) (x : Fin m → ℝ) (y : Fin m' → ℝ) (j : Fin m') :
    ℝ :=
  if h : wanted = true ∧ m' = m then scale * (y j + x (Fin.cast h.2 j)) else y j

/-- An affine map, with the constant only if wanted. -/
def affine {m m' : ℕ} (useBias : Bool) (P : DenseParams m m') (x : Fin m → ℝ) (j : Fin m') : ℝ :=
  (∑ k, P.kernel k j * x k) + (if useBias = true then P.bias j else 0)

/-- Hidden layer number `k` of a ResNet of width `m`: layer `0` sees the input, and every other
one adds to the layer before. -/
noncomputable def hiddenLayer (name : String) (useBias : Bool) (P : ResNetParams) (m : ℕ) {m₀ : ℕ}
    (x : Fin m₀ → ℝ) : ℕ → Fin m → ℝ
  | 0 => skipped true 1 x fun j => activationValue name (affine useBias (P.inner 0 m₀ m) x j)
  | k + 1 => fun j => activationValue name (affine useBias (P.inner (k + 1) m m)
      (hiddenLayer name useBias P m x k) j) + hiddenLayer name useBias P m x k j

/-- A ResNet with `layers` layers, the last of which is linear: of the last hidden layer, or of
the input if there is none. -/
noncomputable def resnetValue (name : String) (useBias : Bool) (m layers : ℕ) (P : ResNetParams)
    (out : ℕ) {m₀ : ℕ} (x : Fin m₀ → ℝ) (j : Fin out) : ℝ :=
  if layers ≤ 1 then ∑ k, (P.final m₀ out).kernel k j * x k
  else ∑ k, (P.final m out).kernel k j * hiddenLayer name useBias P m x (layers - 2) k

/-! ### Backflows -/

/-- The mean over the electrons of one species. -/
noncomputable def speciesMean {m : ℕ} (x : Elec n → Fin m → ℝ) (s : Fin (K + 1)) (k : Fin m) : ℝ :=
  (∑ i, x ⟨s, i⟩ k) / n s

/-- The species whose mean is at place `p` of those seen by species `s`. -/
def seenAt (c : BackflowCfg) (s p : Fin (K + 1)) : Fin (K + 1) :=
  if c.cyclicSpins = true then s + p else p

/-- Attention with several heads: electron `i` gets the mean of the values of all electrons with
weights proportional to `exp (q_i · k_j / √m')`, and a linear map collects the heads. -/
noncomputable def attentionValue {m H m' N : ℕ} (A : Attention m H m') (x : Fin N → Fin m → ℝ)
    (i : Fin N) (c : Fin m') : ℝ :=
  let query (h : Fin H) (a : Fin m') : ℝ := (∑ k, x i k * A.qKernel k h a) + A.qBias h a
  let key (j : Fin N) (h : Fin H) (a : Fin m') : ℝ := (∑ k, x j k * A.kKernel k h a) + A.kBias h a
  let value (j : Fin N) (h : Fin H) (a : Fin m') : ℝ := (∑ k, x j k * A.vKernel k h a) + A.vBias h a
  let weight (h : Fin H) (j : Fin N) : ℝ := Real.exp ((∑ a, query h a * key j h a) / Real.sqrt m')
  A.oBias c + ∑ h, ∑ a, A.oKernel h a c *
    ((∑ j, weight h j * value j h a) / ∑ j, weight h j)

/-- The one-electron stream after a layer: electron by electron, from its own features, those of
all electrons through means or attention, and those of its pairs, if there are any. -/
noncomputable def oneValue {m₁ m₂ m H : ℕ} (c : BackflowCfg)
    (P : OneParams (K + 1) m₁ m₂ m H) (x : Stream1 n m₁) (y : Option (Stream2 n m₂))
    (e : Elec n) : Fin m → ℝ :=
  skipped c.oneElectronSkip c.oneElectronSkipScale (x e) fun j => activationValue c.activationFn
    (((∑ k, x e k * P.unmixedKernel k j) + if c.useBias = true then P.bias j else 0) +
      (if c.useTransformer = true then attentionValue P.attention (fun i => x ⟨e.1, i⟩) e.2 j
        else ∑ p, ∑ k, speciesMean x (seenAt c e.1 p) k * P.mixedKernel (p, k) j) +
      match y with
      | none => 0
      | some y => ∑ p, ∑ k, speciesMean (y e) (seenAt c e.1 p) k * P.kernel2e (p, k) j)

/-- The two-electron stream after a layer: pair by pair. -/
noncomputable def twoValue {m₂ m : ℕ} (c : BackflowCfg) (P : DenseParams m₂ m) (y : Stream2 n m₂)
    (e e' : Elec n) : Fin m → ℝ :=
  skipped c.twoElectronSkip c.twoElectronSkipScale (y e e') fun j =>
    activationValue c.activationFn (affine c.useBias P (y e e') j)

/-- A backflow takes the streams `(x, y)` to the one-electron stream `z`: layer by layer, with
the widths in the list, starting with the parameters number `i`.  An entry with one width leaves
the two-electron stream as it is. -/
inductive BackflowValue (c : BackflowCfg) (P : BackflowParams (K + 1)) :
    ℕ → List (List ℕ) → ∀ {m₁ m₂ m : ℕ}, Stream1 n m₁ → Option (Stream2 n m₂) → Stream1 n m → Prop
  | done {i m₁ m₂ : ℕ} (x : Stream1 n m₁) (y : Option (Stream2 n m₂)) :
      BackflowValue c P i [] x y x
  | one {i m₁ m₂ m u : ℕ} {ws : List (List ℕ)} (x : Stream1 n m₁) (y : Option (Stream2 n m₂))
      (z : Stream1 n m) :
      BackflowValue c P (i + 1) ws (oneValue c (P.one i m₁ m₂ u c.numHeads) x y) y z →
      BackflowValue c P i ([u] :: ws) x y z
  | two {i m₁ m₂ m u v : ℕ} {rest : List ℕ} {ws : List (List ℕ)} (x : Stream1 n m₁)
      (y : Option (Stream2 n m₂)) (z : Stream1 n m) :
      BackflowValue c P (i + 1) ws (oneValue c (P.one i m₁ m₂ u c.numHeads) x y)
        (y.map (twoValue c (P.two i m₂ v))) z →
      BackflowValue c P i ((u :: v :: rest) :: ws) x y z

/-- Euclidean distance. -/
noncomputable def distance (x y : Fin d → ℝ) : ℝ := Real.sqrt (∑ k, (x k - y k) ^ 2)

/-- The one-electron input: for each ion the displacement, followed by the distance. -/
structure OneInput (ions : Fin nion → Fin d → ℝ) (pos : Stream1 n d)
    (x : Stream1 n (nion * (d + 1))) : Prop where
  displacement : ∀ e (j : Fin nion) (k : Fin d) a, a.val = j * (d + 1) + k →
    x e a = pos e k - ions j k
  distance : ∀ e (j : Fin nion) a, a.val = j * (d + 1) + d → x e a = distance (pos e) (ions j)

/-- The two-electron input: the displacement, followed by the distance if wanted. -/
structure TwoInput (c : StreamsCfg) (pos : Stream1 n d)
    (y : Option (Stream2 n (if c.includeEeNorm = true then d + 1 else d))) : Prop where
  none : c.include2eStream = false → y = none
  some : c.include2eStream = true → ∃ z, y = some z ∧
    (∀ e e' (k : Fin d) a, a.val = k.val → z e e' a = pos e k - pos e' k) ∧
    ∀ e e' a, a.val = d → z e e' a = Spec.distance (pos e) (pos e')

/-- A backflow of a configuration takes the positions `pos` to the features `z`. -/
def Features {m : ℕ} (s : StreamsCfg) (c : BackflowCfg) (P : BackflowParams (K + 1))
    (ions : Fin nion → Fin d → ℝ) (pos : Stream1 n d) (z : Stream1 n m) : Prop :=
  ∃ (x : Stream1 n (nion * (d + 1)))
    (y : Option (Stream2 n (if s.includeEeNorm = true then d + 1 else d))),
    OneInput ions pos x ∧ TwoInput s pos y ∧ BackflowValue c P 0 c.ndenseList x y z

/-! ### Orbitals and determinants -/

/-- An envelope: a combination over the ions of exponentials of the softened lengths of the
scaled displacements. -/
noncomputable def envelopeValue (isotropic : Bool) (softening isoK : ℝ)
    (anisoK : Fin nion → Fin d → Fin d → ℝ) (ionK : Fin nion → ℝ) (ions : Fin nion → Fin d → ℝ)
    (r : Fin d → ℝ) : ℝ :=
  ∑ j, ionK j * Real.exp (softening - Real.sqrt (softening ^ 2 + ∑ k,
    (if isotropic = true then isoK * (r k - ions j k)
      else ∑ l, (r l - ions j l) * anisoK j l k) ^ 2))

/-- Orbital `o` of species `s` at electron `i`: an affine function of its features times an
envelope. -/
noncomputable def orbitalValue {m : ℕ} {norb : Fin (K + 1) → ℕ} (useBias isotropic : Bool)
    (softening : ℝ) (L : OrbitalLayer (K + 1) m nion d norb) (ions : Fin nion → Fin d → ℝ)
    (pos : Stream1 n d) (z : Stream1 n m) (s : Fin (K + 1)) (i : Fin (n s)) (o : Fin (norb s)) : ℝ :=
  ((∑ k, L.kernel s k o * z ⟨s, i⟩ k) + if useBias = true then L.bias s o else 0) *
    envelopeValue isotropic softening (L.isoKernel s o) (fun j l k => L.anisoKernel s j l k o)
      (L.ionKernel s o) ions (pos ⟨s, i⟩)

/-- Entry `i * m + o` of a row of `N` blocks of `m` entries. -/
def blockEntry {N m : ℕ} (i : Fin N) (o : Fin m) : Fin (N * m) :=
  ⟨i * m + o, by
    have h1 := i.2
    have h2 := o.2
    calc i * m + o < i * m + m := by omega
      _ = (i + 1) * m := by ring
      _ ≤ N * m := Nat.mul_le_mul_right m (by omega)⟩

/-- The matrix with the given rows, species by species. -/
def Stacked {m : ℕ} (rows : ∀ s, Fin (n s) → Fin m → ℝ)
    (M : Matrix (Fin (∑ s, n s)) (Fin m) ℝ) : Prop :=
  ∀ s (i : Fin (n s)) (a : Fin (∑ s, n s)), a.val = (∑ t : Fin s.val, n ⟨t, by omega⟩) + i → M a = rows s i

/-- The determinants of a FermiNet at positions `pos`, numbered by matrix (first) and determinant
(second): with one matrix per species, or with one matrix for all species. -/
inductive FermiDets (c : ModelCfg) (P : Params (K + 1) nion d) (ions : Fin nion → Fin d → ℝ)
    (pos : Stream1 n d) : ∀ {N : ℕ}, (Fin (N + 1) → Fin c.ndeterminants → ℝ) → Prop
  | split {m : ℕ} (z : Stream1 n m) (D : Fin (K + 1) → Fin c.ndeterminants → ℝ) :
      c.fullDet = false → Features c.inputStreams c.backflow P.backflow ions pos z →
      (∀ s i, D s i = Matrix.det (Matrix.of fun a o => orbitalValue c.orbitalsUseBias
        c.isotropicDecay c.envelopeSoftening (P.orbitals m fun s => c.ndeterminants * n s) ions pos
        z s a (blockEntry i o))) → FermiDets c P ions pos D
  | full {m : ℕ} (z : Stream1 n m) (D : Fin 1 → Fin c.ndeterminants → ℝ)
      (M : Fin c.ndeterminants → Matrix (Fin (∑ s, n s)) (Fin (∑ s, n s)) ℝ) :
      c.fullDet = true → Features c.inputStreams c.backflow P.backflow ions pos z →
      (∀ i, Stacked (fun s a o => orbitalValue c.orbitalsUseBias c.isotropicDecay
        c.envelopeSoftening (P.orbitals m fun _ => c.ndeterminants * ∑ s, n s) ions pos z s a
        (blockEntry i o)) (M i)) → (∀ s i, D s i = (M i).det) → FermiDets c P ions pos D

/-- The sum over all choices of signs `e`. -/
noncomputable def sumOverSigns (N : ℕ) (f : (Fin N → ℝ) → ℝ) : ℝ :=
  ∑ e : Fin N → Bool, f fun i => if e i = true then -1 else 1

/-- The determinant ResNet applied to all determinants, matrix by matrix, with signs `e`. -/
noncomputable def detResnetValue {N N' : ℕ} (c : DetResnetCfg) (P : ResNetParams) (out : ℕ)
    (D : Fin N → Fin N' → ℝ) (e : Fin N → ℝ) (j : Fin out) : ℝ :=
  resnetValue c.activation c.useBias c.ndense c.nlayers P out
    (fun a : Fin (N * N') => e a.divNat * D a.divNat a.modNat) j

/-- How determinants are combined: a sum of products, or one of the three modes with a ResNet
made even or odd by summing over signs. -/
inductive Combined (c : ModelCfg) (P : ResNetParams) : ∀ {N : ℕ},
    (Fin (N + 1) → Fin c.ndeterminants → ℝ) → ℝ → Prop
  | plain {N : ℕ} (D : Fin (N + 1) → Fin c.ndeterminants → ℝ) : c.useDetResnet = false →
      Combined c P D (∑ i, ∏ s, D s i)
  | covariance {N : ℕ} (D : Fin (N + 1) → Fin c.ndeterminants → ℝ) : c.useDetResnet = true →
      c.detResnet.mode.toUpper = "SIGN_COVARIANCE" →
      Combined c P D (sumOverSigns (N + 1) fun e =>
        (∏ s, e s) * detResnetValue c.detResnet P 1 D e 0)
  | parallel {N : ℕ} (D : Fin (N + 1) → Fin c.ndeterminants → ℝ) : c.useDetResnet = true →
      c.detResnet.mode.toUpper = "PARALLEL_EVEN" →
      Combined c P D (∑ i, (∏ s, D s i) * sumOverSigns (N + 1) fun e =>
        detResnetValue c.detResnet P c.ndeterminants D e i)
  | pairwise (D : Fin 2 → Fin c.ndeterminants → ℝ) : c.useDetResnet = true →
      c.detResnet.mode.toUpper = "PAIRWISE_EVEN" →
      Combined c P (N := 1) D (∑ i, ∑ j, D 0 i * D 1 j * sumOverSigns 2 fun e =>
        detResnetValue c.detResnet P (c.ndeterminants * c.ndeterminants) D e (blockEntry i j))

/-! ### Hidden fermions -/

/-- An affine function of the means over species: row `a`, column `b` of species `s`. -/
noncomputable def invariantValue {m : ℕ} {rows cols : Fin (K + 1) → ℕ} (useBias : Bool)
    (I : InvariantDense (K + 1) m rows cols) (z : Stream1 n m) (s : Fin (K + 1)) (a : Fin (rows s))
    (b : Fin (cols s)) : ℝ :=
  (∑ k, I.kernel s k (blockEntry a b) * speciesMean z s k) +
    if useBias = true then I.bias s (blockEntry a b) else 0

/-- Hidden fermions per species. -/
def hiddenCount (K : ℕ) (c : ModelCfg) (s : Fin (K + 1)) : ℕ := c.nhiddenFermionsPerSpin.getD s 0

/-- Positions with those of hidden particles after those of each species. -/
structure Embedded {h : Fin (K + 1) → ℕ} (pos : Stream1 n d) (hidden : ∀ s, Fin (h s) → Fin d → ℝ)
    (q : Stream1 (fun s => n s + h s) d) : Prop where
  visible : ∀ s (i : Fin (n s)) a, a.val = i.val → q ⟨s, a⟩ = pos ⟨s, i⟩
  hidden : ∀ s (i : Fin (h s)) a, a.val = n s + i.val → q ⟨s, a⟩ = hidden s i

/-- The positions seen by an embedded-particle FermiNet. -/
def HiddenPositions (c : ModelCfg) (P : Params (K + 1) nion d) (ions : Fin nion → Fin d → ℝ)
    (pos : Stream1 n d) (q : Stream1 (fun s => n s + hiddenCount K c s) d) : Prop :=
  ∃ (m : ℕ) (z : Stream1 n m),
    Features c.invariance.inputStreams c.invariance.backflow P.invBackflow ions pos z ∧
    Embedded pos (invariantValue c.invariance.useBias
      (P.invariance m (hiddenCount K c) fun _ => d) z) q

/-- The features used for the additional rows of an extended orbital matrix: from a backflow of
their own or from that of the orbitals. -/
def RowFeatures (c : ModelCfg) (P : Params (K + 1) nion d) (ions : Fin nion → Fin d → ℝ)
    (pos : Stream1 n d) {m m' : ℕ} (z : Stream1 n m) (y : Stream1 n m') : Prop :=
  if c.useSeparateInvarianceBackflow = true then
    Features c.inputStreams c.invariance.backflow P.invBackflow ions pos y
  else ∃ h : m' = m, ∀ e j, y e j = z e (Fin.cast h j)

/-- The rows of an extended orbital matrix of one species, for determinant `i`. -/
structure ExtendedRows (c : ModelCfg) (P : Params (K + 1) nion d) (ions : Fin nion → Fin d → ℝ)
    (pos : Stream1 n d) {m m' : ℕ} (z : Stream1 n m) (y : Stream1 n m') (norb : Fin (K + 1) → ℕ)
    (i : Fin c.ndeterminants) (s : Fin (K + 1))
    (R : Fin (n s + hiddenCount K c s) → Fin (norb s) → ℝ) : Prop where
  visible : ∀ (a : Fin (n s)) b, b.val = a.val → ∀ o, R b o =
    orbitalValue c.orbitalsUseBias c.isotropicDecay c.envelopeSoftening
      (P.orbitals m fun s => c.ndeterminants * norb s) ions pos z s a (blockEntry i o)
  hidden : ∀ (a : Fin (hiddenCount K c s)) b, b.val = n s + a.val → ∀ o, R b o =
    invariantValue c.invariance.useBias
      (P.invariance m' (hiddenCount K c) fun s => c.ndeterminants * norb s) y s a (blockEntry i o)

/-- The determinants of an extended-orbital-matrix FermiNet. -/
inductive ExtendedDets (c : ModelCfg) (P : Params (K + 1) nion d) (ions : Fin nion → Fin d → ℝ)
    (pos : Stream1 n d) : ∀ {N : ℕ}, (Fin (N + 1) → Fin c.ndeterminants → ℝ) → Prop
  | split {m m' : ℕ} (z : Stream1 n m) (y : Stream1 n m')
      (D : Fin (K + 1) → Fin c.ndeterminants → ℝ)
      (M : ∀ (_ : Fin c.ndeterminants) s,
        Matrix (Fin (n s + hiddenCount K c s)) (Fin (n s + hiddenCount K c s)) ℝ) :
      c.fullDet = false → Features c.inputStreams c.backflow P.backflow ions pos z →
      RowFeatures c P ions pos z y →
      (∀ i s, ExtendedRows c P ions pos z y (fun s => n s + hiddenCount K c s) i s (M i s)) →
      (∀ s i, D s i = (M i s).det) → ExtendedDets c P ions pos D
  | full {m m' : ℕ} (z : Stream1 n m) (y : Stream1 n m') (D : Fin 1 → Fin c.ndeterminants → ℝ)
      (R : Fin c.ndeterminants → ∀ s, Fin (n s + hiddenCount K c s) →
        Fin (∑ s, (n s + hiddenCount K c s)) → ℝ)
      (M : Fin c.ndeterminants → Matrix (Fin (∑ s, (n s + hiddenCount K c s)))
        (Fin (∑ s, (n s + hiddenCount K c s))) ℝ) :
      c.fullDet = true → Features c.inputStreams c.backflow P.backflow ions pos z →
      RowFeatures c P ions pos z y →
      (∀ i s, ExtendedRows c P ions pos z y (fun _ => ∑ s, (n s + hiddenCount K c s)) i s (R i s)) →
      (∀ i, Stacked (n := fun s => n s + hiddenCount K c s) (R i) (M i)) →
      (∀ s i, D s i = (M i).det) → ExtendedDets c P ions pos D

/-! ### Antiequivariance networks -/

/-- The antiequivariant value of electron `i` of species `s`.  For cofactors: the determinant of
the orbital matrix in which the other entries of the first column are zero (the options are those
which the layer really gets, see C50).  For determinants per particle: the determinant of the
orbitals of all electrons with features of this electron. -/
noncomputable def antiValue {m : ℕ} (c : ModelCfg) (P : Params (K + 1) nion d)
    (ions : Fin nion → Fin d → ℝ) (pos : Stream1 n d) (z : Stream1 n m) (s : Fin (K + 1))
    (i : Fin (n s)) : ℝ :=
  if c.type = "per_particle_dets_net" then
    Matrix.det (Matrix.of fun a o =>
      ((∑ k, (P.doubly m n).kernel s (.inl k) o * z ⟨s, i⟩ k) +
        (∑ k, (P.doubly m n).kernel s (.inr k) o * z ⟨s, a⟩ k) +
        if c.orbitalsUseBias = true then (P.doubly m n).bias s o else 0) *
      envelopeValue c.isotropicDecay 0 ((P.doubly m n).envelopes.isoKernel s o)
        (fun j l k => (P.doubly m n).envelopes.anisoKernel s j l k o)
        ((P.doubly m n).envelopes.ionKernel s o) ions (pos ⟨s, a⟩))
  else
    Matrix.det (Matrix.of fun a o => if o.val = 0 ∧ a ≠ i then 0 else
      orbitalValue c.isotropicDecay false (if c.orbitalsUseBias = true then 1 else 0)
        (P.orbitals m n) ions pos z s a o)

/-- The antiequivariant features: the values themselves, or their products with all features. -/
inductive AntiFeatures {m : ℕ} (c : ModelCfg) (z : Stream1 n m) (v : ∀ s, Fin (n s) → ℝ) :
    ∀ {m' : ℕ}, Stream1 n m' → Prop
  | own (a : Stream1 n 1) : c.multiplyByEqFeatures = false → (∀ s i j, a ⟨s, i⟩ j = v s i) →
      AntiFeatures c z v a
  | multiplied (a : Stream1 n m) : c.multiplyByEqFeatures = true →
      (∀ s i j, a ⟨s, i⟩ j = v s i * z ⟨s, i⟩ j) → AntiFeatures c z v a

/-- How antiequivariant features are combined: products of all pairs of electrons of two species,
with or without weights, or a backflow made odd by summing over signs. -/
inductive Paired (c : ModelCfg) (P : Params (K + 1) nion d) {m : ℕ} (a : Stream1 n m) : ℝ → Prop
  | products (h : K = 1) : c.useProductsCovariance = true → c.productsUseWeights = false →
      Paired c P a (∑ i, ∑ j, ∑ k, a ⟨⟨0, by omega⟩, i⟩ k * a ⟨⟨1, by omega⟩, j⟩ k)
  | weighted (h : K = 1) : c.useProductsCovariance = true → c.productsUseWeights = true →
      Paired c P a (∑ i : Fin (n ⟨0, by omega⟩), ∑ j : Fin (n ⟨1, by omega⟩),
        (∑ k, a ⟨⟨0, by omega⟩, i⟩ k * a ⟨⟨1, by omega⟩, j⟩ k) *
        P.productsKernel i.val j.val)
  | backflow {m' : ℕ} (B : (Fin (K + 1) → ℝ) → Stream1 n m') : c.useProductsCovariance = false →
      (∀ e, BackflowValue c.invarianceBackflow P.covBackflow 0 c.invarianceBackflow.ndenseList
        (fun i k => e i.1 * a i k) (none : Option (Stream2 n 0)) (B e)) →
      Paired c P a (sumOverSigns (K + 1) fun e => (∏ s, e s) * ∑ i, ∑ k, B e i k)

/-! ### Explicit antisymmetrization -/

/-- The two-body exponent: attraction to the ions, repulsion of pairs, and a constant. -/
noncomputable def twoBodyValue (z : Fin nion → ℝ) (q : ℝ) (ions : Fin nion → Fin d → ℝ)
    (charges : Fin nion → ℝ) (pos : Stream1 n d) : ℝ :=
  q * ((∑ e, ∑ e', distance (pos e) (pos e')) / 2) - (∑ e, ∑ j, z j * distance (pos e) (ions j)) +
    (∑ I, ∑ J, charges I * charges J * distance (ions I) (ions J)) / 2

/-- The exponent of the Jastrow factor based on features: minus the mean of their lengths. -/
noncomputable def lengthValue {m : ℕ} (z : Stream1 n m) : ℝ :=
  -((∑ e, Real.sqrt (∑ k, z e k ^ 2)) / (∑ s, n s : ℕ))

/-- The exponent of a Jastrow factor based on a backflow. -/
def BackflowExponent (c : ModelCfg) (P : Params (K + 1) nion d) (ions : Fin nion → Fin d → ℝ)
    (pos : Stream1 n d) {m : ℕ} (z : Stream1 n m) (r : ℝ) : Prop :=
  if c.jastrow.useSeparateJastrowBackflow = true then ∃ (m' : ℕ) (y : Stream1 n m'),
    Features c.inputStreams c.jastrow.backflow P.jastrowBackflow ions pos y ∧ r = lengthValue y
  else r = lengthValue z

/-- The exponent of the Jastrow factor. -/
def Exponent (c : ModelCfg) (P : Params (K + 1) nion d) (ions : Fin nion → Fin d → ℝ)
    (charges : Fin nion → ℝ) (pos : Stream1 n d) {m : ℕ} (z : Stream1 n m) (r : ℝ) : Prop :=
  let two := twoBodyValue (if c.jastrow.trainable = true then P.eiStrength else charges)
    (if c.jastrow.trainable = true then P.eeStrength else c.jastrow.initEeStrength) ions charges pos
  (c.jastrow.type = "one_body_decay" ∧
    r = -(|P.oneBodyKernel 0| * ∑ e, ∑ j, distance (pos e) (ions j))) ∨
  (c.jastrow.type = "two_body_decay" ∧ r = two) ∨
  (c.jastrow.type = "backflow_based" ∧ BackflowExponent c P ions pos z r) ∨
  (c.jastrow.type = "two_body_decay_and_backflow_based" ∧
    ∃ b, BackflowExponent c P ions pos z b ∧ r = two + b)

/-- The parity of a permutation as a real number. -/
def sign {N : ℕ} (σ : Equiv.Perm (Fin N)) : ℝ := ((Equiv.Perm.sign σ : ℤ) : ℝ)

/-- The features of all electrons of a species, in the order given by a permutation. -/
def reordered {m : ℕ} (z : Stream1 n m) (s : Fin (K + 1)) (σ : Equiv.Perm (Fin (n s))) : List ℝ :=
  (List.ofFn fun i => List.ofFn (z ⟨s, σ i⟩)).flatten

/-- ResNet number `(s, r)` of an explicitly antisymmetrized network. -/
noncomputable def antisymResnet (c : ModelCfg) (P : Params (K + 1) nion d) (s r : ℕ) (l : List ℝ) :
    ℝ :=
  resnetValue c.activationFnResnet c.resnetUseBias c.ndenseResnet c.nlayersResnet (P.resnets s r) 1
    l.get 0

/-- The antisymmetric part: a sum of `rank` terms, or one term. -/
inductive Antisymmetrized (c : ModelCfg) (P : Params (K + 1) nion d) {m : ℕ} (z : Stream1 n m) :
    ∀ {N : ℕ}, (Fin N → ℝ) → Prop
  | factorized (t : Fin c.rank → ℝ) : c.antisymType = "factorized" →
      (∀ r, t r = ∏ s, ∑ σ : Equiv.Perm (Fin (n s)), sign σ *
        antisymResnet c P s r (reordered z s σ)) → Antisymmetrized c P z t
  | generic (t : Fin 1 → ℝ) : c.antisymType = "generic" →
      (∀ r, t r = ∑ σ : ∀ s, Equiv.Perm (Fin (n s)), (∏ s, sign (σ s)) *
        antisymResnet c P 0 0 (List.ofFn fun s => reordered z s (σ s)).flatten) →
      Antisymmetrized c P z t

/-! ### Models -/

/-- The value of the wave function of a configuration: a sum of terms of which some are not zero
if `nonzero` is to hold. -/
inductive ModelValue (c : ModelCfg) (P : Params (K + 1) nion d) (ions : Fin nion → Fin d → ℝ)
    (charges : Fin nion → ℝ) (pos : Stream1 n d) : Prop → ℝ → Prop
  | fermiNet {N : ℕ} (D : Fin (N + 1) → Fin c.ndeterminants → ℝ) (r : ℝ) : c.type = "ferminet" →
      FermiDets c P ions pos D → Combined c P.detFn D r →
      ModelValue c P ions charges pos (c.useDetResnet = false → ∃ i, ∏ s, D s i ≠ 0) r
  | embedded {N : ℕ} (q : Stream1 (fun s => n s + hiddenCount K c s) d)
      (D : Fin (N + 1) → Fin c.ndeterminants → ℝ) (r : ℝ) :
      c.type = "embedded_particle_ferminet" → HiddenPositions c P ions pos q →
      FermiDets c P ions q D → Combined c P.detFn D r →
      ModelValue c P ions charges pos (c.useDetResnet = false → ∃ i, ∏ s, D s i ≠ 0) r
  | extended {N : ℕ} (D : Fin (N + 1) → Fin c.ndeterminants → ℝ) (r : ℝ) :
      c.type = "extended_orbital_matrix_ferminet" → ExtendedDets c P ions pos D →
      Combined c P.detFn D r →
      ModelValue c P ions charges pos (c.useDetResnet = false → ∃ i, ∏ s, D s i ≠ 0) r
  | antiequivariance {m m' : ℕ} (z : Stream1 n m) (a : Stream1 n m') (r : ℝ) :
      c.type = "orbital_cofactor_net" ∨ c.type = "per_particle_dets_net" →
      Features c.inputStreams c.backflow P.backflow ions pos z →
      AntiFeatures c z (antiValue c P ions pos z) a → Paired c P a r →
      ModelValue c P ions charges pos True r
  | explicit {m N : ℕ} (z : Stream1 n m) (t : Fin N → ℝ) (j : ℝ) : c.type = "explicit_antisym" →
      Features c.inputStreams c.backflow P.backflow ions pos z →
      Exponent c P ions charges pos z j → Antisymmetrized c P z t →
      ModelValue c P ions charges pos (c.antisymType = "factorized" → ∃ i, t i ≠ 0)
        (Real.exp j * ∑ i, t i)

end Verif.Spec
