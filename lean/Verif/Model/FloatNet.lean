import Verif.Model.Network
import Verif.Model.XRSum

/-!
The equivariant layers of `Model/Network` once more, with `XR` numbers instead of reals, so that a
mean over no electrons is `0 / 0 = nan` as in the code.  Parameters are finite.  Subtraction of the
maximum in softmax (which only avoids overflow) is left out, as in `Model/Network`.
-/

namespace Verif.FloatNet
open Verif.Net

variable {S : ℕ} {n : Fin S → ℕ}

/-- One-electron stream of shape `(nelec, d)`. -/
abbrev XStream1 {S : ℕ} (n : Fin S → ℕ) (d : ℕ) := Elec n → Fin d → XR

/-- Two-electron stream of shape `(nelec, nelec, d)`. -/
abbrev XStream2 {S : ℕ} (n : Fin S → ℕ) (d : ℕ) := Elec n → Elec n → Fin d → XR

/-- Both streams, the second one optional. -/
abbrev XStreams {S : ℕ} (n : Fin S → ℕ) (w : ℕ × ℕ) := XStream1 n w.1 × Option (XStream2 n w.2)

/-- An activation on floating point numbers: nan stays nan.  Infinities cannot arise from finite
parameters without overflow; nan is used for them. -/
noncomputable def act (f : ℝ → ℝ) : XR → XR
  | .fin r => .fin (f r)
  | _ => .nan

/-- `Dense.__call__`.  models/core.py:190-211 -/
noncomputable def dense {ι : Type*} [Fintype ι] {d' : ℕ} (useBias : Bool) (kernel : ι → Fin d' → ℝ)
    (bias : Fin d' → ℝ) (x : ι → XR) (j : Fin d') : XR :=
  let y := ∑ i, x i * XR.fin (kernel i j)
  if useBias then y + XR.fin (bias j) else y

/-- `_split_mean`: `jnp.mean` over the electrons of one species.  models/core.py:31-42 -/
noncomputable def splitMean {ι : Type*} (x : Elec n → ι → XR) (s : Fin S) (k : ι) : XR :=
  XR.mean fun i => x ⟨s, i⟩ k

/-- The concatenated means seen by species `s`.  models/equivariance.py:331-348, 371-389 -/
def concatMeans {d : ℕ} (cyclic : Bool) (s : Fin S) (means : Fin S → Fin d → XR)
    (p : Fin S × Fin d) : XR :=
  means (if cyclic then rolled s p.1 else p.1) p.2

/-- flax `SelfAttention.__call__` on the electrons of one species.
models/equivariance.py:292-299 -/
noncomputable def attention {d H d' m : ℕ} (A : Attention d H d') (x : Fin m → Fin d → XR)
    (i : Fin m) (c : Fin d') : XR :=
  let proj (K : Fin d → Fin H → Fin d' → ℝ) (b : Fin H → Fin d' → ℝ) (j : Fin m) (h : Fin H)
      (a : Fin d') : XR := (∑ k, x j k * XR.fin (K k h a)) + XR.fin (b h a)
  let score (j : Fin m) (h : Fin H) : XR :=
    XR.exp (∑ a, proj A.qKernel A.qBias i h a / XR.fin (Real.sqrt d') *
      proj A.kKernel A.kBias j h a)
  (∑ h, ∑ a, (∑ j, score j h / (∑ j', score j' h) * proj A.vKernel A.vBias j h a) *
    XR.fin (A.oKernel h a c)) + XR.fin (A.oBias c)

/-- `_compute_mixed_split`.  models/equivariance.py:307-349, 397-407 -/
noncomputable def mixed {d1 d2 d' : ℕ} (L : OneElectronLayer S d1 d2 d') (x : XStream1 n d1) :
    XStream1 n d' := fun e =>
  match L.mixing with
  | .transformer A => attention A (fun j => x ⟨e.1, j⟩) e.2
  | .means K => dense false K 0 (concatMeans L.cyclic e.1 (splitMean x))

/-- `_compute_transformed_2e_means`.  models/equivariance.py:351-395 -/
noncomputable def transformed2e {d1 d2 d' : ℕ} (L : OneElectronLayer S d1 d2 d')
    (y : XStream2 n d2) : XStream1 n d' := fun e =>
  dense false L.kernel2e 0 (concatMeans L.cyclic e.1 (splitMean (y e)))

/-- The skip connection.  models/equivariance.py:468-469, 523-524 -/
noncomputable def skipConnect {d d' : ℕ} (skip : Bool) (scale : ℝ) (x : Fin d → XR)
    (out : Fin d' → XR) : Fin d' → XR :=
  if h : d' = d then
    (if skip then fun j => XR.fin scale * (out j + x (Fin.cast h j)) else out)
  else out

/-- `FermiNetOneElectronLayer.__call__`.  models/equivariance.py:404-471 -/
noncomputable def oneLayer {d1 d2 d' : ℕ} (L : OneElectronLayer S d1 d2 d') (x : XStream1 n d1)
    (y : Option (XStream2 n d2)) : XStream1 n d' := fun e =>
  let denseOut := fun j => dense L.useBias L.unmixedKernel L.bias (x e) j + mixed L x e j
  let denseOut := match y with
    | none => denseOut
    | some y => fun j => denseOut j + transformed2e L y e j
  skipConnect L.skip L.skipScale (x e) fun j => act L.activation (denseOut j)

/-- `FermiNetTwoElectronLayer.__call__`.  models/equivariance.py:512-526 -/
noncomputable def twoLayer {d d' : ℕ} (L : TwoElectronLayer d d') (y : XStream2 n d) :
    XStream2 n d' := fun e e' =>
  skipConnect L.skip L.skipScale (y e e') fun j =>
    act L.activation (dense L.useBias L.kernel L.bias (y e e') j)

/-- `FermiNetResidualBlock.__call__`.  models/equivariance.py:555-575 -/
noncomputable def block {w w' : ℕ × ℕ} : Block S w w' → XStreams n w → XStreams n w'
  | .both one two, xs => (oneLayer one xs.1 xs.2, xs.2.map (twoLayer two))
  | .oneOnly one, xs => (oneLayer one xs.1 xs.2, xs.2)

/-- The loop of `FermiNetBackflow.__call__`.  models/equivariance.py:620-623 -/
noncomputable def run {w w' : ℕ × ℕ} : Blocks S w w' → XStreams n w → XStreams n w'
  | .nil, xs => xs
  | .cons b bs, xs => run bs (block b xs)

/-- `FermiNetBackflow.__call__`.  models/equivariance.py:603-625 -/
noncomputable def backflow {w w' : ℕ × ℕ} (bs : Blocks S w w') (xs : XStreams n w) :
    XStream1 n w'.1 := (run bs xs).1

/-- `FermiNetOrbitalLayer.__call__` at one electron, for features which may be nan; the envelopes
depend on positions only and are finite.  models/equivariance.py:814-851, 628-693 -/
noncomputable def orbitals {d1 nion d : ℕ} {norb : Fin S → ℕ} (L : OrbitalLayer S d1 nion d norb)
    (x : XStream1 n d1) (rei : Option (Elec n → Fin nion → Fin d → ℝ)) (s : Fin S) (i : Fin (n s))
    (o : Fin (norb s)) : XR :=
  let orb := dense L.useBias (L.kernel s) (L.bias s) (x ⟨s, i⟩) o
  match rei with
  | none => orb
  | some r => orb * XR.fin (envelope L s (r ⟨s, i⟩) o)

/-- Finite streams as streams of floating point numbers. -/
def lift {w : ℕ × ℕ} (xs : Streams n w) : XStreams n w :=
  (fun e k => .fin (xs.1 e k), xs.2.map fun y e e' k => .fin (y e e' k))

end Verif.FloatNet
