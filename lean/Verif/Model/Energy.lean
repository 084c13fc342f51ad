import Verif.Model.XRSum

/-!
Model of the cross-device reductions in vmcnet/utils/distribute.py, of the energy statistics,
clipping and gradient estimator in vmcnet/physics/core.py, of the clipping function in
vmcnet/train/runners.py and of the gradient averaging in vmcnet/updates/params.py.

An array which is distributed is a list with one entry per device.  Running without pmap is the
case of one device (a mean over one device is the identity, `pmean_single`).  Parameters are
indexed by an arbitrary type `K`.
-/

namespace Verif.Energy

/-- `isnan` is a boolean test. -/
instance XR.decIsNan (x : XR) : Decidable x.isNan := match x with
  | .nan => isTrue trivial
  | .ninf => isFalse id
  | .fin _ => isFalse id
  | .pinf => isFalse id

/-- `jnp.mean(x)` / `jnp.mean(x, axis=0)`. -/
noncomputable def mean (l : List XR) : XR := l.sum / XR.ofNat l.length

/-- `jnp.nanmean(x)`: nan entries are replaced by 0 in the sum (`nansum`) and not counted. -/
noncomputable def nanmean (l : List XR) : XR :=
  (l.map fun x => if x.isNan then XR.fin 0 else x).sum /
    XR.ofNat (l.countP fun x => decide (¬ x.isNan))

/-- `pmean_if_pmap`, distribute.py:60: mean over the devices. -/
noncomputable def pmean (l : List XR) : XR := mean l

/-- `mean_all_local_devices` (distribute.py:63-65) and `nanmean_all_local_devices`
(distribute.py:68-70), selected as in physics/core.py:206-209. -/
noncomputable def allreduceMean (nanSafe : Bool) (devs : List (List XR)) : XR :=
  if nanSafe then pmean (devs.map nanmean) else pmean (devs.map mean)

/-- `reshape_data_leaves_for_distribution`, distribute.py:105-116, for a leaf given by its
entries along the first axis. -/
def reshapeForDistribution {α : Type*} (ndev : ℕ) (leaf : List α) :
    Except String (List (List α)) :=
  if leaf.length % ndev ≠ 0 then
    .error "Number of chains must be divisible by number of devices"
  else
    .ok ((List.range ndev).map fun i =>
      (leaf.drop (i * (leaf.length / ndev))).take (leaf.length / ndev))

/-- `default_distribute_data`, distribute.py:119-123, for the list of leaves of the data. -/
def distributeData {α : Type*} (ndev : ℕ) (leaves : List (List α)) :
    Except String (List (List (List α))) :=
  leaves.mapM (reshapeForDistribution ndev)

/-- `get_statistics_from_local_energy`, physics/core.py:185-214. -/
noncomputable def getStatistics (devs : List (List XR)) (nchains : ℕ) (nanSafe : Bool) :
    XR × XR :=
  let energy := allreduceMean nanSafe devs
  let variance :=
    allreduceMean nanSafe (devs.map fun l => l.map fun e => (e - energy) * (e - energy)) *
      XR.ofNat nchains / XR.fin ((nchains : ℝ) - 1)
  (energy, variance)

open Classical in
/-- Insert into a sorted list (for `jnp.sort`). -/
noncomputable def insertX (a : XR) : List XR → List XR
  | [] => [a]
  | b :: l => if XR.le a b then a :: b :: l else b :: insertX a l

/-- `jnp.sort` of a list without nans. -/
noncomputable def sortX : List XR → List XR
  | [] => []
  | a :: l => insertX a (sortX l)

/-- `jnp.nanmedian`: the middle entry, or the mean of the two middle entries, of the sorted
non-nan entries; nan if there is none. -/
noncomputable def nanmedian (l : List XR) : XR :=
  let s := sortX (l.filter fun x => decide (¬ x.isNan))
  if s.length = 0 then .nan
  else (s.getD ((s.length - 1) / 2) .nan + s.getD (s.length / 2) .nan) / XR.fin 2

/-- Value of the option `clip_center`. -/
inductive Center | mean | median

/-- `jnp.clip(x, lo, hi)`. -/
noncomputable def clip (x lo hi : XR) : XR := XR.minimum hi (XR.maximum lo x)

/-- `center` in `total_variation_clipping_fn`, train/runners.py:292-300.  Other strings raise
a ValueError and are not values of `Center`. -/
noncomputable def clipCenter (c : Center) (es : List XR) (energyNoclip : XR) : XR := match c with
  | .mean => energyNoclip
  | .median => nanmedian es

/-- `total_variation_clipping_fn`, train/runners.py:285-307, on the energies of one device. -/
noncomputable def totalVariationClip (threshold : ℝ) (c : Center) (es : List XR)
    (energyNoclip : XR) : List XR :=
  let center := clipCenter c es energyNoclip
  let tv := nanmean (es.map fun e => XR.abs (e - center))
  es.map fun e => clip e (center - XR.fin threshold * tv) (center + XR.fin threshold * tv)

open Classical in
/-- `_get_clipping_fn`, train/runners.py:312-322. -/
noncomputable def getClippingFn (threshold : ℝ) (c : Center) :
    Option (List XR → XR → List XR) :=
  if threshold > 0 then some (totalVariationClip threshold c) else none

/-- The values in `aux_data`, physics/core.py:248-254. -/
structure Aux where
  variance : XR
  energyNoclip : XR
  varianceNoclip : XR
  centered : List (List XR)

/-- `get_clipped_energies_and_aux_data`, physics/core.py:217-255.  Returns the energy, the
(clipped) local energies and the auxiliary data. -/
noncomputable def getClipped (devs : List (List XR)) (nchains : ℕ)
    (clipping : Option (List XR → XR → List XR)) (nanSafe : Bool) :
    XR × List (List XR) × Aux :=
  let noclip := getStatistics devs nchains false
  let es := match clipping with
    | some f => devs.map fun l => f l noclip.1
    | none => devs
  let stats := getStatistics es nchains nanSafe
  (stats.1, es, ⟨stats.2, noclip.1, noclip.2, es.map fun l => l.map fun e => e - stats.1⟩)

/-- What the gradient needs to know about one walker: its local energy, `log|psi|`, the
gradient of `log|psi|` and the gradient of the local energy with respect to the parameters. -/
structure Walker (K : Type*) where
  eloc : XR
  logPsi : XR
  gradLogPsi : K → XR
  gradEloc : K → XR

/-- `2.0 * nchains / (nchains - 1)`, physics/core.py:326-331. -/
noncomputable def gradFactor (nchains : ℕ) : XR :=
  XR.fin 2 * XR.ofNat nchains / XR.fin ((nchains : ℝ) - 1)

/-- Cotangent of the `i`-th entry of `x` under `factor * mean_fn(x)` (distribute.py:73-94):
`mean` is `sum(x) / len(x)`, `nanmean` is `sum(where(isnan(x), 0, x)) / count`; the transpose of
`where` sends a zero cotangent to the nan entries.  Under pmap the transpose of `pmean` adds the
cotangents `1/ndev` of all devices, which is 1. -/
noncomputable def meanCotangent (nanSafe : Bool) (factor : XR) (x : List XR) (xi : XR) : XR :=
  if nanSafe then
    if xi.isNan then XR.fin 0
    else factor / XR.ofNat (x.countP fun x => decide (¬ x.isNan))
  else factor / XR.ofNat x.length

/-- `jax.grad(standard_estimator_forward)` on one device, physics/core.py:316-331, 333-341: the
reverse pass through `factor * mean_fn(centered * log_psi)`.  `cw` pairs centred local energies
with walkers. -/
noncomputable def standardGrad {K : Type*} (nanSafe : Bool) (nchains : ℕ)
    (cw : List (XR × Walker K)) (k : K) : XR :=
  let prod := cw.map fun p => p.1 * p.2.logPsi
  (cw.map fun p => meanCotangent nanSafe (gradFactor nchains) prod (p.1 * p.2.logPsi) * p.1 *
    p.2.gradLogPsi k).sum

/-- `local_energy_type`. -/
inductive EnergyType | standard | ibp | randomParticle
deriving DecidableEq

/-- Selection by name, physics/core.py:398-407. -/
def parseEnergyType : String → Except String EnergyType
  | "standard" => .ok .standard
  | "ibp" => .ok .ibp
  | "random_particle" => .ok .randomParticle
  | s => .error s!"Requested local energy type {s} is not supported"

/-- `mean_grad_fn` of the local-energy gradients (`generic_contribution`),
physics/core.py:379. -/
noncomputable def genericGrad {K : Type*} (nanSafe : Bool) (devs : List (List (Walker K)))
    (k : K) : XR :=
  allreduceMean nanSafe (devs.map fun l => l.map fun w => w.gradEloc k)

/-- The function returned by `create_value_and_grad_energy_fn`, physics/core.py:258-407: energy,
auxiliary data and one gradient per device.  The random-particle variant differs from the
standard one only in the keys given to the local energies, which are inputs here. -/
noncomputable def valueAndGrad {K : Type*} (t : EnergyType) (nchains : ℕ)
    (clipping : Option (List XR → XR → List XR)) (nanSafe : Bool)
    (devs : List (List (Walker K))) : XR × Aux × List (K → XR) :=
  let elocs := devs.map fun l => l.map Walker.eloc
  match t with
  | .ibp =>
    let r := getClipped elocs nchains none nanSafe
    (r.1, r.2.2, (r.2.2.centered.zip devs).map fun p k =>
      standardGrad nanSafe nchains (p.1.zip p.2) k + genericGrad nanSafe devs k)
  | _ =>
    let r := getClipped elocs nchains clipping nanSafe
    (r.1, r.2.2, (r.2.2.centered.zip devs).map fun p =>
      standardGrad nanSafe nchains (p.1.zip p.2))

/-- The gradient handed to the optimizer, the same on every device, updates/params.py:112. -/
noncomputable def meanGrad {K : Type*} (grads : List (K → XR)) (k : K) : XR :=
  pmean (grads.map fun g => g k)

end Verif.Energy
