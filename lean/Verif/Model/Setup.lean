import Verif.Model.Runner
import Mathlib.Data.Fin.Tuple.Sort
import Mathlib.Data.Real.Basic
import Mathlib.Analysis.SpecialFunctions.Log.Basic

/-!
Model of what happens before a run: initial electron positions (vmcnet/physics/core.py),
model initialisation, initial walker data, Metropolis functions, PRNG keys
(vmcnet/train/runners.py, vmcnet/utils/distribute.py).

Keys are values of an arbitrary type `K`.  The arrays drawn from a key are arbitrary
functions of the key.
-/

namespace Verif.Setup

open Verif.MCMC

/-- Derivation of keys: `jax.random.split(key, n)` and `jax.random.fold_in(key, i)`. -/
structure Rng (K : Type) where
  children : K → (n : ℕ) → Fin n → K
  foldIn : K → ℕ → K

variable {K P S : Type}

/-- `key, subkey = jax.random.split(key)`. -/
def Rng.split (r : Rng K) (key : K) : K × K := (r.children key 2 0, r.children key 2 1)

/-- `p_split`, utils/distribute.py:97: every device splits its own key. -/
def Rng.pSplit (r : Rng K) {nd : ℕ} (keys : Fin nd → K) : (Fin nd → K) × (Fin nd → K) :=
  (fun dev => (r.split (keys dev)).1, fun dev => (r.split (keys dev)).2)

/-- `make_different_rng_key_on_all_devices`, utils/distribute.py:44-48. -/
def differentKeys (r : Rng K) (process nd : ℕ) (key : K) : Fin nd → K :=
  r.children (r.foldIn key process) nd

/-- Positions of the electrons of one chain. -/
abbrev Pos (nelec d : ℕ) : Type := Fin nelec → Fin d → ℝ

/-- Arrays drawn from one key by `jax.random.uniform`, `gumbel` and `normal` while the
initial positions are made. -/
structure InitDraws (K : Type) (nelec nion d : ℕ) where
  uniform : K → Fin nelec → ℝ
  gumbel : K → Fin nion → ℝ
  normal : K → (nchains : ℕ) → Fin nchains → Fin nelec → Fin d → ℝ

/-- Entry `i` of `jnp.cumsum(p)`. -/
noncomputable def cumsum {n : ℕ} (p : Fin n → ℝ) (i : Fin n) : ℝ := ∑ j ∈ Finset.Iic i, p j

open Classical in
/-- `jax.random.choice(key, n, replace=True, p=p)` (jax 0.4.14) for one draw `u` of
`uniform`: `searchsorted(cumsum(p), cumsum(p)[-1] * (1 - u))`, the number of entries of the
cumulative sum below the value. -/
noncomputable def chooseReplace {m : ℕ} (p : Fin (m + 1) → ℝ) (u : ℝ) : ℕ :=
  (Finset.univ.filter fun i => cumsum p i < cumsum p (Fin.last m) * (1 - u)).card

/-- `jax.random.choice(key, n, replace=False, p=p)` (jax 0.4.14) given the draw `g` of
`gumbel`: the permutation `argsort(-g - log p)`; the draws are its first entries. -/
noncomputable def chooseDistinct {n : ℕ} (p : Fin n → ℝ) (g : Fin n → ℝ) : Equiv.Perm (Fin n) :=
  Tuple.sort fun i => -g i - Real.log (p i)

/-- `x[i]` for an index array under jit: indices past the end are clamped. -/
def takeRow {A : Type} {m : ℕ} (x : Fin (m + 1) → A) (i : ℕ) : A :=
  x ⟨min i m, Nat.lt_succ_of_le (min_le_right _ _)⟩

/-- The loop `for _ in range(nchains): key, subkey = split(key); ...append(...)`,
physics/core.py:54-65. -/
def splitLoop {A : Type} (r : Rng K) (f : K → A) : (n : ℕ) → K → K × (Fin n → A)
  | 0, key => (key, Fin.elim0)
  | n + 1, key =>
    let ks := r.split key
    let rest := splitLoop r f n ks.1
    (rest.1, Fin.cons (f ks.2) rest.2)

/-- Ion index of every electron of one chain, physics/core.py:48-64.  There is at least one
ion (`m + 1` of them). -/
noncomputable def assignIons {m nelec d : ℕ} (draws : InitDraws K nelec (m + 1) d)
    (charges : Fin (m + 1) → ℝ) (subkey : K) (e : Fin nelec) : ℕ :=
  let p : Fin (m + 1) → ℝ := fun i => charges i / ∑ j, charges j
  if h : nelec ≤ m + 1 then chooseDistinct p (draws.gumbel subkey) (Fin.castLE h e)
  else chooseReplace p (draws.uniform subkey e)

/-- `initialize_molecular_pos`, physics/core.py:29-69. -/
noncomputable def initializeMolecularPos {m nelec d : ℕ} (r : Rng K)
    (draws : InitDraws K nelec (m + 1) d) (key : K) (nchains : ℕ)
    (ionPos : Fin (m + 1) → Fin d → ℝ) (charges : Fin (m + 1) → ℝ) (initWidth : ℝ) :
    K × (Fin nchains → Pos nelec d) :=
  let loop := splitLoop r (fun sub e => takeRow ionPos (assignIons draws charges sub e))
    nchains key
  let ks := r.split loop.1
  (ks.1, fun c e k => loop.2 c e k + initWidth * draws.normal ks.2 nchains c e k)

/-- `get_first(key)`, utils/distribute.py:51-57, on `nd + 1` devices. -/
def firstKey {nd : ℕ} (keys : Fin (nd + 1) → K) : K := keys 0

/-- `_make_initial_single_device_data`, train/runners.py:163-177. -/
def initialSingle {n nelec d : ℕ} (psi : P → Pos nelec d → XR) (stdMove : ℝ)
    (initPos : Fin n → Pos nelec d) (params : P) :
    PAData (Fin n) (Pos nelec d) MoveMetadata :=
  initialData (fun p _ x => psi p x) initPos params ⟨stdMove, 0, 0⟩

/-- `default_distribute_data` (utils/distribute.py:105-123) of an array with `n` rows:
device `dev` gets the consecutive rows starting at `dev * (n / nd)`; an exception if `nd`
does not divide `n`. -/
def distributeRows {A : Type} {n : ℕ} (nd : ℕ) (rows : Fin n → A) :
    Except String (Fin nd × Fin (n / nd) → A) :=
  if n % nd ≠ 0 then .error "Number of chains must be divisible by number of devices"
  else .ok fun w => rows ⟨w.1 * (n / nd) + w.2, by
    have h1 : (w.1 : ℕ) + 1 ≤ nd := w.1.2
    have h2 := w.2.2
    calc (w.1 : ℕ) * (n / nd) + w.2 < w.1 * (n / nd) + n / nd := by omega
      _ = (w.1 + 1) * (n / nd) := by ring
      _ ≤ nd * (n / nd) := Nat.mul_le_mul_right _ h1
      _ ≤ n := Nat.mul_div_le n nd⟩

/-- `_make_initial_distributed_data`, train/runners.py:140-160: rows and parameters are
spread over the devices, every device computes its amplitudes and gets a copy of the
metadata. -/
def initialDistributed {n nelec d : ℕ} (nd : ℕ) (psi : P → Pos nelec d → XR) (stdMove : ℝ)
    (initPos : Fin n → Pos nelec d) (params : Fin nd → P) :
    Except String (PAData (Fin nd × Fin (n / nd)) (Pos nelec d) (Fin nd → MoveMetadata)) := do
  let rows ← distributeRows nd initPos
  return initialData (fun p w x => psi (p w.1) x) rows params fun _ => ⟨stdMove, 0, 0⟩

/-- `metrop_step_fn` of `_get_mcmc_fns`, train/runners.py:207-211, on one device. -/
noncomputable def stepSingle {n nelec d : ℕ} (r : Rng K) (uniform : K → Fin n → ℝ)
    (normal : K → Fin n → Pos nelec d) (meanFn : (Fin n → XR) → XR)
    (psi : P → Pos nelec d → XR) (nmoves : ℕ) :
    P → PAData (Fin n) (Pos nelec d) MoveMetadata → K →
      XR × PAData (Fin n) (Pos nelec d) MoveMetadata × K :=
  dynamicStep r.split uniform normal meanFn (fun p _ x => psi p x) nmoves
    (thresholdAdjust 0.5 0.05 0.1) true

/-- `metrop_step_fn` of `_get_mcmc_fns`, train/runners.py:207-211, under `pmap`. Every
device draws from its own key. -/
noncomputable def stepPmap {nd c nelec d : ℕ} (r : Rng K) (uniform : K → Fin c → ℝ)
    (normal : K → Fin c → Pos nelec d) (meanFn : (Fin nd × Fin c → XR) → XR)
    (psi : P → Pos nelec d → XR) (nmoves : ℕ) :
    (Fin nd → P) → PAData (Fin nd × Fin c) (Pos nelec d) (Fin nd → MoveMetadata) →
      (Fin nd → K) →
      XR × PAData (Fin nd × Fin c) (Pos nelec d) (Fin nd → MoveMetadata) × (Fin nd → K) :=
  dynamicStepPmap r.pSplit (fun k w => uniform (k w.1) w.2) (fun k w => normal (k w.1) w.2)
    meanFn (fun p w x => psi (p w.1) x) nmoves (thresholdAdjust 0.5 0.05 0.1) true

/-- What the setup reads from the configuration and from the libraries.  `kfac` says whether
the optimizer is KFAC, the only one that takes a key when it is created
(updates/parse_config.py:259-261). -/
structure Inputs (K P : Type) (m nelec d : ℕ) where
  rng : Rng K
  draws : InitDraws K nelec (m + 1) d
  ionPos : Fin (m + 1) → Fin d → ℝ
  charges : Fin (m + 1) → ℝ
  nchains : ℕ
  stdMove : ℝ
  /-- `slog_psi.init(subkey, init_pos[0:1])`; only the first chain is passed. -/
  modelInit : K → List (Pos nelec d) → P
  psi : P → Pos nelec d → XR
  kfac : Bool

/-- Creation of the optimizer, updates/parse_config.py:104-216: KFAC splits the key
(parse_config.py:259), the others return it unchanged. -/
def initOptimizer {K' P' D : Type} (split : K' → K' × K') (kfac : Bool)
    (create : Option K' → P' → D → S) (params : P') (data : D) (key : K') : S × K' :=
  if kfac then
    let ks := split key
    (create (some ks.2) params data, ks.1)
  else (create none params data, key)

/-- Positions, parameters and key after the first two steps of `_setup_vmc`,
train/runners.py:380-395 and 109-117. -/
noncomputable def setupModel {m nelec d : ℕ} (inp : Inputs K P m nelec d) (key : K) :
    (Fin inp.nchains → Pos nelec d) × P × K :=
  let kp := initializeMolecularPos inp.rng inp.draws key inp.nchains inp.ionPos inp.charges 1
  let ks := inp.rng.split kp.1
  (kp.2, inp.modelInit ks.2 ((List.ofFn kp.2).take 1), ks.1)

/-- The state returned by `_setup_vmc` without `pmap`, train/runners.py:361-442. -/
noncomputable def setupSingle {m nelec d : ℕ} (inp : Inputs K P m nelec d)
    (create : Option K → P → PAData (Fin inp.nchains) (Pos nelec d) MoveMetadata → S)
    (key : K) : Core P (PAData (Fin inp.nchains) (Pos nelec d) MoveMetadata) S K :=
  let mp := setupModel inp key
  let data := initialSingle inp.psi inp.stdMove mp.1 mp.2.1
  let ok := initOptimizer inp.rng.split inp.kfac create mp.2.1 data mp.2.2
  ⟨mp.2.1, data, ok.1, ok.2⟩

/-- The state returned by `_setup_vmc` with `pmap` over `nd` devices,
train/runners.py:361-442. -/
noncomputable def setupPmap {m nelec d : ℕ} (inp : Inputs K P m nelec d) (process nd : ℕ)
    (create : Option (Fin nd → K) → (Fin nd → P) →
      PAData (Fin nd × Fin (inp.nchains / nd)) (Pos nelec d) (Fin nd → MoveMetadata) → S)
    (key : K) : Except String (Core (Fin nd → P)
      (PAData (Fin nd × Fin (inp.nchains / nd)) (Pos nelec d) (Fin nd → MoveMetadata)) S
      (Fin nd → K)) := do
  let mp := setupModel inp key
  let params : Fin nd → P := fun _ => mp.2.1
  let data ← initialDistributed nd inp.psi inp.stdMove mp.1 params
  let keys := differentKeys inp.rng process nd mp.2.2
  let ok := initOptimizer inp.rng.pSplit inp.kfac create params data keys
  return ⟨params, data, ok.1, ok.2⟩

/-- `_make_new_data_for_eval` without `pmap`, train/runners.py:486-522; `inp` holds the
entries of `config.eval`. -/
noncomputable def evalDataSingle {m nelec d : ℕ} (inp : Inputs K P m nelec d) (params : P)
    (key : K) : K × PAData (Fin inp.nchains) (Pos nelec d) MoveMetadata :=
  let kp := initializeMolecularPos inp.rng inp.draws key inp.nchains inp.ionPos inp.charges 1
  (kp.1, initialSingle inp.psi inp.stdMove kp.2 params)

/-- `_make_new_data_for_eval` with `pmap` over `nd + 1` devices,
train/runners.py:486-522. -/
noncomputable def evalDataPmap {m nelec d : ℕ} (inp : Inputs K P m nelec d) (process nd : ℕ)
    (params : Fin (nd + 1) → P) (keys : Fin (nd + 1) → K) :
    Except String ((Fin (nd + 1) → K) ×
      PAData (Fin (nd + 1) × Fin (inp.nchains / (nd + 1))) (Pos nelec d)
        (Fin (nd + 1) → MoveMetadata)) := do
  let kp := initializeMolecularPos inp.rng inp.draws (firstKey keys) inp.nchains inp.ionPos
    inp.charges 1
  let newKeys := differentKeys inp.rng process (nd + 1) kp.1
  let data ← initialDistributed (nd + 1) inp.psi inp.stdMove kp.2 params
  return (newKeys, data)

/-- The evaluation loop: `eval_walker_fn` and `eval_update_param_fn` of `_setup_eval`,
train/runners.py:461-483, for a local energy without randomness (updates/params.py:246-266
with `use_PRNGKey` false); `stats` computes the metrics. -/
noncomputable def evalFns {D : Type} (nsteps : ℕ) (step : P → D → K → XR × D × K)
    (stats : P → D → Metrics) : LoopFns P D Unit K where
  walker := fun p d k => walkData nsteps p d k step
  update := fun p d s k => (p, d, s, some (stats p d), k)

/-- `_get_dtype`, train/runners.py:75-87: width of the floats and whether 64-bit mode is
enabled. -/
def getDtype (name : String) : Except String (ℕ × Bool) :=
  if name = "float32" then .ok (32, false)
  else if name = "float64" then .ok (64, true)
  else .error ("dtype other than float32, float64 not supported; " ++ name ++ " was requested")

end Verif.Setup
