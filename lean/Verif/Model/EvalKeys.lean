import Verif.Model.Setup

/-!
Model of the evaluation loop with attention to the shape of the key: `use_PRNGKey` of
`create_eval_update_param_fn` (vmcnet/updates/params.py).
-/

namespace Verif.Setup

/-- A value passed where a key is expected: one key, or an array of keys. -/
inductive KeyArr (K : Type) where
  | one (k : K)
  | many {n : ℕ} (ks : Fin n → K)

variable {K P D E : Type}

/-- `jax.random.split(key, n)` (jax 0.4.14): an array of keys is refused with a `TypeError`. -/
def KeyArr.children (r : Rng K) : KeyArr K → (n : ℕ) → Except String (Fin n → K)
  | .one k, n => .ok (r.children k n)
  | .many _, _ => .error "split accepts a single key, but was given a key array"

/-- A Metropolis step, mcmc/metropolis.py:60-65: it begins by splitting the key. -/
def stepArr (step : P → D → K → XR × D × K) (p : P) (d : D) :
    KeyArr K → Except String (D × KeyArr K)
  | .one k =>
    let out := step p d k
    .ok (out.2.1, .one out.2.2)
  | .many _ => .error "split accepts a single key, but was given a key array"

/-- `walk_data`, mcmc/metropolis.py:70-114, without the acceptance ratio. -/
def walkArr (step : P → D → K → XR × D × K) (p : P) : ℕ → D × KeyArr K →
    Except String (D × KeyArr K)
  | 0, s => .ok s
  | n + 1, s => do
    let s' ← stepArr step p s.1 s.2
    walkArr step p n s'

/-- `eval_update_param_fn`, updates/params.py:246-266: the local energies of the `nbatch`
walkers, and the returned key.  With `use_PRNGKey` the name `key` is reused for the array of
the walkers' keys, and this array is returned. -/
def evalUpdate (r : Rng K) (useKey : Bool) {nbatch : ℕ}
    (localEnergy : P → D → Fin nbatch → Option K → E) (p : P) (d : D) (key : KeyArr K) :
    Except String ((Fin nbatch → E) × KeyArr K) :=
  if useKey then do
    let ks ← key.children r nbatch
    return (fun c => localEnergy p d c (some (ks c)), .many ks)
  else .ok (fun c => localEnergy p d c none, key)

/-- `vmc_loop` (train/vmc.py:67-126) on the evaluation functions: in every epoch walk, then
compute local energies.  Metrics and checkpoints are left out.  The rows are the recorded
local energies of the epochs. -/
def evalEpochs (r : Rng K) (useKey : Bool) {nbatch : ℕ} (nsteps : ℕ)
    (step : P → D → K → XR × D × K) (localEnergy : P → D → Fin nbatch → Option K → E) (p : P) :
    ℕ → D × KeyArr K → Except String (List (Fin nbatch → E))
  | 0, _ => .ok []
  | n + 1, s => do
    let w ← walkArr step p nsteps s
    let u ← evalUpdate r useKey localEnergy p w.1 w.2
    let rest ← evalEpochs r useKey nsteps step localEnergy p n (w.1, u.2)
    return u.1 :: rest

/-- The evaluation as set up by `_setup_eval`, train/runners.py:461-483: `use_PRNGKey` is set
for the type `random_particle`. -/
def runEvaluation (r : Rng K) (localEnergyType : String) {nbatch : ℕ} (nsteps nepochs : ℕ)
    (step : P → D → K → XR × D × K) (localEnergy : P → D → Fin nbatch → Option K → E) (p : P)
    (d : D) (key : K) : Except String (List (Fin nbatch → E)) :=
  evalEpochs r (decide (localEnergyType = "random_particle")) nsteps step localEnergy p nepochs
    (d, .one key)

end Verif.Setup
