import Verif.Model.Setup
import Verif.Spec.Runner
import Verif.Spec.Metropolis

/-!
Vocabulary for the use of random keys: which key is used where, and what a run looks like
when the random arrays are simply given, without any key being passed around.
-/

namespace Verif.Spec

open Verif.MCMC Verif.Setup

section chain
variable {K : Type}

/-- The key carried along after `j` splits. -/
def chainKey (split : K → K × K) (k : K) : ℕ → K
  | 0 => k
  | j + 1 => (split (chainKey split k j)).1

/-- The key handed out by split number `j` (counting from 0). -/
def subKey (split : K → K × K) (k : K) (j : ℕ) : K := (split (chainKey split k j)).2

end chain

/-- Keys as derivation histories.  Two different histories are different keys; this is what
a good generator approximates. -/
inductive Key where
  | seed (n : ℕ)
  | child (k : Key) (n i : ℕ)
  | fold (k : Key) (i : ℕ)
deriving DecidableEq

/-- The generator of derivation histories. -/
def freeRng : Rng Key := ⟨fun k n i => .child k n i, .fold⟩

/-- The places where a training run draws random numbers, after its setup. -/
inductive Draw where
  | burnAccept (i : ℕ)
  | burnMove (i : ℕ)
  | accept (e i : ℕ)
  | move (e i : ℕ)
  | update (e : ℕ)

/-- The draw happens in a run of `nburn` burning steps and epochs of `nsteps` moves; the
parameter update splits the key `upd` times. -/
def Draw.Occurs (nburn nsteps upd : ℕ) : Draw → Prop
  | .burnAccept i => i < nburn
  | .burnMove i => i < nburn
  | .accept _ i => i < nsteps
  | .move _ i => i < nsteps
  | .update _ => 0 < upd

/-- The draw happens before epoch number `n` starts. -/
def Draw.Before (n : ℕ) : Draw → Prop
  | .burnAccept _ => True
  | .burnMove _ => True
  | .accept e _ => e < n
  | .move e _ => e < n
  | .update e => e < n

/-- Number of splits before a draw, in a run whose epochs consist of `nsteps` moves (two
splits each) and `upd` splits for the parameter update. -/
def Draw.slot (nburn nsteps upd : ℕ) : Draw → ℕ
  | .burnAccept i => 2 * i
  | .burnMove i => 2 * i + 1
  | .accept e i => 2 * nburn + e * (2 * nsteps + upd) + 2 * i
  | .move e i => 2 * nburn + e * (2 * nsteps + upd) + 2 * i + 1
  | .update e => 2 * nburn + e * (2 * nsteps + upd) + 2 * nsteps

/-- The places where the setup of a run draws random numbers: the ions of chain `c`, the
displacements of all electrons, the initial parameters, the optimizer state. -/
inductive SetupDraw where
  | ions (c : ℕ)
  | displacements
  | params
  | optimizer

/-- Number of splits before a draw of the setup. -/
def SetupDraw.slot (nchains : ℕ) : SetupDraw → ℕ
  | .ions c => c
  | .displacements => nchains
  | .params => nchains + 1
  | .optimizer => nchains + 2

/-- The numbers which determine the places of the draws of a whole run: setup, training,
fresh walkers for the evaluation, evaluation. -/
structure RunShape where
  nchains : ℕ
  kfac : Bool
  nburn : ℕ
  nsteps : ℕ
  nepochs : ℕ
  evalChains : ℕ
  evalBurn : ℕ
  evalSteps : ℕ

/-- Splits made when the optimizer is created. -/
def RunShape.opt (s : RunShape) : ℕ := if s.kfac then 1 else 0

/-- Splits made from the creation of the optimizer to the end of training. -/
def RunShape.training (s : RunShape) : ℕ :=
  s.opt + (2 * s.nburn + s.nepochs * (2 * s.nsteps + 1))

/-- A draw of a whole run. -/
inductive RunDraw where
  | setup (q : SetupDraw)
  | train (q : Draw)
  | evalSetup (q : SetupDraw)
  | eval (q : Draw)

/-- The draw happens. -/
def RunDraw.Occurs (s : RunShape) : RunDraw → Prop
  | .setup (.ions c) => c < s.nchains
  | .setup .displacements => True
  | .setup .params => True
  | .setup .optimizer => s.kfac = true
  | .train q => q.Occurs s.nburn s.nsteps 1 ∧ q.Before s.nepochs
  | .evalSetup (.ions c) => c < s.evalChains
  | .evalSetup .displacements => True
  | .evalSetup .params => False
  | .evalSetup .optimizer => False
  | .eval q => q.Occurs s.evalBurn s.evalSteps 0

/-- Number of splits before a draw in a run on one device. -/
def RunDraw.slot (s : RunShape) : RunDraw → ℕ
  | .setup q => q.slot s.nchains
  | .train q => s.nchains + 2 + (s.opt + q.slot s.nburn s.nsteps 1)
  | .evalSetup q => s.nchains + 2 + (s.training + q.slot s.evalChains)
  | .eval q => s.nchains + 2 + (s.training + (s.evalChains + 1 +
      q.slot s.evalBurn s.evalSteps 0))

/-- The key of device `dev` after the keys are made different, for the key `k`. -/
def deviceKey {K : Type} (r : Rng K) (process nd : ℕ) (k : K) (dev : Fin nd) : K :=
  r.children (r.foldIn k process) nd dev

/-- The key a draw uses on device `dev` in a run on several devices (`nd + 1` of them).  The
draws of the setup and of the fresh walkers happen once, not on every device. -/
def RunDraw.deviceKey {K : Type} (r : Rng K) (process nd : ℕ) (s : RunShape) (seed : K)
    (dev : Fin (nd + 1)) : RunDraw → K
  | .setup .optimizer =>
    subKey r.split (Spec.deviceKey r process (nd + 1) (chainKey r.split seed (s.nchains + 2)) dev) 0
  | .setup q => subKey r.split seed (q.slot s.nchains)
  | .train q =>
    subKey r.split (Spec.deviceKey r process (nd + 1) (chainKey r.split seed (s.nchains + 2)) dev)
      (s.opt + q.slot s.nburn s.nsteps 1)
  | .evalSetup q =>
    subKey r.split (Spec.deviceKey r process (nd + 1) (chainKey r.split seed (s.nchains + 2)) 0)
      (s.training + q.slot s.evalChains)
  | .eval q =>
    subKey r.split (Spec.deviceKey r process (nd + 1)
      (chainKey r.split
        (Spec.deviceKey r process (nd + 1) (chainKey r.split seed (s.nchains + 2)) 0)
        (s.training + (s.evalChains + 1))) dev) (q.slot s.evalBurn s.evalSteps 0)

/-- The draw happens on every device, with different keys. -/
def RunDraw.PerDevice : RunDraw → Prop
  | .setup .optimizer => True
  | .setup _ => False
  | .train _ => True
  | .evalSetup _ => False
  | .eval _ => True

section ideal
variable {P S K W X M : Type} [AddCommGroup X] [Module ℝ X]

open Classical in
/-- One Metropolis move of all walkers with given uniform numbers `u` and displacements `z`:
walker `w` proposes `x + std * z`, and moves if `u` is below the acceptance value. -/
noncomputable def idealMove (acc : XR → XR → XR) (psi : W → X → XR) (std : M → W → ℝ)
    (adapt : M → (W → Prop) → M) (u : W → ℝ) (z : W → X) (d : PAData W X M) : PAData W X M :=
  let x' : W → X := fun w => d.position w + std d.moveMetadata w • z w
  let moves : W → Prop := fun w => XR.lt (.fin (u w)) (acc (d.amplitude w) (psi w (x' w)))
  ⟨fun w => if moves w then x' w else d.position w,
   fun w => if moves w then psi w (x' w) else d.amplitude w,
   adapt d.moveMetadata moves⟩

/-- `n` moves, the `i`-th with the numbers `u i` and `z i`. -/
def idealWalk {D : Type} (move : (W → ℝ) → (W → X) → D → D) (u : ℕ → W → ℝ) (z : ℕ → W → X)
    (d : D) : ℕ → D
  | 0 => d
  | n + 1 => move (u n) (z n) (idealWalk move u z d n)

/-- A training run without keys being passed around: `κ` says which key every draw uses.
Burning, then in every epoch `nsteps` moves, an optimizer step and the recomputation of the
amplitudes. -/
def idealTrain {D : Type} (move : P → (W → ℝ) → (W → X) → D → D)
    (opt : P → D → S → K → P × S × Metrics) (refresh : D → P → D)
    (uniform : K → W → ℝ) (normal : K → W → X) (κ : Draw → K) (nburn nsteps : ℕ)
    (p : P) (d : D) (s : S) : ℕ → P × D × S
  | 0 => (p, idealWalk (move p) (fun i => uniform (κ (.burnAccept i)))
      (fun i => normal (κ (.burnMove i))) d nburn, s)
  | e + 1 =>
    let t := idealTrain move opt refresh uniform normal κ nburn nsteps p d s e
    let d' := idealWalk (move t.1) (fun i => uniform (κ (.accept e i)))
      (fun i => normal (κ (.move e i))) t.2.1 nsteps
    let r := opt t.1 d' t.2.2 (κ (.update e))
    (r.1, refresh d' r.1, r.2.1)

/-- An evaluation without keys being passed around: burning, then `nsteps` moves in every
epoch. -/
def idealEval {D : Type} (move : (W → ℝ) → (W → X) → D → D) (uniform : K → W → ℝ)
    (normal : K → W → X) (κ : Draw → K) (nburn nsteps : ℕ) (d : D) : ℕ → D
  | 0 => idealWalk move (fun i => uniform (κ (.burnAccept i)))
      (fun i => normal (κ (.burnMove i))) d nburn
  | e + 1 => idealWalk move (fun i => uniform (κ (.accept e i)))
      (fun i => normal (κ (.move e i)))
      (idealEval move uniform normal κ nburn nsteps d e) nsteps

end ideal

end Verif.Spec
