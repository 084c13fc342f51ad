import Verif.Spec.Keys
import Verif.Lemmas.Metropolis
import Verif.Props.Runner

/-! Properties of the use of random keys in a run. -/

namespace Verif.Props

open Verif.MCMC Verif.Setup Verif.Spec

section chain
variable {K : Type} (split : K → K × K)

theorem chainKey_add (k : K) (a b : ℕ) :
    chainKey split (chainKey split k a) b = chainKey split k (a + b) := by
  induction b with
  | zero => rfl
  | succ b ih => rw [← Nat.add_assoc]; simp only [chainKey, ih]

theorem subKey_chainKey (k : K) (a b : ℕ) :
    subKey split (chainKey split k a) b = subKey split k (a + b) := by
  simp only [subKey, chainKey_add]

end chain

section run
variable {P S K W X M : Type} [AddCommGroup X] [Module ℝ X]
variable (split : K → K × K) (uniform : K → W → ℝ) (normal : K → W → X)
variable (meanFn : (W → XR) → XR) (psi : P → W → X → XR) (std : M → W → ℝ)
variable (adapt : M → (W → Prop) → M) (logabs : Bool)

/-- One Metropolis step takes two numbers from the chain of keys: the displacement from the
second, the acceptance from the first. -/
theorem step_draws (p : P) (d : PAData W X M) (k : K) :
    let step := paStep split uniform normal meanFn psi (fun d => std d.moveMetadata)
      (some adapt) logabs
    (step p d k).2 = (idealMove (accept logabs) (psi p) std adapt (uniform (subKey split k 0))
      (normal (subKey split k 1)) d, chainKey split k 2) := rfl

/-- Any number of steps. -/
theorem steps_draws (p : P) (d : PAData W X M) (k : K) (n : ℕ) :
    let step := paStep split uniform normal meanFn psi (fun d => std d.moveMetadata)
      (some adapt) logabs
    iterSteps step p n (d, k) = (idealWalk (idealMove (accept logabs) (psi p) std adapt)
      (fun i => uniform (subKey split k (2 * i))) (fun i => normal (subKey split k (2 * i + 1)))
      d n, chainKey split k (2 * n)) := by
  intro step
  induction n with
  | zero => rfl
  | succ n ih =>
    have h := step_draws split uniform normal meanFn psi std adapt logabs p
      (iterSteps step p n (d, k)).1 (iterSteps step p n (d, k)).2
    simp only [iterSteps]
    rw [show step = paStep split uniform normal meanFn psi (fun d => std d.moveMetadata)
      (some adapt) logabs from rfl] at ih ⊢
    simp only at h
    rw [ih] at h ⊢
    rw [Prod.ext_iff] at h
    rw [Prod.ext_iff]
    refine ⟨h.1.trans ?_, h.2.trans ?_⟩
    · simp only [idealWalk, subKey_chainKey, Nat.add_zero]
    · simp only [chainKey_add]; congr 1

theorem burned_draws (c : Core P (PAData W X M) S K) (nburn : ℕ) :
    let step := paStep split uniform normal meanFn psi (fun d => std d.moveMetadata)
      (some adapt) logabs
    burned (burningStep step) c nburn = ⟨c.params,
      idealWalk (idealMove (accept logabs) (psi c.params) std adapt)
        (fun i => uniform (subKey split c.key (2 * i)))
        (fun i => normal (subKey split c.key (2 * i + 1))) c.data nburn,
      c.opt, chainKey split c.key (2 * nburn)⟩ := by
  intro step
  have h := steps_draws split uniform normal meanFn psi std adapt logabs c.params c.data c.key
    nburn
  rw [← burnData_eq_burned, burn_iterSteps]
  simp only at h
  rw [show step = paStep split uniform normal meanFn psi (fun d => std d.moveMetadata)
    (some adapt) logabs from rfl, h]

/-- Training with keys is training with given random arrays: every draw uses its own
position in the chain of split keys. -/
theorem training_draws (optStep : P → PAData W X M → S → K → P × S × Metrics)
    (c : Core P (PAData W X M) S K) (nburn nsteps e : ℕ) :
    let step := paStep split uniform normal meanFn psi (fun d => std d.moveMetadata)
      (some adapt) logabs
    let out := traj (trainFns nsteps step split optStep psi)
      (burned (burningStep step) c nburn) e
    (out.params, out.data, out.opt) =
      idealTrain (fun p => idealMove (accept logabs) (psi p) std adapt) optStep
        (fun d p => ⟨d.position, fun w => psi p w (d.position w), d.moveMetadata⟩)
        uniform normal (fun q => subKey split c.key (q.slot nburn nsteps 1)) nburn nsteps
        c.params c.data c.opt e ∧
    out.key = chainKey split c.key (2 * nburn + e * (2 * nsteps + 1)) := by
  intro step
  induction e with
  | zero =>
    have h := burned_draws (S := S) split uniform normal meanFn psi std adapt logabs c nburn
    simp only at h
    simp only [traj, idealTrain]
    rw [show step = paStep split uniform normal meanFn psi (fun d => std d.moveMetadata)
      (some adapt) logabs from rfl, h]
    exact ⟨rfl, by rw [Nat.zero_mul, Nat.add_zero]⟩
  | succ e ih =>
    intro out
    simp only at ih
    obtain ⟨ih, ihk⟩ := ih
    generalize ht : traj (trainFns nsteps step split optStep psi)
      (burned (burningStep step) c nburn) e = t at ih ihk
    have hout : out = coreStep (trainFns nsteps step split optStep psi) t := by
      rw [← ht]; rfl
    have h := steps_draws split uniform normal meanFn psi std adapt logabs t.params t.data
      t.key nsteps
    simp only at h
    have hw : (walkData nsteps t.params t.data t.key step).2 = _ :=
      (walkData_snd step t.params nsteps t.data t.key).trans h
    simp only [coreStep, trainFns, updateParamFn, hw] at hout
    rw [hout]
    simp only [idealTrain, ← ih, updateData]
    rw [ihk]
    simp only [subKey_chainKey, Draw.slot, chainKey_add]
    refine ⟨?_, ?_⟩
    · rfl
    · rw [show 2 * nburn + (e + 1) * (2 * nsteps + 1) =
        (2 * nburn + e * (2 * nsteps + 1) + 2 * nsteps) + 1 by ring]
      rfl

/-- Evaluation with keys is evaluation with given random arrays. -/
theorem evaluation_draws (stats : P → PAData W X M → Metrics)
    (c : Core P (PAData W X M) Unit K) (nburn nsteps e : ℕ) :
    let step := paStep split uniform normal meanFn psi (fun d => std d.moveMetadata)
      (some adapt) logabs
    let out := traj (evalFns nsteps step stats) (burned (burningStep step) c nburn) e
    out.params = c.params ∧
    out.data = idealEval (idealMove (accept logabs) (psi c.params) std adapt)
        uniform normal (fun q => subKey split c.key (q.slot nburn nsteps 0)) nburn nsteps
        c.data e ∧
    out.key = chainKey split c.key (2 * nburn + e * (2 * nsteps)) := by
  intro step
  induction e with
  | zero =>
    have h := burned_draws (S := Unit) split uniform normal meanFn psi std adapt logabs c nburn
    simp only at h
    simp only [traj, idealEval]
    rw [show step = paStep split uniform normal meanFn psi (fun d => std d.moveMetadata)
      (some adapt) logabs from rfl, h]
    exact ⟨rfl, rfl, by rw [Nat.zero_mul, Nat.add_zero]⟩
  | succ e ih =>
    intro out
    simp only at ih
    obtain ⟨ihp, ihd, ihk⟩ := ih
    generalize ht : traj (evalFns nsteps step stats)
      (burned (burningStep step) c nburn) e = t at ihp ihd ihk
    have hout : out = coreStep (evalFns nsteps step stats) t := by
      rw [← ht]; rfl
    have h := steps_draws split uniform normal meanFn psi std adapt logabs t.params t.data
      t.key nsteps
    simp only at h
    have hw : (walkData nsteps t.params t.data t.key step).2 = _ :=
      (walkData_snd step t.params nsteps t.data t.key).trans h
    simp only [coreStep, evalFns, hw] at hout
    rw [hout]
    simp only [idealEval, ← ihd, ihp]
    rw [ihk]
    simp only [subKey_chainKey, Draw.slot, chainKey_add, Nat.add_zero]
    refine ⟨trivial, rfl, ?_⟩
    congr 1; ring

/-- Every epoch of an evaluation reports the metrics of the walkers which it has moved. -/
theorem evaluation_records (stats : P → PAData W X M → Metrics)
    (c : Core P (PAData W X M) Unit K) (nburn nsteps e : ℕ) :
    let step := paStep split uniform normal meanFn psi (fun d => std d.moveMetadata)
      (some adapt) logabs
    rawMetrics (evalFns nsteps step stats) (burned (burningStep step) c nburn) e =
      some (stats c.params (idealEval (idealMove (accept logabs) (psi c.params) std adapt)
        uniform normal (fun q => subKey split c.key (q.slot nburn nsteps 0)) nburn nsteps
        c.data (e + 1))) := by
  intro step
  have h0 := (evaluation_draws split uniform normal meanFn psi std adapt logabs stats c nburn
    nsteps e).1
  have h1 := (evaluation_draws split uniform normal meanFn psi std adapt logabs stats c nburn
    nsteps (e + 1)).2.1
  rw [← h1]
  exact congrArg (fun p => some (stats p (traj (evalFns nsteps step stats)
    (burned (burningStep step) c nburn) (e + 1)).data)) h0

/-- The first epoch after ten burning steps reports the walkers after ten steps more. -/
example (stats : P → PAData W X M → Metrics) (c : Core P (PAData W X M) Unit K) :
    let step := paStep split uniform normal meanFn psi (fun d => std d.moveMetadata)
      (some adapt) logabs
    rawMetrics (evalFns 10 step stats) (burned (burningStep step) c 10) 0 =
      some (stats c.params (idealEval (idealMove (accept logabs) (psi c.params) std adapt)
        uniform normal (fun q => subKey split c.key (q.slot 10 10 0)) 10 10 c.data 1)) :=
  evaluation_records split uniform normal meanFn psi std adapt logabs stats c 10 10 0

end run

/-! ### Different draws use different keys -/

theorem mul_add_unique (L e e' a b : ℕ) (ha : a < L) (hb : b < L) (h : e * L + a = e' * L + b) :
    e = e' ∧ a = b := by
  have hL : 0 < L := by omega
  have h1 := congrArg (· / L) h
  simp only [Nat.mul_comm _ L] at h1
  rw [Nat.mul_add_div hL, Nat.mul_add_div hL, Nat.div_eq_of_lt ha, Nat.div_eq_of_lt hb] at h1
  simp only [Nat.add_zero] at h1
  subst h1
  exact ⟨rfl, by omega⟩

/-- Different draws of a run sit at different positions in the chain of keys. -/
theorem slot_injective (nburn nsteps upd : ℕ) (q q' : Draw)
    (hq : q.Occurs nburn nsteps upd) (hq' : q'.Occurs nburn nsteps upd)
    (h : q.slot nburn nsteps upd = q'.slot nburn nsteps upd) : q = q' := by
  have key : ∀ e e' a b : ℕ, a < 2 * nsteps + upd → b < 2 * nsteps + upd →
      2 * nburn + e * (2 * nsteps + upd) + a = 2 * nburn + e' * (2 * nsteps + upd) + b →
      e = e' ∧ a = b := fun e e' a b ha hb h => mul_add_unique _ e e' a b ha hb (by omega)
  have pos : ∀ e a : ℕ, 2 * nburn ≤ 2 * nburn + e * (2 * nsteps + upd) + a :=
    fun e a => by rw [Nat.add_assoc]; exact Nat.le_add_right _ _
  cases q with
  | burnAccept i =>
    cases q' <;> simp only [Draw.slot, Draw.Occurs] at h hq hq'
    case burnAccept => congr 1; omega
    case burnMove => omega
    case accept e j => have := pos e (2 * j); omega
    case move e j => have := pos e (2 * j + 1); omega
    case update e => have := pos e (2 * nsteps); omega
  | burnMove i =>
    cases q' <;> simp only [Draw.slot, Draw.Occurs] at h hq hq'
    case burnAccept => omega
    case burnMove => congr 1; omega
    case accept e j => have := pos e (2 * j); omega
    case move e j => have := pos e (2 * j + 1); omega
    case update e => have := pos e (2 * nsteps); omega
  | accept e i =>
    cases q' <;> simp only [Draw.slot, Draw.Occurs] at h hq hq'
    case burnAccept => have := pos e (2 * i); omega
    case burnMove => have := pos e (2 * i); omega
    case accept e' j =>
      obtain ⟨h1, h2⟩ := key e e' (2 * i) (2 * j) (by omega) (by omega) h
      rw [h1, show i = j by omega]
    case move e' j =>
      obtain ⟨h1, h2⟩ := key e e' (2 * i) (2 * j + 1) (by omega) (by omega) h
      omega
    case update e' =>
      obtain ⟨h1, h2⟩ := key e e' (2 * i) (2 * nsteps) (by omega) (by omega) h
      omega
  | move e i =>
    cases q' <;> simp only [Draw.slot, Draw.Occurs] at h hq hq'
    case burnAccept => have := pos e (2 * i + 1); omega
    case burnMove => have := pos e (2 * i + 1); omega
    case accept e' j =>
      obtain ⟨h1, h2⟩ := key e e' (2 * i + 1) (2 * j) (by omega) (by omega) h
      omega
    case move e' j =>
      obtain ⟨h1, h2⟩ := key e e' (2 * i + 1) (2 * j + 1) (by omega) (by omega) h
      rw [h1, show i = j by omega]
    case update e' =>
      obtain ⟨h1, h2⟩ := key e e' (2 * i + 1) (2 * nsteps) (by omega) (by omega) h
      omega
  | update e =>
    cases q' <;> simp only [Draw.slot, Draw.Occurs] at h hq hq'
    case burnAccept => have := pos e (2 * nsteps); omega
    case burnMove => have := pos e (2 * nsteps); omega
    case accept e' j =>
      obtain ⟨h1, h2⟩ := key e e' (2 * nsteps) (2 * j) (by omega) (by omega) h
      omega
    case move e' j =>
      obtain ⟨h1, h2⟩ := key e e' (2 * nsteps) (2 * j + 1) (by omega) (by omega) h
      omega
    case update e' =>
      obtain ⟨h1, h2⟩ := key e e' (2 * nsteps) (2 * nsteps) (by omega) (by omega) h
      rw [h1]

/-- Draws before an epoch sit before the draws of that epoch. -/
theorem slot_lt (nburn nsteps upd n : ℕ) (q : Draw) (hq : q.Occurs nburn nsteps upd)
    (hn : q.Before n) :
    q.slot nburn nsteps upd < 2 * nburn + n * (2 * nsteps + upd) := by
  have key : ∀ e a : ℕ, e < n → a < 2 * nsteps + upd →
      2 * nburn + e * (2 * nsteps + upd) + a < 2 * nburn + n * (2 * nsteps + upd) := by
    intro e a he ha
    have : (e + 1) * (2 * nsteps + upd) ≤ n * (2 * nsteps + upd) := Nat.mul_le_mul_right _ he
    rw [Nat.add_mul, Nat.one_mul] at this
    omega
  cases q <;> simp only [Draw.slot, Draw.Occurs, Draw.Before] at hq hn ⊢
  case burnAccept i => exact Nat.lt_of_lt_of_le (by omega) (Nat.le_add_right _ _)
  case burnMove i => exact Nat.lt_of_lt_of_le (by omega) (Nat.le_add_right _ _)
  case accept e i => exact key e _ hn (by omega)
  case move e i => exact key e (2 * i + 1) hn (by omega)
  case update e => exact key e _ hn (by omega)

/-- Number of derivation steps of a key. -/
def keyDepth : Key → ℕ
  | .seed _ => 0
  | .child k _ _ => keyDepth k + 1
  | .fold k _ => keyDepth k + 1

theorem depth_chainKey (k : Key) (j : ℕ) :
    keyDepth (chainKey freeRng.split k j) = keyDepth k + j := by
  induction j with
  | zero => rfl
  | succ j ih =>
    show keyDepth (chainKey freeRng.split k j) + 1 = _
    rw [ih]; rfl

theorem depth_subKey (k : Key) (j : ℕ) :
    keyDepth (subKey freeRng.split k j) = keyDepth k + j + 1 := by
  show keyDepth (chainKey freeRng.split k j) + 1 = _
  rw [depth_chainKey]

theorem chainKey_left_injective (k k' : Key) (j : ℕ)
    (h : chainKey freeRng.split k j = chainKey freeRng.split k' j) : k = k' := by
  induction j with
  | zero => exact h
  | succ j ih => exact ih (Key.child.inj h).1

/-- Keys handed out at different places of the chain are different, also from all keys
which are carried along. -/
theorem subKey_distinct (k : Key) (i j : ℕ) :
    (subKey freeRng.split k i = subKey freeRng.split k j ↔ i = j) ∧
      subKey freeRng.split k i ≠ chainKey freeRng.split k j := by
  constructor
  · constructor
    · intro h
      have := congrArg keyDepth h
      rw [depth_subKey, depth_subKey] at this
      omega
    · rintro rfl; rfl
  · intro h
    cases j with
    | zero =>
      have := congrArg keyDepth h
      rw [depth_subKey] at this
      simp only [chainKey] at this
      omega
    | succ j =>
      have := (Key.child.inj h).2.2
      exact absurd this (by decide)

/-! ### Whole runs -/

theorem splitLoop_eq {K A : Type} (r : Rng K) (f : K → A) (n : ℕ) (k : K) :
    splitLoop r f n k = (chainKey r.split k n, fun c : Fin n => f (subKey r.split k c)) := by
  have hsucc : ∀ (k : K) (j : ℕ), chainKey r.split k (j + 1) =
      chainKey r.split (r.split k).1 j := fun k j => by
    have := chainKey_add r.split k 1 j
    rw [Nat.add_comm] at this
    exact this.symm
  induction n generalizing k with
  | zero =>
    simp only [splitLoop, chainKey]
    congr 1
    funext c; exact c.elim0
  | succ n ih =>
    simp only [splitLoop]
    rw [ih, hsucc]
    congr 1
    funext c
    refine Fin.cases ?_ (fun c => ?_) c
    · rfl
    · simp only [Fin.cons_succ, subKey, Fin.val_succ, hsucc]

/-- The initial positions of chain `c` use key number `c` for the ions and key number
`nchains` for the displacements. -/
theorem initial_positions_draws {K : Type} {m nelec d : ℕ} (r : Rng K)
    (draws : InitDraws K nelec (m + 1) d) (key : K) (nchains : ℕ)
    (ionPos : Fin (m + 1) → Fin d → ℝ) (charges : Fin (m + 1) → ℝ) (width : ℝ) :
    initializeMolecularPos r draws key nchains ionPos charges width =
      (chainKey r.split key (nchains + 1), fun (c : Fin nchains) e k =>
        takeRow ionPos (assignIons draws charges (subKey r.split key c) e) k +
          width * draws.normal (subKey r.split key nchains) nchains c e k) := by
  simp only [initializeMolecularPos, splitLoop_eq]
  rfl

/-- Positions of the ions chosen by the electrons of a chain from a key. -/
noncomputable def ionsFrom {K P : Type} {m nelec d : ℕ} (inp : Inputs K P m nelec d) (k : K) :
    Pos nelec d := fun e => takeRow inp.ionPos (assignIons inp.draws inp.charges k e)

/-- A run on one device, from the seed to the end of the evaluation, is the run in which
draw `q` uses key number `q.slot` of the chain. -/
theorem single_run_draws {K P S : Type} {m nelec d : ℕ} (inp ev : Inputs K P m nelec d)
    (hr : ev.rng = inp.rng) (seed : K)
    (create : Option K → P → PAData (Fin inp.nchains) (Pos nelec d) MoveMetadata → S)
    (uniform : K → Fin inp.nchains → ℝ) (normal : K → Fin inp.nchains → Pos nelec d)
    (meanFn : (Fin inp.nchains → XR) → XR) (nmoves : ℕ)
    (optStep : P → PAData (Fin inp.nchains) (Pos nelec d) MoveMetadata → S → K →
      P × S × Metrics)
    (evUniform : K → Fin ev.nchains → ℝ) (evNormal : K → Fin ev.nchains → Pos nelec d)
    (evMean : (Fin ev.nchains → XR) → XR) (evMoves : ℕ)
    (stats : P → PAData (Fin ev.nchains) (Pos nelec d) MoveMetadata → Metrics)
    (s : RunShape) (hs : s.nchains = inp.nchains) (hk : s.kfac = inp.kfac)
    (he : s.evalChains = ev.nchains) (e e' : ℕ) :
    let κ : RunDraw → K := fun q => subKey inp.rng.split seed (q.slot s)
    let start := setupSingle inp create seed
    let step := stepSingle inp.rng uniform normal meanFn inp.psi nmoves
    let fns := trainFns s.nsteps step inp.rng.split optStep fun p _ x => inp.psi p x
    let trained := fun e => traj fns (burned (burningStep step) start s.nburn) e
    let fresh := evalDataSingle ev (trained s.nepochs).params (trained s.nepochs).key
    let evStep := stepSingle ev.rng evUniform evNormal evMean ev.psi evMoves
    let evaluated := traj (evalFns s.evalSteps evStep stats)
      (burned (burningStep evStep) ⟨(trained s.nepochs).params, fresh.2, (), fresh.1⟩
        s.evalBurn) e'
    start.data.position = (fun (c : Fin inp.nchains) i k => ionsFrom inp (κ (.setup (.ions c))) i k +
      inp.draws.normal (κ (.setup .displacements)) inp.nchains c i k) ∧
    start.params = inp.modelInit (κ (.setup .params))
      ((List.ofFn start.data.position).take 1) ∧
    start.opt = create (if inp.kfac then some (κ (.setup .optimizer)) else none)
      start.params start.data ∧
    ((trained e).params, (trained e).data, (trained e).opt) =
      idealTrain (fun p => idealMove (accept true) (fun _ => inp.psi p) (fun md _ => md.stdMove)
          fun md mask => updateMoveMetadata nmoves (thresholdAdjust 0.5 0.05 0.1) md
            (maskMean mask)) optStep
        (fun d p => ⟨d.position, fun w => inp.psi p (d.position w), d.moveMetadata⟩)
        uniform normal (fun q => κ (.train q)) s.nburn s.nsteps
        start.params start.data start.opt e ∧
    fresh.2.position = (fun (c : Fin ev.nchains) i k => ionsFrom ev (κ (.evalSetup (.ions c))) i k +
      ev.draws.normal (κ (.evalSetup .displacements)) ev.nchains c i k) ∧
    evaluated.data =
      idealEval (idealMove (accept true) (fun _ => ev.psi (trained s.nepochs).params)
          (fun md _ => md.stdMove) fun md mask => updateMoveMetadata evMoves
            (thresholdAdjust 0.5 0.05 0.1) md (maskMean mask))
        evUniform evNormal (fun q => κ (.eval q)) s.evalBurn s.evalSteps fresh.2 e' := by
  intro κ start step fns trained fresh evStep evaluated
  have hkey : start.key = chainKey inp.rng.split seed (inp.nchains + 2 + s.opt) := by
    show (initOptimizer inp.rng.split inp.kfac create _ _
      (inp.rng.split (initializeMolecularPos inp.rng inp.draws seed inp.nchains inp.ionPos
        inp.charges 1).1).1).2 = _
    rw [initial_positions_draws]
    unfold RunShape.opt
    rw [hk]
    cases inp.kfac <;> rfl
  have htr : ∀ e, _ := fun e => training_draws (S := S) inp.rng.split uniform normal meanFn
    (fun p (_ : Fin inp.nchains) x => inp.psi p x) (fun (md : MoveMetadata) _ => md.stdMove)
    (fun md mask => updateMoveMetadata nmoves (thresholdAdjust 0.5 0.05 0.1) md (maskMean mask))
    true optStep start s.nburn s.nsteps e
  have hpos : start.data.position = (initializeMolecularPos inp.rng inp.draws seed inp.nchains
      inp.ionPos inp.charges 1).2 := rfl
  have hend : (trained s.nepochs).key =
      chainKey inp.rng.split seed (s.nchains + 2 + s.training) := by
    refine ((htr s.nepochs).2).trans ?_
    rw [hkey, chainKey_add, hs]
    congr 1
    simp only [RunShape.training]; omega
  refine ⟨?_, ?_, ?_, ?_, ?_, ?_⟩
  · rw [hpos, initial_positions_draws]
    funext c i k
    simp only [one_mul, κ, RunDraw.slot, SetupDraw.slot, ionsFrom, hs]
  · show inp.modelInit (inp.rng.split (initializeMolecularPos inp.rng inp.draws seed
      inp.nchains inp.ionPos inp.charges 1).1).2 _ = _
    rw [initial_positions_draws]
    simp only [κ, RunDraw.slot, SetupDraw.slot, hs]
    rw [hpos, initial_positions_draws]
    rfl
  · show (initOptimizer inp.rng.split inp.kfac create start.params start.data
      (inp.rng.split (initializeMolecularPos inp.rng inp.draws seed inp.nchains inp.ionPos
        inp.charges 1).1).1).1 = _
    rw [initial_positions_draws]
    simp only [κ, RunDraw.slot, SetupDraw.slot, hs, initOptimizer]
    cases inp.kfac <;> rfl
  · refine ((htr e).1).trans ?_
    rw [hkey]
    simp only [subKey_chainKey, κ, RunDraw.slot, hs, Nat.add_assoc]
  · show (initializeMolecularPos ev.rng ev.draws (trained s.nepochs).key ev.nchains ev.ionPos
      ev.charges 1).2 = _
    rw [initial_positions_draws, hend, hr]
    funext c i k
    simp only [one_mul, κ, RunDraw.slot, SetupDraw.slot, ionsFrom, subKey_chainKey, he,
      Nat.add_assoc]
  · have h := (evaluation_draws ev.rng.split evUniform evNormal evMean
      (fun p (_ : Fin ev.nchains) x => ev.psi p x) (fun (md : MoveMetadata) _ => md.stdMove)
      (fun md mask => updateMoveMetadata evMoves (thresholdAdjust 0.5 0.05 0.1) md
        (maskMean mask)) true stats
      ⟨(trained s.nepochs).params, fresh.2, (), fresh.1⟩ s.evalBurn s.evalSteps e').2.1
    refine h.trans ?_
    have hf : fresh.1 = chainKey inp.rng.split seed
        (s.nchains + 2 + (s.training + (ev.nchains + 1))) := by
      show (initializeMolecularPos ev.rng ev.draws (trained s.nepochs).key ev.nchains ev.ionPos
        ev.charges 1).1 = _
      rw [initial_positions_draws, hend, hr]
      rw [chainKey_add]
      simp only [Nat.add_assoc]
    simp only [hf, hr, subKey_chainKey, κ, RunDraw.slot, he, Nat.add_assoc]

theorem row_lt {n nd : ℕ} (w : Fin nd × Fin (n / nd)) : (w.1 : ℕ) * (n / nd) + w.2 < n := by
  have h1 : (w.1 : ℕ) + 1 ≤ nd := w.1.2
  have h2 := w.2.2
  calc (w.1 : ℕ) * (n / nd) + w.2 < w.1 * (n / nd) + n / nd := by omega
    _ = (w.1 + 1) * (n / nd) := by ring
    _ ≤ nd * (n / nd) := Nat.mul_le_mul_right _ h1
    _ ≤ n := Nat.mul_div_le n nd

theorem chainKey_pSplit {K : Type} (r : Rng K) {nd : ℕ} (keys : Fin nd → K) (j : ℕ) :
    chainKey r.pSplit keys j = fun dev => chainKey r.split (keys dev) j := by
  induction j with
  | zero => rfl
  | succ j ih => simp only [chainKey, ih]; rfl

theorem subKey_pSplit {K : Type} (r : Rng K) {nd : ℕ} (keys : Fin nd → K) (j : ℕ) :
    subKey r.pSplit keys j = fun dev => subKey r.split (keys dev) j := by
  simp only [subKey, chainKey_pSplit]; rfl

/-- A run on `nd + 1` devices, from the seed to the end of the evaluation, is the run in
which draw `q` on device `dev` uses the key `q.deviceKey`.  It starts exactly if the number of
devices divides the numbers of chains. -/
theorem pmap_run_draws {K P S : Type} {m nelec d : ℕ} (inp ev : Inputs K P m nelec d)
    (hr : ev.rng = inp.rng) (seed : K) (process nd : ℕ)
    (create : Option (Fin (nd + 1) → K) → (Fin (nd + 1) → P) →
      PAData (Fin (nd + 1) × Fin (inp.nchains / (nd + 1))) (Pos nelec d)
        (Fin (nd + 1) → MoveMetadata) → S)
    (uniform : K → Fin (inp.nchains / (nd + 1)) → ℝ)
    (normal : K → Fin (inp.nchains / (nd + 1)) → Pos nelec d)
    (meanFn : (Fin (nd + 1) × Fin (inp.nchains / (nd + 1)) → XR) → XR) (nmoves : ℕ)
    (optStep : (Fin (nd + 1) → P) →
      PAData (Fin (nd + 1) × Fin (inp.nchains / (nd + 1))) (Pos nelec d)
        (Fin (nd + 1) → MoveMetadata) → S → (Fin (nd + 1) → K) →
      (Fin (nd + 1) → P) × S × Metrics)
    (evUniform : K → Fin (ev.nchains / (nd + 1)) → ℝ)
    (evNormal : K → Fin (ev.nchains / (nd + 1)) → Pos nelec d)
    (evMean : (Fin (nd + 1) × Fin (ev.nchains / (nd + 1)) → XR) → XR) (evMoves : ℕ)
    (stats : (Fin (nd + 1) → P) → PAData (Fin (nd + 1) × Fin (ev.nchains / (nd + 1)))
      (Pos nelec d) (Fin (nd + 1) → MoveMetadata) → Metrics)
    (s : RunShape) (hs : s.nchains = inp.nchains) (hk : s.kfac = inp.kfac)
    (he : s.evalChains = ev.nchains) (hdiv : (nd + 1) ∣ inp.nchains)
    (hdivE : (nd + 1) ∣ ev.nchains) (e e' : ℕ) :
    let κ : RunDraw → Fin (nd + 1) → K := fun q dev =>
      q.deviceKey inp.rng process nd s seed dev
    let adapt : ℕ → (c : ℕ) → (Fin (nd + 1) → MoveMetadata) →
        (Fin (nd + 1) × Fin c → Prop) → Fin (nd + 1) → MoveMetadata := fun n _ md mask dev =>
      updateMoveMetadata n (thresholdAdjust 0.5 0.05 0.1) (md dev)
        ((∑ a : Fin (nd + 1), maskMean fun b => mask (a, b)) / ((nd + 1 : ℕ) : ℝ))
    ∃ start, setupPmap inp process (nd + 1) create seed = .ok start ∧
    start.data.position = (fun w i k =>
      ionsFrom inp (κ (.setup (.ions (w.1 * (inp.nchains / (nd + 1)) + w.2))) 0) i k +
      inp.draws.normal (κ (.setup .displacements) 0) inp.nchains
        ⟨w.1 * (inp.nchains / (nd + 1)) + w.2, row_lt w⟩ i k) ∧
    start.params = (fun _ => inp.modelInit (κ (.setup .params) 0)
      ((List.ofFn fun (c : Fin inp.nchains) i k =>
        ionsFrom inp (κ (.setup (.ions c)) 0) i k +
          inp.draws.normal (κ (.setup .displacements) 0) inp.nchains c i k).take 1)) ∧
    start.opt = create (if inp.kfac then some (κ (.setup .optimizer)) else none)
      start.params start.data ∧
    (let step := stepPmap inp.rng uniform normal meanFn inp.psi nmoves
     let fns := trainFns s.nsteps step inp.rng.pSplit optStep fun p w x => inp.psi (p w.1) x
     let trained := fun e => traj fns (burned (burningStep step) start s.nburn) e
     ((trained e).params, (trained e).data, (trained e).opt) =
      idealTrain (fun p => idealMove (accept true) (fun w => inp.psi (p w.1))
          (fun md w => (md w.1).stdMove) (adapt nmoves _)) optStep
        (fun d p => ⟨d.position, fun w => inp.psi (p w.1) (d.position w), d.moveMetadata⟩)
        (fun k w => uniform (k w.1) w.2) (fun k w => normal (k w.1) w.2)
        (fun q => κ (.train q)) s.nburn s.nsteps start.params start.data start.opt e ∧
     ∃ fresh, evalDataPmap ev process nd (trained s.nepochs).params (trained s.nepochs).key =
        .ok fresh ∧
      fresh.2.position = (fun w i k =>
        ionsFrom ev (κ (.evalSetup (.ions (w.1 * (ev.nchains / (nd + 1)) + w.2))) 0) i k +
        ev.draws.normal (κ (.evalSetup .displacements) 0) ev.nchains
          ⟨w.1 * (ev.nchains / (nd + 1)) + w.2, row_lt w⟩ i k) ∧
      (traj (evalFns s.evalSteps (stepPmap ev.rng evUniform evNormal evMean ev.psi evMoves)
          stats) (burned (burningStep (stepPmap ev.rng evUniform evNormal evMean ev.psi evMoves))
        ⟨(trained s.nepochs).params, fresh.2, (), fresh.1⟩ s.evalBurn) e').data =
      idealEval (idealMove (accept true) (fun w => ev.psi ((trained s.nepochs).params w.1))
          (fun md w => (md w.1).stdMove) (adapt evMoves _))
        (fun k w => evUniform (k w.1) w.2) (fun k w => evNormal (k w.1) w.2)
        (fun q => κ (.eval q)) s.evalBurn s.evalSteps fresh.2 e') := by
  intro κ adapt
  have hmod : inp.nchains % (nd + 1) = 0 := Nat.mod_eq_zero_of_dvd hdiv
  have hmodE : ev.nchains % (nd + 1) = 0 := Nat.mod_eq_zero_of_dvd hdivE
  set mp := setupModel inp seed with hmp
  set rows : Fin (nd + 1) × Fin (inp.nchains / (nd + 1)) → Pos nelec d :=
    fun w => mp.1 ⟨w.1 * (inp.nchains / (nd + 1)) + w.2, row_lt w⟩ with hrows
  set data : PAData (Fin (nd + 1) × Fin (inp.nchains / (nd + 1))) (Pos nelec d)
      (Fin (nd + 1) → MoveMetadata) :=
    initialData (fun (p : Fin (nd + 1) → P) w x => inp.psi (p w.1) x) rows (fun _ => mp.2.1)
      fun _ => ⟨inp.stdMove, 0, 0⟩ with hdata
  set keys := differentKeys inp.rng process (nd + 1) mp.2.2 with hkeys
  set ok := initOptimizer inp.rng.pSplit inp.kfac create (fun _ => mp.2.1) data keys with hok
  have hmp1 : mp.1 = fun (c : Fin inp.nchains) i k => ionsFrom inp (subKey inp.rng.split seed c) i k +
      inp.draws.normal (subKey inp.rng.split seed inp.nchains) inp.nchains c i k := by
    rw [hmp]
    simp only [setupModel, initial_positions_draws, one_mul]
    rfl
  have hmp2 : mp.2.1 = inp.modelInit (subKey inp.rng.split seed (inp.nchains + 1))
      ((List.ofFn mp.1).take 1) := by
    rw [hmp]
    simp only [setupModel, initial_positions_draws]
    rfl
  have hmp3 : mp.2.2 = chainKey inp.rng.split seed (s.nchains + 2) := by
    rw [hmp, hs]
    simp only [setupModel, initial_positions_draws]
    rfl
  have hkeysd : ∀ dev, keys dev = Spec.deviceKey inp.rng process (nd + 1)
      (chainKey inp.rng.split seed (s.nchains + 2)) dev := by
    intro dev; rw [hkeys, hmp3]; rfl
  have hokkey : ok.2 = chainKey inp.rng.pSplit keys s.opt := by
    rw [hok]
    simp only [initOptimizer, RunShape.opt, hk]
    cases inp.kfac <;> rfl
  refine ⟨⟨fun _ => mp.2.1, data, ok.1, ok.2⟩, ?_, ?_, ?_, ?_, ?_⟩
  · simp only [setupPmap, initialDistributed, distributeRows, hmod, ne_eq, not_true_eq_false,
      if_false]
    rfl
  · simp only [hdata, initialData, hrows, hmp1, κ, RunDraw.deviceKey, SetupDraw.slot, hs]
  · funext _
    simp only [hmp2, hmp1, κ, RunDraw.deviceKey, SetupDraw.slot, hs]
  · rw [hok]
    simp only [initOptimizer]
    have : inp.rng.pSplit keys = (chainKey inp.rng.pSplit keys 1, subKey inp.rng.pSplit keys 0) :=
      rfl
    rw [this, subKey_pSplit]
    simp only [hkeysd]
    cases inp.kfac <;> rfl
  · intro step fns trained
    have htr : ∀ e, _ := fun e => training_draws (S := S) inp.rng.pSplit
      (fun k w => uniform (k w.1) w.2) (fun k w => normal (k w.1) w.2) meanFn
      (fun (p : Fin (nd + 1) → P) w x => inp.psi (p w.1) x)
      (fun (md : Fin (nd + 1) → MoveMetadata) w => (md w.1).stdMove)
      (adapt nmoves _) true optStep ⟨fun _ => mp.2.1, data, ok.1, ok.2⟩ s.nburn s.nsteps e
    have hend : ∀ dev, (trained s.nepochs).key dev = chainKey inp.rng.split
        (Spec.deviceKey inp.rng process (nd + 1)
          (chainKey inp.rng.split seed (s.nchains + 2)) dev) s.training := by
      intro dev
      refine (congrFun (htr s.nepochs).2 dev).trans ?_
      rw [hokkey, chainKey_add, chainKey_pSplit]
      simp only [hkeysd]
      rfl
    refine ⟨?_, ?_⟩
    · refine ((htr e).1).trans ?_
      have hκ : (fun q : Draw => subKey inp.rng.pSplit ok.2 (q.slot s.nburn s.nsteps 1)) =
          fun q => κ (.train q) := by
        funext q dev
        rw [hokkey, subKey_chainKey, subKey_pSplit]
        simp only [hkeysd]
        rfl
      exact congrArg (fun f => idealTrain _ optStep _ _ _ f s.nburn s.nsteps _ _ _ e) hκ
    · have hfirst : firstKey (trained s.nepochs).key = _ := hend 0
      set K0 := chainKey inp.rng.split (Spec.deviceKey inp.rng process (nd + 1)
          (chainKey inp.rng.split seed (s.nchains + 2)) 0) s.training with hK0
      set kp := initializeMolecularPos ev.rng ev.draws K0 ev.nchains ev.ionPos ev.charges 1
        with hkp
      have hkp1 : kp.1 = chainKey inp.rng.split (Spec.deviceKey inp.rng process (nd + 1)
          (chainKey inp.rng.split seed (s.nchains + 2)) 0) (s.training + (s.evalChains + 1)) := by
        rw [hkp, initial_positions_draws, hr, hK0, chainKey_add, he]
      have hkp2 : kp.2 = fun (c : Fin ev.nchains) i k => ionsFrom ev (subKey inp.rng.split K0 c) i k +
          ev.draws.normal (subKey inp.rng.split K0 ev.nchains) ev.nchains c i k := by
        rw [hkp, initial_positions_draws, hr]
        simp only [one_mul]
        rfl
      set evRows : Fin (nd + 1) × Fin (ev.nchains / (nd + 1)) → Pos nelec d :=
        fun w => kp.2 ⟨w.1 * (ev.nchains / (nd + 1)) + w.2, row_lt w⟩ with hevRows
      set evData : PAData (Fin (nd + 1) × Fin (ev.nchains / (nd + 1))) (Pos nelec d)
          (Fin (nd + 1) → MoveMetadata) :=
        initialData (fun (p : Fin (nd + 1) → P) w x => ev.psi (p w.1) x) evRows
          (trained s.nepochs).params fun _ => ⟨ev.stdMove, 0, 0⟩ with hevData
      refine ⟨(differentKeys ev.rng process (nd + 1) kp.1, evData), ?_, ?_, ?_⟩
      · simp only [evalDataPmap, initialDistributed, distributeRows, hmodE, ne_eq,
          not_true_eq_false, if_false, hfirst]
        rfl
      · simp only [hevData, initialData, hevRows, hkp2, κ, RunDraw.deviceKey, SetupDraw.slot, he,
          hK0, subKey_chainKey]
      · have h := (evaluation_draws ev.rng.pSplit
          (fun k w => evUniform (k w.1) w.2) (fun k w => evNormal (k w.1) w.2) evMean
          (fun (p : Fin (nd + 1) → P) w x => ev.psi (p w.1) x)
          (fun (md : Fin (nd + 1) → MoveMetadata) w => (md w.1).stdMove)
          (adapt evMoves _) true stats ⟨(trained s.nepochs).params, evData, (),
            differentKeys ev.rng process (nd + 1) kp.1⟩ s.evalBurn s.evalSteps e').2.1
        refine h.trans ?_
        have hκ : (fun q : Draw => subKey ev.rng.pSplit (differentKeys ev.rng process (nd + 1) kp.1)
            (q.slot s.evalBurn s.evalSteps 0)) = fun q => κ (.eval q) := by
          funext q dev
          rw [subKey_pSplit, hr, hkp1]
          rfl
        exact congrArg (fun f => idealEval _ _ _ f s.evalBurn s.evalSteps _ e') hκ

/-- A number of chains which the devices cannot share equally is refused. -/
theorem pmap_run_refused {K P S : Type} {m nelec d : ℕ} (inp : Inputs K P m nelec d) (seed : K)
    (process nd : ℕ)
    (create : Option (Fin nd → K) → (Fin nd → P) →
      PAData (Fin nd × Fin (inp.nchains / nd)) (Pos nelec d) (Fin nd → MoveMetadata) → S)
    (hdiv : ¬ nd ∣ inp.nchains) : ∃ msg, setupPmap inp process nd create seed = .error msg := by
  have hmod : inp.nchains % nd ≠ 0 := fun h => hdiv (Nat.dvd_of_mod_eq_zero h)
  refine ⟨"Number of chains must be divisible by number of devices", ?_⟩
  simp only [setupPmap, initialDistributed, distributeRows, hmod, ne_eq, not_false_eq_true,
    if_true]
  rfl

/-- The phases of a run occupy consecutive stretches of the chain of keys; `gap` and `gap'`
are extra derivation steps between the phases. -/
theorem phase_slots_injective (s : RunShape) (gap gap' : ℕ) (q q' : RunDraw)
    (hq : q.Occurs s) (hq' : q'.Occurs s)
    (place : RunDraw → ℕ)
    (hset : ∀ t, t ≠ .optimizer → place (.setup t) = t.slot s.nchains)
    (hopt : place (.setup .optimizer) = s.nchains + 2 + gap)
    (htr : ∀ t, place (.train t) = s.nchains + 2 + gap + (s.opt + t.slot s.nburn s.nsteps 1))
    (hes : ∀ t, place (.evalSetup t) =
      s.nchains + 2 + gap + (s.training + t.slot s.evalChains))
    (hev : ∀ t, place (.eval t) = s.nchains + 2 + gap + (s.training + (s.evalChains + 1 + gap' +
      t.slot s.evalBurn s.evalSteps 0)))
    (h : place q = place q') : q = q' := by
  have hT : ∀ t : Draw, t.Occurs s.nburn s.nsteps 1 ∧ t.Before s.nepochs →
      s.opt + t.slot s.nburn s.nsteps 1 < s.training := by
    intro t ht
    have := slot_lt s.nburn s.nsteps 1 s.nepochs t ht.1 ht.2
    simp only [RunShape.training]; omega
  have hO : s.opt ≤ s.training := by simp only [RunShape.training]; omega
  have hO1 : s.kfac = true → s.opt = 1 := by intro hk; simp [RunShape.opt, hk]
  have hS : ∀ t : SetupDraw, t ≠ .optimizer → (RunDraw.setup t).Occurs s →
      place (.setup t) < s.nchains + 2 := by
    intro t ht hocc
    rw [hset t ht]
    cases t with
    | ions c => exact Nat.lt_add_right 2 hocc
    | displacements => exact Nat.lt_add_of_pos_right (by norm_num)
    | params => exact Nat.lt_succ_self _
    | optimizer => exact absurd rfl ht
  have hE : ∀ t : SetupDraw, (RunDraw.evalSetup t).Occurs s → t.slot s.evalChains ≤ s.evalChains := by
    intro t hocc
    cases t with
    | ions c => exact Nat.le_of_lt hocc
    | displacements => exact le_rfl
    | params => exact hocc.elim
    | optimizer => exact hocc.elim
  by_cases ho : q = .setup .optimizer
  · subst ho
    by_cases ho' : q' = .setup .optimizer
    · exact ho'.symm
    · exfalso
      have hk := hO1 hq
      rw [hopt] at h
      cases q' with
      | setup t =>
        have := hS t (fun e => ho' (by rw [e])) hq'
        omega
      | train t => rw [htr] at h; omega
      | evalSetup t => rw [hes] at h; omega
      | eval t => rw [hev] at h; omega
  · by_cases ho' : q' = .setup .optimizer
    · exfalso
      subst ho'
      have hk := hO1 hq'
      rw [hopt] at h
      cases q with
      | setup t =>
        have := hS t (fun e => ho (by rw [e])) hq
        omega
      | train t => rw [htr] at h; omega
      | evalSetup t => rw [hes] at h; omega
      | eval t => rw [hev] at h; omega
    · cases q with
      | setup t =>
        have ht := hS t (fun e => ho (by rw [e])) hq
        cases q' with
        | setup t' =>
          rw [hset t (fun e => ho (by rw [e])), hset t' (fun e => ho' (by rw [e]))] at h
          cases t <;> cases t' <;> simp only [SetupDraw.slot, RunDraw.Occurs] at h hq hq' <;>
            first
              | omega
              | rfl
              | rw [h]
        | train t' => rw [htr] at h; omega
        | evalSetup t' => rw [hes] at h; omega
        | eval t' => rw [hev] at h; omega
      | train t =>
        have ht := hT t hq
        rw [htr] at h
        cases q' with
        | setup t' => have := hS t' (fun e => ho' (by rw [e])) hq'; omega
        | train t' =>
          rw [htr] at h
          rw [slot_injective s.nburn s.nsteps 1 t t' hq.1 hq'.1 (by omega)]
        | evalSetup t' => rw [hes] at h; omega
        | eval t' => rw [hev] at h; omega
      | evalSetup t =>
        have ht := hE t hq
        rw [hes] at h
        cases q' with
        | setup t' => have := hS t' (fun e => ho' (by rw [e])) hq'; omega
        | train t' => have := hT t' hq'; rw [htr] at h; omega
        | evalSetup t' =>
          rw [hes] at h
          cases t <;> cases t' <;> simp only [SetupDraw.slot, RunDraw.Occurs] at h hq hq' <;>
            first
              | omega
              | rfl
              | (congr 2; omega)
        | eval t' => rw [hev] at h; omega
      | eval t =>
        rw [hev] at h
        cases q' with
        | setup t' => have := hS t' (fun e => ho' (by rw [e])) hq'; omega
        | train t' => have := hT t' hq'; rw [htr] at h; omega
        | evalSetup t' => have := hE t' hq'; rw [hes] at h; omega
        | eval t' =>
          rw [hev] at h
          rw [slot_injective s.evalBurn s.evalSteps 0 t t' hq hq' (by omega)]

/-- On one device no two draws of a run use the same key, and no key is both drawn from and
split. -/
theorem single_run_keys_distinct (s : RunShape) (seed : Key) (q q' : RunDraw)
    (hq : q.Occurs s) (hq' : q'.Occurs s) :
    (subKey freeRng.split seed (q.slot s) = subKey freeRng.split seed (q'.slot s) ↔ q = q') ∧
      ∀ j, subKey freeRng.split seed (q.slot s) ≠ chainKey freeRng.split seed j := by
  refine ⟨⟨fun h => ?_, fun h => by rw [h]⟩, fun j => (subKey_distinct seed _ j).2⟩
  have h' := (subKey_distinct seed _ _).1.1 h
  exact phase_slots_injective s 0 0 q q' hq hq' (fun q => q.slot s) (fun _ _ => rfl) rfl
    (fun _ => rfl) (fun _ => rfl) (fun _ => by simp [RunDraw.slot]) h'

theorem deviceKey_depth (process nd : ℕ) (dev : Fin nd) (k : Key) :
    keyDepth (Spec.deviceKey freeRng process nd k dev) = keyDepth k + 2 := rfl

/-- On several devices, also of several processes, no two draws use the same key: not on one
device, not on different devices, not in different processes. -/
theorem pmap_run_keys_distinct (s : RunShape) (seed : Key) (process process' nd : ℕ)
    (dev dev' : Fin (nd + 1)) (q q' : RunDraw) (hq : q.Occurs s) (hq' : q'.Occurs s)
    (h : q.deviceKey freeRng process nd s seed dev =
      q'.deviceKey freeRng process' nd s seed dev') :
    q = q' ∧ (q.PerDevice → process = process' ∧ dev = dev') := by
  have hd : ∀ (process : ℕ) (dev : Fin (nd + 1)) (q : RunDraw),
      keyDepth (q.deviceKey freeRng process nd s seed dev) = keyDepth seed + 1 +
        (match q with
        | .setup .optimizer => s.nchains + 2 + 2
        | .setup t => t.slot s.nchains
        | .train t => s.nchains + 2 + 2 + (s.opt + t.slot s.nburn s.nsteps 1)
        | .evalSetup t => s.nchains + 2 + 2 + (s.training + t.slot s.evalChains)
        | .eval t => s.nchains + 2 + 2 + (s.training + (s.evalChains + 1 + 2 +
            t.slot s.evalBurn s.evalSteps 0))) := by
    intro process dev q
    cases q with
    | setup t =>
      cases t <;> simp only [RunDraw.deviceKey, depth_subKey, depth_chainKey,
        deviceKey_depth] <;> omega
    | train t =>
      simp only [RunDraw.deviceKey, depth_subKey, depth_chainKey, deviceKey_depth]; omega
    | evalSetup t =>
      simp only [RunDraw.deviceKey, depth_subKey, depth_chainKey, deviceKey_depth]; omega
    | eval t =>
      simp only [RunDraw.deviceKey, depth_subKey, depth_chainKey, deviceKey_depth]; omega
  have heq : q = q' := by
    have h' := congrArg keyDepth h
    rw [hd, hd] at h'
    refine phase_slots_injective s 2 2 q q' hq hq' (fun q => match q with
        | .setup .optimizer => s.nchains + 2 + 2
        | .setup t => t.slot s.nchains
        | .train t => s.nchains + 2 + 2 + (s.opt + t.slot s.nburn s.nsteps 1)
        | .evalSetup t => s.nchains + 2 + 2 + (s.training + t.slot s.evalChains)
        | .eval t => s.nchains + 2 + 2 + (s.training + (s.evalChains + 1 + 2 +
            t.slot s.evalBurn s.evalSteps 0))) ?_ rfl (fun _ => rfl) (fun _ => rfl)
        (fun _ => rfl) (Nat.add_left_cancel h')
    intro t ht
    cases t <;> first | rfl | exact absurd rfl ht
  subst heq
  refine ⟨rfl, fun hp => ?_⟩
  have hdev : ∀ (k k' : Key) (j : ℕ),
      subKey freeRng.split (Spec.deviceKey freeRng process (nd + 1) k dev) j =
        subKey freeRng.split (Spec.deviceKey freeRng process' (nd + 1) k' dev') j →
      process = process' ∧ dev = dev' := by
    intro k k' j hj
    have h1 := chainKey_left_injective _ _ j (Key.child.inj hj).1
    obtain ⟨h2, -, h3⟩ := Key.child.inj h1
    exact ⟨(Key.fold.inj h2).2, Fin.ext h3⟩
  cases q with
  | setup t =>
    cases t with
    | optimizer => exact hdev _ _ 0 h
    | _ => exact hp.elim
  | train t => exact hdev _ _ _ h
  | evalSetup t => exact hp.elim
  | eval t => exact hdev _ _ _ h

/-! ### A concrete run -/

/-- Four chains, two electrons, one ion, a KFAC-like optimizer. -/
noncomputable def keyInputs : Inputs Key ℝ 0 2 3 where
  rng := freeRng
  draws := ⟨fun k e => 1 / (2 + keyDepth k + e), fun k i => keyDepth k + i,
    fun k _ c e j => keyDepth k * (c + 1) - e + j⟩
  ionPos := fun _ j => j
  charges := fun _ => 2
  nchains := 4
  stdMove := 1 / 4
  modelInit := fun k x => keyDepth k + x.length
  psi := fun p x => .fin (-p * |x 0 0 - x 1 0|)
  kfac := true

def keyShape : RunShape := ⟨4, true, 2, 3, 5, 4, 1, 2⟩

def keyMetrics : Metrics := ⟨.fin 0, .fin 0, .fin 0, .fin 0, .fin 1, none⟩

example : (setupSingle keyInputs (fun k p _ => (k, p)) (.seed 0)).opt =
    (some (subKey freeRng.split (.seed 0) 6), 7) := by
  obtain ⟨-, h2, h3, -⟩ := single_run_draws keyInputs keyInputs rfl (.seed 0)
    (fun k p _ => (k, p)) (fun _ _ => 0) (fun _ _ => 0) (fun _ => .fin 1) 10
    (fun p _ s _ => (p, s, keyMetrics)) (fun _ _ => 0) (fun _ _ => 0) (fun _ => .fin 1) 10
    (fun _ _ => keyMetrics) keyShape rfl rfl rfl 0 0
  rw [h3, h2]
  refine Prod.ext rfl ?_
  show ((keyDepth (subKey freeRng.split (.seed 0) 5) : ℝ) + ((List.take 1 _).length : ℝ)) = 7
  rw [depth_subKey, List.length_take, List.length_ofFn]
  norm_num [keyDepth, keyInputs]

/-- The move of walker positions in step 1 of epoch 2 and the update of epoch 2 use different
keys. -/
example : subKey freeRng.split (.seed 0) ((RunDraw.train (.move 2 1)).slot keyShape) ≠
    subKey freeRng.split (.seed 0) ((RunDraw.train (.update 2)).slot keyShape) := by
  intro h
  have := (single_run_keys_distinct keyShape (.seed 0) (.train (.move 2 1)) (.train (.update 2))
    ⟨show 1 < 3 by norm_num, show 2 < 5 by norm_num⟩
    ⟨show 0 < 1 by norm_num, show 2 < 5 by norm_num⟩).1.1 h
  cases this

/-- Devices 0 and 1 accept with different keys. -/
example : (RunDraw.train (.accept 0 0)).deviceKey freeRng 0 1 keyShape (.seed 0) 0 ≠
    (RunDraw.train (.accept 0 0)).deviceKey freeRng 0 1 keyShape (.seed 0) 1 := by
  intro h
  have ho : (RunDraw.train (.accept 0 0)).Occurs keyShape :=
    ⟨show 0 < 3 by norm_num, show 0 < 5 by norm_num⟩
  have := (pmap_run_keys_distinct keyShape (.seed 0) 0 0 1 0 1 _ _ ho ho h).2 trivial
  exact absurd this.2 (by decide)

/-- Four chains on three devices are refused, on two they are accepted. -/
example : (∃ msg, setupPmap keyInputs 0 3 (fun _ _ _ => ()) (.seed 0) = .error msg) ∧
    ∃ start, setupPmap keyInputs 0 (1 + 1) (fun _ _ _ => ()) (.seed 0) = .ok start := by
  refine ⟨pmap_run_refused keyInputs _ 0 3 _ (show ¬ 3 ∣ 4 by decide), ?_⟩
  obtain ⟨start, h, -⟩ := pmap_run_draws keyInputs keyInputs rfl (.seed 0) 0 1
    (fun _ _ _ => ()) (fun _ _ => 0) (fun _ _ => 0) (fun _ => .fin 1) 10
    (fun p _ s _ => (p, s, keyMetrics)) (fun _ _ => 0) (fun _ _ => 0) (fun _ => .fin 1) 10
    (fun _ _ => keyMetrics) keyShape rfl rfl rfl (show 2 ∣ 4 by decide) (show 2 ∣ 4 by decide) 0 0
  exact ⟨start, h⟩

end Verif.Props
