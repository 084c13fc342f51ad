import Verif.Props.Keys
import Verif.Props.Metropolis
import Verif.Props.Updates

/-! Properties of the setup of a run and of the walker data it hands to the phases. -/

namespace Verif.Props

open Verif.MCMC Verif.Setup Verif.Spec Verif.Runner

/-- What holds for the state and is kept by every epoch holds at the end of the loop. -/
theorem vmcLoop_invariant {P D S K : Type} (cfg : LoopCfg P D) (fns : LoopFns P D S K)
    (I : Core P D S K → Prop) (hI : ∀ c, I c → I (coreStep fns c)) (start nepochs : ℕ)
    (c : Core P D S K) (hc : I c) : I (vmcLoop cfg fns start nepochs c).core := by
  have hrun : ∀ (es : List ℕ) (st : LoopState P D S K), I st.core →
      I (runEpochs cfg fns es st).core := by
    intro es
    induction es with
    | nil => exact fun st h => h
    | cons e es ih =>
      intro st h
      have hstep : I (epochStep cfg fns e st).core := by
        rw [epochStep_core]
        exact hI _ h
      unfold runEpochs
      simp only
      split
      · exact hstep
      · exact ih _ hstep
  unfold vmcLoop
  rw [finish_core]
  exact hrun _ _ hc

section consistent
variable {P S K W X M F R : Type} [AddCommGroup X] [Module ℝ X]

/-- From the setup through training to the end of the evaluation, whatever is reloaded and
whichever walkers the evaluation uses: the stored amplitudes are those of the stored positions
for the current parameters.  A reloaded checkpoint must have this property itself (checkpoints
written by a run do). -/
theorem run_amplitudes_match (psi : P → W → X → XR) (split : K → K × K)
    (uniform : K → W → ℝ) (normal : K → W → X) (meanFn : (W → XR) → XR)
    (getStd evGetStd : PAData W X M → W → ℝ) (adapt evAdapt : Option (M → (W → Prop) → M))
    (logabs : Bool) (nsteps evSteps : ℕ)
    (optStep : P → PAData W X M → S → K → P × S × Metrics) (stats : P → PAData W X M → Metrics)
    (su : Runner.Setup P (PAData W X M) S K F)
    (hfns : su.fns = trainFns nsteps
      (paStep split uniform normal meanFn psi getStd adapt logabs) split optStep psi)
    (hburn : su.burn = burningStep
      (paStep split uniform normal meanFn psi getStd adapt logabs))
    (hevFns : su.evalFns = evalFns evSteps
      (paStep split uniform normal meanFn psi evGetStd evAdapt logabs) stats)
    (hevBurn : su.evalBurn = burningStep
      (paStep split uniform normal meanFn psi evGetStd evAdapt logabs))
    (hinit : Consistent psi su.init.params su.init.data)
    (hnew : ∀ p k, Consistent psi p (su.newEvalData p k).2)
    (reload : Config.ReloadFlags) (distribute : Bool)
    (hck : ∀ f, Consistent psi (su.readState distribute f).params
      (su.readState distribute f).data)
    (vmc ev : PhaseCfg (PAData W X M)) (row : Metrics → R) (disk : Disk F R)
    (out : Outcome P (PAData W X M) S K R)
    (h : runMolecule reload distribute vmc ev row disk su = some out) :
    Consistent psi out.train.core.params out.train.core.data ∧
      ∀ e, out.eval = some e → Consistent psi e.core.params e.core.data := by
  have hstep : ∀ (getStd : PAData W X M → W → ℝ) adapt p d k, Consistent psi p d → Consistent psi p
      (paStep split uniform normal meanFn psi getStd adapt logabs p d k).2.1 :=
    fun getStd adapt p d k h => step_consistent split uniform normal meanFn psi getStd adapt
      logabs p d k h
  have hphase : ∀ {S' : Type} (run : PhaseCfg (PAData W X M)) (isEval : Bool)
      (getStd : PAData W X M → W → ℝ) adapt
      (fns : LoopFns P (PAData W X M) S' K) (skip : Bool) (start : ℕ)
      (c : Core P (PAData W X M) S' K),
      (∀ c : Core P (PAData W X M) S' K, Consistent psi c.params c.data →
        Consistent psi (coreStep fns c).params (coreStep fns c).data) →
      Consistent psi c.params c.data →
      Consistent psi
        (burnAndRunVmc run isEval su.paramsHaveNan (burningStep
          (paStep split uniform normal meanFn psi getStd adapt logabs)) fns skip start c).core.params
        (burnAndRunVmc run isEval su.paramsHaveNan (burningStep
          (paStep split uniform normal meanFn psi getStd adapt logabs)) fns skip start c).core.data := by
    intro S' run isEval getStd adapt fns skip start c hfns hc
    refine vmcLoop_invariant _ fns (fun c => Consistent psi c.params c.data) hfns start _ _ ?_
    cases skip with
    | true => exact hc
    | false =>
      show Consistent psi c.params (burnData _ run.nburn c.params c.data c.key).1
      rw [burn_iterSteps]
      exact iterSteps_inv _ c.params (Consistent psi c.params) (hstep getStd adapt c.params) _ _ hc
  have htrain : ∀ c : Core P (PAData W X M) S K, Consistent psi c.params c.data →
      Consistent psi (coreStep su.fns c).params (coreStep su.fns c).data := by
    intro c _
    rw [hfns]
    intro w
    rfl
  have heval : ∀ c : Core P (PAData W X M) Unit K, Consistent psi c.params c.data →
      Consistent psi (coreStep su.evalFns c).params (coreStep su.evalFns c).data := by
    intro c hc
    rw [hevFns]
    show Consistent psi c.params (walkData evSteps c.params c.data c.key _).2.1
    rw [walkData_snd]
    exact iterSteps_inv _ c.params (Consistent psi c.params) (hstep evGetStd evAdapt c.params) _ _ hc
  cases hs : trainingStart reload distribute disk su with
  | none => simp [runMolecule, hs] at h
  | some t =>
    obtain ⟨c0, start, rows0⟩ := t
    have hc0 : Consistent psi c0.params c0.data := by
      unfold trainingStart at hs
      split at hs
      · split at hs
        · simp at hs
        · rename_i file _
          simp only at hs
          split at hs
          · obtain ⟨rfl, -⟩ := Prod.ext_iff.1 (Option.some.inj hs)
            exact hck file
          · obtain ⟨rfl, -⟩ := Prod.ext_iff.1 (Option.some.inj hs)
            exact hck file
      · obtain ⟨rfl, -⟩ := Prod.ext_iff.1 (Option.some.inj hs)
        exact hinit
    obtain ⟨out', h1, h2, -, h4, h5⟩ := runMolecule_of_start reload distribute vmc ev row disk su
      c0 start rows0 hs
    rw [h] at h1
    cases h1
    have hT : Consistent psi out.train.core.params out.train.core.data := by
      rw [h2, hburn]
      exact hphase vmc false getStd adapt su.fns _ start c0 htrain hc0
    refine ⟨hT, fun e he => ?_⟩
    cases hn : out.train.nansDetected with
    | true => rw [(h4 hn).1] at he; cases he
    | false =>
      obtain ⟨e', he', hev, -⟩ := h5 hn
      rw [he] at he'
      cases he'
      rw [hev]
      unfold evaluation
      rw [hevBurn]
      refine hphase ev true evGetStd evAdapt su.evalFns false 0 _ heval ?_
      simp only
      split
      · exact hnew _ _
      · exact hT

end consistent

/-- The single-device setup of `keyInputs` with three walking steps per training epoch and two
per evaluation epoch, plain gradient-free updates that add one to the parameter. -/
noncomputable def keyRun :
    Runner.Setup ℝ (PAData (Fin 4) (Pos 2 3) MoveMetadata) Unit Key Unit :=
  let step := fun uni nor nmoves => stepSingle (n := 4) freeRng uni nor (fun _ => .fin 1)
    keyInputs.psi nmoves
  let start := setupSingle keyInputs (fun _ _ _ => ()) (.seed 0)
  { init := start
    burn := burningStep (step (fun _ _ => 0) (fun _ _ _ _ => 1) 10)
    fns := trainFns 3 (step (fun _ _ => 0) (fun _ _ _ _ => 1) 10) freeRng.split
      (fun p _ s _ => (p + 1, s, keyMetrics)) fun p _ x => keyInputs.psi p x
    evalBurn := burningStep (step (fun _ _ => 0) (fun _ _ _ _ => 1) 5)
    evalFns := evalFns 2 (step (fun _ _ => 0) (fun _ _ _ _ => 1) 5) fun _ _ => keyMetrics
    newEvalData := evalDataSingle keyInputs
    readState := fun _ _ => ⟨7, start.data, start.params, (), .seed 1⟩
    paramsHaveNan := fun _ => False }

/-- New evaluation walkers, two burning steps, three epochs. -/
noncomputable def keyPhase : PhaseCfg (PAData (Fin 4) (Pos 2 3) MoveMetadata) :=
  { nburn := 2, nepochs := 3, nchains := 4, checkpointEvery := some 1
    bestCheckpointEvery := none, varianceScale := 1, checkForNans := false
    recordAmplitudes := none, nhistoryMax := 3, useDataFromTraining := false
    recordLocalEnergies := true }

example (out : Outcome ℝ (PAData (Fin 4) (Pos 2 3) MoveMetadata) Unit Key XR)
    (h : runMolecule Config.defaultReload false keyPhase keyPhase (fun m => m.energy)
      ⟨fun _ => none, [], []⟩ keyRun = some out) :
    ∀ c, out.train.core.data.amplitude c =
      keyInputs.psi out.train.core.params (out.train.core.data.position c) :=
  (run_amplitudes_match (fun p _ x => keyInputs.psi p x) freeRng.split (fun _ _ => 0)
    (fun _ _ _ _ => 1) (fun _ => .fin 1) _ _ _ _ true 3 2 _ _ keyRun rfl rfl rfl rfl
    (fun _ => rfl) (fun _ _ _ => rfl) Config.defaultReload false (fun _ _ => rfl) keyPhase
    keyPhase (fun m => m.energy) _ out h).1

example : ∃ out, runMolecule Config.defaultReload false keyPhase keyPhase (fun m => m.energy)
    ⟨fun _ => none, [], []⟩ keyRun = some out := by
  obtain ⟨out, h1, -⟩ := (training_phase Config.defaultReload false keyPhase keyPhase
    (fun m => m.energy) (⟨fun _ => none, [], []⟩ : Disk Unit XR) keyRun).1
    (by simp [ReloadsCheckpoint, Config.defaultReload, Config.noName])
  exact ⟨out, h1⟩

/-! ### The setup on several devices -/

/-- Row `w` of the reshaped walker array is one row of the original one, and every row is used
once. -/
noncomputable def rowEquiv {n nd : ℕ} (hdiv : nd ∣ n) : Fin nd × Fin (n / nd) ≃ Fin n :=
  finProdFinEquiv.trans (finCongr (Nat.mul_div_cancel' hdiv))

/-- With the same seed, the setup on `nd` devices is the setup on one device with the chains
dealt out, each to one device; all devices hold the same parameters, and the same width with
empty counters.  All amplitudes are those of the positions. -/
theorem distributed_setup_matches_single {K P S S' : Type} {m nelec d : ℕ}
    (inp : Inputs K P m nelec d) (seed : K) (process nd : ℕ) (hdiv : nd ∣ inp.nchains)
    (create : Option (Fin nd → K) → (Fin nd → P) →
      PAData (Fin nd × Fin (inp.nchains / nd)) (Pos nelec d) (Fin nd → MoveMetadata) → S)
    (create' : Option K → P → PAData (Fin inp.nchains) (Pos nelec d) MoveMetadata → S') :
    let single := setupSingle inp create' seed
    ∃ start, setupPmap inp process nd create seed = .ok start ∧
      (∀ dev, start.params dev = single.params) ∧
      (∃ σ : Fin nd × Fin (inp.nchains / nd) ≃ Fin inp.nchains,
        (∀ w, start.data.position w = single.data.position (σ w)) ∧
        ∀ w, start.data.amplitude w = single.data.amplitude (σ w)) ∧
      (∀ dev, start.data.moveMetadata dev = single.data.moveMetadata) ∧
      single.data.moveMetadata = ⟨inp.stdMove, 0, 0⟩ ∧
      ∀ c, single.data.amplitude c = inp.psi single.params (single.data.position c) := by
  intro single
  have hmod : inp.nchains % nd = 0 := Nat.mod_eq_zero_of_dvd hdiv
  have hrow : ∀ w : Fin nd × Fin (inp.nchains / nd),
      (⟨w.1 * (inp.nchains / nd) + w.2, row_lt w⟩ : Fin inp.nchains) = rowEquiv hdiv w := by
    intro w
    apply Fin.ext
    simp [rowEquiv, finProdFinEquiv]
    ring
  let data : PAData (Fin nd × Fin (inp.nchains / nd)) (Pos nelec d) (Fin nd → MoveMetadata) :=
    initialData (fun (p : Fin nd → P) w x => inp.psi (p w.1) x)
      (fun w => (setupModel inp seed).1 ⟨w.1 * (inp.nchains / nd) + w.2, row_lt w⟩)
      (fun _ => (setupModel inp seed).2.1) fun _ => ⟨inp.stdMove, 0, 0⟩
  let ok := initOptimizer inp.rng.pSplit inp.kfac create (fun _ => (setupModel inp seed).2.1)
    data (differentKeys inp.rng process nd (setupModel inp seed).2.2)
  refine ⟨⟨fun _ => (setupModel inp seed).2.1, data, ok.1, ok.2⟩, ?_,
      fun _ => rfl, ⟨rowEquiv hdiv, fun w => ?_, fun w => ?_⟩, fun _ => rfl, rfl, fun _ => rfl⟩
  · simp only [setupPmap, initialDistributed, distributeRows, hmod, ne_eq, not_true_eq_false,
      if_false]
    rfl
  · simp only [data, initialData, hrow]; rfl
  · simp only [data, initialData, hrow]; rfl

/-- Four chains on two devices. -/
example : ∃ start, setupPmap keyInputs 0 2 (fun _ _ _ => ()) (.seed 0) = .ok start ∧
    ∀ dev, start.params dev = (setupSingle keyInputs (fun _ _ _ => ()) (.seed 0)).params := by
  obtain ⟨start, h1, h2, -⟩ := distributed_setup_matches_single keyInputs (.seed 0) 0 2
    (show 2 ∣ 4 by decide) (fun _ _ _ => ()) (fun _ _ _ => ())
  exact ⟨start, h1, h2⟩

/-- Exactly the two documented precisions are accepted, and 64-bit mode is on exactly for the
second. -/
theorem dtype_selected (name : String) :
    (getDtype name = .ok (32, false) ↔ name = "float32") ∧
      (getDtype name = .ok (64, true) ↔ name = "float64") ∧
      ((∃ msg, getDtype name = .error msg) ↔ name ≠ "float32" ∧ name ≠ "float64") := by
  unfold getDtype
  by_cases h1 : name = "float32"
  · subst h1; simp
  · by_cases h2 : name = "float64"
    · subst h2; simp
    · simp [h1, h2]

end Verif.Props
