import Verif.Spec.Runner
import Verif.Props.IO

/-!
Property theorems about the phases of `run_molecule`: C58, and the end-to-end form C67 of
the resume property.
-/

namespace Verif.Props
open Spec Runner Files MCMC

variable {P D S K F R : Type}

theorem burnData_eq_burned (burn : P → D → K → D × K) (n : ℕ) (c : Core P D S K) :
    (⟨c.params, (burnData burn n c.params c.data c.key).1, c.opt,
      (burnData burn n c.params c.data c.key).2⟩ : Core P D S K) = burned burn c n := by
  have hp : ∀ n, (burned burn c n).params = c.params := by
    intro n; induction n with
    | zero => rfl
    | succ n ih => simpa [burned] using ih
  have ho : ∀ n, (burned burn c n).opt = c.opt := by
    intro n; induction n with
    | zero => rfl
    | succ n ih => simpa [burned] using ih
  have hdk : ∀ n, burnData burn n c.params c.data c.key =
      ((burned burn c n).data, (burned burn c n).key) := by
    intro n; induction n with
    | zero => rfl
    | succ n ih =>
      unfold burnData at ih ⊢
      rw [Function.iterate_succ_apply', ih]
      simp [burned, hp]
  rw [hdk]
  simp only [← hp n, ← ho n]

theorem burnAndRun_skip (run : PhaseCfg D) (ev : Bool) (pn : P → Prop)
    (burn : P → D → K → D × K) (fns : LoopFns P D S K) (start : ℕ) (c : Core P D S K) :
    burnAndRunVmc run ev pn burn fns true start c =
      vmcLoop (loopCfg run ev pn) fns start run.nepochs c := rfl

theorem burnAndRun_burn (run : PhaseCfg D) (ev : Bool) (pn : P → Prop)
    (burn : P → D → K → D × K) (fns : LoopFns P D S K) (start : ℕ) (c : Core P D S K) :
    burnAndRunVmc run ev pn burn fns false start c =
      vmcLoop (loopCfg run ev pn) fns start run.nepochs (burned burn c run.nburn) := by
  rw [← burnData_eq_burned]; rfl

theorem reloadFromCheckpoint_iff (r : Config.ReloadFlags) :
    reloadFromCheckpoint r = true ↔ ReloadsCheckpoint r := by
  simp [reloadFromCheckpoint, ReloadsCheckpoint, Config.noName]

/-- What `run_molecule` leaves, given the state in which training starts. -/
theorem runMolecule_of_start (reload : Config.ReloadFlags) (distribute : Bool)
    (vmc ev : PhaseCfg D) (row : Metrics → R) (disk : Disk F R) (su : Setup P D S K F)
    (c : Core P D S K) (start : ℕ) (rows0 : List R)
    (h : trainingStart reload distribute disk su = some (c, start, rows0)) :
    ∃ out, runMolecule reload distribute vmc ev row disk su = some out ∧
      out.train = burnAndRunVmc vmc false su.paramsHaveNan su.burn su.fns
        (reloadFromCheckpoint reload && !reload.reburn) start c ∧
      out.rows = rows0 ++ out.train.metricsQ.map row ∧
      (out.train.nansDetected = true → out.eval = none ∧ out.statistics = false) ∧
      (out.train.nansDetected = false → ∃ e, out.eval = some e ∧
        e = evaluation vmc ev su out.train.core ∧
        (out.statistics = true ↔ ev.recordLocalEnergies = true ∧ e.metricsQ ≠ [])) := by
  unfold runMolecule
  simp only [h]
  generalize burnAndRunVmc vmc false su.paramsHaveNan su.burn su.fns
    (reloadFromCheckpoint reload && !reload.reburn) start c = tr
  cases hn : tr.nansDetected with
  | true =>
    refine ⟨_, rfl, rfl, writeRows_eq rows0 _, fun _ => ⟨rfl, rfl⟩, fun h' => ?_⟩
    simp [hn] at h'
  | false =>
    refine ⟨_, rfl, rfl, writeRows_eq rows0 _, fun h' => ?_, fun _ => ⟨_, rfl, rfl, ?_⟩⟩
    · simp [hn] at h'
    · simp

/-- C58, start of training.  Without a reloaded checkpoint the initial state is burned and
training starts at epoch 0.  With one, parameters come from the checkpoint, walkers and key
too and are burned exactly if `reburn` is set, and optimizer state and epoch number continue
exactly if no new optimizer state is requested.  A missing file ends the run. -/
theorem training_phase (reload : Config.ReloadFlags) (distribute : Bool) (vmc ev : PhaseCfg D)
    (row : Metrics → R) (disk : Disk F R) (su : Setup P D S K F) :
    (¬ ReloadsCheckpoint reload →
      ∃ out, runMolecule reload distribute vmc ev row disk su = some out ∧
        out.train = vmcLoop (loopCfg vmc false su.paramsHaveNan) su.fns 0 vmc.nepochs
          (burned su.burn su.init vmc.nburn)) ∧
    (ReloadsCheckpoint reload → ∀ file,
      disk.checkpoints (Config.osJoin reload.logdir reload.checkpointPath) = some file →
      ∃ out opt start, runMolecule reload distribute vmc ev row disk su = some out ∧
        (reload.newOptimizerState = false → opt = (su.readState distribute file).opt ∧
          start = (su.readState distribute file).epoch) ∧
        (reload.newOptimizerState = true → opt = su.init.opt ∧ start = 0) ∧
        out.train = vmcLoop (loopCfg vmc false su.paramsHaveNan) su.fns start vmc.nepochs
          (if reload.reburn then
            burned su.burn { stored (su.readState distribute file) with opt := opt } vmc.nburn
          else { stored (su.readState distribute file) with opt := opt })) ∧
    (ReloadsCheckpoint reload →
      disk.checkpoints (Config.osJoin reload.logdir reload.checkpointPath) = none →
      runMolecule reload distribute vmc ev row disk su = none) := by
  refine ⟨fun hr => ?_, fun hr file hf => ?_, fun hr hf => ?_⟩
  · have h0 : reloadFromCheckpoint reload = false := by
      rw [Bool.eq_false_iff]; exact fun h => hr ((reloadFromCheckpoint_iff _).mp h)
    obtain ⟨out, h1, h2, -⟩ := runMolecule_of_start reload distribute vmc ev row disk su
      su.init 0 disk.presentRows (by simp [trainingStart, h0])
    refine ⟨out, h1, ?_⟩
    rw [h2, h0, Bool.false_and, burnAndRun_burn]
  · have h0 : reloadFromCheckpoint reload = true := (reloadFromCheckpoint_iff _).mpr hr
    obtain ⟨opt, start, rows, hs, h3, h4⟩ : ∃ opt start rows,
        trainingStart reload distribute disk su =
          some ({ stored (su.readState distribute file) with opt := opt }, start, rows) ∧
        (reload.newOptimizerState = false → opt = (su.readState distribute file).opt ∧
          start = (su.readState distribute file).epoch) ∧
        (reload.newOptimizerState = true → opt = su.init.opt ∧ start = 0) := by
      cases hno : reload.newOptimizerState with
      | false =>
        refine ⟨(su.readState distribute file).opt, _, if reload.append then
          copyTxtStats disk.reloadRows (some (su.readState distribute file).epoch)
          else disk.presentRows, ?_, fun _ => ⟨rfl, rfl⟩, by simp⟩
        simp only [trainingStart, h0, if_true, hf, hno, Bool.false_eq_true, if_false, stored]
      | true =>
        refine ⟨su.init.opt, _, if reload.append then
          copyTxtStats disk.reloadRows (some (su.readState distribute file).epoch)
          else disk.presentRows, ?_, by simp, fun _ => ⟨rfl, rfl⟩⟩
        simp only [trainingStart, h0, if_true, hf, hno, stored]
    obtain ⟨out, h1, h2, -⟩ := runMolecule_of_start reload distribute vmc ev row disk su
      _ start rows hs
    refine ⟨out, opt, start, h1, h3, h4, ?_⟩
    rw [h2, h0, Bool.true_and]
    cases reload.reburn
    · rw [Bool.not_false, burnAndRun_skip]; rfl
    · rw [Bool.not_true, burnAndRun_burn]; rfl
  · have h0 : reloadFromCheckpoint reload = true := (reloadFromCheckpoint_iff _).mpr hr
    unfold runMolecule
    simp [trainingStart, h0, hf]

theorem vmcLoop_nans_iff (cfg : LoopCfg P D) (fns : LoopFns P D S K) (s N : ℕ)
    (c : Core P D S K) : (vmcLoop cfg fns s N c).nansDetected = true ↔
      ∃ i < N - s, stops cfg fns c i := by
  rw [vmcLoop_eq, finish_nans]
  exact (runN_core_nans cfg fns s c (N - s)).2

/-- A loop without regular and best checkpoints and without nan checking queues no file. -/
theorem runEpochs_no_ckpts (cfg : LoopCfg P D) (fns : LoopFns P D S K)
    (h1 : cfg.checkpointEvery = none) (h2 : cfg.bestCheckpointEvery = none)
    (h3 : cfg.checkForNans = false) (l : List ℕ) (st : LoopState P D S K)
    (hq : st.ckptQ = []) (hb : st.bestData = none) :
    (runEpochs cfg fns l st).ckptQ = [] ∧ (runEpochs cfg fns l st).bestData = none := by
  induction l generalizing st with
  | nil => exact ⟨hq, hb⟩
  | cons e es ih =>
    have hstep : (epochStep cfg fns e st).ckptQ = [] ∧
        (epochStep cfg fns e st).bestData = none := by
      unfold epochStep
      simp only
      split
      · exact ⟨hq, hb⟩
      · unfold handleCheckpoints
        split
        · exact ⟨hq, hb⟩
        · simp [saveMetricsAndRegular, trackAndSaveBest, h1, h2, h3, hq, hb]
    rw [runEpochs]
    split
    · exact hstep
    · exact ih _ hstep.1 hstep.2

theorem vmcLoop_no_ckpts (cfg : LoopCfg P D) (fns : LoopFns P D S K)
    (h1 : cfg.checkpointEvery = none) (h2 : cfg.bestCheckpointEvery = none)
    (h3 : cfg.checkForNans = false) (s N : ℕ) (c : Core P D S K) :
    (vmcLoop cfg fns s N c).ckptQ = [] := by
  obtain ⟨hq, hb⟩ := runEpochs_no_ckpts cfg fns h1 h2 h3 (List.range' s (N - s))
    (initState cfg c) rfl rfl
  unfold vmcLoop finishCheckpointing
  rw [hb]; exact hq

/-- C58, evaluation.  Whatever the options, if the run does not end with an exception:
evaluation takes place exactly if no epoch of training ended the run because of a nan.  It
starts with the trained parameters, and with the walkers and key left by training exactly if
that is asked for and the numbers of chains agree, else with new ones; it burns, runs all its
epochs even if nans appear, and writes no checkpoint. -/
theorem evaluation_phase (reload : Config.ReloadFlags) (distribute : Bool)
    (vmc ev : PhaseCfg D) (row : Metrics → R) (disk : Disk F R) (su : Setup P D S K F)
    (out : Outcome P D S K R)
    (h : runMolecule reload distribute vmc ev row disk su = some out) :
    ∃ start c, out.train = vmcLoop (loopCfg vmc false su.paramsHaveNan) su.fns start
        vmc.nepochs c ∧
      (out.eval = none ↔ ∃ i < vmc.nepochs - start, TrainingNan vmc su c i) ∧
      ∀ e, out.eval = some e →
        e.core = traj su.evalFns (burned su.evalBurn
          (evalStart su (ev.useDataFromTraining = true ∧ vmc.nchains = ev.nchains)
            out.train.core) ev.nburn) ev.nepochs ∧
        e.ckptQ = [] ∧ e.nansDetected = false := by
  cases hs : trainingStart reload distribute disk su with
  | none => simp [runMolecule, hs] at h
  | some t =>
    obtain ⟨c0, start, rows0⟩ := t
    obtain ⟨out', h1, h2, -, h4, h5⟩ := runMolecule_of_start reload distribute vmc ev row disk su
      c0 start rows0 hs
    rw [h] at h1
    cases h1
    obtain ⟨c, hc⟩ : ∃ c, out.train = vmcLoop (loopCfg vmc false su.paramsHaveNan) su.fns start
        vmc.nepochs c := by
      cases hb : reloadFromCheckpoint reload && !reload.reburn
      · rw [hb, burnAndRun_burn] at h2; exact ⟨_, h2⟩
      · rw [hb, burnAndRun_skip] at h2; exact ⟨_, h2⟩
    have hnan : out.train.nansDetected = true ↔
        ∃ i < vmc.nepochs - start, TrainingNan vmc su c i := by
      rw [hc, vmcLoop_nans_iff]
      simp [stops, loopCfg, TrainingNan]
    refine ⟨start, c, hc, ?_, ?_⟩
    · rw [← hnan]
      constructor
      · intro he
        by_contra hn
        obtain ⟨e, he', -⟩ := h5 (by simpa using hn)
        rw [he] at he'; simp at he'
      · intro hn; exact (h4 hn).1
    · intro e he
      cases hn : out.train.nansDetected with
      | true => rw [(h4 hn).1] at he; simp at he
      | false =>
        obtain ⟨e', he', hev, -⟩ := h5 hn
        rw [he] at he'
        cases he'
        have hstart : e = vmcLoop (loopCfg ev true su.paramsHaveNan) su.evalFns 0 ev.nepochs
            (burned su.evalBurn
              (evalStart su (ev.useDataFromTraining = true ∧ vmc.nchains = ev.nchains)
                out.train.core) ev.nburn) := by
          rw [hev, evaluation, burnAndRun_burn]
          congr 2
          by_cases hr : ev.useDataFromTraining = true ∧ vmc.nchains = ev.nchains
          · simp [evalStart, hr]
          · simp only [evalStart, if_neg hr]
            rw [if_pos]
            rw [not_and_or] at hr
            rcases hr with hr | hr
            · simp [hr]
            · simp [hr]
        have hno : ∀ i < ev.nepochs - 0, ¬ stops (loopCfg ev true su.paramsHaveNan) su.evalFns
            (burned su.evalBurn
              (evalStart su (ev.useDataFromTraining = true ∧ vmc.nchains = ev.nchains)
                out.train.core) ev.nburn) i := by
          intro i _ hst; simp [stops, loopCfg] at hst
        have hend := no_nan_runs_to_end _ _ _ _ _ hno
        rw [← hstart] at hend
        refine ⟨by rw [hend.1, Nat.sub_zero], ?_, hend.2.1⟩
        rw [hstart]
        exact vmcLoop_no_ckpts _ _ rfl rfl rfl _ _ _

/-- C58: if the update of the evaluation keeps the parameters, as the evaluation update of the
code does (C55), the evaluated wavefunction is the trained one. -/
theorem evaluation_keeps_parameters (reload : Config.ReloadFlags) (distribute : Bool)
    (vmc ev : PhaseCfg D) (row : Metrics → R) (disk : Disk F R) (su : Setup P D S K F)
    (out : Outcome P D S K R)
    (h : runMolecule reload distribute vmc ev row disk su = some out)
    (hkeep : ∀ p d k, (su.evalFns.update p d () k).1 = p) (e : LoopState P D Unit K)
    (he : out.eval = some e) : e.core.params = out.train.core.params := by
  obtain ⟨start, c, -, -, h3⟩ := evaluation_phase reload distribute vmc ev row disk su out h
  rw [(h3 e he).1]
  have htraj : ∀ (x : Core P D Unit K) n, (traj su.evalFns x n).params = x.params := by
    intro x n; induction n with
    | zero => rfl
    | succ n ih =>
      rw [traj, coreStep]
      simp only
      rw [hkeep, ih]
  have hburn : ∀ (x : Core P D Unit K) n, (burned su.evalBurn x n).params = x.params := by
    intro x n; induction n with
    | zero => rfl
    | succ n ih => simpa [burned] using ih
  rw [htraj, hburn, evalStart]
  split <;> rfl

/-- C67, the resume property for whole runs.  Take a run from scratch and one of the
checkpoint files of its training, of epoch 1 or later.  A second run with the same settings
that reloads this file with the default reload options, from a log directory holding at least
the metric rows written up to the checkpoint, ends with the same trained state, the same
metric file, the same evaluation and the same statistics decision as the first run. -/
theorem rerun_reproduces_run (reload0 reload : Config.ReloadFlags) (distribute : Bool)
    (vmc ev : PhaseCfg D) (row : Metrics → R) (disk0 disk : Disk F R) (su : Setup P D S K F)
    (out : Outcome P D S K R) (name : FileName) (ck : Ckpt P D S K) (file : F) (r : ℕ)
    (hfresh : ¬ ReloadsCheckpoint reload0) (hempty : disk0.presentRows = [])
    (hout : runMolecule reload0 distribute vmc ev row disk0 su = some out)
    (hmem : (name, ck) ∈ out.train.ckptQ) (hpos : 1 ≤ ck.epoch)
    (hmetrics : ∀ i < vmc.nepochs,
      (rawMetrics su.fns (burned su.burn su.init vmc.nburn) i).isSome)
    (hreload : ReloadsCheckpoint reload) (hnew : reload.newOptimizerState = false)
    (hreburn : reload.reburn = false) (happend : reload.append = true)
    (hfile : disk.checkpoints (Config.osJoin reload.logdir reload.checkpointPath) = some file)
    (hread : su.readState distribute file = ck)
    (hrows : disk.reloadRows = out.rows.take r) (hr : ck.epoch ≤ r) :
    ∃ out', runMolecule reload distribute vmc ev row disk su = some out' ∧
      out'.train.core = out.train.core ∧
      out'.train.nansDetected = out.train.nansDetected ∧ out'.rows = out.rows ∧
      out'.eval = out.eval ∧ out'.statistics = out.statistics := by
  have h0 : reloadFromCheckpoint reload0 = false := by
    rw [Bool.eq_false_iff]; exact fun h => hfresh ((reloadFromCheckpoint_iff _).mp h)
  have h1 : reloadFromCheckpoint reload = true := (reloadFromCheckpoint_iff _).mpr hreload
  obtain ⟨o1, e1, t1, r1, n1, m1⟩ := runMolecule_of_start reload0 distribute vmc ev row disk0 su
    su.init 0 disk0.presentRows (by simp [trainingStart, h0])
  rw [hout] at e1
  cases e1
  rw [h0, Bool.false_and, burnAndRun_burn] at t1
  rw [hempty, List.nil_append] at r1
  obtain ⟨out', e2, t2, r2, n2, m2⟩ := runMolecule_of_start reload distribute vmc ev row disk su
    (stored ck) ck.epoch (copyTxtStats disk.reloadRows (some ck.epoch)) (by
      simp only [trainingStart, h1, if_true, hfile, hread, happend, hnew, Bool.false_eq_true,
        if_false]
      rfl)
  rw [h1, hreburn, Bool.not_false, Bool.true_and, burnAndRun_skip] at t2
  rw [t1] at hmem
  have hres := resume_reproduces_run (loopCfg vmc false su.paramsHaveNan)
    (loopCfg vmc false su.paramsHaveNan) su.fns 0 vmc.nepochs _ name ck rfl rfl rfl hmem
  have hrow := append_matches_uninterrupted_partial (loopCfg vmc false su.paramsHaveNan) su.fns
    vmc.nepochs _ row name ck r rfl hmetrics hmem hr hpos
  simp only [finalFile, uninterruptedFile, writeRows_eq, List.nil_append] at hrow
  have hcore : out'.train.core = out.train.core := by rw [t1, t2]; exact hres.1
  have hnan : out'.train.nansDetected = out.train.nansDetected := by rw [t1, t2]; exact hres.2
  refine ⟨out', e2, hcore, hnan, ?_, ?_⟩
  · rw [r2, hrows, r1, t1, t2]; exact hrow
  · cases hb : out.train.nansDetected with
    | true =>
      obtain ⟨a1, b1⟩ := n1 hb
      obtain ⟨a2, b2⟩ := n2 (by rw [hnan, hb])
      rw [a1, a2, b1, b2]; exact ⟨rfl, rfl⟩
    | false =>
      obtain ⟨x1, a1, b1, c1⟩ := m1 hb
      obtain ⟨x2, a2, b2, c2⟩ := m2 (by rw [hnan, hb])
      have hx : x2 = x1 := by rw [b1, b2, hcore]
      subst hx
      rw [a1, a2]
      exact ⟨rfl, by rw [Bool.eq_iff_iff, c1, c2]⟩

/-! Concrete run for the hypotheses: a checkpoint every epoch, three epochs. -/

/-- Phase configuration of the concrete run. -/
noncomputable def toyPhase : PhaseCfg ℕ :=
  { nburn := 2, nepochs := 3, nchains := 4, checkpointEvery := some 1
    bestCheckpointEvery := none, varianceScale := 1, checkForNans := false
    recordAmplitudes := none, nhistoryMax := 3, useDataFromTraining := true
    recordLocalEnergies := true }

/-- Setup of the concrete run: burning adds 1 to the walker, evaluation keeps parameters. -/
noncomputable def toySetup : Setup ℕ ℕ ℕ ℕ (Ckpt ℕ ℕ ℕ ℕ) :=
  { init := ⟨0, 0, 0, 0⟩, burn := fun _ d k => (d + 1, k), fns := toyFns
    evalBurn := fun _ d k => (d + 1, k)
    evalFns := ⟨fun _ d k => (.fin 1, d + 1, k), fun p d _ k => (p, d, (), none, k)⟩
    newEvalData := fun _ k => (k, 0), readState := fun _ f => f
    paramsHaveNan := fun _ => False }

/-- All hypotheses of `rerun_reproduces_run` hold for the checkpoint of epoch 2. -/
example : ∃ (out : Outcome ℕ ℕ ℕ ℕ XR) (ck : Ckpt ℕ ℕ ℕ ℕ) (disk : Disk (Ckpt ℕ ℕ ℕ ℕ) XR)
    (reload : Config.ReloadFlags),
    ¬ ReloadsCheckpoint Config.defaultReload ∧
    runMolecule Config.defaultReload false toyPhase toyPhase (fun m => m.energy)
      ⟨fun _ => none, [], []⟩ toySetup = some out ∧
    (FileName.regular 3, ck) ∈ out.train.ckptQ ∧ 1 ≤ ck.epoch ∧
    (∀ i < toyPhase.nepochs, (rawMetrics toySetup.fns
      (burned toySetup.burn toySetup.init toyPhase.nburn) i).isSome) ∧
    ReloadsCheckpoint reload ∧ reload.newOptimizerState = false ∧ reload.reburn = false ∧
    reload.append = true ∧
    disk.checkpoints (Config.osJoin reload.logdir reload.checkpointPath) = some ck ∧
    disk.reloadRows = out.rows.take 3 ∧ ck.epoch ≤ 3 := by
  obtain ⟨out, h1, h2⟩ := (training_phase Config.defaultReload false toyPhase toyPhase
    (fun m => m.energy) (⟨fun _ => none, [], []⟩ : Disk (Ckpt ℕ ℕ ℕ ℕ) XR) toySetup).1
    (by simp [ReloadsCheckpoint, Config.defaultReload, Config.noName])
  refine ⟨out, startOfEpoch toyFns (burned toySetup.burn toySetup.init 2) 0 2,
    ⟨fun _ => some (startOfEpoch toyFns (burned toySetup.burn toySetup.init 2) 0 2),
      out.rows.take 3, []⟩, { Config.defaultReload with logdir := "logs" },
    by simp [ReloadsCheckpoint, Config.defaultReload, Config.noName], h1, ?_, by
      simp [startOfEpoch], fun i _ => rfl, ⟨by simp, rfl⟩, rfl, rfl, rfl, rfl, rfl, by
      simp [startOfEpoch]⟩
  rw [h2]
  have hE : epochsRun (stops (loopCfg toyPhase false toySetup.paramsHaveNan) toyFns
      (burned toySetup.burn toySetup.init 2)) (3 - 0) = 3 :=
    epochsRun_of_not_bad (by rintro ⟨j, -, hb⟩; simp [stops, loopCfg, toyPhase] at hb)
  have hreg := regular_checkpoints_exact (loopCfg toyPhase false toySetup.paramsHaveNan) toyFns
    0 3 (burned toySetup.burn toySetup.init 2) 1 rfl rfl le_rfl
  have hm : (FileName.regular 3, startOfEpoch toyFns (burned toySetup.burn toySetup.init 2) 0 2) ∈
      (vmcLoop (loopCfg toyPhase false toySetup.paramsHaveNan) toyFns 0 3
        (burned toySetup.burn toySetup.init 2)).ckptQ.filter (fun x => x.1.isRegular) := by
    rw [hreg, hE, List.mem_map]
    refine ⟨2, ?_, rfl⟩
    rw [List.mem_filter, List.mem_range]
    exact ⟨by norm_num, by simp [rawMetrics, toyFns]⟩
  exact (List.mem_filter.mp hm).1

/-- The evaluation update of the concrete run keeps the parameters. -/
example : ∀ p d k, (toySetup.evalFns.update p d () k).1 = p := fun _ _ _ => rfl

end Verif.Props
