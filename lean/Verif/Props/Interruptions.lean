import Verif.Props.Runner

/-!
C105: runs which are interrupted and continued several times.
-/

namespace Verif.Props
open Spec Runner Files MCMC

variable {P D S K F R : Type}

/-- The options of a continuation which is to reproduce the run: the defaults of the reload flags with
a directory. -/
structure PlainContinuation (reload : Config.ReloadFlags) : Prop where
  reloads : ReloadsCheckpoint reload
  sameOptimizer : reload.newOptimizerState = false
  noReburn : reload.reburn = false
  append : reload.append = true

/-- `out` is what a run, started from scratch, comes to after any number of interruptions: each time
it is continued from one of the checkpoints written since the last continuation, of epoch 1 or later,
with the metric rows written up to then. -/
inductive AfterInterruptions (distribute : Bool) (vmc ev : PhaseCfg D) (row : Metrics → R)
    (su : Setup P D S K F) : ℕ → Outcome P D S K R → Prop
  | scratch (reload : Config.ReloadFlags) (disk : Disk F R) (out : Outcome P D S K R)
      (fresh : ¬ ReloadsCheckpoint reload) (empty : disk.presentRows = [])
      (run : runMolecule reload distribute vmc ev row disk su = some out) :
      AfterInterruptions distribute vmc ev row su 0 out
  | continued (n : ℕ) (before : Outcome P D S K R)
      (history : AfterInterruptions distribute vmc ev row su n before)
      (name : FileName) (ck : Ckpt P D S K) (file : F) (r : ℕ)
      (written : (name, ck) ∈ before.train.ckptQ) (pos : 1 ≤ ck.epoch)
      (reload : Config.ReloadFlags) (plain : PlainContinuation reload) (disk : Disk F R)
      (stored : disk.checkpoints (Config.osJoin reload.logdir reload.checkpointPath) = some file)
      (read : su.readState distribute file = ck)
      (rows : disk.reloadRows = before.rows.take r) (enough : ck.epoch ≤ r)
      (out : Outcome P D S K R) (run : runMolecule reload distribute vmc ev row disk su = some out) :
      AfterInterruptions distribute vmc ev row su (n + 1) out

/-- Starting in the middle of a run leads to its end. -/
theorem loop_from_index (cfg : LoopCfg P D) (fns : LoopFns P D S K) (N i : ℕ) (c : Core P D S K)
    (hi : i < epochsRun (stops cfg fns c) N) :
    (vmcLoop cfg fns i N (traj fns c i)).core = (vmcLoop cfg fns 0 N c).core ∧
    (vmcLoop cfg fns i N (traj fns c i)).nansDetected = (vmcLoop cfg fns 0 N c).nansDetected := by
  have hnb : ¬ ∃ j < i, loopBad cfg fns c j := epochsRun_no_bad_before hi
  have hle := epochsRun_le (stops cfg fns c) N
  have hN : N = i + (N - i) := by omega
  have hbad : loopBad cfg fns (traj fns c i) = fun j => loopBad cfg fns c (i + j) := by
    funext j
    exact propext (loopBad_traj cfg fns c i j)
  simp only [vmcLoop_eq, finish_core, finish_nans]
  have h1 := runN_core_nans cfg fns i (traj fns c i) (N - i)
  have h2 := runN_core_nans cfg fns 0 c (N - 0)
  rw [hbad] at h1
  rw [Nat.sub_zero] at h2 ⊢
  constructor
  · rw [h1.1, h2.1, traj_shift]
    conv_rhs => rw [hN, epochsRun_add hnb]
  · rw [Bool.eq_iff_iff, h1.2, h2.2]
    constructor
    · rintro ⟨j, hj, hb⟩
      exact ⟨i + j, by omega, hb⟩
    · rintro ⟨j, hj, hb⟩
      by_cases hji : j < i
      · exact absurd ⟨j, hji, hb⟩ hnb
      · refine ⟨j - i, by omega, ?_⟩
        show loopBad cfg fns c (i + (j - i))
        rwa [Nat.add_sub_cancel' (by omega)]

/-- C105: however often a run is interrupted and continued, it ends with the trained state, the metric
file, the evaluation and the statistics of a run without interruptions.
Missing: runs with a new optimizer state, see `new_optimizer_state_loses_rows`. -/
theorem interruptions_change_nothing_partial (distribute : Bool) (vmc ev : PhaseCfg D)
    (row : Metrics → R) (su : Setup P D S K F)
    (hmetrics : ∀ i < vmc.nepochs,
      (rawMetrics su.fns (burned su.burn su.init vmc.nburn) i).isSome)
    {n : ℕ} {out out₀ : Outcome P D S K R}
    (h : AfterInterruptions distribute vmc ev row su n out)
    (h₀ : AfterInterruptions distribute vmc ev row su 0 out₀) :
    out.train.core = out₀.train.core ∧ out.train.nansDetected = out₀.train.nansDetected ∧
      out.rows = out₀.rows ∧ out.eval = out₀.eval ∧ out.statistics = out₀.statistics := by
  let cfg := loopCfg vmc false su.paramsHaveNan
  let c := burned su.burn su.init vmc.nburn
  have hlog : cfg.hasLogdir = true := rfl
  -- what each run does
  have key : ∀ n out, AfterInterruptions distribute vmc ev row su n out →
      (∃ i, (i = 0 ∨ i < epochsRun (stops cfg su.fns c) vmc.nepochs) ∧
        out.train = vmcLoop cfg su.fns i vmc.nepochs (traj su.fns c i)) ∧
      out.rows = (vmcLoop cfg su.fns 0 vmc.nepochs c).metricsQ.map row ∧
      (out.train.nansDetected = true → out.eval = none ∧ out.statistics = false) ∧
      (out.train.nansDetected = false → ∃ e, out.eval = some e ∧
        e = evaluation vmc ev su out.train.core ∧
        (out.statistics = true ↔ ev.recordLocalEnergies = true ∧ e.metricsQ ≠ [])) := by
    intro n out h
    induction h with
    | scratch reload disk out fresh empty run =>
      have h0 : reloadFromCheckpoint reload = false := by
        rw [Bool.eq_false_iff]
        exact fun h => fresh ((reloadFromCheckpoint_iff _).mp h)
      obtain ⟨o1, e1, t1, r1, n1, m1⟩ := runMolecule_of_start reload distribute vmc ev row disk su
        su.init 0 disk.presentRows (by simp [trainingStart, h0])
      obtain rfl := Option.some.inj (run.symm.trans e1)
      rw [h0, Bool.false_and, burnAndRun_burn] at t1
      refine ⟨⟨0, .inl rfl, t1⟩, ?_, n1, m1⟩
      rw [r1, empty, List.nil_append, t1]
    | continued n before history name ck file r written pos reload plain disk stored' read rows enough
        out run ih =>
      obtain ⟨⟨i, hi, ht⟩, hrows, -, -⟩ := ih
      have h1 : reloadFromCheckpoint reload = true := (reloadFromCheckpoint_iff _).mpr plain.reloads
      obtain ⟨o1, e1, t1, r1, n1, m1⟩ := runMolecule_of_start reload distribute vmc ev row disk su
        (stored ck) ck.epoch (copyTxtStats disk.reloadRows (some ck.epoch)) (by
          simp only [trainingStart, h1, if_true, stored', read, plain.append, plain.sameOptimizer,
            Bool.false_eq_true, if_false]
          rfl)
      obtain rfl := Option.some.inj (run.symm.trans e1)
      rw [h1, plain.noReburn, Bool.not_false, Bool.true_and, burnAndRun_skip] at t1
      -- the checkpoint is a state of the run without interruptions
      rw [ht] at written
      obtain ⟨j, hj, hck, -⟩ := vmcLoop_ckpts cfg su.fns i vmc.nepochs (traj su.fns c i) _ written
      simp only at hck
      have hbad : loopBad cfg su.fns (traj su.fns c i) = fun j => loopBad cfg su.fns c (i + j) := by
        funext j
        exact propext (loopBad_traj cfg su.fns c i j)
      have hij : i + j < epochsRun (stops cfg su.fns c) vmc.nepochs := by
        show i + j < epochsRun (loopBad cfg su.fns c) vmc.nepochs
        rcases hi with rfl | hi
        · rw [Nat.sub_zero] at hj
          rw [Nat.zero_add]
          exact hj
        · have hnb := epochsRun_no_bad_before hi
          have hle := epochsRun_le (stops cfg su.fns c) vmc.nepochs
          rw [hbad] at hj
          have := epochsRun_add (bad := loopBad cfg su.fns c) hnb (vmc.nepochs - i)
          rw [Nat.add_sub_cancel' (by omega)] at this
          omega
      have hep : ck.epoch = i + j := by rw [hck]; rfl
      have hst : stored ck = traj su.fns c (i + j) := by
        rw [hck, ← traj_shift]
        rfl
      rw [hep, hst] at t1
      refine ⟨⟨i + j, .inr hij, t1⟩, ?_, n1, m1⟩
      rw [r1, t1, rows, hrows, hep, copyTxtStats, if_neg (by omega), List.take_take,
        Nat.min_eq_left (by omega), ← List.map_take, ← List.map_append]
      exact congrArg _ (metrics_rows cfg su.fns vmc.nepochs (i + j) c hlog hij hmetrics).1.symm
  have hcore : ∀ n out, AfterInterruptions distribute vmc ev row su n out →
      out.train.core = (vmcLoop cfg su.fns 0 vmc.nepochs c).core ∧
      out.train.nansDetected = (vmcLoop cfg su.fns 0 vmc.nepochs c).nansDetected := by
    intro n out h
    obtain ⟨⟨i, hi, ht⟩, -⟩ := key n out h
    rw [ht]
    rcases hi with rfl | hi
    · exact ⟨rfl, rfl⟩
    · exact loop_from_index cfg su.fns vmc.nepochs i c hi
  obtain ⟨-, r1, n1, m1⟩ := key n out h
  obtain ⟨-, r0, n0, m0⟩ := key 0 out₀ h₀
  have hc : out.train.core = out₀.train.core := (hcore n out h).1.trans (hcore 0 out₀ h₀).1.symm
  have hn : out.train.nansDetected = out₀.train.nansDetected :=
    (hcore n out h).2.trans (hcore 0 out₀ h₀).2.symm
  refine ⟨hc, hn, r1.trans r0.symm, ?_⟩
  cases hb : out₀.train.nansDetected with
  | true =>
    obtain ⟨a1, b1⟩ := n1 (hn.trans hb)
    obtain ⟨a0, b0⟩ := n0 hb
    rw [a1, a0, b1, b0]
    exact ⟨rfl, rfl⟩
  | false =>
    obtain ⟨x1, a1, b1, c1⟩ := m1 (hn.trans hb)
    obtain ⟨x0, a0, b0, c0⟩ := m0 hb
    obtain rfl : x1 = x0 := by rw [b1, b0, hc]
    rw [a1, a0]
    exact ⟨rfl, by rw [Bool.eq_iff_iff, c1, c0]⟩

/-! ### New optimizer states -/

/-- C105 as one would expect it of every run: continuing from a checkpoint of the run, with all its
rows, leads to the same metric file. -/
def ContinuingReproducesRows (P D S K F R : Type) : Prop :=
  ∀ (reload reload' : Config.ReloadFlags) (distribute : Bool) (vmc ev : PhaseCfg D)
    (row : Metrics → R) (disk disk' : Disk F R) (su : Setup P D S K F) (out out' : Outcome P D S K R)
    (name : FileName) (ck : Ckpt P D S K) (file : F),
    (∀ c i, (rawMetrics su.fns c i).isSome) → vmc.checkForNans = false → disk.presentRows = [] →
    runMolecule reload distribute vmc ev row disk su = some out →
    (name, ck) ∈ out.train.ckptQ → 1 ≤ ck.epoch → PlainContinuation reload' →
    disk'.checkpoints (Config.osJoin reload'.logdir reload'.checkpointPath) = some file →
    su.readState distribute file = ck → disk'.reloadRows = out.rows →
    runMolecule reload' distribute vmc ev row disk' su = some out' → out'.rows = out.rows

theorem metricsQ_length (cfg : LoopCfg P D) (fns : LoopFns P D S K) (s N : ℕ) (c : Core P D S K)
    (hlog : cfg.hasLogdir = true) (hnan : cfg.checkForNans = false)
    (hm : ∀ i, (rawMetrics fns c i).isSome) : (vmcLoop cfg fns s N c).metricsQ.length = N - s := by
  rw [vmcLoop_eq, finish_metricsQ, runN_metricsQ _ _ _ _ hlog, epochsRun_of_not_bad]
  · generalize N - s = n
    induction n with
    | zero => rfl
    | succ n ih =>
      rw [List.range_succ, List.filterMap_append, List.length_append, ih]
      obtain ⟨m, h⟩ := Option.isSome_iff_exists.mp (hm n)
      simp [h]
  · rintro ⟨i, -, hb⟩
    simp [loopBad, hnan] at hb

/-- C105 with a new optimizer state: a run which takes parameters and `e` rows from a checkpoint of
epoch `e` but a new optimizer state counts its epochs from 0, so its metric file has `e` lines more
than epochs.  If it is continued from one of its own checkpoints, the training ends the same, but the
metric file is cut to as many lines as the checkpoint has epochs, so that `e` lines are lost. -/
theorem new_optimizer_state_loses_rows (reload reload' : Config.ReloadFlags) (distribute : Bool)
    (vmc ev : PhaseCfg D) (row : Metrics → R) (disk disk' : Disk F R) (su : Setup P D S K F)
    (out out' : Outcome P D S K R) (file₀ file : F) (name : FileName) (ck : Ckpt P D S K)
    (hm : ∀ c i, (rawMetrics su.fns c i).isSome) (hnan : vmc.checkForNans = false)
    (hr : ReloadsCheckpoint reload) (hnew : reload.newOptimizerState = true)
    (happ : reload.append = true)
    (hf₀ : disk.checkpoints (Config.osJoin reload.logdir reload.checkpointPath) = some file₀)
    (he : 1 ≤ (su.readState distribute file₀).epoch)
    (hrows : (su.readState distribute file₀).epoch ≤ disk.reloadRows.length)
    (hout : runMolecule reload distribute vmc ev row disk su = some out)
    (hck : (name, ck) ∈ out.train.ckptQ) (hpos : 1 ≤ ck.epoch) (hplain : PlainContinuation reload')
    (hf : disk'.checkpoints (Config.osJoin reload'.logdir reload'.checkpointPath) = some file)
    (hread : su.readState distribute file = ck) (hrows' : disk'.reloadRows = out.rows)
    (hout' : runMolecule reload' distribute vmc ev row disk' su = some out') :
    out.rows.length = (su.readState distribute file₀).epoch + vmc.nepochs ∧
      out'.rows.length = vmc.nepochs ∧ out'.train.core = out.train.core := by
  have h1 : reloadFromCheckpoint reload = true := (reloadFromCheckpoint_iff _).mpr hr
  have h2 : reloadFromCheckpoint reload' = true := (reloadFromCheckpoint_iff _).mpr hplain.reloads
  obtain ⟨o1, e1, t1, r1, -, -⟩ := runMolecule_of_start reload distribute vmc ev row disk su
    { stored (su.readState distribute file₀) with opt := su.init.opt } 0
    (copyTxtStats disk.reloadRows (some (su.readState distribute file₀).epoch)) (by
      simp only [trainingStart, h1, if_true, hf₀, happ, hnew]
      rfl)
  obtain rfl := Option.some.inj (hout.symm.trans e1)
  obtain ⟨o2, e2, t2, r2, -, -⟩ := runMolecule_of_start reload' distribute vmc ev row disk' su
    (stored ck) ck.epoch (copyTxtStats disk'.reloadRows (some ck.epoch)) (by
      simp only [trainingStart, h2, if_true, hf, hread, hplain.append, hplain.sameOptimizer,
        Bool.false_eq_true, if_false]
      rfl)
  obtain rfl := Option.some.inj (hout'.symm.trans e2)
  rw [h2, hplain.noReburn, Bool.not_false, Bool.true_and, burnAndRun_skip] at t2
  obtain ⟨c, hc⟩ : ∃ c, out.train = vmcLoop (loopCfg vmc false su.paramsHaveNan) su.fns 0
      vmc.nepochs c := by
    cases hb : reloadFromCheckpoint reload && !reload.reburn
    · rw [hb, burnAndRun_burn] at t1
      exact ⟨_, t1⟩
    · rw [hb, burnAndRun_skip] at t1
      exact ⟨_, t1⟩
  rw [hc] at hck
  have hres := resume_reproduces_run (loopCfg vmc false su.paramsHaveNan)
    (loopCfg vmc false su.paramsHaveNan) su.fns 0 vmc.nepochs c name ck rfl rfl rfl hck
  obtain ⟨i, hi, hcki, -⟩ := vmcLoop_ckpts (loopCfg vmc false su.paramsHaveNan) su.fns 0 vmc.nepochs c
    _ hck
  have hep : ck.epoch < vmc.nepochs := by
    have h3 := lt_of_lt_of_le hi (epochsRun_le _ _)
    simp only at hcki
    rw [hcki]
    simpa [startOfEpoch] using h3
  have hlen : out.rows.length = (su.readState distribute file₀).epoch + vmc.nepochs := by
    rw [r1, hc, List.length_append, List.length_map,
      metricsQ_length (loopCfg vmc false su.paramsHaveNan) su.fns 0 vmc.nepochs c rfl hnan (hm c),
      copyTxtStats, if_neg (by omega), List.length_take]
    omega
  refine ⟨hlen, ?_, ?_⟩
  · rw [r2, t2, List.length_append, List.length_map,
      metricsQ_length (loopCfg vmc false su.paramsHaveNan) su.fns _ vmc.nepochs _ rfl hnan (hm _),
      copyTxtStats, if_neg (by omega), List.length_take, hrows', hlen]
    omega
  · rw [t2, hc]
    exact hres.1

/-! ### Concrete runs -/

/-- Every epoch of the concrete run writes a checkpoint. -/
theorem toy_checkpoint (s i : ℕ) (hi : s + i < 3) (c : Core ℕ ℕ ℕ ℕ) :
    (FileName.regular (s + i + 1), startOfEpoch toyFns c s i) ∈
      (vmcLoop (loopCfg toyPhase false toySetup.paramsHaveNan) toySetup.fns s toyPhase.nepochs c).ckptQ := by
  have hE : epochsRun (stops (loopCfg toyPhase false toySetup.paramsHaveNan) toyFns c) (3 - s) = 3 - s :=
    epochsRun_of_not_bad (by rintro ⟨j, -, hb⟩; simp [stops, loopCfg, toyPhase] at hb)
  have hreg := regular_checkpoints_exact (loopCfg toyPhase false toySetup.paramsHaveNan) toyFns
    s 3 c 1 rfl rfl le_rfl
  have hm : (FileName.regular (s + i + 1), startOfEpoch toyFns c s i) ∈
      (vmcLoop (loopCfg toyPhase false toySetup.paramsHaveNan) toyFns s 3
        c).ckptQ.filter (fun x => x.1.isRegular) := by
    rw [hreg, hE, List.mem_map]
    refine ⟨i, ?_, rfl⟩
    rw [List.mem_filter, List.mem_range]
    exact ⟨by omega, by simp [rawMetrics, toyFns]⟩
  exact (List.mem_filter.mp hm).1

/-- Flags of a continuation of the run in `logs`. -/
noncomputable def toyContinue : Config.ReloadFlags := { Config.defaultReload with logdir := "logs" }

theorem toyContinue_plain : PlainContinuation toyContinue :=
  ⟨⟨by simp [toyContinue], rfl⟩, rfl, rfl, rfl⟩

/-- The concrete run, interrupted in its second and again in its third epoch. -/
example : ∃ out out₀ : Outcome ℕ ℕ ℕ ℕ XR,
    AfterInterruptions false toyPhase toyPhase (fun m => m.energy) toySetup 2 out ∧
    AfterInterruptions false toyPhase toyPhase (fun m => m.energy) toySetup 0 out₀ ∧
    (∀ i < toyPhase.nepochs, (rawMetrics toySetup.fns
      (burned toySetup.burn toySetup.init toyPhase.nburn) i).isSome) := by
  obtain ⟨out₀, h0, t0⟩ := (training_phase Config.defaultReload false toyPhase toyPhase
    (fun m => m.energy) (⟨fun _ => none, [], []⟩ : Disk (Ckpt ℕ ℕ ℕ ℕ) XR) toySetup).1
    (by simp [ReloadsCheckpoint, Config.defaultReload, Config.noName])
  have a0 : AfterInterruptions false toyPhase toyPhase (fun m => m.energy) toySetup 0 out₀ :=
    .scratch _ _ _ (by simp [ReloadsCheckpoint, Config.defaultReload, Config.noName]) rfl h0
  let c := burned toySetup.burn toySetup.init 2
  let ck1 := startOfEpoch toyFns c 0 1
  let disk1 : Disk (Ckpt ℕ ℕ ℕ ℕ) XR := ⟨fun _ => some ck1, out₀.rows.take 1, []⟩
  obtain ⟨out₁, e1, t1, -⟩ := runMolecule_of_start toyContinue false toyPhase toyPhase
    (fun m => m.energy) disk1 toySetup (stored ck1) 1 (copyTxtStats disk1.reloadRows (some 1)) (by
      rw [trainingStart, (reloadFromCheckpoint_iff _).mpr toyContinue_plain.reloads]
      rfl)
  have a1 : AfterInterruptions false toyPhase toyPhase (fun m => m.energy) toySetup 1 out₁ := by
    refine .continued 0 out₀ a0 (.regular 2) ck1 ck1 1 ?_ (by decide) toyContinue toyContinue_plain
      disk1 rfl rfl rfl le_rfl out₁ e1
    rw [t0]
    exact toy_checkpoint 0 1 (by norm_num) c
  let ck2 := startOfEpoch toyFns (stored ck1) 1 1
  let disk2 : Disk (Ckpt ℕ ℕ ℕ ℕ) XR := ⟨fun _ => some ck2, out₁.rows.take 3, []⟩
  obtain ⟨out₂, e2, -⟩ := runMolecule_of_start toyContinue false toyPhase toyPhase
    (fun m => m.energy) disk2 toySetup (stored ck2) 2 (copyTxtStats disk2.reloadRows (some 2)) (by
      rw [trainingStart, (reloadFromCheckpoint_iff _).mpr toyContinue_plain.reloads]
      rfl)
  refine ⟨out₂, out₀, ?_, a0, fun i _ => rfl⟩
  refine .continued 1 out₁ a1 (.regular 3) ck2 ck2 3 ?_ (by decide) toyContinue toyContinue_plain
    disk2 rfl rfl rfl (by decide) out₂ e2
  rw [t1]
  exact toy_checkpoint 1 1 (by norm_num) _

/-- C105 fails for the concrete run with a new optimizer state: three epochs on top of two copied
rows give five rows; continued from its own checkpoint of epoch 2 the file ends with three. -/
theorem continuing_reproduces_rows_fails :
    ¬ ContinuingReproducesRows ℕ ℕ ℕ ℕ (Ckpt ℕ ℕ ℕ ℕ) XR := by
  intro h
  let ck0 : Ckpt ℕ ℕ ℕ ℕ := startOfEpoch toyFns (burned toySetup.burn toySetup.init 2) 0 2
  let reload : Config.ReloadFlags := { toyContinue with newOptimizerState := true }
  have hr : ReloadsCheckpoint reload := toyContinue_plain.reloads
  let disk : Disk (Ckpt ℕ ℕ ℕ ℕ) XR := ⟨fun _ => some ck0, [.fin 0, .fin (-1)], []⟩
  obtain ⟨out, e1, t1, -⟩ := runMolecule_of_start reload false toyPhase toyPhase
    (fun m => m.energy) disk toySetup { stored ck0 with opt := toySetup.init.opt } 0
    (copyTxtStats disk.reloadRows (some 2)) (by
      rw [trainingStart, (reloadFromCheckpoint_iff _).mpr hr]
      rfl)
  rw [(reloadFromCheckpoint_iff _).mpr hr, show reload.reburn = false from rfl, Bool.not_false,
    Bool.true_and, burnAndRun_skip] at t1
  let ck : Ckpt ℕ ℕ ℕ ℕ := startOfEpoch toyFns { stored ck0 with opt := toySetup.init.opt } 0 2
  have hck : (FileName.regular 3, ck) ∈ out.train.ckptQ := by
    rw [t1]
    exact toy_checkpoint 0 2 (by norm_num) _
  let disk' : Disk (Ckpt ℕ ℕ ℕ ℕ) XR := ⟨fun _ => some ck, out.rows, []⟩
  obtain ⟨out', e2, -⟩ := runMolecule_of_start toyContinue false toyPhase toyPhase
    (fun m => m.energy) disk' toySetup (stored ck) 2 (copyTxtStats disk'.reloadRows (some 2)) (by
      rw [trainingStart, (reloadFromCheckpoint_iff _).mpr toyContinue_plain.reloads]
      rfl)
  have hm : ∀ c i, (rawMetrics toySetup.fns c i).isSome := fun _ _ => rfl
  have hlose := new_optimizer_state_loses_rows reload toyContinue false toyPhase toyPhase
    (fun m => m.energy) disk disk' toySetup out out' ck0 ck _ ck hm rfl hr rfl rfl rfl (by decide)
    (by decide) e1 hck (by decide) toyContinue_plain rfl rfl rfl e2
  have heq := h reload toyContinue false toyPhase toyPhase (fun m => m.energy) disk disk' toySetup out
    out' _ ck ck hm rfl rfl e1 hck (by decide) toyContinue_plain rfl rfl rfl e2
  have h5 : out.rows.length = 2 + 3 := hlose.1
  have h3 : out'.rows.length = 3 := hlose.2.1
  rw [heq, h5] at h3
  omega

end Verif.Props
