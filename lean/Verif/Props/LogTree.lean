import Verif.Model.LogTree
import Verif.Props.Runner
import Verif.Props.EvalStats

/-!
C104: which runs the files of a log directory describe.
-/

namespace Verif.Props
open Spec Runner Files MCMC Stat

variable {P D S K F R : Type}

/-! ### Vocabulary -/

/-- The local energies which a run whose training ends in the state `c` should record: those of the
walkers of each epoch of the evaluation, after the walk. -/
def ownEnergies (a : Args P D S K F R) (c : Core P D S K) : List (List ℝ) :=
  if a.ev.recordLocalEnergies = true then
    (List.range a.ev.nepochs).map fun i =>
      let s := traj a.su.evalFns (burned a.su.evalBurn
        (evalStart a.su (a.ev.useDataFromTraining = true ∧ a.vmc.nchains = a.ev.nchains) c)
        a.ev.nburn) i
      let w := a.su.evalFns.walker s.params s.data s.key
      a.energies s.params w.2.1 w.2.2
  else []

/-- The mean of all entries of rows of length `M`. -/
noncomputable def meanOfRows (M : ℕ) (rows : List (List ℝ)) : ℝ :=
  (rows.map List.sum).sum / (rows.length * M : ℕ)

/-- The training of the run in the given directories. -/
def Trains (a : Args P D S K F R) (tree : LogTree R) (logdir : String) (out : Outcome P D S K R) : Prop :=
  runMolecule a.reload a.distribute a.vmc a.ev a.row
    ⟨a.checkpoints, ((tree a.reload.logdir).getD .empty).train, ((tree logdir).getD .empty).train⟩
    a.su = some out

/-- A succession of runs and the directories it leaves, starting with none. -/
inductive History (other : String → Bool) : List (Args P D S K F R × String) → LogTree R → Prop
  | none : History other [] fun _ => none
  | next {l : List (Args P D S K F R × String)} {tree : LogTree R} {a : Args P D S K F R}
      {logdir : String} (before : History other l tree) (choice : IsLogdir other tree a logdir) :
      History other (l ++ [(a, logdir)]) (runInTree a tree logdir).1

/-- C104 in full: the statistics which a run that ends without an exception leaves in its directory
are those of the local energies of its own evaluation. -/
def StatisticsDescribeRun (P D S K F R : Type) : Prop :=
  ∀ (other : String → Bool) (l : List (Args P D S K F R × String)) (tree : LogTree R)
    (a : Args P D S K F R) (logdir : String) (out : Outcome P D S K R),
    History other l tree → IsLogdir other tree a logdir → Trains a tree logdir out →
    out.eval.isSome → (runInTree a tree logdir).2 = true →
    ∀ f s, (runInTree a tree logdir).1 logdir = some f → f.statistics = some s →
    computeEnergyStatistics (ownEnergies a out.train.core) = .ok s

/-! ### The recorded energies -/

theorem recordEpochs_eq (energies : P → D → K → List ℝ) (fns : LoopFns P D Unit K) (n : ℕ)
    (c : Core P D Unit K) : recordEpochs energies fns n c = (List.range n).map fun i =>
      energies (traj fns c i).params
        (fns.walker (traj fns c i).params (traj fns c i).data (traj fns c i).key).2.1
        (fns.walker (traj fns c i).params (traj fns c i).data (traj fns c i).key).2.2 := by
  induction n generalizing c with
  | zero => rfl
  | succ n ih =>
    have hs : ∀ i, traj fns (coreStep fns c) i = traj fns c (i + 1) := fun i => by
      induction i with
      | zero => rfl
      | succ i hi => rw [traj, hi]; rfl
    rw [recordEpochs, List.range_succ_eq_map, List.map_cons, List.map_map]
    refine congrArg₂ _ rfl ?_
    refine (ih (coreStep fns c)).trans (List.map_congr_left fun i _ => ?_)
    simp only [Function.comp, hs]

/-- What a run records are the local energies it should record. -/
theorem recordedEnergies_eq (a : Args P D S K F R) (c : Core P D S K) :
    recordedEnergies a c = ownEnergies a c := by
  unfold recordedEnergies ownEnergies
  have hb : ∀ x : Core P D Unit K,
      (⟨x.params, (burnData a.su.evalBurn a.ev.nburn x.params x.data x.key).1, (),
        (burnData a.su.evalBurn a.ev.nburn x.params x.data x.key).2⟩ : Core P D Unit K) =
      burned a.su.evalBurn x a.ev.nburn := fun x => burnData_eq_burned a.su.evalBurn a.ev.nburn x
  by_cases hr : a.ev.useDataFromTraining = true ∧ a.vmc.nchains = a.ev.nchains
  · have := hb ⟨c.params, c.data, (), c.key⟩
    simp only [hr.1, hr.2, evalStart, Bool.not_true, decide_true, Bool.or_self,
      Bool.false_eq_true, if_false, and_self, if_true, ← this, recordEpochs_eq]
  · have h1 : (!a.ev.useDataFromTraining || !decide (a.vmc.nchains = a.ev.nchains)) = true := by
      rw [not_and_or] at hr
      rcases hr with hr | hr <;> simp [hr]
    have := hb ⟨c.params, (a.su.newEvalData c.params c.key).2, (), (a.su.newEvalData c.params c.key).1⟩
    simp only [h1, if_true, evalStart, if_neg hr, ← this, recordEpochs_eq]

/-- If the update of the evaluation keeps the parameters (C55), all recorded energies are those of the
trained wave function. -/
theorem own_energies_trained (a : Args P D S K F R) (c : Core P D S K)
    (hkeep : ∀ p d k, (a.su.evalFns.update p d () k).1 = p) :
    ∀ r ∈ ownEnergies a c, ∃ d k, r = a.energies c.params d k := by
  intro r hr
  unfold ownEnergies at hr
  split at hr
  · obtain ⟨i, -, rfl⟩ := List.mem_map.1 hr
    have htraj : ∀ (x : Core P D Unit K) n, (traj a.su.evalFns x n).params = x.params := fun x n => by
      induction n with
      | zero => rfl
      | succ n ih =>
        rw [traj, coreStep]
        simp only
        rw [hkeep, ih]
    have hburn : ∀ (x : Core P D Unit K) n, (burned a.su.evalBurn x n).params = x.params := fun x n => by
      induction n with
      | zero => rfl
      | succ n ih => simpa [burned] using ih
    have hp : ∀ i, (traj a.su.evalFns (burned a.su.evalBurn
        (evalStart a.su (a.ev.useDataFromTraining = true ∧ a.vmc.nchains = a.ev.nchains) c)
        a.ev.nburn) i).params = c.params := fun i => by
      rw [htraj, hburn, evalStart]
      split <;> rfl
    simp only [hp]
    exact ⟨_, _, rfl⟩
  · simp at hr

/-! ### One run -/

/-- What a run leaves in its directory. -/
theorem run_files (a : Args P D S K F R) (tree : LogTree R) (logdir : String) (out : Outcome P D S K R)
    (h : Trains a tree logdir out) :
    ∃ f, (runInTree a tree logdir).1 logdir = some f ∧ f.train = out.rows ∧
      (out.eval = none → f.energies = ((tree logdir).getD .empty).energies ∧
        f.statistics = ((tree logdir).getD .empty).statistics) ∧
      (out.eval.isSome →
        f.energies = ((tree logdir).getD .empty).energies ++ ownEnergies a out.train.core ∧
        (∀ s, finishEvaluation a.ev.recordLocalEnergies f.energies = .ok (some s) →
          f.statistics = some s ∧ (runInTree a tree logdir).2 = true) ∧
        (finishEvaluation a.ev.recordLocalEnergies f.energies = .ok none →
          f.statistics = ((tree logdir).getD .empty).statistics ∧
          (runInTree a tree logdir).2 = true) ∧
        (∀ e, finishEvaluation a.ev.recordLocalEnergies f.energies = .error e →
          f.statistics = ((tree logdir).getD .empty).statistics ∧
          (runInTree a tree logdir).2 = false)) := by
  unfold Trains at h
  unfold runInTree
  simp only [h]
  cases he : out.eval with
  | none => exact ⟨_, Function.update_self .., rfl, fun _ => ⟨rfl, rfl⟩, by simp⟩
  | some e =>
    simp only
    have hw := writeRows_eq ((tree logdir).getD .empty).energies (recordedEnergies a out.train.core)
    rw [writeRows, recordedEnergies_eq] at hw
    simp only [recordedEnergies_eq, hw]
    rcases hf : finishEvaluation a.ev.recordLocalEnergies
      (((tree logdir).getD .empty).energies ++ ownEnergies a out.train.core) with err | st
    · exact ⟨_, Function.update_self .., rfl, by simp, fun _ => ⟨rfl, by simp [hf], by simp [hf],
        fun _ _ => ⟨rfl, rfl⟩⟩⟩
    · cases st with
      | none => exact ⟨_, Function.update_self .., rfl, by simp, fun _ => ⟨rfl, by simp [hf],
          fun _ => ⟨rfl, rfl⟩, by simp [hf]⟩⟩
      | some s => exact ⟨_, Function.update_self .., rfl, by simp, fun _ => ⟨rfl, fun s' hs' => by
          rw [hf] at hs'
          exact ⟨(Option.some.inj (Except.ok.inj hs')) ▸ rfl, rfl⟩, by simp [hf], by simp [hf]⟩⟩

/-- Other directories stay as they are, and the directory of the run exists afterwards. -/
theorem run_elsewhere (a : Args P D S K F R) (tree : LogTree R) (logdir : String) :
    (∀ p, p ≠ logdir → (runInTree a tree logdir).1 p = tree p) ∧
    ((runInTree a tree logdir).1 logdir).isSome := by
  unfold runInTree
  simp only
  split
  · exact ⟨fun p hp => Function.update_of_ne hp _ _, by simp⟩
  · split
    · exact ⟨fun p hp => Function.update_of_ne hp _ _, by simp⟩
    · split <;> exact ⟨fun p hp => Function.update_of_ne hp _ _, by simp⟩

/-- Without `same_logdir` the directory is a new one. -/
theorem fresh_logdir {other : String → Bool} {tree : LogTree R} {a : Args P D S K F R}
    {logdir : String} (h : IsLogdir other tree a logdir) (hs : a.reload.sameLogdir = false) :
    tree logdir = none := by
  unfold IsLogdir at h
  rw [hs, if_neg (by simp)] at h
  have := (unique_name_free_and_minimal _ _ _ _ h).1
  simp only [String.append_empty, Bool.or_eq_false_iff] at this
  simpa using this.2

/-! ### Statistics of rows -/

theorem finish_rows (M : ℕ) (rows : List (List ℝ)) (h2 : 2 ≤ rows.length) (hM : 2 ≤ M)
    (hrow : ∀ r ∈ rows, r.length = M) :
    finishEvaluation true rows = .ok (some (getStatsSummary rows.length M fun t c =>
      (rows.getD t []).getD c 0)) := by
  match rows with
  | [] => simp at h2
  | [_] => simp at h2
  | r :: r' :: rest =>
    have h1 : ((r' :: rest).all fun s => s.length == r.length) = true := by
      rw [List.all_eq_true]
      intro s hs
      rw [beq_iff_eq, hrow s (List.mem_cons_of_mem _ hs), hrow r (List.mem_cons_self)]
    have hr := hrow r List.mem_cons_self
    have h3 : loadtxt (r :: r' :: rest) = .ok (.matrix (r :: r' :: rest)) := by
      unfold loadtxt
      simp only [h1, if_true]
      match r, hr with
      | [], hr => rfl
      | [_], hr => simp at hr; omega
      | _ :: _ :: _, hr => rfl
    simp only [finishEvaluation, List.isEmpty_cons, Bool.not_false, Bool.and_self, if_true,
      computeEnergyStatistics, h3, bind, Except.bind, summaryOfLoaded, Except.map,
      List.headD_cons, hr]

/-- With at least two rows of at least two entries the statistics are saved, and their average is the
mean of all entries. -/
theorem finish_average (M : ℕ) (rows : List (List ℝ)) (h2 : 2 ≤ rows.length) (hM : 2 ≤ M)
    (hrow : ∀ r ∈ rows, r.length = M) :
    ∃ s, finishEvaluation true rows = .ok (some s) ∧ s.average = .fin (meanOfRows M rows) := by
  refine ⟨_, finish_rows M rows h2 hM hrow, ?_⟩
  rw [summary_average _ _ _ (by omega) (by omega), meanOfRows, grandMean]
  push_cast
  congr 2
  have h3 : ∀ r : List ℝ, r.length = M → ∑ c ∈ Finset.range M, r.getD c 0 = r.sum := fun r hr => by
    rw [Finset.sum_range, ← hr]
    simp only [List.getD, Fin.is_lt, getElem?_pos, Option.getD_some]
    rw [← List.sum_ofFn]
    simp
  rw [Finset.sum_range]
  have : ∀ t : Fin rows.length, ∑ c ∈ Finset.range M, (rows.getD t []).getD c 0 = rows[t].sum :=
    fun t => by
      rw [← h3 rows[t] (hrow _ (List.getElem_mem _))]
      simp [List.getD]
  rw [Finset.sum_congr rfl fun t _ => this t, ← List.sum_ofFn]
  congr 1
  refine List.ext_getElem (by simp) fun i h1 h2 => by simp

/-- Rows of different lengths are refused. -/
theorem finish_columns {r s : List ℝ} {rows : List (List ℝ)} (hs : s ∈ rows)
    (hne : s.length ≠ r.length) : ∃ e, finishEvaluation true (r :: rows) = .error e := by
  have h1 : (rows.all fun s => s.length == r.length) = false := by
    rw [Bool.eq_false_iff, Ne, List.all_eq_true]
    exact fun h => hne (by simpa using h s hs)
  exact ⟨_, by
    simp only [finishEvaluation, List.isEmpty_cons, Bool.not_false, Bool.and_self, if_true,
      computeEnergyStatistics, loadtxt, h1, Bool.false_eq_true, if_false, bind, Except.bind, Except.map]
    rfl⟩

/-! ### C104 -/

/-- C104 without `same_logdir`: the directory of the run is new, and its file of local energies holds
exactly the rows of its own evaluation; with at least two epochs and two walkers the statistics are
saved, and their average is the mean of these.
Missing: runs with `same_logdir`, see `continued_directory_partial` and `statistics_describe_run_fails`. -/
theorem fresh_directory_partial {other : String → Bool} {tree : LogTree R} {a : Args P D S K F R}
    {logdir : String} {out : Outcome P D S K R} (hl : IsLogdir other tree a logdir)
    (hs : a.reload.sameLogdir = false) (h : Trains a tree logdir out) (he : out.eval.isSome) :
    tree logdir = none ∧
    ∃ f, (runInTree a tree logdir).1 logdir = some f ∧
      f.energies = ownEnergies a out.train.core ∧
      (∀ s, f.statistics = some s → computeEnergyStatistics (ownEnergies a out.train.core) = .ok s) ∧
      ∀ M, 2 ≤ M → 2 ≤ a.ev.nepochs → a.ev.recordLocalEnergies = true →
        (∀ r ∈ ownEnergies a out.train.core, r.length = M) →
        ∃ s, f.statistics = some s ∧ s.average = .fin (meanOfRows M (ownEnergies a out.train.core)) := by
  have hnew := fresh_logdir hl hs
  obtain ⟨f, h1, -, -, h2⟩ := run_files a tree logdir out h
  obtain ⟨h3, h4, h5, h6⟩ := h2 he
  simp only [hnew, Option.getD_none, LogDir.empty, List.nil_append] at h3 h5 h6
  rw [h3] at h4 h5 h6
  refine ⟨hnew, f, h1, h3, fun s hst => ?_, fun M hM hn hrec hrow => ?_⟩
  · rcases hf : finishEvaluation a.ev.recordLocalEnergies (ownEnergies a out.train.core) with e | st
    · rw [(h6 e hf).1] at hst
      cases hst
    · cases st with
      | none =>
        rw [(h5 hf).1] at hst
        cases hst
      | some s' =>
        obtain rfl : s' = s := Option.some.inj ((h4 s' hf).1.symm.trans hst)
        unfold finishEvaluation at hf
        split at hf
        · cases hc : computeEnergyStatistics (ownEnergies a out.train.core) with
          | error e => rw [hc] at hf; cases hf
          | ok s'' =>
            rw [hc] at hf
            exact congrArg _ (Option.some.inj (Except.ok.inj hf))
        · cases hf
  · obtain ⟨s, k1, k2⟩ := finish_average M (ownEnergies a out.train.core) (by
      simp [ownEnergies, hrec, hn]) hM hrow
    rw [hrec] at h4
    exact ⟨s, (h4 s k1).1, k2⟩

/-- C104 over any succession of runs: the directory of a run without `same_logdir` stays as the run
left it until a run with `same_logdir` names it. -/
theorem history_directory {other : String → Bool} {l : List (Args P D S K F R × String)}
    {tree : LogTree R} (h : History other l tree) (l₁ l₂ : List (Args P D S K F R × String))
    (a : Args P D S K F R) (logdir : String) (hl : l = l₁ ++ (a, logdir) :: l₂)
    (hnot : ∀ b ∈ l₂, b.1.reload.sameLogdir = true → b.1.reload.logdir ≠ logdir) :
    ∃ before, History other l₁ before ∧ IsLogdir other before a logdir ∧
      tree logdir = (runInTree a before logdir).1 logdir ∧ (tree logdir).isSome := by
  induction h generalizing l₂ with
  | none => simp at hl
  | @next l' tree' b logdir' hb hchoice ih =>
    rcases List.eq_nil_or_concat l₂ with rfl | ⟨l₃, x, rfl⟩
    · obtain ⟨rfl, h2⟩ := List.append_inj' hl rfl
      obtain ⟨rfl, rfl⟩ := Prod.mk.inj (List.cons.inj h2).1
      exact ⟨tree', hb, hchoice, rfl, (run_elsewhere _ _ _).2⟩
    · rw [List.concat_eq_append] at hl hnot
      have hl' : l' ++ [(b, logdir')] = (l₁ ++ (a, logdir) :: l₃) ++ [x] := by simpa using hl
      obtain ⟨h1, h2⟩ := List.append_inj' hl' rfl
      obtain rfl : (b, logdir') = x := (List.cons.inj h2).1
      obtain ⟨before, k1, k2, k3, k4⟩ := ih l₃ h1 fun y hy => hnot y (by simp [hy])
      have hne : logdir ≠ logdir' := by
        rintro rfl
        by_cases hs : b.reload.sameLogdir = true
        · have h3 := hnot (b, logdir) (by simp) hs
          unfold IsLogdir at hchoice
          rw [if_pos hs] at hchoice
          exact h3 hchoice.symm
        · rw [fresh_logdir hchoice (by simpa using hs)] at k4
          cases k4
      rw [(run_elsewhere b tree' logdir').1 logdir hne]
      exact ⟨before, k1, k2, k3, k4⟩

/-- C104 with `same_logdir`: the rows of the evaluation come after those which the directory held, and
all of them enter the statistics. If both have rows of as many walkers, the average is the mean over
both; if not, the run ends with an exception and the old statistics stay. With no epochs of
evaluation the statistics of the old rows are saved again. -/
theorem continued_directory_partial {other : String → Bool} {tree : LogTree R} {a : Args P D S K F R}
    {logdir : String} {out : Outcome P D S K R} {old : LogDir R} (hl : IsLogdir other tree a logdir)
    (hs : a.reload.sameLogdir = true) (hold : tree a.reload.logdir = some old)
    (h : Trains a tree logdir out) (he : out.eval.isSome) (hrec : a.ev.recordLocalEnergies = true) :
    logdir = a.reload.logdir ∧
    ∃ f, (runInTree a tree logdir).1 logdir = some f ∧
      f.energies = old.energies ++ ownEnergies a out.train.core ∧
      (∀ M, 2 ≤ M → 2 ≤ old.energies.length → (∀ r ∈ old.energies, r.length = M) →
        (∀ r ∈ ownEnergies a out.train.core, r.length = M) →
        ∃ s, f.statistics = some s ∧
          s.average = .fin ((old.energies.length * meanOfRows M old.energies +
            a.ev.nepochs * meanOfRows M (ownEnergies a out.train.core)) /
              (old.energies.length + a.ev.nepochs))) ∧
      (∀ M M', M ≠ M' → old.energies ≠ [] → 1 ≤ a.ev.nepochs → (∀ r ∈ old.energies, r.length = M) →
        (∀ r ∈ ownEnergies a out.train.core, r.length = M') →
        f.statistics = old.statistics ∧ (runInTree a tree logdir).2 = false) := by
  have hlog : logdir = a.reload.logdir := by
    unfold IsLogdir at hl
    rwa [if_pos hs] at hl
  obtain ⟨f, h1, -, -, h2⟩ := run_files a tree logdir out h
  obtain ⟨h3, h4, h5, h6⟩ := h2 he
  rw [hrec] at h4 h5 h6
  rw [hlog] at h3 h4 h5 h6 h1 ⊢
  simp only [hold, Option.getD_some] at h3 h5 h6
  have hlen : (ownEnergies a out.train.core).length = a.ev.nepochs := by simp [ownEnergies, hrec]
  rw [h3] at h4 h5 h6
  refine ⟨rfl, f, h1, h3, fun M hM h2 hr hr' => ?_, fun M M' hne h0 hn hr hr' => ?_⟩
  · obtain ⟨s, k1, k2⟩ := finish_average M (old.energies ++ ownEnergies a out.train.core)
      (by rw [List.length_append]; omega) hM fun r hrm => (List.mem_append.1 hrm).elim (hr r) (hr' r)
    refine ⟨s, (h4 s k1).1, k2.trans (congrArg _ ?_)⟩
    unfold meanOfRows
    rw [List.map_append, List.sum_append, List.length_append, hlen]
    have hM' : (M : ℝ) ≠ 0 := by positivity
    have hl' : (old.energies.length : ℝ) ≠ 0 := by
      have : 0 < old.energies.length := by omega
      positivity
    push_cast
    by_cases hn : a.ev.nepochs = 0
    · have : ownEnergies a out.train.core = [] := List.eq_nil_of_length_eq_zero (hlen.trans hn)
      simp [hn, this]
      field_simp
    · have hn' : (a.ev.nepochs : ℝ) ≠ 0 := by exact_mod_cast hn
      field_simp
  · obtain ⟨r, rest, hrr⟩ := List.exists_cons_of_ne_nil h0
    obtain ⟨r', hr''⟩ : ∃ r', r' ∈ ownEnergies a out.train.core :=
      List.exists_mem_of_length_pos (by omega)
    obtain ⟨e, k⟩ := finish_columns (r := r) (s := r') (rows := rest ++ ownEnergies a out.train.core)
      (List.mem_append_right _ hr'') (by
        rw [hr' r' hr'', hr r (by rw [hrr]; exact List.mem_cons_self)]
        exact hne.symm)
    rw [hrr, List.cons_append] at h6
    exact h6 e k

/-! ### C104 is false with `same_logdir` -/

/-- A run of `n` epochs whose evaluation records the number of updates of its parameters, twice. -/
noncomputable def countingArgs (n : ℕ) (reload : Config.ReloadFlags) :
    Args ℕ ℕ ℕ ℕ (Ckpt ℕ ℕ ℕ ℕ) XR where
  reload := reload
  distribute := false
  vmc := { toyPhase with nepochs := n }
  ev := toyPhase
  row := fun m => m.energy
  checkpoints := fun _ => some (startOfEpoch toyFns (burned toySetup.burn toySetup.init 2) 0 2)
  su := toySetup
  energies := fun p _ _ => [(p : ℝ), p]
  base := "logs"

/-- Continue in the directory `logs`. -/
def continueFlags : Config.ReloadFlags :=
  { Config.defaultReload with logdir := "logs", sameLogdir := true }

theorem toyTraj_params (c : Core ℕ ℕ ℕ ℕ) (n : ℕ) : (traj toyFns c n).params = c.params + n := by
  induction n with
  | zero => rfl
  | succ n ih =>
    show (traj toyFns c n).params + 1 = _
    rw [ih, add_assoc]

theorem toyBurned_params (c : Core ℕ ℕ ℕ ℕ) (n : ℕ) : (burned toySetup.burn c n).params = c.params := by
  induction n with
  | zero => rfl
  | succ n ih => simpa [burned] using ih

/-- The two runs: their training ends with 3 and with 5 updates. -/
theorem counting_trains (tree : LogTree XR) (logdir : String) :
    (∃ out, Trains (countingArgs 3 Config.defaultReload) tree logdir out ∧ out.eval.isSome ∧
      out.train.core.params = 3) ∧
    ∃ out, Trains (countingArgs 5 continueFlags) tree logdir out ∧ out.eval.isSome ∧
      out.train.core.params = 5 := by
  have heval : ∀ (reload : Config.ReloadFlags) (n : ℕ) (disk : Disk (Ckpt ℕ ℕ ℕ ℕ) XR)
      (out : Outcome ℕ ℕ ℕ ℕ XR), runMolecule reload false { toyPhase with nepochs := n } toyPhase
        (fun m => m.energy) disk toySetup = some out → out.eval.isSome := fun reload n disk out h => by
    obtain ⟨start, c, -, h1, -⟩ := evaluation_phase _ _ _ _ _ _ _ _ h
    rw [Option.isSome_iff_ne_none, Ne, h1]
    rintro ⟨i, -, hi⟩
    simp [TrainingNan, toyPhase] at hi
  have hstop : ∀ n c i, ¬ stops (loopCfg { toyPhase with nepochs := n } false toySetup.paramsHaveNan)
      toyFns c i := fun n c i h => by simp [stops, loopCfg, toyPhase] at h
  constructor
  · obtain ⟨out, h1, h2⟩ := (training_phase Config.defaultReload false { toyPhase with nepochs := 3 }
      toyPhase (fun m => m.energy) (⟨(countingArgs 3 Config.defaultReload).checkpoints,
        ((tree Config.defaultReload.logdir).getD .empty).train, ((tree logdir).getD .empty).train⟩ :
        Disk (Ckpt ℕ ℕ ℕ ℕ) XR) toySetup).1
      (by simp [ReloadsCheckpoint, Config.defaultReload, Config.noName])
    refine ⟨out, h1, heval _ _ _ _ h1, ?_⟩
    rw [h2]
    show (vmcLoop _ toyFns 0 3 _).core.params = 3
    rw [(no_nan_runs_to_end _ toyFns 0 3 _ fun i _ => hstop 3 _ i).1, toyTraj_params,
      toyBurned_params]
    rfl
  · obtain ⟨out, opt, start, h1, h2, -, h3⟩ := (training_phase continueFlags false
      { toyPhase with nepochs := 5 }
      toyPhase (fun m => m.energy) (⟨(countingArgs 5 continueFlags).checkpoints,
        ((tree continueFlags.logdir).getD .empty).train, ((tree logdir).getD .empty).train⟩ :
        Disk (Ckpt ℕ ℕ ℕ ℕ) XR) toySetup).2.1 (by simp [ReloadsCheckpoint, continueFlags, Config.defaultReload])
      _ rfl
    refine ⟨out, h1, heval _ _ _ _ h1, ?_⟩
    obtain ⟨rfl, rfl⟩ := h2 rfl
    rw [h3]
    show (vmcLoop _ toyFns _ 5 _).core.params = 5
    rw [(no_nan_runs_to_end _ toyFns _ 5 _ fun i _ => hstop 5 _ i).1, toyTraj_params]
    show (traj toyFns (burned toySetup.burn toySetup.init 2) 2).params + (5 - (0 + 2)) = 5
    rw [toyTraj_params, toyBurned_params]
    rfl

theorem counting_own (n : ℕ) (reload : Config.ReloadFlags) (c : Core ℕ ℕ ℕ ℕ) :
    ownEnergies (countingArgs n reload) c =
      [[(c.params : ℝ), c.params], [(c.params : ℝ), c.params], [(c.params : ℝ), c.params]] := by
  have hlen : (ownEnergies (countingArgs n reload) c).length = 3 := by
    simp [ownEnergies, countingArgs, toyPhase]
  have hmem : ∀ r ∈ ownEnergies (countingArgs n reload) c, r = [(c.params : ℝ), c.params] := fun r hr => by
    obtain ⟨d, k, rfl⟩ := own_energies_trained (countingArgs n reload) c (fun _ _ _ => rfl) r hr
    rfl
  have := List.eq_replicate_of_mem hmem
  rw [hlen] at this
  exact this

/-- Two runs, the second continuing in the directory of the first. -/
theorem counting_history : ∃ tree : LogTree XR,
    History (fun _ => false) [(countingArgs 3 Config.defaultReload, "logs")] tree ∧
    ∃ old, tree "logs" = some old ∧ old.energies = [[3, 3], [3, 3], [3, 3]] := by
  have hl : IsLogdir (fun _ => false) (fun _ => none) (countingArgs 3 Config.defaultReload) "logs" := by
    unfold IsLogdir
    rw [if_neg (by simp [countingArgs, Config.defaultReload])]
    refine ⟨1, ?_⟩
    have : rstripSep "logs" = "logs" := rstrip_of_no_trailing_sep _ (by decide)
    simp [suffixLoop, candidate, countingArgs, this]
  obtain ⟨out, h1, h2, h3⟩ := (counting_trains (fun _ => none) "logs").1
  obtain ⟨-, f, h4, h5, -⟩ := fresh_directory_partial hl rfl h1 h2
  refine ⟨_, History.next History.none hl, f, h4, ?_⟩
  rw [h5, counting_own, h3]
  norm_num

/-- C104 is false of the code: after three updates and an evaluation, a run which continues to five
updates in the same directory saves the average 4, although its local energies are all 5. -/
theorem statistics_describe_run_fails : ¬ StatisticsDescribeRun ℕ ℕ ℕ ℕ (Ckpt ℕ ℕ ℕ ℕ) XR := by
  intro h
  obtain ⟨tree, hh, old, h1, h2⟩ := counting_history
  have hl : IsLogdir (fun _ => false) tree (countingArgs 5 continueFlags) "logs" := by
    unfold IsLogdir
    rw [if_pos (by rfl)]
    rfl
  obtain ⟨out, h3, h4, h5⟩ := (counting_trains tree "logs").2
  obtain ⟨-, f, h6, h7, h8, -⟩ := continued_directory_partial hl rfl h1 h3 h4 rfl
  have hown := counting_own 5 continueFlags out.train.core
  rw [h5] at hown
  obtain ⟨s, h9, h10⟩ := h8 2 le_rfl (by rw [h2]; simp) (by rw [h2]; simp) (by rw [hown]; simp)
  have h11 : (runInTree (countingArgs 5 continueFlags) tree "logs").2 = true := by
    obtain ⟨f', k1, -, -, k2⟩ := run_files _ tree "logs" out h3
    obtain rfl : f' = f := Option.some.inj (k1.symm.trans h6)
    obtain ⟨s', k3, -⟩ := finish_average 2 f'.energies (by rw [h7, h2, hown]; simp) le_rfl
      (by rw [h7, h2, hown]; simp)
    exact ((k2 h4).2.1 s' k3).2
  have h12 := h _ _ tree _ "logs" out hh hl h3 h4 h11 f s h6 h9
  obtain ⟨s', k1, k2⟩ := finish_average 2 (ownEnergies (countingArgs 5 continueFlags) out.train.core)
    (by rw [hown]; simp) le_rfl (by rw [hown]; simp)
  have k3 : s' = s := by
    have : finishEvaluation true (ownEnergies (countingArgs 5 continueFlags) out.train.core) =
        .ok (some s) := by
      rw [finishEvaluation, h12, hown]
      rfl
    exact Option.some.inj (Except.ok.inj (k1.symm.trans this))
  rw [← k3, k2, h2, hown] at h10
  have := XR.fin_inj.mp h10
  simp [meanOfRows, countingArgs, toyPhase] at this
  norm_num at this

/-- The hypotheses of `continued_directory_partial` and `history_directory` hold for these runs. -/
example : ∃ (tree : LogTree XR) (old : LogDir XR) (out : Outcome ℕ ℕ ℕ ℕ XR),
    History (fun _ => false) [(countingArgs 3 Config.defaultReload, "logs")] tree ∧
    IsLogdir (fun _ => false) tree (countingArgs 5 continueFlags) "logs" ∧
    tree "logs" = some old ∧ Trains (countingArgs 5 continueFlags) tree "logs" out ∧
    out.eval.isSome ∧ old.energies.length = 3 := by
  obtain ⟨tree, hh, old, h1, h2⟩ := counting_history
  obtain ⟨out, h3, h4, -⟩ := (counting_trains tree "logs").2
  exact ⟨tree, old, out, hh, by unfold IsLogdir; rw [if_pos (by rfl)]; rfl, h1, h3, h4, by rw [h2]; rfl⟩

end Verif.Props
