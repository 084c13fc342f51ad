import Verif.Lemmas.ThreadedWriter
import Verif.Props.Best

/-!
Property theorems about the background writers and crash safety: C08, C09, C10, C11.
-/

namespace Verif.Props
open TW Spec

variable {F V : Type} [DecidableEq F]

/-- C08.  In every interleaving of the producer and the writer thread (including every
timing of time-outs and of the closing flag), once `close_and_await` has returned the
sequence of items written equals the sequence of items queued. -/
theorem writer_writes_exactly_once (disk : F → DiskFile V) (s : State F V)
    (h : Reachable disk s) (hj : s.main = .joined) : s.written = s.puts ∧ s.queue = [] := by
  have hi := inv_reachable h
  have hf := hi.joined hj
  have hq := hi.finished hf
  refine ⟨?_, hq⟩
  rw [hi.hist, hf, hq]; simp [WriterPc.inflight]

/-- C08 at every moment, also when writes may raise: what has been written is an initial
segment of what has been queued, in order. -/
theorem written_is_prefix (disk : F → DiskFile V) (s : State F V) (h : ReachableF disk s) :
    s.written <+: s.puts := by
  obtain ⟨rest, hr, -⟩ := prefix_reachableF h
  exact ⟨s.wpc.inflight ++ rest ++ s.queue, by rw [hr]; simp⟩

/-- Side condition of C08 made visible: if a write may raise, items queued behind it can be
lost although `close_and_await` returns normally. -/
theorem failed_write_loses_items :
    ∃ s : State ℕ ℕ, ReachableF (fun _ => .absent) s ∧ s.main = .joined ∧
      s.puts = [(0, 10), (1, 11)] ∧ s.written = [] := by
  let s0 : State ℕ ℕ := init (fun _ => .absent)
  let s1 : State ℕ ℕ := { s0 with queue := [(0, 10)], puts := [(0, 10)] }
  let s2 : State ℕ ℕ := { s1 with queue := [(0, 10), (1, 11)], puts := [(0, 10), (1, 11)] }
  let s3 : State ℕ ℕ := { s2 with wpc := .getting }
  let s4 : State ℕ ℕ := { s3 with wpc := .writing 0 10, queue := [(1, 11)] }
  let s5 : State ℕ ℕ := { s4 with wpc := .dead }
  let s6 : State ℕ ℕ := { s5 with done := true, main := .closing }
  let s7 : State ℕ ℕ := { s6 with main := .joined }
  have h1 : StepF s0 s1 := Or.inl (.put s0 0 10 rfl)
  have h2 : StepF s1 s2 := Or.inl (.put s1 1 11 rfl)
  have h3 : StepF s2 s3 := Or.inr (Or.inl (.enterLoop s2 rfl rfl))
  have h4 : StepF s3 s4 := Or.inr (Or.inl (.get s3 0 10 _ rfl rfl))
  have h5 : StepF s4 s5 := Or.inr (Or.inr (.early s4 0 10 (Or.inl rfl)))
  have h6 : StepF s5 s6 := Or.inl (.setDone s5 rfl)
  have h7 : StepF s6 s7 := Or.inl (.join s6 rfl (Or.inr rfl))
  exact ⟨s7, ((((((Relation.ReflTransGen.single h1).tail h2).tail h3).tail h4).tail h5).tail
    h6).tail h7, rfl, rfl, rfl⟩

/-- `n` steps of the system. -/
inductive StepsN : ℕ → State F V → State F V → Prop
  | zero (s : State F V) : StepsN 0 s s
  | succ {n : ℕ} {s t u : State F V} (h : StepsN n s t) (hs : Step t u) : StepsN (n + 1) s u

/-- C09.  From any reachable state in which closing has begun, every schedule takes at most
`5 * (queued items) + 5` further steps, and a schedule can only stop once
`close_and_await` has returned: closing cannot hang. -/
theorem closing_terminates (disk : F → DiskFile V) (s : State F V) (h : Reachable disk s)
    (hc : s.main = .closing) (n : ℕ) (t : State F V) (hst : StepsN n s t) :
    n ≤ 5 * s.queue.length + 5 ∧ ((∀ u, ¬ Step t u) → t.main = .joined) := by
  have hm : TW.measure s ≤ 5 * s.queue.length + 4 := by
    unfold TW.measure; split <;> omega
  -- every step uses up the measure, with one extra step for the join
  have key : Reachable disk t ∧
      ((t.main = .closing ∧ n + TW.measure t ≤ TW.measure s) ∨
       (t.main = .joined ∧ n ≤ TW.measure s + 1 ∧ t.wpc = .finished)) := by
    induction hst with
    | zero => exact ⟨h, Or.inl ⟨hc, by omega⟩⟩
    | succ hst hs ih =>
      obtain ⟨hr, ih⟩ := ih h hc hm
      refine ⟨hr.tail hs, ?_⟩
      have hi := inv_reachable hr
      rcases ih with ⟨hcl, hle⟩ | ⟨hj, hle, hf⟩
      · have hd : (_ : State F V).done = true := hi.done_iff.mpr (by rw [hcl]; simp)
        rcases hs with hs | hs
        · cases hs with
          | put f v hm' => rw [hcl] at hm'; cases hm'
          | setDone hm' => rw [hcl] at hm'; cases hm'
          | join hm' hw =>
            right
            refine ⟨rfl, by omega, ?_⟩
            rcases hw with h | h
            · exact h
            · exact absurd h hi.not_dead
        · have hdec := (measure_decreases hd hs).1
          left
          refine ⟨?_, by omega⟩
          cases hs <;> exact hcl
      · exfalso
        rcases hs with hs | hs
        · cases hs <;> simp_all
        · cases hs <;> simp_all
  obtain ⟨hr, key⟩ := key
  have hi := inv_reachable hr
  refine ⟨?_, ?_⟩
  · rcases key with ⟨-, hle⟩ | ⟨-, hle, -⟩ <;> omega
  · intro hno
    rcases key with ⟨hcl, -⟩ | ⟨hj, -⟩
    · by_cases hf : t.wpc = .finished
      · exact absurd (Or.inl (.join t hcl (Or.inl hf))) (hno _)
      · obtain ⟨u, hu⟩ := writer_progress hi hf
        exact absurd (Or.inr hu) (hno u)
    · exact hj

/-- C10, for any use of the writer.  At every instant, every file other than the one open
for writing holds exactly the last item written to it (or its old contents if none was),
and at most one file is open. -/
theorem crash_leaves_completed_files (disk : F → DiskFile V) (s : State F V)
    (h : Reachable disk s) :
    ∃ busy : Option F, ∀ f, busy ≠ some f →
      s.disk f = match ((s.written.filter (fun x => decide (x.1 = f))).getLast?) with
        | some x => .complete x.2
        | none => disk f := by
  refine ⟨s.wpc.openFile, fun f hf => ?_⟩
  rw [(inv_reachable h).files f hf]
  unfold expected lastFor
  cases (s.written.filter (fun x => decide (x.1 = f))).getLast? <;> rfl

variable {P D S K : Type}

/-- C10 for training runs.  Let the checkpoint writer be in any reachable state in which the
main thread has queued part of the checkpoints of a training run.  Every regular checkpoint
whose write has completed is intact on disk, whatever the writer is doing at that instant,
so a crash cannot damage it. -/
theorem crash_keeps_regular_checkpoints (cfg : LoopCfg P D) (fns : LoopFns P D S K) (e N : ℕ)
    (c : Core P D S K) (hlog : cfg.hasLogdir = true) (hev : cfg.checkpointEvery ≠ some 0)
    (disk : FileName → DiskFile (Ckpt P D S K)) (s : State FileName (Ckpt P D S K))
    (h : Reachable disk s) (hp : s.puts <+: (vmcLoop cfg fns e N c).ckptQ) (k : ℕ)
    (ck : Ckpt P D S K) (hw : (.regular k, ck) ∈ s.written) :
    s.disk (.regular k) = .complete ck := by
  have hi := inv_reachable h
  -- the names of the regular checkpoints of a run are pairwise different
  have hnd : (((vmcLoop cfg fns e N c).ckptQ.filter (fun x => x.1.isRegular)).map
      Prod.fst).Nodup := by
    cases hce : cfg.checkpointEvery with
    | none =>
      have : (vmcLoop cfg fns e N c).ckptQ.filter (fun x => x.1.isRegular) = [] := by
        rw [vmcLoop_eq, finish_filter _ _ _ rfl]
        generalize N - e = n
        induction n with
        | zero => simp [runN_zero, initState]
        | succ n ih =>
          rw [runN_succ]
          split
          · exact ih
          · cases hm : rawMetrics fns (runN cfg fns e c n).core 0 with
            | none => rw [epochStep_none _ _ _ _ hm]; exact ih
            | some m =>
              rw [epochStep_some _ _ _ _ m hlog hm]
              simp only [List.filter_append, track_filter_regular, List.append_nil,
                saveRegular_filter, hce, ih]
      rw [this]; simp
    | some every =>
      have h1 : 1 ≤ every := by
        rcases Nat.eq_zero_or_pos every with h0 | h0
        · subst h0; exact absurd hce hev
        · exact h0
      rw [regular_checkpoints_exact cfg fns e N c every hlog hce h1, List.map_map]
      apply List.Nodup.map
      · intro a b hab
        simp only [Function.comp, FileName.regular.injEq] at hab
        omega
      · exact List.Nodup.filter _ List.nodup_range
  have hsub : (s.written ++ s.wpc.inflight) <+: (vmcLoop cfg fns e N c).ckptQ := by
    refine List.IsPrefix.trans ?_ hp
    rw [hi.hist]; exact List.prefix_append _ _
  have hnd' : (((s.written ++ s.wpc.inflight).filter (fun x => x.1.isRegular)).map
      Prod.fst).Nodup :=
    hnd.sublist (((hsub.sublist).filter _).map _)
  rw [List.filter_append, List.map_append] at hnd'
  -- the file being written is a different one
  have hopen : s.wpc.openFile ≠ some (.regular k) := by
    intro ho
    have hin : (FileName.regular k) ∈ (s.wpc.inflight.filter
        (fun x => x.1.isRegular)).map Prod.fst := by
      cases hpc : s.wpc <;> rw [hpc] at ho <;> simp_all [WriterPc.openFile, WriterPc.inflight,
        FileName.isRegular]
    have hin' : (FileName.regular k) ∈ (s.written.filter
        (fun x => x.1.isRegular)).map Prod.fst :=
      List.mem_map.mpr ⟨_, List.mem_filter.mpr ⟨hw, rfl⟩, rfl⟩
    exact (List.nodup_append.mp hnd').2.2 _ hin' _ hin rfl
  rw [hi.files _ hopen]
  -- the last item written to it is `ck`
  have huniq : ∀ x ∈ s.written.filter (fun x => decide (x.1 = FileName.regular k)),
      x = (.regular k, ck) := by
    intro x hx
    obtain ⟨hx1, hx2⟩ := List.mem_filter.mp hx
    have hx2 : x.1 = .regular k := by simpa using hx2
    have hnd1 := (List.nodup_append.mp hnd').1
    exact List.inj_on_of_nodup_map hnd1
      (List.mem_filter.mpr ⟨hx1, by rw [hx2]; rfl⟩) (List.mem_filter.mpr ⟨hw, rfl⟩) hx2
  have hmem : (FileName.regular k, ck) ∈
      s.written.filter (fun x => decide (x.1 = FileName.regular k)) :=
    List.mem_filter.mpr ⟨hw, by simp⟩
  unfold expected lastFor
  cases hl : (s.written.filter (fun x => decide (x.1 = FileName.regular k))).getLast? with
  | none => rw [List.getLast?_eq_none_iff] at hl; rw [hl] at hmem; simp at hmem
  | some y =>
    have := huniq y (List.mem_of_getLast? hl)
    subst this; rfl

/-- C11 as stated: a completely written best checkpoint is still complete at every later
instant. -/
def BestAlwaysUsable : Prop :=
  ∀ (cfg : LoopCfg ℕ ℕ) (fns : LoopFns ℕ ℕ ℕ ℕ) (N : ℕ) (c : Core ℕ ℕ ℕ ℕ)
    (s : State FileName (Ckpt ℕ ℕ ℕ ℕ)),
    Reachable (fun _ => .absent) s → s.puts <+: (vmcLoop cfg fns 0 N c).ckptQ →
    (∃ ck, (.best, ck) ∈ s.written) → ∃ ck, s.disk .best = .complete ck

/-- C11, what holds: the best checkpoint on disk is complete (and is the last one written)
at every instant outside the write of a new best checkpoint.  Missing: the instants during
that write, where the file is truncated, see `best_checkpoint_can_be_lost`. -/
theorem crash_keeps_best_partial (disk : FileName → DiskFile V) (s : State FileName V)
    (h : Reachable disk s) (hopen : s.wpc.openFile ≠ some .best)
    (hw : ∃ v, (.best, v) ∈ s.written) :
    ∃ v, lastPut .best s.written = some v ∧ s.disk .best = .complete v := by
  have hf := (inv_reachable h).files _ hopen
  obtain ⟨v, hv⟩ := hw
  have hmem : (FileName.best, v) ∈ s.written.filter (fun x => decide (x.1 = FileName.best)) :=
    List.mem_filter.mpr ⟨hv, by simp⟩
  unfold expected lastFor at hf
  unfold lastPut
  cases hl : (s.written.filter (fun x => decide (x.1 = FileName.best))).getLast? with
  | none => rw [List.getLast?_eq_none_iff] at hl; rw [hl] at hmem; simp at hmem
  | some y => rw [hl] at hf; exact ⟨y.2, rfl, hf⟩

/-- A two-epoch run with falling energies, saving a best checkpoint each epoch. -/
noncomputable def fallFns : LoopFns ℕ ℕ ℕ ℕ where
  walker _ d k := (.fin 1, d, k)
  update p d o k := (p + 1, d, o, some ⟨.fin (-p), .fin 0, .fin 0, .fin 0, .fin 0, none⟩, k)

theorem fall_metric (a : ℝ) (n : ℤ) (hn : 0 < n) :
    getCheckpointMetric (.fin a) (.fin 0) n 1 = .fin a := by
  have h : ((n : ℝ) / 1) ≠ 0 := by
    have : (0 : ℝ) < n := by exact_mod_cast hn
    simpa using this.ne'
  unfold getCheckpointMetric
  rw [if_neg (by push Not; exact ⟨by norm_num, hn⟩)]
  simp only
  rw [XR.fin_div h, zero_div, XR.sqrt_fin le_rfl]
  simp

/-- The falling run queues a best checkpoint in both epochs. -/
theorem fall_run : (vmcLoop nanCfg fallFns 0 2 ⟨0, 0, 0, 0⟩).ckptQ =
    [(.best, ⟨0, 0, 0, 0, 0⟩), (.best, ⟨1, 0, 1, 0, 0⟩)] := by
  have d1 : ∀ a b : ℝ, (XR.fin a / XR.fin 1 : XR) = .fin a := by
    intro a b; rw [XR.fin_div one_ne_zero, div_one]
  have d2 : ∀ a : ℝ, (XR.fin a / XR.fin 2 : XR) = .fin (a / 2) := by
    intro a; rw [XR.fin_div two_ne_zero]
  have step0 : epochStep nanCfg fallFns 0 (initState nanCfg ⟨0, 0, 0, 0⟩) =
      { core := ⟨1, 0, 0, 0⟩, ckMetric := .fin 0, energy := ⟨3, .fin 0, [.fin 0]⟩
        variance := ⟨3, .fin 0, [.fin 0]⟩, bestData := none, nansDetected := false
        ckptQ := [(.best, ⟨0, 0, 0, 0, 0⟩)]
        metricsQ := [⟨.fin 0, .fin 0, .fin 0, .fin 0, .fin 1, none⟩] } := by
    have hm := fall_metric 0 4 (by norm_num)
    simp [epochStep, fallFns, handleCheckpoints, nanCfg, saveMetricsAndRegular,
      trackAndSaveBest, initState, RunningMetric.new, RunningMetric.moveHistoryWindow,
      XR.ofNat, d1 0 0, hm, XR.minimum_pinf_right]
  have step1 : (epochStep nanCfg fallFns 1
      { core := ⟨1, 0, 0, 0⟩, ckMetric := .fin 0, energy := ⟨3, .fin 0, [.fin 0]⟩
        variance := ⟨3, .fin 0, [.fin 0]⟩, bestData := none, nansDetected := false
        ckptQ := [(.best, ⟨0, 0, 0, 0, 0⟩)]
        metricsQ := [⟨.fin 0, .fin 0, .fin 0, .fin 0, .fin 1, none⟩] }).ckptQ =
      [(.best, ⟨0, 0, 0, 0, 0⟩), (.best, ⟨1, 0, 1, 0, 0⟩)] ∧
      (epochStep nanCfg fallFns 1
      { core := ⟨1, 0, 0, 0⟩, ckMetric := .fin 0, energy := ⟨3, .fin 0, [.fin 0]⟩
        variance := ⟨3, .fin 0, [.fin 0]⟩, bestData := none, nansDetected := false
        ckptQ := [(.best, ⟨0, 0, 0, 0, 0⟩)]
        metricsQ := [⟨.fin 0, .fin 0, .fin 0, .fin 0, .fin 1, none⟩] }).bestData = none := by
    have hm : XR.lt (getCheckpointMetric (XR.fin (-1 / 2)) (XR.fin 0) (4 * 2) 1) (XR.fin 0) := by
      rw [fall_metric _ _ (by norm_num)]; norm_num
    have he : (RunningMetric.mk 3 (.fin 0) [.fin 0]).moveHistoryWindow (.fin (-1)) =
        ⟨3, .fin (-1 / 2), [.fin 0, .fin (-1)]⟩ := by
      simp [RunningMetric.moveHistoryWindow, XR.ofNat, d2]
    have hv : (RunningMetric.mk 3 (.fin 0) [.fin 0]).moveHistoryWindow (.fin 0) =
        ⟨3, .fin 0, [.fin 0, .fin 0]⟩ := by
      simp [RunningMetric.moveHistoryWindow, XR.ofNat, d2]
    rw [epochStep_some nanCfg fallFns 1 _ ⟨.fin (-1), .fin 0, .fin 0, .fin 0, .fin 0, none⟩ rfl
      (by simp [rawMetrics, traj, fallFns])]
    simp only
    rw [trackAndSaveBest_lt _ _ 1 _ _ _ _ _ _ rfl rfl]
    · simp [saveMetricsAndRegular, nanCfg]
    · rw [fullMetrics_energy, fullMetrics_variance]
      simp only [he, hv]
      exact hm
  have hl : List.range' 0 (2 - 0) = [0, 1] := rfl
  unfold vmcLoop
  rw [hl]
  simp only [runEpochs, step0, Bool.false_eq_true, if_false]
  unfold finishCheckpointing
  split
  · rename_i ck hck
    exfalso
    split at hck <;> (rw [step1.2] at hck; cases hck)
  · split <;> exact step1.1

/-- C11 is false of the code: `best_checkpoint.npz` is opened with "wb" in place, so there
is a reachable instant at which the only best checkpoint is truncated. -/
theorem best_checkpoint_can_be_lost : ¬ BestAlwaysUsable := by
  intro h
  let c0 : Ckpt ℕ ℕ ℕ ℕ := ⟨0, 0, 0, 0, 0⟩
  let c1 : Ckpt ℕ ℕ ℕ ℕ := ⟨1, 0, 1, 0, 0⟩
  let S := State FileName (Ckpt ℕ ℕ ℕ ℕ)
  let d0 : FileName → DiskFile (Ckpt ℕ ℕ ℕ ℕ) := fun _ => .absent
  let s0 : S := init d0
  let s1 : S := { s0 with queue := [(.best, c0)], puts := [(.best, c0)] }
  let s2 : S := { s1 with queue := [(.best, c0), (.best, c1)],
                          puts := [(.best, c0), (.best, c1)] }
  let s3 : S := { s2 with wpc := .getting }
  let s4 : S := { s3 with wpc := .writing .best c0, queue := [(.best, c1)] }
  let s5 : S := { s4 with wpc := .writingOpen .best c0, disk := setFile s4.disk .best .truncated }
  let s6 : S := { s5 with wpc := .loopTop, disk := setFile s5.disk .best (.complete c0),
                          written := [(.best, c0)] }
  let s7 : S := { s6 with wpc := .getting }
  let s8 : S := { s7 with wpc := .writing .best c1, queue := [] }
  let s9 : S := { s8 with wpc := .writingOpen .best c1, disk := setFile s8.disk .best .truncated }
  have h1 : Step s0 s1 := Or.inl (.put s0 .best c0 rfl)
  have h2 : Step s1 s2 := Or.inl (.put s1 .best c1 rfl)
  have h3 : Step s2 s3 := Or.inr (.enterLoop s2 rfl rfl)
  have h4 : Step s3 s4 := Or.inr (.get s3 .best c0 _ rfl rfl)
  have h5 : Step s4 s5 := Or.inr (.openFile s4 .best c0 rfl)
  have h6 : Step s5 s6 := Or.inr (.finishFile s5 .best c0 rfl)
  have h7 : Step s6 s7 := Or.inr (.enterLoop s6 rfl rfl)
  have h8 : Step s7 s8 := Or.inr (.get s7 .best c1 _ rfl rfl)
  have h9 : Step s8 s9 := Or.inr (.openFile s8 .best c1 rfl)
  have hr : Reachable d0 s9 :=
    ((((((((Relation.ReflTransGen.single h1).tail h2).tail h3).tail h4).tail h5).tail
      h6).tail h7).tail h8).tail h9
  obtain ⟨ck, hck⟩ := h nanCfg fallFns 2 ⟨0, 0, 0, 0⟩ s9 hr (by rw [fall_run])
    ⟨c0, by simp [s9, s8, s7, s6]⟩
  simp [s9, setFile] at hck

/-- Hypotheses of C08 on a schedule with one item queued, closed and joined. -/
example : ∃ s : State ℕ ℕ, Reachable (fun _ => .absent) s ∧ s.main = .joined ∧
    s.puts = [(0, 10)] := by
  let s0 : State ℕ ℕ := init (fun _ => .absent)
  let s1 : State ℕ ℕ := { s0 with queue := [(0, 10)], puts := [(0, 10)] }
  let s2 : State ℕ ℕ := { s1 with done := true, main := .closing }
  let s3 : State ℕ ℕ := { s2 with wpc := .drainCheck }
  let s4 : State ℕ ℕ := { s3 with wpc := .drainGet }
  let s5 : State ℕ ℕ := { s4 with wpc := .drainWriting 0 10, queue := [] }
  let s6 : State ℕ ℕ := { s5 with wpc := .drainWritingOpen 0 10,
                                  disk := setFile s5.disk 0 .truncated }
  let s7 : State ℕ ℕ := { s6 with wpc := .drainCheck, disk := setFile s6.disk 0 (.complete 10),
                                  written := [(0, 10)] }
  let s8 : State ℕ ℕ := { s7 with wpc := .finished }
  let s9 : State ℕ ℕ := { s8 with main := .joined }
  have h1 : Step s0 s1 := Or.inl (.put s0 0 10 rfl)
  have h2 : Step s1 s2 := Or.inl (.setDone s1 rfl)
  have h3 : Step s2 s3 := Or.inr (.leaveLoop s2 rfl rfl)
  have h4 : Step s3 s4 := Or.inr (.drainMore s3 rfl (by simp [s3, s2, s1]))
  have h5 : Step s4 s5 := Or.inr (.drainTake s4 0 10 _ rfl rfl)
  have h6 : Step s5 s6 := Or.inr (.drainOpen s5 0 10 rfl)
  have h7 : Step s6 s7 := Or.inr (.drainFinish s6 0 10 rfl)
  have h8 : Step s7 s8 := Or.inr (.drainEnd s7 rfl rfl)
  have h9 : Step s8 s9 := Or.inl (.join s8 rfl (Or.inl rfl))
  exact ⟨s9, ((((((((Relation.ReflTransGen.single h1).tail h2).tail h3).tail h4).tail h5).tail
    h6).tail h7).tail h8).tail h9, rfl, rfl⟩

end Verif.Props
