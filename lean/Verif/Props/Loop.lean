import Verif.Lemmas.LoopCkpt

/-!
Property theorems for the training loop: C01 (resume), C02 (regular checkpoints),
C06 (nan handling).
-/

namespace Verif.Props
open Spec

variable {P D S K : Type}

/-- A loop reports nan epochs only when it has a log directory and nan checking is on. -/
def stops (cfg : LoopCfg P D) (fns : LoopFns P D S K) (c : Core P D S K) (n : ℕ) : Prop :=
  cfg.hasLogdir = true ∧ cfg.checkForNans = true ∧ nanEpoch cfg.paramsHaveNan fns c n

/-- C01.  Take any checkpoint file (regular, nans or best) queued by a run over the epochs
`s, ..., N-1`.  Restarting at the stored epoch from the stored state, with any other
logging settings that agree on nan handling, ends in the same parameters, data, optimizer
state, key and nan flag as the original run. -/
theorem resume_reproduces_run (cfg cfg' : LoopCfg P D) (fns : LoopFns P D S K) (s N : ℕ)
    (c : Core P D S K) (file : FileName) (ck : Ckpt P D S K)
    (hlog : cfg'.hasLogdir = cfg.hasLogdir) (hnan : cfg'.checkForNans = cfg.checkForNans)
    (hpn : cfg'.paramsHaveNan = cfg.paramsHaveNan)
    (hmem : (file, ck) ∈ (vmcLoop cfg fns s N c).ckptQ) :
    let resumed := vmcLoop cfg' fns ck.epoch N ⟨ck.params, ck.data, ck.opt, ck.key⟩
    let full := vmcLoop cfg fns s N c
    resumed.core = full.core ∧ resumed.nansDetected = full.nansDetected := by
  obtain ⟨i, hi, hck, -⟩ := vmcLoop_ckpts cfg fns s N c _ hmem
  simp only at hck
  subst hck
  have hnb := epochsRun_no_bad_before hi
  have hle := epochsRun_le (loopBad cfg fns c) (N - s)
  have hN : N - s = i + (N - (s + i)) := by omega
  have hcore : (⟨(startOfEpoch fns c s i).params, (startOfEpoch fns c s i).data,
      (startOfEpoch fns c s i).opt, (startOfEpoch fns c s i).key⟩ : Core P D S K)
      = traj fns c i := rfl
  have hep : (startOfEpoch fns c s i).epoch = s + i := rfl
  have hbad : loopBad cfg' fns (traj fns c i) = fun j => loopBad cfg fns c (i + j) := by
    funext j
    have h1 : loopBad cfg' fns (traj fns c i) j = loopBad cfg fns (traj fns c i) j := by
      unfold loopBad; rw [hlog, hnan, hpn]
    rw [h1]; exact propext (loopBad_traj cfg fns c i j)
  simp only [hcore, hep, vmcLoop_eq, finish_core, finish_nans]
  have h1 := runN_core_nans cfg' fns (s + i) (traj fns c i) (N - (s + i))
  have h2 := runN_core_nans cfg fns s c (N - s)
  rw [hbad] at h1
  constructor
  · rw [h1.1, h2.1, traj_shift, hN, epochsRun_add hnb]
  · rw [Bool.eq_iff_iff, h1.2, h2.2]
    constructor
    · rintro ⟨j, hj, hb⟩; exact ⟨i + j, by omega, hb⟩
    · rintro ⟨j, hj, hb⟩
      by_cases hji : j < i
      · exact absurd ⟨j, hji, hb⟩ hnb
      · refine ⟨j - i, by omega, ?_⟩
        show loopBad cfg fns c (i + (j - i))
        rwa [Nat.add_sub_cancel' (by omega)]

/-- C02.  The regular checkpoints queued by a run are, in order, exactly one file
`<s+i+1>.npz` for each executed epoch `i` that reported metrics and whose number plus one
is divisible by the period, holding the state at the start of that epoch.  (A period of 0
raises `ZeroDivisionError` in the code and is excluded.) -/
theorem regular_checkpoints_exact (cfg : LoopCfg P D) (fns : LoopFns P D S K) (s N : ℕ)
    (c : Core P D S K) (every : ℕ)
    (hlog : cfg.hasLogdir = true) (hev : cfg.checkpointEvery = some every) (_ : 1 ≤ every) :
    (vmcLoop cfg fns s N c).ckptQ.filter (fun x => x.1.isRegular) =
      ((List.range (epochsRun (stops cfg fns c) (N - s))).filter
        (fun i => decide (every ∣ s + i + 1) && (rawMetrics fns c i).isSome)).map
        (fun i => (FileName.regular (s + i + 1), startOfEpoch fns c s i)) := by
  have key : ∀ n, (runN cfg fns s c n).ckptQ.filter (fun x => x.1.isRegular) =
      ((List.range (epochsRun (loopBad cfg fns c) n)).filter
        (fun i => decide (every ∣ s + i + 1) && (rawMetrics fns c i).isSome)).map
        (fun i => (FileName.regular (s + i + 1), startOfEpoch fns c s i)) := by
    intro n
    induction n with
    | zero => simp [runN_zero, initState, epochsRun]
    | succ n ih =>
      have hcn := runN_core_nans cfg fns s c n
      rw [runN_succ]
      by_cases hb : ∃ i < n, loopBad cfg fns c i
      · rw [if_pos (hcn.2.mpr hb), epochsRun_succ_bad hb]; exact ih
      · have hn : (runN cfg fns s c n).nansDetected = false := by
          by_contra h; exact hb (hcn.2.mp (by simpa using h))
        have hE : epochsRun (loopBad cfg fns c) n = n := epochsRun_of_not_bad hb
        have hE' : epochsRun (loopBad cfg fns c) (n + 1) = n + 1 := by
          rw [epochsRun, if_neg hb]
        rw [hE] at ih hcn
        rw [if_neg (by simp [hn]), hE', List.range_succ, List.filter_append, List.map_append]
        have hraw : rawMetrics fns (runN cfg fns s c n).core 0 = rawMetrics fns c n := by
          rw [hcn.1, rawMetrics_traj, Nat.add_zero]
        cases hm : rawMetrics fns (runN cfg fns s c n).core 0 with
        | none =>
          rw [epochStep_none _ _ _ _ hm]
          rw [hraw] at hm
          simp [ih, hm]
        | some m =>
          rw [epochStep_some _ _ _ _ m hlog hm]
          rw [hraw] at hm
          simp only [List.filter_append, track_filter_regular, List.append_nil,
            saveRegular_filter, hev]
          rw [ih]
          congr 1
          by_cases hd : every ∣ s + n + 1
          · rw [if_pos (Nat.mod_eq_zero_of_dvd hd)]
            simp [hd, hm, hcn.1, startOfEpoch_eq]
          · rw [if_neg (fun h => hd (Nat.dvd_of_mod_eq_zero h))]
            simp [hd]
  rw [vmcLoop_eq, finish_filter _ _ _ rfl]
  exact key _

/-- C06, nan case.  If epoch `i` is the first one with a nan, the run ends in the state
right after that epoch, reports the nan, and queues exactly one nans checkpoint: that of
epoch `i`. -/
theorem nan_stops_run (cfg : LoopCfg P D) (fns : LoopFns P D S K) (s N i : ℕ)
    (c : Core P D S K) (hlog : cfg.hasLogdir = true) (hchk : cfg.checkForNans = true)
    (hi : i < N - s) (hbad : nanEpoch cfg.paramsHaveNan fns c i)
    (hfirst : ∀ j < i, ¬ nanEpoch cfg.paramsHaveNan fns c j) :
    (vmcLoop cfg fns s N c).core = traj fns c (i + 1) ∧
    (vmcLoop cfg fns s N c).nansDetected = true ∧
    (vmcLoop cfg fns s N c).ckptQ.filter (fun x => x.1.isNans) =
      [(.nans (s + i + 1), startOfEpoch fns c s i)] := by
  have hb : loopBad cfg fns c i := ⟨hlog, hchk, hbad⟩
  have hf : ∀ j < i, ¬ loopBad cfg fns c j := fun j hj h => hfirst j hj h.2.2
  have hcn := runN_core_nans cfg fns s c (N - s)
  rw [epochsRun_first hi hb hf] at hcn
  refine ⟨?_, ?_, ?_⟩
  · rw [vmcLoop_eq, finish_core, hcn.1]
  · rw [vmcLoop_eq, finish_nans]; exact hcn.2.mpr ⟨i, hi, hb⟩
  · rw [vmcLoop_eq, finish_filter _ _ _ rfl]
    have key : ∀ n, (runN cfg fns s c n).ckptQ.filter (fun x => x.1.isNans) =
        if i < n then [(.nans (s + i + 1), startOfEpoch fns c s i)] else [] := by
      intro n
      induction n with
      | zero => simp [runN_zero, initState]
      | succ n ih =>
        have hcn := runN_core_nans cfg fns s c n
        rw [runN_succ]
        by_cases hin : i < n
        · rw [if_pos (hcn.2.mpr ⟨i, hin, hb⟩), ih, if_pos hin, if_pos (by omega)]
        · have hnb : ¬ ∃ j < n, loopBad cfg fns c j := by
            rintro ⟨j, hj, h⟩; exact hf j (by omega) h
          have hn : (runN cfg fns s c n).nansDetected = false := by
            by_contra h; exact hnb (hcn.2.mp (by simpa using h))
          rw [epochsRun_of_not_bad hnb] at hcn
          rw [if_neg (by simp [hn])]
          have hflag := epochStep_nans cfg fns (s + n) _ hn
          rw [hcn.1, loopBad_traj, Nat.add_zero] at hflag
          rw [if_neg hin] at ih
          cases hm : rawMetrics fns (runN cfg fns s c n).core 0 with
          | none =>
            have : ¬ i < n + 1 := by
              intro h
              have : i = n := by omega
              subst this
              obtain ⟨m, hm', _⟩ := hbad
              rw [hcn.1, rawMetrics_traj, Nat.add_zero, hm'] at hm
              cases hm
            rw [epochStep_none _ _ _ _ hm, if_neg this]
            exact ih
          | some m =>
            rw [epochStep_some _ _ _ _ m hlog hm] at hflag ⊢
            simp only [List.filter_append, track_filter_nans, List.append_nil,
              saveRegular_filter_nans, ih, List.nil_append] at hflag ⊢
            by_cases h : i = n
            · subst h
              rw [if_pos (hflag.mpr hb), if_pos (by omega), hcn.1]; rfl
            · rw [if_neg (fun h' => ?_), if_neg (by omega)]
              exact hf n (by omega) (hflag.mp h')
    rw [key, if_pos hi]

/-- C06, clean case.  Without a nan epoch (or with nan checking or logging off) the run
executes every epoch, reports no nan and queues no nans checkpoint. -/
theorem no_nan_runs_to_end (cfg : LoopCfg P D) (fns : LoopFns P D S K) (s N : ℕ)
    (c : Core P D S K) (h : ∀ i < N - s, ¬ stops cfg fns c i) :
    (vmcLoop cfg fns s N c).core = traj fns c (N - s) ∧
    (vmcLoop cfg fns s N c).nansDetected = false ∧
    (vmcLoop cfg fns s N c).ckptQ.filter (fun x => x.1.isNans) = [] := by
  have hnb : ∀ n ≤ N - s, ¬ ∃ i < n, loopBad cfg fns c i := by
    rintro n hn ⟨i, hi, hb⟩; exact h i (by omega) hb
  have hcn := runN_core_nans cfg fns s c (N - s)
  rw [epochsRun_of_not_bad (hnb _ le_rfl)] at hcn
  refine ⟨?_, ?_, ?_⟩
  · rw [vmcLoop_eq, finish_core, hcn.1]
  · rw [vmcLoop_eq, finish_nans]
    by_contra h'; exact hnb _ le_rfl (hcn.2.mp (by simpa using h'))
  · rw [vmcLoop_eq, finish_filter _ _ _ rfl]
    have key : ∀ n ≤ N - s, (runN cfg fns s c n).ckptQ.filter (fun x => x.1.isNans) = [] := by
      intro n
      induction n with
      | zero => simp [runN_zero, initState]
      | succ n ih =>
        intro hle
        have ih := ih (by omega)
        have hcn := runN_core_nans cfg fns s c n
        have hn : (runN cfg fns s c n).nansDetected = false := by
          by_contra h'; exact hnb n (by omega) (hcn.2.mp (by simpa using h'))
        rw [epochsRun_of_not_bad (hnb n (by omega))] at hcn
        rw [runN_succ, if_neg (by simp [hn])]
        have hflag := epochStep_nans cfg fns (s + n) _ hn
        rw [hcn.1, loopBad_traj, Nat.add_zero] at hflag
        by_cases hl : cfg.hasLogdir = true
        · cases hm : rawMetrics fns (runN cfg fns s c n).core 0 with
          | none => rw [epochStep_none _ _ _ _ hm]; exact ih
          | some m =>
            rw [epochStep_some _ _ _ _ m hl hm] at hflag ⊢
            simp only [List.filter_append, track_filter_nans, List.append_nil,
              saveRegular_filter_nans, ih, List.nil_append] at hflag ⊢
            rw [if_neg]
            intro h'; exact h n (by omega) (hflag.mp h')
        · rw [epochStep_nolog _ _ _ _ (by simpa using hl) hn]; exact ih
    exact key _ le_rfl

/-! ### Concrete runs meeting the hypotheses -/

/-- A toy run: parameters count updates, the walker counts walks, the key counts draws, and
the unclipped energy of the third epoch is nan. -/
noncomputable def toyFns : LoopFns ℕ ℕ ℕ ℕ where
  walker p d k := (.fin 1, d + p + 1, k + 1)
  update p d o k := (p + 1, d, o + p,
    some ⟨.fin (-p), .fin 1, if p = 2 then .nan else .fin 0, .fin 1, .fin 0, none⟩, k + 1)

noncomputable def toyCfg : LoopCfg ℕ ℕ :=
  { nchains := 4, hasLogdir := true, checkpointEvery := some 2, bestCheckpointEvery := some 3
    varianceScale := 1, checkForNans := true, recordAmplitudes := none, nhistoryMax := 5
    paramsHaveNan := fun _ => False }

/-- the run over epochs 0..9 queues "2.npz" with the state at the start of epoch 1 -/
example : (FileName.regular 2, startOfEpoch toyFns ⟨0, 0, 0, 0⟩ 0 1) ∈
    (vmcLoop toyCfg toyFns 0 10 ⟨0, 0, 0, 0⟩).ckptQ := by
  have hnan : ∀ j < 1, ¬ stops toyCfg toyFns ⟨0, 0, 0, 0⟩ j := by
    rintro j hj ⟨-, -, m, hm, h⟩
    have : j = 0 := by omega
    subst this
    simp [rawMetrics, traj, toyFns] at hm
    subst hm
    simp [toyCfg] at h
  have h2 : 2 ≤ epochsRun (stops toyCfg toyFns ⟨0, 0, 0, 0⟩) 10 := by
    have := epochsRun_add (bad := stops toyCfg toyFns ⟨0, 0, 0, 0⟩) (i := 1)
      (by rintro ⟨j, hj, h⟩; exact hnan j hj h) 9
    have h3 := epochsRun_pos (fun j => stops toyCfg toyFns ⟨0, 0, 0, 0⟩ (1 + j)) (n := 9)
      (by norm_num)
    rw [show (10 : ℕ) = 1 + 9 from rfl, this]; omega
  have hreg := regular_checkpoints_exact toyCfg toyFns 0 10 ⟨0, 0, 0, 0⟩ 2 rfl rfl (by norm_num)
  have hmem : (FileName.regular 2, startOfEpoch toyFns ⟨0, 0, 0, 0⟩ 0 1) ∈
      (vmcLoop toyCfg toyFns 0 10 ⟨0, 0, 0, 0⟩).ckptQ.filter (fun x => x.1.isRegular) := by
    rw [hreg, List.mem_map]
    refine ⟨1, ?_, rfl⟩
    rw [List.mem_filter, List.mem_range]
    exact ⟨by simp only [Nat.sub_zero]; omega, by simp [rawMetrics, toyFns]⟩
  exact (List.mem_filter.mp hmem).1

/-- epoch 2 of the toy run is its first nan epoch -/
example : nanEpoch toyCfg.paramsHaveNan toyFns ⟨0, 0, 0, 0⟩ 2 ∧
    ∀ j < 2, ¬ nanEpoch toyCfg.paramsHaveNan toyFns ⟨0, 0, 0, 0⟩ j := by
  constructor
  · exact ⟨⟨.fin (-2), .fin 1, .nan, .fin 1, .fin 0, none⟩,
      by simp [rawMetrics, traj, coreStep, toyFns], Or.inl rfl⟩
  · rintro j hj ⟨m, hm, h⟩
    have : j = 0 ∨ j = 1 := by omega
    rcases this with rfl | rfl <;>
    · simp [rawMetrics, traj, coreStep, toyFns] at hm
      subst hm
      simp [toyCfg] at h

end Verif.Props
