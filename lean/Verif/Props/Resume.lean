import Verif.Props.Best

/-!
# C100: the best checkpoint of a resumed run

`vmc_loop` starts with an empty history and the metric `+inf` (`initialize_checkpointing`,
vmcnet/utils/checkpoint.py:201-233), also when it continues an earlier run in the same directory
(`reload.same_logdir`, vmcnet/train/runners.py:43-59, 596-696).  Files are overwritten, so the content of
`best_checkpoint.npz` after both runs is the last one queued by either.
-/

namespace Verif.Props
open Spec

variable {P D S K : Type}

theorem lastPut_append {β : Type} (f : FileName) (q l : List (FileName × β)) {x : β}
    (h : lastPut f l = some x) : lastPut f (q ++ l) = some x := by
  unfold lastPut at h ⊢
  rw [List.filter_append]
  obtain ⟨y, hy, rfl⟩ := Option.map_eq_some_iff.mp h
  rw [List.getLast?_append_of_ne_nil _ (by rintro h; rw [h] at hy; cases hy), hy]
  rfl

/-- C100 as expected: after a run over the epochs `s, …, M-1`, and its continuation up to epoch `N` from one
of its checkpoint files in the same directory, `best_checkpoint.npz` is the one of an uninterrupted
run. -/
def ResumeKeepsBest : Prop :=
  ∀ (cfg : LoopCfg ℕ ℕ) (fns : LoopFns ℕ ℕ ℕ ℕ) (c : Core ℕ ℕ ℕ ℕ) (s M N W every : ℕ) (en va : ℕ → ℝ)
    (file : FileName) (ck : Ckpt ℕ ℕ ℕ ℕ),
    cfg.hasLogdir = true → cfg.checkForNans = false → cfg.bestCheckpointEvery = some every →
    1 ≤ every → 1 ≤ W → cfg.nhistoryMax = (W : ℤ) + 1 → M ≤ N → (∀ i, 0 ≤ va i) →
    (∀ i, ∃ m, rawMetrics fns c i = some m ∧ m.energy = .fin (en i) ∧ m.variance = .fin (va i)) →
    (file, ck) ∈ (vmcLoop cfg fns s M c).ckptQ →
    lastPut .best ((vmcLoop cfg fns s M c).ckptQ ++
      (vmcLoop cfg fns ck.epoch N ⟨ck.params, ck.data, ck.opt, ck.key⟩).ckptQ) =
    lastPut .best (vmcLoop cfg fns s N c).ckptQ

/-- C100, what holds: after a continuation, `best_checkpoint.npz` is the first epoch with the lowest
error-adjusted average among those since the reloaded checkpoint, with averages over these epochs only.
Missing: epochs before it, which are forgotten (`resumed_best_forgets`, `resume_keeps_best_fails`). -/
theorem resumed_best_partial (cfg : LoopCfg P D) (fns : LoopFns P D S K) (s M N W every : ℕ)
    (c : Core P D S K) (en va : ℕ → ℝ) (file : FileName) (ck : Ckpt P D S K)
    (hlog : cfg.hasLogdir = true) (hchk : cfg.checkForNans = false)
    (hev : cfg.bestCheckpointEvery = some every) (h1 : 1 ≤ every)
    (hW : 1 ≤ W) (hnh : cfg.nhistoryMax = (W : ℤ) + 1) (hMN : M ≤ N) (hva : ∀ i < N - s, 0 ≤ va i)
    (hm : ∀ i < N - s, ∃ m, rawMetrics fns c i = some m ∧ m.energy = .fin (en i) ∧
      m.variance = .fin (va i))
    (hmem : (file, ck) ∈ (vmcLoop cfg fns s M c).ckptQ) :
    ∃ k e, ck = startOfEpoch fns c s k ∧ s + k < M ∧
      IsFirstArgmin (errorAdjusted W cfg.nchains cfg.varianceScale (fun i => en (k + i))
        fun i => va (k + i)) (N - (s + k)) e ∧
      lastPut .best ((vmcLoop cfg fns s M c).ckptQ ++
        (vmcLoop cfg fns ck.epoch N ⟨ck.params, ck.data, ck.opt, ck.key⟩).ckptQ) =
        some (startOfEpoch fns c s (k + e)) := by
  obtain ⟨k, hk, hck, -⟩ := vmcLoop_ckpts cfg fns s M c _ hmem
  simp only at hck
  subst hck
  have hle := epochsRun_le (loopBad cfg fns c) (M - s)
  obtain ⟨e, he, hlast⟩ := later_best_recorded_partial cfg fns (s + k) N W every (traj fns c k)
    (fun i => en (k + i)) (fun i => va (k + i)) hlog hchk hev h1 hW hnh (by omega)
    (fun i hi => hva _ (by omega)) fun i hi => by
      rw [rawMetrics_traj]
      exact hm _ (by omega)
  refine ⟨k, e, rfl, by omega, he, lastPut_append _ _ _ ?_⟩
  refine hlast.trans ?_
  unfold startOfEpoch
  rw [traj_shift, Nat.add_assoc]

/-- C100 fails in every continued run: whatever the energies, the best checkpoint afterwards is of the
reloaded epoch or a later one. -/
theorem resumed_best_forgets (cfg : LoopCfg P D) (fns : LoopFns P D S K) (s M N W every : ℕ)
    (c : Core P D S K) (en va : ℕ → ℝ) (file : FileName) (ck : Ckpt P D S K)
    (hlog : cfg.hasLogdir = true) (hchk : cfg.checkForNans = false)
    (hev : cfg.bestCheckpointEvery = some every) (h1 : 1 ≤ every)
    (hW : 1 ≤ W) (hnh : cfg.nhistoryMax = (W : ℤ) + 1) (hMN : M ≤ N) (hva : ∀ i < N - s, 0 ≤ va i)
    (hm : ∀ i < N - s, ∃ m, rawMetrics fns c i = some m ∧ m.energy = .fin (en i) ∧
      m.variance = .fin (va i))
    (hmem : (file, ck) ∈ (vmcLoop cfg fns s M c).ckptQ) :
    ∃ best, lastPut .best ((vmcLoop cfg fns s M c).ckptQ ++
        (vmcLoop cfg fns ck.epoch N ⟨ck.params, ck.data, ck.opt, ck.key⟩).ckptQ) = some best ∧
      ck.epoch ≤ best.epoch := by
  obtain ⟨k, e, rfl, -, -, h⟩ := resumed_best_partial cfg fns s M N W every c en va file ck hlog hchk hev
    h1 hW hnh hMN hva hm hmem
  refine ⟨_, h, ?_⟩
  simp only [startOfEpoch]
  omega

theorem windowMean_one (f : ℕ → ℝ) (n : ℕ) : windowMean 1 f n = f n := by
  simp [windowMean]

theorem errorAdjusted_one (nchains : ℤ) (scale : ℝ) (en va : ℕ → ℝ) (k n : ℕ) :
    errorAdjusted 1 nchains scale (fun i => en (k + i)) (fun i => va (k + i)) n =
      errorAdjusted 1 nchains scale en va (k + n) := by
  have h : ∀ n, min 1 (n + 1) = 1 := fun n => by omega
  simp only [errorAdjusted, windowMean_one, h]

theorem firstArgmin_unique {a : ℕ → ℝ} {n e e' : ℕ} (h : IsFirstArgmin a n e)
    (h' : IsFirstArgmin a n e') : e = e' := by
  rcases lt_trichotomy e e' with hlt | rfl | hlt
  · exact absurd (h'.2.2 e hlt) (not_lt.mpr (h.2.1 e' h'.1))
  · rfl
  · exact absurd (h.2.2 e' hlt) (not_lt.mpr (h'.2.1 e h.1))

/-- C100 holds if averages are over one epoch (history limit 2) and the best epoch of the uninterrupted
run is not before the reloaded one. -/
theorem resumed_best_same_partial (cfg : LoopCfg P D) (fns : LoopFns P D S K) (s M N every : ℕ)
    (c : Core P D S K) (en va : ℕ → ℝ) (file : FileName) (ck : Ckpt P D S K)
    (hlog : cfg.hasLogdir = true) (hchk : cfg.checkForNans = false)
    (hev : cfg.bestCheckpointEvery = some every) (h1 : 1 ≤ every) (hnh : cfg.nhistoryMax = 2)
    (hMN : M ≤ N) (hva : ∀ i < N - s, 0 ≤ va i)
    (hm : ∀ i < N - s, ∃ m, rawMetrics fns c i = some m ∧ m.energy = .fin (en i) ∧
      m.variance = .fin (va i))
    (hmem : (file, ck) ∈ (vmcLoop cfg fns s M c).ckptQ) {b : Ckpt P D S K}
    (hb : lastPut .best (vmcLoop cfg fns s N c).ckptQ = some b) (hlate : ck.epoch ≤ b.epoch) :
    lastPut .best ((vmcLoop cfg fns s M c).ckptQ ++
      (vmcLoop cfg fns ck.epoch N ⟨ck.params, ck.data, ck.opt, ck.key⟩).ckptQ) = some b := by
  obtain ⟨k, e, rfl, hkM, harg, h⟩ := resumed_best_partial cfg fns s M N 1 every c en va file ck hlog hchk
    hev h1 le_rfl (by rw [hnh]; rfl) hMN hva hm hmem
  obtain ⟨e', harg', h'⟩ := later_best_recorded_partial cfg fns s N 1 every c en va hlog hchk hev h1 le_rfl
    (by rw [hnh]; rfl) (by omega) hva hm
  rw [h'] at hb
  obtain rfl := Option.some.inj hb
  simp only [startOfEpoch] at hlate
  obtain ⟨j, rfl⟩ : ∃ j, e' = k + j := ⟨e' - k, by omega⟩
  rw [h]
  have : IsFirstArgmin (errorAdjusted 1 cfg.nchains cfg.varianceScale (fun i => en (k + i))
      fun i => va (k + i)) (N - (s + k)) j := by
    obtain ⟨a1, a2, a3⟩ := harg'
    refine ⟨by omega, fun i hi => ?_, fun i hi => ?_⟩
    · rw [errorAdjusted_one, errorAdjusted_one]
      exact a2 _ (by omega)
    · rw [errorAdjusted_one, errorAdjusted_one]
      exact a3 _ (by omega)
  rw [firstArgmin_unique harg this]

theorem lastPut_mem {β : Type} {f : FileName} {q : List (FileName × β)} {x : β}
    (h : lastPut f q = some x) : (f, x) ∈ q := by
  unfold lastPut at h
  obtain ⟨y, hy, rfl⟩ := Option.map_eq_some_iff.mp h
  have h1 := List.mem_filter.mp (List.mem_of_getLast? hy)
  have h2 : y.1 = f := by simpa using h1.2
  rw [← h2]
  exact h1.1

/-- C100 holds if averages are over one epoch and the reloaded file is `best_checkpoint.npz`, the default
(`DEFAULT_CHECKPOINT_FILE_NAME`, vmcnet/utils/checkpoint.py:33). -/
theorem resume_from_best_partial (cfg : LoopCfg P D) (fns : LoopFns P D S K) (s M N every : ℕ)
    (c : Core P D S K) (en va : ℕ → ℝ) (ck : Ckpt P D S K)
    (hlog : cfg.hasLogdir = true) (hchk : cfg.checkForNans = false)
    (hev : cfg.bestCheckpointEvery = some every) (h1 : 1 ≤ every) (hnh : cfg.nhistoryMax = 2)
    (hsM : s < M) (hMN : M ≤ N) (hva : ∀ i < N - s, 0 ≤ va i)
    (hm : ∀ i < N - s, ∃ m, rawMetrics fns c i = some m ∧ m.energy = .fin (en i) ∧
      m.variance = .fin (va i))
    (hck : lastPut .best (vmcLoop cfg fns s M c).ckptQ = some ck) :
    lastPut .best ((vmcLoop cfg fns s M c).ckptQ ++
      (vmcLoop cfg fns ck.epoch N ⟨ck.params, ck.data, ck.opt, ck.key⟩).ckptQ) =
    lastPut .best (vmcLoop cfg fns s N c).ckptQ := by
  obtain ⟨e, harg, h⟩ := later_best_recorded_partial cfg fns s M 1 every c en va hlog hchk hev h1 le_rfl
    (by rw [hnh]; rfl) hsM (fun i hi => hva i (by omega)) fun i hi => hm i (by omega)
  obtain ⟨e', harg', h'⟩ := later_best_recorded_partial cfg fns s N 1 every c en va hlog hchk hev h1 le_rfl
    (by rw [hnh]; rfl) (by omega) hva hm
  rw [h']
  refine resumed_best_same_partial cfg fns s M N every c en va .best ck hlog hchk hev h1 hnh hMN hva hm
    (lastPut_mem hck) h' ?_
  rw [h] at hck
  obtain rfl := Option.some.inj hck
  simp only [startOfEpoch]
  by_contra hlt
  have hlt' : e' < e := by omega
  exact absurd (harg.2.2 e' hlt') (not_lt.mpr (harg'.2.1 e (by have := harg.1; omega)))

/-! ### A concrete run -/

/-- The energy of the first epoch is -1, of all others 0. -/
noncomputable def lowFns : LoopFns ℕ ℕ ℕ ℕ where
  walker _ d k := (.fin 1, d + 1, k + 1)
  update p d o k := (p + 1, d, o,
    some ⟨if p = 0 then .fin (-1) else .fin 0, .fin 0, .fin 0, .fin 1, .fin 0, none⟩, k + 1)

noncomputable def lowCfg : LoopCfg ℕ ℕ :=
  { nchains := 4, hasLogdir := true, checkpointEvery := some 2, bestCheckpointEvery := some 1
    varianceScale := 1, checkForNans := false, recordAmplitudes := none, nhistoryMax := 2
    paramsHaveNan := fun _ => False }

theorem lowFns_params (n : ℕ) : (traj lowFns ⟨0, 0, 0, 0⟩ n).params = n := by
  induction n with
  | zero => rfl
  | succ n ih => simp [traj, coreStep, lowFns] at ih ⊢; exact ih

theorem low_raw (n : ℕ) : rawMetrics lowFns ⟨0, 0, 0, 0⟩ n =
    some ⟨if n = 0 then .fin (-1) else .fin 0, .fin 0, .fin 0, .fin 1, .fin 0, none⟩ := by
  have := lowFns_params n
  simp only [rawMetrics]
  simp only [lowFns] at this ⊢
  rw [this]

theorem low_metrics (i : ℕ) : ∃ m, rawMetrics lowFns ⟨0, 0, 0, 0⟩ i = some m ∧
    m.energy = .fin (if i = 0 then -1 else 0) ∧ m.variance = .fin 0 := by
  refine ⟨_, low_raw i, ?_, rfl⟩
  split_ifs <;> simp

/-- The file `2.npz` of a run of four epochs. -/
theorem low_checkpoint : (FileName.regular 2, startOfEpoch lowFns ⟨0, 0, 0, 0⟩ 0 1) ∈
    (vmcLoop lowCfg lowFns 0 4 ⟨0, 0, 0, 0⟩).ckptQ := by
  have h := regular_checkpoints_exact lowCfg lowFns 0 4 ⟨0, 0, 0, 0⟩ 2 rfl rfl (by norm_num)
  have hrun : epochsRun (stops lowCfg lowFns ⟨0, 0, 0, 0⟩) (4 - 0) = 4 :=
    epochsRun_of_not_bad (by rintro ⟨j, -, hb⟩; simp [stops, lowCfg] at hb)
  rw [hrun] at h
  refine (List.mem_filter (p := fun x => x.1.isRegular)).mp ?_ |>.1
  rw [h]
  refine List.mem_map.mpr ⟨1, List.mem_filter.mpr ⟨by simp, ?_⟩, rfl⟩
  simp [low_raw]

/-- C100 is false of the code: an energy of -1 in the first epoch is forgotten. -/
theorem resume_keeps_best_fails : ¬ResumeKeepsBest := by
  intro h
  have h1 := h lowCfg lowFns ⟨0, 0, 0, 0⟩ 0 4 10 1 1 (fun i => if i = 0 then -1 else 0) (fun _ => 0) _ _ rfl
    rfl rfl le_rfl le_rfl rfl (by norm_num) (fun _ => le_rfl) low_metrics low_checkpoint
  obtain ⟨best, h2, h3⟩ := resumed_best_forgets lowCfg lowFns 0 4 10 1 1 ⟨0, 0, 0, 0⟩
    (fun i => if i = 0 then -1 else 0) (fun _ => 0) _ _ rfl rfl rfl le_rfl le_rfl rfl (by norm_num)
    (fun _ _ => le_rfl) (fun i _ => low_metrics i) low_checkpoint
  obtain ⟨e, harg, h4⟩ := later_best_recorded_partial lowCfg lowFns 0 10 1 1 ⟨0, 0, 0, 0⟩
    (fun i => if i = 0 then -1 else 0) (fun _ => 0) rfl rfl rfl le_rfl le_rfl rfl (by norm_num)
    (fun _ _ => le_rfl) (fun i _ => low_metrics i)
  rw [h2, h4] at h1
  obtain rfl := Option.some.inj h1
  have h5 := harg.2.1 0 (by norm_num)
  simp only [startOfEpoch] at h3
  have he : e ≠ 0 := by omega
  simp [errorAdjusted, windowMean_one, lowCfg, he] at h5
  norm_num at h5

/-- `resumed_best_partial` in this run: the file afterwards is the reloaded epoch itself, as all energies
since are equal. -/
example : lastPut .best ((vmcLoop lowCfg lowFns 0 4 ⟨0, 0, 0, 0⟩).ckptQ ++
    (vmcLoop lowCfg lowFns 1 10 (traj lowFns ⟨0, 0, 0, 0⟩ 1)).ckptQ) =
      some (startOfEpoch lowFns ⟨0, 0, 0, 0⟩ 0 1) := by
  obtain ⟨k, e, hk, -, harg, h⟩ := resumed_best_partial lowCfg lowFns 0 4 10 1 1 ⟨0, 0, 0, 0⟩
    (fun i => if i = 0 then -1 else 0) (fun _ => 0) _ _ rfl rfl rfl le_rfl le_rfl rfl (by norm_num)
    (fun _ _ => le_rfl) (fun i _ => low_metrics i) low_checkpoint
  have hk1 : k = 1 := by
    have := congrArg Ckpt.epoch hk
    simp only [startOfEpoch] at this
    omega
  subst hk1
  have he : e = 0 := by
    by_contra hne
    have := harg.2.2 0 (by omega)
    simp [errorAdjusted, windowMean_one, lowCfg] at this
  subst he
  exact h

/-- `resume_from_best_partial` in this run. -/
example (ck : Ckpt ℕ ℕ ℕ ℕ) (hck : lastPut .best (vmcLoop lowCfg lowFns 0 4 ⟨0, 0, 0, 0⟩).ckptQ = some ck) :
    lastPut .best ((vmcLoop lowCfg lowFns 0 4 ⟨0, 0, 0, 0⟩).ckptQ ++
      (vmcLoop lowCfg lowFns ck.epoch 10 ⟨ck.params, ck.data, ck.opt, ck.key⟩).ckptQ) =
    lastPut .best (vmcLoop lowCfg lowFns 0 10 ⟨0, 0, 0, 0⟩).ckptQ :=
  resume_from_best_partial lowCfg lowFns 0 4 10 1 ⟨0, 0, 0, 0⟩ (fun i => if i = 0 then -1 else 0) (fun _ => 0)
    ck rfl rfl rfl le_rfl rfl (by norm_num) (by norm_num) (fun _ _ => le_rfl) (fun i _ => low_metrics i) hck

/-- A run with falling energies. -/
noncomputable def sinkFns : LoopFns ℕ ℕ ℕ ℕ where
  walker _ d k := (.fin 1, d + 1, k + 1)
  update p d o k := (p + 1, d, o, some ⟨.fin (-(p : ℝ)), .fin 0, .fin 0, .fin 1, .fin 0, none⟩, k + 1)

theorem sinkFns_params (n : ℕ) : (traj sinkFns ⟨0, 0, 0, 0⟩ n).params = n := by
  induction n with
  | zero => rfl
  | succ n ih => simp [traj, coreStep, sinkFns] at ih ⊢; exact ih

theorem sink_raw (n : ℕ) : rawMetrics sinkFns ⟨0, 0, 0, 0⟩ n =
    some ⟨.fin (-(n : ℝ)), .fin 0, .fin 0, .fin 1, .fin 0, none⟩ := by
  have := sinkFns_params n
  simp only [rawMetrics]
  simp only [sinkFns] at this ⊢
  rw [this]

/-- `resumed_best_same_partial` in this run: the continued run has the best checkpoint of the uninterrupted
one, which is its last epoch. -/
example (file : FileName) (ck : Ckpt ℕ ℕ ℕ ℕ)
    (hmem : (file, ck) ∈ (vmcLoop lowCfg sinkFns 0 4 ⟨0, 0, 0, 0⟩).ckptQ) :
    lastPut .best ((vmcLoop lowCfg sinkFns 0 4 ⟨0, 0, 0, 0⟩).ckptQ ++
      (vmcLoop lowCfg sinkFns ck.epoch 10 ⟨ck.params, ck.data, ck.opt, ck.key⟩).ckptQ) =
      some (startOfEpoch sinkFns ⟨0, 0, 0, 0⟩ 0 9) := by
  obtain ⟨e, harg, h4⟩ := later_best_recorded_partial lowCfg sinkFns 0 10 1 1 ⟨0, 0, 0, 0⟩
    (fun i => -(i : ℝ)) (fun _ => 0) rfl rfl rfl le_rfl le_rfl rfl (by norm_num)
    (fun _ _ => le_rfl) fun i _ => ⟨_, sink_raw i, rfl, rfl⟩
  have he : e = 9 := by
    have h9 := harg.2.1 9 (by norm_num)
    have hlt := harg.1
    simp [errorAdjusted, windowMean_one, lowCfg] at h9
    have : (9 : ℕ) ≤ e := by exact_mod_cast h9
    omega
  subst he
  obtain ⟨k, hk, hck, -⟩ := vmcLoop_ckpts lowCfg sinkFns 0 4 ⟨0, 0, 0, 0⟩ _ hmem
  have hle := epochsRun_le (loopBad lowCfg sinkFns ⟨0, 0, 0, 0⟩) (4 - 0)
  simp only at hck
  refine resumed_best_same_partial lowCfg sinkFns 0 4 10 1 ⟨0, 0, 0, 0⟩ (fun i => -(i : ℝ)) (fun _ => 0) file
    ck rfl rfl rfl le_rfl rfl (by norm_num) (fun _ _ => le_rfl) (fun i _ => ⟨_, sink_raw i, rfl, rfl⟩) hmem h4 ?_
  subst hck
  simp only [startOfEpoch]
  omega

end Verif.Props
