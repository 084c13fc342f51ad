import Verif.Lemmas.Best
import Verif.Props.Loop

/-!
Property theorems about running averages and the best checkpoint: C03, C04, C05, C07.
-/

namespace Verif.Props
open Spec

variable {P D S K : Type}

/-- C03.  With best-checkpointing on, history limit at least 2 (the code then averages over
`W = nhistoryMax - 1` epochs, see C05), finite energies and non-negative variances, the last
content queued for `best_checkpoint.npz` is the start-of-epoch state of the first epoch
attaining the minimum of the error-adjusted running average over all epochs that ran, also
when the run is cut short by a nan in the unclipped metrics. -/
theorem best_checkpoint_is_first_argmin (cfg : LoopCfg P D) (fns : LoopFns P D S K)
    (s N W every : ℕ) (c : Core P D S K) (en va : ℕ → ℝ)
    (hlog : cfg.hasLogdir = true) (hev : cfg.bestCheckpointEvery = some every) (_ : 1 ≤ every)
    (hW : 1 ≤ W) (hnh : cfg.nhistoryMax = (W : ℤ) + 1) (hN : s < N)
    (hva : ∀ i < N - s, 0 ≤ va i)
    (hm : ∀ i < N - s, ∃ m, rawMetrics fns c i = some m ∧ m.energy = .fin (en i) ∧
      m.variance = .fin (va i)) :
    ∃ e, IsFirstArgmin (errorAdjusted W cfg.nchains cfg.varianceScale en va)
        (epochsRun (stops cfg fns c) (N - s)) e ∧
      lastPut .best (vmcLoop cfg fns s N c).ckptQ = some (startOfEpoch fns c s e) := by
  have h := bestInv_runN W hW cfg fns s c en va every hlog hev hnh (N - s) hva hm
  obtain ⟨-, -, h⟩ := h
  have hpos := epochsRun_pos (loopBad cfg fns c) (n := N - s) (by omega)
  rcases h with ⟨h0, -⟩ | ⟨-, e, harg, -, hb⟩
  · omega
  · refine ⟨e, harg, ?_⟩
    rw [vmcLoop_eq]
    unfold finishCheckpointing
    rcases hb with hb | ⟨hb, hl⟩
    · simp only [hb, hlog, if_true]
      exact lastPut_append_self _ _ _
    · simp only [hb]
      exact hl

/-- C04.  For every history limit at least 2 and every sequence of finite values, the stored
history is a suffix of the inserted values and, once something has been inserted, the
stored average is its arithmetic mean. -/
theorem running_average_is_mean (nmax : ℤ) (hn : 2 ≤ nmax) (vals : List ℝ) (hv : vals ≠ []) :
    ∃ hist : List ℝ, hist ≠ [] ∧ hist <:+ vals ∧
      (insertAll (.new nmax) (vals.map XR.fin)).history = hist.map XR.fin ∧
      (insertAll (.new nmax) (vals.map XR.fin)).avg = .fin (listMean hist) := by
  obtain ⟨W, rfl⟩ : ∃ W : ℕ, nmax = (W : ℤ) + 1 := ⟨(nmax - 1).toNat, by omega⟩
  have hW : 1 ≤ W := by omega
  have h := runInv_insertAll hW vals
  have hne : lastN W vals ≠ [] := by
    intro h'
    have := lastN_length W vals
    have hl : 0 < vals.length := List.length_pos_iff.mpr hv
    rw [h'] at this; simp at this; omega
  exact ⟨lastN W vals, hne, lastN_suffix _ _, h.hist, h.avg_eq hne⟩

/-- C05 as stated in the documentation of `move_history_window`. -/
def HistoryKeepsLimit : Prop :=
  ∀ (nmax : ℕ), 1 ≤ nmax → ∀ vals : List XR, nmax ≤ vals.length →
    (insertAll (.new nmax) vals).history = lastN nmax vals

/-- C05, what holds: for every positive limit and every sequence of values the history
consists of the last `nmax - 1` values.  Missing: the documented window has `nmax` values;
see `history_keeps_limit_fails`. -/
theorem history_window_partial (nmax : ℕ) (hn : 1 ≤ nmax) (vals : List XR) :
    (insertAll (.new nmax) vals).history = lastN (nmax - 1) vals := by
  obtain ⟨W, rfl⟩ : ∃ W, nmax = W + 1 := ⟨nmax - 1, by omega⟩
  have := (insertAll_history W vals).1
  push_cast
  exact this

/-- C05 is false of the code: for every positive limit and every long enough sequence of
insertions the history is one value short of the limit. -/
theorem history_keeps_limit_fails :
    (∀ (nmax : ℕ), 1 ≤ nmax → ∀ vals : List XR, nmax ≤ vals.length →
      (insertAll (.new nmax) vals).history.length + 1 = nmax) ∧ ¬ HistoryKeepsLimit := by
  have h1 : ∀ (nmax : ℕ), 1 ≤ nmax → ∀ vals : List XR, nmax ≤ vals.length →
      (insertAll (.new nmax) vals).history.length + 1 = nmax := by
    intro nmax hn vals hv
    rw [history_window_partial nmax hn, lastN_length]; omega
  refine ⟨h1, fun h => ?_⟩
  have a := h 3 (by norm_num) [.fin 1, .fin 2, .fin 4] (by simp)
  have b := h1 3 (by norm_num) [.fin 1, .fin 2, .fin 4] (by simp)
  rw [a, lastN_length] at b
  simp at b

/-- C05, limit 1: every insertion of a finite value into a fresh metric with limit 1 leaves
an average of nan (0/0). -/
theorem history_limit_one_gives_nan (v : ℝ) :
    (insertAll (.new 1) [.fin v]).avg = .nan := by
  have h0 : (XR.fin 0 / XR.fin 0 : XR) = .nan := by
    show XR.div (.fin 0) (.fin 0) = .nan
    simp [XR.div, XR.infMul]
  simp [insertAll, RunningMetric.moveHistoryWindow, RunningMetric.new, XR.ofNat, h0]

/-- C07 as a user expects it: with nan checking off, an epoch `j` after a nan epoch whose
error-adjusted average (over the window that fits after the nan epoch) is finite and lower
than every energy seen before is eventually saved as the best checkpoint.  Stated for the
strongest case: all later energies are finite and constant, lower than everything before,
and enough epochs follow to fill the window. -/
def NanDoesNotDisableBest : Prop :=
  ∀ (cfg : LoopCfg ℕ ℕ) (fns : LoopFns ℕ ℕ ℕ ℕ) (c : Core ℕ ℕ ℕ ℕ) (W every i N : ℕ) (low : ℝ)
    (m : Metrics),
    cfg.hasLogdir = true → cfg.checkForNans = false → cfg.bestCheckpointEvery = some every →
    1 ≤ every → 1 ≤ W → cfg.nhistoryMax = (W : ℤ) + 1 →
    rawMetrics fns c i = some m → m.energy = .nan → i + W < N →
    (∀ j < i, ∃ m, rawMetrics fns c j = some m ∧ m.variance = .fin 0 ∧
      ∃ r, m.energy = .fin r ∧ low < r) →
    (∀ j, i < j → ∃ m, rawMetrics fns c j = some m ∧ m.variance = .fin 0 ∧ m.energy = .fin low) →
    ∃ x, lastPut .best (vmcLoop cfg fns 0 N c).ckptQ = some x ∧ i < x.epoch

/-- C07 fails in every run: once an epoch has a nan energy, no checkpoint of that epoch or a
later one is ever queued as best, whatever follows. -/
theorem nan_epoch_disables_best (cfg : LoopCfg P D) (fns : LoopFns P D S K) (s N i every : ℕ)
    (c : Core P D S K) (hlog : cfg.hasLogdir = true)
    (hchk : ∀ j < i, ¬ stops cfg fns c j)
    (hev : cfg.bestCheckpointEvery = some every) (hnh : 0 < cfg.nhistoryMax)
    (m : Metrics) (hm : rawMetrics fns c i = some m) (hnan : m.energy = .nan)
    (hi : i < N - s) (x : Ckpt P D S K) (hx : (.best, x) ∈ (vmcLoop cfg fns s N c).ckptQ) :
    x.epoch < s + i := by
  have h := nan_best_runN cfg fns s c every i hlog hev hnh m hm hnan hchk (N - s)
  rw [vmcLoop_eq] at hx
  unfold finishCheckpointing at hx
  split at hx
  · rename_i ck hck
    rw [if_pos hlog] at hx
    simp only [List.mem_append, List.mem_singleton, Prod.mk.injEq, true_and] at hx
    rcases hx with hx | hx
    · exact h.2.2.2.1 x hx hi
    · subst hx; exact h.2.2.1 _ hck hi
  · exact h.2.2.2.1 x hx hi

/-- C07, what holds: nans in the unclipped metrics alone do not disturb best-checkpointing
as long as the clipped energies and variances stay finite and nan checking is off.  Missing:
tolerance of a nan in the clipped energy itself, which the code does not have
(`nan_epoch_disables_best`, `nan_does_not_disable_best_fails`). -/
theorem later_best_recorded_partial (cfg : LoopCfg P D) (fns : LoopFns P D S K)
    (s N W every : ℕ) (c : Core P D S K) (en va : ℕ → ℝ)
    (hlog : cfg.hasLogdir = true) (hchk : cfg.checkForNans = false)
    (hev : cfg.bestCheckpointEvery = some every) (h1 : 1 ≤ every)
    (hW : 1 ≤ W) (hnh : cfg.nhistoryMax = (W : ℤ) + 1) (hN : s < N)
    (hva : ∀ i < N - s, 0 ≤ va i)
    (hm : ∀ i < N - s, ∃ m, rawMetrics fns c i = some m ∧ m.energy = .fin (en i) ∧
      m.variance = .fin (va i)) :
    ∃ e, IsFirstArgmin (errorAdjusted W cfg.nchains cfg.varianceScale en va) (N - s) e ∧
      lastPut .best (vmcLoop cfg fns s N c).ckptQ = some (startOfEpoch fns c s e) := by
  have h := best_checkpoint_is_first_argmin cfg fns s N W every c en va hlog hev h1 hW hnh hN
    hva hm
  rwa [epochsRun_of_not_bad] at h
  rintro ⟨j, -, hb⟩
  simp [stops, hchk] at hb

/-! ### Concrete runs -/

/-- Energies fall by one per epoch; epoch 1 has a nan energy. -/
noncomputable def nanFns : LoopFns ℕ ℕ ℕ ℕ where
  walker _ d k := (.fin 1, d + 1, k + 1)
  update p d o k := (p + 1, d, o,
    some ⟨if p = 0 then .fin 1 else if p = 1 then .nan else .fin 0, .fin 0, .fin 0, .fin 1,
      .fin 0, none⟩, k + 1)

noncomputable def nanCfg : LoopCfg ℕ ℕ :=
  { nchains := 4, hasLogdir := true, checkpointEvery := none, bestCheckpointEvery := some 1
    varianceScale := 1, checkForNans := false, recordAmplitudes := none, nhistoryMax := 3
    paramsHaveNan := fun _ => False }

theorem nanFns_params (n : ℕ) : (traj nanFns ⟨0, 0, 0, 0⟩ n).params = n := by
  induction n with
  | zero => rfl
  | succ n ih => simp [traj, coreStep, nanFns] at ih ⊢; exact ih

/-- C07 is false of the code: a concrete run is a counterexample to the expected
statement. -/
theorem nan_does_not_disable_best_fails : ¬ NanDoesNotDisableBest := by
  intro h
  have hraw : ∀ n, rawMetrics nanFns ⟨0, 0, 0, 0⟩ n =
      some ⟨if n = 0 then .fin 1 else if n = 1 then .nan else .fin 0, .fin 0, .fin 0, .fin 1,
        .fin 0, none⟩ := by
    intro n
    have := nanFns_params n
    simp only [rawMetrics]
    simp only [nanFns] at this ⊢
    rw [this]
  obtain ⟨x, hx, hlt⟩ := h nanCfg nanFns ⟨0, 0, 0, 0⟩ 2 1 1 10 0 _ rfl rfl rfl (by norm_num)
    (by norm_num) rfl (hraw 1) rfl (by norm_num)
    (by intro j hj
        have : j = 0 := by omega
        subst this
        exact ⟨_, hraw 0, rfl, 1, rfl, by norm_num⟩)
    (by intro j hj
        refine ⟨_, hraw j, rfl, ?_⟩
        simp only
        rw [if_neg (by omega), if_neg (by omega)])
  have hmem : (FileName.best, x) ∈ (vmcLoop nanCfg nanFns 0 10 ⟨0, 0, 0, 0⟩).ckptQ := by
    unfold lastPut at hx
    simp only [Option.map_eq_some_iff] at hx
    obtain ⟨y, hy, rfl⟩ := hx
    have := List.mem_filter.mp (List.mem_of_getLast? hy)
    have h2 : y.1 = .best := by simpa using this.2
    rw [← h2]; exact this.1
  have := nan_epoch_disables_best nanCfg nanFns 0 10 1 1 ⟨0, 0, 0, 0⟩ rfl
    (by intro j _ hb; simp [stops, nanCfg] at hb) rfl (by simp [nanCfg]) _ (hraw 1) rfl
    (by norm_num) x hmem
  omega

/-- The hypotheses of the C03 theorem hold for the toy run of `Verif.Props.Loop`
(energies `0, -1, -2, ...`, variance 1, history limit 5). -/
example : ∀ i < 10 - 0, ∃ m, rawMetrics toyFns ⟨0, 0, 0, 0⟩ i = some m ∧
    m.energy = .fin (-(i : ℝ)) ∧ m.variance = .fin 1 := by
  have hp : ∀ n, (traj toyFns ⟨0, 0, 0, 0⟩ n).params = n := by
    intro n
    induction n with
    | zero => rfl
    | succ n ih => simp [traj, coreStep, toyFns] at ih ⊢; exact ih
  intro i _
  refine ⟨_, rfl, ?_, ?_⟩
  · show XR.fin (-((traj toyFns ⟨0, 0, 0, 0⟩ i).params : ℝ)) = _
    rw [hp]
  · rfl

/-- C04 on a concrete history: limit 3 keeps the last two of three values, average 3. -/
example : (insertAll (.new 3) [.fin 1, .fin 2, .fin 4]).history = [.fin 2, .fin 4] := by
  have := history_window_partial 3 (by norm_num) [.fin 1, .fin 2, .fin 4]
  simpa [lastN] using this

end Verif.Props
