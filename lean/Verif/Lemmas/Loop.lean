import Verif.Spec.Loop
import Mathlib.Tactic

namespace Verif
open Spec

variable {P D S K : Type}

/-- state after the first `n` epochs -/
noncomputable def runN (cfg : LoopCfg P D) (fns : LoopFns P D S K) (s : ℕ) (c : Core P D S K)
    (n : ℕ) : LoopState P D S K :=
  runEpochs cfg fns (List.range' s n) (initState cfg c)

theorem runEpochs_append_singleton (cfg : LoopCfg P D) (fns : LoopFns P D S K) (l : List ℕ)
    (e : ℕ) (st : LoopState P D S K) (h : st.nansDetected = false) :
    runEpochs cfg fns (l ++ [e]) st =
      if (runEpochs cfg fns l st).nansDetected then runEpochs cfg fns l st
      else epochStep cfg fns e (runEpochs cfg fns l st) := by
  induction l generalizing st with
  | nil => simp [runEpochs, h]
  | cons x xs ih =>
    simp only [List.cons_append, runEpochs]
    by_cases h' : (epochStep cfg fns x st).nansDetected
    · simp [h']
    · simp only [h', Bool.false_eq_true, if_false]
      exact ih _ (by simpa using h')

theorem runN_zero (cfg : LoopCfg P D) (fns : LoopFns P D S K) (s : ℕ) (c : Core P D S K) :
    runN cfg fns s c 0 = initState cfg c := rfl

theorem runN_succ (cfg : LoopCfg P D) (fns : LoopFns P D S K) (s : ℕ) (c : Core P D S K)
    (n : ℕ) :
    runN cfg fns s c (n + 1) =
      if (runN cfg fns s c n).nansDetected then runN cfg fns s c n
      else epochStep cfg fns (s + n) (runN cfg fns s c n) := by
  unfold runN
  rw [List.range'_concat, Nat.one_mul]
  exact runEpochs_append_singleton _ _ _ _ _ rfl

/-- bad epoch as seen by the loop -/
def loopBad (cfg : LoopCfg P D) (fns : LoopFns P D S K) (c : Core P D S K) (n : ℕ) : Prop :=
  cfg.hasLogdir = true ∧ cfg.checkForNans = true ∧ nanEpoch cfg.paramsHaveNan fns c n

theorem epochStep_core (cfg : LoopCfg P D) (fns : LoopFns P D S K) (e : ℕ)
    (st : LoopState P D S K) : (epochStep cfg fns e st).core = coreStep fns st.core := by
  unfold epochStep
  simp only
  split
  · rfl
  · unfold handleCheckpoints
    split <;> rfl

theorem isNan_iff (x : XR) : x.isNan ↔ x = .nan := by
  cases x <;> simp [XR.isNan]

/-- the metrics handed to the checkpoint handling in an epoch -/
noncomputable def fullMetrics (cfg : LoopCfg P D) (fns : LoopFns P D S K) (old : Core P D S K)
    (m : Metrics) : Metrics :=
  let w := fns.walker old.params old.data old.key
  let m1 : Metrics := { m with acceptRatio := w.1 }
  match cfg.recordAmplitudes with
  | some f => { m1 with amplitudeMinMax := some (f (coreStep fns old).data) }
  | none => m1

theorem fullMetrics_energy (cfg : LoopCfg P D) (fns : LoopFns P D S K) (old : Core P D S K)
    (m : Metrics) : (fullMetrics cfg fns old m).energy = m.energy := by
  unfold fullMetrics; simp only; split <;> rfl
theorem fullMetrics_variance (cfg : LoopCfg P D) (fns : LoopFns P D S K) (old : Core P D S K)
    (m : Metrics) : (fullMetrics cfg fns old m).variance = m.variance := by
  unfold fullMetrics; simp only; split <;> rfl
theorem fullMetrics_energyNoclip (cfg : LoopCfg P D) (fns : LoopFns P D S K)
    (old : Core P D S K) (m : Metrics) :
    (fullMetrics cfg fns old m).energyNoclip = m.energyNoclip := by
  unfold fullMetrics; simp only; split <;> rfl
theorem fullMetrics_varianceNoclip (cfg : LoopCfg P D) (fns : LoopFns P D S K)
    (old : Core P D S K) (m : Metrics) :
    (fullMetrics cfg fns old m).varianceNoclip = m.varianceNoclip := by
  unfold fullMetrics; simp only; split <;> rfl

/-- unfolded form of an epoch with metrics and a log directory -/
theorem epochStep_some (cfg : LoopCfg P D) (fns : LoopFns P D S K) (e : ℕ)
    (st : LoopState P D S K) (m : Metrics) (hl : cfg.hasLogdir = true)
    (hm : rawMetrics fns st.core 0 = some m) :
    epochStep cfg fns e st =
      let fm := fullMetrics cfg fns st.core m
      let reg := saveMetricsAndRegular cfg e st.core (coreStep fns st.core).params fm
      let b := trackAndSaveBest cfg e st.core fm st.energy st.variance st.ckMetric st.bestData
      { core := coreStep fns st.core
        ckMetric := XR.minimum b.errorAdjusted st.ckMetric
        energy := b.energy
        variance := b.variance
        bestData := b.bestData
        nansDetected := reg.2
        ckptQ := st.ckptQ ++ reg.1 ++ b.puts
        metricsQ := st.metricsQ ++ [fm] } := by
  have hm' : (fns.update st.core.params (fns.walker st.core.params st.core.data st.core.key).2.1
      st.core.opt (fns.walker st.core.params st.core.data st.core.key).2.2).2.2.2.1 = some m := hm
  unfold epochStep
  simp only [hm']
  unfold handleCheckpoints
  rw [if_neg (by simp [hl])]
  unfold fullMetrics coreStep
  cases hr : cfg.recordAmplitudes <;> rfl

theorem epochStep_none (cfg : LoopCfg P D) (fns : LoopFns P D S K) (e : ℕ)
    (st : LoopState P D S K) (hm : rawMetrics fns st.core 0 = none) :
    epochStep cfg fns e st = { st with core := coreStep fns st.core } := by
  have hm' : (fns.update st.core.params (fns.walker st.core.params st.core.data st.core.key).2.1
      st.core.opt (fns.walker st.core.params st.core.data st.core.key).2.2).2.2.2.1 = none := hm
  unfold epochStep
  simp only [hm']
  rfl

theorem epochStep_nolog (cfg : LoopCfg P D) (fns : LoopFns P D S K) (e : ℕ)
    (st : LoopState P D S K) (hl : cfg.hasLogdir = false) (hn : st.nansDetected = false) :
    epochStep cfg fns e st = { st with core := coreStep fns st.core } := by
  unfold epochStep
  simp only
  split
  · rfl
  · unfold handleCheckpoints
    rw [if_pos hl]
    cases st; simp_all [coreStep]

theorem traj_shift (fns : LoopFns P D S K) (c : Core P D S K) (n k : ℕ) :
    traj fns (traj fns c n) k = traj fns c (n + k) := by
  induction k with
  | zero => rfl
  | succ k ih => rw [traj, ih, ← Nat.add_assoc]; rfl

theorem rawMetrics_traj (fns : LoopFns P D S K) (c : Core P D S K) (n k : ℕ) :
    rawMetrics fns (traj fns c n) k = rawMetrics fns c (n + k) := by
  unfold rawMetrics; rw [traj_shift]

theorem nanEpoch_traj (ph : P → Prop) (fns : LoopFns P D S K) (c : Core P D S K) (n k : ℕ) :
    nanEpoch ph fns (traj fns c n) k ↔ nanEpoch ph fns c (n + k) := by
  unfold nanEpoch
  rw [rawMetrics_traj, traj_shift, Nat.add_assoc]

theorem epochsRun_of_not_bad {bad : ℕ → Prop} {n : ℕ} (h : ¬ ∃ i < n, bad i) :
    epochsRun bad n = n := by
  cases n with
  | zero => rfl
  | succ n =>
    rw [epochsRun, if_neg]
    rintro ⟨i, hi, hb⟩
    exact h ⟨i, by omega, hb⟩

theorem epochsRun_succ_bad {bad : ℕ → Prop} {n : ℕ} (h : ∃ i < n, bad i) :
    epochsRun bad (n + 1) = epochsRun bad n := by
  rw [epochsRun, if_pos h]

theorem epochsRun_le (bad : ℕ → Prop) (n : ℕ) : epochsRun bad n ≤ n := by
  induction n with
  | zero => rfl
  | succ n ih => rw [epochsRun]; split <;> omega

theorem epochsRun_pos (bad : ℕ → Prop) {n : ℕ} (h : 0 < n) : 0 < epochsRun bad n := by
  induction n with
  | zero => omega
  | succ n ih =>
    rw [epochsRun]; split
    · rename_i h'; obtain ⟨i, hi, _⟩ := h'; exact ih (by omega)
    · omega

/-- with a first bad index the count is that index plus one -/
theorem epochsRun_first {bad : ℕ → Prop} {n i : ℕ} (hi : i < n) (hb : bad i)
    (hmin : ∀ j < i, ¬ bad j) : epochsRun bad n = i + 1 := by
  induction n with
  | zero => omega
  | succ n ih =>
    by_cases h : i < n
    · rw [epochsRun_succ_bad ⟨i, h, hb⟩]; exact ih h
    · have : i = n := by omega
      subst this
      rw [epochsRun, if_neg]
      rintro ⟨j, hj, hjb⟩
      exact hmin j hj hjb

/-- nans flag after one epoch -/
theorem epochStep_nans (cfg : LoopCfg P D) (fns : LoopFns P D S K) (e : ℕ)
    (st : LoopState P D S K) (hn : st.nansDetected = false) :
    (epochStep cfg fns e st).nansDetected = true ↔ loopBad cfg fns st.core 0 := by
  by_cases hl : cfg.hasLogdir = true
  · cases hm : rawMetrics fns st.core 0 with
    | none =>
      rw [epochStep_none _ _ _ _ hm]
      simp only [hn, Bool.false_eq_true, false_iff]
      rintro ⟨_, _, m, hm', _⟩
      rw [hm] at hm'; cases hm'
    | some m =>
      rw [epochStep_some _ _ _ _ m hl hm]
      simp only [saveMetricsAndRegular, checkForNansFn, Bool.and_eq_true, decide_eq_true_eq,
        fullMetrics_energyNoclip, fullMetrics_varianceNoclip, isNan_iff]
      constructor
      · rintro ⟨hc, h⟩
        exact ⟨hl, hc, m, hm, h⟩
      · rintro ⟨_, hc, m', hm', h⟩
        rw [hm] at hm'; cases hm'
        exact ⟨hc, h⟩
  · have hl' : cfg.hasLogdir = false := by simpa using hl
    rw [epochStep_nolog _ _ _ _ hl' hn]
    simp only [hn, Bool.false_eq_true, false_iff]
    rintro ⟨h, _⟩
    exact hl h

theorem loopBad_traj (cfg : LoopCfg P D) (fns : LoopFns P D S K) (c : Core P D S K) (n k : ℕ) :
    loopBad cfg fns (traj fns c n) k ↔ loopBad cfg fns c (n + k) := by
  unfold loopBad; rw [nanEpoch_traj]

/-- Core invariant of the loop: state and flag after `n` scheduled epochs. -/
theorem runN_core_nans (cfg : LoopCfg P D) (fns : LoopFns P D S K) (s : ℕ) (c : Core P D S K)
    (n : ℕ) :
    (runN cfg fns s c n).core = traj fns c (epochsRun (loopBad cfg fns c) n) ∧
    ((runN cfg fns s c n).nansDetected = true ↔ ∃ i < n, loopBad cfg fns c i) := by
  induction n with
  | zero => simp [runN_zero, initState, epochsRun, traj]
  | succ n ih =>
    obtain ⟨ih1, ih2⟩ := ih
    rw [runN_succ]
    by_cases hb : ∃ i < n, loopBad cfg fns c i
    · rw [if_pos (ih2.mpr hb), epochsRun_succ_bad hb]
      refine ⟨ih1, ih2.trans ⟨fun _ => ?_, fun _ => hb⟩⟩
      obtain ⟨i, hi, h⟩ := hb
      exact ⟨i, by omega, h⟩
    · have hn : (runN cfg fns s c n).nansDetected = false := by
        by_contra h
        exact hb (ih2.mp (by simpa using h))
      have hE : epochsRun (loopBad cfg fns c) n = n := epochsRun_of_not_bad hb
      rw [if_neg (by simp [hn]), epochStep_core, ih1, hE]
      refine ⟨?_, ?_⟩
      · rw [epochsRun, if_neg hb]; rfl
      · rw [epochStep_nans _ _ _ _ hn, ih1, hE, loopBad_traj]
        constructor
        · intro h; exact ⟨n, by omega, h⟩
        · rintro ⟨i, hi, h⟩
          by_cases hin : i < n
          · exact absurd ⟨i, hin, h⟩ hb
          · have : i = n := by omega
            subst this; exact h

theorem finish_core (cfg : LoopCfg P D) (st : LoopState P D S K) :
    (finishCheckpointing cfg st).core = st.core := by
  unfold finishCheckpointing; split
  · split <;> rfl
  · rfl

theorem finish_nans (cfg : LoopCfg P D) (st : LoopState P D S K) :
    (finishCheckpointing cfg st).nansDetected = st.nansDetected := by
  unfold finishCheckpointing; split
  · split <;> rfl
  · rfl

theorem finish_metricsQ (cfg : LoopCfg P D) (st : LoopState P D S K) :
    (finishCheckpointing cfg st).metricsQ = st.metricsQ := by
  unfold finishCheckpointing; split
  · split <;> rfl
  · rfl

theorem vmcLoop_eq (cfg : LoopCfg P D) (fns : LoopFns P D S K) (s N : ℕ) (c : Core P D S K) :
    vmcLoop cfg fns s N c = finishCheckpointing cfg (runN cfg fns s c (N - s)) := rfl

end Verif
