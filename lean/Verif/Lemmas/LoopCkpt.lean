import Verif.Lemmas.Loop

namespace Verif
open Spec

variable {P D S K : Type}

/-- is the file a regular checkpoint? -/
def FileName.isRegular : FileName → Bool
  | .regular _ => true
  | _ => false

/-- is the file a nans checkpoint? -/
def FileName.isNans : FileName → Bool
  | .nans _ => true
  | _ => false

theorem trackAndSaveBest_puts (cfg : LoopCfg P D) (e : ℕ) (old : Core P D S K)
    (m : Metrics) (en va : RunningMetric) (ck : XR) (b : Option (Ckpt P D S K)) :
    (trackAndSaveBest cfg e old m en va ck b).puts = [] ∨
    ∃ x, (trackAndSaveBest cfg e old m en va ck b).puts = [(.best, x)] ∧
      (x = ⟨e, old.data, old.params, old.opt, old.key⟩ ∨ b = some x) := by
  unfold trackAndSaveBest
  split
  · simp only
    split
    · rename_i ck' h
      split
      · right
        refine ⟨ck', rfl, ?_⟩
        split_ifs at h
        · left; exact (Option.some.inj h).symm
        · right; exact h
      · left; rfl
    · left; rfl
  · left; rfl

theorem trackAndSaveBest_best (cfg : LoopCfg P D) (e : ℕ) (old : Core P D S K)
    (m : Metrics) (en va : RunningMetric) (ck : XR) (b : Option (Ckpt P D S K)) (x)
    (hx : (trackAndSaveBest cfg e old m en va ck b).bestData = some x) :
      (x = ⟨e, old.data, old.params, old.opt, old.key⟩ ∨ b = some x) := by
  unfold trackAndSaveBest at hx
  split at hx
  · simp only at hx
    split at hx
    · rename_i ck' h
      split at hx
      · cases hx
      · simp only [Option.some.injEq] at hx
        subst hx
        split_ifs at h
        · left; exact (Option.some.inj h).symm
        · right; exact h
    · cases hx
  · right; exact hx

/-- the state at the start of the next epoch -/
theorem startOfEpoch_eq (fns : LoopFns P D S K) (c : Core P D S K) (s n : ℕ) :
    startOfEpoch fns c s n = ⟨s + n, (traj fns c n).data, (traj fns c n).params,
      (traj fns c n).opt, (traj fns c n).key⟩ := rfl

theorem saveRegular_puts (cfg : LoopCfg P D) (e : ℕ) (old : Core P D S K) (np : P)
    (m : Metrics) (x) (hx : x ∈ (saveMetricsAndRegular cfg e old np m).1) :
    x.2 = ⟨e, old.data, old.params, old.opt, old.key⟩ ∧
      (x.1 = .regular (e + 1) ∨ x.1 = .nans (e + 1)) := by
  unfold saveMetricsAndRegular at hx
  simp only [List.mem_append] at hx
  rcases hx with hx | hx
  · split at hx
    · simp at hx
    · split at hx
      · simp only [List.mem_singleton] at hx; subst hx; exact ⟨rfl, Or.inl rfl⟩
      · simp at hx
  · split at hx
    · simp only [List.mem_singleton] at hx; subst hx; exact ⟨rfl, Or.inr rfl⟩
    · simp at hx

/-- Every checkpoint queued or pending holds the start-of-epoch state of an executed epoch. -/
theorem runN_ckpts (cfg : LoopCfg P D) (fns : LoopFns P D S K) (s : ℕ) (c : Core P D S K)
    (n : ℕ) :
    (∀ x ∈ (runN cfg fns s c n).ckptQ, ∃ i < epochsRun (loopBad cfg fns c) n,
      x.2 = startOfEpoch fns c s i ∧
      (x.1 = .best ∨ x.1 = .regular (s + i + 1) ∨ x.1 = .nans (s + i + 1))) ∧
    (∀ x, (runN cfg fns s c n).bestData = some x →
      ∃ i < epochsRun (loopBad cfg fns c) n, x = startOfEpoch fns c s i) := by
  induction n with
  | zero => simp [runN_zero, initState]
  | succ n ih =>
    have hcn := runN_core_nans cfg fns s c n
    rw [runN_succ]
    by_cases hb : ∃ i < n, loopBad cfg fns c i
    · rw [if_pos (hcn.2.mpr hb), epochsRun_succ_bad hb]; exact ih
    · have hn : (runN cfg fns s c n).nansDetected = false := by
        by_contra h; exact hb (hcn.2.mp (by simpa using h))
      have hE : epochsRun (loopBad cfg fns c) n = n := epochsRun_of_not_bad hb
      have hE' : epochsRun (loopBad cfg fns c) (n + 1) = n + 1 := by rw [epochsRun, if_neg hb]
      rw [hE] at ih hcn
      rw [if_neg (by simp [hn]), hE']
      have ihQ : ∀ x ∈ (runN cfg fns s c n).ckptQ, ∃ i < n + 1,
          x.2 = startOfEpoch fns c s i ∧
          (x.1 = .best ∨ x.1 = .regular (s + i + 1) ∨ x.1 = .nans (s + i + 1)) := by
        intro x hx
        obtain ⟨i, hi, h⟩ := ih.1 x hx
        exact ⟨i, by omega, h⟩
      have ihB : ∀ x, (runN cfg fns s c n).bestData = some x →
          ∃ i < n + 1, x = startOfEpoch fns c s i := by
        intro x hx
        obtain ⟨i, hi, h⟩ := ih.2 x hx
        exact ⟨i, by omega, h⟩
      have hst : (⟨s + n, (runN cfg fns s c n).core.data, (runN cfg fns s c n).core.params,
          (runN cfg fns s c n).core.opt, (runN cfg fns s c n).core.key⟩ : Ckpt P D S K)
          = startOfEpoch fns c s n := by rw [hcn.1]; rfl
      by_cases hl : cfg.hasLogdir = true
      · cases hm : rawMetrics fns (runN cfg fns s c n).core 0 with
        | none => rw [epochStep_none _ _ _ _ hm]; exact ⟨ihQ, ihB⟩
        | some m =>
          rw [epochStep_some _ _ _ _ m hl hm]
          simp only
          constructor
          · intro x hx
            rw [List.mem_append, List.mem_append] at hx
            rcases hx with (hx | hx) | hx
            · exact ihQ x hx
            · obtain ⟨h1, h2⟩ := saveRegular_puts _ _ _ _ _ x hx
              rw [hst] at h1
              exact ⟨n, by omega, h1, by tauto⟩
            · rcases trackAndSaveBest_puts cfg (s + n) (runN cfg fns s c n).core
                (fullMetrics cfg fns (runN cfg fns s c n).core m) (runN cfg fns s c n).energy
                (runN cfg fns s c n).variance (runN cfg fns s c n).ckMetric
                (runN cfg fns s c n).bestData with h | ⟨y, h, h'⟩
              · rw [h] at hx; simp at hx
              · rw [h] at hx; simp only [List.mem_singleton] at hx; subst hx
                rcases h' with h' | h'
                · rw [hst] at h'
                  exact ⟨n, by omega, h', Or.inl rfl⟩
                · obtain ⟨i, hi, h2⟩ := ihB y h'
                  exact ⟨i, hi, h2, Or.inl rfl⟩
          · intro x hx
            rcases trackAndSaveBest_best _ _ _ _ _ _ _ _ x hx with h | h
            · rw [hst] at h; exact ⟨n, by omega, h⟩
            · exact ihB x h
      · rw [epochStep_nolog _ _ _ _ (by simpa using hl) hn]; exact ⟨ihQ, ihB⟩

theorem vmcLoop_ckpts (cfg : LoopCfg P D) (fns : LoopFns P D S K) (s N : ℕ) (c : Core P D S K)
    (x) (hx : x ∈ (vmcLoop cfg fns s N c).ckptQ) :
    ∃ i < epochsRun (loopBad cfg fns c) (N - s),
      x.2 = startOfEpoch fns c s i ∧
      (x.1 = .best ∨ x.1 = .regular (s + i + 1) ∨ x.1 = .nans (s + i + 1)) := by
  rw [vmcLoop_eq] at hx
  have h := runN_ckpts cfg fns s c (N - s)
  unfold finishCheckpointing at hx
  split at hx
  · rename_i ck hck
    split at hx
    · simp only [List.mem_append, List.mem_singleton] at hx
      rcases hx with hx | hx
      · exact h.1 x hx
      · subst hx
        obtain ⟨i, hi, h2⟩ := h.2 ck hck
        exact ⟨i, hi, h2, Or.inl rfl⟩
    · exact h.1 x hx
  · exact h.1 x hx

theorem epochsRun_no_bad_before {bad : ℕ → Prop} {n i : ℕ} (h : i < epochsRun bad n) :
    ¬ ∃ j < i, bad j := by
  rintro ⟨j, hj, hb⟩
  induction n with
  | zero => simp [epochsRun] at h
  | succ n ih =>
    rw [epochsRun] at h
    split at h
    · exact ih h
    · rename_i hnb; exact hnb ⟨j, by omega, hb⟩

theorem epochsRun_add {bad : ℕ → Prop} {i : ℕ} (h : ¬ ∃ j < i, bad j) (k : ℕ) :
    epochsRun bad (i + k) = i + epochsRun (fun j => bad (i + j)) k := by
  induction k with
  | zero => simpa [epochsRun] using epochsRun_of_not_bad h
  | succ k ih =>
    rw [← Nat.add_assoc, epochsRun, epochsRun]
    have hiff : (∃ j < i + k, bad j) ↔ (∃ j < k, bad (i + j)) := by
      constructor
      · rintro ⟨j, hj, hb⟩
        by_cases hji : j < i
        · exact absurd ⟨j, hji, hb⟩ h
        · refine ⟨j - i, by omega, ?_⟩
          rwa [Nat.add_sub_cancel' (by omega)]
      · rintro ⟨j, hj, hb⟩; exact ⟨i + j, by omega, hb⟩
    by_cases hc : ∃ j < k, bad (i + j)
    · rw [if_pos (hiff.mpr hc), if_pos hc, ih]
    · rw [if_neg (fun h' => hc (hiff.mp h')), if_neg hc]; omega

/-- filtered regular puts of one epoch -/
theorem saveRegular_filter (cfg : LoopCfg P D) (e : ℕ) (old : Core P D S K) (np : P)
    (m : Metrics) :
    (saveMetricsAndRegular cfg e old np m).1.filter (fun x => x.1.isRegular) =
      match cfg.checkpointEvery with
      | none => []
      | some k => if (e + 1) % k = 0 then
          [(.regular (e + 1), ⟨e, old.data, old.params, old.opt, old.key⟩)] else [] := by
  unfold saveMetricsAndRegular
  simp only [List.filter_append]
  have h2 : ∀ b : Bool, (List.filter (fun x : FileName × Ckpt P D S K => x.1.isRegular)
      (if b = true then [(FileName.nans (e + 1),
        (⟨e, old.data, old.params, old.opt, old.key⟩ : Ckpt P D S K))] else [])) = [] := by
    intro b; cases b <;> simp [FileName.isRegular]
  rw [h2, List.append_nil]
  cases cfg.checkpointEvery with
  | none => rfl
  | some k => simp only; split <;> simp [FileName.isRegular]

theorem track_filter_regular (cfg : LoopCfg P D) (e : ℕ) (old : Core P D S K)
    (m : Metrics) (en va : RunningMetric) (ck : XR) (b : Option (Ckpt P D S K)) :
    (trackAndSaveBest cfg e old m en va ck b).puts.filter (fun x => x.1.isRegular) = [] := by
  rcases trackAndSaveBest_puts cfg e old m en va ck b with h | ⟨x, h, _⟩ <;>
    rw [h] <;> simp [FileName.isRegular]

theorem track_filter_nans (cfg : LoopCfg P D) (e : ℕ) (old : Core P D S K)
    (m : Metrics) (en va : RunningMetric) (ck : XR) (b : Option (Ckpt P D S K)) :
    (trackAndSaveBest cfg e old m en va ck b).puts.filter (fun x => x.1.isNans) = [] := by
  rcases trackAndSaveBest_puts cfg e old m en va ck b with h | ⟨x, h, _⟩ <;>
    rw [h] <;> simp [FileName.isNans]

theorem saveRegular_filter_nans (cfg : LoopCfg P D) (e : ℕ) (old : Core P D S K) (np : P)
    (m : Metrics) :
    (saveMetricsAndRegular cfg e old np m).1.filter (fun x => x.1.isNans) =
      if (saveMetricsAndRegular cfg e old np m).2 then
        [(.nans (e + 1), ⟨e, old.data, old.params, old.opt, old.key⟩)] else [] := by
  unfold saveMetricsAndRegular
  simp only [List.filter_append]
  cases cfg.checkpointEvery with
  | none => simp only [List.filter_nil, List.nil_append]; split <;> simp [FileName.isNans]
  | some k =>
    simp only
    split <;> split <;> simp [FileName.isNans]

theorem finish_filter (cfg : LoopCfg P D) (st : LoopState P D S K) (p : FileName → Bool)
    (hp : p .best = false) :
    (finishCheckpointing cfg st).ckptQ.filter (fun x => p x.1) =
      st.ckptQ.filter (fun x => p x.1) := by
  unfold finishCheckpointing; split
  · split
    · simp [List.filter_append, hp]
    · rfl
  · rfl

end Verif
