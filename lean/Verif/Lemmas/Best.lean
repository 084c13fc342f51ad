import Verif.Lemmas.Running

namespace Verif
open Spec

variable {P D S K : Type}

/-- invariant of the best-checkpoint bookkeeping after `n` epochs -/
def BestInv (W : ℕ) (cfg : LoopCfg P D) (fns : LoopFns P D S K) (s : ℕ) (c : Core P D S K)
    (en va : ℕ → ℝ) (n : ℕ) (st : LoopState P D S K) : Prop :=
  RunInv W st.energy ((List.range n).map en) ∧ RunInv W st.variance ((List.range n).map va) ∧
  ((n = 0 ∧ st.ckMetric = .pinf ∧ st.bestData = none ∧ lastPut .best st.ckptQ = none) ∨
   (0 < n ∧ ∃ e, IsFirstArgmin (errorAdjusted W cfg.nchains cfg.varianceScale en va) n e ∧
     st.ckMetric = .fin (errorAdjusted W cfg.nchains cfg.varianceScale en va e) ∧
     (st.bestData = some (startOfEpoch fns c s e) ∨
      (st.bestData = none ∧ lastPut .best st.ckptQ = some (startOfEpoch fns c s e)))))

theorem range_succ_map (f : ℕ → ℝ) (n : ℕ) :
    (List.range (n + 1)).map f = (List.range n).map f ++ [f n] := by
  rw [List.range_succ, List.map_append]; rfl

/-- outcome of the best-checkpoint step once the metric is known -/
theorem trackAndSaveBest_cases (cfg : LoopCfg P D) (e every : ℕ) (old : Core P D S K)
    (m : Metrics) (en va : RunningMetric) (ck : XR) (b : Option (Ckpt P D S K))
    (hev : cfg.bestCheckpointEvery = some every) :
    let adj := getCheckpointMetric (en.moveHistoryWindow m.energy).avg
      (va.moveHistoryWindow m.variance).avg
      (cfg.nchains * (en.moveHistoryWindow m.energy).history.length) cfg.varianceScale
    let r := trackAndSaveBest cfg e old m en va ck b
    r.energy = en.moveHistoryWindow m.energy ∧ r.variance = va.moveHistoryWindow m.variance ∧
    r.errorAdjusted = adj ∧
    (XR.lt adj ck → (r.bestData = some ⟨e, old.data, old.params, old.opt, old.key⟩ ∧ r.puts = [])
      ∨ (r.bestData = none ∧
          r.puts = [(.best, ⟨e, old.data, old.params, old.opt, old.key⟩)])) ∧
    (¬ XR.lt adj ck → ∀ x, b = some x → (r.bestData = some x ∧ r.puts = []) ∨
      (r.bestData = none ∧ r.puts = [(.best, x)])) ∧
    (¬ XR.lt adj ck → b = none → r.bestData = none ∧ r.puts = []) := by
  intro adj r
  have hr : r = trackAndSaveBest cfg e old m en va ck b := rfl
  unfold trackAndSaveBest at hr
  simp only [hev] at hr
  by_cases hlt : XR.lt adj ck
  · rw [if_pos hlt] at hr
    simp only at hr
    split at hr <;> rw [hr] <;> simp_all [adj]
  · rw [if_neg hlt] at hr
    cases b with
    | none => simp only at hr; rw [hr]; simp_all [adj]
    | some x =>
      simp only at hr
      split at hr <;> rw [hr] <;> simp_all [adj]

theorem trackAndSaveBest_lt (cfg : LoopCfg P D) (e every : ℕ) (old : Core P D S K)
    (m : Metrics) (en va : RunningMetric) (ck : XR) (b : Option (Ckpt P D S K))
    (hev : cfg.bestCheckpointEvery = some every) (hs : (e + 1) % every = 0)
    (hlt : XR.lt (getCheckpointMetric (en.moveHistoryWindow m.energy).avg
      (va.moveHistoryWindow m.variance).avg
      (cfg.nchains * (en.moveHistoryWindow m.energy).history.length) cfg.varianceScale) ck) :
    trackAndSaveBest cfg e old m en va ck b =
      ⟨en.moveHistoryWindow m.energy, va.moveHistoryWindow m.variance,
       getCheckpointMetric (en.moveHistoryWindow m.energy).avg
        (va.moveHistoryWindow m.variance).avg
        (cfg.nchains * (en.moveHistoryWindow m.energy).history.length) cfg.varianceScale,
       none, [(.best, ⟨e, old.data, old.params, old.opt, old.key⟩)]⟩ := by
  unfold trackAndSaveBest
  simp only [hev]
  rw [if_pos hlt]
  simp [hs]

theorem bestInv_runN (W : ℕ) (hW : 1 ≤ W) (cfg : LoopCfg P D) (fns : LoopFns P D S K) (s : ℕ)
    (c : Core P D S K) (en va : ℕ → ℝ) (every : ℕ)
    (hlog : cfg.hasLogdir = true) (hev : cfg.bestCheckpointEvery = some every)
    (hnh : cfg.nhistoryMax = (W : ℤ) + 1)
    (n : ℕ) (hva : ∀ i < n, 0 ≤ va i)
    (hm : ∀ i < n, ∃ m, rawMetrics fns c i = some m ∧ m.energy = .fin (en i) ∧
      m.variance = .fin (va i)) :
    BestInv W cfg fns s c en va (epochsRun (loopBad cfg fns c) n) (runN cfg fns s c n) := by
  induction n with
  | zero =>
    refine ⟨?_, ?_, Or.inl ⟨rfl, rfl, rfl, rfl⟩⟩ <;>
    · simp only [runN_zero, initState, hnh, epochsRun, List.range_zero, List.map_nil]
      exact runInv_new W
  | succ n ih =>
    replace ih := ih (fun i hi => hva i (by omega)) (fun i hi => hm i (by omega))
    have hcn := runN_core_nans cfg fns s c n
    rw [runN_succ]
    by_cases hb : ∃ i < n, loopBad cfg fns c i
    · rw [if_pos (hcn.2.mpr hb), epochsRun_succ_bad hb]; exact ih
    · have hn : (runN cfg fns s c n).nansDetected = false := by
        by_contra h; exact hb (hcn.2.mp (by simpa using h))
      have hE : epochsRun (loopBad cfg fns c) n = n := epochsRun_of_not_bad hb
      have hE' : epochsRun (loopBad cfg fns c) (n + 1) = n + 1 := by
        rw [epochsRun, if_neg hb]
      rw [hE] at ih hcn
      rw [if_neg (by simp [hn]), hE']
      obtain ⟨m, hm1, hme, hmv⟩ := hm n (by omega)
      have hraw : rawMetrics fns (runN cfg fns s c n).core 0 = some m := by
        rw [hcn.1, rawMetrics_traj, Nat.add_zero, hm1]
      rw [epochStep_some _ _ _ _ m hlog hraw]
      unfold BestInv
      simp only
      generalize hst : runN cfg fns s c n = st at *
      unfold BestInv at ih
      obtain ⟨ihe, ihv, ih⟩ := ih
      have hC := trackAndSaveBest_cases cfg (s + n) every st.core
        (fullMetrics cfg fns st.core m) st.energy st.variance st.ckMetric st.bestData hev
      simp only at hC
      rw [fullMetrics_energy, fullMetrics_variance, hme, hmv] at hC
      have he' := runInv_step hW ihe (en n)
      have hv' := runInv_step hW ihv (va n)
      rw [← range_succ_map] at he' hv'
      have hne : ∀ f : ℕ → ℝ, lastN W ((List.range (n + 1)).map f) ≠ [] := by
        intro f h
        have := lastN_length W ((List.range (n + 1)).map f)
        rw [h] at this; simp at this; omega
      have hlen : (st.energy.moveHistoryWindow (.fin (en n))).history.length =
          min W (n + 1) := by
        rw [he'.hist, List.length_map, lastN_length, List.length_map, List.length_range]
      rw [he'.avg_eq (hne en), hv'.avg_eq (hne va), ← windowMean_eq W hW,
        ← windowMean_eq W hW, hlen, getCheckpointMetric_eq W hW _ _ _ _ _ hva] at hC
      generalize hr : trackAndSaveBest cfg (s + n) st.core (fullMetrics cfg fns st.core m)
        st.energy st.variance st.ckMetric st.bestData = r at hC ⊢
      set a := errorAdjusted W cfg.nchains cfg.varianceScale en va with ha
      obtain ⟨h1, h2, h3, h4, h5, h6⟩ := hC
      have hstart : (⟨s + n, st.core.data, st.core.params, st.core.opt, st.core.key⟩ :
          Ckpt P D S K) = startOfEpoch fns c s n := by rw [hcn.1]; rfl
      rw [hstart] at h4
      have hregnot : ∀ x ∈ (saveMetricsAndRegular cfg (s + n) st.core
          (coreStep fns st.core).params (fullMetrics cfg fns st.core m)).1, x.1 ≠ .best := by
        intro x hx
        rcases (saveRegular_puts _ _ _ _ _ x hx).2 with h | h <;> rw [h] <;> simp
      refine ⟨by rw [h1]; exact he', by rw [h2]; exact hv', Or.inr ⟨by omega, ?_⟩⟩
      rw [h3]
      -- new minimum reached at n
      have newmin : XR.lt (.fin (a n)) st.ckMetric →
          IsFirstArgmin a (n + 1) n → XR.minimum (.fin (a n)) st.ckMetric = .fin (a n) →
          ∃ e, IsFirstArgmin a (n + 1) e ∧
            XR.minimum (.fin (a n)) st.ckMetric = .fin (a e) ∧
            (r.bestData = some (startOfEpoch fns c s e) ∨
             (r.bestData = none ∧ lastPut .best (st.ckptQ ++ (saveMetricsAndRegular cfg (s + n)
               st.core (coreStep fns st.core).params (fullMetrics cfg fns st.core m)).1 ++ r.puts)
               = some (startOfEpoch fns c s e))) := by
        intro hlt harg hmin
        refine ⟨n, harg, hmin, ?_⟩
        rcases h4 hlt with h | h
        · exact Or.inl h.1
        · right
          rw [h.2]
          exact ⟨h.1, lastPut_append_self _ _ _⟩
      rcases ih with ⟨h0, hck, hbd, hlp⟩ | ⟨hpos, e, harg, hck, hbest⟩
      · subst h0
        apply newmin
        · rw [hck]; exact XR.fin_lt_pinf _
        · refine ⟨by omega, ?_, ?_⟩
          · intro i hi
            have : i = 0 := by omega
            subst this; exact le_rfl
          · intro i hi; omega
        · rw [hck, XR.minimum_pinf_right]
      · by_cases hlt : a n < a e
        · apply newmin
          · rw [hck]; exact hlt
          · refine ⟨by omega, ?_, ?_⟩
            · intro i hi
              rcases Nat.lt_succ_iff_lt_or_eq.mp hi with h | h
              · exact hlt.le.trans (harg.2.1 i h)
              · rw [h]
            · intro i hi; exact lt_of_lt_of_le hlt (harg.2.1 i hi)
          · rw [hck, XR.minimum_fin, min_eq_left hlt.le]
        · have hnlt : ¬ XR.lt (.fin (a n)) st.ckMetric := by rw [hck]; exact hlt
          refine ⟨e, ⟨by have := harg.1; omega, ?_, harg.2.2⟩, ?_, ?_⟩
          · intro i hi
            rcases Nat.lt_succ_iff_lt_or_eq.mp hi with h | h
            · exact harg.2.1 i h
            · rw [h]; exact not_lt.mp hlt
          · rw [hck, XR.minimum_fin, min_eq_right (not_lt.mp hlt)]
          · rcases hbest with hbd | ⟨hbd, hlp⟩
            · rcases h5 hnlt _ hbd with h | h
              · exact Or.inl h.1
              · right; rw [h.2]; exact ⟨h.1, lastPut_append_self _ _ _⟩
            · right
              have := h6 hnlt hbd
              rw [this.2, List.append_nil, lastPut_append_of_not _ _ _ hregnot]
              exact ⟨this.1, hlp⟩

/-- after a nan energy the metric stays nan and only earlier epochs can be saved as best -/
theorem nan_best_runN (cfg : LoopCfg P D) (fns : LoopFns P D S K) (s : ℕ)
    (c : Core P D S K) (every i : ℕ)
    (hlog : cfg.hasLogdir = true) (hev : cfg.bestCheckpointEvery = some every)
    (hnh : 0 < cfg.nhistoryMax) (m : Metrics) (hm : rawMetrics fns c i = some m)
    (hnan : m.energy = .nan) (hchk : ∀ j < i, ¬ loopBad cfg fns c j) (n : ℕ) :
    (runN cfg fns s c n).energy.nhistoryMax = cfg.nhistoryMax ∧
    (i < n → (runN cfg fns s c n).energy.avg = .nan ∧ (runN cfg fns s c n).ckMetric = .nan) ∧
    (∀ x, (runN cfg fns s c n).bestData = some x → i < n → x.epoch < s + i) ∧
    (∀ x, (.best, x) ∈ (runN cfg fns s c n).ckptQ → i < n → x.epoch < s + i) ∧
    (∀ x, (runN cfg fns s c n).bestData = some x → x.epoch < s + n) ∧
    (∀ x, (.best, x) ∈ (runN cfg fns s c n).ckptQ → x.epoch < s + n) := by
  induction n with
  | zero => simp [runN_zero, initState, RunningMetric.new]
  | succ n ih =>
    obtain ⟨ih0, ih1, ih2, ih3, ih4, ih5⟩ := ih
    have hcn := runN_core_nans cfg fns s c n
    rw [runN_succ]
    by_cases hb : ∃ i < n, loopBad cfg fns c i
    · rw [if_pos (hcn.2.mpr hb)]
      obtain ⟨j, hj, hjb⟩ := hb
      have hij : i < n := by
        by_contra h
        exact hchk j (by omega) hjb
      exact ⟨ih0, fun _ => ih1 hij, fun x hx _ => ih2 x hx hij, fun x hx _ => ih3 x hx hij,
        fun x hx => (ih4 x hx).trans (by omega), fun x hx => (ih5 x hx).trans (by omega)⟩
    · have hn : (runN cfg fns s c n).nansDetected = false := by
        by_contra h; exact hb (hcn.2.mp (by simpa using h))
      rw [epochsRun_of_not_bad hb] at hcn
      rw [if_neg (by simp [hn])]
      generalize hst : runN cfg fns s c n = st at *
      cases hraw : rawMetrics fns st.core 0 with
      | none =>
        have hne : i ≠ n := by
          rintro rfl
          rw [hcn.1, rawMetrics_traj, Nat.add_zero, hm] at hraw
          cases hraw
        rw [epochStep_none _ _ _ _ hraw]
        exact ⟨ih0, fun h => ih1 (by omega), fun x hx h => ih2 x hx (by omega),
          fun x hx h => ih3 x hx (by omega),
          fun x hx => (ih4 x hx).trans (by omega), fun x hx => (ih5 x hx).trans (by omega)⟩
      | some m' =>
        rw [epochStep_some _ _ _ _ m' hlog hraw]
        simp only
        have hC := trackAndSaveBest_cases cfg (s + n) every st.core
          (fullMetrics cfg fns st.core m') st.energy st.variance st.ckMetric st.bestData hev
        simp only at hC
        rw [fullMetrics_energy, fullMetrics_variance] at hC
        generalize hr : trackAndSaveBest cfg (s + n) st.core (fullMetrics cfg fns st.core m')
          st.energy st.variance st.ckMetric st.bestData = r at hC ⊢
        generalize hadj : getCheckpointMetric (st.energy.moveHistoryWindow m'.energy).avg
          (st.variance.moveHistoryWindow m'.variance).avg
          (cfg.nchains * (st.energy.moveHistoryWindow m'.energy).history.length)
          cfg.varianceScale = adj at hC
        obtain ⟨h1, h2, h3, h4, h5, h6⟩ := hC
        have havg : i < n + 1 → (st.energy.moveHistoryWindow m'.energy).avg = .nan := by
          intro h
          by_cases hin : i < n
          · exact move_nan_avg _ _ (ih1 hin).1
          · have : i = n := by omega
            subst this
            rw [hcn.1, rawMetrics_traj, Nat.add_zero, hm] at hraw
            cases hraw
            rw [hnan]
            exact move_nan_value _ (by rw [ih0]; exact hnh)
        have hadjnan : i < n + 1 → adj = .nan := by
          intro h
          rw [← hadj, havg h]
          unfold getCheckpointMetric
          split <;> simp
        have hregnot : ∀ x ∈ (saveMetricsAndRegular cfg (s + n) st.core
            (coreStep fns st.core).params (fullMetrics cfg fns st.core m')).1, x.1 ≠ .best := by
          intro x hx
          rcases (saveRegular_puts _ _ _ _ _ x hx).2 with h | h <;> rw [h] <;> simp
        have key : ∀ B : ℕ, (∀ x, st.bestData = some x → x.epoch < B) →
            (∀ x, (FileName.best, x) ∈ st.ckptQ → x.epoch < B) →
            (XR.lt adj st.ckMetric → s + n < B) →
            (∀ x, r.bestData = some x → x.epoch < B) ∧
            (∀ x, (FileName.best, x) ∈ st.ckptQ ++ (saveMetricsAndRegular cfg (s + n) st.core
              (coreStep fns st.core).params (fullMetrics cfg fns st.core m')).1 ++ r.puts →
              x.epoch < B) := by
          intro B hB1 hB2 hB3
          have hq : ∀ x, (FileName.best, x) ∈ st.ckptQ ++ (saveMetricsAndRegular cfg (s + n)
              st.core (coreStep fns st.core).params (fullMetrics cfg fns st.core m')).1 →
              x.epoch < B := by
            intro x hx
            rcases List.mem_append.mp hx with h | h
            · exact hB2 x h
            · exact absurd rfl (hregnot _ h)
          by_cases hlt : XR.lt adj st.ckMetric
          · rcases h4 hlt with ⟨ha, hp⟩ | ⟨ha, hp⟩
            · rw [ha, hp, List.append_nil]
              refine ⟨?_, hq⟩
              rintro x hx
              simp only [Option.some.injEq] at hx; subst hx; exact hB3 hlt
            · rw [ha, hp]
              refine ⟨by simp, ?_⟩
              intro x hx
              rcases List.mem_append.mp hx with h | h
              · exact hq x h
              · simp only [List.mem_singleton, Prod.mk.injEq, true_and] at h
                subst h; exact hB3 hlt
          · cases hbd : st.bestData with
            | none =>
              obtain ⟨ha, hp⟩ := h6 hlt hbd
              rw [ha, hp, List.append_nil]
              exact ⟨by simp, hq⟩
            | some y =>
              rcases h5 hlt y hbd with ⟨ha, hp⟩ | ⟨ha, hp⟩
              · rw [ha, hp, List.append_nil]
                refine ⟨?_, hq⟩
                rintro x hx
                simp only [Option.some.injEq] at hx; subst hx; exact hB1 _ hbd
              · rw [ha, hp]
                refine ⟨by simp, ?_⟩
                intro x hx
                rcases List.mem_append.mp hx with h | h
                · exact hq x h
                · simp only [List.mem_singleton, Prod.mk.injEq, true_and] at h
                  subst h; exact hB1 _ hbd
        have k2 := key (s + (n + 1)) (fun x hx => (ih4 x hx).trans (by omega))
          (fun x hx => (ih5 x hx).trans (by omega)) (fun _ => by omega)
        have k1 : i < n + 1 → _ := fun hin => key (s + i)
          (fun x hx => by
            by_cases h : i < n
            · exact ih2 x hx h
            · have : i = n := by omega
              subst this; exact ih4 x hx)
          (fun x hx => by
            by_cases h : i < n
            · exact ih3 x hx h
            · have : i = n := by omega
              subst this; exact ih5 x hx)
          (fun hlt => by rw [hadjnan hin] at hlt; exact absurd hlt (XR.not_nan_lt _))
        refine ⟨by rw [h1, move_nmax]; exact ih0, ?_, ?_, ?_, k2.1, k2.2⟩
        · intro h
          refine ⟨by rw [h1]; exact havg h, ?_⟩
          simp only [h3, hadjnan h]
          exact XR.minimum_nan_left _
        · intro x hx h; exact (k1 h).1 x hx
        · intro x hx h; exact (k1 h).2 x hx

end Verif
