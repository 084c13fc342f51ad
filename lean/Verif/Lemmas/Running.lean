import Verif.Spec.Running
import Verif.Lemmas.LoopCkpt

namespace Verif
open Spec

/-- invariant of a running metric over finite values `vals` with window `W` -/
structure RunInv (W : ℕ) (m : RunningMetric) (vals : List ℝ) : Prop where
  nmax : m.nhistoryMax = (W : ℤ) + 1
  hist : m.history = (lastN W vals).map XR.fin
  avg : ∃ a : ℝ, m.avg = .fin a ∧ ((lastN W vals).length : ℝ) * a = (lastN W vals).sum

theorem lastN_length {α : Type} (k : ℕ) (l : List α) : (lastN k l).length = min k l.length := by
  simp [lastN]; omega

theorem lastN_suffix {α : Type} (k : ℕ) (l : List α) : lastN k l <:+ l := List.drop_suffix _ _

theorem lastN_append_lt {α : Type} {k : ℕ} {l : List α} (v : α) (h : l.length < k) :
    lastN k (l ++ [v]) = lastN k l ++ [v] := by
  simp only [lastN, List.length_append, List.length_singleton]
  rw [show l.length + 1 - k = 0 by omega, show l.length - k = 0 by omega]
  simp

theorem lastN_append_ge {α : Type} {k : ℕ} {l : List α} (v : α) (hk : 1 ≤ k)
    (h : k ≤ l.length) :
    lastN k (l ++ [v]) = (lastN k l ++ [v]).tail := by
  have h1 : lastN k l ++ [v] = (l ++ [v]).drop (l.length - k) := by
    rw [List.drop_append_of_le_length (by omega)]; rfl
  rw [h1, List.tail_drop]
  simp only [lastN, List.length_append, List.length_singleton]
  congr 1; omega

theorem runInv_new (W : ℕ) : RunInv W (.new ((W : ℤ) + 1)) [] := by
  refine ⟨rfl, by simp [RunningMetric.new, lastN], 0, rfl, by simp [lastN]⟩

theorem runInv_step {W : ℕ} (hW : 1 ≤ W) {m : RunningMetric} {vals : List ℝ}
    (h : RunInv W m vals) (v : ℝ) :
    RunInv W (m.moveHistoryWindow (.fin v)) (vals ++ [v]) := by
  obtain ⟨hn, hh, a, ha, hs⟩ := h
  have hlen : m.history.length = (lastN W vals).length := by rw [hh, List.length_map]
  unfold RunningMetric.moveHistoryWindow
  rw [if_neg (by rw [hn]; omega)]
  simp only
  by_cases hfull : W ≤ vals.length
  · have hl : (lastN W vals).length = W := by rw [lastN_length]; omega
    rw [hl] at hlen hs
    rw [if_pos (by rw [hn, hlen]; push_cast; omega)]
    have hnew := lastN_append_ge (l := vals) v hW hfull
    -- the window is nonempty
    obtain ⟨x, xs, hx⟩ : ∃ x xs, lastN W vals = x :: xs := by
      cases hc : lastN W vals with
      | nil => rw [hc] at hl; simp at hl; omega
      | cons x xs => exact ⟨x, xs, rfl⟩
    rw [hx] at hnew hs
    refine ⟨hn, ?_, ?_⟩
    · simp only [hh, hx, List.map_cons, List.cons_append, List.tail_cons, hnew, List.map_append,
        List.map_nil]
    · have hxl : xs.length + 1 = W := by rw [hx] at hl; simpa using hl
      have hWr : (W : ℝ) ≠ 0 := by positivity
      refine ⟨((W : ℝ) * a + v - x) / W, ?_, ?_⟩
      · rw [hlen]
        simp only [Nat.add_sub_cancel, hh, hx, List.map_cons, List.cons_append,
          List.headD_cons, ha, XR.ofNat, XR.fin_mul, XR.fin_add, XR.fin_sub]
        exact XR.fin_div hWr
      · rw [hnew]
        simp only [List.cons_append, List.tail_cons, List.length_append, List.length_singleton,
          hxl, List.sum_append, List.sum_singleton]
        rw [mul_div_cancel₀ _ hWr, hs, List.sum_cons]; ring
  · have hl : (lastN W vals).length = vals.length := by rw [lastN_length]; omega
    rw [hl] at hlen hs
    rw [if_neg (by rw [hn, hlen]; push_cast; omega)]
    have hnew := lastN_append_lt (k := W) (l := vals) v (by omega)
    refine ⟨hn, ?_, ?_⟩
    · simp only [hh, hnew, List.map_append, List.map_cons, List.map_nil]
    · have hWr : ((vals.length + 1 : ℕ) : ℝ) ≠ 0 := by positivity
      refine ⟨((vals.length : ℝ) * a + v) / (vals.length + 1 : ℕ), ?_, ?_⟩
      · simp only [hlen, ha, XR.ofNat, XR.fin_mul, XR.fin_add]
        exact XR.fin_div hWr
      · rw [hnew]
        simp only [List.length_append, List.length_singleton, hl, List.sum_append,
          List.sum_singleton]
        rw [mul_div_cancel₀ _ hWr, hs]

theorem runInv_insertAll {W : ℕ} (hW : 1 ≤ W) (vals : List ℝ) :
    RunInv W (insertAll (.new ((W : ℤ) + 1)) (vals.map XR.fin)) vals := by
  induction vals using List.reverseRecOn with
  | nil => exact runInv_new W
  | append_singleton l v ih =>
    have := runInv_step hW ih v
    simpa [insertAll, List.foldl_append] using this

theorem RunInv.avg_eq {W : ℕ} {m : RunningMetric} {vals : List ℝ} (h : RunInv W m vals)
    (hne : lastN W vals ≠ []) : m.avg = .fin (listMean (lastN W vals)) := by
  obtain ⟨-, -, a, ha, hs⟩ := h
  have hl : ((lastN W vals).length : ℝ) ≠ 0 := by
    simpa [Nat.cast_eq_zero, List.length_eq_zero_iff] using hne
  rw [ha, listMean, ← hs, mul_div_cancel_left₀ _ hl]

theorem sum_Ico_range' (f : ℕ → ℝ) (a k : ℕ) :
    ∑ i ∈ Finset.Ico a (a + k), f i = ((List.range' a k).map f).sum := by
  induction k with
  | zero => simp
  | succ k ih =>
    rw [← Nat.add_assoc, Finset.sum_Ico_succ_top (by omega), ih, List.range'_concat]
    simp

/-- window mean over indices versus mean of the last entries of the value list -/
theorem windowMean_eq (W : ℕ) (hW : 1 ≤ W) (f : ℕ → ℝ) (n : ℕ) :
    windowMean W f n = listMean (lastN W ((List.range (n + 1)).map f)) := by
  unfold windowMean listMean
  rw [lastN_length, List.length_map, List.length_range]
  congr 1
  unfold lastN
  rw [List.length_map, List.length_range, ← List.map_drop, List.range_eq_range',
    List.drop_range', ← sum_Ico_range']
  congr 2 <;> omega

/-- a nan average stays nan -/
theorem move_nan_avg (m : RunningMetric) (v : XR) (h : m.avg = .nan) :
    (m.moveHistoryWindow v).avg = .nan := by
  unfold RunningMetric.moveHistoryWindow
  split
  · exact h
  · simp only [h, XR.mul_nan, XR.nan_add]
    split <;> simp

theorem move_nan_value (m : RunningMetric) (h : 0 < m.nhistoryMax) :
    (m.moveHistoryWindow .nan).avg = .nan := by
  unfold RunningMetric.moveHistoryWindow
  rw [if_neg (by omega)]
  simp only [XR.add_nan]
  split <;> simp

theorem move_nmax (m : RunningMetric) (v : XR) :
    (m.moveHistoryWindow v).nhistoryMax = m.nhistoryMax := by
  unfold RunningMetric.moveHistoryWindow
  split
  · rfl
  · simp only; split <;> rfl

end Verif

namespace Verif
open Spec

/-- the retained history, for arbitrary inserted values and any positive limit -/
theorem insertAll_history (W : ℕ) (vals : List XR) :
    (insertAll (.new ((W : ℤ) + 1)) vals).history = lastN W vals ∧
    (insertAll (.new ((W : ℤ) + 1)) vals).nhistoryMax = (W : ℤ) + 1 := by
  induction vals using List.reverseRecOn with
  | nil => simp [insertAll, RunningMetric.new, lastN]
  | append_singleton l v ih =>
    have hstep : insertAll (.new ((W : ℤ) + 1)) (l ++ [v]) =
        (insertAll (.new ((W : ℤ) + 1)) l).moveHistoryWindow v := by
      simp [insertAll, List.foldl_append]
    rw [hstep]
    refine ⟨?_, by rw [move_nmax]; exact ih.2⟩
    generalize insertAll (.new ((W : ℤ) + 1)) l = m at ih
    obtain ⟨hh, hn⟩ := ih
    have hl : m.history.length = min W l.length := by rw [hh, lastN_length]
    unfold RunningMetric.moveHistoryWindow
    rw [if_neg (by rw [hn]; omega)]
    simp only
    by_cases hfull : W ≤ l.length
    · rw [if_pos (by rw [hn, hl]; push_cast; omega)]
      simp only [hh]
      by_cases hW : 1 ≤ W
      · exact (lastN_append_ge v hW hfull).symm
      · have : W = 0 := by omega
        subst this
        simp [lastN]
    · rw [if_neg (by rw [hn, hl]; push_cast; omega)]
      simp only [hh]
      exact (lastN_append_lt v (by omega)).symm

theorem lastPut_append_of_not {β : Type} (f : FileName) (q l : List (FileName × β))
    (h : ∀ x ∈ l, x.1 ≠ f) : lastPut f (q ++ l) = lastPut f q := by
  unfold lastPut
  have hl : l.filter (fun x => decide (x.1 = f)) = [] :=
    List.filter_eq_nil_iff.mpr (by simpa using h)
  rw [List.filter_append, hl, List.append_nil]

theorem lastPut_append_self {β : Type} (f : FileName) (q : List (FileName × β)) (x : β) :
    lastPut f (q ++ [(f, x)]) = some x := by
  unfold lastPut
  rw [List.filter_append]
  simp

theorem windowMean_nonneg (W : ℕ) (f : ℕ → ℝ) (n : ℕ) (hf : ∀ i < n + 1, 0 ≤ f i) :
    0 ≤ windowMean W f n := by
  unfold windowMean
  exact div_nonneg (Finset.sum_nonneg fun i hi => hf i (Finset.mem_Ico.mp hi).2) (by positivity)

/-- the code's metric on a window of finite values -/
theorem getCheckpointMetric_eq (W : ℕ) (hW : 1 ≤ W) (nchains : ℤ) (scale : ℝ) (en va : ℕ → ℝ)
    (n : ℕ) (hva : ∀ i < n + 1, 0 ≤ va i) :
    getCheckpointMetric (.fin (windowMean W en n)) (.fin (windowMean W va n))
      (nchains * (min W (n + 1) : ℕ)) scale =
    .fin (errorAdjusted W nchains scale en va n) := by
  have hm : 0 < min W (n + 1) := by omega
  have hmz : (0 : ℤ) < (min W (n + 1) : ℕ) := by exact_mod_cast hm
  unfold getCheckpointMetric errorAdjusted
  by_cases hc : 0 < scale ∧ 0 < nchains
  · rw [if_neg (by
      rintro (h | h)
      · linarith [hc.1]
      · have := mul_pos hc.2 hmz; omega), if_pos hc]
    simp only
    have hnc : (0 : ℝ) < (nchains : ℝ) := by exact_mod_cast hc.2
    have hmr : (0 : ℝ) < ((min W (n + 1) : ℕ) : ℝ) := by exact_mod_cast hm
    have hpos : (0 : ℝ) < (nchains : ℝ) * ((min W (n + 1) : ℕ) : ℝ) / scale :=
      div_pos (mul_pos hnc hmr) hc.1
    have hcast : (((nchains * (min W (n + 1) : ℕ) : ℤ)) : ℝ) / scale =
        (nchains : ℝ) * ((min W (n + 1) : ℕ) : ℝ) / scale := by push_cast; ring
    rw [hcast, XR.fin_div hpos.ne',
      XR.sqrt_fin (div_nonneg (windowMean_nonneg W va n hva) hpos.le)]
    rfl
  · rw [if_neg hc, if_pos]
    by_contra h
    push Not at h
    refine hc ⟨h.1, ?_⟩
    by_contra h'
    have : nchains * ((min W (n + 1) : ℕ) : ℤ) ≤ 0 :=
      mul_nonpos_of_nonpos_of_nonneg (by omega) hmz.le
    omega

end Verif
