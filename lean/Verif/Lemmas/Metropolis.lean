import Verif.Spec.Metropolis
import Verif.Lemmas.LoopCkpt
import Mathlib.Tactic

/-! Helper lemmas for the Metropolis properties. -/

namespace Verif.MCMC
open Spec

theorem sq_div_le_one {a b : ℝ} (ha : a * a ≠ 0) (h : ¬ a * a < b * b) :
    0 ≤ b * b / (a * a) ∧ b * b / (a * a) ≤ 1 := by
  have h1 : 0 < a * a := lt_of_le_of_ne (mul_self_nonneg a) (Ne.symm ha)
  exact ⟨div_nonneg (mul_self_nonneg b) h1.le, (div_le_one h1).mpr (not_lt.mp h)⟩

/-- closed form of the plain acceptance on real amplitudes -/
theorem acceptPlain_fin (a b : ℝ) :
    acceptPlain (.fin a) (.fin b) =
      .fin (if a * a < b * b ∨ a * a = 0 then 1 else b * b / (a * a)) := by
  unfold acceptPlain
  simp only [XR.fin_mul, XR.fin_lt, XR.fin_inj]
  split_ifs with h
  · rfl
  · rw [XR.fin_div (by tauto)]

/-- closed form of the log acceptance on finite log amplitudes -/
theorem acceptLog_fin (a b : ℝ) :
    acceptLog (.fin a) (.fin b) =
      .fin (if a < b then 1 else Real.exp (2 * b - 2 * a)) := by
  unfold acceptLog
  simp only [XR.fin_mul, XR.fin_lt, XR.fin_sub, XR.exp_fin]
  have : (2 * a < 2 * b) ↔ a < b := by constructor <;> intro h <;> linarith
  simp only [this]
  split_ifs <;> rfl

theorem two_mul_ninf : (XR.fin 2 * XR.ninf : XR) = .ninf := by
  show XR.infMul (-2) = _
  unfold XR.infMul
  rw [if_neg (by norm_num), if_neg (by norm_num)]

theorem two_mul_pinf : (XR.fin 2 * XR.pinf : XR) = .pinf := by
  show XR.infMul 2 = _
  unfold XR.infMul
  rw [if_neg (by norm_num), if_pos (by norm_num)]

theorem acceptLog_ninf_fin (b : ℝ) : acceptLog .ninf (.fin b) = .fin 1 := by
  unfold acceptLog
  simp only [two_mul_ninf, XR.fin_mul, XR.lt, if_true]

theorem acceptLog_fin_ninf (a : ℝ) : acceptLog (.fin a) .ninf = .fin 0 := by
  unfold acceptLog
  simp only [two_mul_ninf, XR.fin_mul, XR.lt, if_false]
  rfl

theorem acceptLog_ninf_ninf : acceptLog .ninf .ninf = .nan := by
  unfold acceptLog
  simp only [two_mul_ninf, XR.lt, if_false]
  rfl

theorem acceptLog_pinf_pinf : acceptLog .pinf .pinf = .nan := by
  unfold acceptLog
  simp only [two_mul_pinf, XR.lt, if_false]
  rfl

theorem acceptLog_pinf_fin (b : ℝ) : acceptLog .pinf (.fin b) = .fin 0 := by
  unfold acceptLog
  simp only [two_mul_pinf, XR.fin_mul, XR.lt, if_false]
  rfl

theorem acceptLog_fin_pinf (a : ℝ) : acceptLog (.fin a) .pinf = .fin 1 := by
  unfold acceptLog
  simp only [two_mul_pinf, XR.fin_mul, XR.lt, if_true]

theorem acceptLog_ninf_pinf : acceptLog .ninf .pinf = .fin 1 := by
  unfold acceptLog
  simp only [two_mul_pinf, two_mul_ninf, XR.lt, if_true]

theorem acceptLog_pinf_ninf : acceptLog .pinf .ninf = .fin 0 := by
  unfold acceptLog
  simp only [two_mul_pinf, two_mul_ninf, XR.lt, if_false]
  rfl

theorem acceptLog_nan_left (b : XR) : acceptLog .nan b = .nan := by
  unfold acceptLog
  simp only [XR.mul_nan, XR.not_nan_lt, if_false, XR.sub_nan]
  rfl

theorem acceptLog_nan_right (a : XR) : acceptLog a .nan = .nan := by
  unfold acceptLog
  simp only [XR.mul_nan, XR.not_lt_nan, if_false, XR.nan_sub]
  rfl

section walk
variable {P D K : Type}

theorem walk_iterate (step : P → D → K → XR × D × K) (params : P) (n : ℕ) (c : XR × D × K) :
    ((walkBody step params)^[n] c).2 = iterSteps step params n c.2 := by
  induction n with
  | zero => rfl
  | succ n ih =>
    rw [Function.iterate_succ_apply']
    simp only [walkBody, iterSteps, ih]

theorem walkData_snd (step : P → D → K → XR × D × K) (params : P) (n : ℕ) (d : D) (k : K) :
    (walkData n params d k step).2 = iterSteps step params n (d, k) := by
  have := walk_iterate step params n (.fin 0, d, k)
  simp only [walkData]
  exact this

theorem iterSteps_add (step : P → D → K → XR × D × K) (params : P) (m n : ℕ) (s : D × K) :
    iterSteps step params (m + n) s = iterSteps step params n (iterSteps step params m s) := by
  induction n with
  | zero => rfl
  | succ n ih => rw [← Nat.add_assoc]; simp only [iterSteps]; rw [ih]

theorem burn_iterSteps (step : P → D → K → XR × D × K) (params : P) (n : ℕ) (d : D) (k : K) :
    burnData (burningStep step) n params d k = iterSteps step params n (d, k) := by
  unfold burnData
  induction n with
  | zero => rfl
  | succ n ih =>
    rw [Function.iterate_succ_apply', ih]
    rfl

theorem walk_sum (step : P → D → K → XR × D × K) (params : P) (n : ℕ) (s : D × K)
    (a : ℕ → ℝ) (ha : ∀ i < n, stepAccept step params s i = .fin (a i)) (z : ℝ) :
    ((walkBody step params)^[n] (.fin z, s)).1 = .fin (z + ∑ i ∈ Finset.range n, a i) := by
  induction n with
  | zero => simp
  | succ n ih =>
    rw [Function.iterate_succ_apply']
    have h1 := walk_iterate step params n (.fin z, s)
    have h2 := ih (fun i hi => ha i (by omega))
    have h3 := ha n (by omega)
    simp only [walkBody, h2]
    simp only [stepAccept] at h3
    simp only at h1
    rw [h1, h3, XR.fin_add, Finset.sum_range_succ, add_assoc]

end walk

/-! Invariants preserved by each step are preserved by walking. -/

theorem iterSteps_inv {P D K : Type} (step : P → D → K → XR × D × K) (params : P)
    (I : D → Prop) (h : ∀ d k, I d → I (step params d k).2.1) (n : ℕ) (s : D × K)
    (hs : I s.1) : I (iterSteps step params n s).1 := by
  induction n with
  | zero => exact hs
  | succ n ih => exact h _ _ ih

end Verif.MCMC
