import Verif.Model.Slog
import Verif.Spec.Slog
import Mathlib.Tactic

/-! Facts about sign/log pairs used for the property theorems. -/

namespace Verif.Slog
open Verif.Spec

/-- log of the magnitude of a real in `XR` -/
noncomputable def lmag (r : ℝ) : XR := XR.log (XR.abs (.fin r))

theorem lmag_zero : lmag 0 = .ninf := by simp [lmag]

theorem lmag_ne {r : ℝ} (h : r ≠ 0) : lmag r = .fin (Real.log |r|) := by
  unfold lmag
  rw [XR.abs_fin, XR.log_fin (abs_pos.mpr h)]

theorem sign_pos {r : ℝ} (h : 0 < r) : XR.sign (.fin r) = .fin 1 := by
  simp [XR.sign, not_lt.mpr h.le, h.ne']

theorem sign_neg {r : ℝ} (h : r < 0) : XR.sign (.fin r) = .fin (-1) := by
  simp [XR.sign, h]

theorem sign_zero : XR.sign (.fin 0) = .fin 0 := by simp [XR.sign]

theorem represents_iff (p : XR × XR) (r : ℝ) :
    Represents p r ↔ p = (XR.sign (.fin r), lmag r) := by
  unfold Represents
  rcases lt_trichotomy r 0 with h | h | h
  · rw [sign_neg h, lmag_ne h.ne, abs_of_neg h]
    simp [h, h.ne, not_lt.mpr h.le]
  · subst h
    rw [sign_zero, lmag_zero]; simp
  · rw [sign_pos h, lmag_ne h.ne', abs_of_pos h]
    simp [h, h.ne', not_lt.mpr h.le]

theorem sign_eq_fin (r : ℝ) : ∃ s : ℝ, XR.sign (.fin r) = .fin s ∧ s * |r| = r := by
  rcases lt_trichotomy r 0 with h | h | h
  · exact ⟨-1, sign_neg h, by rw [abs_of_neg h]; ring⟩
  · subst h; exact ⟨0, sign_zero, by simp⟩
  · exact ⟨1, sign_pos h, by rw [abs_of_pos h]; ring⟩

/-- entries of a log array that can occur: finite or minus infinity -/
def Loggy (x : XR) : Prop := x = .ninf ∨ ∃ a, x = .fin a

theorem loggy_lmag (r : ℝ) : Loggy (lmag r) := by
  by_cases h : r = 0
  · subst h; exact Or.inl lmag_zero
  · exact Or.inr ⟨_, lmag_ne h⟩

/-- maximum of two log entries -/
theorem maximum_loggy {a b : XR} (ha : Loggy a) (hb : Loggy b) :
    Loggy (XR.maximum a b) ∧ XR.le a (XR.maximum a b) ∧ XR.le b (XR.maximum a b) ∧
      (XR.maximum a b = a ∨ XR.maximum a b = b) := by
  rcases ha with rfl | ⟨x, rfl⟩ <;> rcases hb with rfl | ⟨y, rfl⟩
  · simp [XR.maximum, XR.isNan, XR.lt, Loggy, XR.le]
  · simp [XR.maximum, XR.isNan, XR.lt, Loggy, XR.le]
  · simp [XR.maximum, XR.isNan, XR.lt, Loggy, XR.le]
  · unfold XR.maximum
    simp only [XR.isNan, or_self, if_false, XR.fin_lt]
    by_cases h : y < x
    · rw [if_pos h]; exact ⟨Or.inr ⟨_, rfl⟩, le_refl x, h.le, Or.inl rfl⟩
    · rw [if_neg h]; exact ⟨Or.inr ⟨_, rfl⟩, not_lt.mp h, le_refl y, Or.inr rfl⟩

theorem le_trans_loggy {a b c : XR} (ha : Loggy a) (hb : Loggy b) (hc : Loggy c)
    (h1 : XR.le a b) (h2 : XR.le b c) : XR.le a c := by
  rcases ha with rfl | ⟨x, rfl⟩ <;> rcases hb with rfl | ⟨y, rfl⟩ <;> rcases hc with rfl | ⟨z, rfl⟩
    <;> simp_all [XR.le]
  exact h1.trans h2

theorem foldl_max (l : List XR) (hl : ∀ x ∈ l, Loggy x) (a : XR) (ha : Loggy a) :
    Loggy (l.foldl XR.maximum a) ∧ XR.le a (l.foldl XR.maximum a) ∧
      (∀ x ∈ l, XR.le x (l.foldl XR.maximum a)) ∧
      (l.foldl XR.maximum a = a ∨ l.foldl XR.maximum a ∈ l) := by
  induction l generalizing a with
  | nil =>
    refine ⟨ha, ?_, by simp, Or.inl rfl⟩
    rcases ha with rfl | ⟨x, rfl⟩ <;> simp [XR.le]
  | cons b l ih =>
    have hb : Loggy b := hl b (by simp)
    obtain ⟨m1, m2, m3, m4⟩ := maximum_loggy ha hb
    obtain ⟨h1, h2, h3, h4⟩ := ih (fun x hx => hl x (by simp [hx])) _ m1
    simp only [List.foldl_cons]
    refine ⟨h1, le_trans_loggy ha m1 h1 m2 h2, ?_, ?_⟩
    · intro x hx
      rcases List.mem_cons.mp hx with rfl | hx
      · exact le_trans_loggy hb m1 h1 m3 h2
      · exact h3 x hx
    · rcases h4 with h4 | h4
      · rcases m4 with m4 | m4
        · left; rw [h4, m4]
        · right; rw [h4, m4]; simp
      · right; exact List.mem_cons_of_mem _ h4

theorem axisMax_lmag {d : ℕ} (r : Fin d → ℝ) (h : ∃ i, r i ≠ 0) :
    ∃ k, r k ≠ 0 ∧ axisMax (fun i => lmag (r i)) = .fin (Real.log |r k|) ∧
      ∀ i, |r i| ≤ |r k| := by
  have hl : ∀ x ∈ List.ofFn (fun i => lmag (r i)), Loggy x := by
    intro x hx
    rw [List.mem_ofFn] at hx
    obtain ⟨i, rfl⟩ := hx
    exact loggy_lmag _
  obtain ⟨h1, _, h3, h4⟩ := foldl_max _ hl .ninf (Or.inl rfl)
  obtain ⟨i0, hi0⟩ := h
  have hle : ∀ i, XR.le (lmag (r i)) (axisMax (fun i => lmag (r i))) := fun i =>
    h3 _ (by rw [List.mem_ofFn]; exact ⟨i, rfl⟩)
  have hne : axisMax (fun i => lmag (r i)) ≠ .ninf := by
    intro hc
    have := hle i0
    rw [hc, lmag_ne hi0] at this
    exact this
  rcases h4 with h4 | h4
  · exact absurd h4 hne
  rw [List.mem_ofFn] at h4
  obtain ⟨k, hk⟩ := h4
  have hk' : lmag (r k) = axisMax (fun i => lmag (r i)) := hk
  have hrk : r k ≠ 0 := by
    intro hc
    rw [hc, lmag_zero] at hk'
    exact hne hk'.symm
  refine ⟨k, hrk, by rw [← hk', lmag_ne hrk], fun i => ?_⟩
  by_cases hi : r i = 0
  · rw [hi]; simp
  · have := hle i
    rw [← hk', lmag_ne hi, lmag_ne hrk, XR.fin_le] at this
    exact (Real.log_le_log_iff (abs_pos.mpr hi) (abs_pos.mpr hrk)).mp this

theorem axisMax_zero {d : ℕ} : axisMax (fun _ : Fin d => XR.ninf) = .ninf := by
  have h := foldl_max (List.ofFn (fun _ : Fin d => XR.ninf))
    (by intro x hx; rw [List.mem_ofFn] at hx; obtain ⟨_, rfl⟩ := hx; exact Or.inl rfl)
    .ninf (Or.inl rfl)
  rcases h.2.2.2 with h | h
  · exact h
  · rw [List.mem_ofFn] at h
    obtain ⟨_, h⟩ := h
    exact h.symm

theorem term_eq {r : ℝ} {M : ℝ} :
    XR.sign (.fin r) * XR.exp (lmag r - .fin M) = .fin (r * Real.exp (-M)) := by
  obtain ⟨s, hs, hr⟩ := sign_eq_fin r
  by_cases h : r = 0
  · subst h
    rw [lmag_zero, sign_zero]
    show XR.fin 0 * XR.exp .ninf = _
    simp [XR.exp]
  · rw [hs, lmag_ne h, XR.fin_sub, XR.exp_fin, XR.fin_mul, sub_eq_add_neg, Real.exp_add,
      Real.exp_log (abs_pos.mpr h), ← mul_assoc, hr]

theorem finish_eq (S M : ℝ) :
    Represents (finishLogLinear (.fin (S * Real.exp (-M))) (.fin M)) S := by
  have he := Real.exp_pos (-M)
  rcases lt_trichotomy S 0 with h | h | h
  · right; left
    refine ⟨h, ?_⟩
    have h1 : S * Real.exp (-M) < 0 := mul_neg_of_neg_of_pos h he
    unfold finishLogLinear
    rw [sign_neg h1, XR.abs_fin, abs_of_neg h1, XR.log_fin (by linarith), XR.fin_add,
      show -(S * Real.exp (-M)) = (-S) * Real.exp (-M) by ring,
      Real.log_mul (by linarith) he.ne', Real.log_exp]
    simp
  · subst h; right; right
    refine ⟨rfl, ?_⟩
    unfold finishLogLinear
    simp only [zero_mul, sign_zero, XR.abs_fin, abs_zero, XR.log_zero]
    rfl
  · left
    refine ⟨h, ?_⟩
    have h1 : 0 < S * Real.exp (-M) := mul_pos h he
    unfold finishLogLinear
    rw [sign_pos h1, XR.abs_fin, abs_of_pos h1, XR.log_fin h1, XR.fin_add,
      Real.log_mul h.ne' he.ne', Real.log_exp]
    simp

end Verif.Slog
