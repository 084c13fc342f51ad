import Verif.Lemmas.Slog

/-!
C40 (sign/log arithmetic represents real arithmetic), C41 (sums of zeros), C59 (the scaled
exponentials never exceed one).
-/

namespace Verif.Props
open Verif.Slog Verif.Spec

/-- C40: converting a real to (sign, log) form represents it. -/
theorem slog_of_array (r : ℝ) : Represents (arrayToSlog (.fin r)) r :=
  (represents_iff _ _).mpr rfl

/-- C40: reading a representation gives the represented number, so the round trip is the
identity. -/
theorem slog_to_array {p : SL} {r : ℝ} (h : Represents p r) : arrayFromSlog p = .fin r := by
  rw [represents_iff] at h
  subst h
  have h0 : lmag r - .fin 0 = lmag r := by
    by_cases h : r = 0
    · subst h; simp only [lmag_zero]; rfl
    · simp only [lmag_ne h, XR.fin_sub, sub_zero]
  have h1 := @term_eq r 0
  rw [h0, neg_zero, Real.exp_zero, mul_one] at h1
  exact h1

/-- C40: converting to (sign, log) form and back is the identity. -/
theorem slog_roundtrip (r : ℝ) : arrayFromSlog (arrayToSlog (.fin r)) = .fin r :=
  slog_to_array (slog_of_array r)

/-- C40: the list versions are the identity on lists of any length. -/
theorem slog_list_roundtrip (l : List ℝ) :
    arrayListFromSlog (arrayListToSlog (l.map .fin)) = l.map .fin := by
  simp [arrayListFromSlog, arrayListToSlog, Function.comp_def, slog_roundtrip]

/-- C40: a pair represents at most one number. -/
theorem slog_unique {p : SL} {r s : ℝ} (hr : Represents p r) (hs : Represents p s) : r = s := by
  have := (slog_to_array hr).symm.trans (slog_to_array hs)
  exact XR.fin_inj.mp this

/-- C40: products in (sign, log) form represent the product, zeros included. -/
theorem slog_multiply_represents {p q : SL} {r s : ℝ} (hp : Represents p r)
    (hq : Represents q s) : Represents (slogMultiply p q) (r * s) := by
  unfold slogMultiply
  rcases hp with ⟨h, rfl⟩ | ⟨h, rfl⟩ | ⟨rfl, rfl⟩ <;>
    rcases hq with ⟨h', rfl⟩ | ⟨h', rfl⟩ | ⟨rfl, rfl⟩
  · left; exact ⟨mul_pos h h', by simp [Real.log_mul h.ne' h'.ne']⟩
  · right; left
    refine ⟨mul_neg_of_pos_of_neg h h', ?_⟩
    rw [show -(r * s) = r * -s by ring, Real.log_mul h.ne' (by linarith)]
    simp
  · right; right; exact ⟨by simp, by simp; rfl⟩
  · right; left
    refine ⟨mul_neg_of_neg_of_pos h h', ?_⟩
    rw [show -(r * s) = (-r) * s by ring, Real.log_mul (by linarith) h'.ne']
    simp
  · left
    refine ⟨mul_pos_of_neg_of_neg h h', ?_⟩
    rw [show r * s = (-r) * -s by ring, Real.log_mul (by linarith) (by linarith)]
    simp
  · right; right; exact ⟨by simp, by simp; rfl⟩
  · right; right; exact ⟨by simp, by simp; rfl⟩
  · right; right; exact ⟨by simp, by simp; rfl⟩
  · right; right; exact ⟨by simp, by simp; rfl⟩

/-- C40: the weighted sums of a represented family, one per weight column, represent the
weighted sums of the numbers, provided not every number is zero.  Exact cancellation
(result 0) is included. -/
theorem slog_weighted_sum_represents {d d' : ℕ} (x : Fin d → SL) (r : Fin d → ℝ)
    (hx : ∀ i, Represents (x i) (r i)) (hne : ∃ i, r i ≠ 0) (w : Fin d → Fin d' → ℝ)
    (j : Fin d') :
    Represents (logLinearExp (fun i => (x i).1) (fun i => (x i).2) (fun i k => .fin (w i k)) j)
      (∑ i, w i j * r i) := by
  have hx' : ∀ i, x i = (XR.sign (.fin (r i)), lmag (r i)) := fun i =>
    (represents_iff _ _).mp (hx i)
  obtain ⟨k, _, hM, _⟩ := axisMax_lmag r hne
  unfold logLinearExp termsDividedByMax
  simp only [hx', hM, term_eq, XR.fin_mul, XR.sum_fin]
  have : ∑ i, r i * Real.exp (-Real.log |r k|) * w i j
      = (∑ i, w i j * r i) * Real.exp (-Real.log |r k|) := by
    rw [Finset.sum_mul]
    exact Finset.sum_congr rfl fun i _ => by ring
  rw [this]
  exact finish_eq _ _

/-- C40: the sum over an axis of a represented family represents the sum of the numbers,
provided not every number is zero. -/
theorem slog_sum_over_axis_represents {d : ℕ} (x : Fin d → SL) (r : Fin d → ℝ)
    (hx : ∀ i, Represents (x i) (r i)) (hne : ∃ i, r i ≠ 0) :
    Represents (slogSumOverAxis x) (∑ i, r i) := by
  have hx' : ∀ i, x i = (XR.sign (.fin (r i)), lmag (r i)) := fun i =>
    (represents_iff _ _).mp (hx i)
  obtain ⟨k, _, hM, _⟩ := axisMax_lmag r hne
  unfold slogSumOverAxis logLinearExpSum termsDividedByMax
  simp only [hx', hM, term_eq, XR.sum_fin]
  rw [← Finset.sum_mul]
  exact finish_eq _ _

/-- C40: the sum of a list of represented numbers, not all zero, of any length. -/
theorem slog_list_sum_represents (l : List (SL × ℝ)) (hl : ∀ p ∈ l, Represents p.1 p.2)
    (hne : ∃ p ∈ l, p.2 ≠ 0) :
    Represents (slogArrayListSum (l.map Prod.fst)) (l.map Prod.snd).sum := by
  have hlen : (l.map Prod.fst).length = l.length := by simp
  obtain ⟨p, hp, hp0⟩ := hne
  obtain ⟨n, hn, rfl⟩ := List.getElem_of_mem hp
  have := slog_sum_over_axis_represents
    (fun i : Fin (l.map Prod.fst).length => (l.map Prod.fst).get i)
    (fun i => (l[i.1]'(hlen ▸ i.2)).2)
    (fun i => by
      have := hl (l[i.1]'(hlen ▸ i.2)) (List.getElem_mem _)
      simpa using this)
    ⟨⟨n, by simpa using hn⟩, hp0⟩
  unfold slogArrayListSum
  convert this using 1
  rw [← List.sum_ofFn]
  congr 1
  apply List.ext_getElem
  · simp
  · intro i h1 h2
    simp

/-- C40: `slog_sum` of two represented numbers, not both zero. -/
theorem slog_sum_represents {p q : SL} {r s : ℝ} (hp : Represents p r) (hq : Represents q s)
    (hne : r ≠ 0 ∨ s ≠ 0) : Represents (slogSum p q) (r + s) := by
  have := slog_list_sum_represents [(p, r), (q, s)]
    (by simp [hp, hq]) (by simpa using hne)
  simpa [slogSum] using this

/-- Exact cancellation: 2 + (-2) in (sign, log) form is the representation of 0. -/
example : slogSum (.fin 1, .fin (Real.log 2)) (.fin (-1), .fin (Real.log 2)) = (.fin 0, .ninf) := by
  have h := slog_sum_represents (p := (.fin 1, .fin (Real.log 2)))
    (q := (.fin (-1), .fin (Real.log 2))) (r := 2) (s := -2)
    (Or.inl ⟨by norm_num, rfl⟩) (Or.inr (Or.inl ⟨by norm_num, by norm_num⟩))
    (Or.inl (by norm_num))
  rcases h with ⟨h, _⟩ | ⟨h, _⟩ | ⟨_, h⟩
  · norm_num at h
  · norm_num at h
  · exact h

/-- The hypotheses of the weighted sum are met by the family (3, 0, -1) with two columns of
weights; the first column (1, 5, 3) cancels exactly. -/
example : ∃ (x : Fin 3 → SL) (r : Fin 3 → ℝ) (w : Fin 3 → Fin 2 → ℝ),
    (∀ i, Represents (x i) (r i)) ∧ (∃ i, r i ≠ 0) ∧ (∑ i, w i 0 * r i = 0) ∧
      ∑ i, w i 1 * r i = 4 := by
  refine ⟨fun i => arrayToSlog (.fin (![3, 0, -1] i)), ![3, 0, -1],
    ![![1, 1], ![5, 7], ![3, -1]], fun i => slog_of_array _, ⟨0, by simp⟩, ?_, ?_⟩
  · simp [Fin.sum_univ_three]
  · simp [Fin.sum_univ_three]; norm_num

/-- C41 fails: a sum of `d ≥ 1` represented zeros is (nan, nan), never the representation of
zero. The nan comes from `vals - max_val = -inf - (-inf)`. -/
theorem slog_sum_all_zero_is_nan {d : ℕ} (hd : 0 < d) (x : Fin d → SL)
    (hx : ∀ i, Represents (x i) 0) : slogSumOverAxis x = (.nan, .nan) := by
  have hx' : ∀ i, x i = (XR.fin 0, XR.ninf) := fun i => by
    rw [(represents_iff _ _).mp (hx i), sign_zero, lmag_zero]
  unfold slogSumOverAxis logLinearExpSum termsDividedByMax
  simp only [hx', axisMax_zero]
  have h : (XR.fin 0 * XR.exp (XR.ninf - XR.ninf) : XR) = .nan := rfl
  rw [h, XR.sum_nan Finset.univ (fun _ : Fin d => XR.nan) (Finset.mem_univ ⟨0, hd⟩) rfl]
  rfl

/-- C41 (negation): no number of zero terms sums to the representation of zero. -/
theorem slog_sum_all_zero_fails {d : ℕ} (hd : 0 < d) (x : Fin d → SL)
    (hx : ∀ i, Represents (x i) 0) : ¬ Represents (slogSumOverAxis x) 0 := by
  rw [slog_sum_all_zero_is_nan hd x hx]
  rintro (⟨_, h⟩ | ⟨_, h⟩ | ⟨_, h⟩) <;> cases h

/-- C41, the part that holds: a sum equal to zero is the representation of zero as soon as one
term is non-zero.  Missing: the case where every term is zero, which gives nan
(`slog_sum_all_zero_is_nan`). -/
theorem slog_sum_zero_partial {d : ℕ} (x : Fin d → SL) (r : Fin d → ℝ)
    (hx : ∀ i, Represents (x i) (r i)) (hne : ∃ i, r i ≠ 0) (hsum : ∑ i, r i = 0) :
    slogSumOverAxis x = (.fin 0, .ninf) := by
  have h := slog_sum_over_axis_represents x r hx hne
  rw [hsum] at h
  rcases h with ⟨h, _⟩ | ⟨h, _⟩ | ⟨_, h⟩
  · exact absurd h (lt_irrefl _)
  · exact absurd h (lt_irrefl _)
  · exact h

/-- Three zero amplitudes: the hypotheses of the failing case are met. -/
example : slogSumOverAxis (fun _ : Fin 3 => arrayToSlog (.fin 0)) = (.nan, .nan) :=
  slog_sum_all_zero_is_nan (by norm_num) _ (fun _ => slog_of_array 0)

/-- C59: before the exponentials are added, every scaled term has magnitude at most one and one
of them has magnitude exactly one, so the sum can neither overflow nor vanish by underflow of
all its terms; for represented numbers that are not all zero. -/
theorem log_linear_exp_terms_bounded {d : ℕ} (x : Fin d → SL) (r : Fin d → ℝ)
    (hx : ∀ i, Represents (x i) (r i)) (hne : ∃ i, r i ≠ 0) :
    ∃ t : Fin d → ℝ,
      (∀ i, termsDividedByMax (fun i => (x i).1) (fun i => (x i).2) i = .fin (t i)) ∧
      (∀ i, |t i| ≤ 1) ∧ ∃ k, |t k| = 1 := by
  have hx' : ∀ i, x i = (XR.sign (.fin (r i)), lmag (r i)) := fun i =>
    (represents_iff _ _).mp (hx i)
  obtain ⟨k, hk, hM, hle⟩ := axisMax_lmag r hne
  have hkp := abs_pos.mpr hk
  have hexp : Real.exp (-Real.log |r k|) = |r k|⁻¹ := by
    rw [Real.exp_neg, Real.exp_log hkp]
  refine ⟨fun i => r i * Real.exp (-Real.log |r k|), fun i => ?_, fun i => ?_, k, ?_⟩
  · unfold termsDividedByMax
    simp only [hx', hM, term_eq]
  · rw [hexp, abs_mul, abs_inv, abs_abs, ← div_eq_mul_inv]
    exact (div_le_one hkp).mpr (hle i)
  · show |r k * Real.exp (-Real.log |r k|)| = 1
    rw [hexp, abs_mul, abs_inv, abs_abs, mul_inv_cancel₀ hkp.ne']

/-- The bound's hypotheses are met by magnitudes far outside the float range. -/
example : ∃ t : Fin 2 → ℝ,
    (∀ i, termsDividedByMax (fun i => (arrayToSlog (.fin (![10 ^ 400, -3] i))).1)
      (fun i => (arrayToSlog (.fin (![10 ^ 400, -3] i))).2) i = .fin (t i)) ∧
      (∀ i, |t i| ≤ 1) ∧ ∃ k, |t k| = 1 :=
  log_linear_exp_terms_bounded (fun i => arrayToSlog (.fin (![10 ^ 400, -3] i)))
    ![10 ^ 400, -3] (fun _ => slog_of_array _) ⟨1, by simp⟩

end Verif.Props
