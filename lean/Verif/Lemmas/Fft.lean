import Verif.Model.Statistics
import Mathlib.Algebra.Field.GeomSum
import Mathlib.Tactic

/-! The zero-padded Fourier autocorrelation equals the direct sum of products. -/

namespace Verif.Stat
open Complex

theorem geom_exp {n : ℕ} (hn : 0 < n) (t : ℤ) :
    ∑ j ∈ Finset.range n, exp (2 * Real.pi * I * t * j / n) =
      if (n : ℤ) ∣ t then (n : ℂ) else 0 := by
  have hn0 : (n : ℂ) ≠ 0 := by exact_mod_cast hn.ne'
  set z := exp (2 * Real.pi * I * t / n) with hz
  have hpow : ∀ j : ℕ, exp (2 * Real.pi * I * t * j / n) = z ^ j := by
    intro j
    rw [hz, ← Complex.exp_nat_mul]
    congr 1; ring
  simp_rw [hpow]
  have hzn : z ^ n = 1 := by
    rw [← hpow, Complex.exp_eq_one_iff]
    exact ⟨t, by field_simp⟩
  split_ifs with h
  · obtain ⟨m, rfl⟩ := h
    have : z = 1 := by
      rw [hz, Complex.exp_eq_one_iff]
      refine ⟨m, ?_⟩
      push_cast
      field_simp
    simp [this]
  · have hz1 : z ≠ 1 := by
      intro h1
      rw [hz, Complex.exp_eq_one_iff] at h1
      obtain ⟨m, hm⟩ := h1
      apply h
      refine ⟨m, ?_⟩
      have h2pi : (2 * Real.pi * I : ℂ) ≠ 0 := Complex.two_pi_I_ne_zero
      have : (t : ℂ) = n * m := by
        field_simp at hm
        have h3 : (2 * Real.pi * I : ℂ) * t = (2 * Real.pi * I) * (n * m) := by
          linear_combination (2 * Real.pi * I : ℂ) * hm
        exact mul_left_cancel₀ h2pi h3
      exact_mod_cast this
    rw [geom_sum_eq hz1, hzn]
    simp

theorem ifft_autocorr (N : ℕ) (a : ℕ → ℝ) (k : ℕ) (hk : k < N) :
    ifft (2 * N) (fun j => fftPad (2 * N) N a j * (starRingEnd ℂ) (fftPad (2 * N) N a j)) k =
      ((∑ m ∈ Finset.range (N - k), a m * a (m + k) : ℝ) : ℂ) := by
  have hn : 0 < 2 * N := by omega
  set n := 2 * N with hndef
  have hn0 : (n : ℂ) ≠ 0 := by exact_mod_cast hn.ne'
  set b : ℕ → ℂ := fun m => if m < N then (a m : ℂ) else 0 with hb
  have hconj : ∀ j, (starRingEnd ℂ) (fftPad n N a j) =
      ∑ l ∈ Finset.range n, b l * exp (2 * Real.pi * I * l * j / n) := by
    intro j
    unfold fftPad
    rw [map_sum]
    refine Finset.sum_congr rfl fun l _ => ?_
    rw [map_mul, ← Complex.exp_conj]
    congr 1
    · simp only [hb]; split_ifs <;> simp
    · congr 1
      simp only [map_neg, map_div₀, map_mul, Complex.conj_ofReal, Complex.conj_I,
        Complex.conj_natCast, map_ofNat]
      ring
  unfold ifft
  have hprod : ∀ j, fftPad n N a j * (starRingEnd ℂ) (fftPad n N a j) *
        exp (2 * Real.pi * I * k * j / n) =
      ∑ m ∈ Finset.range n, ∑ l ∈ Finset.range n,
        b m * b l * exp (2 * Real.pi * I * ((l + k - m : ℤ) : ℂ) * j / n) := by
    intro j
    rw [hconj]
    unfold fftPad
    rw [Finset.sum_mul_sum, Finset.sum_mul]
    refine Finset.sum_congr rfl fun m _ => ?_
    rw [Finset.sum_mul]
    refine Finset.sum_congr rfl fun l _ => ?_
    have : exp (2 * Real.pi * I * ((l + k - m : ℤ) : ℂ) * j / n) =
        exp (-(2 * Real.pi * I * m * j / n)) * exp (2 * Real.pi * I * l * j / n) *
          exp (2 * Real.pi * I * k * j / n) := by
      rw [← Complex.exp_add, ← Complex.exp_add]
      congr 1; push_cast; ring
    rw [this]
    simp only [hb]
    ring
  simp_rw [hprod]
  rw [Finset.sum_comm]
  have hinner : ∀ m ∈ Finset.range n, (∑ j ∈ Finset.range n, ∑ l ∈ Finset.range n,
        b m * b l * exp (2 * Real.pi * I * ((l + k - m : ℤ) : ℂ) * j / n)) =
      n * ∑ l ∈ Finset.range n, if l + k = m then b m * b l else 0 := by
    intro m hm
    rw [Finset.sum_comm, Finset.mul_sum]
    refine Finset.sum_congr rfl fun l hl => ?_
    rw [← Finset.mul_sum, geom_exp hn]
    simp only [Finset.mem_range] at hm hl
    by_cases h : l + k = m
    · have : (l + k - m : ℤ) = 0 := by omega
      rw [this]; simp [h]; ring
    · rw [if_neg h]
      by_cases hmN : m < N
      · by_cases hlN : l < N
        · have : ¬ ((n : ℤ) ∣ (l + k - m : ℤ)) := by
            rintro ⟨q, hq⟩
            have h1 : -(n : ℤ) < (l + k - m : ℤ) := by omega
            have h2 : (l + k - m : ℤ) < n := by omega
            rw [hq] at h1 h2
            have hnpos : (0 : ℤ) < n := by omega
            have hq1 : q < 1 := by nlinarith
            have hq2 : -1 < q := by nlinarith
            have : q = 0 := by omega
            rw [this] at hq; omega
          rw [if_neg this]; simp
        · simp [hb, hlN]
      · simp [hb, hmN]
  rw [Finset.sum_congr rfl hinner, ← Finset.mul_sum, mul_div_assoc, mul_comm,
    div_mul_cancel₀ _ hn0]
  rw [Finset.sum_comm]
  have houter : ∀ l ∈ Finset.range n, (∑ m ∈ Finset.range n,
      if l + k = m then b m * b l else 0) = if l < N - k then ((a l * a (l + k) : ℝ) : ℂ) else 0 := by
    intro l hl
    simp only [Finset.mem_range] at hl
    rw [Finset.sum_ite_eq]
    simp only [Finset.mem_range, hb]
    by_cases h : l < N - k
    · have h1 : l + k < n := by omega
      have h2 : l + k < N := by omega
      have h3 : l < N := by omega
      simp [h, h1, h2, h3]; ring
    · by_cases h1 : l + k < n
      · have h2 : ¬ l + k < N := by omega
        simp [h, h1, h2]
      · simp [h, h1]
  rw [Finset.sum_congr rfl houter, ← Finset.sum_filter]
  have hfilt : (Finset.range n).filter (fun l => l < N - k) = Finset.range (N - k) := by
    ext l; simp only [Finset.mem_filter, Finset.mem_range]; omega
  rw [hfilt]
  push_cast
  rfl

end Verif.Stat
