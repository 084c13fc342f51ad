import Verif.Lemmas.LocalEnergy
import Mathlib.Analysis.Calculus.Deriv.Inv
import Mathlib.Analysis.Calculus.ContDiff.Basic

/-! Second derivatives of distances. -/

namespace Verif.Phys
open Verif.Spec

variable {n m d : ℕ}

theorem continuous_softDist_line (s : ℝ) (a b v : Fin d → ℝ) :
    Continuous (fun t : ℝ => softDist s (fun k => a k + t * v k) b) := by
  unfold softDist
  fun_prop

theorem hasDerivAt_softDist_line (s : ℝ) (a b v : Fin d → ℝ) (t : ℝ)
    (h : 0 < softDist s (fun k => a k + t * v k) b) :
    HasDerivAt (fun t : ℝ => softDist s (fun k => a k + t * v k) b)
      ((∑ k, (a k + t * v k - b k) * v k) / softDist s (fun k => a k + t * v k) b) t := by
  have hne : s ≠ 0 ∨ (fun k => a k + t * v k) ≠ b := by
    by_contra hc
    push Not at hc
    rw [hc.1, hc.2, softDist_self] at h
    exact lt_irrefl _ h
  have h1 := hasDerivAt_softDist s (fun k => a k + t * v k) b v hne
  have h2 := HasDerivAt.comp_sub_const (x := t) (a := t) (by rw [sub_self]; exact h1)
  have h3 : (fun w : ℝ => softDist s (fun k => a k + t * v k + (w - t) * v k) b)
      = fun w : ℝ => softDist s (fun k => a k + w * v k) b := by
    funext w
    congr 1
    funext k
    ring
  rw [h3] at h2
  exact h2

theorem deriv_softDist_line (s : ℝ) (a b v : Fin d → ℝ) (t : ℝ)
    (h : 0 < softDist s (fun k => a k + t * v k) b) :
    deriv (fun t : ℝ => softDist s (fun k => a k + t * v k) b) t =
      (∑ k, (a k + t * v k - b k) * v k) / softDist s (fun k => a k + t * v k) b :=
  (hasDerivAt_softDist_line s a b v t h).deriv

/-- second derivative of the (softened) distance along a line -/
theorem deriv2_softDist (s : ℝ) (a b v : Fin d → ℝ) (h : s ≠ 0 ∨ a ≠ b) :
    deriv (deriv (fun t : ℝ => softDist s (fun k => a k + t * v k) b)) 0 =
      (∑ k, v k ^ 2) / softDist s a b -
        (∑ k, (a k - b k) * v k) ^ 2 / softDist s a b ^ 3 := by
  have hp := softDist_pos h
  have hp0 : 0 < softDist s (fun k => a k + 0 * v k) b := by simpa using hp
  have hev : deriv (fun t : ℝ => softDist s (fun k => a k + t * v k) b) =ᶠ[nhds 0]
      fun t => (∑ k, (a k + t * v k - b k) * v k) / softDist s (fun k => a k + t * v k) b := by
    have := (continuous_softDist_line s a b v).continuousAt.eventually (lt_mem_nhds hp0)
    exact this.mono fun t ht => deriv_softDist_line s a b v t ht
  rw [hev.deriv_eq]
  have hnum : HasDerivAt (fun t : ℝ => ∑ k, (a k + t * v k - b k) * v k) (∑ k, v k ^ 2) 0 := by
    refine HasDerivAt.fun_sum fun k _ => ?_
    have h2 : HasDerivAt (fun t : ℝ => a k + t * v k - b k) (v k) 0 := by
      have := ((hasDerivAt_id (0 : ℝ)).mul_const (v k)).const_add (a k) |>.sub_const (b k)
      simpa using this
    have := h2.mul_const (v k)
    rw [pow_two]
    exact this
  have hden := hasDerivAt_softDist s a b v h
  have hq := hnum.fun_div hden hp0.ne'
  rw [hq.deriv]
  simp only [zero_mul, add_zero]
  field_simp

/-- `partial2` of the distance of one electron to a fixed point, summed over the components of
that electron: the radial laplacian -/
theorem laplacian_softDist_zero (x b : Fin d → ℝ) (h : x ≠ b) :
    ∑ k, deriv (deriv (fun t : ℝ => softDist 0
      (fun k' => x k' + t * if k' = k then 1 else 0) b)) 0 = ((d : ℝ) - 1) / softDist 0 x b := by
  have hp := softDist_pos (s := 0) (Or.inr h)
  have hsq : softDist 0 x b ^ 2 = ∑ k, (x k - b k) ^ 2 := by
    unfold softDist
    rw [Real.sq_sqrt]
    · simp
    · have : 0 ≤ ∑ k, (x k - b k) ^ 2 := Finset.sum_nonneg fun _ _ => sq_nonneg _
      simpa using this
  have h1 : ∀ k : Fin d, deriv (deriv (fun t : ℝ => softDist 0
      (fun k' => x k' + t * if k' = k then 1 else 0) b)) 0
        = 1 / softDist 0 x b - (x k - b k) ^ 2 / softDist 0 x b ^ 3 := by
    intro k
    rw [deriv2_softDist 0 x b (fun k' => if k' = k then 1 else 0) (Or.inr h)]
    simp
  simp only [h1, Finset.sum_sub_distrib, Finset.sum_const, Finset.card_univ, Fintype.card_fin,
    nsmul_eq_mul, ← Finset.sum_div, ← hsq]
  field_simp

end Verif.Phys
