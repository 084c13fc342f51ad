import Verif.Lemmas.CG
import Verif.Spec.Updates
import Mathlib.LinearAlgebra.Matrix.ToLin

/-! SPRING (C53). -/

namespace Verif.Props

open Verif.Updates Verif.Spec

variable {K : Type*} [Fintype K] {n : ℕ}

omit [Fintype K] in
theorem springO_eq (J : Fin n → K → ℝ) (i : Fin n) (k : K) :
    springO J i k = (J i k - (∑ j, J j k) / n) / Real.sqrt n := by
  show J i k / Real.sqrt n - (∑ j, J j k / Real.sqrt n) / n = _
  rw [← Finset.sum_div, sub_div, div_right_comm]

omit [Fintype K] in
/-- The columns of `Ohat` are centred. -/
theorem springO_centered (J : Fin n → K → ℝ) (k : K) : ∑ i, springO J i k = 0 := by
  rcases Nat.eq_zero_or_pos n with rfl | hn
  · simp
  · have hn' : (n : ℝ) ≠ 0 := by exact_mod_cast hn.ne'
    simp only [springO_eq]
    rw [← Finset.sum_div, Finset.sum_sub_distrib]
    simp only [Finset.sum_const, Finset.card_univ, Fintype.card_fin, nsmul_eq_mul]
    rw [mul_div_cancel₀ _ hn', sub_self, zero_div]

theorem springT_mulVec (damping : ℝ) (J : Fin n → K → ℝ) (y : Fin n → ℝ) (i : Fin n) :
    (springT damping J).mulVec y i =
      (∑ k, springO J i k * ∑ j, springO J j k * y j) + (∑ j, y j) / n + damping * y i := by
  unfold springT
  rw [Matrix.add_mulVec, Matrix.add_mulVec, Matrix.smul_mulVec, Matrix.one_mulVec,
    ← Matrix.mulVec_mulVec]
  simp only [Pi.add_apply, Pi.smul_apply, smul_eq_mul]
  congr 2
  unfold Matrix.mulVec dotProduct
  simp only [Matrix.of_apply]
  rw [← Finset.mul_sum, one_div, inv_mul_eq_div]

/-- The regularized kernel matrix is positive definite. -/
theorem springT_pos {damping : ℝ} (hd : 0 < damping) (J : Fin n → K → ℝ) (y : Fin n → ℝ)
    (hy : y ≠ 0) : 0 < y ⬝ᵥ (springT damping J).mulVec y := by
  have h : y ⬝ᵥ (springT damping J).mulVec y =
      (∑ k, (∑ j, springO J j k * y j) ^ 2) + (∑ j, y j) ^ 2 / n + damping * treeInner y y := by
    unfold dotProduct
    simp only [springT_mulVec, mul_add, Finset.sum_add_distrib]
    congr 2
    · simp only [Finset.mul_sum, sq, Finset.sum_mul]
      rw [Finset.sum_comm]
      refine Finset.sum_congr rfl fun k _ => ?_
      refine Finset.sum_congr rfl fun i _ => Finset.sum_congr rfl fun j _ => by ring
    · rw [← Finset.sum_mul]
      ring
    · unfold treeInner
      rw [Finset.mul_sum]
      exact Finset.sum_congr rfl fun i _ => by ring
  rw [h]
  have h1 : 0 < treeInner y y :=
    lt_of_le_of_ne (treeInner_self_nonneg y) fun h => hy (treeInner_self_eq_zero.1 h.symm)
  have h2 : 0 ≤ ∑ k, (∑ j, springO J j k * y j) ^ 2 := Finset.sum_nonneg fun k _ => sq_nonneg _
  have h3 : 0 ≤ (∑ j, y j) ^ 2 / (n : ℝ) := div_nonneg (sq_nonneg _) (Nat.cast_nonneg n)
  have := mul_pos hd h1
  linarith

/-- The linear solve is well posed. -/
theorem springT_solve {damping : ℝ} (hd : 0 < damping) (J : Fin n → K → ℝ) (z : Fin n → ℝ) :
    (springT damping J).mulVec ((springT damping J)⁻¹.mulVec z) = z := by
  have hinj : Function.Injective (springT damping J).mulVec := by
    intro a b hab
    by_contra hne
    have := springT_pos hd J (a - b) (sub_ne_zero.2 hne)
    rw [Matrix.mulVec_sub, hab, sub_self, dotProduct_zero] at this
    exact lt_irrefl _ this
  have hu : IsUnit (springT damping J) := Matrix.mulVec_injective_iff_isUnit.1 hinj
  rw [Matrix.mulVec_mulVec, Matrix.mul_nonsing_inv _ ((Matrix.isUnit_iff_isUnit_det _).1 hu),
    Matrix.one_mulVec]

/-- The direction before mixing with momentum satisfies the normal equation. -/
theorem spring_normal {damping : ℝ} (hd : 0 < damping) (mu : ℝ) (J : Fin n → K → ℝ)
    (energies : Fin n → ℝ) (prev : K → ℝ) (k : K) :
    let t := springUpdate damping mu 0 J energies prev
    (∑ i, springO J i k * ((∑ l, springO J i l * t l) - energies i / Real.sqrt n)) +
      damping * (t k - mu * prev k) = 0 := by
  intro t
  set zeta : Fin n → ℝ := (fun i => energies i / Real.sqrt n) -
    (springO J).mulVec (fun k => mu * prev k) with hzeta
  set y := (springT damping J)⁻¹.mulVec zeta with hy
  have ht : ∀ l, t l = (∑ j, springO J j l * y j) + mu * prev l := by
    intro l
    show (1 - 0) * ((springO J).transpose.mulVec y + fun k => mu * prev k) l + 0 * prev l = _
    rw [sub_zero, one_mul, zero_mul, add_zero, Pi.add_apply]
    rfl
  have hsolve := springT_solve hd J zeta
  have hrow : ∀ i, (∑ l, springO J i l * t l) - energies i / Real.sqrt n =
      -((∑ j, y j) / n) - damping * y i := by
    intro i
    have h1 := congrFun hsolve i
    rw [← hy, springT_mulVec, hzeta] at h1
    have h2 : (springO J).mulVec (fun k => mu * prev k) i = ∑ l, springO J i l * (mu * prev l) :=
      rfl
    rw [Pi.sub_apply, h2] at h1
    simp only [ht, mul_add, Finset.sum_add_distrib]
    linarith
  simp only [hrow, mul_sub, mul_neg, Finset.sum_sub_distrib, Finset.sum_neg_distrib]
  rw [← Finset.sum_mul, springO_centered, ht k]
  have h3 : ∑ i, springO J i k * (damping * y i) = damping * ∑ i, springO J i k * y i := by
    rw [Finset.mul_sum]
    exact Finset.sum_congr rfl fun i _ => by ring
  rw [h3]
  ring

theorem springObjective_eq (damping mu : ℝ) (J : Fin n → K → ℝ) (energies : Fin n → ℝ)
    (prev t : K → ℝ) : springObjective damping mu J energies prev t =
      (∑ i, ((∑ l, springO J i l * t l) - energies i / Real.sqrt n) ^ 2) +
        damping * ∑ k, (t k - mu * prev k) ^ 2 := by
  unfold springObjective
  congr 1
  rw [Finset.sum_div]
  refine Finset.sum_congr rfl fun i _ => ?_
  simp only [springO_eq]
  have hn : 0 ≤ (n : ℝ) := Nat.cast_nonneg n
  have h1 : ∑ l, (J i l - (∑ j, J j l) / n) / Real.sqrt n * t l =
      (∑ l, (J i l - (∑ j, J j l) / n) * t l) / Real.sqrt n := by
    rw [Finset.sum_div]
    exact Finset.sum_congr rfl fun l _ => by ring
  rw [h1, ← sub_div, div_pow, Real.sq_sqrt hn]

/-- Without momentum, the SPRING direction is the unique minimizer of its regularized
least-squares problem. -/
theorem spring_minimizes {damping : ℝ} (hd : 0 < damping) (mu : ℝ) (J : Fin n → K → ℝ)
    (energies : Fin n → ℝ) (prev t : K → ℝ)
    (ht : t ≠ springUpdate damping mu 0 J energies prev) :
    springObjective damping mu J energies prev (springUpdate damping mu 0 J energies prev) <
      springObjective damping mu J energies prev t := by
  set t0 := springUpdate damping mu 0 J energies prev with ht0
  rw [springObjective_eq, springObjective_eq]
  have hnorm := spring_normal hd mu J energies prev
  rw [← ht0] at hnorm
  simp only at hnorm
  set u : K → ℝ := t - t0 with hu
  set c : Fin n → ℝ := fun i => (∑ l, springO J i l * t0 l) - energies i / Real.sqrt n with hc
  have hsplit : ∀ i, (∑ l, springO J i l * t l) - energies i / Real.sqrt n =
      (∑ l, springO J i l * u l) + c i := by
    intro i
    rw [hc, hu]
    simp only [Pi.sub_apply, mul_sub, Finset.sum_sub_distrib]
    ring
  have hsplit2 : ∀ k, t k - mu * prev k = u k + (t0 k - mu * prev k) := by
    intro k
    rw [hu, Pi.sub_apply]
    ring
  have hcross : (∑ i, (∑ l, springO J i l * u l) * c i) +
      damping * ∑ k, u k * (t0 k - mu * prev k) = 0 := by
    have : (∑ i, (∑ l, springO J i l * u l) * c i) = ∑ k, u k * ∑ i, springO J i k * c i := by
      simp only [Finset.sum_mul, Finset.mul_sum]
      rw [Finset.sum_comm]
      exact Finset.sum_congr rfl fun k _ => Finset.sum_congr rfl fun i _ => by ring
    rw [this, Finset.mul_sum, ← Finset.sum_add_distrib]
    refine Finset.sum_eq_zero fun k _ => ?_
    have := hnorm k
    have h2 : u k * (∑ i, springO J i k * c i) + damping * (u k * (t0 k - mu * prev k)) =
      u k * ((∑ i, springO J i k * c i) + damping * (t0 k - mu * prev k)) := by ring
    rw [h2, this, mul_zero]
  simp only [hsplit, hsplit2]
  have e1 : ∑ i, ((∑ l, springO J i l * u l) + c i) ^ 2 =
      (∑ i, (∑ l, springO J i l * u l) ^ 2) + 2 * (∑ i, (∑ l, springO J i l * u l) * c i) +
        ∑ i, c i ^ 2 := by
    rw [Finset.mul_sum, ← Finset.sum_add_distrib, ← Finset.sum_add_distrib]
    exact Finset.sum_congr rfl fun i _ => by ring
  have e2 : ∑ k, (u k + (t0 k - mu * prev k)) ^ 2 =
      treeInner u u + 2 * (∑ k, u k * (t0 k - mu * prev k)) + ∑ k, (t0 k - mu * prev k) ^ 2 := by
    unfold treeInner
    rw [Finset.mul_sum, ← Finset.sum_add_distrib, ← Finset.sum_add_distrib]
    exact Finset.sum_congr rfl fun i _ => by ring
  rw [e1, e2]
  have hne : u ≠ 0 := sub_ne_zero.2 ht
  have h1 : 0 < treeInner u u :=
    lt_of_le_of_ne (treeInner_self_nonneg u) fun h => hne (treeInner_self_eq_zero.1 h.symm)
  have h2 : 0 ≤ ∑ i, (∑ l, springO J i l * u l) ^ 2 := Finset.sum_nonneg fun i _ => sq_nonneg _
  have h3 := mul_pos hd h1
  have hgoal : ∑ i, c i ^ 2 + damping * ∑ k, (t0 k - mu * prev k) ^ 2 <
      ∑ i, (∑ l, springO J i l * u l) ^ 2 + 2 * ∑ i, (∑ l, springO J i l * u l) * c i +
        ∑ i, c i ^ 2 + damping * (treeInner u u + 2 * ∑ k, u k * (t0 k - mu * prev k) +
          ∑ k, (t0 k - mu * prev k) ^ 2) := by
    linear_combination (norm := skip) (1 : ℝ) * h3
    nlinarith
  exact hgoal

/-- With momentum, the result is the weighted mean of that minimizer and the previous
direction. -/
theorem spring_momentum (damping mu momentum : ℝ) (J : Fin n → K → ℝ) (energies : Fin n → ℝ)
    (prev : K → ℝ) (k : K) : springUpdate damping mu momentum J energies prev k =
      (1 - momentum) * springUpdate damping mu 0 J energies prev k + momentum * prev k := by
  simp only [springUpdate]
  ring

/-- One parameter, walkers with log-derivatives `1, -1` and energies `1, -1`, damping 1, no
previous direction: the minimizer of `(t - 1)² + t²` is `1/2`. -/
example : springUpdate (n := 2) (K := Fin 1) 1 0.99 0 (fun i _ => ![1, -1] i) ![1, -1] 0 0 =
    1 / 2 := by
  have h := spring_normal (n := 2) (K := Fin 1) one_pos 0.99 (fun i _ => ![1, -1] i) ![1, -1] 0 0
  have h2 : (Real.sqrt 2) ^ 2 = 2 := Real.sq_sqrt (by norm_num)
  have hne : Real.sqrt 2 ≠ 0 := by positivity
  simp [springO_eq, Fin.sum_univ_two] at h
  field_simp at h
  rw [h2] at h
  linarith

end Verif.Props
