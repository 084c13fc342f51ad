import Verif.Model.Jastrow
import Mathlib.GroupTheory.Perm.Basic
import Mathlib.Tactic

/-! C48: Jastrow factors. -/

namespace Verif.Props
open Verif.Net Verif.Jastrow Equiv

variable {N nion d : ℕ}

/-- Euclidean distance of two points -/
noncomputable def dist2 (x y : Fin d → ℝ) : ℝ := Real.sqrt (∑ k, (x k - y k) ^ 2)

theorem dist2_comm (x y : Fin d → ℝ) : dist2 x y = dist2 y x := by
  unfold dist2
  congr 1
  exact Finset.sum_congr rfl fun k _ => by ring

theorem dist2_self (x : Fin d → ℝ) : dist2 x x = 0 := by simp [dist2]

theorem eeNorm_dist (pos : Fin N → Fin d → ℝ) (i k : Fin N) :
    eeNormSafeDiag 0 (displacements pos pos) i k = dist2 (pos i) (pos k) := by
  unfold eeNormSafeDiag
  by_cases h : i = k
  · simp [h, dist2_self]
  · simp only [h, if_false, add_zero, sub_zero, mul_one, softened, norm2, displacements]
    rw [Real.sq_sqrt (Finset.sum_nonneg fun k _ => sq_nonneg _)]
    simp [dist2]

/-- half of a symmetric double sum with zero diagonal is the sum over the upper triangle -/
theorem triu_sum (f : Fin N → Fin N → ℝ) (hs : ∀ i k, f i k = f k i) (hd : ∀ i, f i i = 0) :
    ∑ i, ∑ k, triu f i k = (∑ i, ∑ k, f i k) / 2 := by
  have h1 : ∑ i, ∑ k, triu f i k = ∑ i, ∑ k, triu f k i := Finset.sum_comm
  have h2 : ∑ i, ∑ k, f i k = (∑ i, ∑ k, triu f i k) + ∑ i, ∑ k, triu f k i := by
    rw [← Finset.sum_add_distrib]
    refine Finset.sum_congr rfl fun i _ => ?_
    rw [← Finset.sum_add_distrib]
    refine Finset.sum_congr rfl fun k _ => ?_
    unfold triu
    rcases lt_trichotomy i k with h | h | h
    · rw [if_pos h.le, if_neg (not_le.mpr h), add_zero]
    · subst h; simp [hd]
    · rw [if_neg (not_le.mpr h), if_pos h.le, zero_add, hs]
  rw [h2, ← h1]
  ring

/-- C48: what the two-body factor computes: each pair of electrons counts once (the documentation
has a double sum), each electron-ion pair once. -/
theorem two_body_formula (z : Fin nion → ℝ) (q c : ℝ) (pos : Fin N → Fin d → ℝ)
    (ions : Fin nion → Fin d → ℝ) :
    twoBodyExpDecay z q c true (displacements pos ions) (displacements pos pos) =
      q * ((∑ i, ∑ k, dist2 (pos i) (pos k)) / 2) -
        (∑ i, ∑ j, z j * dist2 (pos i) (ions j)) + c ∧
    twoBodyExpDecay z q c false (displacements pos ions) (displacements pos pos) =
      Real.exp (twoBodyExpDecay z q c true (displacements pos ions) (displacements pos pos)) := by
  refine ⟨?_, rfl⟩
  have h := triu_sum (fun i k => dist2 (pos i) (pos k)) (fun i k => dist2_comm _ _)
    fun i => dist2_self _
  unfold twoBodyExpDecay
  simp only [if_true]
  rw [Finset.sum_sub_distrib, ← Finset.mul_sum, ← h]
  congr 3
  refine Finset.sum_congr rfl fun i _ => Finset.sum_congr rfl fun k _ => ?_
  unfold triu
  simp only [eeNorm_dist]

/-- C48: the one-body factor: one decay rate, all distances. -/
theorem one_body_formula (a : Fin 1 → ℝ) (pos : Fin N → Fin d → ℝ) (ions : Fin nion → Fin d → ℝ) :
    oneBodyExpDecay a true (displacements pos ions) =
      -∑ i, ∑ j, |a 0| * dist2 (pos i) (ions j) ∧
    oneBodyExpDecay a false (displacements pos ions) =
      Real.exp (oneBodyExpDecay a true (displacements pos ions)) := by
  refine ⟨?_, rfl⟩
  unfold oneBodyExpDecay
  simp only [if_true, Fin.sum_univ_one]
  congr 1
  refine Finset.sum_congr rfl fun i _ => Finset.sum_congr rfl fun j _ => ?_
  unfold norm2 isotropyOnLeaf displacements dist2
  rw [← Real.sqrt_sq_eq_abs, ← Real.sqrt_mul (sq_nonneg _), Finset.mul_sum]
  congr 1
  exact Finset.sum_congr rfl fun k _ => by ring

/-- C48: the one-body factor does not change under any permutation of the electrons. -/
theorem one_body_symmetric (a : Fin 1 → ℝ) (logabs : Bool) (pos : Fin N → Fin d → ℝ)
    (ions : Fin nion → Fin d → ℝ) (σ : Perm (Fin N)) :
    oneBodyExpDecay a logabs (displacements (fun i => pos (σ i)) ions) =
      oneBodyExpDecay a logabs (displacements pos ions) := by
  have key : oneBodyExpDecay a true (displacements (fun i => pos (σ i)) ions) =
      oneBodyExpDecay a true (displacements pos ions) := by
    rw [(one_body_formula a _ ions).1, (one_body_formula a _ ions).1]
    congr 1
    exact Equiv.sum_comp σ fun i => ∑ j, |a 0| * dist2 (pos i) (ions j)
  cases logabs with
  | true => exact key
  | false => rw [(one_body_formula a _ ions).2, (one_body_formula a _ ions).2, key]

/-- C48: the two-body factor does not change under any permutation of the electrons, although the
code only looks at the upper triangle of the distance matrix. -/
theorem two_body_symmetric (z : Fin nion → ℝ) (q c : ℝ) (logabs : Bool) (pos : Fin N → Fin d → ℝ)
    (ions : Fin nion → Fin d → ℝ) (σ : Perm (Fin N)) :
    twoBodyExpDecay z q c logabs (displacements (fun i => pos (σ i)) ions)
      (displacements (fun i => pos (σ i)) fun i => pos (σ i)) =
      twoBodyExpDecay z q c logabs (displacements pos ions) (displacements pos pos) := by
  have key : twoBodyExpDecay z q c true (displacements (fun i => pos (σ i)) ions)
      (displacements (fun i => pos (σ i)) fun i => pos (σ i)) =
      twoBodyExpDecay z q c true (displacements pos ions) (displacements pos pos) := by
    rw [(two_body_formula z q c _ ions).1, (two_body_formula z q c _ ions).1]
    have h1 : ∑ i, ∑ k, dist2 (pos (σ i)) (pos (σ k)) = ∑ i, ∑ k, dist2 (pos i) (pos k) := by
      rw [← Equiv.sum_comp σ fun i => ∑ k, dist2 (pos i) (pos k)]
      refine Finset.sum_congr rfl fun i _ => ?_
      exact Equiv.sum_comp σ fun k => dist2 (pos (σ i)) (pos k)
    have h2 : ∑ i, ∑ j, z j * dist2 (pos (σ i)) (ions j) = ∑ i, ∑ j, z j * dist2 (pos i) (ions j) :=
      Equiv.sum_comp σ fun i => ∑ j, z j * dist2 (pos i) (ions j)
    rw [h1, h2]
  cases logabs with
  | true => exact key
  | false => rw [(two_body_formula z q c _ ions).2, (two_body_formula z q c _ ions).2, key]

/-- C48: the backflow-based factor does not change if the features are permuted. -/
theorem backflow_jastrow_symmetric (logabs : Bool) (stream : Fin N → Fin d → ℝ) (σ : Perm (Fin N)) :
    backflowJastrow logabs (fun i => stream (σ i)) = backflowJastrow logabs stream := by
  unfold backflowJastrow
  have h : ∑ i, norm2 (stream (σ i)) = ∑ i, norm2 (stream i) :=
    Equiv.sum_comp σ fun i => norm2 (stream i)
  rw [h]

/-- a sum over electrons sitting on nuclei, `Z j` of them on nucleus `j` -/
theorem sum_on_nuclei (Z : Fin nion → ℕ) (c : Fin N → Fin nion)
    (hc : ∀ j, (Finset.univ.filter fun i => c i = j).card = Z j) (f : Fin nion → ℝ) :
    ∑ i, f (c i) = ∑ j, (Z j : ℝ) * f j := by
  rw [← Finset.sum_fiberwise (s := Finset.univ) (g := c)]
  refine Finset.sum_congr rfl fun j _ => ?_
  rw [Finset.sum_congr rfl fun i hi => by rw [(Finset.mem_filter.mp hi).2]]
  rw [Finset.sum_const, hc, nsmul_eq_mul]

/-- The value of the scaled two-body factor when each nucleus of charge `Z` carries `Z`
electrons, for any initial electron-electron strength `q`. -/
theorem scaled_two_body_at_nuclei (ions : Fin nion → Fin d → ℝ) (Z : Fin nion → ℕ) (q : ℝ)
    (c : Fin N → Fin nion) (hc : ∀ j, (Finset.univ.filter fun i => c i = j).card = Z j) :
    scaledTwoBody ions (fun j => Z j) q true (displacements (fun i => ions (c i)) ions)
      (displacements (fun i => ions (c i)) fun i => ions (c i)) =
      (q - 1) * ((∑ I, ∑ J, (Z I * Z J : ℝ) * dist2 (ions I) (ions J)) / 2) := by
  unfold scaledTwoBody
  rw [(two_body_formula _ q _ _ ions).1]
  have h1 : ∑ i, ∑ k, dist2 (ions (c i)) (ions (c k)) =
      ∑ I, ∑ J, (Z I * Z J : ℝ) * dist2 (ions I) (ions J) := by
    rw [sum_on_nuclei Z c hc fun I => ∑ k, dist2 (ions I) (ions (c k))]
    refine Finset.sum_congr rfl fun I _ => ?_
    rw [sum_on_nuclei Z c hc fun J => dist2 (ions I) (ions J), Finset.mul_sum]
    exact Finset.sum_congr rfl fun J _ => by ring
  have h2 : ∑ i, ∑ j, (Z j : ℝ) * dist2 (ions (c i)) (ions j) =
      ∑ I, ∑ J, (Z I * Z J : ℝ) * dist2 (ions I) (ions J) := by
    rw [sum_on_nuclei Z c hc fun I => ∑ j, (Z j : ℝ) * dist2 (ions I) (ions j)]
    refine Finset.sum_congr rfl fun I _ => ?_
    rw [Finset.mul_sum]
    exact Finset.sum_congr rfl fun J _ => by ring
  have h3 : chargelessScaleFactor ions (fun j => (Z j : ℝ)) =
      (∑ I, ∑ J, (Z I * Z J : ℝ) * dist2 (ions I) (ions J)) / 2 := by
    unfold chargelessScaleFactor
    have : ∑ I, ∑ J, norm2 (displacements ions ions I J) * ((Z I : ℝ) * Z J) =
        ∑ I, ∑ J, (Z I * Z J : ℝ) * dist2 (ions I) (ions J) :=
      Finset.sum_congr rfl fun I _ => Finset.sum_congr rfl fun J _ => mul_comm _ _
    rw [this]
    ring
  rw [h1, h2, h3]
  ring

/-- C48, the part that holds: the molecule-scaled two-body factor is initially 0 when each nucleus
of charge `Z` carries `Z` electrons, for the default electron-electron strength 1.  Missing:
other strengths, for which it is false (`scaled_two_body_zero_fails`). -/
theorem scaled_two_body_zero_partial (ions : Fin nion → Fin d → ℝ) (Z : Fin nion → ℕ)
    (c : Fin N → Fin nion) (hc : ∀ j, (Finset.univ.filter fun i => c i = j).card = Z j) :
    scaledTwoBody ions (fun j => Z j) 1 true (displacements (fun i => ions (c i)) ions)
      (displacements (fun i => ions (c i)) fun i => ions (c i)) = 0 := by
  rw [scaled_two_body_at_nuclei ions Z 1 c hc, sub_self, zero_mul]

/-- C48 fails for every other strength as soon as two nuclei with electrons are at different
places. -/
theorem scaled_two_body_zero_fails (ions : Fin nion → Fin d → ℝ) (Z : Fin nion → ℕ) (q : ℝ)
    (hq : q ≠ 1) (c : Fin N → Fin nion)
    (hc : ∀ j, (Finset.univ.filter fun i => c i = j).card = Z j) (I J : Fin nion)
    (hI : 0 < Z I) (hJ : 0 < Z J) (hIJ : ions I ≠ ions J) :
    scaledTwoBody ions (fun j => Z j) q true (displacements (fun i => ions (c i)) ions)
      (displacements (fun i => ions (c i)) fun i => ions (c i)) ≠ 0 := by
  rw [scaled_two_body_at_nuclei ions Z q c hc]
  have hpos : 0 < ∑ I, ∑ J, (Z I * Z J : ℝ) * dist2 (ions I) (ions J) := by
    have hnn : ∀ I J, 0 ≤ (Z I * Z J : ℝ) * dist2 (ions I) (ions J) := fun I J =>
      mul_nonneg (by positivity) (Real.sqrt_nonneg _)
    refine Finset.sum_pos' (fun I _ => Finset.sum_nonneg fun J _ => hnn I J) ⟨I, by simp, ?_⟩
    refine Finset.sum_pos' (fun J _ => hnn I J) ⟨J, by simp, ?_⟩
    refine mul_pos (by positivity) (Real.sqrt_pos.mpr ?_)
    obtain ⟨k, hk⟩ := Function.ne_iff.mp hIJ
    refine Finset.sum_pos' (fun k _ => sq_nonneg _) ⟨k, by simp, ?_⟩
    exact (sq_pos_iff).mpr (sub_ne_zero.mpr hk)
  exact mul_ne_zero (sub_ne_zero.mpr hq) (by positivity)

/-- Two hydrogen nuclei at 0 and 2 on a line with one electron each: zero with strength 1, minus
one with strength 1/2. -/
example : let ions : Fin 2 → Fin 1 → ℝ := ![![0], ![2]]
    scaledTwoBody ions (fun _ => ((1 : ℕ) : ℝ)) 1 true (displacements (fun i : Fin 2 => ions (id i)) ions)
      (displacements (fun i : Fin 2 => ions (id i)) fun i => ions (id i)) = 0 ∧
    scaledTwoBody ions (fun _ => ((1 : ℕ) : ℝ)) (1 / 2) true
      (displacements (fun i : Fin 2 => ions (id i)) ions)
      (displacements (fun i : Fin 2 => ions (id i)) fun i => ions (id i)) = -1 := by
  intro ions
  have hc : ∀ j : Fin 2, (Finset.univ.filter fun i : Fin 2 => id i = j).card = (fun _ => 1) j := by
    decide
  refine ⟨scaled_two_body_zero_partial ions (fun _ => 1) id hc, ?_⟩
  rw [scaled_two_body_at_nuclei ions (fun _ => 1) (1 / 2) id hc]
  have h1 : dist2 (ions 0) (ions 1) = 2 := by
    simp only [dist2, Fin.sum_univ_one, ions]
    rw [show ((![![(0 : ℝ)], ![2]] : Fin 2 → Fin 1 → ℝ) 0 0 -
      (![![(0 : ℝ)], ![2]] : Fin 2 → Fin 1 → ℝ) 1 0) ^ 2 = 2 ^ 2 by norm_num]
    exact Real.sqrt_sq (by norm_num)
  simp [Fin.sum_univ_two, dist2_self, h1, dist2_comm (ions 1) (ions 0)]
  norm_num

/-- C48: the backflow Jastrow is minus the mean distance of the electrons' backflow outputs from the
origin, or its exponential. -/
theorem backflow_jastrow_formula (stream : Fin N → Fin d → ℝ) (hN : 0 < N) :
    N * backflowJastrow true stream = -∑ i, dist2 (stream i) (fun _ => 0) ∧
      backflowJastrow false stream = Real.exp (backflowJastrow true stream) := by
  refine ⟨?_, rfl⟩
  have hN' : (N : ℝ) ≠ 0 := by exact_mod_cast hN.ne'
  have h : ∀ i, norm2 (stream i) = dist2 (stream i) (fun _ => 0) := by
    intro i
    simp [norm2, dist2]
  simp only [backflowJastrow, if_true, h]
  field_simp

/-- Two electrons with backflow outputs 3 and -5. -/
example : backflowJastrow true (![![3], ![-5]] : Fin 2 → Fin 1 → ℝ) = -4 := by
  have h := (backflow_jastrow_formula (![![3], ![-5]] : Fin 2 → Fin 1 → ℝ) (by norm_num)).1
  have h1 : dist2 (![3] : Fin 1 → ℝ) (fun _ => 0) = 3 := by
    simp [dist2]
  have h2 : dist2 (![-5] : Fin 1 → ℝ) (fun _ => 0) = 5 := by
    simp [dist2]
  simp only [Fin.sum_univ_two, Matrix.cons_val_zero, Matrix.cons_val_one, h1, h2] at h
  norm_num at h
  linarith

end Verif.Props
