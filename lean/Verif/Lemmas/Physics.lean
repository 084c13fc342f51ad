import Verif.Model.Physics
import Verif.Spec.Physics
import Mathlib.Tactic

/-! Lemmas on the local-energy terms. -/

namespace Verif.Phys
open Verif.Spec

variable {n m d : ℕ}

theorem softNorm_eq (s : ℝ) (a b : Fin d → ℝ) :
    computeSoftNorm (fun k => a k - b k) s = softDist s a b := rfl

theorem softNorm_disp (s : ℝ) (x : Pos n d) (y : Pos m d) (i : Fin n) (j : Fin m) :
    computeSoftNorm (computeDisplacements x y i j) s = softDist s (x i) (y j) := rfl

theorem softDist_pos {s : ℝ} {a b : Fin d → ℝ} (h : s ≠ 0 ∨ a ≠ b) : 0 < softDist s a b := by
  unfold softDist
  apply Real.sqrt_pos.mpr
  have h1 : 0 ≤ ∑ k, (a k - b k) ^ 2 := Finset.sum_nonneg fun _ _ => sq_nonneg _
  rcases h with h | h
  · have := sq_pos_of_ne_zero h; linarith
  · obtain ⟨k, hk⟩ := Function.ne_iff.mp h
    have : 0 < ∑ k, (a k - b k) ^ 2 :=
      Finset.sum_pos' (fun _ _ => sq_nonneg _)
        ⟨k, Finset.mem_univ _, sq_pos_of_ne_zero (sub_ne_zero.mpr hk)⟩
    have := sq_nonneg s
    linarith

theorem softDist_symm (s : ℝ) (a b : Fin d → ℝ) : softDist s a b = softDist s b a := by
  unfold softDist
  congr 2
  exact Finset.sum_congr rfl fun k _ => by ring

theorem softDist_rigid (s : ℝ) {T : (Fin d → ℝ) → Fin d → ℝ} (hT : Rigid T) (a b : Fin d → ℝ) :
    softDist s (T a) (T b) = softDist s a b := by
  unfold softDist
  rw [hT]

theorem softDist_self (a : Fin d → ℝ) : softDist 0 a a = 0 := by simp [softDist]

theorem triu1_fin (f : Fin n → Fin n → XR) (g : Fin n → Fin n → ℝ)
    (h : ∀ i j, i < j → f i j = .fin (g i j)) (i j : Fin n) :
    triu1 f i j = .fin (if i < j then g i j else 0) := by
  unfold triu1
  by_cases hij : i < j
  · rw [if_pos (Nat.succ_le_of_lt (Fin.lt_def.mp hij)), if_pos hij, h i j hij]
  · rw [if_neg (fun hc => hij (Fin.lt_def.mpr (Nat.lt_of_succ_le hc))), if_neg hij]; rfl

theorem tril1_fin (f : Fin n → Fin n → XR) (g : Fin n → Fin n → ℝ)
    (h : ∀ i j, j < i → f i j = .fin (g i j)) (i j : Fin n) :
    tril1 f i j = .fin (if j < i then g i j else 0) := by
  unfold tril1
  by_cases hij : j < i
  · rw [if_pos (Nat.succ_le_of_lt (Fin.lt_def.mp hij)), if_pos hij, h i j hij]
  · rw [if_neg (fun hc => hij (Fin.lt_def.mpr (Nat.lt_of_succ_le hc))), if_neg hij]; rfl

theorem sum_pairs (g : Fin n → Fin n → ℝ) :
    ∑ i, ∑ j, (if i < j then g i j else 0) = ∑ p ∈ pairs n, g p.1 p.2 := by
  unfold pairs
  rw [Finset.sum_filter, ← Fintype.sum_prod_type']

/-- twice the pair sum is the sum over ordered pairs with different labels -/
theorem pairs_double (g : Fin n → Fin n → ℝ) (hg : ∀ i j, g i j = g j i) :
    2 * ∑ p ∈ pairs n, g p.1 p.2 = ∑ i, ∑ j, if i ≠ j then g i j else 0 := by
  rw [← sum_pairs]
  have h : ∀ i j : Fin n, (if i ≠ j then g i j else 0)
      = (if i < j then g i j else 0) + (if j < i then g j i else 0) := by
    intro i j
    rcases lt_trichotomy i j with h | h | h
    · simp [h, h.ne, not_lt.mpr h.le]
    · subst h; simp
    · simp [h, h.ne', not_lt.mpr h.le, hg i j]
  simp only [h, Finset.sum_add_distrib]
  rw [Finset.sum_comm (f := fun i j => if j < i then g j i else 0)]
  ring

theorem pairs_perm (g : Fin n → Fin n → ℝ) (hg : ∀ i j, g i j = g j i) (σ : Equiv.Perm (Fin n)) :
    ∑ p ∈ pairs n, g (σ p.1) (σ p.2) = ∑ p ∈ pairs n, g p.1 p.2 := by
  have h2 : 2 * ∑ p ∈ pairs n, g (σ p.1) (σ p.2) = 2 * ∑ p ∈ pairs n, g p.1 p.2 := by
    rw [pairs_double (fun i j => g (σ i) (σ j)) (fun i j => hg _ _), pairs_double g hg]
    rw [← Equiv.sum_comp σ (fun i => ∑ j, if i ≠ j then g i j else 0)]
    refine Finset.sum_congr rfl fun i _ => ?_
    rw [← Equiv.sum_comp σ (fun j => if σ i ≠ j then g (σ i) j else 0)]
    refine Finset.sum_congr rfl fun j _ => ?_
    simp only [ne_eq, EmbeddingLike.apply_eq_iff_eq]
  linarith

theorem sum_sum_fin {ι κ : Type*} [Fintype ι] [Fintype κ] (f : ι → κ → ℝ) :
    ∑ i, ∑ j, XR.fin (f i j) = .fin (∑ i, ∑ j, f i j) := by
  simp only [XR.sum_fin]

end Verif.Phys
