import Verif.Lemmas.CG
import Verif.Spec.Updates

namespace Verif.Updates

open Verif.Spec

variable {K : Type*} [Fintype K] {D n : ℕ}

theorem meanFirst_eq (f : Fin D → Fin n → ℝ) : meanFirst f = walkerMean f := by
  unfold meanFirst pmean walkerMean
  rw [← Finset.sum_div, div_div, Nat.cast_mul, mul_comm (n : ℝ)]

theorem walkerMean_add (f g : Fin D → Fin n → ℝ) :
    walkerMean (fun d i => f d i + g d i) = walkerMean f + walkerMean g := by
  simp only [walkerMean, Finset.sum_add_distrib, add_div]

theorem walkerMean_sub (f g : Fin D → Fin n → ℝ) :
    walkerMean (fun d i => f d i - g d i) = walkerMean f - walkerMean g := by
  simp only [walkerMean, Finset.sum_sub_distrib, sub_div]

theorem walkerMean_mul_left (c : ℝ) (f : Fin D → Fin n → ℝ) :
    walkerMean (fun d i => c * f d i) = c * walkerMean f := by
  simp only [walkerMean, ← Finset.mul_sum, mul_div_assoc]

theorem walkerMean_mul_right (c : ℝ) (f : Fin D → Fin n → ℝ) :
    walkerMean (fun d i => f d i * c) = walkerMean f * c := by
  simp only [mul_comm _ c, walkerMean_mul_left]

theorem walkerMean_sum {L : Type*} [Fintype L] (f : L → Fin D → Fin n → ℝ) :
    walkerMean (fun d i => ∑ l, f l d i) = ∑ l, walkerMean (f l) := by
  simp only [walkerMean]
  rw [← Finset.sum_div]
  congr 1
  calc ∑ d, ∑ i, ∑ l, f l d i = ∑ d, ∑ l, ∑ i, f l d i :=
        Finset.sum_congr rfl fun d _ => Finset.sum_comm
    _ = _ := Finset.sum_comm

theorem walkerMean_const (hD : 0 < D) (hn : 0 < n) (c : ℝ) :
    walkerMean (fun (_ : Fin D) (_ : Fin n) => c) = c := by
  have h1 : (D : ℝ) ≠ 0 := by exact_mod_cast hD.ne'
  have h2 : (n : ℝ) ≠ 0 := by exact_mod_cast hn.ne'
  simp only [walkerMean, Finset.sum_const, Finset.card_univ, Fintype.card_fin, nsmul_eq_mul,
    Nat.cast_mul]
  field_simp

theorem walkerMean_nonneg {f : Fin D → Fin n → ℝ} (h : ∀ d i, 0 ≤ f d i) : 0 ≤ walkerMean f :=
  div_nonneg (Finset.sum_nonneg fun d _ => Finset.sum_nonneg fun i _ => h d i) (Nat.cast_nonneg _)

theorem walkerMean_centered (hD : 0 < D) (hn : 0 < n) (f : Fin D → Fin n → ℝ) :
    walkerMean (fun d i => f d i - walkerMean f) = 0 := by
  rw [walkerMean_sub, walkerMean_const hD hn, sub_self]

/-- Centring one factor of a covariance is enough. -/
theorem walkerCov_eq (hD : 0 < D) (hn : 0 < n) (f g : Fin D → Fin n → ℝ) :
    walkerCov f g = walkerMean fun d i => f d i * (g d i - walkerMean g) := by
  have h : (fun d i => (f d i - walkerMean f) * (g d i - walkerMean g)) =
      fun d i => f d i * (g d i - walkerMean g) - walkerMean f * (g d i - walkerMean g) := by
    funext d i; ring
  unfold walkerCov
  rw [h, walkerMean_sub, walkerMean_mul_left, walkerMean_centered hD hn]
  ring

theorem walkerCov_smul (a b : ℝ) (f g : Fin D → Fin n → ℝ) :
    walkerCov (fun d i => a * f d i) (fun d i => b * g d i) = a * b * walkerCov f g := by
  unfold walkerCov
  rw [← walkerMean_mul_left (a * b)]
  simp only [walkerMean_mul_left a f, walkerMean_mul_left b g]
  congr 1
  funext d i
  ring

variable [DecidableEq K]

theorem dampedFisher_mulVec (damping : ℝ) (J : Fin D → Fin n → K → ℝ) (x : K → ℝ) (k : K) :
    (dampedFisher damping J).mulVec x k =
      (∑ l, walkerCov (fun d i => J d i k) (fun d i => J d i l) * x l) + damping * x k := by
  unfold Matrix.mulVec dotProduct dampedFisher fisher
  simp only [walkerCov_smul, add_mul, ite_mul, zero_mul, Finset.sum_add_distrib,
    Finset.sum_ite_eq, Finset.mem_univ, if_true]
  congr 1
  exact Finset.sum_congr rfl fun l _ => by ring

/-- The quadratic form is a variance plus the damping term. -/
theorem dampedFisher_quadratic (damping : ℝ) (J : Fin D → Fin n → K → ℝ) (x : K → ℝ) :
    treeInner x ((dampedFisher damping J).mulVec x) =
      walkerMean (fun d i =>
        (∑ k, (J d i k - walkerMean fun d i => J d i k) * x k) ^ 2) + damping * treeInner x x := by
  have h1 : (fun d i => (∑ k, (J d i k - walkerMean fun d i => J d i k) * x k) ^ 2) =
      fun (d : Fin D) (i : Fin n) => ∑ k, ∑ l, ((J d i k - walkerMean fun d i => J d i k) *
        (J d i l - walkerMean fun d i => J d i l)) * (x k * x l) := by
    funext d i
    rw [sq, Finset.sum_mul]
    refine Finset.sum_congr rfl fun k _ => ?_
    rw [Finset.mul_sum]
    exact Finset.sum_congr rfl fun l _ => by ring
  rw [h1, walkerMean_sum]
  simp only [walkerMean_sum, walkerMean_mul_right]
  unfold treeInner
  simp only [dampedFisher_mulVec, mul_add, Finset.sum_add_distrib]
  congr 1
  · refine Finset.sum_congr rfl fun k _ => ?_
    rw [Finset.mul_sum]
    refine Finset.sum_congr rfl fun l _ => ?_
    unfold walkerCov
    ring
  · rw [Finset.mul_sum]
    exact Finset.sum_congr rfl fun k _ => by ring

omit [Fintype K] in
theorem dampedFisher_symm (damping : ℝ) (J : Fin D → Fin n → K → ℝ) (k l : K) :
    dampedFisher damping J k l = dampedFisher damping J l k := by
  unfold dampedFisher fisher walkerCov
  simp only [eq_comm (a := k) (b := l)]
  congr 3
  funext d i
  ring

theorem dampedFisher_pos {damping : ℝ} (hd : 0 < damping) (J : Fin D → Fin n → K → ℝ) (x : K → ℝ)
    (hx : x ≠ 0) : 0 < treeInner x ((dampedFisher damping J).mulVec x) := by
  rw [dampedFisher_quadratic]
  have h1 : 0 < treeInner x x :=
    lt_of_le_of_ne (treeInner_self_nonneg x) fun h => hx (treeInner_self_eq_zero.1 h.symm)
  have h2 := walkerMean_nonneg fun (d : Fin D) (i : Fin n) =>
    sq_nonneg (∑ k, (J d i k - walkerMean fun d i => J d i k) * x k)
  positivity

omit [DecidableEq K] in
theorem spd_of_matrix {A : Matrix K K ℝ} (hs : ∀ k l, A k l = A l k)
    (hp : ∀ x : K → ℝ, x ≠ 0 → 0 < treeInner x (A.mulVec x)) : SPD A.mulVec := by
  refine ⟨?_, ?_, hp⟩
  · intro a b t
    funext k
    unfold Matrix.mulVec dotProduct
    rw [Finset.mul_sum, ← Finset.sum_add_distrib]
    exact Finset.sum_congr rfl fun _ _ => by ring
  · intro a b
    unfold treeInner Matrix.mulVec dotProduct
    simp only [Finset.mul_sum, Finset.sum_mul]
    rw [Finset.sum_comm]
    refine Finset.sum_congr rfl fun k _ => Finset.sum_congr rfl fun l _ => ?_
    rw [hs l k]
    ring

theorem dampedFisher_spd {damping : ℝ} (hd : 0 < damping) (J : Fin D → Fin n → K → ℝ) :
    SPD (dampedFisher damping J).mulVec :=
  spd_of_matrix (dampedFisher_symm damping J) (dampedFisher_pos hd J)

theorem fisherDense_eq (damping : ℝ) (J : Fin D → Fin n → K → ℝ) (x : K → ℝ) :
    fisherDense damping J (fun _ => x) = fun _ => (dampedFisher damping J).mulVec x := by
  funext d k
  rw [dampedFisher_mulVec]
  unfold fisherDense
  simp only [meanFirst_eq]
  congr 1
  have h := meanFirst_eq fun d i => (J d i k - walkerMean fun d i => J d i k) *
    ∑ l, (J d i l - walkerMean fun d i => J d i l) * x l
  unfold meanFirst at h
  rw [h]
  have h2 : (fun d i => (J d i k - walkerMean fun d i => J d i k) *
      ∑ l, (J d i l - walkerMean fun d i => J d i l) * x l) =
      fun (d : Fin D) (i : Fin n) => ∑ l, ((J d i k - walkerMean fun d i => J d i k) *
        (J d i l - walkerMean fun d i => J d i l)) * x l := by
    funext d i
    rw [Finset.mul_sum]
    exact Finset.sum_congr rfl fun l _ => by ring
  rw [h2, walkerMean_sum]
  simp only [walkerMean_mul_right]
  rfl

theorem fisherLazy_eq (hD : 0 < D) (hn : 0 < n) (damping : ℝ) (J : Fin D → Fin n → K → ℝ)
    (x : K → ℝ) :
    fisherLazy damping J (fun _ => x) = fun _ => (dampedFisher damping J).mulVec x := by
  funext d k
  rw [dampedFisher_mulVec]
  unfold fisherLazy
  simp only [meanFirst_eq]
  congr 1
  have h := meanFirst_eq fun d i => J d i k *
    ((∑ l, J d i l * x l) - walkerMean fun d i => ∑ l, J d i l * x l)
  unfold meanFirst at h
  simp only [one_div, inv_mul_eq_div]
  rw [h]
  have h2 : (fun d i => J d i k *
      ((∑ l, J d i l * x l) - walkerMean fun d i => ∑ l, J d i l * x l)) =
      fun (d : Fin D) (i : Fin n) => ∑ l, (J d i k *
        (J d i l - walkerMean fun d i => J d i l)) * x l := by
    funext d i
    rw [walkerMean_sum, ← Finset.sum_sub_distrib, Finset.mul_sum]
    refine Finset.sum_congr rfl fun l _ => ?_
    rw [walkerMean_mul_right]
    ring
  rw [h2, walkerMean_sum]
  refine Finset.sum_congr rfl fun l _ => ?_
  rw [walkerMean_mul_right, walkerCov_eq hD hn]

end Verif.Updates
