import Verif.Model.Examples
import Verif.Spec.Physics
import Verif.Lemmas.LocalEnergy
import Mathlib.LinearAlgebra.Matrix.Adjugate
import Mathlib.Analysis.SpecialFunctions.ExpDeriv
import Mathlib.Analysis.SpecialFunctions.Log.Deriv
import Mathlib.Tactic

/-! Hermite functions, Slater determinants and logarithmic derivatives for C37. -/

namespace Verif.Examples
open Verif.Phys Verif.Spec

/-- Hermite polynomials by their recurrence -/
def herm : ℕ → ℝ → ℝ
  | 0, _ => 1
  | 1, x => 2 * x
  | n + 2, x => 2 * x * herm (n + 1) x - 2 * ((n : ℝ) + 1) * herm n x

theorem hermiteList_fold (k : ℕ) (x : ℝ) :
    (List.range' 2 k).foldl
      (fun (H : List ℝ) (n : ℕ) => H ++ [2 * x * H.getD (n - 1) 0 - 2 * ((n : ℝ) - 1) * H.getD (n - 2) 0]) [1, 2 * x]
      = (List.range (k + 2)).map fun j => herm j x := by
  induction k with
  | zero => simp [List.range_succ, herm]
  | succ k ih =>
    rw [List.range'_concat, List.foldl_append, ih]
    simp only [List.foldl_cons, List.foldl_nil, one_mul]
    rw [show k + 1 + 2 = (k + 2) + 1 by ring, List.range_succ (n := k + 2), List.map_append]
    congr 1
    have h1 : ((List.range (k + 2)).map fun j => herm j x).getD (2 + k - 1) 0 = herm (k + 1) x := by
      rw [List.getD_eq_getElem?_getD]
      simp [show 2 + k - 1 = k + 1 by omega]
    have h2 : ((List.range (k + 2)).map fun j => herm j x).getD (2 + k - 2) 0 = herm k x := by
      rw [List.getD_eq_getElem?_getD]
      simp [show 2 + k - 2 = k by omega]
    rw [h1, h2]
    simp only [List.map_cons, List.map_nil, herm]
    push_cast
    congr 2
    ring

theorem hermiteList_getD (n : ℕ) (x : ℝ) (j : ℕ) (hj : j < n) :
    (hermiteList n x).getD j 0 = herm j x := by
  unfold hermiteList
  split_ifs with h
  · have : j = 0 := by omega
    subst this; rfl
  · rw [hermiteList_fold, List.getD_eq_getElem?_getD]
    have : j < n - 2 + 2 := by omega
    simp [this]

theorem herm_deriv (j : ℕ) (x : ℝ) :
    HasDerivAt (herm (j + 1)) (2 * ((j : ℝ) + 1) * herm j x) x ∧
      HasDerivAt (herm (j + 2)) (2 * ((j : ℝ) + 2) * herm (j + 1) x) x := by
  induction j with
  | zero =>
    have h1 : HasDerivAt (herm 1) 2 x := by
      have : herm 1 = fun x => 2 * x := by funext y; rfl
      rw [this]
      simpa using (hasDerivAt_id x).const_mul 2
    refine ⟨by simpa [herm] using h1, ?_⟩
    have : herm 2 = fun x => 2 * x * (2 * x) - 2 := by funext y; simp [herm]
    rw [this]
    have h2 := (hasDerivAt_id x).const_mul 2
    have := (h2.fun_mul h2).sub_const 2
    simp only [id, mul_one] at this
    refine HasDerivAt.congr_deriv this ?_
    simp [herm]; ring
  | succ j ih =>
    refine ⟨by simpa [add_assoc, one_add_one_eq_two] using ih.2, ?_⟩
    have hf : herm (j + 1 + 2) = fun x => 2 * x * herm (j + 2) x
        - 2 * (((j + 1 : ℕ) : ℝ) + 1) * herm (j + 1) x := by funext y; rfl
    rw [hf]
    have h2 := (hasDerivAt_id x).const_mul 2
    have := (h2.fun_mul ih.2).fun_sub (ih.1.const_mul (2 * (((j + 1 : ℕ) : ℝ) + 1)))
    simp only [id, mul_one] at this
    refine HasDerivAt.congr_deriv this ?_
    simp only [herm]
    push_cast
    ring

theorem herm_hasDerivAt (j : ℕ) (x : ℝ) :
    HasDerivAt (herm j) (2 * x * herm j x - herm (j + 1) x) x := by
  cases j with
  | zero =>
    have : herm 0 = fun _ => 1 := by funext y; rfl
    rw [this]
    simpa [herm] using hasDerivAt_const x (1 : ℝ)
  | succ j =>
    refine HasDerivAt.congr_deriv (herm_deriv j x).1 ?_
    show _ = 2 * x * herm (j + 1) x - (2 * x * herm (j + 1) x - 2 * ((j : ℝ) + 1) * herm j x)
    ring

/-- Hermite function -/
noncomputable def hfun (j : ℕ) (y : ℝ) : ℝ := Real.exp (-(y ^ 2) / 2) * herm j y

theorem gauss_deriv (y : ℝ) :
    HasDerivAt (fun y : ℝ => Real.exp (-(y ^ 2) / 2)) (-y * Real.exp (-(y ^ 2) / 2)) y := by
  have h1 : HasDerivAt (fun y : ℝ => -(y ^ 2) / 2) (-y) y := by
    have := ((hasDerivAt_id y).fun_pow 2).fun_neg.div_const 2
    simp only [id] at this
    refine HasDerivAt.congr_deriv this ?_
    push_cast; ring
  have := h1.exp
  refine HasDerivAt.congr_deriv this ?_
  ring

theorem hfun_deriv (j : ℕ) (y : ℝ) : HasDerivAt (hfun j) (y * hfun j y - hfun (j + 1) y) y := by
  have := (gauss_deriv y).fun_mul (herm_hasDerivAt j y)
  unfold hfun
  refine HasDerivAt.congr_deriv this ?_
  ring

theorem hfun_succ_deriv (j : ℕ) (y : ℝ) :
    HasDerivAt (hfun (j + 1)) (-y * hfun (j + 1) y + 2 * ((j : ℝ) + 1) * hfun j y) y := by
  have := (gauss_deriv y).fun_mul (herm_deriv j y).1
  unfold hfun
  refine HasDerivAt.congr_deriv this ?_
  ring

/-- Hermite functions solve the oscillator equation. -/
theorem hfun_deriv2 (j : ℕ) (y : ℝ) :
    HasDerivAt (fun y => y * hfun j y - hfun (j + 1) y)
      ((y ^ 2 - (2 * (j : ℝ) + 1)) * hfun j y) y := by
  have := ((hasDerivAt_id y).fun_mul (hfun_deriv j y)).fun_sub (hfun_succ_deriv j y)
  simp only [id] at this
  refine HasDerivAt.congr_deriv this ?_
  ring

/-- the orbital as a function of the displacement -/
theorem orbital_deriv (w a : ℝ) (j : ℕ) (t : ℝ) :
    HasDerivAt (fun t => hfun j (w * (a + t)))
      (w * (w * (a + t) * hfun j (w * (a + t)) - hfun (j + 1) (w * (a + t)))) t := by
  have h1 : HasDerivAt (fun t : ℝ => w * (a + t)) w t := by
    simpa using ((hasDerivAt_id t).const_add a).const_mul w
  have := (hfun_deriv j (w * (a + t))).comp t h1
  refine HasDerivAt.congr_deriv this ?_
  ring

theorem orbital_deriv2 (w a : ℝ) (j : ℕ) (t : ℝ) :
    HasDerivAt (fun t => w * (w * (a + t) * hfun j (w * (a + t)) - hfun (j + 1) (w * (a + t))))
      (w ^ 2 * ((w * (a + t)) ^ 2 - (2 * (j : ℝ) + 1)) * hfun j (w * (a + t))) t := by
  have h1 : HasDerivAt (fun t : ℝ => w * (a + t)) w t := by
    simpa using ((hasDerivAt_id t).const_add a).const_mul w
  have := ((hfun_deriv2 j (w * (a + t))).comp t h1).const_mul w
  refine HasDerivAt.congr_deriv this ?_
  ring

/-- `(f')² + f''` of `f = log |F|` is `F''/F`. -/
theorem log_abs_second {F F' : ℝ → ℝ} {F'' : ℝ} (h0 : F 0 ≠ 0)
    (h1 : ∀ t, HasDerivAt F (F' t) t) (h2 : HasDerivAt F' F'' 0) (c : ℝ) :
    deriv (fun t => Real.log |F t| + c) 0 ^ 2 +
      deriv (deriv fun t => Real.log |F t| + c) 0 = F'' / F 0 := by
  simp only [Real.log_abs]
  have hev : ∀ᶠ t in nhds (0 : ℝ), F t ≠ 0 := (h1 0).continuousAt.eventually_ne h0
  have hd : deriv (fun t => Real.log (F t) + c) =ᶠ[nhds 0] fun t => F' t / F t :=
    hev.mono fun t ht => (((h1 t).log ht).add_const c).deriv
  rw [hd.deriv_eq, hd.self_of_nhds, (h2.fun_div (h1 0) h0).deriv]
  field_simp
  ring

/-- the orbital matrix in terms of Hermite functions -/
theorem oscillatorOrbitals_apply {n : ℕ} (w : ℝ) (x : Pos n 1) (i j : Fin n) :
    oscillatorOrbitals w x i j = hfun j (w * x i 0) := by
  unfold oscillatorOrbitals makeHermitePolynomials hfun
  simp only [Finset.univ_unique, Fin.default_eq_zero, Fin.isValue, Finset.sum_singleton]
  rw [hermiteList_getD _ _ _ j.2, mul_comm (x i 0)]

theorem det_shift {n : ℕ} (w : ℝ) (x : Pos n 1) (i : Fin n) (t : ℝ) :
    (oscillatorOrbitals w (shift x i 0 t)).det =
      ∑ j : Fin n, hfun j (w * (x i 0 + t)) * (oscillatorOrbitals w x).adjugate j i := by
  have hM : oscillatorOrbitals w (shift x i 0 t) =
      (oscillatorOrbitals w x).updateRow i fun j => hfun j (w * (x i 0 + t)) := by
    ext a b
    rw [oscillatorOrbitals_apply]
    by_cases h : a = i
    · subst h; simp [shift]
    · rw [Matrix.updateRow_ne h, oscillatorOrbitals_apply]
      simp [shift, h]
  rw [hM, Matrix.det_eq_sum_mul_adjugate_row _ i]
  refine Finset.sum_congr rfl fun j _ => ?_
  rw [Matrix.updateRow_self, Matrix.adjugate_apply, Matrix.adjugate_apply, Matrix.updateRow_idem]

/-- what one particle contributes to `∇²ψ/ψ` of one species -/
theorem det_coord {n : ℕ} (w : ℝ) (x : Pos n 1) (hx : (oscillatorOrbitals w x).det ≠ 0) (i : Fin n)
    (c : ℝ) :
    deriv (fun t => Real.log |(oscillatorOrbitals w (shift x i 0 t)).det| + c) 0 ^ 2 +
      deriv (deriv fun t => Real.log |(oscillatorOrbitals w (shift x i 0 t)).det| + c) 0 =
      (∑ j : Fin n, w ^ 2 * ((w * x i 0) ^ 2 - (2 * (j : ℝ) + 1)) * oscillatorOrbitals w x i j *
        (oscillatorOrbitals w x).adjugate j i) / (oscillatorOrbitals w x).det := by
  have hF0 : (oscillatorOrbitals w (shift x i 0 0)).det = (oscillatorOrbitals w x).det := by
    congr 2
    unfold shift
    simp
  have h := log_abs_second (F := fun t => (oscillatorOrbitals w (shift x i 0 t)).det)
    (F' := fun t => ∑ j : Fin n, w * (w * (x i 0 + t) * hfun j (w * (x i 0 + t)) -
      hfun (j + 1) (w * (x i 0 + t))) * (oscillatorOrbitals w x).adjugate j i)
    (F'' := ∑ j : Fin n, w ^ 2 * ((w * (x i 0 + 0)) ^ 2 - (2 * (j : ℝ) + 1)) * hfun j (w * (x i 0 + 0)) *
        (oscillatorOrbitals w x).adjugate j i) (by simpa only [hF0] using hx) ?_ ?_ c
  · rw [h, hF0]
    simp only [add_zero, oscillatorOrbitals_apply]
  · intro t
    simp only [det_shift]
    exact HasDerivAt.fun_sum fun j _ => (orbital_deriv w (x i 0) j t).mul_const _
  · exact HasDerivAt.fun_sum fun j _ => (orbital_deriv2 w (x i 0) j 0).mul_const _

theorem sum_odd (n : ℕ) : ∑ j : Fin n, (2 * (j : ℝ) + 1) = (n : ℝ) ^ 2 := by
  rw [Fin.sum_univ_eq_sum_range (fun j => 2 * (j : ℝ) + 1)]
  induction n with
  | zero => simp
  | succ n ih => rw [Finset.sum_range_succ, ih]; push_cast; ring

/-- `∇²ψ/ψ` of one species -/
theorem det_laplacian {n : ℕ} (w : ℝ) (x : Pos n 1) (hx : (oscillatorOrbitals w x).det ≠ 0) :
    ∑ i, (∑ j : Fin n, w ^ 2 * ((w * x i 0) ^ 2 - (2 * (j : ℝ) + 1)) * oscillatorOrbitals w x i j *
        (oscillatorOrbitals w x).adjugate j i) / (oscillatorOrbitals w x).det =
      w ^ 4 * ∑ i, x i 0 ^ 2 - w ^ 2 * (n : ℝ) ^ 2 := by
  set M := oscillatorOrbitals w x
  have hrow : ∀ i, ∑ j : Fin n, M i j * M.adjugate j i = M.det := fun i =>
    (Matrix.det_eq_sum_mul_adjugate_row M i).symm
  have hcol : ∀ j, ∑ i, M i j * M.adjugate j i = M.det := fun j =>
    (Matrix.det_eq_sum_mul_adjugate_col M j).symm
  have h1 : ∀ i, (∑ j : Fin n, w ^ 2 * ((w * x i 0) ^ 2 - (2 * (j : ℝ) + 1)) * M i j * M.adjugate j i)
      = w ^ 4 * x i 0 ^ 2 * M.det - w ^ 2 * ∑ j : Fin n, (2 * (j : ℝ) + 1) * (M i j * M.adjugate j i) := by
    intro i
    rw [← hrow i, Finset.mul_sum, Finset.mul_sum, ← Finset.sum_sub_distrib]
    exact Finset.sum_congr rfl fun j _ => by ring
  rw [← Finset.sum_div]
  simp only [h1]
  rw [Finset.sum_sub_distrib, ← Finset.sum_mul, ← Finset.mul_sum, ← Finset.mul_sum, Finset.sum_comm]
  simp only [← Finset.mul_sum, hcol]
  rw [← Finset.sum_mul, sum_odd]
  field_simp

end Verif.Examples
