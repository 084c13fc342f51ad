import Verif.Lemmas.Oscillator
import Verif.Props.LocalEnergy
import Mathlib.LinearAlgebra.Vandermonde

/-! C37: the Slater determinant of the lowest oscillator orbitals has constant local energy. -/

namespace Verif.Props
open Verif.Phys Verif.Spec Verif.Examples

theorem shift_castAdd {a b : ℕ} (x : Pos (a + b) 1) (i : Fin a) (t : ℝ) :
    (fun i' : Fin a => shift x (Fin.castAdd b i) 0 t (Fin.castAdd b i')) =
      shift (fun i' => x (Fin.castAdd b i')) i 0 t := by
  funext i'
  by_cases h : i' = i
  · subst h; simp [shift]
  · simp [shift, h]

theorem shift_castAdd_other {a b : ℕ} (x : Pos (a + b) 1) (i : Fin a) (t : ℝ) :
    (fun i' : Fin b => shift x (Fin.castAdd b i) 0 t (Fin.natAdd a i')) =
      fun i' => x (Fin.natAdd a i') := by
  funext i'
  have h : Fin.natAdd a i' ≠ Fin.castAdd b i := by
    intro h
    have := congrArg Fin.val h
    simp at this
    omega
  simp [shift, h]

theorem shift_natAdd {a b : ℕ} (x : Pos (a + b) 1) (i : Fin b) (t : ℝ) :
    (fun i' : Fin b => shift x (Fin.natAdd a i) 0 t (Fin.natAdd a i')) =
      shift (fun i' => x (Fin.natAdd a i')) i 0 t := by
  funext i'
  by_cases h : i' = i
  · subst h; simp [shift]
  · simp [shift, h]

theorem shift_natAdd_other {a b : ℕ} (x : Pos (a + b) 1) (i : Fin b) (t : ℝ) :
    (fun i' : Fin a => shift x (Fin.natAdd a i) 0 t (Fin.castAdd b i')) =
      fun i' => x (Fin.castAdd b i') := by
  funext i'
  have h : Fin.castAdd b i' ≠ Fin.natAdd a i := by
    intro h
    have := congrArg Fin.val h
    simp at this
    omega
  simp [shift, h]

/-- C37: with `kernel² = omega` the local energy is `omega (n₁² + n₂²) / 2`, i.e. `omega n² / 2`
for each species, at every configuration where neither determinant vanishes. -/
theorem oscillator_local_energy_constant {K : Type} {n₁ n₂ : ℕ} (_h₁ : 0 < n₁) (_h₂ : 0 < n₂)
    (omega kernel : ℝ) (hk : kernel ^ 2 = omega) (x : Pos (n₁ + n₂) 1)
    (hx₁ : (oscillatorOrbitals kernel fun i : Fin n₁ => x (Fin.castAdd n₂ i)).det ≠ 0)
    (hx₂ : (oscillatorOrbitals kernel fun i : Fin n₂ => x (Fin.natAdd n₁ i)).det ≠ 0) (key : K) :
    oscillatorLocalEnergy omega (oscillatorLogPsi n₁ n₂ kernel) x key =
      .fin (omega * (n₁ : ℝ) ^ 2 / 2 + omega * (n₂ : ℝ) ^ 2 / 2) := by
  unfold oscillatorLocalEnergy combineTerms
  simp only [List.foldl_cons, List.foldl_nil]
  rw [laplacian_kinetic_eq]
  unfold oscillatorPotential kineticLaplacian
  rw [XR.fin_add]
  congr 1
  rw [Fin.sum_univ_add, Fin.sum_univ_add]
  simp only [Finset.univ_unique, Fin.default_eq_zero, Fin.isValue, Finset.sum_singleton]
  have e1 : ∀ i : Fin n₁, coordLaplacian (oscillatorLogPsi n₁ n₂ kernel) x (Fin.castAdd n₂ i) 0 =
      _ := fun i => by
    unfold coordLaplacian partial1 partial2 oscillatorLogPsi
    simp only [shift_castAdd, shift_castAdd_other]
    exact det_coord kernel _ hx₁ i _
  have e2 : ∀ i : Fin n₂, coordLaplacian (oscillatorLogPsi n₁ n₂ kernel) x (Fin.natAdd n₁ i) 0 =
      _ := fun i => by
    unfold coordLaplacian partial1 partial2 oscillatorLogPsi
    simp only [shift_natAdd, shift_natAdd_other]
    simp only [add_comm (Real.log |(oscillatorOrbitals kernel fun i : Fin n₁ =>
      x (Fin.castAdd n₂ i)).det|)]
    exact det_coord kernel _ hx₂ i _
  rw [Finset.sum_congr rfl fun i _ => e1 i, Finset.sum_congr rfl fun i _ => e2 i,
    det_laplacian kernel _ hx₁, det_laplacian kernel _ hx₂]
  subst hk
  simp only [mul_pow, ← Finset.mul_sum]
  ring

/-- C37 for the kernel the model is initialised with, `sqrt(omega)`. -/
theorem oscillator_initial_kernel_energy {K : Type} {n₁ n₂ : ℕ} (h₁ : 0 < n₁) (h₂ : 0 < n₂)
    (omega : ℝ) (homega : 0 < omega) (x : Pos (n₁ + n₂) 1)
    (hx₁ : (oscillatorOrbitals (oscillatorKernelInit omega)
      fun i : Fin n₁ => x (Fin.castAdd n₂ i)).det ≠ 0)
    (hx₂ : (oscillatorOrbitals (oscillatorKernelInit omega)
      fun i : Fin n₂ => x (Fin.natAdd n₁ i)).det ≠ 0) (key : K) :
    oscillatorLocalEnergy omega (oscillatorLogPsi n₁ n₂ (oscillatorKernelInit omega)) x key =
      .fin (omega * (n₁ : ℝ) ^ 2 / 2 + omega * (n₂ : ℝ) ^ 2 / 2) :=
  oscillator_local_energy_constant h₁ h₂ omega _ (Real.sq_sqrt homega.le) x hx₁ hx₂ key

open Polynomial in
/-- Hermite polynomials as polynomials -/
noncomputable def hermPoly : ℕ → ℝ[X]
  | 0 => 1
  | 1 => C 2 * X
  | n + 2 => C 2 * X * hermPoly (n + 1) - C (2 * ((n : ℝ) + 1)) * hermPoly n

theorem hermPoly_eval (j : ℕ) (x : ℝ) :
    (hermPoly j).eval x = herm j x ∧ (hermPoly (j + 1)).eval x = herm (j + 1) x := by
  induction j with
  | zero => simp [hermPoly, herm]
  | succ j ih =>
    refine ⟨ih.2, ?_⟩
    simp only [hermPoly, herm, Polynomial.eval_sub, Polynomial.eval_mul, Polynomial.eval_C,
      Polynomial.eval_X, ih.1, ih.2]

theorem hermPoly_degree (j : ℕ) :
    ((hermPoly j).natDegree ≤ j ∧ (hermPoly j).coeff j = 2 ^ j) ∧
      ((hermPoly (j + 1)).natDegree ≤ j + 1 ∧ (hermPoly (j + 1)).coeff (j + 1) = 2 ^ (j + 1)) := by
  induction j with
  | zero =>
    refine ⟨by simp [hermPoly], ?_, by simp [hermPoly]⟩
    simp only [hermPoly, zero_add]
    exact (Polynomial.natDegree_C_mul_le (2 : ℝ) Polynomial.X).trans Polynomial.natDegree_X_le
  | succ j ih =>
    refine ⟨ih.2, ?_, ?_⟩
    · simp only [hermPoly]
      refine (Polynomial.natDegree_sub_le _ _).trans (max_le ?_ ?_)
      · refine (Polynomial.natDegree_mul_le).trans ?_
        have := (Polynomial.natDegree_C_mul_le (2 : ℝ) Polynomial.X).trans Polynomial.natDegree_X_le
        have := ih.2.1
        omega
      · refine (Polynomial.natDegree_C_mul_le _ _).trans ?_
        have := ih.1.1
        omega
    · simp only [hermPoly, Polynomial.coeff_sub, Polynomial.coeff_C_mul, mul_assoc,
        Polynomial.coeff_X_mul, ih.2.2]
      rw [Polynomial.coeff_eq_zero_of_natDegree_lt (by have := ih.1.1; omega)]
      ring

/-- The determinants are non-zero exactly when the particles of the species are at different
places (for a non-zero kernel), so the hypotheses of C37 hold off a null set. -/
theorem oscillator_det_ne_zero_iff {n : ℕ} (kernel : ℝ) (hk : kernel ≠ 0) (x : Pos n 1) :
    (oscillatorOrbitals kernel x).det ≠ 0 ↔ ∀ i j, i ≠ j → x i 0 ≠ x j 0 := by
  have hM : oscillatorOrbitals kernel x =
      Matrix.diagonal (fun i => Real.exp (-((kernel * x i 0) ^ 2) / 2)) *
        (Matrix.of fun i j : Fin n => (hermPoly j).eval (kernel * x i 0)) := by
    ext i j
    rw [Matrix.diagonal_mul, oscillatorOrbitals_apply]
    simp only [Matrix.of_apply, (hermPoly_eval _ _).1]
    rfl
  have hV : (Matrix.of fun i j : Fin n => (hermPoly j).eval (kernel * x i 0)) =
      Matrix.vandermonde (fun i => kernel * x i 0) *
        (Matrix.of fun (i j : Fin n) => (hermPoly j).coeff i) :=
    Matrix.eval_matrixOfPolynomials_eq_vandermonde_mul_matrixOfPolynomials _ _
      fun j => (hermPoly_degree j).1.1
  have hT : (Matrix.of fun (i j : Fin n) => (hermPoly j).coeff i).det ≠ 0 := by
    rw [Matrix.det_of_isUpperTriangular]
    · refine Finset.prod_ne_zero_iff.mpr fun i _ => ?_
      rw [Matrix.of_apply, (hermPoly_degree i).1.2]
      positivity
    · intro i j hij
      refine Polynomial.coeff_eq_zero_of_natDegree_lt (lt_of_le_of_lt (hermPoly_degree j).1.1 ?_)
      exact hij
  rw [hM, hV, Matrix.det_mul, Matrix.det_mul, Matrix.det_diagonal, mul_ne_zero_iff,
    mul_ne_zero_iff, Matrix.det_vandermonde_ne_zero_iff]
  constructor
  · rintro ⟨-, hinj, -⟩ i j hij h
    exact hij (hinj (by simp [h]))
  · intro h
    refine ⟨Finset.prod_ne_zero_iff.mpr fun i _ => (Real.exp_pos _).ne', fun i j hij => ?_, hT⟩
    by_contra hne
    exact h i j hne (mul_left_cancel₀ hk hij)

/-- Two up particles at 0 and 1 and one down particle at 0, frequency 4: energy 4·(4+1)/2 = 10. -/
example : oscillatorLocalEnergy (K := Unit) 4 (oscillatorLogPsi 2 1 (oscillatorKernelInit 4))
    (fun i _ => if i = 1 then 1 else 0) () = .fin 10 := by
  have hk : oscillatorKernelInit 4 ≠ 0 := by
    unfold oscillatorKernelInit
    exact (Real.sqrt_pos.mpr (by norm_num)).ne'
  rw [oscillator_initial_kernel_energy (by norm_num) (by norm_num) 4 (by norm_num)]
  · norm_num
  · rw [oscillator_det_ne_zero_iff _ hk]
    intro i j hij
    fin_cases i <;> fin_cases j <;> simp_all
  · rw [oscillator_det_ne_zero_iff _ hk]
    intro i j hij
    exact absurd (Subsingleton.elim i j) hij

end Verif.Props
