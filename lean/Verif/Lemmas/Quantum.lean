import Verif.Lemmas.IntegrateByParts
import Verif.Lemmas.Cone
import Verif.Spec.Quantum
import Mathlib.Analysis.SpecialFunctions.Log.Deriv
import Mathlib.MeasureTheory.Function.StronglyMeasurable.AEStronglyMeasurable

/-! Integration by parts against `|ψ|²`. -/

namespace Verif.Ibp
open MeasureTheory Verif.Spec Verif.Phys

variable {n m d : ℕ}

theorem integral_shiftDeriv {F F' : Pos n d → ℝ} (i : Fin n) (k : Fin d) (hF : Integrable F)
    (hF' : Integrable F')
    (h : ∀ᵐ x, ∀ t, HasDerivAt (fun t => F (shift x i k t)) (F' (shift x i k t)) t) :
    ∫ x, F' x = 0 := by
  refine integral_lineDeriv_eq_zero (v := unitStep i k) hF hF' ?_
  filter_upwards [h] with x hx t
  simpa only [add_unitStep] using hx t

variable {ψ : Pos n d → ℝ} {ψ1 ψ2 : Fin n → Fin d → Pos n d → ℝ}

theorem integrable_mul_of_sq {X : Type*} [MeasurableSpace X] {μ : Measure X} {f g : X → ℝ}
    (hf : Integrable (fun x => f x ^ 2) μ) (hg : Integrable (fun x => g x ^ 2) μ)
    (hfm : AEStronglyMeasurable f μ) (hgm : AEStronglyMeasurable g μ) :
    Integrable (fun x => f x * g x) μ := by
  refine (hf.add hg).mono' (hfm.mul hgm) (.of_forall fun x => ?_)
  simp only [Pi.add_apply, Real.norm_eq_abs, abs_mul]
  nlinarith [sq_nonneg (|f x| - |g x|), sq_abs (f x), sq_abs (g x), abs_nonneg (f x),
    abs_nonneg (g x), sq_nonneg (f x), sq_nonneg (g x)]

theorem integrable_psi_psi1 (h : WaveFunction ψ ψ1 ψ2) (i : Fin n) (k : Fin d) :
    Integrable fun x => ψ x * ψ1 i k x :=
  integrable_mul_of_sq h.normalisable (h.gradient_sq i k) h.measurable
    (h.measurable1 i k)

/-- `∫ |∂ψ|² = -∫ ψ ∂²ψ`. -/
theorem kinetic_ibp (h : WaveFunction ψ ψ1 ψ2) (i : Fin n) (k : Fin d) :
    ∫ x, ψ1 i k x ^ 2 = -∫ x, ψ x * ψ2 i k x := by
  have hz := integral_shiftDeriv (F := fun x => ψ x * ψ1 i k x)
    (F' := fun x => ψ1 i k x ^ 2 + ψ x * ψ2 i k x) i k (integrable_psi_psi1 h i k)
    ((h.gradient_sq i k).add (h.laplacian i k)) (by
      filter_upwards [h.deriv1 i k, h.deriv2 i k] with x h1 h2 t
      have := (h1 t).mul (h2 t)
      refine this.congr_deriv ?_
      ring)
  rw [integral_add (h.gradient_sq i k) (h.laplacian i k)] at hz
  linarith

/-- `log|ψ|` along almost every line. -/
theorem ae_partials (h : WaveFunction ψ ψ1 ψ2) :
    ∀ᵐ x, ψ x ≠ 0 ∧ ∀ i k, partial1 (logAbs ψ) i k x = ψ1 i k x / ψ x ∧
      coordLaplacian (logAbs ψ) x i k = ψ2 i k x / ψ x := by
  have h1 : ∀ᵐ x, ∀ i k, ∀ t, HasDerivAt (fun t => ψ (shift x i k t)) (ψ1 i k (shift x i k t)) t :=
    ae_all_iff.2 fun i => ae_all_iff.2 fun k => h.deriv1 i k
  have h2 : ∀ᵐ x, ∀ i k, ∀ t,
      HasDerivAt (fun t => ψ1 i k (shift x i k t)) (ψ2 i k (shift x i k t)) t :=
    ae_all_iff.2 fun i => ae_all_iff.2 fun k => h.deriv2 i k
  filter_upwards [h.ne_zero, h1, h2] with x hx h1 h2
  refine ⟨hx, fun i k => ?_⟩
  have e0 : shift x i k 0 = x := by
    rw [← add_unitStep]
    simp
  have hlog : ∀ t, ψ (shift x i k t) ≠ 0 → HasDerivAt (fun t => logAbs ψ (shift x i k t))
      (ψ1 i k (shift x i k t) / ψ (shift x i k t)) t := by
    intro t ht
    have := (h1 i k t).log ht
    unfold logAbs
    simpa only [Real.log_abs] using this
  have hd0 := hlog 0 (by rwa [e0])
  rw [e0] at hd0
  have hp1 : partial1 (logAbs ψ) i k x = ψ1 i k x / ψ x := hd0.deriv
  refine ⟨hp1, ?_⟩
  have hc : ∀ᶠ t in nhds (0 : ℝ), ψ (shift x i k t) ≠ 0 :=
    (h1 i k 0).continuousAt.eventually_ne (by rwa [e0])
  have hev : deriv (fun t => logAbs ψ (shift x i k t)) =ᶠ[nhds 0]
      fun t => ψ1 i k (shift x i k t) / ψ (shift x i k t) := hc.mono fun t ht => (hlog t ht).deriv
  have hq := (h2 i k 0).fun_div (h1 i k 0) (by rwa [e0])
  unfold coordLaplacian partial2
  rw [hp1, hev.deriv_eq, hq.deriv, e0]
  field_simp
  ring

section pair

variable {s σ : ℝ} {δ : Pos n d → Fin d → ℝ}

/-- A displacement which follows electron `i`. -/
structure Follows (i : Fin n) (σ : ℝ) (δ : Pos n d → Fin d → ℝ) : Prop where
  measurable : Measurable δ
  shift : ∀ x k t k', δ (shift x i k t) k' = δ x k' + t * if k' = k then σ else 0

theorem softDist_zero_sq (s : ℝ) (a : Fin d → ℝ) :
    softDist s a 0 ^ 2 = (∑ k, a k ^ 2) + s ^ 2 := by
  unfold softDist
  rw [Real.sq_sqrt]
  · simp
  · have : 0 ≤ ∑ k, (a k - (0 : Fin d → ℝ) k) ^ 2 := Finset.sum_nonneg fun _ _ => sq_nonneg _
    positivity

theorem sq_le_softDist (s : ℝ) (a : Fin d → ℝ) (k : Fin d) : a k ^ 2 ≤ softDist s a 0 ^ 2 := by
  rw [softDist_zero_sq]
  have := Finset.single_le_sum (f := fun k => a k ^ 2) (fun _ _ => sq_nonneg _) (Finset.mem_univ k)
  nlinarith [sq_nonneg s]

theorem softDist_nonneg (s : ℝ) (a b : Fin d → ℝ) : 0 ≤ softDist s a b := Real.sqrt_nonneg _

theorem abs_div_softDist_le (s : ℝ) (a : Fin d → ℝ) (k : Fin d) : |a k / softDist s a 0| ≤ 1 := by
  rw [abs_div, abs_of_nonneg (softDist_nonneg s a 0)]
  refine div_le_one_of_le₀ ?_ (softDist_nonneg s a 0)
  have := sq_le_softDist s a k
  exact abs_le_of_sq_le_sq this (softDist_nonneg s a 0)

theorem second_bounds (s : ℝ) (a : Fin d → ℝ) (k : Fin d) :
    0 ≤ 1 / softDist s a 0 - a k ^ 2 / softDist s a 0 ^ 3 ∧
      1 / softDist s a 0 - a k ^ 2 / softDist s a 0 ^ 3 ≤ 1 / softDist s a 0 := by
  rcases (softDist_nonneg s a 0).eq_or_lt with h | h
  · simp [← h]
  · have h1 := sq_le_softDist s a k
    constructor
    · rw [sub_nonneg, div_le_div_iff₀ (by positivity) h]
      nlinarith
    · have : 0 ≤ a k ^ 2 / softDist s a 0 ^ 3 := by positivity
      linarith

theorem measurable_softDist (hδ : Measurable δ) : Measurable fun x => softDist s (δ x) 0 := by
  unfold softDist
  have : ∀ k, Measurable fun x => δ x k := fun k => (measurable_pi_apply k).comp hδ
  fun_prop

theorem pair_ibp (h : WaveFunction ψ ψ1 ψ2) {i : Fin n} (hδ : Follows i σ δ) (hσ : σ ^ 2 = 1)
    (k : Fin d) (hne : s ≠ 0 ∨ ∀ᵐ x, ∃ k', k' ≠ k ∧ δ x k' ≠ 0)
    (hi : Integrable fun x => ψ x ^ 2 / softDist s (δ x) 0) :
    Integrable (fun x => ψ x * ψ1 i k x * (δ x k / softDist s (δ x) 0)) ∧
    Integrable (fun x => ψ x ^ 2 * (1 / softDist s (δ x) 0 - δ x k ^ 2 / softDist s (δ x) 0 ^ 3)) ∧
    2 * σ * ∫ x, ψ x * ψ1 i k x * (δ x k / softDist s (δ x) 0) =
      -∫ x, ψ x ^ 2 * (1 / softDist s (δ x) 0 - δ x k ^ 2 / softDist s (δ x) 0 ^ 3) := by
  have mD : Measurable fun x => softDist s (δ x) 0 := measurable_softDist hδ.measurable
  have mk : Measurable fun x => δ x k := (measurable_pi_apply k).comp hδ.measurable
  have hp := integrable_psi_psi1 h i k
  have i1 : Integrable fun x => ψ x * ψ1 i k x * (δ x k / softDist s (δ x) 0) := by
    refine hp.norm.mono' (hp.aestronglyMeasurable.mul (mk.div mD).aestronglyMeasurable)
      (.of_forall fun x => ?_)
    rw [norm_mul, Real.norm_eq_abs (δ x k / _)]
    exact mul_le_of_le_one_right (norm_nonneg _) (abs_div_softDist_le s (δ x) k)
  have i2 : Integrable fun x =>
      ψ x ^ 2 * (1 / softDist s (δ x) 0 - δ x k ^ 2 / softDist s (δ x) 0 ^ 3) := by
    have hψ := h.measurable
    refine hi.mono' (by fun_prop) (.of_forall fun x => ?_)
    have hb := second_bounds s (δ x) k
    rw [Real.norm_eq_abs, abs_of_nonneg (mul_nonneg (sq_nonneg _) hb.1),
      div_eq_mul_one_div (ψ x ^ 2)]
    exact mul_le_mul_of_nonneg_left hb.2 (sq_nonneg _)
  refine ⟨i1, i2, ?_⟩
  have i0 : Integrable fun x => ψ x ^ 2 * (σ * δ x k / softDist s (δ x) 0) := by
    refine (h.normalisable.const_mul |σ|).mono' ((h.measurable.pow 2).mul
      ((mk.const_mul σ).div mD).aestronglyMeasurable) (.of_forall fun x => ?_)
    rw [norm_mul, Real.norm_eq_abs, Real.norm_eq_abs, abs_of_nonneg (sq_nonneg (ψ x)), mul_div_assoc,
      abs_mul]
    have := abs_div_softDist_le s (δ x) k
    have h2 : |σ| * |δ x k / softDist s (δ x) 0| ≤ |σ| := mul_le_of_le_one_right (abs_nonneg _) this
    nlinarith [sq_nonneg (ψ x)]
  have hz := integral_shiftDeriv (F := fun x => ψ x ^ 2 * (σ * δ x k / softDist s (δ x) 0))
    (F' := fun x => 2 * σ * (ψ x * ψ1 i k x * (δ x k / softDist s (δ x) 0)) +
      ψ x ^ 2 * (1 / softDist s (δ x) 0 - δ x k ^ 2 / softDist s (δ x) 0 ^ 3)) i k i0
    ((i1.const_mul _).add i2) (by
      have hne' : ∀ᵐ x, s ≠ 0 ∨ ∃ k', k' ≠ k ∧ δ x k' ≠ 0 := by
        rcases hne with h | h
        · exact .of_forall fun x => .inl h
        · exact h.mono fun x hx => .inr hx
      filter_upwards [h.deriv1 i k, hne'] with x h1 hx t
      have hpos : ∀ t, 0 < softDist s (δ (shift x i k t)) 0 := fun t => by
        refine softDist_pos (hx.imp_right ?_)
        rintro ⟨k', hk', h0⟩ hc
        have := congrFun hc k'
        rw [hδ.shift, if_neg hk'] at this
        simp at this
        exact h0 this
      have hfun : ∀ t, δ (shift x i k t) = fun k' => δ x k' + t * if k' = k then σ else 0 :=
        fun t => funext fun k' => hδ.shift x k t k'
      have hD := hasDerivAt_softDist_line s (δ x) 0 (fun k' => if k' = k then σ else 0) t
        (by rw [← hfun]; exact hpos t)
      simp only [← hfun] at hD
      have hnum : HasDerivAt (fun t => σ * δ (shift x i k t) k) (σ * σ) t := by
        have e : (fun t => σ * δ (shift x i k t) k) = fun t => σ * (δ x k + t * σ) := by
          funext t
          rw [hδ.shift, if_pos rfl]
        rw [e]
        have := (((hasDerivAt_id t).mul_const σ).const_add (δ x k)).const_mul σ
        simpa using this
      have := ((h1 t).fun_pow 2).fun_mul (hnum.fun_div hD (hpos t).ne')
      refine this.congr_deriv ?_
      have e2 : (∑ k', (δ x k' + t * (if k' = k then σ else 0) - (0 : Fin d → ℝ) k') *
          if k' = k then σ else 0) = δ (shift x i k t) k * σ := by
        rw [hδ.shift]
        simp
      rw [e2]
      have hp' := (hpos t).ne'
      generalize softDist s (δ (shift x i k t)) 0 = D at hp' ⊢
      generalize δ (shift x i k t) k = q
      generalize ψ (shift x i k t) = a
      generalize ψ1 i k (shift x i k t) = b
      field_simp
      push_cast
      linear_combination (a ^ 2 * (D ^ 2 - q ^ 2)) * hσ)
  rw [integral_add (i1.const_mul _) i2, integral_const_mul] at hz
  linarith

/-- Summed over the components of the electron. -/
theorem pair_ibp_sum (h : WaveFunction ψ ψ1 ψ2) {i : Fin n} (hδ : Follows i σ δ) (hσ : σ ^ 2 = 1)
    (hne : s ≠ 0 ∨ ∀ k, ∀ᵐ x, ∃ k', k' ≠ k ∧ δ x k' ≠ 0)
    (hi : Integrable fun x => ψ x ^ 2 / softDist s (δ x) 0) :
    Integrable (fun x => ψ x ^ 2 * (((d : ℝ) - 1) / softDist s (δ x) 0 +
        s ^ 2 / softDist s (δ x) 0 ^ 3)) ∧
    2 * σ * ∑ k, ∫ x, ψ x * ψ1 i k x * (δ x k / softDist s (δ x) 0) =
      -∫ x, ψ x ^ 2 * (((d : ℝ) - 1) / softDist s (δ x) 0 + s ^ 2 / softDist s (δ x) 0 ^ 3) := by
  have hk := fun k => pair_ibp h hδ hσ k (hne.imp_right fun h => h k) hi
  have e : (fun x => ψ x ^ 2 * (((d : ℝ) - 1) / softDist s (δ x) 0 +
      s ^ 2 / softDist s (δ x) 0 ^ 3)) = fun x => ∑ k,
        ψ x ^ 2 * (1 / softDist s (δ x) 0 - δ x k ^ 2 / softDist s (δ x) 0 ^ 3) := by
    funext x
    rw [← Finset.mul_sum, Finset.sum_sub_distrib, ← Finset.sum_div, ← Finset.sum_div]
    have := softDist_zero_sq s (δ x)
    rcases (softDist_nonneg s (δ x) 0).eq_or_lt with h0 | h0
    · simp [← h0]
    · have e : ∑ k, δ x k ^ 2 = softDist s (δ x) 0 ^ 2 - s ^ 2 := by linarith
      rw [e]
      simp only [Finset.sum_const, Finset.card_univ, Fintype.card_fin, nsmul_eq_mul]
      field_simp
      ring
  rw [e]
  refine ⟨integrable_finsetSum _ fun k _ => (hk k).2.1, ?_⟩
  rw [integral_finsetSum _ fun k _ => (hk k).2.1, Finset.mul_sum, ← Finset.sum_neg_distrib]
  exact Finset.sum_congr rfl fun k _ => (hk k).2.2

end pair

/-! ### coalescence points form a null set -/

/-- one coordinate of one electron as a linear functional -/
def coord (i : Fin n) (k : Fin d) : Pos n d →ₗ[ℝ] ℝ where
  toFun x := x i k
  map_add' _ _ := rfl
  map_smul' _ _ := rfl

theorem ae_coord_ne (i : Fin n) (k : Fin d) (c : ℝ) : ∀ᵐ x : Pos n d, x i k ≠ c := by
  refine ae_linear_ne (coord i k) (x₀ := fun _ _ => 1) ?_ c
  simp [coord]

theorem ae_coord_sub_ne {i j : Fin n} (hij : i ≠ j) (k : Fin d) : ∀ᵐ x : Pos n d, x i k ≠ x j k := by
  have := ae_linear_ne (ν := (volume : Measure (Pos n d))) (coord i k - coord j k)
    (x₀ := fun i' _ => if i' = i then 1 else 0) (by simp [coord, hij.symm]) 0
  filter_upwards [this] with x hx h
  exact hx (by simp [coord, h])

theorem ae_apart (hd : 0 < d) (R : Pos m d) : ∀ᵐ x : Pos n d, Apart x R := by
  have : ∀ᵐ x : Pos n d, ∀ i I, x i ⟨0, hd⟩ ≠ R I ⟨0, hd⟩ :=
    ae_all_iff.2 fun i => ae_all_iff.2 fun I => ae_coord_ne i _ _
  filter_upwards [this] with x hx i I h
  exact hx i I (congrFun h _)

theorem ae_distinct (hd : 0 < d) : ∀ᵐ x : Pos n d, Distinct x := by
  have : ∀ᵐ x : Pos n d, ∀ i j, i ≠ j → x i ⟨0, hd⟩ ≠ x j ⟨0, hd⟩ :=
    ae_all_iff.2 fun i => ae_all_iff.2 fun j => by
      by_cases h : i = j
      · exact .of_forall fun x hc => (hc h).elim
      · exact (ae_coord_sub_ne h _).mono fun x hx _ => hx
  filter_upwards [this] with x hx i j hij h
  exact hx i j hij (congrFun h _)

end Verif.Ibp
