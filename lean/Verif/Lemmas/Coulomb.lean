import Verif.Lemmas.Quantum
import Mathlib.MeasureTheory.Constructions.HaarToSphere
import Mathlib.MeasureTheory.Integral.Pi
import Mathlib.Analysis.SpecialFunctions.Gaussian.GaussianIntegral

/-! Exponentially decaying functions with Coulomb singularities are integrable in two and more
dimensions. -/

namespace Verif.Decay
open MeasureTheory Verif.Spec

variable {N d : ℕ}

theorem integrable_exp_norm (hd : 1 ≤ d) {β : ℝ} (hβ : 0 < β) :
    Integrable fun v : Fin d → ℝ => Real.exp (-(β * ‖v‖)) := by
  have : Nonempty (Fin d) := ⟨⟨0, hd⟩⟩
  rw [integrable_fun_norm_addHaar volume (f := fun r => Real.exp (-(β * r)))]
  have := integrableOn_rpow_mul_exp_neg_mul_rpow (p := 1) (s := (d - 1 : ℕ)) (b := β)
    (by have : (0 : ℝ) ≤ (d - 1 : ℕ) := Nat.cast_nonneg _
        linarith) one_pos hβ
  refine (integrableOn_congr_fun (fun r _ => ?_) measurableSet_Ioi).mp this
  simp

/-- The singularity near a point. -/
noncomputable def near (r : ℝ) : ℝ := if r < 1 then r⁻¹ else 0

theorem near_nonneg {r : ℝ} (hr : 0 ≤ r) : 0 ≤ near r := by
  unfold near
  split
  · exact inv_nonneg.mpr hr
  · exact le_rfl

theorem measurable_near : Measurable near :=
  Measurable.ite measurableSet_Iio measurable_inv measurable_const

theorem integrable_near (hd : 2 ≤ d) : Integrable fun v : Fin d → ℝ => near ‖v‖ := by
  have : Nonempty (Fin d) := ⟨⟨0, by omega⟩⟩
  rw [integrable_fun_norm_addHaar volume (f := near)]
  have hi : IntegrableOn (Set.indicator (Set.Ioo 0 1) fun _ : ℝ => (1 : ℝ)) (Set.Ioi 0) := by
    refine Integrable.integrableOn ?_
    rw [integrable_indicator_iff measurableSet_Ioo]
    exact integrableOn_const (by simp)
  refine Integrable.mono' hi ((measurable_id.pow_const _).smul measurable_near).aestronglyMeasurable
    ((ae_restrict_iff' measurableSet_Ioi).mpr (.of_forall fun r hr => ?_))
  have hr : 0 < r := hr
  simp only [Module.finrank_fin_fun]
  unfold near
  split
  · rename_i h
    rw [Set.indicator_of_mem (show r ∈ Set.Ioo (0 : ℝ) 1 from ⟨hr, h⟩), smul_eq_mul, Real.norm_eq_abs, abs_of_pos (by positivity)]
    obtain ⟨e, rfl⟩ : ∃ e, d = e + 2 := ⟨d - 2, by omega⟩
    have : r ^ (e + 2 - 1) * r⁻¹ = r ^ e := by
      rw [show e + 2 - 1 = e + 1 by omega, pow_succ]
      field_simp
    rw [this]
    exact pow_le_one₀ hr.le h.le
  · rename_i h
    simp only [smul_zero, norm_zero]
    exact Set.indicator_nonneg (fun _ _ => zero_le_one) _

theorem lintegral_coulomb_le {β : ℝ} (hβ : 0 < β) (y : Fin d → ℝ) :
    ∫⁻ v : Fin d → ℝ, ENNReal.ofReal (Real.exp (-(β * ‖v‖)) * ‖v - y‖⁻¹) ≤
      (∫⁻ v : Fin d → ℝ, ENNReal.ofReal (Real.exp (-(β * ‖v‖)))) +
        ∫⁻ v : Fin d → ℝ, ENNReal.ofReal (near ‖v‖) := by
  rw [← lintegral_sub_right_eq_self (fun v : Fin d → ℝ => ENNReal.ofReal (near ‖v‖)) y,
    ← lintegral_add_left (by fun_prop)]
  refine lintegral_mono fun v => ?_
  rw [← ENNReal.ofReal_add (Real.exp_pos _).le (near_nonneg (norm_nonneg _))]
  refine ENNReal.ofReal_le_ofReal ?_
  have h1 : Real.exp (-(β * ‖v‖)) ≤ 1 := Real.exp_le_one_iff.mpr (by
    have := norm_nonneg v
    nlinarith)
  have h0 := Real.exp_pos (-(β * ‖v‖))
  unfold near
  split
  · have : 0 ≤ ‖v - y‖⁻¹ := inv_nonneg.mpr (norm_nonneg _)
    nlinarith
  · rename_i h
    have : ‖v - y‖⁻¹ ≤ 1 := inv_le_one_of_one_le₀ (not_lt.mp h)
    nlinarith

/-- Total weight, written as a product over the electrons. -/
theorem integrable_total (hd : 1 ≤ d) {β : ℝ} (hβ : 0 < β) :
    Integrable fun x : Fin N → Fin d → ℝ => Real.exp (-(β * ∑ e, ‖x e‖)) := by
  have : (fun x : Fin N → Fin d → ℝ => Real.exp (-(β * ∑ e, ‖x e‖))) =
      fun x => ∏ e, Real.exp (-(β * ‖x e‖)) := by
    funext x
    rw [← Real.exp_sum, Finset.mul_sum, Finset.sum_neg_distrib]
  rw [this]
  exact Integrable.fintype_prod fun _ => integrable_exp_norm hd hβ

/-- The singularity of one electron at a place which depends on the others. -/
theorem integrable_coulomb {M : ℕ} (hd : 2 ≤ d) {β : ℝ} (hβ : 0 < β) (i : Fin (M + 1))
    {G : (Fin M → Fin d → ℝ) → Fin d → ℝ} (hG : Measurable G) :
    Integrable fun x : Fin (M + 1) → Fin d → ℝ =>
      Real.exp (-(β * ∑ e, ‖x e‖)) * ‖x i - G (fun e => x (i.succAbove e))‖⁻¹ := by
  let F : (Fin d → ℝ) × (Fin M → Fin d → ℝ) → ℝ := fun p =>
    Real.exp (-(β * ‖p.1‖)) * ‖p.1 - G p.2‖⁻¹ * Real.exp (-(β * ∑ e, ‖p.2 e‖))
  have hF : Measurable F := by
    have : Measurable fun p : (Fin d → ℝ) × (Fin M → Fin d → ℝ) => G p.2 := hG.comp measurable_snd
    have h2 : ∀ e, Measurable fun p : (Fin d → ℝ) × (Fin M → Fin d → ℝ) => p.2 e := fun e =>
      (measurable_pi_apply e).comp measurable_snd
    fun_prop
  have hp : ∀ p, 0 ≤ F p := fun p => by positivity
  have hI : Integrable F ((volume : Measure (Fin d → ℝ)).prod volume) := by
    refine ⟨hF.aestronglyMeasurable, ?_⟩
    rw [hasFiniteIntegral_iff_ofReal (.of_forall hp), lintegral_prod_symm' _ hF.ennreal_ofReal]
    have e : ∀ y : Fin M → Fin d → ℝ, ∫⁻ v, ENNReal.ofReal (F (v, y)) ≤
        ((∫⁻ v : Fin d → ℝ, ENNReal.ofReal (Real.exp (-(β * ‖v‖)))) +
          ∫⁻ v : Fin d → ℝ, ENNReal.ofReal (near ‖v‖)) *
        ENNReal.ofReal (Real.exp (-(β * ∑ e, ‖y e‖))) := by
      intro y
      simp only [F]
      simp_rw [ENNReal.ofReal_mul' (Real.exp_pos (-(β * ∑ e, ‖y e‖))).le]
      rw [lintegral_mul_const _ (by fun_prop)]
      exact mul_le_mul_left (lintegral_coulomb_le hβ (G y)) _
    refine (lintegral_mono e).trans_lt ?_
    rw [lintegral_const_mul _ (by fun_prop)]
    refine ENNReal.mul_lt_top (ENNReal.add_lt_top.mpr ⟨?_, ?_⟩) ?_
    · have := (integrable_exp_norm (d := d) (by omega) hβ).2
      rwa [hasFiniteIntegral_iff_ofReal (.of_forall fun _ => (Real.exp_pos _).le)] at this
    · have := (integrable_near hd).2
      rwa [hasFiniteIntegral_iff_ofReal (.of_forall fun _ => near_nonneg (norm_nonneg _))] at this
    · have := (integrable_total (N := M) (d := d) (by omega) hβ).2
      rwa [hasFiniteIntegral_iff_ofReal (.of_forall fun _ => (Real.exp_pos _).le)] at this
  have := (volume_preserving_piFinSuccAbove (fun _ : Fin (M + 1) => Fin d → ℝ) i
    ).integrable_comp_of_integrable hI
  refine this.congr (.of_forall fun x => ?_)
  simp only [F, Function.comp, MeasurableEquiv.piFinSuccAbove_apply, Fin.insertNthEquiv_symm_apply,
    Fin.removeNth, Fin.sum_univ_succAbove _ i, mul_add, neg_add, Real.exp_add]
  have : (fun e => x (i.succAbove e)) = i.removeNth x := rfl
  rw [this]
  ring

theorem norm_sub_le_softDist (s : ℝ) (a b : Fin d → ℝ) : ‖a - b‖ ≤ softDist s a b := by
  unfold softDist
  rw [pi_norm_le_iff_of_nonneg (Real.sqrt_nonneg _)]
  intro l
  rw [Real.norm_eq_abs]
  refine Real.abs_le_sqrt ?_
  have := Finset.single_le_sum (f := fun l => (a l - b l) ^ 2) (fun _ _ => sq_nonneg _)
    (Finset.mem_univ l)
  simp only [Pi.sub_apply]
  nlinarith [sq_nonneg s]

theorem one_div_softDist_le (s : ℝ) {a b : Fin d → ℝ} (h : a ≠ b) :
    1 / softDist s a b ≤ ‖a - b‖⁻¹ := by
  rw [one_div]
  exact inv_anti₀ (norm_pos_iff.mpr (sub_ne_zero.mpr h)) (norm_sub_le_softDist s a b)

theorem integrable_ion (hd : 2 ≤ d) {β : ℝ} (hβ : 0 < β) (s : ℝ) (i : Fin N) (r : Fin d → ℝ) :
    Integrable fun x : Fin N → Fin d → ℝ =>
      Real.exp (-(β * ∑ e, ‖x e‖)) * (1 / softDist s (x i) r) := by
  obtain ⟨M, rfl⟩ : ∃ M, N = M + 1 := ⟨N - 1, by have := i.2; omega⟩
  refine (integrable_coulomb hd hβ i (G := fun _ => r) measurable_const).mono' ?_ ?_
  · unfold softDist
    exact Measurable.aestronglyMeasurable (by fun_prop)
  · filter_upwards [Ibp.ae_apart (n := M + 1) (by omega) fun _ : Fin 1 => r] with x hx
    rw [Real.norm_eq_abs, abs_of_nonneg (mul_nonneg (Real.exp_pos _).le
      (div_nonneg zero_le_one (Ibp.softDist_nonneg s _ _)))]
    exact mul_le_mul_of_nonneg_left (one_div_softDist_le s (hx i 0)) (Real.exp_pos _).le

theorem integrable_pair (hd : 2 ≤ d) {β : ℝ} (hβ : 0 < β) (s : ℝ) {i j : Fin N} (hij : i ≠ j) :
    Integrable fun x : Fin N → Fin d → ℝ =>
      Real.exp (-(β * ∑ e, ‖x e‖)) * (1 / softDist s (x i) (x j)) := by
  obtain ⟨M, rfl⟩ : ∃ M, N = M + 1 := ⟨N - 1, by have := i.2; omega⟩
  obtain ⟨e, rfl⟩ := Fin.exists_succAbove_eq hij.symm
  refine (integrable_coulomb hd hβ i (G := fun y => y e) (measurable_pi_apply e)).mono' ?_ ?_
  · unfold softDist
    exact Measurable.aestronglyMeasurable (by fun_prop)
  · filter_upwards [Ibp.ae_distinct (n := M + 1) (d := d) (by omega)] with x hx
    rw [Real.norm_eq_abs, abs_of_nonneg (mul_nonneg (Real.exp_pos _).le
      (div_nonneg zero_le_one (Ibp.softDist_nonneg s _ _)))]
    exact mul_le_mul_of_nonneg_left (one_div_softDist_le s (hx _ _ hij)) (Real.exp_pos _).le

end Verif.Decay
