import Verif.Lemmas.Bounds
import Mathlib.Algebra.Order.Chebyshev

/-! Squares of Coulomb singularities are integrable in three and more dimensions. -/

namespace Verif.Decay
open MeasureTheory Verif.Spec

variable {N m d : ℕ} {R : Fin m → Fin d → ℝ}

/-- The squared singularity near a point. -/
noncomputable def nearSq (r : ℝ) : ℝ := if r < 1 then r⁻¹ ^ 2 else 0

theorem nearSq_nonneg (r : ℝ) : 0 ≤ nearSq r := by
  unfold nearSq
  split
  · positivity
  · exact le_rfl

theorem measurable_nearSq : Measurable nearSq :=
  Measurable.ite measurableSet_Iio (measurable_inv.pow_const 2) measurable_const

theorem integrable_nearSq (hd : 3 ≤ d) : Integrable fun v : Fin d → ℝ => nearSq ‖v‖ := by
  have : Nonempty (Fin d) := ⟨⟨0, by omega⟩⟩
  rw [integrable_fun_norm_addHaar volume (f := nearSq)]
  have hi : IntegrableOn (Set.indicator (Set.Ioo 0 1) fun _ : ℝ => (1 : ℝ)) (Set.Ioi 0) := by
    refine Integrable.integrableOn ?_
    rw [integrable_indicator_iff measurableSet_Ioo]
    exact integrableOn_const (by simp)
  refine Integrable.mono' hi ((measurable_id.pow_const _).smul
    measurable_nearSq).aestronglyMeasurable
    ((ae_restrict_iff' measurableSet_Ioi).mpr (.of_forall fun r hr => ?_))
  have hr : 0 < r := hr
  simp only [Module.finrank_fin_fun]
  unfold nearSq
  split
  · rename_i h
    rw [Set.indicator_of_mem (show r ∈ Set.Ioo (0 : ℝ) 1 from ⟨hr, h⟩), smul_eq_mul,
      Real.norm_eq_abs, abs_of_pos (by positivity)]
    obtain ⟨e, rfl⟩ : ∃ e, d = e + 3 := ⟨d - 3, by omega⟩
    have : r ^ (e + 3 - 1) * r⁻¹ ^ 2 = r ^ e := by
      rw [show e + 3 - 1 = e + 2 by omega, pow_add]
      field_simp
    rw [this]
    exact pow_le_one₀ hr.le h.le
  · simp only [smul_zero, norm_zero]
    exact Set.indicator_nonneg (fun _ _ => zero_le_one) _

theorem lintegral_coulombSq_le {β : ℝ} (hβ : 0 < β) (y : Fin d → ℝ) :
    ∫⁻ v : Fin d → ℝ, ENNReal.ofReal (Real.exp (-(β * ‖v‖)) * ‖v - y‖⁻¹ ^ 2) ≤
      (∫⁻ v : Fin d → ℝ, ENNReal.ofReal (Real.exp (-(β * ‖v‖)))) +
        ∫⁻ v : Fin d → ℝ, ENNReal.ofReal (nearSq ‖v‖) := by
  rw [← lintegral_sub_right_eq_self (fun v : Fin d → ℝ => ENNReal.ofReal (nearSq ‖v‖)) y,
    ← lintegral_add_left (by fun_prop)]
  refine lintegral_mono fun v => ?_
  rw [← ENNReal.ofReal_add (Real.exp_pos _).le (nearSq_nonneg _)]
  refine ENNReal.ofReal_le_ofReal ?_
  have h1 : Real.exp (-(β * ‖v‖)) ≤ 1 := Real.exp_le_one_iff.mpr (by
    have := norm_nonneg v
    nlinarith)
  have h0 := Real.exp_pos (-(β * ‖v‖))
  unfold nearSq
  split
  · have : 0 ≤ ‖v - y‖⁻¹ ^ 2 := by positivity
    nlinarith
  · rename_i h
    have : ‖v - y‖⁻¹ ^ 2 ≤ 1 :=
      pow_le_one₀ (inv_nonneg.mpr (norm_nonneg _)) (inv_le_one_of_one_le₀ (not_lt.mp h))
    nlinarith

/-- The squared singularity of one electron at a place which depends on the others. -/
theorem integrable_coulombSq {M : ℕ} (hd : 3 ≤ d) {β : ℝ} (hβ : 0 < β) (i : Fin (M + 1))
    {G : (Fin M → Fin d → ℝ) → Fin d → ℝ} (hG : Measurable G) :
    Integrable fun x : Fin (M + 1) → Fin d → ℝ =>
      Real.exp (-(β * ∑ e, ‖x e‖)) * ‖x i - G (fun e => x (i.succAbove e))‖⁻¹ ^ 2 := by
  let F : (Fin d → ℝ) × (Fin M → Fin d → ℝ) → ℝ := fun p =>
    Real.exp (-(β * ‖p.1‖)) * ‖p.1 - G p.2‖⁻¹ ^ 2 * Real.exp (-(β * ∑ e, ‖p.2 e‖))
  have hF : Measurable F := by
    have : Measurable fun p : (Fin d → ℝ) × (Fin M → Fin d → ℝ) => G p.2 := hG.comp measurable_snd
    have h2 : ∀ e, Measurable fun p : (Fin d → ℝ) × (Fin M → Fin d → ℝ) => p.2 e := fun e =>
      (measurable_pi_apply e).comp measurable_snd
    fun_prop
  have hp : ∀ p, 0 ≤ F p := fun p => by positivity
  have hI : Integrable F ((volume : Measure (Fin d → ℝ)).prod volume) := by
    refine ⟨hF.aestronglyMeasurable, ?_⟩
    rw [hasFiniteIntegral_iff_ofReal (.of_forall hp), lintegral_prod_symm' _ hF.ennreal_ofReal]
    have e : ∀ y : Fin M → Fin d → ℝ, ∫⁻ v, ENNReal.ofReal (F (v, y)) ≤
        ((∫⁻ v : Fin d → ℝ, ENNReal.ofReal (Real.exp (-(β * ‖v‖)))) +
          ∫⁻ v : Fin d → ℝ, ENNReal.ofReal (nearSq ‖v‖)) *
        ENNReal.ofReal (Real.exp (-(β * ∑ e, ‖y e‖))) := by
      intro y
      simp only [F]
      simp_rw [ENNReal.ofReal_mul' (Real.exp_pos (-(β * ∑ e, ‖y e‖))).le]
      rw [lintegral_mul_const _ (by fun_prop)]
      exact mul_le_mul_left (lintegral_coulombSq_le hβ (G y)) _
    refine (lintegral_mono e).trans_lt ?_
    rw [lintegral_const_mul _ (by fun_prop)]
    refine ENNReal.mul_lt_top (ENNReal.add_lt_top.mpr ⟨?_, ?_⟩) ?_
    · have := (integrable_exp_norm (d := d) (by omega) hβ).2
      rwa [hasFiniteIntegral_iff_ofReal (.of_forall fun _ => (Real.exp_pos _).le)] at this
    · have := (integrable_nearSq hd).2
      rwa [hasFiniteIntegral_iff_ofReal (.of_forall fun _ => nearSq_nonneg _)] at this
    · have := (integrable_total (N := M) (d := d) (by omega) hβ).2
      rwa [hasFiniteIntegral_iff_ofReal (.of_forall fun _ => (Real.exp_pos _).le)] at this
  have := (volume_preserving_piFinSuccAbove (fun _ : Fin (M + 1) => Fin d → ℝ) i
    ).integrable_comp_of_integrable hI
  refine this.congr (.of_forall fun x => ?_)
  simp only [F, Function.comp, MeasurableEquiv.piFinSuccAbove_apply, Fin.insertNthEquiv_symm_apply,
    Fin.removeNth, Fin.sum_univ_succAbove _ i, mul_add, neg_add, Real.exp_add]
  have : (fun e => x (i.succAbove e)) = i.removeNth x := rfl
  rw [this]
  ring

theorem integrable_ionSq (hd : 3 ≤ d) {β : ℝ} (hβ : 0 < β) (i : Fin N) (r : Fin d → ℝ) :
    Integrable fun x : Fin N → Fin d → ℝ =>
      Real.exp (-(β * ∑ e, ‖x e‖)) * (1 / softDist 0 (x i) r) ^ 2 := by
  obtain ⟨M, rfl⟩ : ∃ M, N = M + 1 := ⟨N - 1, by have := i.2; omega⟩
  refine (integrable_coulombSq hd hβ i (G := fun _ => r) measurable_const).mono' ?_ ?_
  · unfold softDist
    exact Measurable.aestronglyMeasurable (by fun_prop)
  · filter_upwards [Ibp.ae_apart (n := M + 1) (by omega) fun _ : Fin 1 => r] with x hx
    rw [Real.norm_eq_abs, abs_of_nonneg (by positivity)]
    exact mul_le_mul_of_nonneg_left (pow_le_pow_left₀ (one_div_softDist_nonneg 0 _ _)
      (one_div_softDist_le 0 (hx i 0)) 2) (Real.exp_pos _).le

theorem integrable_pairSq (hd : 3 ≤ d) {β : ℝ} (hβ : 0 < β) (i j : Fin N) :
    Integrable fun x : Fin N → Fin d → ℝ =>
      Real.exp (-(β * ∑ e, ‖x e‖)) * (1 / softDist 0 (x i) (x j)) ^ 2 := by
  by_cases hij : i = j
  · subst hij
    have : ∀ a : Fin d → ℝ, softDist 0 a a = 0 := fun a => by simp [softDist]
    simp [this]
  obtain ⟨M, rfl⟩ : ∃ M, N = M + 1 := ⟨N - 1, by have := i.2; omega⟩
  obtain ⟨e, rfl⟩ := Fin.exists_succAbove_eq (Ne.symm hij)
  refine (integrable_coulombSq hd hβ i (G := fun y => y e) (measurable_pi_apply e)).mono' ?_ ?_
  · unfold softDist
    exact Measurable.aestronglyMeasurable (by fun_prop)
  · filter_upwards [Ibp.ae_distinct (n := M + 1) (d := d) (by omega)] with x hx
    rw [Real.norm_eq_abs, abs_of_nonneg (by positivity)]
    exact mul_le_mul_of_nonneg_left (pow_le_pow_left₀ (one_div_softDist_nonneg 0 _ _)
      (one_div_softDist_le 0 (hx _ _ hij)) 2) (Real.exp_pos _).le

theorem sq_double_sum {a b : ℕ} (f : Fin a → Fin b → ℝ) :
    (∑ i, ∑ j, f i j) ^ 2 ≤ (a * b : ℝ) * ∑ i, ∑ j, f i j ^ 2 := by
  have h := sq_sum_le_card_mul_sum_sq (s := Finset.univ) (f := fun p : Fin a × Fin b => f p.1 p.2)
  simpa [Fintype.sum_prod_type] using h

theorem sing_sq_le (x : Fin N → Fin d → ℝ) : sing R x ^ 2 ≤
    3 * (1 + (N * m : ℝ) * (∑ i, ∑ j, (1 / softDist 0 (x i) (R j)) ^ 2) +
      (N * N : ℝ) * ∑ i, ∑ j, (1 / softDist 0 (x i) (x j)) ^ 2) := by
  have h1 := sq_double_sum fun (i : Fin N) (j : Fin m) => 1 / softDist 0 (x i) (R j)
  have h2 := sq_double_sum fun (i : Fin N) (j : Fin N) => 1 / softDist 0 (x i) (x j)
  unfold sing
  generalize (∑ i, ∑ j, 1 / softDist 0 (x i) (R j)) = a at *
  generalize (∑ i, ∑ j, 1 / softDist 0 (x i) (x j)) = b at *
  nlinarith [sq_nonneg (1 - a), sq_nonneg (1 - b), sq_nonneg (a - b)]

theorem measurable_sing : Measurable fun x : Fin N → Fin d → ℝ => sing R x := by
  unfold sing softDist
  fun_prop

theorem integrable_singSq (hd : 3 ≤ d) {β : ℝ} (hβ : 0 < β) :
    Integrable fun x : Fin N → Fin d → ℝ => Real.exp (-(β * ∑ e, ‖x e‖)) * sing R x ^ 2 := by
  have hi : Integrable fun x : Fin N → Fin d → ℝ => 3 * (Real.exp (-(β * ∑ e, ‖x e‖)) +
      (N * m : ℝ) * (∑ i, ∑ j, Real.exp (-(β * ∑ e, ‖x e‖)) * (1 / softDist 0 (x i) (R j)) ^ 2) +
      (N * N : ℝ) * ∑ i, ∑ j, Real.exp (-(β * ∑ e, ‖x e‖)) * (1 / softDist 0 (x i) (x j)) ^ 2) :=
    (((integrable_total (by omega) hβ).add ((integrable_finsetSum _ fun i _ =>
      integrable_finsetSum _ fun j _ => integrable_ionSq hd hβ i (R j)).const_mul _)).add
      ((integrable_finsetSum _ fun i _ => integrable_finsetSum _ fun j _ =>
        integrable_pairSq hd hβ i j).const_mul _)).const_mul 3
  refine hi.mono' ?_ (.of_forall fun x => ?_)
  · exact ((by fun_prop : Measurable fun x : Fin N → Fin d → ℝ => Real.exp (-(β * ∑ e, ‖x e‖))).mul
      (measurable_sing.pow_const 2)).aestronglyMeasurable
  · rw [Real.norm_eq_abs, abs_of_nonneg (by positivity)]
    refine (mul_le_mul_of_nonneg_left (sing_sq_le x) (Real.exp_pos _).le).trans (le_of_eq ?_)
    simp only [← Finset.mul_sum]
    ring

end Verif.Decay
