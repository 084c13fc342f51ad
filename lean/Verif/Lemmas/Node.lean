import Mathlib.Tactic
import Mathlib.Analysis.Calculus.ContDiff.Basic
import Mathlib.Analysis.Calculus.ContDiff.RCLike
import Mathlib.Analysis.Calculus.MeanValue
import Mathlib.Analysis.SpecialFunctions.NonIntegrable
import Mathlib.MeasureTheory.Measure.Haar.NormedSpace
import Mathlib.MeasureTheory.Integral.Prod

/-! Near a place where a function changes sign with a slope, the inverse of its square is not integrable. -/

namespace Verif.Node
open MeasureTheory Filter Topology Set

/-- One dimension. -/
theorem lintegral_inv_abs {δ t₀ L : ℝ} (ht : t₀ ∈ Ioo (-δ) δ) :
    ∫⁻ t in Ioo (-δ) δ, ENNReal.ofReal (1 / |L * (t - t₀)|) = ⊤ ∨ L = 0 := by
  by_cases hL : L = 0
  · exact .inr hL
  left
  by_contra hfin
  have hδ : -δ < δ := ht.1.trans ht.2
  have hi : IntegrableOn (fun t => 1 / |L * (t - t₀)|) (Ioo (-δ) δ) := by
    refine ⟨(by fun_prop : Measurable fun t : ℝ => 1 / |L * (t - t₀)|).aestronglyMeasurable, ?_⟩
    rw [hasFiniteIntegral_iff_ofReal (.of_forall fun t => by positivity)]
    exact lt_top_iff_ne_top.mpr hfin
  have hii : IntervalIntegrable (fun t => 1 / |L * (t - t₀)|) volume (-δ) δ := by
    rw [intervalIntegrable_iff_integrableOn_Ioo_of_le hδ.le]
    exact hi
  refine not_intervalIntegrable_of_sub_inv_isBigO_punctured (c := t₀) ?_ hδ.ne ?_ hii
  · refine Asymptotics.IsBigO.of_bound |L| (.of_forall fun t => ?_)
    have h4 : ‖1 / |L * (t - t₀)|‖ = |L|⁻¹ * |t - t₀|⁻¹ := by
      rw [Real.norm_eq_abs, abs_of_nonneg (by positivity), abs_mul, one_div, mul_inv]
    rw [norm_inv, Real.norm_eq_abs, h4, ← mul_assoc, mul_inv_cancel₀ (abs_ne_zero.mpr hL), one_mul]
  · rw [uIcc_of_le hδ.le]
    exact ⟨ht.1.le, ht.2.le⟩

variable {X : Type*} [NormedAddCommGroup X] [NormedSpace ℝ X] [MeasurableSpace X] [BorelSpace X]
  [FiniteDimensional ℝ X] (μ : Measure X) [μ.IsAddHaarMeasure]

/-- Integrals over lines in direction `e` which are all infinite make the integral infinite. -/
theorem lintegral_of_lines {u : X → ENNReal} (hu : Measurable u) {e : X} {δ : ℝ}
    {B : Set X} (hB : MeasurableSet B) (hpos : μ B ≠ 0)
    (h : ∀ x ∈ B, ∫⁻ t in Ioo (-δ) δ, u (x + t • e) = ⊤) : ∫⁻ x, u x ∂μ = ⊤ := by
  by_contra hfin
  have h1 : ∫⁻ x in B, (∫⁻ t in Ioo (-δ) δ, u (x + t • e)) ∂μ = ⊤ := by
    rw [setLIntegral_congr_fun hB h, setLIntegral_const, ENNReal.top_mul hpos]
  have h2 : ∫⁻ x in B, (∫⁻ t in Ioo (-δ) δ, u (x + t • e)) ∂μ =
      ∫⁻ t in Ioo (-δ) δ, (∫⁻ x in B, u (x + t • e) ∂μ) :=
    lintegral_lintegral_swap (hu.comp (by fun_prop)).aemeasurable
  have h3 : ∫⁻ t in Ioo (-δ) δ, (∫⁻ x in B, u (x + t • e) ∂μ) ≤
      ∫⁻ _ in Ioo (-δ) δ, (∫⁻ x, u x ∂μ) := by
    refine lintegral_mono fun t => ?_
    refine (setLIntegral_le_lintegral _ _).trans (le_of_eq ?_)
    exact lintegral_add_right_eq_self u (t • e)
  rw [← h2, h1, setLIntegral_const] at h3
  have : (∫⁻ x, u x ∂μ) * volume (Ioo (-δ) δ) < ⊤ := by
    refine ENNReal.mul_lt_top (lt_top_iff_ne_top.mpr hfin) ?_
    rw [Real.volume_Ioo]
    exact ENNReal.ofReal_lt_top
  exact absurd (top_le_iff.mp h3) this.ne

/-- Near a regular node the inverse of a function is not integrable. -/
theorem lintegral_node_abs {ψ : X → ℝ} {q : X} (hc : ContDiffAt ℝ 1 ψ q) (h0 : ψ q = 0)
    (h1 : fderiv ℝ ψ q ≠ 0) {U : Set X} (hU : U ∈ 𝓝 q) :
    ∫⁻ x in U, ENNReal.ofReal (1 / |ψ x|) ∂μ = ⊤ := by
  obtain ⟨e, he⟩ : ∃ e, fderiv ℝ ψ q e ≠ 0 := by
    by_contra h
    push Not at h
    exact h1 (ContinuousLinearMap.ext h)
  obtain ⟨e, he⟩ : ∃ e, 0 < fderiv ℝ ψ q e := by
    rcases lt_or_gt_of_ne he with h | h
    · exact ⟨-e, by rw [map_neg]; linarith⟩
    · exact ⟨e, h⟩
  set D := fderiv ℝ ψ q e with hD
  -- a ball on which the function is differentiable and the slope is between `D/2` and `2D`
  have hdiff : ∀ᶠ x in 𝓝 q, DifferentiableAt ℝ ψ x := by
    filter_upwards [hc.eventually (by simp)] with x hx
    exact hx.differentiableAt (by simp)
  have hcont : ContinuousAt (fun x => fderiv ℝ ψ x e) q :=
    ((hc.fderiv_right (m := 0) (by simp)).continuousAt).clm_apply continuousAt_const
  have hslope : ∀ᶠ x in 𝓝 q, fderiv ℝ ψ x e ∈ Ioo (D / 2) (2 * D) :=
    hcont.eventually_mem (isOpen_Ioo.mem_nhds ⟨by linarith, by linarith⟩)
  obtain ⟨r, hr, hball⟩ := Metric.eventually_nhds_iff_ball.mp
    ((hdiff.and hslope).and (show ∀ᶠ x in 𝓝 q, x ∈ U from hU))
  have he0 : e ≠ 0 := by
    rintro rfl
    simp [hD] at he
  have hne : 0 < ‖e‖ := norm_pos_iff.mpr he0
  set δ := r / (2 * ‖e‖) with hδ_def
  have hδ : 0 < δ := by positivity
  have hline : ∀ x ∈ Metric.ball q (r / 2), ∀ t ∈ Icc (-δ) δ, x + t • e ∈ Metric.ball q r := by
    intro x hx t ht
    rw [Metric.mem_ball, dist_eq_norm] at hx ⊢
    have h2 : ‖t • e‖ ≤ r / 2 := by
      rw [norm_smul, Real.norm_eq_abs]
      have : |t| ≤ δ := abs_le.mpr ht
      calc |t| * ‖e‖ ≤ δ * ‖e‖ := by gcongr
        _ = r / 2 := by rw [hδ_def]; field_simp
    calc ‖x + t • e - q‖ = ‖(x - q) + t • e‖ := by congr 1; abel
      _ ≤ ‖x - q‖ + ‖t • e‖ := norm_add_le _ _
      _ < r := by linarith
  have hder : ∀ x ∈ Metric.ball q (r / 2), ∀ t ∈ Icc (-δ) δ,
      HasDerivAt (fun t : ℝ => ψ (x + t • e)) (fderiv ℝ ψ (x + t • e) e) t := by
    intro x hx t ht
    have hd := (hball _ (hline x hx t ht)).1.1.hasFDerivAt
    have h2 : HasDerivAt (fun t : ℝ => x + t • e) e t := by
      simpa using ((hasDerivAt_id t).smul_const e).const_add x
    exact hd.comp_hasDerivAt t h2
  -- places from which the line crosses the node
  have hsmall : ∀ᶠ x in 𝓝 q, |ψ x| < D / 2 * (δ / 2) := by
    have : ContinuousAt (fun x => |ψ x|) q := hc.continuousAt.abs
    refine this.eventually_lt_const ?_
    simp only [h0, abs_zero]
    positivity
  obtain ⟨r', hr', hball'⟩ := Metric.eventually_nhds_iff_ball.mp hsmall
  set B := Metric.ball q (min (r / 2) r') with hBdef
  -- the slope along lines
  have hmono : ∀ x ∈ Metric.ball q (r / 2), ∀ s ∈ Icc (-δ) δ, ∀ t ∈ Icc (-δ) δ, s ≤ t →
      D / 2 * (t - s) ≤ ψ (x + t • e) - ψ (x + s • e) ∧
      ψ (x + t • e) - ψ (x + s • e) ≤ 2 * D * (t - s) := by
    intro x hx s hs t ht hst
    have hcv : Convex ℝ (Icc (-δ) δ) := convex_Icc _ _
    have hdo : DifferentiableOn ℝ (fun t : ℝ => ψ (x + t • e)) (interior (Icc (-δ) δ)) :=
      fun t ht => (hder x hx t (interior_subset ht)).differentiableAt.differentiableWithinAt
    have hco : ContinuousOn (fun t : ℝ => ψ (x + t • e)) (Icc (-δ) δ) :=
      fun t ht => (hder x hx t ht).continuousAt.continuousWithinAt
    constructor
    · refine hcv.mul_sub_le_image_sub_of_le_deriv hco hdo (fun t ht => ?_) s hs t ht hst
      rw [(hder x hx t (interior_subset ht)).deriv]
      exact (hball _ (hline x hx t (interior_subset ht))).1.2.1.le
    · refine hcv.image_sub_le_mul_sub_of_deriv_le hco hdo (fun t ht => ?_) s hs t ht hst
      rw [(hder x hx t (interior_subset ht)).deriv]
      exact (hball _ (hline x hx t (interior_subset ht))).1.2.2.le
  set V := Metric.ball q r with hV
  have hψc : ContinuousOn ψ V := fun x hx =>
    (hball x hx).1.1.continuousAt.continuousWithinAt
  classical
  set φ : X → ℝ := V.piecewise ψ 0 with hφ
  have hφm : Measurable φ := hψc.measurable_piecewise continuousOn_const Metric.isOpen_ball.measurableSet
  have hlines : ∀ x ∈ B, ∫⁻ t in Ioo (-δ) δ, ENNReal.ofReal (1 / |φ (x + t • e)|) = ⊤ := by
    intro x hx
    have hx1 : x ∈ Metric.ball q (r / 2) := Metric.ball_subset_ball (min_le_left _ _) hx
    have hx2 := hball' x (Metric.ball_subset_ball (min_le_right _ _) hx)
    have hz : (0 : ℝ) ∈ Icc (-δ) δ := ⟨by linarith, by linarith⟩
    have hp : δ / 2 ∈ Icc (-δ) δ := ⟨by linarith, by linarith⟩
    have hn : -(δ / 2) ∈ Icc (-δ) δ := ⟨by linarith, by linarith⟩
    have a1 := (hmono x hx1 0 hz _ hp (by linarith)).1
    have a2 := (hmono x hx1 _ hn 0 hz (by linarith)).1
    rw [zero_smul, add_zero] at a1 a2
    rw [abs_lt] at hx2
    have hcon : ContinuousOn (fun t : ℝ => ψ (x + t • e)) (Icc (-(δ / 2)) (δ / 2)) := fun t ht =>
      (hder x hx1 t ⟨by linarith [ht.1], by linarith [ht.2]⟩).continuousAt.continuousWithinAt
    obtain ⟨t₀, ht₀, hzero⟩ := intermediate_value_Icc (show -(δ / 2) ≤ δ / 2 by linarith) hcon
      (show (0 : ℝ) ∈ Icc _ _ from ⟨by linarith, by linarith⟩)
    simp only at hzero
    have ht₀' : t₀ ∈ Ioo (-δ) δ := ⟨by linarith [ht₀.1], by linarith [ht₀.2]⟩
    have hbound : ∀ t ∈ Ioo (-δ) δ, t ≠ t₀ →
        0 < |ψ (x + t • e)| ∧ |ψ (x + t • e)| ≤ |2 * D * (t - t₀)| := by
      intro t ht hne
      have htc := Ioo_subset_Icc_self ht
      rcases lt_or_gt_of_ne hne with hlt | hlt
      · obtain ⟨b1, b2⟩ := hmono x hx1 t htc t₀ (Ioo_subset_Icc_self ht₀') hlt.le
        rw [hzero] at b1 b2
        have h3 : 0 < D / 2 * (t₀ - t) := mul_pos (by linarith) (by linarith)
        rw [abs_of_neg (show ψ (x + t • e) < 0 by linarith),
          abs_of_neg (show 2 * D * (t - t₀) < 0 by linarith)]
        exact ⟨by linarith, by linarith⟩
      · obtain ⟨b1, b2⟩ := hmono x hx1 t₀ (Ioo_subset_Icc_self ht₀') t htc hlt.le
        rw [hzero] at b1 b2
        have h3 : 0 < D / 2 * (t - t₀) := mul_pos (by linarith) (by linarith)
        rw [abs_of_pos (show 0 < ψ (x + t • e) by linarith),
          abs_of_pos (show 0 < 2 * D * (t - t₀) by linarith)]
        exact ⟨by linarith, by linarith⟩
    have htop : ∫⁻ t in Ioo (-δ) δ, ENNReal.ofReal (1 / |2 * D * (t - t₀)|) = ⊤ :=
      (lintegral_inv_abs ht₀').resolve_right (by positivity)
    refine top_le_iff.mp (htop ▸ ?_)
    refine lintegral_mono_ae ?_
    have hne : ∀ᵐ t ∂volume.restrict (Ioo (-δ) δ), t ≠ t₀ :=
      ae_restrict_of_ae (by simp [ae_iff])
    filter_upwards [hne, ae_restrict_mem measurableSet_Ioo] with t h2 h3
    have hin : x + t • e ∈ V := hline x hx1 t (Ioo_subset_Icc_self h3)
    have hφψ : φ (x + t • e) = ψ (x + t • e) := Set.piecewise_eq_of_mem _ _ _ hin
    rw [hφψ]
    obtain ⟨c1, c2⟩ := hbound t h3 h2
    exact ENNReal.ofReal_le_ofReal (one_div_le_one_div_of_le c1 c2)
  have hu : Measurable fun x => ENNReal.ofReal (1 / |φ x|) := by fun_prop
  have key := lintegral_of_lines μ hu Metric.isOpen_ball.measurableSet
    (Metric.measure_ball_pos μ q (show 0 < min (r / 2) r' by positivity)).ne' hlines
  refine top_le_iff.mp (key ▸ ?_)
  have hVU : V ⊆ U := fun x hx => (hball x hx).2
  refine le_trans ?_ (lintegral_mono_set hVU)
  rw [← lintegral_indicator Metric.isOpen_ball.measurableSet]
  refine lintegral_mono fun x => ?_
  by_cases hx : x ∈ V
  · rw [Set.indicator_of_mem hx, hφ, Set.piecewise_eq_of_mem _ _ _ hx]
  · rw [Set.indicator_of_notMem hx, hφ, Set.piecewise_eq_of_notMem _ _ _ hx]
    simp

/-- Near a regular node the inverse square of a function is not integrable. -/
theorem lintegral_node {ψ : X → ℝ} {q : X} (hc : ContDiffAt ℝ 1 ψ q) (h0 : ψ q = 0)
    (h1 : fderiv ℝ ψ q ≠ 0) {U : Set X} (hU : U ∈ 𝓝 q) :
    ∫⁻ x in U, ENNReal.ofReal (1 / ψ x ^ 2) ∂μ = ⊤ := by
  have hsmall : ∀ᶠ x in 𝓝 q, |ψ x| < 1 := by
    have : ContinuousAt (fun x => |ψ x|) q := hc.continuousAt.abs
    refine this.eventually_lt_const ?_
    simp only [h0, abs_zero]
    exact one_pos
  obtain ⟨V, hVU, hVo, hqV⟩ := mem_nhds_iff.mp (inter_mem hU hsmall)
  refine top_le_iff.mp ((lintegral_node_abs μ hc h0 h1 (hVo.mem_nhds hqV)) ▸ ?_)
  refine le_trans ?_ (lintegral_mono_set (hVU.trans inter_subset_left))
  refine lintegral_mono_ae ?_
  filter_upwards [ae_restrict_mem hVo.measurableSet] with x hx
  have hx1 : |ψ x| < 1 := (hVU hx).2
  refine ENNReal.ofReal_le_ofReal ?_
  by_cases h : ψ x = 0
  · simp [h]
  · have h3 : 0 < |ψ x| := abs_pos.mpr h
    rw [← sq_abs (ψ x)]
    exact one_div_le_one_div_of_le (by positivity) (by nlinarith)

/-- If `ψ w` stays away from zero near a regular node of `ψ`, then `w` is not integrable. -/
theorem not_integrable_node_abs {ψ w : X → ℝ} {q : X} (hc : ContDiffAt ℝ 1 ψ q) (h0 : ψ q = 0)
    (h1 : fderiv ℝ ψ q ≠ 0) {a : ℝ} (ha : 0 < a) {U : Set X} (hU : U ∈ 𝓝 q)
    (hw : ∀ᵐ x ∂μ, x ∈ U → a ≤ |ψ x * w x|) : ¬Integrable w μ := by
  intro hi
  have hfin := (hasFiniteIntegral_iff_norm w).mp hi.2
  obtain ⟨V, hVU, hVo, hqV⟩ := mem_nhds_iff.mp hU
  have htop := lintegral_node_abs μ hc h0 h1 (hVo.mem_nhds hqV)
  have h2 : ∫⁻ x in V, ENNReal.ofReal (1 / |ψ x|) ∂μ ≤
      ENNReal.ofReal (1 / a) * ∫⁻ x, ENNReal.ofReal ‖w x‖ ∂μ := by
    rw [← lintegral_const_mul' _ _ ENNReal.ofReal_ne_top]
    refine le_trans (lintegral_mono_ae ?_) (setLIntegral_le_lintegral V _)
    filter_upwards [ae_restrict_of_ae hw, ae_restrict_mem hVo.measurableSet] with x hx hxV
    have := hx (hVU hxV)
    rw [← ENNReal.ofReal_mul (by positivity)]
    refine ENNReal.ofReal_le_ofReal ?_
    rw [abs_mul] at this
    have hψ : 0 < |ψ x| := by
      by_contra h
      have h3 : |ψ x| = 0 := le_antisymm (not_lt.mp h) (abs_nonneg _)
      rw [h3, zero_mul] at this
      linarith
    rw [div_mul_eq_mul_div, one_mul, div_le_div_iff₀ hψ ha, Real.norm_eq_abs]
    linarith
  rw [htop] at h2
  exact absurd (top_le_iff.mp h2) (ENNReal.mul_lt_top ENNReal.ofReal_lt_top hfin).ne

/-- If `ψ² w` stays away from zero near a regular node of `ψ`, then `ψ² w²` is not integrable. -/
theorem not_integrable_node {ψ w : X → ℝ} {q : X} (hc : ContDiffAt ℝ 1 ψ q) (h0 : ψ q = 0)
    (h1 : fderiv ℝ ψ q ≠ 0) {a : ℝ} (ha : 0 < a) {U : Set X} (hU : U ∈ 𝓝 q)
    (hw : ∀ᵐ x ∂μ, x ∈ U → a ≤ |ψ x ^ 2 * w x|) : ¬Integrable (fun x => ψ x ^ 2 * w x ^ 2) μ := by
  intro hi
  have hfin := (hasFiniteIntegral_iff_ofReal (.of_forall fun x => by positivity)).mp hi.2
  obtain ⟨V, hVU, hVo, hqV⟩ := mem_nhds_iff.mp hU
  have htop := lintegral_node μ hc h0 h1 (hVo.mem_nhds hqV)
  have h2 : ∫⁻ x in V, ENNReal.ofReal (1 / ψ x ^ 2) ∂μ ≤
      ENNReal.ofReal (1 / a ^ 2) * ∫⁻ x, ENNReal.ofReal (ψ x ^ 2 * w x ^ 2) ∂μ := by
    rw [← lintegral_const_mul' _ _ ENNReal.ofReal_ne_top]
    refine le_trans (lintegral_mono_ae ?_) (setLIntegral_le_lintegral V _)
    filter_upwards [ae_restrict_of_ae hw, ae_restrict_mem hVo.measurableSet] with x hx hxV
    have := hx (hVU hxV)
    rw [← ENNReal.ofReal_mul (by positivity)]
    refine ENNReal.ofReal_le_ofReal ?_
    have hψ : ψ x ≠ 0 := by
      intro h
      rw [h] at this
      simp at this
      linarith
    have hψ2 : 0 < ψ x ^ 2 := by positivity
    have h3 : a ^ 2 ≤ (ψ x ^ 2 * w x) ^ 2 := by
      rw [← sq_abs (ψ x ^ 2 * w x)]
      exact pow_le_pow_left₀ ha.le this 2
    rw [div_mul_eq_mul_div, one_mul, div_le_div_iff₀ hψ2 (by positivity)]
    nlinarith
  rw [htop] at h2
  exact absurd (top_le_iff.mp h2) (ENNReal.mul_lt_top ENNReal.ofReal_lt_top hfin).ne

end Verif.Node
