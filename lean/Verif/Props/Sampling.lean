import Verif.Props.ParamGradient
import Verif.Lemmas.Fisher
import Mathlib.Probability.StrongLaw
import Mathlib.Probability.Independence.InfinitePi

/-! Averages over independent walkers converge. -/

namespace Verif.Props
open Verif.Energy Verif.Spec Verif.Updates MeasureTheory ProbabilityTheory Filter Topology

section
variable {Ω Q : Type*} [MeasurableSpace Ω] [MeasurableSpace Q] {P : Measure Ω} {X : ℕ → Ω → Q}
  {μ : Measure Q}

/-- Walkers `X 0, X 1, …` which are independent and distributed as `μ`. -/
structure IndependentWalkers (P : Measure Ω) (X : ℕ → Ω → Q) (μ : Measure Q) : Prop where
  measurable : ∀ i, Measurable (X i)
  law : ∀ i, P.map (X i) = μ
  indep : Pairwise fun i j => IndepFun (X i) (X j) P

/-- There are such walkers for every distribution. -/
theorem independent_walkers_exist (μ : Measure Q) [IsProbabilityMeasure μ] :
    IndependentWalkers (Measure.infinitePi fun _ : ℕ => μ) (fun i (ω : ℕ → Q) => ω i) μ where
  measurable i := measurable_pi_apply i
  law i := (measurePreserving_eval_infinitePi (fun _ : ℕ => μ) i).map_eq
  indep _ _ hij := (iIndepFun_infinitePi (P := fun _ : ℕ => μ) (X := fun _ (x : Q) => x)
    fun _ => measurable_id).indepFun hij

/-- Averages over the first walkers converge to the mean. -/
theorem average_tendsto (h : IndependentWalkers P X μ) {f : Q → ℝ} (hf : Integrable f μ) :
    ∀ᵐ ω ∂P, Tendsto (fun N : ℕ => (∑ i ∈ Finset.range N, f (X i ω)) / N) atTop
      (𝓝 (∫ x, f x ∂μ)) := by
  obtain ⟨f', hf', hff⟩ := hf.aestronglyMeasurable
  have hm := hf'.measurable
  have hint : Integrable f' μ := hf.congr hff
  have hX : ∀ i, Integrable (fun ω => f' (X i ω)) P := fun i => by
    rw [← h.law i] at hint
    exact hint.comp_measurable (h.measurable i)
  have hsame : ∀ i, IdentDistrib (fun ω => f' (X i ω)) (fun ω => f' (X 0 ω)) P P := fun i =>
    IdentDistrib.comp ⟨(h.measurable i).aemeasurable, (h.measurable 0).aemeasurable,
      by rw [h.law, h.law]⟩ hm
  have hlaw := strong_law_ae_real (fun i ω => f' (X i ω)) (hX 0)
    (fun i j hij => (h.indep hij).comp hm hm) hsame
  have hmean : ∫ ω, f' (X 0 ω) ∂P = ∫ x, f x ∂μ := by
    rw [integral_congr_ae hff, ← h.law 0, integral_map (h.measurable 0).aemeasurable
      (by rw [h.law]; exact hint.aestronglyMeasurable)]
  have hae : ∀ᵐ ω ∂P, ∀ i, f (X i ω) = f' (X i ω) := ae_all_iff.2 fun i => by
    rw [← h.law i] at hff
    exact ae_of_ae_map (h.measurable i).aemeasurable hff
  filter_upwards [hlaw, hae] with ω h1 h2
  simp only [h2]
  rw [← hmean]
  exact h1

/-- The walkers `x 0, x 1, …` on `D` devices with `n` walkers each. -/
def onDevices {α : Type*} (x : ℕ → α) (D n : ℕ) (d : Fin D) (i : Fin n) : α := x (d * n + i)

theorem sum_onDevices (f : ℕ → ℝ) (D n : ℕ) :
    ∑ d, ∑ i, onDevices f D n d i = ∑ j ∈ Finset.range (D * n), f j := by
  rw [Finset.sum_range, ← finProdFinEquiv.sum_comp, Fintype.sum_prod_type]
  refine Finset.sum_congr rfl fun d _ => Finset.sum_congr rfl fun i _ => ?_
  unfold onDevices
  congr 1
  simp only [finProdFinEquiv_apply_val]
  ring

theorem walkerMean_onDevices (f : ℕ → ℝ) (D n : ℕ) :
    Spec.walkerMean (onDevices f D n) = (∑ j ∈ Finset.range (D * n), f j) / (D * n : ℕ) := by
  unfold Spec.walkerMean
  rw [sum_onDevices]

theorem walkerCov_of_means {D n : ℕ} (hD : 0 < D) (hn : 0 < n) (f g : Fin D → Fin n → ℝ) :
    walkerCov f g = Spec.walkerMean (fun d i => f d i * g d i) - Spec.walkerMean f * Spec.walkerMean g := by
  have h0 : ((D * n : ℕ) : ℝ) ≠ 0 := by positivity
  unfold walkerCov
  generalize hf : Spec.walkerMean f = a
  generalize hg : Spec.walkerMean g = b
  unfold Spec.walkerMean at hf hg ⊢
  have e : ∀ d i, (f d i - a) * (g d i - b) = f d i * g d i - b * f d i - a * g d i + a * b :=
    fun d i => by ring
  simp only [e, Finset.sum_add_distrib, Finset.sum_sub_distrib, ← Finset.mul_sum, Finset.sum_const,
    Finset.card_univ, Fintype.card_fin, nsmul_eq_mul]
  rw [div_eq_iff h0] at hf hg
  rw [hf, hg]
  push_cast at h0 ⊢
  field_simp
  ring

theorem tendsto_mul_atTop {D : ℕ} (hD : 0 < D) : Tendsto (fun n : ℕ => D * n) atTop atTop :=
  tendsto_id.const_mul_atTop' hD

/-- With more and more walkers the damped Fisher matrix converges. -/
theorem fisher_tendsto {K : Type*} [DecidableEq K] [Finite K] (h : IndependentWalkers P X μ) {D : ℕ}
    (hD : 0 < D) (damping : ℝ) {O : Q → K → ℝ} (h1 : ∀ k, Integrable (fun x => O x k) μ)
    (h2 : ∀ k l, Integrable (fun x => O x k * O x l) μ) :
    ∀ᵐ ω ∂P, ∀ k l, Tendsto (fun n => dampedFisher damping
        (onDevices (fun i => O (X i ω)) D n) k l) atTop
      (𝓝 ((∫ x, O x k * O x l ∂μ) - (∫ x, O x k ∂μ) * (∫ x, O x l ∂μ) +
        if k = l then damping else 0)) := by
  refine ae_all_iff.2 fun k => ae_all_iff.2 fun l => ?_
  filter_upwards [average_tendsto h (h1 k), average_tendsto h (h1 l),
    average_tendsto h (h2 k l)] with ω t1 t2 t3
  have t := ((t3.sub (t1.mul t2)).comp (tendsto_mul_atTop hD)).add_const
    (if k = l then damping else 0)
  refine t.congr' ?_
  filter_upwards [eventually_gt_atTop 0] with n hn
  unfold dampedFisher fisher
  rw [walkerCov_smul]
  rw [walkerCov_of_means hD hn]
  have e1 : ∀ k, (fun d i => onDevices (fun i => O (X i ω)) D n d i k) =
      onDevices (fun i => O (X i ω) k) D n := fun k => rfl
  have e2 : (fun d i => onDevices (fun i => O (X i ω)) D n d i k *
      onDevices (fun i => O (X i ω)) D n d i l) =
      onDevices (fun i => O (X i ω) k * O (X i ω) l) D n := rfl
  rw [e2, e1, e1, walkerMean_onDevices, walkerMean_onDevices, walkerMean_onDevices]
  simp only [Function.comp]
  ring

/-- With more and more walkers the estimate of the gradient converges. -/
theorem covGrad_tendsto (h : IndependentWalkers P X μ) {e g : Q → ℝ} (he : Integrable e μ)
    (hg : Integrable g μ) (heg : Integrable (fun x => e x * g x) μ) :
    ∀ᵐ ω ∂P, Tendsto (fun N : ℕ => covGrad (walkerPairs e g fun i : Fin N => X i ω)) atTop
      (𝓝 (2 * ((∫ x, e x * g x ∂μ) - (∫ x, e x ∂μ) * ∫ x, g x ∂μ))) := by
  filter_upwards [average_tendsto h he, average_tendsto h hg, average_tendsto h heg] with ω t1 t2 t3
  have t4 : Tendsto (fun N : ℕ => 2 * (1 + 1 / ((N : ℝ) - 1))) atTop (𝓝 (2 * (1 + 0))) := by
    refine (tendsto_const_nhds.add ?_).const_mul 2
    have : Tendsto (fun N : ℕ => ((N : ℝ) - 1)) atTop atTop :=
      tendsto_atTop_add_const_right _ (-1) tendsto_natCast_atTop_atTop
    simpa only [one_div, Function.comp_def] using tendsto_inv_atTop_zero.comp this
  have t := t4.mul (t3.sub (t1.mul t2))
  rw [show (2 : ℝ) * (1 + 0) = 2 by norm_num] at t
  refine t.congr' ?_
  filter_upwards [eventually_ge_atTop 2] with N hN
  have hN2 : (2 : ℝ) ≤ N := by exact_mod_cast hN
  have hN1 : ((N : ℝ) - 1) ≠ 0 := by linarith
  have hN0 : (N : ℝ) ≠ 0 := by linarith
  rw [covGrad_pairs, ← Finset.sum_mul_sum, Finset.sum_range, Finset.sum_range, Finset.sum_range]
  field_simp
  ring

/-- Averages over the walkers of one device converge as well. -/
theorem device_average_tendsto (h : IndependentWalkers P X μ) {f : Q → ℝ} (hf : Integrable f μ)
    (D : ℕ) : ∀ᵐ ω ∂P, ∀ d : Fin D, Tendsto (fun n : ℕ =>
      (∑ i, onDevices (fun i => f (X i ω)) D n d i) / n) atTop (𝓝 (∫ x, f x ∂μ)) := by
  filter_upwards [average_tendsto h hf] with ω hω d
  set s : ℕ → ℝ := fun N => ∑ i ∈ Finset.range N, f (X i ω)
  have hm : ∀ a : ℕ, Tendsto (fun n : ℕ => s (a * n) / n) atTop (𝓝 (a * ∫ x, f x ∂μ)) := by
    intro a
    rcases Nat.eq_zero_or_pos a with rfl | ha
    · simp [s]
    · refine ((hω.comp (tendsto_mul_atTop ha)).const_mul (a : ℝ)).congr' ?_
      filter_upwards [eventually_gt_atTop 0] with n hn
      have : (a : ℝ) ≠ 0 := by positivity
      have : (n : ℝ) ≠ 0 := by positivity
      simp only [Function.comp, s]
      push_cast
      field_simp
  have ht := (hm (d + 1)).sub (hm d)
  have e : ((d.val + 1 : ℕ) : ℝ) * ∫ x, f x ∂μ = d.val * (∫ x, f x ∂μ) + ∫ x, f x ∂μ := by
    push_cast
    ring
  rw [e, add_sub_cancel_left] at ht
  refine ht.congr fun n => ?_
  rw [← sub_div]
  congr 1
  have : s ((d.val + 1) * n) = s (d.val * n) + ∑ i : Fin n, f (X (d * n + i) ω) := by
    rw [add_mul, one_mul]
    simp only [s]
    rw [Finset.sum_range_add, Finset.sum_range (fun i => f (X (d.val * n + i) ω))]
  rw [this, add_sub_cancel_left]
  rfl

end

end Verif.Props
