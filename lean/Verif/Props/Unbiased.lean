import Verif.Props.Gradient
import Verif.Spec.Variational
import Mathlib.Probability.Independence.Integration
import Mathlib.Analysis.Calculus.ParametricIntegral
import Mathlib.Analysis.Calculus.Deriv.Inv
import Mathlib.Analysis.SpecialFunctions.Log.Deriv

/-! C71: energy, variance and gradient estimates are unbiased. -/

namespace Verif.Props

open Verif.Energy Verif.Spec MeasureTheory ProbabilityTheory

section Sample
variable {X : Type*} [MeasurableSpace X] {μ : Measure X} [IsProbabilityMeasure μ] {N : ℕ}

theorem integrable_eval {f : X → ℝ} (hf : Integrable f μ) (i : Fin N) :
    Integrable (fun x : Fin N → X => f (x i)) (Measure.pi fun _ => μ) :=
  (measurePreserving_eval (fun _ : Fin N => μ) i).integrable_comp_of_integrable hf

theorem integral_eval {f : X → ℝ} (hf : Integrable f μ) (i : Fin N) :
    ∫ x : Fin N → X, f (x i) ∂(Measure.pi fun _ => μ) = ∫ x, f x ∂μ := by
  have h := measurePreserving_eval (fun _ : Fin N => μ) i
  have h2 := integral_map h.measurable.aemeasurable (f := f)
    (by rw [h.map_eq]; exact hf.aestronglyMeasurable)
  rw [h.map_eq] at h2
  exact h2.symm

theorem indep_eval {f g : X → ℝ} (hf : Integrable f μ) (hg : Integrable g μ) {i j : Fin N}
    (hij : i ≠ j) :
    IndepFun (fun x : Fin N → X => f (x i)) (fun x => g (x j)) (Measure.pi fun _ => μ) := by
  have h := iIndepFun_pi (μ := fun _ : Fin N => μ) (X := fun k => if k = i then f else g)
    (fun k => by by_cases hk : k = i <;> simp [hk, hf.aemeasurable, hg.aemeasurable])
  have h2 := h.indepFun hij
  simpa [hij.symm] using h2

theorem integral_eval_mul {f g : X → ℝ} (hf : Integrable f μ) (hg : Integrable g μ)
    (hfg : Integrable (fun x => f x * g x) μ) (i j : Fin N) :
    Integrable (fun x : Fin N → X => f (x i) * g (x j)) (Measure.pi fun _ => μ) ∧
    ∫ x : Fin N → X, f (x i) * g (x j) ∂(Measure.pi fun _ => μ) =
      if i = j then ∫ x, f x * g x ∂μ else (∫ x, f x ∂μ) * ∫ x, g x ∂μ := by
  by_cases hij : i = j
  · subst hij
    simp only [if_true]
    exact ⟨integrable_eval hfg i, integral_eval hfg i⟩
  · simp only [hij, if_false]
    have hi := indep_eval (N := N) hf hg hij
    refine ⟨hi.integrable_mul (integrable_eval hf i) (integrable_eval hg j), ?_⟩
    rw [hi.integral_fun_mul_eq_mul_integral (integrable_eval hf i).aestronglyMeasurable
      (integrable_eval hg j).aestronglyMeasurable, integral_eval hf, integral_eval hg]

/-- The values of the walkers as a list of pairs. -/
def walkerPairs (f g : X → ℝ) (x : Fin N → X) : List (ℝ × ℝ) := List.ofFn fun i => (f (x i), g (x i))

omit [MeasurableSpace X] in
theorem covGrad_pairs (f g : X → ℝ) (x : Fin N → X) :
    covGrad (walkerPairs f g x) = 2 / ((N : ℝ) - 1) *
      ((∑ i, f (x i) * g (x i)) - (∑ i, ∑ j, f (x i) * g (x j)) / N) := by
  unfold covGrad walkerPairs avgL
  rw [List.map_ofFn, List.map_ofFn, List.sum_ofFn, List.sum_ofFn, List.length_ofFn,
    List.length_ofFn]
  congr 1
  simp only [Function.comp, sub_mul, Finset.sum_sub_distrib]
  congr 1
  rw [← Finset.mul_sum, ← Finset.sum_mul_sum]
  ring

theorem integrable_covGrad {f g : X → ℝ} (hf : Integrable f μ) (hg : Integrable g μ)
    (hfg : Integrable (fun x => f x * g x) μ) :
    Integrable (fun x : Fin N → X => covGrad (walkerPairs f g x)) (Measure.pi fun _ => μ) := by
  simp only [covGrad_pairs]
  refine Integrable.const_mul (Integrable.sub ?_ ?_) _
  · exact integrable_finsetSum _ fun i _ => (integral_eval_mul hf hg hfg i i).1
  · refine Integrable.div_const ?_ _
    exact integrable_finsetSum _ fun i _ => integrable_finsetSum _ fun j _ =>
      (integral_eval_mul hf hg hfg i j).1

/-- The estimator of C33 has expectation twice the covariance. -/
theorem expected_covGrad (hN : 2 ≤ N) {f g : X → ℝ} (hf : Integrable f μ) (hg : Integrable g μ)
    (hfg : Integrable (fun x => f x * g x) μ) :
    ∫ x : Fin N → X, covGrad (walkerPairs f g x) ∂(Measure.pi fun _ => μ) =
      2 * ((∫ x, f x * g x ∂μ) - (∫ x, f x ∂μ) * ∫ x, g x ∂μ) := by
  have hN1 : ((N : ℝ) - 1) ≠ 0 := by
    have : (2 : ℝ) ≤ N := by exact_mod_cast hN
    linarith
  have hN0 : (N : ℝ) ≠ 0 := by
    have : (2 : ℝ) ≤ N := by exact_mod_cast hN
    linarith
  simp only [covGrad_pairs]
  rw [integral_const_mul, integral_sub
    (integrable_finsetSum _ fun i _ => (integral_eval_mul hf hg hfg i i).1)
    (Integrable.div_const (integrable_finsetSum _ fun i _ => integrable_finsetSum _ fun j _ =>
      (integral_eval_mul hf hg hfg i j).1) _), integral_div,
    integral_finsetSum _ fun i _ => (integral_eval_mul hf hg hfg i i).1,
    integral_finsetSum _ fun i _ => integrable_finsetSum _ fun j _ =>
      (integral_eval_mul hf hg hfg i j).1]
  have h1 : ∀ i : Fin N, ∫ x : Fin N → X, ∑ j, f (x i) * g (x j) ∂(Measure.pi fun _ => μ) =
      (∫ x, f x * g x ∂μ) + ((N : ℝ) - 1) * ((∫ x, f x ∂μ) * ∫ x, g x ∂μ) := fun i => by
    rw [integral_finsetSum _ fun j _ => (integral_eval_mul hf hg hfg i j).1]
    simp only [(integral_eval_mul hf hg hfg i _).2]
    rw [← Finset.add_sum_erase _ _ (Finset.mem_univ i)]
    simp only [if_true]
    congr 1
    rw [Finset.sum_congr rfl fun j hj => if_neg (Finset.ne_of_mem_erase hj).symm]
    rw [Finset.sum_const, Finset.card_erase_of_mem (Finset.mem_univ i), Finset.card_univ,
      Fintype.card_fin, nsmul_eq_mul, Nat.cast_sub (by omega)]
    simp
  simp only [h1, (integral_eval_mul hf hg hfg _ _).2, if_true, Finset.sum_const, Finset.card_univ,
    Fintype.card_fin, nsmul_eq_mul]
  field_simp
  ring

/-- The sum of the estimator of C33 and the average of `e'` has a mean if `2 e g + e'` has one, even if
its parts have none: the products of values of one walker enter with the same factor `1/N` in both. -/
theorem expected_generic (hN : 2 ≤ N) {e g e' : X → ℝ} (he : Integrable e μ) (hg : Integrable g μ)
    (h : Integrable (fun x => 2 * (e x * g x) + e' x) μ) :
    Integrable (fun x : Fin N → X => covGrad (walkerPairs e g x) + (∑ i, e' (x i)) / N)
      (Measure.pi fun _ => μ) ∧
    ∫ x : Fin N → X, (covGrad (walkerPairs e g x) + (∑ i, e' (x i)) / N) ∂(Measure.pi fun _ => μ) =
      (∫ x, (2 * (e x * g x) + e' x) ∂μ) - 2 * ((∫ x, e x ∂μ) * ∫ x, g x ∂μ) := by
  have hN2 : (2 : ℝ) ≤ N := by exact_mod_cast hN
  have hN1 : ((N : ℝ) - 1) ≠ 0 := by linarith
  have hN0 : (N : ℝ) ≠ 0 := by linarith
  have e1 : ∀ x : Fin N → X, covGrad (walkerPairs e g x) + (∑ i, e' (x i)) / N =
      (∑ i, (2 * (e (x i) * g (x i)) + e' (x i))) / N -
        2 / (((N : ℝ) - 1) * N) * ∑ i, ∑ j ∈ Finset.univ.erase i, e (x i) * g (x j) := by
    intro x
    rw [covGrad_pairs]
    have : ∑ i, ∑ j, e (x i) * g (x j) = (∑ i, e (x i) * g (x i)) +
        ∑ i, ∑ j ∈ Finset.univ.erase i, e (x i) * g (x j) := by
      rw [← Finset.sum_add_distrib]
      exact Finset.sum_congr rfl fun i _ => (Finset.add_sum_erase _ _ (Finset.mem_univ i)).symm
    rw [this, Finset.sum_add_distrib, ← Finset.mul_sum]
    field_simp
    ring
  have hij : ∀ i j : Fin N, i ≠ j → Integrable (fun x : Fin N → X => e (x i) * g (x j))
      (Measure.pi fun _ => μ) := fun i j hij =>
    (indep_eval he hg hij).integrable_mul (integrable_eval he i) (integrable_eval hg j)
  have i1 : Integrable (fun x : Fin N → X => (∑ i, (2 * (e (x i) * g (x i)) + e' (x i))) / (N : ℝ))
      (Measure.pi fun _ => μ) :=
    (integrable_finsetSum _ fun i _ => integrable_eval h i).div_const _
  have i2 : ∀ i, Integrable (fun x : Fin N → X => ∑ j ∈ Finset.univ.erase i, e (x i) * g (x j))
      (Measure.pi fun _ => μ) := fun i =>
    integrable_finsetSum _ fun j hj => hij i j (Finset.ne_of_mem_erase hj).symm
  have i3 : Integrable (fun x : Fin N → X => 2 / (((N : ℝ) - 1) * N) *
      ∑ i, ∑ j ∈ Finset.univ.erase i, e (x i) * g (x j)) (Measure.pi fun _ => μ) :=
    (integrable_finsetSum _ fun i _ => i2 i).const_mul _
  simp only [e1]
  refine ⟨i1.sub i3, ?_⟩
  rw [integral_sub i1 i3, integral_div, integral_finsetSum _ fun i _ => integrable_eval h i,
    integral_const_mul, integral_finsetSum _ fun i _ => i2 i]
  have h1 : ∀ i : Fin N, ∫ x : Fin N → X, ∑ j ∈ Finset.univ.erase i, e (x i) * g (x j)
      ∂(Measure.pi fun _ => μ) = ((N : ℝ) - 1) * ((∫ x, e x ∂μ) * ∫ x, g x ∂μ) := fun i => by
    rw [integral_finsetSum _ fun j hj => hij i j (Finset.ne_of_mem_erase hj).symm]
    rw [Finset.sum_congr rfl fun j hj =>
      (indep_eval (N := N) he hg (Finset.ne_of_mem_erase hj).symm).integral_fun_mul_eq_mul_integral
        (integrable_eval he i).aestronglyMeasurable (integrable_eval hg j).aestronglyMeasurable]
    simp only [integral_eval he, integral_eval hg]
    rw [Finset.sum_const, Finset.card_erase_of_mem (Finset.mem_univ i), Finset.card_univ,
      Fintype.card_fin, nsmul_eq_mul, Nat.cast_sub (by omega)]
    simp
  simp only [h1, integral_eval h, Finset.sum_const, Finset.card_univ, Fintype.card_fin, nsmul_eq_mul]
  field_simp

/-- C71: the reported energy and variance are unbiased estimates of mean and variance of the local
energy, for every number of walkers and every layout. -/
theorem energy_estimates_unbiased {e : X → ℝ} (he : Integrable e μ)
    (he2 : Integrable (fun x => e x * e x) μ) (hN : 2 ≤ N) (nanSafe : Bool) :
    ∃ A V : (Fin N → X) → ℝ,
      (∀ x rows n, IsLayout (List.ofFn fun i => e (x i)) rows n →
        getStatistics (rows.map fun r => r.map XR.fin) N nanSafe = (.fin (A x), .fin (V x))) ∧
      Integrable A (Measure.pi fun _ => μ) ∧ Integrable V (Measure.pi fun _ => μ) ∧
      ∫ x, A x ∂(Measure.pi fun _ => μ) = ∫ x, e x ∂μ ∧
      ∫ x, V x ∂(Measure.pi fun _ => μ) = (∫ x, e x * e x ∂μ) - (∫ x, e x ∂μ) ^ 2 := by
  have hN0 : (N : ℝ) ≠ 0 := by
    have : (2 : ℝ) ≤ N := by exact_mod_cast hN
    linarith
  have hV : ∀ x : Fin N → X, sampleVar (List.ofFn fun i => e (x i)) =
      covGrad (walkerPairs e e x) / 2 := fun x => by
    rw [covGrad_eq_cov]
    unfold sampleCov sampleVar walkerPairs
    simp only [List.map_ofFn, List.length_ofFn, Function.comp_def]
    have : ∀ a b : ℝ, (a - b) ^ 2 = (a - b) * (a - b) := fun a b => sq _
    simp only [this]
    ring
  refine ⟨fun x => (∑ i, e (x i)) / N, fun x => covGrad (walkerPairs e e x) / 2, fun x rows n hl => ?_,
    (integrable_finsetSum _ fun i _ => integrable_eval he i).div_const _,
    (integrable_covGrad he he he2).div_const _, ?_, ?_⟩
  · have h := energy_statistics _ rows n nanSafe hl (by simpa using hN)
    rw [List.length_ofFn] at h
    rw [h, hV]
    unfold avgL
    rw [List.sum_ofFn, List.length_ofFn]
  · rw [integral_div, integral_finsetSum _ fun i _ => integrable_eval he i]
    simp only [integral_eval he, Finset.sum_const, Finset.card_univ, Fintype.card_fin, nsmul_eq_mul]
    field_simp
  · rw [integral_div, expected_covGrad hN he he he2]
    ring

end Sample

section Derivative
variable {X : Type*} [MeasurableSpace X] {ν : Measure X}

theorem density_nonneg (ψ : X → ℝ) (x : X) : 0 ≤ ψ x ^ 2 / ∫ y, ψ y ^ 2 ∂ν :=
  div_nonneg (sq_nonneg _) (integral_nonneg fun _ => sq_nonneg _)

theorem integral_born₀ {ψ : X → ℝ} (hψ : AEMeasurable ψ ν) (f : X → ℝ) :
    ∫ x, f x ∂(born ν ψ) = (∫ x, ψ x ^ 2 * f x ∂ν) / ∫ x, ψ x ^ 2 ∂ν := by
  unfold born
  rw [integral_withDensity_eq_integral_toReal_smul₀
    (((hψ.pow_const 2).div_const _).ennreal_ofReal) (by simp)]
  rw [← integral_div]
  refine integral_congr_ae (.of_forall fun x => ?_)
  simp only [ENNReal.toReal_ofReal (density_nonneg ψ x), smul_eq_mul]
  ring

theorem integral_born {ψ : X → ℝ} (hψ : Measurable ψ) (f : X → ℝ) :
    ∫ x, f x ∂(born ν ψ) = (∫ x, ψ x ^ 2 * f x ∂ν) / ∫ x, ψ x ^ 2 ∂ν :=
  integral_born₀ hψ.aemeasurable f

theorem integrable_born₀ {ψ : X → ℝ} (hψ : AEMeasurable ψ ν) (hZ : (∫ x, ψ x ^ 2 ∂ν) ≠ 0)
    {f : X → ℝ} : Integrable f (born ν ψ) ↔ Integrable (fun x => ψ x ^ 2 * f x) ν := by
  unfold born
  rw [integrable_withDensity_iff_integrable_smul₀'
    (((hψ.pow_const 2).div_const _).ennreal_ofReal) (by simp)]
  have e : (fun x => (ENNReal.ofReal (ψ x ^ 2 / ∫ y, ψ y ^ 2 ∂ν)).toReal • f x) =
      fun x => (ψ x ^ 2 * f x) * (∫ y, ψ y ^ 2 ∂ν)⁻¹ := by
    funext x
    simp only [ENNReal.toReal_ofReal (density_nonneg ψ x), smul_eq_mul]
    ring
  rw [e]
  exact integrable_mul_const_iff (IsUnit.mk0 _ (inv_ne_zero hZ)) _

theorem integrable_born {ψ : X → ℝ} (hψ : Measurable ψ) (hZ : (∫ x, ψ x ^ 2 ∂ν) ≠ 0) {f : X → ℝ} :
    Integrable f (born ν ψ) ↔ Integrable (fun x => ψ x ^ 2 * f x) ν :=
  integrable_born₀ hψ.aemeasurable hZ

theorem isProbabilityMeasure_born {ψ : X → ℝ} (hi : Integrable (fun x => ψ x ^ 2) ν)
    (hZ : (∫ x, ψ x ^ 2 ∂ν) ≠ 0) : IsProbabilityMeasure (born ν ψ) := by
  constructor
  unfold born
  rw [withDensity_apply _ MeasurableSet.univ, Measure.restrict_univ,
    ← ofReal_integral_eq_lintegral_ofReal (hi.div_const _) (.of_forall (density_nonneg ψ)),
    integral_div, div_self hZ]
  simp

/-- C71: the derivative of the expected energy with respect to a parameter, for an arbitrary local
energy. -/
theorem expectedEnergy_hasDerivAt_sum {ψ e : ℝ → X → ℝ} {θ₀ : ℝ} (h : SmoothFamily ν ψ e θ₀)
    {g e' : X → ℝ} (hg : ∀ᵐ x ∂ν, HasDerivAt (fun θ => Real.log |ψ θ x|) (g x) θ₀)
    (he' : ∀ᵐ x ∂ν, HasDerivAt (fun θ => e θ x) (e' x) θ₀) :
    Integrable g (born ν (ψ θ₀)) ∧
    Integrable (fun x => 2 * (e θ₀ x * g x) + e' x) (born ν (ψ θ₀)) ∧
    HasDerivAt (fun θ => expectedEnergy ν (ψ θ) (e θ))
      ((∫ x, (2 * (e θ₀ x * g x) + e' x) ∂(born ν (ψ θ₀))) -
        2 * ((∫ x, e θ₀ x ∂(born ν (ψ θ₀))) * ∫ x, g x ∂(born ν (ψ θ₀)))) θ₀ := by
  obtain ⟨s, hs, A, w', a', bound, hA, hA₀, mw, ma, hb, hd⟩ := h.dominated
  have hZ : (∫ x, ψ θ₀ x ^ 2 ∂ν) ≠ 0 := h.norm_pos.ne'
  have m0 := h.measurable.self_of_nhds
  have dZ := hasDerivAt_integral_of_dominated_loc_of_deriv_le (F := fun θ x => ψ θ x ^ 2) hs
    (h.measurable.mono fun θ hθ => (hθ.pow_const 2).aestronglyMeasurable) h.normalisable mw
    (hd.mono fun x hx θ hθ => (hx θ hθ).2.2.1) hb (hd.mono fun x hx θ hθ => (hx θ hθ).1)
  have dA := hasDerivAt_integral_of_dominated_loc_of_deriv_le
    (F := A) hs (h.measurable_energy.mp (Filter.mem_of_superset hs fun θ hθ hm => hm.congr (hA θ hθ)))
    (h.integrable_energy.congr (hA θ₀ (mem_of_mem_nhds hs))) ma
    (hd.mono fun x hx θ hθ => (hx θ hθ).2.2.2) hb (hd.mono fun x hx θ hθ => (hx θ hθ).2.1)
  have ew : ∀ᵐ x ∂ν, w' θ₀ x = 2 * (ψ θ₀ x ^ 2 * g x) := by
    filter_upwards [hd, hg, h.ne_zero] with x hx hgx hne
    have h1 := (hx θ₀ (mem_of_mem_nhds hs)).1.log (pow_ne_zero 2 hne)
    have h2 : (fun θ => Real.log (ψ θ x ^ 2)) = fun θ => 2 * Real.log |ψ θ x| := by
      funext θ
      rw [Real.log_pow, Real.log_abs]
      norm_num
    rw [h2] at h1
    have h3 := h1.unique (hgx.const_mul 2)
    have hp : ψ θ₀ x ^ 2 ≠ 0 := pow_ne_zero 2 hne
    field_simp at h3
    linarith
  have ea : ∀ᵐ x ∂ν, a' θ₀ x = ψ θ₀ x ^ 2 * (2 * (e θ₀ x * g x) + e' x) := by
    filter_upwards [hd, he', ew, hA₀] with x hx hex hwx hAx
    have h1 := (hx θ₀ (mem_of_mem_nhds hs)).1.mul hex
    have h3 := ((hx θ₀ (mem_of_mem_nhds hs)).2.1.congr_of_eventuallyEq hAx).unique h1
    rw [h3, hwx]
    ring
  refine ⟨(integrable_born₀ m0 hZ).mpr ?_, (integrable_born₀ m0 hZ).mpr (dA.1.congr ea), ?_⟩
  · refine ((dZ.1.congr ew).const_mul (1 / 2)).congr (.of_forall fun x => ?_)
    simp only
    ring
  have key := dA.2.div dZ.2 hZ
  have e1 : (fun θ => expectedEnergy ν (ψ θ) (e θ)) =ᶠ[nhds θ₀] fun θ =>
      (∫ x, A θ x ∂ν) / ∫ x, ψ θ x ^ 2 ∂ν := by
    filter_upwards [h.measurable, hs] with θ hθ hθs
    rw [← integral_congr_ae (hA θ hθs)]
    exact integral_born₀ hθ _
  refine (key.congr_of_eventuallyEq e1).congr_deriv ?_
  rw [integral_congr_ae ew, integral_congr_ae ea, integral_const_mul,
    ← integral_congr_ae (hA θ₀ (mem_of_mem_nhds hs))]
  simp only [integral_born₀ m0]
  field_simp

/-- The same if the two parts of the derivative have means. -/
theorem expectedEnergy_hasDerivAt {ψ e : ℝ → X → ℝ} {θ₀ : ℝ} (h : SmoothFamily ν ψ e θ₀)
    {g e' : X → ℝ} (hg : ∀ᵐ x ∂ν, HasDerivAt (fun θ => Real.log |ψ θ x|) (g x) θ₀)
    (he' : ∀ᵐ x ∂ν, HasDerivAt (fun θ => e θ x) (e' x) θ₀)
    (hieg : Integrable (fun x => e θ₀ x * g x) (born ν (ψ θ₀)))
    (hie' : Integrable e' (born ν (ψ θ₀))) :
    HasDerivAt (fun θ => expectedEnergy ν (ψ θ) (e θ))
      (2 * ((∫ x, e θ₀ x * g x ∂(born ν (ψ θ₀))) -
        (∫ x, e θ₀ x ∂(born ν (ψ θ₀))) * ∫ x, g x ∂(born ν (ψ θ₀))) +
        ∫ x, e' x ∂(born ν (ψ θ₀))) θ₀ := by
  refine (expectedEnergy_hasDerivAt_sum h hg he').2.2.congr_deriv ?_
  rw [integral_add (hieg.const_mul 2) hie', integral_const_mul]
  ring

end Derivative

section Estimators
variable {X : Type*} [MeasurableSpace X] {ν : Measure X} {K : Type*}

/-- C71: with any local energy, the integration-by-parts (generic) estimator is an unbiased estimate
of the derivative of the expected energy, for every number of walkers, every layout and every
parameter.  `θ` is the parameter with index `k`, the other parameters are fixed.  The products of local
energies and derivatives, and the derivatives of local energies, need not have means. -/
theorem generic_gradient_unbiased {ψ e : ℝ → X → ℝ} {θ₀ : ℝ} (h : SmoothFamily ν ψ e θ₀)
    (walker : X → RealWalker K) (k : K) (hwe : ∀ᵐ x ∂ν, (walker x).eloc = e θ₀ x)
    (hg : ∀ᵐ x ∂ν, HasDerivAt (fun θ => Real.log |ψ θ x|) ((walker x).gradLogPsi k) θ₀)
    (he' : ∀ᵐ x ∂ν, HasDerivAt (fun θ => e θ x) ((walker x).gradEloc k) θ₀)
    (N : ℕ) (hN : 2 ≤ N) (f : Option (List XR → XR → List XR)) (nanSafe : Bool) :
    ∃ G : (Fin N → X) → ℝ,
      (∀ x devs n, IsLayout (List.ofFn fun i => walker (x i)) devs n →
        meanGrad (valueAndGrad .ibp N f nanSafe (devs.map fun l => l.map RealWalker.toX)).2.2 k =
          .fin (G x)) ∧
      Integrable G (Measure.pi fun _ => born ν (ψ θ₀)) ∧
      HasDerivAt (fun θ => expectedEnergy ν (ψ θ) (e θ))
        (∫ x, G x ∂(Measure.pi fun _ => born ν (ψ θ₀))) θ₀ := by
  have hZ : (∫ x, ψ θ₀ x ^ 2 ∂ν) ≠ 0 := h.norm_pos.ne'
  have := isProbabilityMeasure_born h.normalisable hZ
  have hie : Integrable (e θ₀) (born ν (ψ θ₀)) :=
    (integrable_born₀ h.measurable.self_of_nhds hZ).mpr h.integrable_energy
  obtain ⟨hig, hsum, hder⟩ := expectedEnergy_hasDerivAt_sum h hg he'
  have hwe' : ∀ᵐ x ∂(born ν (ψ θ₀)), e θ₀ x = (walker x).eloc :=
    (withDensity_absolutelyContinuous ν _).ae_le (hwe.mono fun x hx => hx.symm)
  have hes : (fun x => 2 * (e θ₀ x * (walker x).gradLogPsi k) + (walker x).gradEloc k)
      =ᵐ[born ν (ψ θ₀)]
      fun x => 2 * ((walker x).eloc * (walker x).gradLogPsi k) + (walker x).gradEloc k :=
    hwe'.mono fun x hx => by simp only [hx]
  obtain ⟨hG, hmean⟩ := expected_generic hN (hie.congr hwe') hig (hsum.congr hes)
  rw [← integral_congr_ae hwe', ← integral_congr_ae hes] at hmean
  refine ⟨fun x => covGrad (walkerPairs (fun x => (walker x).eloc) (fun x => (walker x).gradLogPsi k) x) +
    (∑ i, (walker (x i)).gradEloc k) / N, fun x devs n hl => ?_, hG, hder.congr_deriv hmean.symm⟩
  · have := gradient_generic nanSafe f _ devs n hl (by simpa using hN) k
    rw [List.length_ofFn] at this
    rw [this]
    congr 2
    · unfold walkerPairs
      rw [List.map_ofFn]
      rfl
    · unfold avgL
      rw [List.map_ofFn, List.sum_ofFn, List.length_ofFn]
      rfl

/-- For the local energy `Hψ/ψ` of a symmetric operator the mean of its parameter derivative
vanishes. -/
theorem mean_eloc_derivative_zero {ψ : ℝ → X → ℝ} {H : (X → ℝ) → X → ℝ} {θ₀ : ℝ}
    (hm : AEMeasurable (ψ θ₀) ν) (hZ : (∫ x, ψ θ₀ x ^ 2 ∂ν) ≠ 0) (hne : ∀ᵐ x ∂ν, ψ θ₀ x ≠ 0)
    {ψ' : X → ℝ} (hψ' : ∀ᵐ x ∂ν, HasDerivAt (fun θ => ψ θ x) (ψ' x) θ₀)
    (hHψ' : ∀ᵐ x ∂ν, HasDerivAt (fun θ => H (ψ θ) x) (H ψ' x) θ₀)
    (hi1 : Integrable (fun x => ψ θ₀ x * H ψ' x) ν) (hi2 : Integrable (fun x => ψ' x * H (ψ θ₀) x) ν)
    (hsymm : ∫ x, ψ θ₀ x * H ψ' x ∂ν = ∫ x, ψ' x * H (ψ θ₀) x ∂ν) :
    (∀ᵐ x ∂ν, HasDerivAt (fun θ => H (ψ θ) x / ψ θ x)
      ((H ψ' x * ψ θ₀ x - H (ψ θ₀) x * ψ' x) / ψ θ₀ x ^ 2) θ₀) ∧
    Integrable (fun x => (H ψ' x * ψ θ₀ x - H (ψ θ₀) x * ψ' x) / ψ θ₀ x ^ 2) (born ν (ψ θ₀)) ∧
    ∫ x, (H ψ' x * ψ θ₀ x - H (ψ θ₀) x * ψ' x) / ψ θ₀ x ^ 2 ∂(born ν (ψ θ₀)) = 0 := by
  have e : (fun x => ψ θ₀ x * H ψ' x - ψ' x * H (ψ θ₀) x) =ᵐ[ν]
      fun x => ψ θ₀ x ^ 2 * ((H ψ' x * ψ θ₀ x - H (ψ θ₀) x * ψ' x) / ψ θ₀ x ^ 2) := by
    filter_upwards [hne] with x hx
    field_simp
  refine ⟨?_, ?_, ?_⟩
  · filter_upwards [hψ', hHψ', hne] with x h1 h2 h3
    exact h2.div h1 h3
  · rw [integrable_born₀ hm hZ]
    exact (hi1.sub hi2).congr e
  · rw [integral_born₀ hm, ← integral_congr_ae e, integral_sub hi1 hi2, hsymm, sub_self, zero_div]

/-- C71: with the local energy `Hψ/ψ` of a symmetric operator, the standard estimator without
clipping is an unbiased estimate of the derivative of the expected energy. -/
theorem standard_gradient_unbiased {ψ : ℝ → X → ℝ} {H : (X → ℝ) → X → ℝ} {θ₀ : ℝ}
    (h : SmoothFamily ν ψ (fun θ x => H (ψ θ) x / ψ θ x) θ₀)
    {ψ' : X → ℝ} (hψ' : ∀ᵐ x ∂ν, HasDerivAt (fun θ => ψ θ x) (ψ' x) θ₀)
    (hHψ' : ∀ᵐ x ∂ν, HasDerivAt (fun θ => H (ψ θ) x) (H ψ' x) θ₀)
    (hi1 : Integrable (fun x => ψ θ₀ x * H ψ' x) ν) (hi2 : Integrable (fun x => ψ' x * H (ψ θ₀) x) ν)
    (hsymm : ∫ x, ψ θ₀ x * H ψ' x ∂ν = ∫ x, ψ' x * H (ψ θ₀) x ∂ν)
    (walker : X → RealWalker K) (k : K) (hwe : ∀ x, (walker x).eloc = H (ψ θ₀) x / ψ θ₀ x)
    (hg : ∀ᵐ x ∂ν, HasDerivAt (fun θ => Real.log |ψ θ x|) ((walker x).gradLogPsi k) θ₀)
    (hig : Integrable (fun x => (walker x).gradLogPsi k) (born ν (ψ θ₀)))
    (hieg : Integrable (fun x => (walker x).eloc * (walker x).gradLogPsi k) (born ν (ψ θ₀)))
    (N : ℕ) (hN : 2 ≤ N) (nanSafe : Bool) :
    ∃ G : (Fin N → X) → ℝ,
      (∀ x devs n, IsLayout (List.ofFn fun i => walker (x i)) devs n →
        meanGrad (valueAndGrad .standard N none nanSafe
          (devs.map fun l => l.map RealWalker.toX)).2.2 k = .fin (G x)) ∧
      Integrable G (Measure.pi fun _ => born ν (ψ θ₀)) ∧
      HasDerivAt (fun θ => expectedEnergy ν (ψ θ) fun x => H (ψ θ) x / ψ θ x)
        (∫ x, G x ∂(Measure.pi fun _ => born ν (ψ θ₀))) θ₀ := by
  have hZ : (∫ x, ψ θ₀ x ^ 2 ∂ν) ≠ 0 := h.norm_pos.ne'
  have := isProbabilityMeasure_born h.normalisable hZ
  have hie := (integrable_born₀ h.measurable.self_of_nhds hZ).mpr h.integrable_energy
  obtain ⟨hd, hie', hz⟩ := mean_eloc_derivative_zero h.measurable.self_of_nhds hZ h.ne_zero hψ' hHψ' hi1 hi2
    hsymm
  simp only [hwe] at hieg
  refine ⟨fun x => covGrad (walkerPairs (fun x => H (ψ θ₀) x / ψ θ₀ x)
    (fun x => (walker x).gradLogPsi k) x), fun x devs n hl => ?_,
    integrable_covGrad (N := N) hie hig hieg, ?_⟩
  · have := gradient_is_covariance_partial .standard (by simp) nanSafe _ devs n hl
      (by simpa using hN) k
    rw [List.length_ofFn] at this
    rw [this]
    congr 2
    unfold walkerPairs
    rw [List.map_ofFn]
    simp only [Function.comp_def, hwe]
  · refine (expectedEnergy_hasDerivAt h hg hd hieg hie').congr_deriv ?_
    rw [expected_covGrad hN hie hig hieg, hz, add_zero]

/-- C71: the same with a local energy which is itself a random estimate, unbiased for every
configuration, as with random particles.  The draws `r` have law `ρ` and are independent of the
configurations and of each other. -/
theorem random_particle_gradient_unbiased {R : Type*} [MeasurableSpace R] (ρ : Measure R)
    [IsProbabilityMeasure ρ] {ψ : ℝ → X → ℝ} {H : (X → ℝ) → X → ℝ} {θ₀ : ℝ}
    (h : SmoothFamily ν ψ (fun θ x => H (ψ θ) x / ψ θ x) θ₀)
    {ψ' : X → ℝ} (hψ' : ∀ᵐ x ∂ν, HasDerivAt (fun θ => ψ θ x) (ψ' x) θ₀)
    (hHψ' : ∀ᵐ x ∂ν, HasDerivAt (fun θ => H (ψ θ) x) (H ψ' x) θ₀)
    (hi1 : Integrable (fun x => ψ θ₀ x * H ψ' x) ν) (hi2 : Integrable (fun x => ψ' x * H (ψ θ₀) x) ν)
    (hsymm : ∫ x, ψ θ₀ x * H ψ' x ∂ν = ∫ x, ψ' x * H (ψ θ₀) x ∂ν)
    (walker : X × R → RealWalker K) (k : K) {g : X → ℝ}
    (hunb : ∀ x, ∫ r, (walker (x, r)).eloc ∂ρ = H (ψ θ₀) x / ψ θ₀ x)
    (hwg : ∀ p, (walker p).gradLogPsi k = g p.1)
    (hg : ∀ᵐ x ∂ν, HasDerivAt (fun θ => Real.log |ψ θ x|) (g x) θ₀)
    (hie : Integrable (fun p => (walker p).eloc) ((born ν (ψ θ₀)).prod ρ))
    (hig : Integrable g (born ν (ψ θ₀)))
    (hieg : Integrable (fun p => (walker p).eloc * g p.1) ((born ν (ψ θ₀)).prod ρ))
    (N : ℕ) (hN : 2 ≤ N) (nanSafe : Bool) :
    ∃ G : (Fin N → X × R) → ℝ,
      (∀ x devs n, IsLayout (List.ofFn fun i => walker (x i)) devs n →
        meanGrad (valueAndGrad .randomParticle N none nanSafe
          (devs.map fun l => l.map RealWalker.toX)).2.2 k = .fin (G x)) ∧
      Integrable G (Measure.pi fun _ => (born ν (ψ θ₀)).prod ρ) ∧
      HasDerivAt (fun θ => expectedEnergy ν (ψ θ) fun x => H (ψ θ) x / ψ θ x)
        (∫ x, G x ∂(Measure.pi fun _ => (born ν (ψ θ₀)).prod ρ)) θ₀ := by
  have hZ : (∫ x, ψ θ₀ x ^ 2 ∂ν) ≠ 0 := h.norm_pos.ne'
  have := isProbabilityMeasure_born h.normalisable hZ
  obtain ⟨hd, hie', hz⟩ := mean_eloc_derivative_zero h.measurable.self_of_nhds hZ h.ne_zero hψ' hHψ' hi1 hi2
    hsymm
  have hig2 : Integrable (fun p : X × R => g p.1) ((born ν (ψ θ₀)).prod ρ) := hig.comp_fst ρ
  have he1 : ∫ p, (walker p).eloc ∂((born ν (ψ θ₀)).prod ρ) =
      ∫ x, H (ψ θ₀) x / ψ θ₀ x ∂(born ν (ψ θ₀)) := by
    rw [integral_prod _ hie]
    simp only [hunb]
  have he2 : ∫ p, (walker p).eloc * g p.1 ∂((born ν (ψ θ₀)).prod ρ) =
      ∫ x, H (ψ θ₀) x / ψ θ₀ x * g x ∂(born ν (ψ θ₀)) := by
    rw [integral_prod _ hieg]
    simp only [integral_mul_const, hunb]
  have he3 : ∫ p, g p.1 ∂((born ν (ψ θ₀)).prod ρ) = ∫ x, g x ∂(born ν (ψ θ₀)) := by
    rw [integral_prod _ hig2]
    simp
  have hieg' : Integrable (fun x => H (ψ θ₀) x / ψ θ₀ x * g x) (born ν (ψ θ₀)) := by
    have := hieg.integral_prod_left
    simpa only [integral_mul_const, hunb] using this
  refine ⟨fun x => covGrad (walkerPairs (fun p => (walker p).eloc) (fun p => g p.1) x),
    fun x devs n hl => ?_, integrable_covGrad (N := N) hie hig2 hieg, ?_⟩
  · have := gradient_is_covariance_partial .randomParticle (by simp) nanSafe _ devs n hl
      (by simpa using hN) k
    rw [List.length_ofFn] at this
    rw [this]
    congr 2
    unfold walkerPairs
    rw [List.map_ofFn]
    simp only [Function.comp_def, hwg]
  · refine (expectedEnergy_hasDerivAt h hg hd hieg' hie').congr_deriv ?_
    rw [expected_covGrad hN hie hig2 hieg, hz, add_zero, he1, he2, he3]

/-- C71: clipping biases the gradient.  With two walkers, threshold 1/2 and the mean as centre the
gradient is half of the unbiased one, whatever the walkers. -/
theorem clipped_gradient_biased (nanSafe : Bool) (w₁ w₂ : RealWalker K) (k : K) :
    meanGrad (valueAndGrad .standard 2 (getClippingFn (1 / 2) .mean) nanSafe
        [[w₁.toX, w₂.toX]]).2.2 k =
      .fin (covGrad [(w₁.eloc, w₁.gradLogPsi k), (w₂.eloc, w₂.gradLogPsi k)] / 2) := by
  have hf : getClippingFn (1 / 2) .mean = some (totalVariationClip (1 / 2) .mean) := by
    unfold getClippingFn
    rw [if_pos (by norm_num)]
  have hm : avgL ([w₁, w₂].map fun w => w.eloc) = (w₁.eloc + w₂.eloc) / 2 := by
    simp [avgL]
  have hdev : meanAbsDev [w₁.eloc, w₂.eloc] ((w₁.eloc + w₂.eloc) / 2) =
      |w₁.eloc - w₂.eloc| / 2 := by
    unfold meanAbsDev avgL
    have h1 : w₁.eloc - (w₁.eloc + w₂.eloc) / 2 = (w₁.eloc - w₂.eloc) / 2 := by ring
    have h2 : w₂.eloc - (w₁.eloc + w₂.eloc) / 2 = -((w₁.eloc - w₂.eloc) / 2) := by ring
    simp only [List.map_cons, List.map_nil, h1, h2, abs_neg, abs_div]
    simp
  have h := gradient_clipped .standard (by simp) nanSafe (totalVariationClip (1 / 2) .mean) [w₁, w₂]
    [[w₁, w₂]] 2 ⟨rfl, by simp, by simp, by simp⟩ (by simp)
    [[(3 * w₁.eloc + w₂.eloc) / 4, (w₁.eloc + 3 * w₂.eloc) / 4]] (by simp) (by
      rw [hm]
      have := clip_value (1 / 2) .mean [w₁.eloc, w₂.eloc] ((w₁.eloc + w₂.eloc) / 2)
        ((w₁.eloc + w₂.eloc) / 2) (by simp) rfl
      simp only [List.map_cons, List.map_nil] at this ⊢
      rw [this, hdev]
      rcases le_total w₁.eloc w₂.eloc with hle | hle
      · rw [abs_of_nonpos (by linarith), max_eq_left (by linarith), min_eq_right (by linarith),
          max_eq_right (by linarith), min_eq_left (by linarith)]
        congr 4 <;> ring_nf
      · rw [abs_of_nonneg (by linarith), max_eq_right (by linarith), min_eq_left (by linarith),
          max_eq_left (by linarith), min_eq_right (by linarith)]
        congr 4 <;> ring_nf) k
  rw [hf]
  refine h.trans ?_
  unfold covGrad avgL
  simp
  ring

/-- Two configurations, the wave function `(1, θ)` and a symmetric matrix as Hamiltonian. -/
example : SmoothFamily (X := Fin 2) Measure.count (fun θ x => ![1, θ] x)
    (fun θ x => (!![1, 2; 2, 5] : Matrix (Fin 2) (Fin 2) ℝ).mulVec ![1, θ] x / ![1, θ] x) 1 := by
  refine ⟨.of_forall fun θ => (measurable_of_finite _).aemeasurable, .of_forall fun θ => (measurable_of_finite _).aestronglyMeasurable,
    .of_forall fun x => by fin_cases x <;> simp, .of_finite, ?_, .of_finite, ?_⟩
  · rw [integral_count]
    simp [Fin.sum_univ_two]
  · refine ⟨Metric.ball 1 1, Metric.ball_mem_nhds _ one_pos, _, fun θ x => ![0, 2 * θ] x,
      fun θ x => ![2, 2 + 10 * θ] x, fun _ => 22, fun _ _ => .of_forall fun _ => rfl,
      .of_forall fun _ => .of_forall fun _ => rfl, (measurable_of_finite _).aestronglyMeasurable,
      (measurable_of_finite _).aestronglyMeasurable, .of_finite, .of_forall fun x θ hθ => ?_⟩
    rw [Metric.mem_ball, Real.dist_eq, abs_lt] at hθ
    fin_cases x
    · have e : ∀ θ : ℝ, (![1, θ] : Fin 2 → ℝ) 0 ^ 2 *
          ((!![1, 2; 2, 5] : Matrix (Fin 2) (Fin 2) ℝ).mulVec ![1, θ] 0 / ![1, θ] 0) =
          1 + 2 * θ := fun θ => by simp [Matrix.mulVec, dotProduct, Fin.sum_univ_two]
      refine ⟨?_, ?_, by norm_num, by norm_num⟩
      · simpa using hasDerivAt_const θ (1 : ℝ)
      · show HasDerivAt (fun θ : ℝ => (![1, θ] : Fin 2 → ℝ) 0 ^ 2 *
          ((!![1, 2; 2, 5] : Matrix (Fin 2) (Fin 2) ℝ).mulVec ![1, θ] 0 / ![1, θ] 0)) 2 θ
        simp only [e]
        simpa using ((hasDerivAt_id θ).const_mul 2).const_add 1
    · have e : ∀ θ : ℝ, (![1, θ] : Fin 2 → ℝ) 1 ^ 2 *
          ((!![1, 2; 2, 5] : Matrix (Fin 2) (Fin 2) ℝ).mulVec ![1, θ] 1 / ![1, θ] 1) =
          2 * θ + 5 * θ ^ 2 := fun θ => by
        simp [Matrix.mulVec, dotProduct, Fin.sum_univ_two]
        rcases eq_or_ne θ 0 with rfl | h
        · simp
        · field_simp
      refine ⟨?_, ?_, ?_, ?_⟩
      · simpa using hasDerivAt_pow 2 θ
      · show HasDerivAt (fun θ : ℝ => (![1, θ] : Fin 2 → ℝ) 1 ^ 2 *
          ((!![1, 2; 2, 5] : Matrix (Fin 2) (Fin 2) ℝ).mulVec ![1, θ] 1 / ![1, θ] 1))
          (2 + 10 * θ) θ
        simp only [e]
        refine (((hasDerivAt_id θ).const_mul 2).add ((hasDerivAt_pow 2 θ).const_mul 5)).congr_deriv ?_
        norm_num
        ring
      · show |2 * θ| ≤ 22
        rw [abs_le]
        constructor <;> linarith
      · show |2 + 10 * θ| ≤ 22
        rw [abs_le]
        constructor <;> linarith

/-- The symmetry condition for that matrix: `ψ = (1, θ)`, `∂ψ/∂θ = (0, 1)`. -/
example (θ : ℝ) :
    ∫ x, ![1, θ] x * (!![1, 2; 2, 5] : Matrix (Fin 2) (Fin 2) ℝ).mulVec ![0, 1] x
      ∂(Measure.count : Measure (Fin 2)) =
    ∫ x, ![0, 1] x * (!![1, 2; 2, 5] : Matrix (Fin 2) (Fin 2) ℝ).mulVec ![1, θ] x
      ∂(Measure.count : Measure (Fin 2)) := by
  rw [integral_count, integral_count]
  simp [Matrix.mulVec, dotProduct, Fin.sum_univ_two]
  ring

end Estimators
end Verif.Props
