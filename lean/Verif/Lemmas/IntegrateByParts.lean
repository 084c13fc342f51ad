import Mathlib.MeasureTheory.Integral.Prod
import Mathlib.MeasureTheory.Group.Integral
import Mathlib.MeasureTheory.Measure.Lebesgue.EqHaar
import Mathlib.MeasureTheory.Integral.IntervalIntegral.FundThmCalculus

/-!
Integration by parts on configuration space.  The functions need to be differentiable along almost
every line only, so that cusps at coalescence points are allowed.
-/

namespace Verif.Ibp
open MeasureTheory

variable {E : Type*} [NormedAddCommGroup E] [NormedSpace ℝ E] [MeasurableSpace E] [BorelSpace E]
  [SecondCountableTopology E] {μ : Measure E} [SFinite μ] [μ.IsAddRightInvariant]

/-- The integral of a directional derivative vanishes. -/
theorem integral_lineDeriv_eq_zero {F F' : E → ℝ} {v : E} (hF : Integrable F μ)
    (hF' : Integrable F' μ)
    (h : ∀ᵐ x ∂μ, ∀ t : ℝ, HasDerivAt (fun t : ℝ => F (x + t • v)) (F' (x + t • v)) t) :
    ∫ x, F' x ∂μ = 0 := by
  have hshift : ∀ t : ℝ, MeasurePreserving (fun x => x + t • v) μ μ := fun t =>
    measurePreserving_add_right μ (t • v)
  have hsk : MeasurePreserving (fun p : ℝ × E => (p.1, p.2 + p.1 • v))
      ((volume.restrict (Set.Ioc 0 1)).prod μ) ((volume.restrict (Set.Ioc 0 1)).prod μ) :=
    MeasurePreserving.skew_product (f := id) (g := fun t x => x + t • v) (MeasurePreserving.id _)
      (by
        have : Continuous fun p : ℝ × E => p.2 + p.1 • v := by fun_prop
        exact this.measurable)
      (.of_forall fun t => (hshift t).map_eq)
  have hint : Integrable (fun p : ℝ × E => F' (p.2 + p.1 • v))
      ((volume.restrict (Set.Ioc (0 : ℝ) 1)).prod μ) := by
    have h1 : Integrable (fun p : ℝ × E => F' p.2) ((volume.restrict (Set.Ioc (0 : ℝ) 1)).prod μ) :=
      hF'.comp_snd _
    exact hsk.integrable_comp_of_integrable h1
  have hsec : ∀ᵐ x ∂μ, Integrable (fun t : ℝ => F' (x + t • v)) (volume.restrict (Set.Ioc 0 1)) :=
    hint.prod_left_ae
  have hftc : ∀ᵐ x ∂μ, ∫ t in Set.Ioc (0 : ℝ) 1, F' (x + t • v) = F (x + v) - F x := by
    filter_upwards [hsec, h] with x hx hd
    have := intervalIntegral.integral_eq_sub_of_hasDerivAt (a := 0) (b := 1)
      (f := fun t : ℝ => F (x + t • v)) (f' := fun t => F' (x + t • v)) (fun t _ => hd t)
      ((intervalIntegrable_iff_integrableOn_Ioc_of_le zero_le_one).mpr hx)
    rw [intervalIntegral.integral_of_le zero_le_one] at this
    simpa using this
  have hswap := integral_integral_swap (f := fun (t : ℝ) (x : E) => F' (x + t • v)) hint
  have hl : ∀ t : ℝ, ∫ x, F' (x + t • v) ∂μ = ∫ x, F' x ∂μ := fun t =>
    integral_add_right_eq_self F' (t • v)
  rw [integral_congr_ae hftc] at hswap
  simp only [hl] at hswap
  rw [integral_sub (hF.comp_add_right v) hF, integral_add_right_eq_self F v, sub_self] at hswap
  simpa using hswap

omit [SecondCountableTopology E] in
/-- A level set of a non-zero linear functional has measure zero. -/
theorem ae_linear_ne [FiniteDimensional ℝ E] {ν : Measure E} [ν.IsAddHaarMeasure] (φ : E →ₗ[ℝ] ℝ)
    {x₀ : E} (h : φ x₀ ≠ 0) (c : ℝ) : ∀ᵐ x ∂ν, φ x ≠ c := by
  let x₁ : E := (c / φ x₀) • x₀
  have hx₁ : φ x₁ = c := by
    simp only [x₁, map_smul, smul_eq_mul]
    field_simp
  have hk : ν (LinearMap.ker φ : Set E) = 0 := by
    refine Measure.addHaar_submodule ν _ fun ht => h ?_
    have : x₀ ∈ LinearMap.ker φ := ht ▸ Submodule.mem_top
    exact this
  have hs : {x | ¬ φ x ≠ c} = (fun x => x + -x₁) ⁻¹' (LinearMap.ker φ : Set E) := by
    ext x
    simp only [Set.mem_ofPred_eq, not_not, Set.mem_preimage, SetLike.mem_coe, LinearMap.mem_ker,
      map_add, map_neg, hx₁]
    constructor <;> intro h <;> linarith
  rw [ae_iff, hs, measure_preimage_add_right, hk]

end Verif.Ibp
