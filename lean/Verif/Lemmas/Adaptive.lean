import Verif.Lemmas.Chain
import Mathlib.MeasureTheory.Measure.Haar.NormedSpace

/-! Accept/reject moves of different large widths. -/

namespace Verif.Ergodic
open Filter Topology MeasureTheory Set

variable {X : Type} [NormedAddCommGroup X] [NormedSpace ℝ X] [FiniteDimensional ℝ X]
  [MeasurableSpace X] [BorelSpace X]

/-- Noise with a bounded density which is continuous and positive at 0. -/
structure HasDensity (vol G : Measure X) (g : X → ℝ) (C : ℝ) : Prop where
  measurable : Measurable g
  nonneg : ∀ x, 0 ≤ g x
  le : ∀ x, g x ≤ C
  continuous : ContinuousAt g 0
  pos : 0 < g 0
  eq : G = vol.withDensity fun x => ENNReal.ofReal (g x)

theorem HasDensity.integral {vol G : Measure X} [vol.IsAddHaarMeasure] {g : X → ℝ} {C : ℝ}
    (h : HasDensity vol G g C) {s : ℝ} (hs : 0 < s) (x : X) (f : X → ℝ) :
    ∫ η, f (x + s • η) ∂G =
      (s ^ Module.finrank ℝ X)⁻¹ * ∫ y, g (s⁻¹ • (y - x)) * f y ∂vol := by
  rw [h.eq, integral_withDensity_eq_integral_toReal_smul h.measurable.ennreal_ofReal
    (.of_forall fun x => ENNReal.ofReal_lt_top)]
  have e1 : (fun η => (ENNReal.ofReal (g η)).toReal • f (x + s • η)) =
      fun η => (fun v => g (s⁻¹ • v) * f (x + v)) (s • η) := funext fun η => by
    show _ = g (s⁻¹ • s • η) * f (x + s • η)
    rw [ENNReal.toReal_ofReal (h.nonneg _), smul_eq_mul, smul_smul, inv_mul_cancel₀ hs.ne', one_smul]
  rw [e1, Measure.integral_comp_smul vol (fun v => g (s⁻¹ • v) * f (x + v)) s, abs_of_pos (by positivity), smul_eq_mul]
  congr 1
  rw [← integral_sub_right_eq_self (fun v => g (s⁻¹ • v) * f (x + v)) x]
  simp

section limit

variable (vol G : Measure X) [vol.IsAddHaarMeasure] {g : X → ℝ} {C : ℝ} (hg : HasDensity vol G g C)
  {p : X → ℝ} {α : X → X → ℝ} (hp : Measurable p) (hp0 : ∀ x, 0 ≤ p x)
  (hα : Measurable fun z : X × X => α z.1 z.2) (hα0 : ∀ x y, 0 ≤ α x y) (hα1 : ∀ x y, α x y ≤ 1)
  (hbal : ∀ x y, p x * α x y = min (p x) (p y)) (hpos : ∀ᵐ x ∂vol, 0 < p x)
  (hi : Integrable p vol) (hsq : Integrable (fun x => √(p x)) vol)

/-- The volume into which moves are accepted. -/
noncomputable def room (α : X → X → ℝ) (x : X) : ℝ := ∫ z, α x z ∂vol

/-- Probability of acceptance, scaled. -/
noncomputable def scaledAcc (g : X → ℝ) (α : X → X → ℝ) (σ : ℝ) (x : X) : ℝ :=
  ∫ z, g (σ⁻¹ • (z - x)) * α x z ∂vol

/-- By how much a move of width `s` makes `A` more likely, after an accepted move of width `σ`. -/
noncomputable def gain (G : Measure X) (p : X → ℝ) (α : X → X → ℝ) (A : Set X) (σ s : ℝ) : ℝ :=
  ∫ x, p x * (∫ η, α x (x + σ • η) ∂G) *
    (∫ η, α x (x + s • η) * (A.indicator 1 (x + s • η) - A.indicator 1 x) ∂G) ∂vol

include hbal in
theorem alpha_eq {x : X} (hx : 0 < p x) (y : X) : α x y = min (p x) (p y) / p x := by
  rw [← hbal, mul_div_cancel_left₀ _ hx.ne']

include hbal hi hα hp0 in
theorem integrable_alpha {x : X} (hx : 0 < p x) : Integrable (α x) vol := by
  refine (hi.div_const (p x)).mono' (hα.comp measurable_prodMk_left).aestronglyMeasurable
    (.of_forall fun y => ?_)
  rw [alpha_eq hbal hx, Real.norm_eq_abs, abs_of_nonneg (div_nonneg (le_min (hp0 _) (hp0 _)) hx.le)]
  exact div_le_div_of_nonneg_right (min_le_right _ _) hx.le

include hα0 in
theorem room_nonneg (x : X) : 0 ≤ room vol α x := integral_nonneg fun y => hα0 x y

include hα in
theorem measurable_room : Measurable (room vol α) := by
  have := (hα.stronglyMeasurable.integral_prod_right' (ν := vol)).measurable
  exact this

include hg hα in
theorem measurable_scaledAcc (σ : ℝ) : Measurable (scaledAcc vol g α σ) := by
  have h1 : Measurable fun z : X × X => g (σ⁻¹ • (z.2 - z.1)) * α z.1 z.2 :=
    (hg.measurable.comp (by fun_prop)).mul hα
  exact (h1.stronglyMeasurable.integral_prod_right' (ν := vol)).measurable

include hg hα hα0 hp0 hbal hi in
theorem scaledAcc_le (σ : ℝ) {x : X} (hx : 0 < p x) :
    |scaledAcc vol g α σ x| ≤ C * room vol α x := by
  unfold scaledAcc room
  have hai := integrable_alpha vol hp0 hα hbal hi hx
  rw [← integral_const_mul, ← Real.norm_eq_abs]
  refine norm_integral_le_of_norm_le (hai.const_mul C) (.of_forall fun y => ?_)
  rw [Real.norm_eq_abs, abs_mul, abs_of_nonneg (hg.nonneg _), abs_of_nonneg (hα0 x y)]
  exact mul_le_mul_of_nonneg_right (hg.le _) (hα0 x y)

include hg in
omit [FiniteDimensional ℝ X] [BorelSpace X] [vol.IsAddHaarMeasure] in
theorem density_tendsto {c : ℝ} (hc : 0 < c) (v : X) :
    Tendsto (fun σ : ℝ => g ((c * σ)⁻¹ • v)) atTop (𝓝 (g 0)) := by
  have h1 : Tendsto (fun σ : ℝ => (c * σ)⁻¹ • v) atTop (𝓝 ((0 : ℝ) • v)) :=
    (tendsto_inv_atTop_zero.comp (tendsto_id.const_mul_atTop hc)).smul_const v
  rw [zero_smul] at h1
  exact hg.continuous.tendsto.comp h1

include hg hα hα0 hp0 hbal hi in
theorem scaledAcc_tendsto {x : X} (hx : 0 < p x) :
    Tendsto (fun σ => scaledAcc vol g α σ x) atTop (𝓝 (g 0 * room vol α x)) := by
  have hai := integrable_alpha vol hp0 hα hbal hi hx
  unfold room
  rw [← integral_const_mul]
  refine tendsto_integral_filter_of_dominated_convergence (fun y => C * α x y)
    (.of_forall fun σ => ?_) (.of_forall fun σ => .of_forall fun y => ?_) (hai.const_mul C)
    (.of_forall fun y => ?_)
  · exact ((hg.measurable.comp (by fun_prop)).mul
      (hα.comp measurable_prodMk_left)).aestronglyMeasurable
  · rw [Real.norm_eq_abs, abs_mul, abs_of_nonneg (hg.nonneg _), abs_of_nonneg (hα0 x y)]
    exact mul_le_mul_of_nonneg_right (hg.le _) (hα0 x y)
  · have := density_tendsto vol G hg one_pos (y - x)
    simp only [one_mul] at this
    exact this.mul_const _

include hp hp0 hα hα0 hbal hpos hsq in
/-- The overlap of the density with itself. -/
theorem integrable_overlap : Integrable (fun x => p x * room vol α x) vol := by
  refine (hsq.mul_const (∫ z, √(p z) ∂vol)).mono'
    (hp.mul (measurable_room vol hα)).aestronglyMeasurable ?_
  filter_upwards [hpos] with x hx
  rw [Real.norm_eq_abs, abs_of_nonneg (mul_nonneg (hp0 x) (room_nonneg vol hα0 x))]
  unfold room
  rw [← integral_const_mul, ← integral_const_mul]
  refine integral_mono_of_nonneg (.of_forall fun z => mul_nonneg (hp0 x) (hα0 x z))
    (hsq.const_mul _) (.of_forall fun z => ?_)
  simp only [hbal]
  rw [← Real.sqrt_mul (hp0 x)]
  refine Real.le_sqrt_of_sq_le ?_
  rw [sq]
  exact mul_le_mul (min_le_left _ _) (min_le_right _ _) (le_min (hp0 x) (hp0 z)) (hp0 x)

/-- The integrand of `gain` as a function of both positions. -/
noncomputable def kernel (g : X → ℝ) (p : X → ℝ) (α : X → X → ℝ) (A : Set X) (σ s : ℝ) (z : X × X) : ℝ :=
  min (p z.1) (p z.2) * scaledAcc vol g α σ z.1 * (A.indicator 1 z.2 - A.indicator 1 z.1) *
    g (s⁻¹ • (z.2 - z.1))

variable {t : ℝ} (ht : 0 < t)

/-- Bound of the kernel. -/
noncomputable def bound (p : X → ℝ) (α : X → X → ℝ) (t : ℝ) (z : X × X) : ℝ :=
  p z.1 * room vol α z.1 * {x | t < p x}.indicator 1 z.2 +
    (∫ x, p x ∂vol) / t * ({x | t < p x}.indicator 1 z.1 * p z.2)

include hp ht hi hp0 in
omit [NormedSpace ℝ X] [FiniteDimensional ℝ X] [BorelSpace X] [vol.IsAddHaarMeasure] in
theorem integrable_level : Integrable ({x | t < p x}.indicator (1 : X → ℝ)) vol := by
  have hA : MeasurableSet {x | t < p x} := measurableSet_lt measurable_const hp
  refine (hi.div_const t).mono' (measurable_one.indicator hA).aestronglyMeasurable
    (.of_forall fun x => ?_)
  by_cases hx : x ∈ {x | t < p x}
  · rw [indicator_of_mem hx, Pi.one_apply, Real.norm_eq_abs, abs_one, le_div_iff₀ ht, one_mul]
    exact le_of_lt hx
  · rw [indicator_of_notMem hx, norm_zero]
    exact div_nonneg (hp0 x) ht.le

include hp hp0 hα hα0 hbal hpos hsq hi ht in
theorem integrable_bound : Integrable (bound vol p α t) (vol.prod vol) := by
  have h1 := integrable_overlap vol hp hp0 hα hα0 hbal hpos hsq
  have h2 := integrable_level vol hp hp0 hi ht
  exact (h1.mul_prod h2).add ((h2.mul_prod hi).const_mul _)

include hα hα0 hp0 hbal hi ht in
theorem limit_le {z : X × X} (hz : 0 < p z.1) :
    min (p z.1) (p z.2) * room vol α z.1 *
      |({x | t < p x}.indicator 1 z.2 : ℝ) - {x | t < p x}.indicator 1 z.1| ≤ bound vol p α t z := by
  have hr := room_nonneg vol hα0 z.1
  have hm : 0 ≤ min (p z.1) (p z.2) := le_min (hp0 _) (hp0 _)
  have hI : 0 ≤ ∫ x, p x ∂vol := integral_nonneg hp0
  unfold bound
  by_cases h1 : z.1 ∈ {x | t < p x} <;> by_cases h2 : z.2 ∈ {x | t < p x}
  · simp only [indicator_of_mem h1, indicator_of_mem h2, Pi.one_apply, sub_self, abs_zero, mul_zero]
    have := hp0 z.1
    have := hp0 z.2
    positivity
  · simp only [indicator_of_mem h1, indicator_of_notMem h2, Pi.one_apply, zero_sub, abs_neg, abs_one,
      mul_one, mul_zero, zero_add, one_mul]
    have hroom : room vol α z.1 ≤ (∫ x, p x ∂vol) / t := by
      unfold room
      rw [← integral_div]
      refine integral_mono (integrable_alpha vol hp0 hα hbal hi hz) (hi.div_const t) fun y => ?_
      simp only
      rw [alpha_eq hbal hz]
      exact div_le_div₀ (hp0 y) (min_le_right _ _) ht (le_of_lt h1)
    rw [mul_comm]
    exact mul_le_mul hroom (min_le_right _ _) hm (by positivity)
  · simp only [indicator_of_notMem h1, indicator_of_mem h2, Pi.one_apply, sub_zero, abs_one,
      mul_one, mul_zero, add_zero, zero_mul]
    exact mul_le_mul_of_nonneg_right (min_le_left _ _) hr
  · simp only [indicator_of_notMem h1, indicator_of_notMem h2, sub_self, abs_zero, mul_zero,
      zero_mul, add_zero, le_refl]

include hg hα hα0 hp0 hbal hi ht in
theorem kernel_le (σ s : ℝ) {z : X × X} (hz : 0 < p z.1) :
    |kernel vol g p α {x | t < p x} σ s z| ≤ C * C * bound vol p α t z := by
  have hC : 0 ≤ C := (hg.nonneg 0).trans (hg.le 0)
  have hr := room_nonneg vol hα0 z.1
  have hm : 0 ≤ min (p z.1) (p z.2) := le_min (hp0 _) (hp0 _)
  have key := limit_le vol hp0 hα hα0 hbal hi ht hz
  unfold kernel
  rw [abs_mul, abs_mul, abs_mul, abs_of_nonneg hm, abs_of_nonneg (hg.nonneg _)]
  calc _ ≤ min (p z.1) (p z.2) * (C * room vol α z.1) *
        |({x | t < p x}.indicator 1 z.2 : ℝ) - {x | t < p x}.indicator 1 z.1| * C := by
        have h1 := scaledAcc_le vol G hg hp0 hα hα0 hbal hi σ hz
        refine mul_le_mul (mul_le_mul_of_nonneg_right (mul_le_mul_of_nonneg_left h1 hm)
          (abs_nonneg _)) (hg.le _) (hg.nonneg _) (by positivity)
    _ = C * C * (min (p z.1) (p z.2) * room vol α z.1 *
        |({x | t < p x}.indicator 1 z.2 : ℝ) - {x | t < p x}.indicator 1 z.1|) := by ring
    _ ≤ _ := by gcongr

include hg hα hp in
theorem measurable_kernel (σ s : ℝ) : Measurable (kernel vol g p α {x | t < p x} σ s) := by
  have hA : MeasurableSet {x | t < p x} := measurableSet_lt measurable_const hp
  have h1 : Measurable ({x | t < p x}.indicator (1 : X → ℝ)) := measurable_one.indicator hA
  have h2 := measurable_scaledAcc vol G hg hα σ
  unfold kernel
  exact ((((hp.comp measurable_fst).min (hp.comp measurable_snd)).mul (h2.comp measurable_fst)).mul
    ((h1.comp measurable_snd).sub (h1.comp measurable_fst))).mul (hg.measurable.comp (by fun_prop))

omit [NormedSpace ℝ X] [BorelSpace X] [FiniteDimensional ℝ X] in
theorem pos_fst [SFinite vol] (hpos : ∀ᵐ x ∂vol, 0 < p x) : ∀ᵐ z ∂(vol.prod vol), 0 < p z.1 :=
  (Measure.quasiMeasurePreserving_fst (μ := vol) (ν := vol)).ae (p := fun x => 0 < p x) hpos

include hg hp hp0 hα hα0 hbal hpos hsq hi ht in
theorem integrable_kernel (σ s : ℝ) :
    Integrable (kernel vol g p α {x | t < p x} σ s) (vol.prod vol) := by
  refine ((integrable_bound vol hp hp0 hα hα0 hbal hpos hi hsq ht).const_mul (C * C)).mono'
    (measurable_kernel vol G hg hp hα σ s).aestronglyMeasurable ?_
  filter_upwards [pos_fst vol hpos] with z hz
  exact kernel_le vol G hg hp0 hα hα0 hbal hi ht σ s hz

include hg hp hp0 hα hα0 hbal hpos hsq hi ht in
theorem gain_eq {σ s : ℝ} (hσ : 0 < σ) (hs : 0 < s) :
    gain vol G p α {x | t < p x} σ s = (σ ^ Module.finrank ℝ X)⁻¹ * (s ^ Module.finrank ℝ X)⁻¹ *
      ∫ z, kernel vol g p α {x | t < p x} σ s z ∂(vol.prod vol) := by
  rw [integral_prod _ (integrable_kernel vol G hg hp hp0 hα hα0 hbal hpos hi hsq ht σ s)]
  unfold gain
  rw [← integral_const_mul]
  congr 1
  funext x
  rw [hg.integral hσ x (fun y => α x y), hg.integral hs x (fun y => α x y *
    ({x | t < p x}.indicator 1 y - {x | t < p x}.indicator 1 x))]
  have e : ∀ y, kernel vol g p α {x | t < p x} σ s (x, y) = (p x * scaledAcc vol g α σ x) *
      (g (s⁻¹ • (y - x)) * (α x y *
        ({x | t < p x}.indicator 1 y - {x | t < p x}.indicator 1 x))) := fun y => by
    unfold kernel
    rw [← hbal]
    ring
  simp only [e]
  rw [integral_const_mul]
  unfold scaledAcc
  ring

/-- The limit of the kernel. -/
noncomputable def limitKernel (p : X → ℝ) (α : X → X → ℝ) (A : Set X) (z : X × X) : ℝ :=
  min (p z.1) (p z.2) * room vol α z.1 * (A.indicator 1 z.2 - A.indicator 1 z.1)

include hg hp hp0 hα hα0 hbal hpos hsq hi ht in
theorem kernel_tendsto {c : ℝ} (hc : 0 < c) :
    Tendsto (fun σ => ∫ z, kernel vol g p α {x | t < p x} σ (c * σ) z ∂(vol.prod vol)) atTop
      (𝓝 (g 0 * g 0 * ∫ z, limitKernel vol p α {x | t < p x} z ∂(vol.prod vol))) := by
  rw [← integral_const_mul]
  refine tendsto_integral_filter_of_dominated_convergence (fun z => C * C * bound vol p α t z)
    (.of_forall fun σ => (measurable_kernel vol G hg hp hα σ _).aestronglyMeasurable)
    (.of_forall fun σ => ?_)
    ((integrable_bound vol hp hp0 hα hα0 hbal hpos hi hsq ht).const_mul (C * C)) ?_
  · filter_upwards [pos_fst vol hpos] with z hz
    exact kernel_le vol G hg hp0 hα hα0 hbal hi ht σ _ hz
  · filter_upwards [pos_fst vol hpos] with z hz
    have h1 := scaledAcc_tendsto vol G hg hp0 hα hα0 hbal hi hz
    have h2 := density_tendsto vol G hg hc (z.2 - z.1)
    have h3 := ((h1.const_mul (min (p z.1) (p z.2))).mul_const
      ({x | t < p x}.indicator 1 z.2 - {x | t < p x}.indicator 1 z.1)).mul h2
    have e : g 0 * g 0 * limitKernel vol p α {x | t < p x} z = min (p z.1) (p z.2) *
        (g 0 * room vol α z.1) * ({x | t < p x}.indicator 1 z.2 - {x | t < p x}.indicator 1 z.1) *
          g 0 := by
      unfold limitKernel
      ring
    rw [e]
    exact h3

include hα hα0 hp0 hbal hi in
/-- Where the density is lower there is more room. -/
theorem room_lt {x y : X} (hx : 0 < p x) (hxt : p x ≤ t) (hy : t < p y) (hpos : ∀ᵐ x ∂vol, 0 < p x)
    (hA : vol {x | p x ≤ t} ≠ 0) : room vol α y < room vol α x := by
  have hy0 : 0 < p y := hx.trans_le hxt |>.trans hy
  have h1 := integrable_alpha vol hp0 hα hbal hi hx
  have h2 := integrable_alpha vol hp0 hα hbal hi hy0
  unfold room
  rw [← sub_pos, ← integral_sub h1 h2,
    integral_pos_iff_support_of_nonneg (fun z => sub_nonneg.mpr ?_) (h1.sub h2), pos_iff_ne_zero]
  rotate_left
  · rw [alpha_eq hbal hx, alpha_eq hbal hy0, div_le_div_iff₀ hy0 hx]
    rcases le_total (p z) (p x) with h | h
    · rw [min_eq_right h, min_eq_right (h.trans (hxt.trans hy.le))]
      exact mul_le_mul_of_nonneg_left (hxt.trans hy.le) (hp0 z)
    · rw [min_eq_left h, mul_comm]
      exact mul_le_mul_of_nonneg_left (min_le_left _ _) hx.le
  · refine fun h0 => hA (measure_mono_null_ae ?_ h0)
    filter_upwards [hpos] with z hz hzt
    show α x z - α y z ≠ 0
    have hzt : p z ≤ t := hzt
    refine (sub_pos.mpr ?_).ne'
    rw [alpha_eq hbal hx, alpha_eq hbal hy0, div_lt_div_iff₀ hy0 hx, min_eq_right (hzt.trans hy.le)]
    rcases le_total (p z) (p x) with h | h
    · rw [min_eq_right h]
      exact mul_lt_mul_of_pos_left (hxt.trans_lt hy) hz
    · rw [min_eq_left h, mul_comm]
      exact mul_lt_mul_of_pos_left (hzt.trans_lt hy) hx

include hp hp0 hα hα0 hbal hpos hsq hi ht in
theorem integrable_limitKernel :
    Integrable (limitKernel vol p α {x | t < p x}) (vol.prod vol) := by
  have hA : MeasurableSet {x | t < p x} := measurableSet_lt measurable_const hp
  have h1 : Measurable ({x | t < p x}.indicator (1 : X → ℝ)) := measurable_one.indicator hA
  refine (integrable_bound vol hp hp0 hα hα0 hbal hpos hi hsq ht).mono' ?_ ?_
  · unfold limitKernel
    exact ((((hp.comp measurable_fst).min (hp.comp measurable_snd)).mul
      ((measurable_room vol hα).comp measurable_fst)).mul
      ((h1.comp measurable_snd).sub (h1.comp measurable_fst))).aestronglyMeasurable
  · filter_upwards [pos_fst vol hpos] with z hz
    have hI : 0 ≤ ∫ x, p x ∂vol := integral_nonneg hp0
    have h := limit_le vol hp0 hα hα0 hbal hi ht hz
    unfold limitKernel
    rwa [Real.norm_eq_abs, abs_mul, abs_mul, abs_of_nonneg (le_min (hp0 z.1) (hp0 z.2)),
      abs_of_nonneg (room_nonneg vol hα0 z.1)]

include hp hp0 hα hα0 hbal hpos hsq hi ht in
theorem limit_pos (hA : vol {x | t < p x} ≠ 0) (hA' : vol {x | p x ≤ t} ≠ 0) :
    0 < ∫ z, limitKernel vol p α {x | t < p x} z ∂(vol.prod vol) := by
  have hAm : MeasurableSet {x | t < p x} := measurableSet_lt measurable_const hp
  have hAm' : MeasurableSet {x | p x ≤ t} := measurableSet_le hp measurable_const
  have h1 := integrable_limitKernel vol hp hp0 hα hα0 hbal hpos hi hsq ht
  have h2 : Integrable (fun z : X × X => limitKernel vol p α {x | t < p x} z.swap) (vol.prod vol) :=
    h1.swap
  have hsum : ∫ z, (limitKernel vol p α {x | t < p x} z + limitKernel vol p α {x | t < p x} z.swap)
      ∂(vol.prod vol) = 2 * ∫ z, limitKernel vol p α {x | t < p x} z ∂(vol.prod vol) := by
    rw [integral_add h1 h2, two_mul]
    congr 1
    exact integral_prod_swap _
  have hpp : ∀ᵐ z ∂(vol.prod vol), 0 < p z.1 ∧ 0 < p z.2 :=
    (pos_fst vol hpos).and ((Measure.quasiMeasurePreserving_snd (μ := vol) (ν := vol)).ae
      (p := fun x => 0 < p x) hpos)
  have e : ∀ z : X × X, limitKernel vol p α {x | t < p x} z +
      limitKernel vol p α {x | t < p x} z.swap = min (p z.1) (p z.2) *
        ((room vol α z.1 - room vol α z.2) *
          ({x | t < p x}.indicator 1 z.2 - {x | t < p x}.indicator 1 z.1)) := fun z => by
    unfold limitKernel
    rw [Prod.fst_swap, Prod.snd_swap, min_comm (p z.2)]
    ring
  have hnn : ∀ᵐ z ∂(vol.prod vol), 0 ≤ limitKernel vol p α {x | t < p x} z +
      limitKernel vol p α {x | t < p x} z.swap := by
    filter_upwards [hpp] with z hz
    rw [e]
    refine mul_nonneg (le_min hz.1.le hz.2.le) ?_
    by_cases h1 : z.1 ∈ {x | t < p x} <;> by_cases h2 : z.2 ∈ {x | t < p x}
    · simp [indicator_of_mem h1, indicator_of_mem h2]
    · have h := room_lt vol hp0 hα hα0 hbal hi hz.2 (not_lt.mp h2) h1 hpos hA'
      simp only [indicator_of_mem h1, indicator_of_notMem h2, Pi.one_apply]
      nlinarith
    · have h := room_lt vol hp0 hα hα0 hbal hi hz.1 (not_lt.mp h1) h2 hpos hA'
      simp only [indicator_of_notMem h1, indicator_of_mem h2, Pi.one_apply]
      nlinarith
    · simp [indicator_of_notMem h1, indicator_of_notMem h2]
  have : 0 < ∫ z, (limitKernel vol p α {x | t < p x} z + limitKernel vol p α {x | t < p x} z.swap)
      ∂(vol.prod vol) := by
    rw [integral_pos_iff_support_of_nonneg_ae hnn (h1.add h2), pos_iff_ne_zero]
    have hbox : (vol.prod vol) ({x | p x ≤ t} ×ˢ {x | t < p x}) ≠ 0 := by
      rw [Measure.prod_prod]
      exact mul_ne_zero hA' hA
    refine fun h0 => hbox (measure_mono_null_ae ?_ h0)
    filter_upwards [hpp] with z hz hz'
    have h := room_lt vol hp0 hα hα0 hbal hi hz.1 hz'.1 hz'.2 hpos hA'
    show limitKernel vol p α {x | t < p x} z + limitKernel vol p α {x | t < p x} z.swap ≠ 0
    rw [e, indicator_of_mem hz'.2, indicator_of_notMem (show z.1 ∉ {x | t < p x} from fun h =>
      absurd (show t < p z.1 from h) (not_lt.mpr hz'.1)), Pi.one_apply, sub_zero, mul_one]
    exact (mul_pos (lt_min hz.1 hz.2) (sub_pos.mpr h)).ne'
  rw [hsum] at this
  linarith

include hp hi hp0 hpos in
/-- Levels which the density crosses. -/
theorem exists_level [Nontrivial X] : ∃ t, 0 < t ∧ vol {x | t < p x} ≠ 0 ∧ vol {x | p x ≤ t} ≠ 0 := by
  have hu : vol univ = ⊤ := measure_univ_of_isAddLeftInvariant vol
  obtain ⟨n, hn⟩ : ∃ n : ℕ, vol {x | 1 / ((n : ℝ) + 1) < p x} ≠ 0 := by
    by_contra hc
    push Not at hc
    have h1 : vol (⋃ n : ℕ, {x | 1 / ((n : ℝ) + 1) < p x}) = 0 := measure_iUnion_null hc
    have h2 : vol univ = 0 := by
      refine measure_mono_null_ae ?_ h1
      filter_upwards [hpos] with x hx _
      obtain ⟨n, hn⟩ := exists_nat_one_div_lt hx
      exact mem_iUnion.mpr ⟨n, hn⟩
    rw [hu] at h2
    exact ENNReal.top_ne_zero h2
  have ht : 0 < 1 / ((n : ℝ) + 1) := by positivity
  refine ⟨_, ht, hn, fun h0 => ?_⟩
  have h2 : vol {x | 1 / ((n : ℝ) + 1) < p x} < ⊤ :=
    hi.measure_gt_lt_top ht
  have h3 : vol univ ≤ vol {x | 1 / ((n : ℝ) + 1) < p x} + vol {x | p x ≤ 1 / ((n : ℝ) + 1)} := by
    refine (measure_mono fun x _ => ?_).trans (measure_union_le _ _)
    exact (lt_or_ge (1 / ((n : ℝ) + 1)) (p x)).imp id id
  rw [hu, h0, add_zero] at h3
  exact absurd h2 (not_lt.mpr h3)

include hg hp hp0 hα hα0 hbal hpos hsq hi in
/-- Moves of different widths after an accepted move of a large width change the probability of a
region by different amounts. -/
theorem gain_ne [Nontrivial X] {c c' : ℝ} (hc : 0 < c) (hcc : c < c') :
    ∃ A : Set X, MeasurableSet A ∧
      ∀ᶠ σ in atTop, gain vol G p α A σ (c' * σ) < gain vol G p α A σ (c * σ) := by
  obtain ⟨t, ht, hA, hA'⟩ := exists_level vol hp hp0 hpos hi
  refine ⟨{x | t < p x}, measurableSet_lt measurable_const hp, ?_⟩
  have hJ := limit_pos vol hp hp0 hα hα0 hbal hpos hi hsq ht hA hA'
  have h1 := (kernel_tendsto vol G hg hp hp0 hα hα0 hbal hpos hi hsq ht hc).const_mul
    (c ^ Module.finrank ℝ X)⁻¹
  have h2 := (kernel_tendsto vol G hg hp hp0 hα hα0 hbal hpos hi hsq ht
    (hc.trans hcc)).const_mul (c' ^ Module.finrank ℝ X)⁻¹
  have hd : Module.finrank ℝ X ≠ 0 := Module.finrank_pos.ne'
  have hlt : (c' ^ Module.finrank ℝ X)⁻¹ *
        (g 0 * g 0 * ∫ z, limitKernel vol p α {x | t < p x} z ∂(vol.prod vol)) <
      (c ^ Module.finrank ℝ X)⁻¹ *
        (g 0 * g 0 * ∫ z, limitKernel vol p α {x | t < p x} z ∂(vol.prod vol)) := by
    refine mul_lt_mul_of_pos_right ?_ (mul_pos (mul_pos hg.pos hg.pos) hJ)
    have := pow_lt_pow_left₀ hcc hc.le hd
    exact inv_strictAnti₀ (by positivity) this
  filter_upwards [h2.eventually_lt h1 hlt, eventually_gt_atTop 0] with σ h hσ
  have hc' := hc.trans hcc
  rw [gain_eq vol G hg hp hp0 hα hα0 hbal hpos hi hsq ht hσ (mul_pos hc hσ),
    gain_eq vol G hg hp hp0 hα hα0 hbal hpos hi hsq ht hσ (mul_pos hc' hσ), mul_pow, mul_pow,
    mul_inv, mul_inv]
  have hs : 0 < (σ ^ Module.finrank ℝ X)⁻¹ * (σ ^ Module.finrank ℝ X)⁻¹ := by positivity
  have := mul_lt_mul_of_pos_left h hs
  linarith

end limit
end Verif.Ergodic

namespace Verif.Ergodic
open Filter Topology MeasureTheory Set Verif.Reversible

section two

variable {X : Type} [NormedAddCommGroup X] [NormedSpace ℝ X] [FiniteDimensional ℝ X]
  [MeasurableSpace X] [BorelSpace X]

open Classical in
/-- Two accept/reject moves, the second one of a width which depends on the fate of the first. -/
noncomputable def twoMoves (α : X → X → ℝ) (σ s s' : ℝ) (z : X × (X × ℝ) × X × ℝ) : X :=
  if z.2.1.2 < α z.1 (z.1 + σ • z.2.1.1) then
    arStep α (z.1 + σ • z.2.1.1, s • z.2.2.1, z.2.2.2)
  else arStep α (z.1, s' • z.2.2.1, z.2.2.2)

variable {α : X → X → ℝ} (hα : Measurable fun z : X × X => α z.1 z.2) (hα0 : ∀ x y, 0 ≤ α x y)
  (hα1 : ∀ x y, α x y ≤ 1)

include hα in
theorem measurable_twoMoves (σ s s' : ℝ) : Measurable (twoMoves α σ s s') := by
  have hF := measurable_arStep hα
  unfold twoMoves
  refine Measurable.ite ?_ ?_ ?_
  · have h1 : Measurable fun z : X × (X × ℝ) × X × ℝ => z.2.1.2 := by fun_prop
    have h2 : Measurable fun z : X × (X × ℝ) × X × ℝ => (z.1, z.1 + σ • z.2.1.1) := by fun_prop
    exact measurableSet_lt h1 (hα.comp h2)
  · exact hF.comp (by fun_prop)
  · exact hF.comp (by fun_prop)

/-- The mean after one move of width `s`. -/
noncomputable def mv (G : Measure X) (α : X → X → ℝ) (s : ℝ) (f : X → ℝ) (x : X) : ℝ :=
  avg (G.prod unif) (fun z : X × X × ℝ => arStep α (z.1, s • z.2.1, z.2.2)) f x

variable (G : Measure X) [IsProbabilityMeasure G]

include hα in
theorem measurable_mv (s : ℝ) {f : X → ℝ} (hf : Measurable f) : Measurable (mv G α s f) :=
  measurable_avg ((measurable_arStep hα).comp (by fun_prop)) hf

omit [FiniteDimensional ℝ X] [BorelSpace X] in
theorem abs_mv_le (s : ℝ) {f : X → ℝ} {M : ℝ} (hb : ∀ x, |f x| ≤ M) (x : X) :
    |mv G α s f x| ≤ M := abs_avg_le hb x

include hα in
theorem integrable_move (s : ℝ) {f : X → ℝ} (hf : Measurable f) {M : ℝ} (hb : ∀ x, |f x| ≤ M) (x : X) :
    Integrable (fun y : X × ℝ => f (arStep α (x, s • y.1, y.2))) (G.prod unif) := by
  have h : Measurable fun y : X × ℝ => f (arStep α (x, s • y.1, y.2)) :=
    hf.comp ((measurable_arStep hα).comp (by fun_prop))
  exact Integrable.of_bound h.aestronglyMeasurable M (.of_forall fun y => hb _)

omit [FiniteDimensional ℝ X] [BorelSpace X] in
open Classical in
theorem apply_arStep {β : Type} (f : X → β) (x η : X) (u : ℝ) :
    f (arStep α (x, η, u)) = if u < α x (x + η) then f (x + η) else f x := by
  unfold arStep arMove
  exact apply_ite f _ _ _

include hα hα0 hα1 in
theorem mv_eq (s : ℝ) {f : X → ℝ} (hf : Measurable f) {M : ℝ} (hb : ∀ x, |f x| ≤ M) (x : X) :
    mv G α s f x = f x + ∫ η, α x (x + s • η) * (f (x + s • η) - f x) ∂G := by
  unfold mv avg
  rw [integral_prod _ (integrable_move hα G s hf hb x)]
  have hη : Measurable fun η : X => x + s • η := by fun_prop
  have ha : Measurable fun η : X => α x (x + s • η) := hα.comp (measurable_const.prodMk hη)
  have hi : Integrable (fun η => α x (x + s • η) * (f (x + s • η) - f x)) G := by
    refine Integrable.of_bound (ha.mul ((hf.comp hη).sub_const _)).aestronglyMeasurable (1 * (M + M))
      (.of_forall fun η => ?_)
    rw [norm_mul]
    refine mul_le_mul ?_ ?_ (norm_nonneg _) zero_le_one
    · rw [Real.norm_eq_abs, abs_of_nonneg (hα0 _ _)]
      exact hα1 _ _
    · exact (norm_sub_le _ _).trans (add_le_add (hb _) (hb _))
  have e : ∀ η, ∫ u, f (arStep α (x, s • η, u)) ∂unif =
      f x + α x (x + s • η) * (f (x + s • η) - f x) := fun η => by
    simp only [apply_arStep]
    rw [integral_unif (hα0 _ _) (hα1 _ _)]
    ring
  simp only [e]
  rw [integral_add (integrable_const _) hi]
  simp

/-- The mean probability of acceptance. -/
noncomputable def acc (G : Measure X) (α : X → X → ℝ) (σ : ℝ) (x : X) : ℝ := ∫ η, α x (x + σ • η) ∂G

include hα in
theorem measurable_acc (σ : ℝ) : Measurable (acc G α σ) := by
  have h2 : Measurable fun z : X × X => (z.1, z.1 + σ • z.2) := by fun_prop
  exact ((hα.comp h2).stronglyMeasurable.integral_prod_right' (ν := G)).measurable

include hα hα0 hα1 in
omit [FiniteDimensional ℝ X] [BorelSpace X] in
theorem abs_acc_le (σ : ℝ) (x : X) : |acc G α σ x| ≤ 1 := by
  have := norm_integral_le_of_norm_le_const (μ := G) (f := fun η => α x (x + σ • η)) (C := 1)
    (.of_forall fun η => by
      rw [Real.norm_eq_abs, abs_of_nonneg (hα0 _ _)]
      exact hα1 _ _)
  unfold acc
  simpa using this

include hα hα0 hα1 in
/-- The mean after two moves from a given position. -/
theorem two_moves_from {σ s s' : ℝ} {f : X → ℝ}
    (hf : Measurable f) {M : ℝ} (hb : ∀ x, |f x| ≤ M) (x : X) :
    ∫ y, f (twoMoves α σ s s' (x, y)) ∂((G.prod unif).prod (G.prod unif)) =
      mv G α σ (mv G α s f) x + (1 - acc G α σ x) * (mv G α s' f x - mv G α s f x) := by
  have h2 := measurable_twoMoves hα σ s s'
  have hi : Integrable (fun y => f (twoMoves α σ s s' (x, y))) ((G.prod unif).prod (G.prod unif)) :=
    Integrable.of_bound (hf.comp (h2.comp measurable_prodMk_left)).aestronglyMeasurable M
      (.of_forall fun y => hb _)
  rw [integral_prod _ hi]
  classical
  have e1 : ∀ y : X × ℝ, ∫ y', f (twoMoves α σ s s' (x, y, y')) ∂(G.prod unif) =
      if y.2 < α x (x + σ • y.1) then mv G α s f (x + σ • y.1) else mv G α s' f x := fun y => by
    unfold twoMoves
    split_ifs <;> rfl
  simp only [e1]
  have hη : Measurable fun η : X => x + σ • η := by fun_prop
  have ha : Measurable fun η : X => α x (x + σ • η) := hα.comp (measurable_const.prodMk hη)
  have hK := measurable_mv hα G s hf
  have hK' := measurable_mv hα G s' hf
  have hbK := abs_mv_le (α := α) G s hb
  have hbK' := abs_mv_le (α := α) G s' hb
  have hi2 : Integrable (fun y : X × ℝ => if y.2 < α x (x + σ • y.1) then mv G α s f (x + σ • y.1)
      else mv G α s' f x) (G.prod unif) := by
    refine Integrable.of_bound (Measurable.aestronglyMeasurable ?_) M (.of_forall fun y => ?_)
    · exact Measurable.ite (measurableSet_lt measurable_snd (ha.comp measurable_fst))
        (hK.comp (hη.comp measurable_fst)) measurable_const
    · split_ifs
      · exact hbK _
      · exact hbK' _
  rw [integral_prod _ hi2, mv_eq hα hα0 hα1 G σ hK hbK]
  have e2 : ∀ η, ∫ u, (if u < α x (x + σ • η) then mv G α s f (x + σ • η) else mv G α s' f x) ∂unif =
      (mv G α s' f x + (-(α x (x + σ • η) * (mv G α s' f x - mv G α s f x)))) +
        α x (x + σ • η) * (mv G α s f (x + σ • η) - mv G α s f x) := fun η => by
    rw [integral_unif (hα0 _ _) (hα1 _ _)]
    ring
  simp only [e2]
  have hiα : Integrable (fun η => α x (x + σ • η)) G :=
    Integrable.of_bound ha.aestronglyMeasurable 1 (.of_forall fun η => by
      rw [Real.norm_eq_abs, abs_of_nonneg (hα0 _ _)]
      exact hα1 _ _)
  have hi3 : Integrable (fun η => α x (x + σ • η) * (mv G α s f (x + σ • η) - mv G α s f x)) G := by
    refine Integrable.of_bound (ha.mul ((hK.comp hη).sub_const _)).aestronglyMeasurable (1 * (M + M))
      (.of_forall fun η => ?_)
    rw [norm_mul]
    refine mul_le_mul ?_ ?_ (norm_nonneg _) zero_le_one
    · rw [Real.norm_eq_abs, abs_of_nonneg (hα0 _ _)]
      exact hα1 _ _
    · exact (norm_sub_le _ _).trans (add_le_add (hbK _) (hbK _))
  have hi4 : Integrable (fun η => -(α x (x + σ • η) * (mv G α s' f x - mv G α s f x))) G :=
    (hiα.mul_const _).neg
  have hi5 : Integrable (fun η => mv G α s' f x +
      -(α x (x + σ • η) * (mv G α s' f x - mv G α s f x))) G := (integrable_const _).add hi4
  rw [integral_add hi5 hi3, integral_add (integrable_const _) hi4, integral_neg, integral_mul_const]
  simp only [integral_const, probReal_univ, one_smul]
  unfold acc
  ring

include hα hα0 hα1 in
theorem two_moves_mean (π : Measure X) [IsProbabilityMeasure π]
    (hinv : ∀ s : ℝ, s ≠ 0 → MeasurePreserving (fun z : X × X × ℝ => arStep α (z.1, s • z.2.1, z.2.2))
      (π.prod (G.prod unif)) π) {σ s s' : ℝ} (hσ : σ ≠ 0) (hs : s ≠ 0) (hs' : s' ≠ 0) {f : X → ℝ}
    (hf : Measurable f) {M : ℝ} (hb : ∀ x, |f x| ≤ M) :
    ∫ z, f (twoMoves α σ s s' z) ∂(π.prod ((G.prod unif).prod (G.prod unif))) =
      ∫ x, f x ∂π + (∫ x, acc G α σ x * (mv G α s f x - f x) ∂π -
        ∫ x, acc G α σ x * (mv G α s' f x - f x) ∂π) := by
  have h2 := measurable_twoMoves hα σ s s'
  have hi : Integrable (fun z => f (twoMoves α σ s s' z)) (π.prod ((G.prod unif).prod (G.prod unif))) :=
    Integrable.of_bound (hf.comp h2).aestronglyMeasurable M (.of_forall fun y => hb _)
  rw [integral_prod _ hi]
  simp only [two_moves_from hα hα0 hα1 G hf hb]
  have hK := measurable_mv hα G s hf
  have hK' := measurable_mv hα G s' hf
  have hbK := abs_mv_le (α := α) G s hb
  have hbK' := abs_mv_le (α := α) G s' hb
  have hA := measurable_acc hα G σ
  have hbA := abs_acc_le hα hα0 hα1 G σ
  have hint : ∀ {g : X → ℝ} {N : ℝ}, Measurable g → (∀ x, |g x| ≤ N) → Integrable g π :=
    fun hg hN => Integrable.of_bound hg.aestronglyMeasurable _ (.of_forall fun x => hN x)
  have hmean : ∀ {g : X → ℝ} {N s : ℝ}, s ≠ 0 → Measurable g → (∀ x, |g x| ≤ N) →
      ∫ x, mv G α s g x ∂π = ∫ x, g x ∂π := fun {g N s} hs hg hN => by
    have hF := (hinv s hs)
    have hgi : Integrable (fun z : X × X × ℝ => g (arStep α (z.1, s • z.2.1, z.2.2)))
        (π.prod (G.prod unif)) := hF.integrable_comp_of_integrable (hint hg hN)
    have := integral_prod _ hgi
    rw [← hF.map_eq, integral_map hF.measurable.aemeasurable hg.aestronglyMeasurable, this, hF.map_eq]
    rfl
  have hmul : ∀ {g : X → ℝ} {N : ℝ}, Measurable g → (∀ x, |g x| ≤ N) →
      Integrable (fun x => acc G α σ x * g x) π := fun {g N} hg hN =>
    Integrable.of_bound (hA.mul hg).aestronglyMeasurable (1 * N) (.of_forall fun x => by
      rw [norm_mul]
      exact mul_le_mul (hbA x) (hN x) (norm_nonneg _) zero_le_one)
  have h3 := hint (measurable_mv hα G σ hK) (abs_mv_le (α := α) G σ hbK)
  have h4 := hint hK hbK
  have h4' := hint hK' hbK'
  have h5 : Integrable (fun x => acc G α σ x * (mv G α s f x - f x)) π :=
    hmul (hK.sub hf) fun x => (abs_sub _ _).trans (add_le_add (hbK x) (hb x))
  have h5' : Integrable (fun x => acc G α σ x * (mv G α s' f x - f x)) π :=
    hmul (hK'.sub hf) fun x => (abs_sub _ _).trans (add_le_add (hbK' x) (hb x))
  have e : ∀ x, mv G α σ (mv G α s f) x + (1 - acc G α σ x) * (mv G α s' f x - mv G α s f x) =
      mv G α σ (mv G α s f) x + (mv G α s' f x - mv G α s f x) +
        (acc G α σ x * (mv G α s f x - f x) - acc G α σ x * (mv G α s' f x - f x)) := fun x => by ring
  simp only [e]
  have h6 : Integrable (fun x => mv G α s' f x - mv G α s f x) π := h4'.sub h4
  have h7 : Integrable (fun x => acc G α σ x * (mv G α s f x - f x) -
      acc G α σ x * (mv G α s' f x - f x)) π := h5.sub h5'
  have h8 : Integrable (fun x => mv G α σ (mv G α s f) x + (mv G α s' f x - mv G α s f x)) π :=
    h3.add h6
  rw [integral_add h8 h7, integral_add h3 h6, integral_sub h5 h5', integral_sub h4' h4,
    hmean hσ hK hbK, hmean hs hf hb, hmean hs' hf hb]
  ring

end two

end Verif.Ergodic
