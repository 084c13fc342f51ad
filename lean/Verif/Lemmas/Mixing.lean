import Verif.Lemmas.Ergodic
import Verif.Lemmas.Invariance

/-!
Accept/reject moves with symmetric noise are reversible, mix, and leave every position.
-/

namespace Verif.Ergodic
open Filter Topology MeasureTheory Verif.Reversible ENNReal Set

variable {X : Type} [MeasurableSpace X] [AddCommGroup X] [MeasurableAdd₂ X]

/-- One walker: position and draws to the next position. -/
noncomputable def arStep (a : X → X → ℝ) (z : X × X × ℝ) : X := arMove a z.1 z.2.1 z.2.2

theorem measurable_arStep {a : X → X → ℝ} (ha : Measurable fun z : X × X => a z.1 z.2) :
    Measurable (arStep a) := measurable_arMove ha

section reversible

variable [MeasurableNeg X] (vol : Measure X) [SFinite vol] [vol.IsAddRightInvariant]
  (γ : Measure X) [IsProbabilityMeasure γ] (hγ : γ.map (fun x => -x) = γ)
  (p : X → ℝ≥0∞) (hp : Measurable p) (a : X → X → ℝ)
  (ha : Measurable fun z : X × X => a z.1 z.2) (h0 : ∀ x y, 0 ≤ a x y) (h1 : ∀ x y, a x y ≤ 1)

include hp ha h0 h1 in
omit [MeasurableNeg X] [vol.IsAddRightInvariant] in
theorem lintegral_arStep {φ : X × X → ℝ≥0∞} (hφ : Measurable φ) :
    ∫⁻ z, φ (z.1, arStep a z) ∂((vol.withDensity p).prod (γ.prod unif)) =
      (∫⁻ x, ∫⁻ η, p x * (ENNReal.ofReal (a x (x + η)) * φ (x, x + η)) ∂γ ∂vol) +
      ∫⁻ x, ∫⁻ η, p x * (ENNReal.ofReal (1 - a x (x + η)) * φ (x, x)) ∂γ ∂vol := by
  have hm := measurable_arStep ha
  have hc : Measurable fun z : X × X × ℝ => φ (z.1, arStep a z) :=
    hφ.comp (measurable_fst.prodMk hm)
  rw [lintegral_prod _ hc.aemeasurable]
  have hinner : ∀ x, ∫⁻ (y : X × ℝ), φ (x, arStep a (x, y)) ∂(γ.prod unif) =
      ∫⁻ η, (ENNReal.ofReal (a x (x + η)) * φ (x, x + η) +
        ENNReal.ofReal (1 - a x (x + η)) * φ (x, x)) ∂γ := by
    intro x
    rw [lintegral_prod (fun y : X × ℝ => φ (x, arStep a (x, y)))
      (hc.comp measurable_prodMk_left).aemeasurable]
    refine lintegral_congr fun η => ?_
    rw [← lintegral_unif (h0 _ _) (h1 _ _)]
    refine lintegral_congr fun u => ?_
    simp only [arStep, arMove]
    split_ifs <;> rfl
  simp_rw [hinner]
  have ha2 : Measurable fun z : X × X => ENNReal.ofReal (a z.1 (z.1 + z.2)) :=
    (ha.comp (measurable_fst.prodMk (measurable_fst.add measurable_snd))).ennreal_ofReal
  have ha3 : Measurable fun z : X × X => ENNReal.ofReal (1 - a z.1 (z.1 + z.2)) :=
    ((measurable_const.sub
      (ha.comp (measurable_fst.prodMk (measurable_fst.add measurable_snd))))).ennreal_ofReal
  have hG : Measurable fun z : X × X => ENNReal.ofReal (a z.1 (z.1 + z.2)) * φ (z.1, z.1 + z.2) :=
    ha2.mul (hφ.comp (measurable_fst.prodMk (measurable_fst.add measurable_snd)))
  have hH : Measurable fun z : X × X => ENNReal.ofReal (1 - a z.1 (z.1 + z.2)) * φ (z.1, z.1) :=
    ha3.mul (hφ.comp (measurable_fst.prodMk measurable_fst))
  rw [lintegral_withDensity_eq_lintegral_mul _ hp
    (Measurable.lintegral_prod_right' (f := fun z : X × X =>
      ENNReal.ofReal (a z.1 (z.1 + z.2)) * φ (z.1, z.1 + z.2) +
        ENNReal.ofReal (1 - a z.1 (z.1 + z.2)) * φ (z.1, z.1)) (hG.add hH))]
  simp only [Pi.mul_apply]
  rw [← lintegral_add_left (Measurable.lintegral_prod_right' (f := fun z : X × X =>
    p z.1 * (ENNReal.ofReal (a z.1 (z.1 + z.2)) * φ (z.1, z.1 + z.2)))
    ((hp.comp measurable_fst).mul hG))]
  refine lintegral_congr fun x => ?_
  have e1 : Measurable fun η => ENNReal.ofReal (a x (x + η)) * φ (x, x + η) :=
    hG.comp measurable_prodMk_left
  have e2 : Measurable fun η => ENNReal.ofReal (1 - a x (x + η)) * φ (x, x) :=
    hH.comp measurable_prodMk_left
  simp only
  rw [lintegral_add_left e1, mul_add, lintegral_const_mul _ e1, lintegral_const_mul _ e2]

include hγ hp ha h0 h1 in
theorem arStep_reversible
    (db : ∀ x y, p x * ENNReal.ofReal (a x y) = p y * ENNReal.ofReal (a y x)) :
    Reversible (vol.withDensity p) (γ.prod unif) (arStep a) := by
  have hm := measurable_arStep ha
  unfold Reversible
  refine Measure.ext_of_lintegral _ fun φ hφ => ?_
  rw [lintegral_map hφ (measurable_fst.prodMk hm), lintegral_map hφ (hm.prodMk measurable_fst)]
  rw [lintegral_arStep vol γ p hp a ha h0 h1 hφ]
  have hs := lintegral_arStep vol γ p hp a ha h0 h1 (hφ.comp measurable_swap)
  simp only [Function.comp, Prod.swap] at hs
  rw [hs]
  congr 1
  have ha2 : Measurable fun z : X × X => ENNReal.ofReal (a z.1 (z.1 + z.2)) :=
    (ha.comp (measurable_fst.prodMk (measurable_fst.add measurable_snd))).ennreal_ofReal
  have hpG : Measurable fun z : X × X => p z.1 * (ENNReal.ofReal (a z.1 (z.1 + z.2)) *
      φ (z.1, z.1 + z.2)) := (hp.comp measurable_fst).mul
    (ha2.mul (hφ.comp (measurable_fst.prodMk (measurable_fst.add measurable_snd))))
  have hpG' : Measurable fun z : X × X => p z.1 * (ENNReal.ofReal (a z.1 (z.1 + z.2)) *
      φ (z.1 + z.2, z.1)) := (hp.comp measurable_fst).mul
    (ha2.mul (hφ.comp ((measurable_fst.add measurable_snd).prodMk measurable_fst)))
  rw [lintegral_lintegral_swap hpG.aemeasurable]
  have h2 : ∀ η, ∫⁻ x, p x * (ENNReal.ofReal (a x (x + η)) * φ (x, x + η)) ∂vol =
      ∫⁻ y, p y * (ENNReal.ofReal (a y (y + -η)) * φ (y + -η, y)) ∂vol := by
    intro η
    rw [← lintegral_add_right_eq_self
      (fun y => p y * (ENNReal.ofReal (a y (y + -η)) * φ (y + -η, y))) η]
    refine lintegral_congr fun x => ?_
    rw [add_neg_cancel_right, ← mul_assoc, ← mul_assoc, db]
  simp_rw [h2]
  have hmeas : Measurable fun η => ∫⁻ y, p y * (ENNReal.ofReal (a y (y + η)) * φ (y + η, y)) ∂vol :=
    Measurable.lintegral_prod_left' (f := fun z : X × X =>
      p z.1 * (ENNReal.ofReal (a z.1 (z.1 + z.2)) * φ (z.1 + z.2, z.1))) hpG'
  have h3 : ∫⁻ η, ∫⁻ y, p y * (ENNReal.ofReal (a y (y + -η)) * φ (y + -η, y)) ∂vol ∂γ =
      ∫⁻ η, ∫⁻ y, p y * (ENNReal.ofReal (a y (y + η)) * φ (y + η, y)) ∂vol ∂γ := by
    conv_rhs => rw [← hγ]
    rw [lintegral_map hmeas measurable_neg]
  rw [h3, lintegral_lintegral_swap (f := fun x η =>
    p x * (ENNReal.ofReal (a x (x + η)) * φ (x + η, x))) hpG'.aemeasurable]

end reversible

section mixing

variable {vol : Measure X} [SFinite vol] [vol.IsAddLeftInvariant]
  {γ : Measure X} [IsProbabilityMeasure γ] (hγv : γ ≪ vol) (hvγ : vol ≪ γ)
  {p : X → ℝ≥0∞} (hp : Measurable p) (hp0 : ∀ᵐ x ∂vol, p x ≠ 0) {a : X → X → ℝ}
  (ha : Measurable fun z : X × X => a z.1 z.2) (h0 : ∀ x y, 0 ≤ a x y) (h1 : ∀ x y, a x y ≤ 1)
  (hpos : ∀ x, ∀ᵐ y ∂vol, 0 < a x y)

include hγv in
omit [SFinite vol] [IsProbabilityMeasure γ] in
theorem ae_translate {q : X → Prop} (h : ∀ᵐ y ∂vol, q y) (x : X) : ∀ᵐ η ∂γ, q (x + η) := by
  refine hγv.ae_le ?_
  have := (measurePreserving_add_left vol x).quasiMeasurePreserving.ae h
  exact this

include hvγ in
omit [SFinite vol] [IsProbabilityMeasure γ] in
theorem ae_of_translate {q : X → Prop} {x : X} (h : ∀ᵐ η ∂γ, q (x + η)) : ∀ᵐ y ∂vol, q y := by
  have h1 := (measurePreserving_add_left vol (-x)).quasiMeasurePreserving.ae (hvγ.ae_le h)
  filter_upwards [h1] with y hy
  simpa using hy

include hγv hpos h1 in
omit [SFinite vol] [IsProbabilityMeasure γ] in
theorem accept_ae {q : X → ℝ → Prop} {x : X}
    (h : ∀ᵐ w ∂(γ.prod unif), q w.1 w.2) :
    ∀ᵐ η ∂γ, ∃ u, u < a x (x + η) ∧ q η u := by
  filter_upwards [Measure.ae_ae_of_ae_prod h, ae_translate hγv (hpos x) x] with η hη hap
  have hne : unif (Iio (a x (x + η))) ≠ 0 := by
    rw [unif_Iio (h1 _ _)]
    exact (ENNReal.ofReal_pos.mpr hap).ne'
  by_contra hcon
  push Not at hcon
  apply hne
  refine measure_mono_null (fun u hu => ?_) hη
  exact hcon u hu

include hγv hvγ h1 hpos in
omit [SFinite vol] in
theorem arStep_mixing [NeZero (vol.withDensity p)] :
    Mixing (vol.withDensity p) (γ.prod unif) (arStep a) := by
  intro g h hg hh hae
  have hx := Measure.ae_ae_of_ae_prod hae
  obtain ⟨x, hx⟩ := hx.exists
  refine ⟨h x, (withDensity_absolutelyContinuous vol p).ae_le ?_⟩
  refine ae_of_translate hvγ (x := x) ?_
  filter_upwards [accept_ae (a := a) (x := x) (q := fun η u => g (arStep a (x, η, u)) = h x)
    hγv h1 hpos hx] with η hη
  obtain ⟨u, hu, he⟩ := hη
  rw [← he]
  simp [arStep, arMove, hu]

open Classical in
theorem integral_unif {a : ℝ} (h0 : 0 ≤ a) (h1 : a ≤ 1) (c d : ℝ) :
    ∫ u, (if u < a then c else d) ∂unif = a * c + (1 - a) * d := by
  have : ∀ u : ℝ, (if u < a then c else d) =
      (Iio a).indicator (fun _ => c) u + (Ici a).indicator (fun _ => d) u := by
    intro u
    by_cases h : u < a
    · simp [indicator, h, not_le.mpr h]
    · simp [indicator, h, not_lt.mp h]
  simp_rw [this]
  rw [integral_add ((integrable_const c).indicator measurableSet_Iio)
    ((integrable_const d).indicator measurableSet_Ici), integral_indicator_const _ measurableSet_Iio,
    integral_indicator_const _ measurableSet_Ici, Measure.real, Measure.real, unif_Iio h1, unif_Ici h0,
    ENNReal.toReal_ofReal h0, ENNReal.toReal_ofReal (by linarith)]
  simp

include ha h0 h1 in
omit [SFinite vol] [vol.IsAddLeftInvariant] in
theorem avg_arStep {f : X → ℝ} (hf : Measurable f) {M : ℝ} (hb : ∀ x, |f x| ≤ M) (x : X) :
    avg (γ.prod unif) (arStep a) f x =
      ∫ η, (a x (x + η) * f (x + η) + (1 - a x (x + η)) * f x) ∂γ := by
  unfold avg
  have hm : Measurable fun w : X × ℝ => f (arStep a (x, w)) :=
    hf.comp ((measurable_arStep ha).comp measurable_prodMk_left)
  rw [integral_prod _ (Integrable.of_bound hm.aestronglyMeasurable M (.of_forall fun w => hb _))]
  refine integral_congr_ae (.of_forall fun η => ?_)
  simp only
  rw [← integral_unif (h0 _ _) (h1 _ _)]
  refine integral_congr_ae (.of_forall fun u => ?_)
  simp only [arStep, arMove]
  split_ifs <;> rfl

include hγv hp hp0 ha h0 h1 hpos in
omit [SFinite vol] in
theorem arStep_leaves (x : X) : Leaves (vol.withDensity p) (γ.prod unif) (arStep a) x := by
  have hax : Measurable fun y => a x y := ha.comp measurable_prodMk_left
  have hxm : Measurable fun η : X => x + η := measurable_const_add x
  have haη : Measurable fun η => a x (x + η) := hax.comp hxm
  have hai : Integrable (fun η => a x (x + η)) γ :=
    Integrable.of_bound haη.aestronglyMeasurable 1 (.of_forall fun η => by
      rw [Real.norm_eq_abs, abs_of_nonneg (h0 _ _)]; exact h1 _ _)
  have hprob : IsProbabilityMeasure (γ.map fun η => x + η) :=
    Measure.isProbabilityMeasure_map hxm.aemeasurable
  refine ⟨(γ.map fun η => x + η).withDensity fun y => ENNReal.ofReal (a x y),
    1 - ∫ η, a x (x + η) ∂γ, ?_, ?_, ?_, ?_, ?_⟩
  · refine isFiniteMeasure_withDensity_ofReal ?_
    refine (Integrable.of_bound (μ := γ.map fun η => x + η) hax.aestronglyMeasurable 1
      (.of_forall fun η => ?_)).2
    rw [Real.norm_eq_abs, abs_of_nonneg (h0 _ _)]; exact h1 _ _
  · refine (withDensity_absolutelyContinuous _ _).trans ?_
    refine Measure.AbsolutelyContinuous.trans ?_
      (withDensity_absolutelyContinuous' hp.aemeasurable hp0)
    have := hγv.map hxm
    rwa [(measurePreserving_add_left vol x).map_eq] at this
  · have : ∫ η, a x (x + η) ∂γ ≤ ∫ η, (1 : ℝ) ∂γ :=
      integral_mono hai (integrable_const 1) fun η => h1 _ _
    simp at this
    linarith
  · have : 0 < ∫ η, a x (x + η) ∂γ := by
      rw [integral_pos_iff_support_of_nonneg (fun η => h0 _ _) hai]
      have hone : γ (Function.support fun η => a x (x + η)) = γ univ := by
        refine measure_congr ?_
        filter_upwards [ae_translate hγv (hpos x) x] with η hη
        exact propext ⟨fun _ => trivial, fun _ => hη.ne'⟩
      rw [hone, measure_univ]
      exact one_pos
    linarith
  · intro f hf hb
    rw [avg_arStep ha h0 h1 hf hb]
    have i1 : Integrable (fun η => a x (x + η) * f (x + η)) γ :=
      hai.mul_bdd (c := 1) (hf.comp hxm).aestronglyMeasurable (.of_forall fun η => hb _)
    have i2 : Integrable (fun η => (1 - a x (x + η)) * f x) γ :=
      ((integrable_const 1).sub hai).mul_const _
    rw [integral_add i1 i2, integral_mul_const, integral_sub (integrable_const 1) hai]
    congr 1
    · rw [integral_withDensity_eq_integral_toReal_smul hax.ennreal_ofReal
        (.of_forall fun _ => ENNReal.ofReal_lt_top), integral_map hxm.aemeasurable]
      · refine integral_congr_ae (.of_forall fun η => ?_)
        simp only [smul_eq_mul, ENNReal.toReal_ofReal (h0 _ _)]
      · exact (hax.ennreal_ofReal.ennreal_toReal.smul hf).aestronglyMeasurable
    · simp

end mixing

end Verif.Ergodic
