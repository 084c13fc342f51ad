import Mathlib.MeasureTheory.Measure.Haar.OfBasis
import Mathlib.MeasureTheory.Constructions.Pi
import Mathlib.MeasureTheory.Group.LIntegral
import Mathlib.MeasureTheory.Measure.Prod
import Mathlib.Probability.Distributions.Gaussian.Real
import Mathlib.Tactic

/-! Reversible accept/reject moves leave their target measure invariant. -/

namespace Verif.Reversible
open MeasureTheory ENNReal Set

/-- law of `jax.random.uniform`: Lebesgue measure on [0,1) -/
noncomputable def unif : Measure ℝ := volume.restrict (Ico 0 1)

instance : IsProbabilityMeasure unif := ⟨by simp [unif]⟩

theorem unif_Iio {a : ℝ} (h1 : a ≤ 1) : unif (Iio a) = ENNReal.ofReal a := by
  unfold unif
  rw [Measure.restrict_apply measurableSet_Iio]
  have : Iio a ∩ Ico 0 1 = Ico 0 a := by
    ext u; simp only [mem_inter_iff, mem_Iio, mem_Ico]
    constructor
    · rintro ⟨h, h2, -⟩; exact ⟨h2, h⟩
    · rintro ⟨h, h2⟩; exact ⟨h2, h, lt_of_lt_of_le h2 h1⟩
  rw [this]; simp

theorem unif_Ici {a : ℝ} (h0 : 0 ≤ a) : unif (Ici a) = ENNReal.ofReal (1 - a) := by
  unfold unif
  rw [Measure.restrict_apply measurableSet_Ici]
  have : Ici a ∩ Ico 0 1 = Ico a 1 := by
    ext u; simp only [mem_inter_iff, mem_Ici, mem_Ico]
    constructor
    · rintro ⟨h, -, h3⟩; exact ⟨h, h3⟩
    · rintro ⟨h, h2⟩; exact ⟨h, le_trans h0 h, h2⟩
  rw [this]; simp

open Classical in
theorem lintegral_unif {a : ℝ} (h0 : 0 ≤ a) (h1 : a ≤ 1) (c d : ℝ≥0∞) :
    ∫⁻ u, (if u < a then c else d) ∂unif = ENNReal.ofReal a * c + ENNReal.ofReal (1 - a) * d := by
  have : ∀ u : ℝ, (if u < a then c else d) =
      (Iio a).indicator (fun _ => c) u + (Ici a).indicator (fun _ => d) u := by
    intro u
    by_cases h : u < a
    · simp [indicator, h, not_le.mpr h]
    · simp [indicator, h, not_lt.mp h]
  simp_rw [this]
  rw [lintegral_add_left (measurable_const.indicator measurableSet_Iio),
    lintegral_indicator_const measurableSet_Iio, lintegral_indicator_const measurableSet_Ici,
    unif_Iio h1, unif_Ici h0, mul_comm, mul_comm d]

variable {X : Type} [MeasurableSpace X] [AddCommGroup X] [MeasurableAdd₂ X]

open Classical in
/-- accept/reject move with noise `η` and uniform draw `u` -/
noncomputable def arMove (a : X → X → ℝ) (x η : X) (u : ℝ) : X :=
  if u < a x (x + η) then x + η else x

theorem measurable_arMove {a : X → X → ℝ} (ha : Measurable fun z : X × X => a z.1 z.2) :
    Measurable fun z : X × X × ℝ => arMove a z.1 z.2.1 z.2.2 := by
  unfold arMove
  refine Measurable.ite ?_ ?_ measurable_fst
  · refine measurableSet_lt (by fun_prop) ?_
    exact ha.comp (measurable_fst.prodMk (measurable_fst.add (measurable_fst.comp measurable_snd)))
  · exact measurable_fst.add (measurable_fst.comp measurable_snd)

theorem arMove_invariant [MeasurableNeg X] (vol : Measure X) [SFinite vol] [vol.IsAddRightInvariant]
    (γ : Measure X) [IsProbabilityMeasure γ] (hγ : γ.map (fun x => -x) = γ)
    (p : X → ℝ≥0∞) (hp : Measurable p) (a : X → X → ℝ)
    (ha : Measurable fun z : X × X => a z.1 z.2) (h0 : ∀ x y, 0 ≤ a x y)
    (h1 : ∀ x y, a x y ≤ 1)
    (db : ∀ x y, p x * ENNReal.ofReal (a x y) = p y * ENNReal.ofReal (a y x)) :
    (((vol.withDensity p).prod (γ.prod unif)).map fun z => arMove a z.1 z.2.1 z.2.2) =
      vol.withDensity p := by
  ext A hA
  have hm := measurable_arMove ha
  set f : X → ℝ≥0∞ := A.indicator 1 with hf
  have hfm : Measurable f := measurable_one.indicator hA
  rw [Measure.map_apply hm hA, ← lintegral_indicator_one (hm hA)]
  have hcomp : ∀ z : X × X × ℝ, ((fun z : X × X × ℝ => arMove a z.1 z.2.1 z.2.2) ⁻¹' A).indicator
      (1 : X × X × ℝ → ℝ≥0∞) z = f (arMove a z.1 z.2.1 z.2.2) := fun z => rfl
  simp_rw [hcomp]
  rw [lintegral_prod (fun z : X × X × ℝ => f (arMove a z.1 z.2.1 z.2.2))
    (hfm.comp hm).aemeasurable]
  have hinner : ∀ x, ∫⁻ (y : X × ℝ), f (arMove a x y.1 y.2) ∂(γ.prod unif) =
      ∫⁻ η, (ENNReal.ofReal (a x (x + η)) * f (x + η) +
        ENNReal.ofReal (1 - a x (x + η)) * f x) ∂γ := by
    intro x
    rw [lintegral_prod (fun y : X × ℝ => f (arMove a x y.1 y.2))
      (hfm.comp (hm.comp measurable_prodMk_left)).aemeasurable]
    refine lintegral_congr fun η => ?_
    rw [← lintegral_unif (h0 _ _) (h1 _ _)]
    refine lintegral_congr fun u => ?_
    simp only [arMove]
    split_ifs <;> rfl
  simp_rw [hinner]
  -- measurability of the pieces
  have ha2 : Measurable fun z : X × X => ENNReal.ofReal (a z.1 (z.1 + z.2)) :=
    (ha.comp (measurable_fst.prodMk (measurable_fst.add measurable_snd))).ennreal_ofReal
  have ha3 : Measurable fun z : X × X => ENNReal.ofReal (1 - a z.1 (z.1 + z.2)) :=
    ((measurable_const.sub
      (ha.comp (measurable_fst.prodMk (measurable_fst.add measurable_snd))))).ennreal_ofReal
  have hG : Measurable fun z : X × X => ENNReal.ofReal (a z.1 (z.1 + z.2)) * f (z.1 + z.2) :=
    ha2.mul (hfm.comp (measurable_fst.add measurable_snd))
  have hH : Measurable fun z : X × X => ENNReal.ofReal (1 - a z.1 (z.1 + z.2)) * f z.1 :=
    ha3.mul (hfm.comp measurable_fst)
  have hG' : Measurable fun z : X × X => ENNReal.ofReal (a z.1 (z.1 + z.2)) * f z.1 :=
    ha2.mul (hfm.comp measurable_fst)
  rw [lintegral_withDensity_eq_lintegral_mul _ hp
    (Measurable.lintegral_prod_right' (f := fun z : X × X =>
      ENNReal.ofReal (a z.1 (z.1 + z.2)) * f (z.1 + z.2) +
        ENNReal.ofReal (1 - a z.1 (z.1 + z.2)) * f z.1) (hG.add hH))]
  simp only [Pi.mul_apply]
  have hsplit : ∀ x, p x * ∫⁻ η, (ENNReal.ofReal (a x (x + η)) * f (x + η) +
        ENNReal.ofReal (1 - a x (x + η)) * f x) ∂γ =
      (∫⁻ η, p x * (ENNReal.ofReal (a x (x + η)) * f (x + η)) ∂γ) +
      ∫⁻ η, p x * (ENNReal.ofReal (1 - a x (x + η)) * f x) ∂γ := by
    intro x
    have e1 : Measurable fun η => ENNReal.ofReal (a x (x + η)) * f (x + η) :=
      hG.comp measurable_prodMk_left
    have e2 : Measurable fun η => ENNReal.ofReal (1 - a x (x + η)) * f x :=
      hH.comp measurable_prodMk_left
    rw [lintegral_add_left e1, mul_add, lintegral_const_mul _ e1, lintegral_const_mul _ e2]
  simp_rw [hsplit]
  have hpG : Measurable fun z : X × X => p z.1 * (ENNReal.ofReal (a z.1 (z.1 + z.2)) *
    f (z.1 + z.2)) := (hp.comp measurable_fst).mul hG
  have hpG' : Measurable fun z : X × X => p z.1 * (ENNReal.ofReal (a z.1 (z.1 + z.2)) *
    f z.1) := (hp.comp measurable_fst).mul hG'
  have hpH : Measurable fun z : X × X => p z.1 * (ENNReal.ofReal (1 - a z.1 (z.1 + z.2)) *
    f z.1) := (hp.comp measurable_fst).mul hH
  rw [lintegral_add_left (Measurable.lintegral_prod_right' (f := fun z : X × X =>
    p z.1 * (ENNReal.ofReal (a z.1 (z.1 + z.2)) * f (z.1 + z.2))) hpG)]
  -- the key exchange
  have hkey : ∫⁻ x, ∫⁻ η, p x * (ENNReal.ofReal (a x (x + η)) * f (x + η)) ∂γ ∂vol =
      ∫⁻ x, ∫⁻ η, p x * (ENNReal.ofReal (a x (x + η)) * f x) ∂γ ∂vol := by
    rw [lintegral_lintegral_swap hpG.aemeasurable]
    have h2 : ∀ η, ∫⁻ x, p x * (ENNReal.ofReal (a x (x + η)) * f (x + η)) ∂vol =
        ∫⁻ y, p y * (ENNReal.ofReal (a y (y + -η)) * f y) ∂vol := by
      intro η
      rw [← lintegral_add_right_eq_self
        (fun y => p y * (ENNReal.ofReal (a y (y + -η)) * f y)) η]
      refine lintegral_congr fun x => ?_
      rw [add_neg_cancel_right, ← mul_assoc, ← mul_assoc, db]
    simp_rw [h2]
    have hmeas : Measurable fun η => ∫⁻ y, p y * (ENNReal.ofReal (a y (y + η)) * f y) ∂vol :=
      Measurable.lintegral_prod_left' (f := fun z : X × X =>
        p z.1 * (ENNReal.ofReal (a z.1 (z.1 + z.2)) * f z.1)) hpG'
    have h3 : ∫⁻ η, ∫⁻ y, p y * (ENNReal.ofReal (a y (y + -η)) * f y) ∂vol ∂γ =
        ∫⁻ η, ∫⁻ y, p y * (ENNReal.ofReal (a y (y + η)) * f y) ∂vol ∂γ := by
      conv_rhs => rw [← hγ]
      rw [lintegral_map hmeas measurable_neg]
    rw [h3, lintegral_lintegral_swap (f := fun x η =>
      p x * (ENNReal.ofReal (a x (x + η)) * f x)) hpG'.aemeasurable]
  rw [hkey, ← lintegral_add_left (Measurable.lintegral_prod_right' (f := fun z : X × X =>
    p z.1 * (ENNReal.ofReal (a z.1 (z.1 + z.2)) * f z.1)) hpG')]
  have hfin : ∀ x, (∫⁻ η, p x * (ENNReal.ofReal (a x (x + η)) * f x) ∂γ) +
      ∫⁻ η, p x * (ENNReal.ofReal (1 - a x (x + η)) * f x) ∂γ = p x * f x := by
    intro x
    have e1 : Measurable fun η => p x * (ENNReal.ofReal (a x (x + η)) * f x) :=
      hpG'.comp measurable_prodMk_left
    rw [← lintegral_add_left e1]
    have : ∀ η, p x * (ENNReal.ofReal (a x (x + η)) * f x) +
        p x * (ENNReal.ofReal (1 - a x (x + η)) * f x) = p x * f x := by
      intro η
      rw [← mul_add, ← add_mul, ← ENNReal.ofReal_add (h0 _ _) (by linarith [h1 x (x + η)])]
      simp
    simp_rw [this]
    simp
  simp_rw [hfin]
  rw [withDensity_apply _ hA, ← lintegral_indicator hA]
  refine lintegral_congr fun x => ?_
  by_cases hx : x ∈ A <;> simp [hf, hx]

end Verif.Reversible
