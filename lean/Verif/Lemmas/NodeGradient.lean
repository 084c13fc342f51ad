import Mathlib.Tactic
import Mathlib.MeasureTheory.Constructions.Pi
import Mathlib.MeasureTheory.Integral.Prod
import Mathlib.MeasureTheory.Function.L2Space

/-! Products of square-integrable variables which are not square-integrable make estimators whose second
moments are infinite. -/

namespace Verif.Node
open MeasureTheory Filter Topology

/-- If `G` of independent samples controls a function `w` of one of them up to integrable ones, and `w` is
not integrable, then `G` is not. -/
theorem not_integrable_of_le {X ι : Type} [MeasurableSpace X] [Fintype ι] [DecidableEq ι] (i₀ : ι)
    {π : Measure X} [IsProbabilityMeasure π] {w u : X → ℝ} {G : (ι → X) → ℝ}
    (hw : AEStronglyMeasurable w π) (hu : Integrable u π) (hwn : ¬Integrable w π)
    (h : ∀ x : ι → X, ∃ C, ∀ y, |w y| ≤ C * (|G (Function.update x i₀ y)| + u y)) :
    ¬Integrable G (Measure.pi fun _ : ι => π) := by
  intro hG
  let p : ι → Prop := fun i => i = i₀
  have hmp := measurePreserving_piEquivPiSubtypeProd (fun _ : ι => π) p
  have h1 := (hmp.symm).integrable_comp_of_integrable hG
  have hmp2 : MeasurePreserving (MeasurableEquiv.funUnique {i // p i} X).symm π
      (@Measure.pi (Subtype p) (fun _ => X) (Subtype.fintype p) _ fun _ => π) := by
    convert (measurePreserving_funUnique π {i // p i}).symm
  have h2 := h1.prod_left_ae
  obtain ⟨r, hr⟩ := h2.exists
  have h3 := hmp2.integrable_comp_of_integrable hr
  have hX : Nonempty X := by
    by_contra hX
    rw [not_nonempty_iff] at hX
    have := IsProbabilityMeasure.ne_zero π
    exact this (Measure.eq_zero_of_isEmpty π)
  obtain ⟨y₀⟩ := hX
  let x₀ : ι → X := fun i => if hi : p i then y₀ else r ⟨i, hi⟩
  have e1 : ∀ y, G ((MeasurableEquiv.piEquivPiSubtypeProd (fun _ : ι => X) p).symm
      ((MeasurableEquiv.funUnique {i // p i} X).symm y, r)) = G (Function.update x₀ i₀ y) := by
    intro y
    congr 1
    funext i
    by_cases hi : p i
    · obtain rfl : i = i₀ := hi
      simp [MeasurableEquiv.piEquivPiSubtypeProd, Equiv.piEquivPiSubtypeProd, p,
        MeasurableEquiv.funUnique]
    · have : i ≠ i₀ := hi
      simp [MeasurableEquiv.piEquivPiSubtypeProd, Equiv.piEquivPiSubtypeProd, p, this, x₀]
  have h4 : Integrable (fun y => G (Function.update x₀ i₀ y)) π := by
    refine h3.congr (.of_forall fun y => ?_)
    simp only [Function.comp, e1]
  obtain ⟨C, hb⟩ := h x₀
  exact hwn (((h4.abs.add hu).const_mul C).mono' hw (.of_forall hb))

/-- If `G` of independent samples controls the product `e * g` of one of them, and `e * g` has no second
moment, then `G` has none. -/
theorem not_integrable_sq {X ι : Type} [MeasurableSpace X] [Fintype ι] [DecidableEq ι] (i₀ : ι)
    {π : Measure X} [IsProbabilityMeasure π] {e g : X → ℝ} {G : (ι → X) → ℝ}
    (he : AEStronglyMeasurable e π) (hg : AEStronglyMeasurable g π)
    (he2 : Integrable (fun x => e x ^ 2) π) (hg2 : Integrable (fun x => g x ^ 2) π)
    (heg : ¬Integrable (fun x => (e x * g x) ^ 2) π)
    (h : ∀ x : ι → X, ∃ C, 0 ≤ C ∧ ∀ y, |e y * g y| ≤
      C * (|G (Function.update x i₀ y)| + |e y| + |g y| + 1)) :
    ¬Integrable (fun x => G x ^ 2) (Measure.pi fun _ : ι => π) := by
  refine not_integrable_of_le i₀ (w := fun x => (e x * g x) ^ 2) ((he.mul hg).pow 2) ((he2.add hg2).add
    (integrable_const 1)) heg fun x => ?_
  obtain ⟨C, hC, hb⟩ := h x
  refine ⟨C ^ 2 * 4, fun y => ?_⟩
  rw [abs_of_nonneg (sq_nonneg _), abs_of_nonneg (sq_nonneg (G _)), ← sq_abs (e y * g y)]
  refine (pow_le_pow_left₀ (abs_nonneg _) (hb y) 2).trans ?_
  rw [mul_pow, mul_assoc]
  refine mul_le_mul_of_nonneg_left ?_ (sq_nonneg C)
  simp only [Pi.add_apply]
  rw [← sq_abs (G _), ← sq_abs (e y), ← sq_abs (g y)]
  generalize |G (Function.update x i₀ y)| = a
  generalize |e y| = b
  generalize |g y| = c
  nlinarith [sq_nonneg (a - b), sq_nonneg (a - c), sq_nonneg (a - 1), sq_nonneg (b - c), sq_nonneg (b - 1),
    sq_nonneg (c - 1)]

end Verif.Node
