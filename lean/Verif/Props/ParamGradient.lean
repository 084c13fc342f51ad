import Verif.Props.EvalVariance
import Verif.Props.Unbiased

/-!
C96: the energy of a configured wave function is a differentiable function of its parameters, and the
gradient which training computes is its derivative in the mean.
-/

namespace Verif.Props
open Verif.Construct Verif.Net Verif.Spec Verif.Slog Verif.Decay Verif.Phys Verif.Ibp MeasureTheory
open Filter Topology Verif.Energy
open scoped ContDiff

section family

variable {N m d : ℕ} {R : Fin m → Fin d → ℝ} {I : Set ℝ} {ψ ψ' : ℝ → Pos N d → ℝ} {β C : ℝ}

/-- Wave functions which depend on a parameter in `I`, with bounds which do not. -/
structure Family (R : Fin m → Fin d → ℝ) (I : Set ℝ) (ψ ψ' : ℝ → Pos N d → ℝ) (β C : ℝ) : Prop where
  wave : ∀ θ ∈ I, WaveFunction (ψ θ) (partial1 (ψ θ)) (partial2 (ψ θ))
  bounded : ∀ θ ∈ I, Bounded R (ψ θ) β C
  deriv : ∀ θ ∈ I, ∀ x, Good R x → HasDerivAt (fun τ => ψ τ x) (ψ' θ x) θ
  deriv_le : ∀ θ ∈ I, ∀ x, Good R x → |ψ' θ x| ≤ C * Real.exp (-(β * ∑ e, ‖x e‖))
  second : ∀ i k x, Good R x → ContinuousOn (fun θ => partial2 (ψ θ) i k x) I
  mixed : ∃ p1 p2 : ℝ → Fin N → Fin d → Pos N d → ℝ, ∀ θ ∈ I, ∀ i k x, Good R x →
    HasDerivAt (fun τ => partial1 (ψ τ) i k x) (p1 θ i k x) θ ∧
    HasDerivAt (fun τ => partial2 (ψ τ) i k x) (p2 θ i k x) θ ∧
    |p1 θ i k x| ≤ C * Real.exp (-(β * ∑ e, ‖x e‖)) ∧
    |p2 θ i k x| ≤ C * Real.exp (-(β * ∑ e, ‖x e‖)) * sing R x ∧
    ∃ v1 v2, HasJet (fun t => ψ θ (shift x i k t)) v1 v2
  ei : ∀ θ ∈ I, ∀ s, FiniteEI (ψ θ) s R
  ee : ∀ θ ∈ I, ∀ s, FiniteEE (ψ θ) s

theorem measurable_partial2 {ψ : Pos N d → ℝ} (h : WaveFunction ψ (partial1 ψ) (partial2 ψ))
    (i : Fin N) (k : Fin d) : AEStronglyMeasurable (partial2 ψ i k) volume := by
  have h1 := (h.laplacian i k).1.aemeasurable.div h.measurable.aemeasurable
  refine (h1.congr ?_).aestronglyMeasurable
  filter_upwards [h.ne_zero] with x hx
  exact mul_div_cancel_left₀ _ hx

/-- A function bounded by the exponential times one which is bounded up to Coulomb singularities. -/
theorem integrable_of_le (hd : 2 ≤ d) (hβ : 0 < β) {f g : Pos N d → ℝ} {B M : ℝ}
    (hf : AEStronglyMeasurable f volume) (hg : AEStronglyMeasurable g volume)
    (hfb : ∀ x, Good R x → |f x| ≤ B * Real.exp (-(β * ∑ e, ‖x e‖)))
    (hgb : ∀ x, Good R x → |g x| ≤ M * (Real.exp (-(β * ∑ e, ‖x e‖)) * sing R x)) :
    Integrable fun x => f x * g x := by
  refine ((integrable_sing (R := R) hd (show 0 < 2 * β by positivity)).const_mul (B * M)).mono'
    (hf.mul hg) ?_
  filter_upwards [ae_good (N := N) (by omega) R] with x hx
  rw [Real.norm_eq_abs, abs_mul, mul_assoc 2 β, ← exp_sq]
  refine (mul_le_mul (hfb x hx) (hgb x hx) (abs_nonneg _)
    ((abs_nonneg _).trans (hfb x hx))).trans (le_of_eq ?_)
  ring

variable (hd : 2 ≤ d) (hβ : 0 < β) (h : Family R I ψ ψ' β C)

include h in
theorem Family.slope_le (hI : Convex ℝ I) {θ τ : ℝ} (hθ : θ ∈ I) (hτ : τ ∈ I) {x : Pos N d}
    (hx : Good R x) : |slope (fun s => ψ s x) θ τ| ≤ C * Real.exp (-(β * ∑ e, ‖x e‖)) := by
  have h1 := hI.norm_image_sub_le_of_norm_hasDerivWithin_le (f := fun s => ψ s x)
    (f' := fun s => ψ' s x) (fun s hs => (h.deriv s hs x hx).hasDerivWithinAt)
    (fun s hs => h.deriv_le s hs x hx) hθ hτ
  rw [slope_def_field, abs_div]
  rcases eq_or_ne θ τ with rfl | hne
  · simp
    exact (abs_nonneg _).trans (h.deriv_le θ hθ x hx)
  · rw [div_le_iff₀ (abs_pos.mpr (sub_ne_zero.mpr hne.symm))]
    exact h1

include h in
theorem Family.slope_measurable {θ τ : ℝ} (hθ : θ ∈ I) (hτ : τ ∈ I) :
    AEStronglyMeasurable (fun x => slope (fun s => ψ s x) θ τ) volume := by
  simp only [slope_def_field]
  exact (((h.wave τ hτ).measurable.aemeasurable.sub
    (h.wave θ hθ).measurable.aemeasurable).div_const _).aestronglyMeasurable

include h in
theorem Family.deriv_measurable (hd : 2 ≤ d) {θ : ℝ} (hI : I ∈ 𝓝 θ) :
    AEStronglyMeasurable (ψ' θ) volume := by
  classical
  refine aestronglyMeasurable_of_tendsto_ae (𝓝[≠] θ)
    (f := fun τ x => if τ ∈ I then slope (fun s => ψ s x) θ τ else 0) (fun τ => ?_) ?_
  · by_cases hτ : τ ∈ I
    · simp only [hτ, if_true]
      exact h.slope_measurable (mem_of_mem_nhds hI) hτ
    · simp only [hτ, if_false]
      exact aestronglyMeasurable_const
  · filter_upwards [ae_good (N := N) (by omega) R] with x hx
    refine ((hasDerivAt_iff_tendsto_slope.mp (h.deriv θ (mem_of_mem_nhds hI) x hx))).congr' ?_
    filter_upwards [mem_nhdsWithin_of_mem_nhds hI] with τ hτ
    rw [if_pos hτ]

include hd hβ h in
/-- Difference quotients of the wave functions under an integral. -/
theorem Family.slope_integral (hI : Convex ℝ I) {θ : ℝ} (hθ : I ∈ 𝓝 θ) {A : ℝ → Pos N d → ℝ} {M : ℝ}
    (hA : ∀ τ ∈ I, AEStronglyMeasurable (A τ) volume)
    (hAb : ∀ τ ∈ I, ∀ x, Good R x → |A τ x| ≤ M * (Real.exp (-(β * ∑ e, ‖x e‖)) * sing R x))
    (hAc : ∀ x, Good R x → ContinuousAt (fun τ => A τ x) θ) :
    Tendsto (fun τ => ∫ x, slope (fun s => ψ s x) θ τ * (A τ x + A θ x)) (𝓝[≠] θ)
      (𝓝 (2 * ∫ x, ψ' θ x * A θ x)) := by
  have hθI := mem_of_mem_nhds hθ
  rw [← integral_const_mul]
  refine tendsto_integral_filter_of_dominated_convergence
    (fun x => C * (2 * M) * (Real.exp (-(2 * β * ∑ e, ‖x e‖)) * sing R x)) ?_ ?_
    ((integrable_sing (R := R) hd (show 0 < 2 * β by positivity)).const_mul _) ?_
  · filter_upwards [mem_nhdsWithin_of_mem_nhds hθ] with τ hτ
    exact (h.slope_measurable hθI hτ).mul ((hA τ hτ).add (hA θ hθI))
  · filter_upwards [mem_nhdsWithin_of_mem_nhds hθ] with τ hτ
    filter_upwards [ae_good (N := N) (by omega) R] with x hx
    rw [Real.norm_eq_abs, abs_mul, mul_assoc 2 β, ← exp_sq]
    have h1 := h.slope_le hI hθI hτ hx
    have h2 := (abs_add_le (A τ x) (A θ x)).trans (add_le_add (hAb τ hτ x hx) (hAb θ hθI x hx))
    refine (mul_le_mul h1 h2 (abs_nonneg _) ((abs_nonneg _).trans h1)).trans (le_of_eq ?_)
    ring
  · filter_upwards [ae_good (N := N) (by omega) R] with x hx
    have h1 := hasDerivAt_iff_tendsto_slope.mp (h.deriv θ hθI x hx)
    have h2 : Tendsto (fun τ => A τ x + A θ x) (𝓝[≠] θ) (𝓝 (A θ x + A θ x)) :=
      ((hAc x hx).tendsto.mono_left nhdsWithin_le_nhds).add_const _
    have := h1.mul h2
    rwa [show ψ' θ x * (A θ x + A θ x) = 2 * (ψ' θ x * A θ x) by ring] at this

variable {V : Pos N d → ℝ}

include hd hβ h in
/-- `∫ φ ∂²χ = ∫ χ ∂²φ`. -/
theorem Family.symmetric_partial {θ τ : ℝ} (hθ : θ ∈ I) (hτ : τ ∈ I) (i : Fin N) (k : Fin d) :
    Integrable (fun x => ψ θ x * partial2 (ψ τ) i k x) ∧
    ∫ x, (ψ θ x * partial2 (ψ τ) i k x - ψ τ x * partial2 (ψ θ) i k x) = 0 := by
  have int2 : ∀ θ τ, θ ∈ I → τ ∈ I → Integrable fun x => ψ θ x * partial2 (ψ τ) i k x :=
    fun θ τ hθ hτ => integrable_of_le (R := R) hd hβ (h.wave θ hθ).measurable
      (measurable_partial2 (h.wave τ hτ) i k) (h.bounded θ hθ).value fun x hx => by
        have := (h.bounded τ hτ).second i k x hx
        rwa [mul_assoc] at this
  have int1 : ∀ θ τ, θ ∈ I → τ ∈ I → Integrable fun x => ψ θ x * partial1 (ψ τ) i k x :=
    fun θ τ hθ hτ => integrable_mul_of_sq (h.wave θ hθ).normalisable ((h.wave τ hτ).gradient_sq i k)
      (h.wave θ hθ).measurable ((h.wave τ hτ).measurable1 i k)
  refine ⟨int2 θ τ hθ hτ, ?_⟩
  refine integral_shiftDeriv (F := fun x => ψ θ x * partial1 (ψ τ) i k x -
    ψ τ x * partial1 (ψ θ) i k x) i k ((int1 θ τ hθ hτ).sub (int1 τ θ hτ hθ))
    ((int2 θ τ hθ hτ).sub (int2 τ θ hτ hθ)) ?_
  filter_upwards [(h.wave θ hθ).deriv1 i k, (h.wave θ hθ).deriv2 i k, (h.wave τ hτ).deriv1 i k,
    (h.wave τ hτ).deriv2 i k] with x a1 a2 b1 b2 t
  have := ((a1 t).mul (b2 t)).sub ((b1 t).mul (a2 t))
  refine this.congr_deriv ?_
  ring

include hd hβ h in
theorem Family.integrable_mul_hamiltonian (eiSoft eeSoft : ℝ) (Z : Fin m → ℝ) {θ τ : ℝ} (hθ : θ ∈ I)
    (hτ : τ ∈ I) : Integrable fun x => ψ θ x * hamiltonian (ψ τ) (coulomb eiSoft eeSoft R Z) x :=
  integrable_of_le (R := R) hd hβ (h.wave θ hθ).measurable (measurable_hamiltonian
    (h.wave τ hτ).measurable (measurable_partial2 (h.wave τ hτ)) _ _ _) (h.bounded θ hθ).value
    fun _ hx => abs_hamiltonian_le (h.bounded τ hτ) eiSoft eeSoft Z hx

include hd hβ h in
/-- `∫ φ Hχ = ∫ χ Hφ`. -/
theorem Family.symmetric (eiSoft eeSoft : ℝ) (Z : Fin m → ℝ) {θ τ : ℝ} (hθ : θ ∈ I) (hτ : τ ∈ I) :
    ∫ x, ψ θ x * hamiltonian (ψ τ) (coulomb eiSoft eeSoft R Z) x =
      ∫ x, ψ τ x * hamiltonian (ψ θ) (coulomb eiSoft eeSoft R Z) x := by
  rw [← sub_eq_zero, ← integral_sub (h.integrable_mul_hamiltonian hd hβ _ _ _ hθ hτ)
    (h.integrable_mul_hamiltonian hd hβ _ _ _ hτ hθ)]
  have e : ∀ x, ψ θ x * hamiltonian (ψ τ) (coulomb eiSoft eeSoft R Z) x -
      ψ τ x * hamiltonian (ψ θ) (coulomb eiSoft eeSoft R Z) x =
      -(1 / 2) * ∑ i, ∑ k, (ψ θ x * partial2 (ψ τ) i k x - ψ τ x * partial2 (ψ θ) i k x) := by
    intro x
    unfold hamiltonian
    simp only [Finset.sum_sub_distrib, ← Finset.mul_sum]
    ring
  simp only [e]
  have int : ∀ i k, Integrable fun x =>
      ψ θ x * partial2 (ψ τ) i k x - ψ τ x * partial2 (ψ θ) i k x := fun i k =>
    (h.symmetric_partial hd hβ hθ hτ i k).1.sub (h.symmetric_partial hd hβ hτ hθ i k).1
  rw [integral_const_mul, integral_finsetSum _ fun i _ => integrable_finsetSum _ fun k _ => int i k]
  simp only [integral_finsetSum _ fun k _ => int _ k, (h.symmetric_partial hd hβ hθ hτ _ _).2,
    Finset.sum_const_zero, mul_zero]

include hd hβ h in
/-- The derivative of `∫ ψHψ`. -/
theorem Family.energy_deriv (hI : Convex ℝ I) {θ : ℝ} (hθ : I ∈ 𝓝 θ) (eiSoft eeSoft : ℝ)
    (Z : Fin m → ℝ) :
    HasDerivAt (fun τ => ∫ x, ψ τ x * hamiltonian (ψ τ) (coulomb eiSoft eeSoft R Z) x)
      (2 * ∫ x, ψ' θ x * hamiltonian (ψ θ) (coulomb eiSoft eeSoft R Z) x) θ := by
  have hθI := mem_of_mem_nhds hθ
  rw [hasDerivAt_iff_tendsto_slope]
  have key := h.slope_integral hd hβ hI hθ
    (A := fun τ x => hamiltonian (ψ τ) (coulomb eiSoft eeSoft R Z) x)
    (fun τ hτ => measurable_hamiltonian (h.wave τ hτ).measurable
      (measurable_partial2 (h.wave τ hτ)) _ _ _)
    (fun τ hτ x hx => abs_hamiltonian_le (h.bounded τ hτ) eiSoft eeSoft Z hx) fun x hx => by
      unfold hamiltonian
      refine (continuousAt_const.mul (tendsto_finsetSum _ fun i _ => tendsto_finsetSum _ fun k _ =>
        (h.second i k x hx).continuousAt hθ)).add (continuousAt_const.mul
        (h.deriv θ hθI x hx).continuousAt)
  refine key.congr' ?_
  filter_upwards [mem_nhdsWithin_of_mem_nhds hθ] with τ hτ
  have i1 := h.integrable_mul_hamiltonian hd hβ eiSoft eeSoft Z hτ hτ
  have i2 := h.integrable_mul_hamiltonian hd hβ eiSoft eeSoft Z hθI hθI
  have i3 := h.integrable_mul_hamiltonian hd hβ eiSoft eeSoft Z hτ hθI
  have i4 := h.integrable_mul_hamiltonian hd hβ eiSoft eeSoft Z hθI hτ
  have e : (fun x => slope (fun s => ψ s x) θ τ * (hamiltonian (ψ τ) (coulomb eiSoft eeSoft R Z) x +
      hamiltonian (ψ θ) (coulomb eiSoft eeSoft R Z) x)) = fun x =>
      ((ψ τ x * hamiltonian (ψ τ) (coulomb eiSoft eeSoft R Z) x -
        ψ θ x * hamiltonian (ψ θ) (coulomb eiSoft eeSoft R Z) x) +
      (ψ τ x * hamiltonian (ψ θ) (coulomb eiSoft eeSoft R Z) x -
        ψ θ x * hamiltonian (ψ τ) (coulomb eiSoft eeSoft R Z) x)) / (τ - θ) := by
    funext x
    rw [slope_def_field]
    ring
  have i5 : Integrable fun x => ψ τ x * hamiltonian (ψ τ) (coulomb eiSoft eeSoft R Z) x -
        ψ θ x * hamiltonian (ψ θ) (coulomb eiSoft eeSoft R Z) x := i1.sub i2
  have i6 : Integrable fun x => ψ τ x * hamiltonian (ψ θ) (coulomb eiSoft eeSoft R Z) x -
        ψ θ x * hamiltonian (ψ τ) (coulomb eiSoft eeSoft R Z) x := i3.sub i4
  rw [e, integral_div, integral_add i5 i6, integral_sub i1 i2, integral_sub i3 i4,
    h.symmetric hd hβ eiSoft eeSoft Z hτ hθI, sub_self, add_zero, slope_def_field]

include hd hβ h in
/-- The derivative of `∫ ψ²`. -/
theorem Family.norm_deriv (hI : Convex ℝ I) {θ : ℝ} (hθ : I ∈ 𝓝 θ) :
    HasDerivAt (fun τ => ∫ x, ψ τ x ^ 2) (2 * ∫ x, ψ' θ x * ψ θ x) θ := by
  have hθI := mem_of_mem_nhds hθ
  rw [hasDerivAt_iff_tendsto_slope]
  have key := h.slope_integral hd hβ hI hθ (A := ψ) (M := C)
    (fun τ hτ => (h.wave τ hτ).measurable)
    (fun τ hτ x hx => by
      have h1 := (h.bounded τ hτ).value x hx
      rw [← mul_assoc]
      exact h1.trans (le_mul_of_one_le_right ((abs_nonneg _).trans h1) (one_le_sing R x)))
    fun x hx => (h.deriv θ hθI x hx).continuousAt
  refine key.congr' ?_
  filter_upwards [mem_nhdsWithin_of_mem_nhds hθ] with τ hτ
  have e : (fun x => slope (fun s => ψ s x) θ τ * (ψ τ x + ψ θ x)) = fun x =>
      (ψ τ x ^ 2 - ψ θ x ^ 2) / (τ - θ) := by
    funext x
    rw [slope_def_field]
    ring
  rw [e, integral_div, integral_sub (h.wave τ hτ).normalisable (h.wave θ hθI).normalisable,
    slope_def_field]

theorem mul_local_energy {ψ : Pos N d → ℝ} (h : WaveFunction ψ (partial1 ψ) (partial2 ψ))
    (V : Pos N d → ℝ) :
    ∀ᵐ x, ψ x * (kineticLaplacian (logAbs ψ) x + V x) = hamiltonian ψ V x := by
  filter_upwards [ae_partials h] with x hx
  unfold kineticLaplacian hamiltonian
  simp only [(hx.2 _ _).2, ← Finset.sum_div]
  have := hx.1
  field_simp

/-- The energy of a wave function is `∫ ψHψ / ∫ ψ²`. -/
theorem rayleigh_eq {ψ : Pos N d → ℝ} (h : WaveFunction ψ (partial1 ψ) (partial2 ψ))
    (eiSoft eeSoft : ℝ) (Z : Fin m → ℝ) (hei : FiniteEI ψ eiSoft R) (hee : FiniteEE ψ eeSoft) :
    rayleigh ψ (coulomb eiSoft eeSoft R Z) =
      (∫ x, ψ x * hamiltonian ψ (coulomb eiSoft eeSoft R Z) x) / ∫ x, ψ x ^ 2 := by
  rw [← (expect_standard h eiSoft eeSoft R Z hei hee).2, expect_eq h]
  congr 1
  refine integral_congr_ae ?_
  filter_upwards [mul_local_energy h (coulomb eiSoft eeSoft R Z)] with x hx
  rw [← hx]
  ring

/-- The derivative of the energy, from local energies `e = Hψ/ψ` and derivatives `g` of `log|ψ|`. -/
theorem Family.rayleigh_deriv (hd : 2 ≤ d) (hβ : 0 < β) (h : Family R I ψ ψ' β C)
    (hI : Convex ℝ I) {θ : ℝ} (hθ : I ∈ 𝓝 θ) (eiSoft eeSoft : ℝ) (Z : Fin m → ℝ)
    {e g : Pos N d → ℝ}
    (he : ∀ᵐ x, ψ θ x * e x = hamiltonian (ψ θ) (coulomb eiSoft eeSoft R Z) x)
    (hg : ∀ᵐ x, ψ θ x * g x = ψ' θ x) :
    FiniteExpect (ψ θ) e ∧ FiniteExpect (ψ θ) g ∧ FiniteExpect (ψ θ) (fun x => e x * g x) ∧
    HasDerivAt (fun τ => rayleigh (ψ τ) (coulomb eiSoft eeSoft R Z))
      (2 * (expect (ψ θ) (fun x => e x * g x) - expect (ψ θ) e * expect (ψ θ) g)) θ := by
  have hθI := mem_of_mem_nhds hθ
  have hw := h.wave θ hθI
  have hm' := h.deriv_measurable hd hθ
  have a1 : (fun x => ψ θ x ^ 2 * e x) =ᵐ[volume] fun x =>
      ψ θ x * hamiltonian (ψ θ) (coulomb eiSoft eeSoft R Z) x := by
    filter_upwards [he] with x hx
    rw [← hx]
    ring
  have a2 : (fun x => ψ θ x ^ 2 * g x) =ᵐ[volume] fun x => ψ' θ x * ψ θ x := by
    filter_upwards [hg] with x hx
    rw [← hx]
    ring
  have a3 : (fun x => ψ θ x ^ 2 * (e x * g x)) =ᵐ[volume] fun x =>
      ψ' θ x * hamiltonian (ψ θ) (coulomb eiSoft eeSoft R Z) x := by
    filter_upwards [he, hg] with x hx hx'
    rw [← hx, ← hx']
    ring
  have i1 := h.integrable_mul_hamiltonian hd hβ eiSoft eeSoft Z hθI hθI
  have i2 : Integrable fun x => ψ' θ x * ψ θ x :=
    integrable_of_le (R := R) (M := C) hd hβ hm' hw.measurable (h.deriv_le θ hθI) fun x hx => by
      have h1 := (h.bounded θ hθI).value x hx
      rw [← mul_assoc]
      exact h1.trans (le_mul_of_one_le_right ((abs_nonneg _).trans h1) (one_le_sing R x))
  have i3 : Integrable fun x => ψ' θ x * hamiltonian (ψ θ) (coulomb eiSoft eeSoft R Z) x :=
    integrable_of_le (R := R) hd hβ hm' (measurable_hamiltonian hw.measurable
      (measurable_partial2 hw) _ _ _) (h.deriv_le θ hθI) fun _ hx =>
        abs_hamiltonian_le (h.bounded θ hθI) eiSoft eeSoft Z hx
  refine ⟨(finiteExpect_iff hw _).mpr (i1.congr a1.symm), (finiteExpect_iff hw _).mpr
    (i2.congr a2.symm), (finiteExpect_iff hw _).mpr (i3.congr a3.symm), ?_⟩
  have key := (h.energy_deriv hd hβ hI hθ eiSoft eeSoft Z).div (h.norm_deriv hd hβ hI hθ)
    (norm_ne_zero hw)
  refine (key.congr_of_eventuallyEq ?_).congr_deriv ?_
  · filter_upwards [hθ] with τ hτ
    exact rayleigh_eq (h.wave τ hτ) eiSoft eeSoft Z (h.ei τ hτ _) (h.ee τ hτ _)
  · rw [expect_eq hw, expect_eq hw, expect_eq hw, integral_congr_ae a1, integral_congr_ae a2,
      integral_congr_ae a3]
    have := norm_ne_zero hw
    field_simp

theorem norm_clm_le (L : Pos N d →L[ℝ] ℝ) {B : ℝ} (hB : 0 ≤ B) (h : ∀ i k, |L (unitStep i k)| ≤ B) :
    ‖L‖ ≤ N * d * B := by
  refine L.opNorm_le_bound (by positivity) fun x => ?_
  have e : x = ∑ i, ∑ k, x i k • unitStep i k := by
    funext i k
    simp [Finset.sum_apply, unitStep, Finset.sum_ite_eq, ite_and]
  have h1 : L x = ∑ i, ∑ k, x i k * L (unitStep i k) := by
    conv_lhs => rw [e]
    simp [map_sum]
  rw [h1, Real.norm_eq_abs]
  refine (Finset.abs_sum_le_sum_abs _ _).trans ((Finset.sum_le_sum fun i _ =>
    (Finset.abs_sum_le_sum_abs _ _).trans (Finset.sum_le_sum fun k _ => ?_)).trans_eq
      (b := ∑ _i : Fin N, ∑ _k : Fin d, ‖x‖ * B) ?_)
  · rw [abs_mul]
    exact mul_le_mul ((norm_le_pi_norm (x i) k).trans (norm_le_pi_norm x i)) (h i k) (abs_nonneg _)
      (norm_nonneg _)
  · simp
    ring

/-- Derivatives with respect to the parameter are continuous functions of positions. -/
theorem Family.deriv_continuousAt (h : Family R I ψ ψ' β C) (hβ : 0 < β) (hI : Convex ℝ I) {θ : ℝ}
    (hθ : I ∈ 𝓝 θ) (hψ : ∀ τ ∈ I, ∀ x, Good R x → ContDiffAt ℝ ω (ψ τ) x) {x : Pos N d}
    (hx : Good R x) : ContinuousAt (ψ' θ) x := by
  have hθI := mem_of_mem_nhds hθ
  obtain ⟨p1, p2, hp⟩ := h.mixed
  obtain ⟨ε, hε, hball⟩ := Metric.isOpen_iff.mp (isOpen_good R) x hx
  have hC : 0 ≤ C := by
    have := (abs_nonneg _).trans ((h.bounded θ hθI).value x hx)
    exact nonneg_of_mul_nonneg_left this (Real.exp_pos _)
  -- difference quotients have bounded derivatives
  have hs : ∀ τ ∈ I, τ ≠ θ → ∀ y ∈ Metric.ball x ε,
      |slope (fun s => ψ s y) θ τ - slope (fun s => ψ s x) θ τ| ≤ N * d * C * ‖y - x‖ := by
    intro τ hτ hne y hy
    have hdiff : ∀ z ∈ Metric.ball x ε, DifferentiableAt ℝ (fun y => slope (fun s => ψ s y) θ τ) z := by
      intro z hz
      simp only [slope_def_field, div_eq_mul_inv]
      exact (((hψ τ hτ z (hball hz)).differentiableAt (by simp)).fun_sub
        ((hψ θ hθI z (hball hz)).differentiableAt (by simp))).mul_const _
    refine (convex_ball x ε).norm_image_sub_le_of_norm_fderiv_le (𝕜 := ℝ) hdiff (fun z hz => ?_)
      (Metric.mem_ball_self hε) hy
    refine norm_clm_le _ hC fun i k => ?_
    rw [← partial1_eq (hdiff z hz)]
    have e1 : partial1 (fun y => slope (fun s => ψ s y) θ τ) i k z =
        slope (fun s => partial1 (ψ s) i k z) θ τ := by
      simp only [slope_def_field]
      rw [partial1_eq ((hψ τ hτ z (hball hz)).differentiableAt (by simp)),
        partial1_eq ((hψ θ hθI z (hball hz)).differentiableAt (by simp))]
      have d1 := (((hψ τ hτ z (hball hz)).differentiableAt (by simp)).hasFDerivAt.sub
        ((hψ θ hθI z (hball hz)).differentiableAt (by simp)).hasFDerivAt).mul_const (τ - θ)⁻¹
      rw [partial1_eq (ψ := fun y => (ψ τ y - ψ θ y) / (τ - θ)) (by
        simpa only [slope_def_field] using hdiff z hz)]
      have e2 : (fun y => (ψ τ y - ψ θ y) / (τ - θ)) = fun y => (ψ τ - ψ θ) y * (τ - θ)⁻¹ := by
        funext y
        simp [div_eq_mul_inv]
      rw [e2, d1.fderiv]
      simp
      ring
    rw [e1]
    have h1 := hI.norm_image_sub_le_of_norm_hasDerivWithin_le (f := fun s => partial1 (ψ s) i k z)
      (f' := fun s => p1 s i k z) (C := C) (fun s hs => (hp s hs i k z (hball hz)).1.hasDerivWithinAt)
      (fun s hs => ((hp s hs i k z (hball hz)).2.2.1).trans (mul_le_of_le_one_right hC (by
        rw [Real.exp_le_one_iff, neg_nonpos]
        exact mul_nonneg hβ.le (Finset.sum_nonneg fun _ _ => norm_nonneg _)))) hθI hτ
    rw [slope_def_field, abs_div, div_le_iff₀ (abs_pos.mpr (sub_ne_zero.mpr hne))]
    exact h1
  have hlip : ∀ y ∈ Metric.ball x ε, |ψ' θ y - ψ' θ x| ≤ N * d * C * ‖y - x‖ := by
    intro y hy
    have l1 := hasDerivAt_iff_tendsto_slope.mp (h.deriv θ hθI y (hball hy))
    have l2 := hasDerivAt_iff_tendsto_slope.mp (h.deriv θ hθI x hx)
    refine le_of_tendsto (l1.sub l2).abs ?_
    filter_upwards [mem_nhdsWithin_of_mem_nhds hθ, self_mem_nhdsWithin] with τ hτ hne
    exact hs τ hτ hne y hy
  rw [ContinuousAt, tendsto_iff_norm_sub_tendsto_zero]
  have hz : Tendsto (fun y => N * d * C * ‖y - x‖) (𝓝 x) (𝓝 0) := by
    have : Continuous fun y : Pos N d => N * d * C * ‖y - x‖ := by fun_prop
    simpa using this.tendsto x
  refine squeeze_zero' (.of_forall fun _ => norm_nonneg _) ?_ hz
  filter_upwards [Metric.ball_mem_nhds x hε] with y hy
  exact hlip y hy

end family

section configured

variable {K nion d : ℕ} {n : Fin (K + 1) → ℕ} {R : Fin nion → Fin d → ℝ}
  {c : ModelCfg} {charges : Fin nion → ℝ} {P : ℝ → Params (K + 1) nion d}
  {nonzero : ℝ → Stream1 n d → Prop} {ψ : ℝ → Stream1 n d → ℝ}

/-- Near parameters for which a wave function decays and is not zero, configured wave functions have
bounds which do not depend on the parameter. -/
theorem configured_family (hd : 2 ≤ d) (hn : 0 < ∑ s, n s) (hP : SmoothPath P)
    (hψ : ∀ θ q, ModelValue c (P θ) R charges q (nonzero θ q) (ψ θ q)) {θ₀ : ℝ}
    (hc : ∀ᶠ θ in 𝓝 θ₀, Decays c (P θ) charges n) {q : Pos (∑ s, n s) d} (hq : Good R q)
    (h0 : ψ θ₀ (splitPositions q) ≠ 0) :
    ∃ I, Convex ℝ I ∧ I ∈ 𝓝 θ₀ ∧ (∀ θ ∈ I, Decays c (P θ) charges n) ∧
      ∃ ψ' β C, 0 < β ∧ Family R I (fun θ y => ψ θ (splitPositions y)) ψ' β C := by
  obtain ⟨ε, hε, hball⟩ := Metric.eventually_nhds_iff_ball.mp hc
  have hI₁ : ∀ θ ∈ Metric.closedBall θ₀ (ε / 2), Decays c (P θ) charges n := fun θ hθ =>
    hball θ (Metric.closedBall_subset_ball (by linarith) hθ)
  obtain ⟨β, hβ, hT⟩ := configured_value_tame (I := Metric.closedBall θ₀ (ε / 2)) (R := R)
    (ψ := fun x => ψ x.1 (splitPositions x.2)) (isCompact_closedBall _ _)
    ⟨θ₀, Metric.mem_closedBall_self (by positivity)⟩
    (hP.mono fun p hp => Par.of_smooth (isCompact_closedBall _ _) hp) hI₁
    fun x => hψ x.1 (splitPositions x.2)
  obtain ⟨C, hC, hb, ⟨ψ', hψ'⟩, hc2, p1, p2, hmix⟩ := bounded_of_tame hβ hn (by omega) hT
  have hcont : ContinuousAt (fun θ => ψ θ (splitPositions q)) θ₀ :=
    (hψ' θ₀ (Metric.mem_closedBall_self (by positivity)) q hq).1.continuousAt
  obtain ⟨δ, hδ, hne⟩ := Metric.eventually_nhds_iff_ball.mp (hcont.eventually_ne h0)
  have hsub : Metric.ball θ₀ (min δ (ε / 2)) ⊆ Metric.closedBall θ₀ (ε / 2) :=
    (Metric.ball_subset_ball (min_le_right _ _)).trans Metric.ball_subset_closedBall
  have hw := fun θ (hθ : θ ∈ Metric.ball θ₀ (min δ (ε / 2))) =>
    configured_wave_function hd (hI₁ θ (hsub hθ)) (hψ θ) hq
      (hne θ (Metric.ball_subset_ball (min_le_left _ _) hθ))
  refine ⟨Metric.ball θ₀ (min δ (ε / 2)), convex_ball _ _, Metric.ball_mem_nhds _ (by positivity),
    fun θ hθ => hI₁ θ (hsub hθ), ψ', β / 2, C, by positivity, fun θ hθ => (hw θ hθ).1,
    fun θ hθ => hb θ (hsub hθ), fun θ hθ x hx => (hψ' θ (hsub hθ) x hx).1,
    fun θ hθ x hx => (hψ' θ (hsub hθ) x hx).2, fun i k x hx => (hc2 i k x hx).mono hsub,
    ⟨p1, p2, fun θ hθ => hmix θ (interior_maximal hsub Metric.isOpen_ball hθ)⟩,
    fun θ hθ => (hw θ hθ).2.1, fun θ hθ => (hw θ hθ).2.2⟩

/-- The logarithms which a configured model computes near almost every configuration, and their
derivatives with respect to the parameter. -/
theorem configured_log_family (hd : 2 ≤ d) (dtype : ℕ) (m : Model nion)
    (hm : getModelFromConfig c (counts n) R charges dtype = .ok m)
    (v : ℝ → Stream1 n d → SL) (hv : ∀ θ q, m.apply (P θ) R q = .ok (v θ q))
    (hψ : ∀ θ q, ModelValue c (P θ) R charges q (nonzero θ q) (ψ θ q))
    (f : ℝ → Pos (∑ s, n s) d → ℝ)
    (hf : ∀ θ y, (v θ (splitPositions y)).2.isFin → (v θ (splitPositions y)).2 = .fin (f θ y))
    {I : Set ℝ} {θ₀ : ℝ} (hθ₀ : I ∈ 𝓝 θ₀) (hcI : ∀ θ ∈ I, Decays c (P θ) charges n)
    {ψ' : ℝ → Pos (∑ s, n s) d → ℝ} {β C : ℝ}
    (hF : Family R I (fun θ y => ψ θ (splitPositions y)) ψ' β C) :
    (∀ᵐ x : Pos (∑ s, n s) d, f θ₀ =ᶠ[𝓝 x] logAbs fun y => ψ θ₀ (splitPositions y)) ∧
    ∀ᵐ x : Pos (∑ s, n s) d,
      HasDerivAt (fun θ => f θ x) (ψ' θ₀ x / ψ θ₀ (splitPositions x)) θ₀ := by
  have hθI := mem_of_mem_nhds hθ₀
  have hw := hF.wave θ₀ hθI
  constructor
  · filter_upwards [ae_good (by omega) R, hw.ne_zero] with x hx hne
    exact configured_log_eq c charges dtype m hm (P θ₀) (v θ₀) (hv θ₀) (nonzero θ₀) (ψ θ₀)
      (hψ θ₀) (f θ₀) (hf θ₀) (smooth_place_of_decays (hcI θ₀ hθI) hx) hne
  · filter_upwards [ae_good (by omega) R, hw.ne_zero] with x hx hne
    have := (hF.deriv θ₀ hθI x hx).log hne
    refine this.congr_of_eventuallyEq ?_
    filter_upwards [hθ₀, (hF.deriv θ₀ hθI x hx).continuousAt.eventually_ne hne] with θ hθ hne
    rw [(configured_log_eq c charges dtype m hm (P θ) (v θ) (hv θ) (nonzero θ) (ψ θ) (hψ θ) (f θ)
      (hf θ) (smooth_place_of_decays (hcI θ hθ) hx) hne).self_of_nhds]
    exact Real.log_abs _

/-- C96: for configured models whose parameters depend smoothly on a number `θ`, and whose wave
functions decay, the gradient which the standard estimator computes without clipping is the exact
derivative of the energy `∫ (½|∇ψ|² + Vψ²) / ∫ ψ²` with respect to `θ`, in the mean over independent
walkers distributed as `|ψ|²`, for every number of walkers and every layout of them on devices. -/
theorem configured_gradient_unbiased (hd : 2 ≤ d) (hn : 0 < ∑ s, n s) (dtype : ℕ) (m : Model nion)
    (hm : getModelFromConfig c (counts n) R charges dtype = .ok m) (hP : SmoothPath P)
    (v : ℝ → Stream1 n d → SL) (hv : ∀ θ q, m.apply (P θ) R q = .ok (v θ q))
    (hψ : ∀ θ q, ModelValue c (P θ) R charges q (nonzero θ q) (ψ θ q))
    (f : ℝ → Pos (∑ s, n s) d → ℝ)
    (hf : ∀ θ y, (v θ (splitPositions y)).2.isFin → (v θ (splitPositions y)).2 = .fin (f θ y))
    {θ₀ : ℝ} (hc : ∀ᶠ θ in 𝓝 θ₀, Decays c (P θ) charges n) {q : Pos (∑ s, n s) d} (hq : Good R q)
    (h0 : ψ θ₀ (splitPositions q) ≠ 0) (hR : Distinct R) {κ : Type}
    (permutation : κ → Equiv.Perm (Fin (∑ s, n s))) (ibpParts sampleParts : List String) (b : ℕ)
    (eiSoft eeSoft : ℝ) :
    ∃ E, assembleMolLocalEnergy permutation "standard" ibpParts b sampleParts R charges eiSoft eeSoft
        (f θ₀) = some E ∧
      (∀ᵐ x, ∃ e, ∀ key, E x key = .fin e) ∧
      (∀ᵐ x, DifferentiableAt ℝ (fun θ => f θ x) θ₀) ∧
      ∀ {J : Type} (j : J) (walker : Pos (∑ s, n s) d → RealWalker J),
        (∀ᵐ x, ∃ key, E x key = .fin (walker x).eloc) →
        (∀ᵐ x, HasDerivAt (fun θ => f θ x) ((walker x).gradLogPsi j) θ₀) →
        ∀ (N : ℕ), 2 ≤ N → ∀ nanSafe : Bool,
        ∃ G : (Fin N → Pos (∑ s, n s) d) → ℝ,
          (∀ x devs l, IsLayout (List.ofFn fun i => walker (x i)) devs l →
            meanGrad (valueAndGrad .standard N none nanSafe
              (devs.map fun l => l.map RealWalker.toX)).2.2 j = .fin (G x)) ∧
          Integrable G (Measure.pi fun _ => born volume fun y => ψ θ₀ (splitPositions y)) ∧
          HasDerivAt (fun θ => rayleigh (fun y => ψ θ (splitPositions y))
              (coulomb eiSoft eeSoft R charges))
            (∫ x, G x ∂(Measure.pi fun _ => born volume fun y => ψ θ₀ (splitPositions y))) θ₀ := by
  obtain ⟨I, hI, hθ₀, hcI, ψ', β, C, hβ, hF⟩ := configured_family hd hn hP hψ hc hq h0
  have hθI := mem_of_mem_nhds hθ₀
  have hw := hF.wave θ₀ hθI
  obtain ⟨hlog, hder⟩ := configured_log_family hd dtype m hm v hv hψ f hf hθ₀ hcI hF
  obtain ⟨E, e, hE, hEe, -⟩ := configured_energy_expectation c charges dtype m hm (P θ₀) (v θ₀)
    (hv θ₀) (nonzero θ₀) (ψ θ₀) (hψ θ₀) (f θ₀) (hf θ₀) (hcI θ₀ hθI) hq h0 hd hR permutation ibpParts
    sampleParts b eiSoft eeSoft
  refine ⟨E, hE, hEe.mono fun x hx => ⟨_, hx⟩,
    hder.mono fun x hx => hx.differentiableAt, fun {J} j walker he hg N hN nanSafe => ?_⟩
  have he' : ∀ᵐ x : Pos (∑ s, n s) d, ψ θ₀ (splitPositions x) * (walker x).eloc =
      hamiltonian (fun y => ψ θ₀ (splitPositions y)) (coulomb eiSoft eeSoft R charges) x := by
    filter_upwards [ae_good (by omega) R, hlog, he,
      mul_local_energy hw (coulomb eiSoft eeSoft R charges)] with x hx hl ⟨key, hE₁⟩ hH
    obtain ⟨E', hE', h⟩ := standard_energy_terms permutation ibpParts sampleParts b R charges eiSoft
      eeSoft (f θ₀) x key ⟨.inr hx.2, .inr hx.1, hR⟩
    obtain rfl := Option.some.inj (hE.symm.trans hE')
    rw [h] at hE₁
    have : kineticLaplacian (f θ₀) x =
        kineticLaplacian (logAbs fun y => ψ θ₀ (splitPositions y)) x := by
      unfold kineticLaplacian coordLaplacian
      simp only [partial1_congr hl, partial2_congr hl]
    rw [← hH, ← XR.fin_inj.mp hE₁, this, coulomb]
    ring
  have hg' : ∀ᵐ x : Pos (∑ s, n s) d, ψ θ₀ (splitPositions x) * (walker x).gradLogPsi j =
      ψ' θ₀ x := by
    filter_upwards [hw.ne_zero, hg, hder] with x hne h1 h2
    rw [h1.unique h2, mul_div_cancel₀ _ hne]
  obtain ⟨ie, ig, ieg, hD⟩ := hF.rayleigh_deriv hd hβ hI hθ₀ eiSoft eeSoft charges he' hg'
  have := isProbabilityMeasure_born hw.normalisable (norm_ne_zero hw)
  refine ⟨fun x => covGrad (walkerPairs (fun x => (walker x).eloc)
    (fun x => (walker x).gradLogPsi j) x), fun x devs l hl => ?_,
    integrable_covGrad (N := N) ie ig ieg, ?_⟩
  · have := gradient_is_covariance_partial .standard (by simp) nanSafe _ devs l hl
      (by simpa using hN) j
    rw [List.length_ofFn] at this
    rw [this]
    congr 2
    unfold walkerPairs
    rw [List.map_ofFn]
    rfl
  · refine hD.congr_deriv ?_
    rw [expected_covGrad hN ie ig ieg]
    rfl

end configured

/-! ### An example -/

theorem helium_path (P : Params 2 1 3) : SmoothPath fun θ => heliumParams P θ :=
  { SmoothPath.const P with
    orbitals := fun _ _ => ⟨fun _ _ _ => contDiff_const, fun _ _ => contDiff_const,
      fun _ _ => contDiff_id, fun _ _ _ _ _ => contDiff_const, fun _ _ _ => contDiff_const⟩ }

/-- The default FermiNet for a helium atom, with the decay `θ` of all orbitals as parameter: the mean
of the gradient is the derivative of the energy of `6 exp (-|θ r₁| - |θ r₂|)`. -/
example (P : Params 2 1 3) (a : ℝ) (ha : a ≠ 0) :
    ∃ m : Model 1, getModelFromConfig {} (counts fun _ : Fin 2 => 1)
        (fun (_ : Fin 1) (_ : Fin 3) => (0 : ℝ)) (fun _ => 2) 32 = .ok m ∧
      ∃ f : ℝ → (Fin (∑ _ : Fin 2, 1) → Fin 3 → ℝ) → ℝ,
        (∀ θ y, m.apply (heliumParams P θ) (fun _ _ => 0)
          (splitPositions (n := fun _ : Fin 2 => 1) y) = .ok (.fin 1, .fin (f θ y))) ∧
        ∃ E, assembleMolLocalEnergy (fun _ : Unit => 1) "standard" [] 1 [] (fun (_ : Fin 1) _ => 0)
            (fun _ => 2) 0 0 (f a) = some E ∧
        ∃ walker : (Fin (∑ _ : Fin 2, 1) → Fin 3 → ℝ) → RealWalker Unit,
          (∀ᵐ x, E x () = .fin (walker x).eloc) ∧
          (∀ᵐ x, HasDerivAt (fun θ => f θ x) ((walker x).gradLogPsi ()) a) ∧
          ∃ G : (Fin 2 → Fin (∑ _ : Fin 2, 1) → Fin 3 → ℝ) → ℝ,
            (∀ x, meanGrad (valueAndGrad .standard 2 none true
              [[(walker (x 0)).toX], [(walker (x 1)).toX]]).2.2 () = .fin (G x)) ∧
            HasDerivAt (fun θ => rayleigh (heliumWave θ)
                (coulomb 0 0 (fun (_ : Fin 1) _ => 0) fun _ => 2))
              (∫ x, G x ∂(Measure.pi fun _ => born volume (heliumWave a))) a := by
  choose m' hm' nz ψ hψ hval hpos hv' using helium_model P
  have hmm : ∀ θ, m' θ = m' a := fun θ => Except.ok.inj ((hm' θ).symm.trans (hm' a))
  have hv : ∀ θ q, (m' a).apply (heliumParams P θ) (fun _ _ => 0) q =
      .ok (.fin 1, .fin (Real.log (ψ θ q))) := fun θ q => by
    rw [← hmm θ]
    exact hv' θ q
  have hne : ψ a (splitPositions fun (e : Fin (∑ _ : Fin 2, 1)) _ => (e.val + 1 : ℝ)) ≠ 0 :=
    (hpos a _).ne'
  have hR : Distinct fun (_ : Fin 1) (_ : Fin 3) => (0 : ℝ) := fun i j h =>
    absurd (Subsingleton.elim i j) h
  refine ⟨m' a, hm' a, fun θ y => Real.log (ψ θ (splitPositions y)), fun θ y => hv θ _, ?_⟩
  obtain ⟨E, hE, hfin, hdiff, hG⟩ := configured_gradient_unbiased (by norm_num) (by simp) 32 (m' a)
    (hm' a) (helium_path P) _ hv hψ (fun θ y => Real.log (ψ θ (splitPositions y))) (fun _ _ _ => rfl)
    (by filter_upwards [isOpen_ne.mem_nhds ha] with θ hθ using helium_decays P hθ)
    helium_good hne hR (fun _ : Unit => 1) [] [] 1 0 0
  classical
  let walker : (Fin (∑ _ : Fin 2, 1) → Fin 3 → ℝ) → RealWalker Unit := fun x =>
    ⟨if h : ∃ e, ∀ key, E x key = .fin e then h.choose else 0, 0,
      fun _ => deriv (fun θ => Real.log (ψ θ (splitPositions x))) a, fun _ => 0⟩
  have h1 : ∀ᵐ x, E x () = .fin (walker x).eloc := hfin.mono fun x hx => by
    simp only [walker, dif_pos hx]
    exact hx.choose_spec ()
  have h2 : ∀ᵐ x, HasDerivAt (fun θ => Real.log (ψ θ (splitPositions x)))
      ((walker x).gradLogPsi ()) a := hdiff.mono fun x hx => hx.hasDerivAt
  obtain ⟨G, g1, -, g2⟩ := hG () walker (h1.mono fun x hx => ⟨(), hx⟩) h2 2 le_rfl true
  refine ⟨E, hE, walker, h1, h2, G, fun x => ?_, ?_⟩
  · exact g1 x [[walker (x 0)], [walker (x 1)]] 1 ⟨by simp [List.ofFn_succ], by simp, by simp, by simp⟩
  · have e : ∀ θ, (fun y => ψ θ (splitPositions y)) = heliumWave θ := fun θ => funext (hval θ)
    simpa only [e] using g2

end Verif.Props
