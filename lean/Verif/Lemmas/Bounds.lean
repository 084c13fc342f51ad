import Verif.Lemmas.Tame
import Verif.Lemmas.Coulomb
import Mathlib.Analysis.Analytic.Uniqueness
import Mathlib.Analysis.Analytic.IsolatedZeros
import Mathlib.Analysis.Calculus.ContDiff.Basic
import Mathlib.Analysis.Analytic.Order
import Mathlib.MeasureTheory.Topology
import Mathlib.Analysis.Calculus.FDeriv.Measurable
import Mathlib.Analysis.Complex.Exponential

/-! From bounds to wave functions with finite energy. -/

namespace Verif.Decay
open MeasureTheory Verif.Spec Verif.Phys Topology
open scoped ContDiff

variable {N m d : ℕ} {R : Fin m → Fin d → ℝ}

/-! ### Good positions -/

theorem ae_good (hd : 0 < d) (R : Fin m → Fin d → ℝ) : ∀ᵐ x : Fin N → Fin d → ℝ, Good R x := by
  filter_upwards [Ibp.ae_distinct hd, Ibp.ae_apart hd R] with x h1 h2
  exact ⟨h1, h2⟩

theorem isOpen_good (R : Fin m → Fin d → ℝ) : IsOpen {x : Fin N → Fin d → ℝ | Good R x} := by
  have : {x : Fin N → Fin d → ℝ | Good R x} =
      (⋂ i, ⋂ j, ⋂ (_ : i ≠ j), {x | x i ≠ x j}) ∩ ⋂ i, ⋂ I, {x | x i ≠ R I} := by
    ext x
    simp [Good, Distinct, Apart]
  rw [this]
  refine IsOpen.inter (isOpen_iInter_of_finite fun i => isOpen_iInter_of_finite fun j =>
    isOpen_iInter_of_finite fun _ => ?_) (isOpen_iInter_of_finite fun i =>
    isOpen_iInter_of_finite fun I => ?_)
  · exact isOpen_ne_fun (continuous_apply i) (continuous_apply j)
  · exact isOpen_ne_fun (continuous_apply i) continuous_const

/-- Almost every line through a good position avoids coalescence. -/
theorem ae_line_good (hd : 2 ≤ d) {q : Fin N → Fin d → ℝ} (hq : Good R q) :
    ∀ᵐ x : Fin N → Fin d → ℝ, ∀ t : ℝ, Good R (q + t • (x - q)) := by
  -- `w ≠ 0`: almost no value of a linear map onto vectors is parallel to `w`
  have key : ∀ (L : (Fin N → Fin d → ℝ) → Fin d → ℝ) (w : Fin d → ℝ), w ≠ 0 →
      (∀ k l, k ≠ l → ∀ a : ℝ, ∀ᵐ x, L x l ≠ a * L x k) →
      ∀ᵐ x, ∀ t : ℝ, t • L x ≠ w := by
    intro L w hw hL
    obtain ⟨k, hk⟩ := Function.ne_iff.mp hw
    have hk : w k ≠ 0 := hk
    obtain ⟨l, hl⟩ : ∃ l : Fin d, k ≠ l := by
      by_cases h : k.val = 0
      · exact ⟨⟨1, by omega⟩, fun e => by simp [e] at h⟩
      · exact ⟨⟨0, by omega⟩, fun e => h (by simp [e])⟩
    filter_upwards [hL k l hl (w l / w k)] with x hx t ht
    have h1 : t * L x k = w k := congrFun ht k
    have h2 : t * L x l = w l := congrFun ht l
    have ht0 : t ≠ 0 := fun h => hk (by rw [← h1, h, zero_mul])
    refine hx ?_
    rw [← h1, ← h2]
    have : L x k ≠ 0 := fun h => hk (by rw [← h1, h, mul_zero])
    field_simp
  have h1 : ∀ i I, ∀ᵐ x : Fin N → Fin d → ℝ, ∀ t : ℝ, t • (x i - q i) ≠ R I - q i := fun i I =>
    key (fun x => x i - q i) _ (sub_ne_zero.mpr (hq.2 i I).symm) fun k l hkl a => by
      have := Ibp.ae_linear_ne (ν := (volume : Measure (Fin N → Fin d → ℝ)))
        (Ibp.coord i l - a • Ibp.coord i k) (x₀ := fun _ l' => if l' = l then 1 else 0)
        (by simp [Ibp.coord, hkl]) (q i l - a * q i k)
      filter_upwards [this] with x hx h
      refine hx ?_
      simp only [Ibp.coord, LinearMap.sub_apply, LinearMap.smul_apply, LinearMap.coe_mk,
        AddHom.coe_mk, smul_eq_mul, Pi.sub_apply] at h ⊢
      linarith
  have h2 : ∀ i j, i ≠ j → ∀ᵐ x : Fin N → Fin d → ℝ, ∀ t : ℝ,
      t • (x i - x j - (q i - q j)) ≠ -(q i - q j) := fun i j hij =>
    key (fun x => x i - x j - (q i - q j)) _ (neg_ne_zero.mpr (sub_ne_zero.mpr (hq.1 i j hij)))
      fun k l hkl a => by
        have := Ibp.ae_linear_ne (ν := (volume : Measure (Fin N → Fin d → ℝ)))
          (Ibp.coord i l - Ibp.coord j l - a • (Ibp.coord i k - Ibp.coord j k))
          (x₀ := fun i' l' => if i' = i ∧ l' = l then 1 else 0)
          (by simp [Ibp.coord, hkl, hij.symm]) (q i l - q j l - a * (q i k - q j k))
        filter_upwards [this] with x hx h
        refine hx ?_
        simp only [Ibp.coord, LinearMap.sub_apply, LinearMap.smul_apply, LinearMap.coe_mk,
          AddHom.coe_mk, smul_eq_mul, Pi.sub_apply] at h ⊢
        linarith
  have h1' := ae_all_iff.2 fun i => ae_all_iff.2 fun I => h1 i I
  have h2' : ∀ᵐ x : Fin N → Fin d → ℝ, ∀ i j, i ≠ j → ∀ t : ℝ,
      t • (x i - x j - (q i - q j)) ≠ -(q i - q j) :=
    ae_all_iff.2 fun i => ae_all_iff.2 fun j => by
      by_cases h : i = j
      · exact .of_forall fun x hc => (hc h).elim
      · exact (h2 i j h).mono fun x hx _ => hx
  filter_upwards [h1', h2'] with x h1 h2 t
  refine ⟨fun i j hij h => h2 i j hij t ?_, fun i I h => h1 i I t ?_⟩
  · have h : q i + t • (x i - q i) = q j + t • (x j - q j) := h
    have : t • (x i - q i) - t • (x j - q j) = q j - q i := by
      rw [sub_eq_iff_eq_add, ← sub_eq_zero]
      rw [← sub_eq_zero] at h
      rw [← h]
      abel
    rw [neg_sub, ← this, ← smul_sub]
    congr 1
    abel
  · have h : q i + t • (x i - q i) = R I := h
    rw [← h]
    abel

/-- A function which is analytic away from coalescence and not zero somewhere is zero almost
nowhere. -/
theorem ae_ne_zero (hd : 2 ≤ d) {ψ : (Fin N → Fin d → ℝ) → ℝ}
    (hψ : ∀ x, Good R x → ContDiffAt ℝ ω ψ x) {q : Fin N → Fin d → ℝ} (hq : Good R q)
    (h0 : ψ q ≠ 0) : ∀ᵐ x, ψ x ≠ 0 := by
  classical
  let G : Set (Fin N → Fin d → ℝ) := {x | Good R x}
  have hG : MeasurableSet G := (isOpen_good R).measurableSet
  let φ : (Fin N → Fin d → ℝ) → ℝ := G.piecewise ψ 1
  have hφ : Measurable φ := by
    refine measurable_of_restrict_of_restrict_compl hG ?_ ?_
    · rw [Set.domRestrict_piecewise]
      exact (continuousOn_iff_continuous_domRestrict.mp fun x hx =>
        (hψ x hx).continuousAt.continuousWithinAt).measurable
    · rw [Set.domRestrict_piecewise_compl]
      exact measurable_one.comp measurable_subtype_coe
  -- along almost every line zeros are isolated
  have hline : ∀ᵐ x : Fin N → Fin d → ℝ, ∀ᵐ t : ℝ, φ (q + t • (x - q)) ≠ 0 := by
    filter_upwards [ae_line_good hd hq] with x hx
    let g : ℝ → ℝ := fun t => ψ (q + t • (x - q))
    have hg : AnalyticOnNhd ℝ g Set.univ := fun t _ => by
      have h1 : ContDiffAt ℝ ω g t := by
        refine (hψ _ (hx t)).comp t ?_
        exact (contDiff_const.add (contDiff_id.smul contDiff_const)).contDiffAt
      exact h1.analyticAt
    have hz := hg.preimage_zero_mem_codiscrete (x := 0) (by simpa [g] using h0)
    have := ae_restrict_le_codiscreteWithin (μ := (volume : Measure ℝ)) MeasurableSet.univ hz
    rw [Measure.restrict_univ] at this
    filter_upwards [this] with t ht
    simp only [φ]
    rw [Set.piecewise_eq_of_mem _ _ _ (show q + t • (x - q) ∈ G from hx t)]
    exact ht
  have hmeas : MeasurableSet {p : (Fin N → Fin d → ℝ) × ℝ | φ (q + p.2 • (p.1 - q)) ≠ 0} := by
    have : Measurable fun p : (Fin N → Fin d → ℝ) × ℝ => φ (q + p.2 • (p.1 - q)) := by
      refine hφ.comp ?_
      fun_prop
    exact this (measurableSet_singleton (0 : ℝ)).compl
  have hswap : ∀ᵐ t : ℝ, ∀ᵐ x : Fin N → Fin d → ℝ, φ (q + t • (x - q)) ≠ 0 :=
    (Measure.ae_ae_comm (p := fun (x : Fin N → Fin d → ℝ) (t : ℝ) => φ (q + t • (x - q)) ≠ 0)
      hmeas).mp hline
  obtain ⟨t, ht, ht0⟩ : ∃ t : ℝ, (∀ᵐ x : Fin N → Fin d → ℝ, φ (q + t • (x - q)) ≠ 0) ∧ t ≠ 0 :=
    (hswap.and (Measure.ae_ne volume 0)).exists
  have hφ0 : ∀ᵐ x : Fin N → Fin d → ℝ, φ x ≠ 0 := by
    have hn : volume {x : Fin N → Fin d → ℝ | φ (q + t • (x - q)) = 0} = 0 := by
      simpa [ae_iff] using ht
    have e : {x : Fin N → Fin d → ℝ | φ (q + t • (x - q)) = 0} =
        AffineMap.homothety q t ⁻¹' {x | φ x = 0} := by
      ext x
      simp [AffineMap.homothety_apply, add_comm]
    have h1 : {x | φ x = 0} = AffineMap.homothety q t '' {x | φ (q + t • (x - q)) = 0} := by
      rw [e, Set.image_preimage_eq]
      intro y
      refine ⟨AffineMap.homothety q t⁻¹ y, ?_⟩
      rw [← AffineMap.homothety_mul_apply, mul_inv_cancel₀ ht0]
      simp
    rw [ae_iff]
    simp only [not_not]
    rw [h1, Measure.addHaar_image_homothety, hn, mul_zero]
  filter_upwards [hφ0, ae_good (by omega) R] with x h1 h2 h
  refine h1 ?_
  simp only [φ]
  rw [Set.piecewise_eq_of_mem _ _ _ (show x ∈ G from h2), h]

/-! ### Derivatives along coordinates -/

theorem HasJet.partial1 {f : (Fin N → Fin d → ℝ) → ℝ} {x : Fin N → Fin d → ℝ} {i : Fin N} {k : Fin d}
    {v1 v2 : ℝ} (h : HasJet (fun t => f (shift x i k t)) v1 v2) : Spec.partial1 f i k x = v1 := by
  obtain ⟨u', h1, h0, -⟩ := h
  rw [← h0]
  exact h1.self_of_nhds.deriv

theorem HasJet.partial2 {f : (Fin N → Fin d → ℝ) → ℝ} {x : Fin N → Fin d → ℝ} {i : Fin N} {k : Fin d}
    {v1 v2 : ℝ} (h : HasJet (fun t => f (shift x i k t)) v1 v2) : Spec.partial2 f i k x = v2 := by
  obtain ⟨u', h1, -, h2⟩ := h
  unfold Spec.partial2
  rw [Filter.EventuallyEq.deriv_eq (h1.mono fun t ht => ht.deriv)]
  exact h2.deriv

theorem shift_shift (x : Fin N → Fin d → ℝ) (i : Fin N) (k : Fin d) (t s : ℝ) :
    shift (shift x i k t) i k s = shift x i k (t + s) := by
  simp only [← add_unitStep]
  rw [add_assoc, add_smul]

theorem ae_shift_good (hd : 2 ≤ d) (R : Fin m → Fin d → ℝ) (i : Fin N) (k : Fin d) :
    ∀ᵐ x : Fin N → Fin d → ℝ, ∀ t, Good R (shift x i k t) := by
  obtain ⟨l, hl⟩ : ∃ l : Fin d, k ≠ l := by
    by_cases h : k.val = 0
    · exact ⟨⟨1, by omega⟩, fun e => by simp [e] at h⟩
    · exact ⟨⟨0, by omega⟩, fun e => h (by simp [e])⟩
  have h1 : ∀ᵐ x : Fin N → Fin d → ℝ, ∀ i I, x i l ≠ R I l :=
    ae_all_iff.2 fun i => ae_all_iff.2 fun I => Ibp.ae_coord_ne i _ _
  have h2 : ∀ᵐ x : Fin N → Fin d → ℝ, ∀ i j, i ≠ j → x i l ≠ x j l :=
    ae_all_iff.2 fun i => ae_all_iff.2 fun j => by
      by_cases h : i = j
      · exact .of_forall fun x hc => (hc h).elim
      · exact (Ibp.ae_coord_sub_ne h _).mono fun x hx _ => hx
  have e : ∀ (x : Fin N → Fin d → ℝ) t j, shift x i k t j l = x j l := by
    intro x t j
    unfold shift
    by_cases h : j = i
    · subst h
      simp [Function.update_of_ne hl.symm]
    · rw [Function.update_of_ne h]
  filter_upwards [h1, h2] with x h1 h2 t
  exact ⟨fun a b hab h => h2 a b hab (by rw [← e x t a, ← e x t b, h]),
    fun a I h => h1 a I (by rw [← e x t a, h])⟩

section derivatives

variable {ψ : (Fin N → Fin d → ℝ) → ℝ} {i : Fin N} {k : Fin d} {f1 f2 : (Fin N → Fin d → ℝ) → ℝ}

theorem line_deriv1 (hj : ∀ x, Good R x → HasJet (fun t => ψ (shift x i k t)) (f1 x) (f2 x))
    {x : Fin N → Fin d → ℝ} (hx : ∀ t, Good R (shift x i k t)) (t : ℝ) :
    HasDerivAt (fun t => ψ (shift x i k t)) (partial1 ψ i k (shift x i k t)) t := by
  have h := hj _ (hx t)
  rw [h.partial1]
  obtain ⟨u', h1, h0, -⟩ := h
  have h1 := h1.self_of_nhds
  rw [h0] at h1
  simp only [shift_shift] at h1
  have h2 := HasDerivAt.comp t (h₂ := fun s => ψ (shift x i k (t + s))) (h := fun s => s - t)
    (by simpa using h1) ((hasDerivAt_id t).sub_const t)
  simpa [Function.comp_def] using h2

theorem line_deriv2 (hj : ∀ x, Good R x → HasJet (fun t => ψ (shift x i k t)) (f1 x) (f2 x))
    {x : Fin N → Fin d → ℝ} (hx : ∀ t, Good R (shift x i k t)) (t : ℝ) :
    HasDerivAt (fun t => partial1 ψ i k (shift x i k t)) (partial2 ψ i k (shift x i k t)) t := by
  have h := hj _ (hx t)
  rw [h.partial2]
  obtain ⟨u', h1, -, h2⟩ := h
  have e : (fun s => partial1 ψ i k (shift x i k (t + s))) =ᶠ[𝓝 0] u' := by
    filter_upwards [h1] with s hs
    have := line_deriv1 hj (x := shift x i k t) (fun s => by rw [shift_shift]; exact hx _) s
    rw [shift_shift] at this
    exact this.unique hs
  have h1 := h2.congr_of_eventuallyEq e
  have h2 := HasDerivAt.comp t (h₂ := fun s => partial1 ψ i k (shift x i k (t + s)))
    (h := fun s => s - t) (by simpa using h1) ((hasDerivAt_id t).sub_const t)
  simpa [Function.comp_def] using h2

end derivatives

/-! ### Measurability -/

section measurability

variable {ψ : (Fin N → Fin d → ℝ) → ℝ}

theorem restrict_good (hd : 0 < d) (R : Fin m → Fin d → ℝ) :
    (volume : Measure (Fin N → Fin d → ℝ)).restrict {x | Good R x} = volume :=
  Measure.restrict_eq_self_of_ae_mem (ae_good hd R)

theorem aestronglyMeasurable_of_good (hd : 0 < d) (hψ : ∀ x, Good R x → ContinuousAt ψ x) :
    AEStronglyMeasurable ψ volume := by
  have : ContinuousOn ψ {x | Good R x} := fun x hx => (hψ x hx).continuousWithinAt
  have := this.aestronglyMeasurable (μ := volume) (isOpen_good R).measurableSet
  rwa [restrict_good hd R] at this

theorem partial1_eq {x : Fin N → Fin d → ℝ} (h : DifferentiableAt ℝ ψ x) (i : Fin N) (k : Fin d) :
    partial1 ψ i k x = fderiv ℝ ψ x (unitStep i k) := by
  unfold partial1
  simp only [← add_unitStep]
  have h0 : HasFDerivAt ψ (fderiv ℝ ψ x) (x + (0 : ℝ) • unitStep i k) := by
    simpa using h.hasFDerivAt
  have h1 : HasDerivAt (fun t : ℝ => x + t • unitStep i k) (unitStep i k) 0 := by
    simpa using ((hasDerivAt_id (0 : ℝ)).smul_const (unitStep (n := N) (d := d) i k)).const_add x
  exact (h0.comp_hasDerivAt 0 h1).deriv

theorem partial1_smooth {n : ℕ∞ω} (hψ : ∀ x, Good R x → ContDiffAt ℝ (n + 1) ψ x) (i : Fin N)
    (k : Fin d) (x : Fin N → Fin d → ℝ) (hx : Good R x) : ContDiffAt ℝ n (partial1 ψ i k) x := by
  have h1 : ContDiffAt ℝ n (fun y => fderiv ℝ ψ y (unitStep i k)) x :=
    ((hψ x hx).fderiv_right le_rfl).clm_apply contDiffAt_const
  refine h1.congr_of_eventuallyEq ?_
  filter_upwards [(isOpen_good R).mem_nhds hx] with y hy
  exact partial1_eq ((hψ y hy).differentiableAt (by simp)) i k

theorem partial2_eq {i : Fin N} {k : Fin d} (x : Fin N → Fin d → ℝ) :
    partial2 ψ i k x = partial1 (partial1 ψ i k) i k x := by
  unfold partial2
  congr 1
  funext t
  unfold partial1
  simp only [shift_shift]
  have := deriv_comp_const_add (fun s => ψ (shift x i k s)) t 0
  rw [add_zero] at this
  exact this.symm

end measurability

/-! ### Exponential bounds -/

theorem norm_le_sum (x : Fin N → Fin d → ℝ) : ‖x‖ ≤ ∑ e, ‖x e‖ := by
  rw [pi_norm_le_iff_of_nonneg (Finset.sum_nonneg fun _ _ => norm_nonneg _)]
  exact fun e => Finset.single_le_sum (f := fun e => ‖x e‖) (fun _ _ => norm_nonneg _)
    (Finset.mem_univ e)

/-- Polynomials are absorbed by half of the exponential. -/
theorem Big.absorb {I : Set ℝ} {β : ℝ} (hβ : 0 < β) {v f : Pt N d → ℝ}
    (h : Big I R (fun x => Real.exp (-(β * ∑ e, ‖x.2 e‖)) * v x) f) (hv : ∀ x, Ok I R x → 0 ≤ v x) :
    ∃ C, 0 ≤ C ∧ ∀ x, Ok I R x → |f x| ≤ C * (Real.exp (-(β / 2 * ∑ e, ‖x.2 e‖)) * v x) := by
  obtain ⟨C, p, hC, h⟩ := h
  have hβ2 : 0 < β / 2 := by positivity
  refine ⟨C * (p.factorial * (β / 2)⁻¹ ^ p * Real.exp (β / 2)), by positivity, fun x hx => ?_⟩
  refine (h x hx).trans ?_
  show C * (1 + ‖x.2‖) ^ p * (Real.exp (-(β * ∑ e, ‖x.2 e‖)) * v x) ≤ _
  generalize hS : ∑ e, ‖x.2 e‖ = S
  have hS0 : 0 ≤ S := hS ▸ Finset.sum_nonneg fun _ _ => norm_nonneg _
  have h1 : (1 + ‖x.2‖) ^ p ≤ p.factorial * (β / 2)⁻¹ ^ p * Real.exp (β / 2) *
      Real.exp (β / 2 * S) := by
    have h2 : (1 + ‖x.2‖) ^ p ≤ (1 + S) ^ p :=
      pow_le_pow_left₀ (by positivity) (by linarith [norm_le_sum x.2]) p
    have h3 := Real.pow_div_factorial_le_exp (β / 2 * (1 + S)) (by positivity) p
    have hf : (0 : ℝ) < p.factorial := by exact_mod_cast p.factorial_pos
    rw [div_le_iff₀ hf, mul_pow] at h3
    have h4 : (1 + S) ^ p = (β / 2)⁻¹ ^ p * ((β / 2) ^ p * (1 + S) ^ p) := by
      rw [← mul_assoc, ← mul_pow, inv_mul_cancel₀ hβ2.ne', one_pow, one_mul]
    rw [h4] at h2
    refine h2.trans ((mul_le_mul_of_nonneg_left h3 (by positivity)).trans (le_of_eq ?_))
    rw [mul_add, mul_one, Real.exp_add]
    ring
  have h5 : Real.exp (-(β / 2 * S)) = Real.exp (β / 2 * S) * Real.exp (-(β * S)) := by
    rw [← Real.exp_add]
    congr 1
    ring
  rw [h5]
  have hv := hv x hx
  have h6 := Real.exp_pos (-(β * S))
  calc C * (1 + ‖x.2‖) ^ p * (Real.exp (-(β * S)) * v x)
      ≤ C * (p.factorial * (β / 2)⁻¹ ^ p * Real.exp (β / 2) * Real.exp (β / 2 * S)) *
        (Real.exp (-(β * S)) * v x) := by gcongr
    _ = _ := by ring

/-- Bounds which hold for all parameters in `I`, the derivative with respect to the parameter,
continuity of second derivatives in the parameter, and derivatives with respect to the parameter of
derivatives with respect to positions; derivatives along coordinates exist. -/
theorem bounded_of_tame {I : Set ℝ} {ψ : Pt N d → ℝ} {β : ℝ} (hβ : 0 < β) (hN : 0 < N) (hd : 0 < d)
    (h : ∀ i k, Tame I R i k (fun x => Real.exp (-(β * ∑ e, ‖x.2 e‖))) ψ) :
    ∃ C, 0 ≤ C ∧ (∀ θ ∈ I, Bounded R (fun x => ψ (θ, x)) (β / 2) C) ∧
      (∃ ψ' : ℝ → (Fin N → Fin d → ℝ) → ℝ, ∀ θ ∈ I, ∀ x, Good R x →
        HasDerivAt (fun τ => ψ (τ, x)) (ψ' θ x) θ ∧
        |ψ' θ x| ≤ C * Real.exp (-(β / 2 * ∑ e, ‖x e‖))) ∧
      (∀ i k x, Good R x → ContinuousOn (fun θ => partial2 (fun y => ψ (θ, y)) i k x) I) ∧
      ∃ p1 p2 : ℝ → Fin N → Fin d → (Fin N → Fin d → ℝ) → ℝ,
        ∀ θ ∈ interior I, ∀ i k x, Good R x →
          HasDerivAt (fun τ => partial1 (fun y => ψ (τ, y)) i k x) (p1 θ i k x) θ ∧
          HasDerivAt (fun τ => partial2 (fun y => ψ (τ, y)) i k x) (p2 θ i k x) θ ∧
          |p1 θ i k x| ≤ C * Real.exp (-(β / 2 * ∑ e, ‖x e‖)) ∧
          |p2 θ i k x| ≤ C * Real.exp (-(β / 2 * ∑ e, ‖x e‖)) * sing R x ∧
          ∃ v1 v2, HasJet (fun t => ψ (θ, shift x i k t)) v1 v2 := by
  have hs : ∀ x : Pt N d, Ok I R x → 0 ≤ sing R x.2 := fun x _ =>
    zero_le_one.trans (one_le_sing R x.2)
  choose f1 f2 f' hj hd' c1 c2 b0 b1 b' b2 f1' f2' hm1 hm2 bm1 bm2 using h
  have b0' : Big I R (fun x => Real.exp (-(β * ∑ e, ‖x.2 e‖)) * 1) ψ := by
    simpa using b0 ⟨0, hN⟩ ⟨0, hd⟩
  have b'' : Big I R (fun x => Real.exp (-(β * ∑ e, ‖x.2 e‖)) * 1) (f' ⟨0, hN⟩ ⟨0, hd⟩) := by
    simpa using b' ⟨0, hN⟩ ⟨0, hd⟩
  have b1' : ∀ i k, Big I R (fun x => Real.exp (-(β * ∑ e, ‖x.2 e‖)) * 1) (f1 i k) := by
    simpa using b1
  obtain ⟨C0, h00, h0⟩ := b0'.absorb hβ fun _ _ => zero_le_one
  obtain ⟨C', h0', h'⟩ := b''.absorb hβ fun _ _ => zero_le_one
  choose C1 h10 h1 using fun i k => (b1' i k).absorb hβ fun _ _ => zero_le_one
  choose C2 h20 h2 using fun i k => (b2 i k).absorb hβ hs
  have bm1' : ∀ i k, Big (interior I) R (fun x => Real.exp (-(β * ∑ e, ‖x.2 e‖)) * 1) (f1' i k) := by
    simpa using bm1
  choose C3 h30 h3 using fun i k => (bm1' i k).absorb hβ fun _ _ => zero_le_one
  choose C4 h40 h4 using fun i k => (bm2 i k).absorb hβ fun x hx => hs x hx.of_interior
  have le : ∀ c : Fin N → Fin d → ℝ, (∀ i k, 0 ≤ c i k) →
      (∀ i k, c i k ≤ ∑ i, ∑ k, c i k) ∧ 0 ≤ ∑ i, ∑ k, c i k := fun c hc =>
    ⟨fun i k => (Finset.single_le_sum (f := fun k => c i k) (fun k _ => hc i k) (Finset.mem_univ k)).trans
      (Finset.single_le_sum (f := fun i => ∑ k, c i k)
        (fun i _ => Finset.sum_nonneg fun k _ => hc i k) (Finset.mem_univ i)),
      Finset.sum_nonneg fun i _ => Finset.sum_nonneg fun k _ => hc i k⟩
  obtain ⟨le1, s1⟩ := le C1 h10
  obtain ⟨le2, s2⟩ := le C2 h20
  obtain ⟨le3, s3⟩ := le C3 h30
  obtain ⟨le4, s4⟩ := le C4 h40
  refine ⟨C0 + C' + (∑ i, ∑ k, C1 i k) + (∑ i, ∑ k, C2 i k) + (∑ i, ∑ k, C3 i k) + ∑ i, ∑ k, C4 i k,
    by positivity, fun θ hθ =>
    ⟨fun x hx => ?_, fun i k x hx => ?_, fun i k x hx => ?_⟩,
    ⟨fun θ x => f' ⟨0, hN⟩ ⟨0, hd⟩ (θ, x), fun θ hθ x hx => ⟨hd' _ _ (θ, x) ⟨hθ, hx⟩, ?_⟩⟩,
    fun i k x hx => (c2 i k x hx).congr fun θ hθ => (hj i k (θ, x) ⟨hθ, hx⟩).partial2,
    fun θ i k x => f1' i k (θ, x), fun θ i k x => f2' i k (θ, x),
    fun θ hθ i k x hx => ⟨?_, ?_, ?_, ?_, _, _, hj i k (θ, x) ⟨interior_subset hθ, hx⟩⟩⟩
  · refine (h0 (θ, x) ⟨hθ, hx⟩).trans ?_
    rw [mul_one]
    exact mul_le_mul_of_nonneg_right (by linarith) (Real.exp_pos _).le
  · rw [(hj i k (θ, x) ⟨hθ, hx⟩).partial1]
    refine (h1 i k (θ, x) ⟨hθ, hx⟩).trans ?_
    rw [mul_one]
    exact mul_le_mul_of_nonneg_right (by linarith [le1 i k]) (Real.exp_pos _).le
  · rw [(hj i k (θ, x) ⟨hθ, hx⟩).partial2]
    refine (h2 i k (θ, x) ⟨hθ, hx⟩).trans ?_
    rw [← mul_assoc]
    exact mul_le_mul_of_nonneg_right (mul_le_mul_of_nonneg_right (by linarith [le2 i k])
      (Real.exp_pos _).le) (hs (θ, x) ⟨hθ, hx⟩)
  · refine (h' (θ, x) ⟨hθ, hx⟩).trans ?_
    rw [mul_one]
    exact mul_le_mul_of_nonneg_right (by linarith) (Real.exp_pos _).le
  · refine (hm1 i k (θ, x) ⟨hθ, hx⟩).congr_of_eventuallyEq ?_
    filter_upwards [mem_interior_iff_mem_nhds.mp hθ] with τ hτ
    exact (hj i k (τ, x) ⟨hτ, hx⟩).partial1
  · refine (hm2 i k (θ, x) ⟨hθ, hx⟩).congr_of_eventuallyEq ?_
    filter_upwards [mem_interior_iff_mem_nhds.mp hθ] with τ hτ
    exact (hj i k (τ, x) ⟨hτ, hx⟩).partial2
  · refine (h3 i k (θ, x) ⟨hθ, hx⟩).trans ?_
    rw [mul_one]
    exact mul_le_mul_of_nonneg_right (by linarith [le3 i k]) (Real.exp_pos _).le
  · refine (h4 i k (θ, x) ⟨hθ, hx⟩).trans ?_
    rw [← mul_assoc]
    exact mul_le_mul_of_nonneg_right (mul_le_mul_of_nonneg_right (by linarith [le4 i k])
      (Real.exp_pos _).le) (hs (θ, x) ⟨interior_subset hθ, hx⟩)

theorem integrable_sing (hd : 2 ≤ d) {β : ℝ} (hβ : 0 < β) :
    Integrable fun x : Fin N → Fin d → ℝ => Real.exp (-(β * ∑ e, ‖x e‖)) * sing R x := by
  have e : ∀ x : Fin N → Fin d → ℝ, Real.exp (-(β * ∑ e, ‖x e‖)) * sing R x =
      Real.exp (-(β * ∑ e, ‖x e‖)) +
      (∑ i, ∑ j, Real.exp (-(β * ∑ e, ‖x e‖)) * (1 / softDist 0 (x i) (R j))) +
      ∑ i, ∑ j, Real.exp (-(β * ∑ e, ‖x e‖)) * (1 / softDist 0 (x i) (x j)) := by
    intro x
    generalize Real.exp (-(β * ∑ e, ‖x e‖)) = E
    unfold sing
    simp only [mul_add, mul_one, Finset.mul_sum]
  simp only [e]
  refine ((integrable_total (by omega) hβ).add (integrable_finsetSum _ fun i _ =>
    integrable_finsetSum _ fun j _ => integrable_ion hd hβ 0 i (R j))).add
    (integrable_finsetSum _ fun i _ => integrable_finsetSum _ fun j _ => ?_)
  by_cases h : i = j
  · subst h
    have : ∀ a : Fin d → ℝ, softDist 0 a a = 0 := fun a => by simp [softDist]
    simp only [this, div_zero, mul_zero]
    exact integrable_zero _ _ _
  · exact integrable_pair hd hβ 0 h

theorem exp_sq (a : ℝ) : Real.exp (-a) * Real.exp (-a) = Real.exp (-(2 * a)) := by
  rw [← Real.exp_add]
  congr 1
  ring

/-- A function with exponential bounds, analytic away from coalescence and not zero everywhere there,
is a wave function with finite kinetic and potential energy. -/
theorem wave_function_of_bounds (hd : 2 ≤ d) {ψ : (Fin N → Fin d → ℝ) → ℝ} {β C : ℝ} (hβ : 0 < β)
    (hC : 0 ≤ C) (hb : Bounded R ψ β C) (hω : ∀ x, Good R x → ContDiffAt ℝ ω ψ x)
    {q : Fin N → Fin d → ℝ} (hq : Good R q) (h0 : ψ q ≠ 0)
    (hj : ∀ i k, ∃ f1 f2 : (Fin N → Fin d → ℝ) → ℝ, ∀ x, Good R x → HasJet (fun t => ψ (shift x i k t)) (f1 x) (f2 x)) :
    WaveFunction ψ (partial1 ψ) (partial2 ψ) ∧
      (∀ (s : ℝ) (m' : ℕ) (R' : Fin m' → Fin d → ℝ), FiniteEI ψ s R') ∧ ∀ s, FiniteEE ψ s := by
  have hd0 : 0 < d := by omega
  have hβ2 : 0 < 2 * β := by positivity
  have m0 : AEStronglyMeasurable ψ volume :=
    aestronglyMeasurable_of_good hd0 fun x hx => (hω x hx).continuousAt
  have c1 : ∀ i k x, Good R x → ContDiffAt ℝ ω (partial1 ψ i k) x := fun i k x hx =>
    partial1_smooth (n := ω) hω i k x hx
  have m1 : ∀ i k, AEStronglyMeasurable (partial1 ψ i k) volume := fun i k =>
    aestronglyMeasurable_of_good hd0 fun x hx => (c1 i k x hx).continuousAt
  have m2 : ∀ i k, AEStronglyMeasurable (partial2 ψ i k) volume := fun i k =>
    aestronglyMeasurable_of_good hd0 fun x hx => by
      rw [funext fun x => partial2_eq (ψ := ψ) (i := i) (k := k) x]
      exact (partial1_smooth (n := ω) (c1 i k) i k x hx).continuousAt
  have hint := integrable_total (N := N) (d := d) (by omega) hβ2
  have good := ae_good (N := N) hd0 R
  -- `|ψ|² ≤ C² exp(-2β Σ|x|)`
  have sq : ∀ x, Good R x → ψ x ^ 2 ≤ C ^ 2 * Real.exp (-(2 * β * ∑ e, ‖x e‖)) := fun x hx => by
    have := hb.value x hx
    rw [mul_assoc 2 β, ← exp_sq, ← sq_abs (ψ x)]
    nlinarith [abs_nonneg (ψ x)]
  refine ⟨⟨m0, m1, ae_ne_zero hd hω hq h0, fun i k => ?_, fun i k => ?_, ?_, fun i k => ?_,
    fun i k => ?_⟩, fun s m' R' i I => ?_, fun s i j hij => ?_⟩
  · obtain ⟨f1, f2, hj⟩ := hj i k
    filter_upwards [ae_shift_good hd R i k] with x hx t
    exact line_deriv1 hj hx t
  · obtain ⟨f1, f2, hj⟩ := hj i k
    filter_upwards [ae_shift_good hd R i k] with x hx t
    exact line_deriv2 hj hx t
  · refine (hint.const_mul (C ^ 2)).mono' (m0.pow 2) ?_
    filter_upwards [good] with x hx
    rw [Real.norm_eq_abs, abs_of_nonneg (sq_nonneg _)]
    exact sq x hx
  · refine (hint.const_mul (C ^ 2)).mono' ((m1 i k).pow 2) ?_
    filter_upwards [good] with x hx
    rw [Real.norm_eq_abs, abs_of_nonneg (sq_nonneg _)]
    have := hb.first i k x hx
    rw [mul_assoc 2 β, ← exp_sq, ← sq_abs (partial1 ψ i k x)]
    nlinarith [abs_nonneg (partial1 ψ i k x)]
  · refine ((integrable_sing (R := R) hd hβ2).const_mul (C ^ 2)).mono' (m0.mul (m2 i k)) ?_
    filter_upwards [good] with x hx
    rw [Real.norm_eq_abs, abs_mul, mul_assoc 2 β, ← exp_sq]
    refine (mul_le_mul (hb.value x hx) (hb.second i k x hx) (abs_nonneg _) (by positivity)).trans
      (le_of_eq ?_)
    ring
  · refine ((integrable_ion hd hβ2 s i (R' I)).const_mul (C ^ 2)).mono' ?_ ?_
    · have : Measurable fun x : Fin N → Fin d → ℝ => softDist s (x i) (R' I) := by
        unfold softDist
        fun_prop
      exact ((m0.pow 2).aemeasurable.div this.aemeasurable).aestronglyMeasurable
    · filter_upwards [good] with x hx
      have := Ibp.softDist_nonneg s (x i) (R' I)
      rw [Real.norm_eq_abs, abs_of_nonneg (by positivity), div_eq_mul_one_div, ← mul_assoc]
      exact mul_le_mul_of_nonneg_right (sq x hx) (by positivity)
  · refine ((integrable_pair hd hβ2 s hij.ne).const_mul (C ^ 2)).mono' ?_ ?_
    · have : Measurable fun x : Fin N → Fin d → ℝ => softDist s (x i) (x j) := by
        unfold softDist
        fun_prop
      exact ((m0.pow 2).aemeasurable.div this.aemeasurable).aestronglyMeasurable
    · filter_upwards [good] with x hx
      have := Ibp.softDist_nonneg s (x i) (x j)
      rw [Real.norm_eq_abs, abs_of_nonneg (by positivity), div_eq_mul_one_div, ← mul_assoc]
      exact mul_le_mul_of_nonneg_right (sq x hx) (by positivity)

end Verif.Decay
