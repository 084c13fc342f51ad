import Mathlib.Analysis.InnerProductSpace.Adjoint
import Mathlib.Tactic
import Mathlib.MeasureTheory.Function.L2Space
import Mathlib.MeasureTheory.Function.LpSpace.Basic
import Mathlib.MeasureTheory.Measure.Prod
import Mathlib.MeasureTheory.Integral.Prod
import Mathlib.MeasureTheory.Function.SimpleFuncDenseLp
import Mathlib.MeasureTheory.Measure.Decomposition.RadonNikodym

/-!
Convergence of reversible Markov chains: powers of symmetric contractions, the operator of a chain
on square integrable functions, and chains whose moves leave no information behind.
-/

namespace Verif.Ergodic
open Filter Topology
open scoped InnerProductSpace

variable {H : Type*} [NormedAddCommGroup H] [InnerProductSpace ℝ H] [CompleteSpace H]

/-- Powers of a symmetric contraction tend to the projection on `e` if only multiples of `e` are
fixed by its square. -/
theorem powers_tendsto (A : H →L[ℝ] H) (hA : ∀ x y, ⟪A x, y⟫_ℝ = ⟪x, A y⟫_ℝ)
    (hn : ∀ x, ‖A x‖ ≤ ‖x‖) (e : H) (he : ‖e‖ = 1) (hAe : A e = e)
    (hfix : ∀ g, A (A g) = g → ∃ c : ℝ, g = c • e) (f : H) :
    Tendsto (fun n => A^[n] f) atTop (𝓝 (⟪e, f⟫_ℝ • e)) := by
  have hee : ⟪e, e⟫_ℝ = 1 := by rw [real_inner_self_eq_norm_sq, he]; norm_num
  -- a vector orthogonal to `e`
  have key : ∀ f : H, ⟪e, f⟫_ℝ = 0 → Tendsto (fun n => A^[n] f) atTop (𝓝 0) := by
    intro f hf
    have hsym : ∀ n x y, ⟪A^[n] x, y⟫_ℝ = ⟪x, A^[n] y⟫_ℝ := by
      intro n
      induction n with
      | zero => intro x y; rfl
      | succ n ih =>
        intro x y
        rw [Function.iterate_succ_apply', hA, ih, ← Function.iterate_succ_apply]
    have hanti : Antitone fun n => ‖A^[n] f‖ ^ 2 := antitone_nat_of_succ_le fun n => by
      rw [Function.iterate_succ_apply']
      exact pow_le_pow_left₀ (norm_nonneg _) (hn _) 2
    have hlim := tendsto_atTop_ciInf hanti ⟨0, by rintro _ ⟨n, rfl⟩; positivity⟩
    set L := ⨅ n, ‖A^[n] f‖ ^ 2
    have hL : ∀ n, L ≤ ‖A^[n] f‖ ^ 2 := fun n =>
      ciInf_le ⟨0, by rintro _ ⟨n, rfl⟩; positivity⟩ n
    have hprod : ∀ n m, ⟪A^[2 * n] f, A^[2 * m] f⟫_ℝ = ‖A^[n + m] f‖ ^ 2 := by
      intro n m
      rw [hsym, ← Function.iterate_add_apply, ← real_inner_self_eq_norm_sq, hsym,
        ← Function.iterate_add_apply]
      congr 2
      ring_nf
    have hc : CauchySeq fun n => A^[2 * n] f := by
      refine cauchySeq_of_le_tendsto_0 (fun N => Real.sqrt (2 * (‖A^[2 * N] f‖ ^ 2 - L))) ?_ ?_
      · intro n m N hNn hNm
        rw [dist_eq_norm]
        refine Real.le_sqrt_of_sq_le ?_
        rw [@norm_sub_sq ℝ]
        have h1 := hprod n m
        have h2 : ‖A^[2 * n] f‖ ^ 2 ≤ ‖A^[2 * N] f‖ ^ 2 := hanti (by omega)
        have h3 : ‖A^[2 * m] f‖ ^ 2 ≤ ‖A^[2 * N] f‖ ^ 2 := hanti (by omega)
        have h4 := hL (n + m)
        simp only [RCLike.re_to_real]
        rw [h1]
        linarith
      · have h2 : Tendsto (fun N => ‖A^[2 * N] f‖ ^ 2) atTop (𝓝 L) :=
          hlim.comp (tendsto_id.const_mul_atTop' (by norm_num : (0 : ℕ) < 2))
        have := ((h2.sub_const L).const_mul 2).sqrt
        simpa using this
    obtain ⟨g, hg⟩ := cauchySeq_tendsto_of_complete hc
    have hAg : A (A g) = g := by
      have h1 : Tendsto (fun n => A (A (A^[2 * n] f))) atTop (𝓝 (A (A g))) :=
        ((A.continuous.comp A.continuous).tendsto g).comp hg
      have h2 : Tendsto (fun n => A^[2 * (n + 1)] f) atTop (𝓝 g) :=
        hg.comp (tendsto_add_atTop_nat 1)
      refine tendsto_nhds_unique h1 (h2.congr fun n => ?_)
      rw [show 2 * (n + 1) = 2 * n + 1 + 1 by ring, Function.iterate_succ_apply',
        Function.iterate_succ_apply']
    obtain ⟨c, rfl⟩ := hfix g hAg
    have horth : ∀ n, ⟪e, A^[n] f⟫_ℝ = 0 := by
      intro n
      rw [← hsym]
      have : A^[n] e = e := Function.iterate_fixed hAe n
      rw [this, hf]
    have h0 : ⟪e, c • e⟫_ℝ = 0 := by
      have h1 : Tendsto (fun n => ⟪e, A^[2 * n] f⟫_ℝ) atTop (𝓝 ⟪e, c • e⟫_ℝ) :=
        tendsto_const_nhds.inner hg
      exact tendsto_nhds_unique h1 (by simp [horth])
    rw [inner_smul_right, hee, mul_one] at h0
    rw [h0, zero_smul] at hg
    have hL0 : L = 0 := by
      have h1 : Tendsto (fun n => ‖A^[2 * n] f‖ ^ 2) atTop (𝓝 L) :=
        hlim.comp (tendsto_id.const_mul_atTop' (by norm_num : (0 : ℕ) < 2))
      have h2 := (hg.norm).pow 2
      rw [norm_zero] at h2
      have := tendsto_nhds_unique h1 h2
      simpa using this
    rw [hL0] at hlim
    have := hlim.sqrt
    simp only [Real.sqrt_sq (norm_nonneg _), Real.sqrt_zero] at this
    exact tendsto_zero_iff_norm_tendsto_zero.mpr this
  have h := key (f - ⟪e, f⟫_ℝ • e) (by
    rw [inner_sub_right, inner_smul_right, hee, mul_one, sub_self])
  have e1 : ∀ n, A^[n] f = A^[n] (f - ⟪e, f⟫_ℝ • e) + ⟪e, f⟫_ℝ • e := by
    intro n
    have : A^[n] (⟪e, f⟫_ℝ • e) = ⟪e, f⟫_ℝ • e :=
      Function.iterate_fixed (by rw [map_smul, hAe]) n
    rw [← this]
    have hadd : ∀ n (x y : H), A^[n] (x + y) = A^[n] x + A^[n] y := by
      intro n
      induction n with
      | zero => intro x y; rfl
      | succ n ih => intro x y; rw [Function.iterate_succ_apply', ih, map_add,
          Function.iterate_succ_apply', Function.iterate_succ_apply']
    rw [← hadd, this, sub_add_cancel]
  have := h.add_const (⟪e, f⟫_ℝ • e)
  rw [zero_add] at this
  exact this.congr fun n => (e1 n).symm

end Verif.Ergodic

namespace Verif.Ergodic
open Filter Topology MeasureTheory
open scoped InnerProductSpace

variable {X Ω : Type*} [MeasurableSpace X] [MeasurableSpace Ω]

/-- The mean of `f` after one move. -/
noncomputable def avg (ν : Measure Ω) (F : X × Ω → X) (f : X → ℝ) (x : X) : ℝ :=
  ∫ ω, f (F (x, ω)) ∂ν

section avg

variable {ν : Measure Ω} [IsProbabilityMeasure ν] {F : X × Ω → X}

theorem measurable_avg (hF : Measurable F) {f : X → ℝ} (hf : Measurable f) :
    Measurable (avg ν F f) :=
  ((hf.comp hF).stronglyMeasurable.integral_prod_right' (ν := ν)).measurable

theorem abs_avg_le {f : X → ℝ} {M : ℝ} (hf : ∀ x, |f x| ≤ M) (x : X) : |avg ν F f x| ≤ M := by
  have := norm_integral_le_of_norm_le_const (μ := ν) (f := fun ω => f (F (x, ω))) (C := M)
    (.of_forall fun ω => hf _)
  simpa [avg] using this

theorem iterate_avg (hF : Measurable F) {f : X → ℝ} {M : ℝ} (hf : Measurable f)
    (hb : ∀ x, |f x| ≤ M) (n : ℕ) :
    Measurable ((avg ν F)^[n] f) ∧ ∀ x, |(avg ν F)^[n] f x| ≤ M := by
  induction n with
  | zero => exact ⟨hf, hb⟩
  | succ n ih =>
    rw [Function.iterate_succ_apply']
    exact ⟨measurable_avg hF ih.1, abs_avg_le ih.2⟩

end avg

variable {π : Measure X} [IsProbabilityMeasure π] {ν : Measure Ω} [IsProbabilityMeasure ν]
  {F : X × Ω → X}

/-- Moves which are reversible with respect to `π`. -/
def Reversible (π : Measure X) (ν : Measure Ω) (F : X × Ω → X) : Prop :=
  (π.prod ν).map (fun z => (z.1, F z)) = (π.prod ν).map fun z => (F z, z.1)

theorem Reversible.preserves (hF : Measurable F) (h : Reversible π ν F) :
    MeasurePreserving F (π.prod ν) π := by
  refine ⟨hF, ?_⟩
  have h1 := congrArg (Measure.map Prod.snd) h
  rw [Measure.map_map measurable_snd (measurable_fst.prodMk hF),
    Measure.map_map measurable_snd (hF.prodMk measurable_fst)] at h1
  exact h1.trans (measurePreserving_fst (μ := π) (ν := ν)).map_eq

/-- A function of the position as a function of position and draws. -/
noncomputable def lift (π : Measure X) [IsProbabilityMeasure π] (ν : Measure Ω)
    [IsProbabilityMeasure ν] : Lp ℝ 2 π →L[ℝ] Lp ℝ 2 (π.prod ν) :=
  (Lp.compMeasurePreservingₗᵢ ℝ Prod.fst measurePreserving_fst).toContinuousLinearMap

/-- The function after a move. -/
noncomputable def moved (h : MeasurePreserving F (π.prod ν) π) :
    Lp ℝ 2 π →L[ℝ] Lp ℝ 2 (π.prod ν) :=
  (Lp.compMeasurePreservingₗᵢ ℝ F h).toContinuousLinearMap

/-- The mean after a move, on square integrable functions. -/
noncomputable def op (h : MeasurePreserving F (π.prod ν) π) : Lp ℝ 2 π →L[ℝ] Lp ℝ 2 π :=
  (ContinuousLinearMap.adjoint (lift π ν)).comp (moved h)

theorem norm_lift (f : Lp ℝ 2 π) : ‖lift π ν f‖ = ‖f‖ :=
  (Lp.compMeasurePreservingₗᵢ ℝ Prod.fst measurePreserving_fst).norm_map f

theorem norm_moved (h : MeasurePreserving F (π.prod ν) π) (f : Lp ℝ 2 π) : ‖moved h f‖ = ‖f‖ :=
  (Lp.compMeasurePreservingₗᵢ ℝ F h).norm_map f

theorem lift_ae (f : Lp ℝ 2 π) : lift π ν f =ᵐ[π.prod ν] fun z => f z.1 :=
  Lp.coeFn_compMeasurePreserving f measurePreserving_fst

theorem moved_ae (h : MeasurePreserving F (π.prod ν) π) (f : Lp ℝ 2 π) :
    moved h f =ᵐ[π.prod ν] fun z => f (F z) :=
  Lp.coeFn_compMeasurePreserving f h

theorem inner_op (h : MeasurePreserving F (π.prod ν) π) (g f : Lp ℝ 2 π) :
    ⟪g, op h f⟫_ℝ = ∫ z, g z.1 * f (F z) ∂(π.prod ν) := by
  rw [op, ContinuousLinearMap.comp_apply, ContinuousLinearMap.adjoint_inner_right, L2.inner_def]
  refine integral_congr_ae ?_
  filter_upwards [lift_ae (ν := ν) g, moved_ae h f] with z h1 h2
  rw [h1, h2]
  simp [mul_comm]

theorem op_symmetric (hF : Measurable F) (hr : Reversible π ν F)
    (h : MeasurePreserving F (π.prod ν) π) (g f : Lp ℝ 2 π) :
    ⟪op h g, f⟫_ℝ = ⟪g, op h f⟫_ℝ := by
  rw [real_inner_comm, inner_op, inner_op]
  have hm : AEStronglyMeasurable (fun p : X × X => f p.1 * g p.2)
      ((π.prod ν).map fun z => (z.1, F z)) :=
    (((Lp.stronglyMeasurable f).comp_measurable measurable_fst).mul
      ((Lp.stronglyMeasurable g).comp_measurable measurable_snd)).aestronglyMeasurable
  have e1 := integral_map (μ := π.prod ν) (φ := fun z => (z.1, F z))
    (measurable_fst.prodMk hF).aemeasurable hm
  rw [hr] at hm
  have e2 := integral_map (μ := π.prod ν) (φ := fun z => (F z, z.1))
    (hF.prodMk measurable_fst).aemeasurable hm
  rw [hr] at e1
  have := e1.symm.trans e2
  simp only at this
  rw [this]
  exact integral_congr_ae (.of_forall fun z => mul_comm _ _)

theorem norm_op_le (h : MeasurePreserving F (π.prod ν) π) (f : Lp ℝ 2 π) : ‖op h f‖ ≤ ‖f‖ := by
  by_cases h0 : ‖op h f‖ = 0
  · rw [h0]; positivity
  have h1 : ‖op h f‖ * ‖op h f‖ ≤ ‖op h f‖ * ‖f‖ := by
    calc ‖op h f‖ * ‖op h f‖ = ⟪op h f, op h f⟫_ℝ := (real_inner_self_eq_norm_mul_norm _).symm
      _ = ⟪lift π ν (op h f), moved h f⟫_ℝ := by
        conv_lhs => rw [op, ContinuousLinearMap.comp_apply]
        rw [ContinuousLinearMap.adjoint_inner_right]
        rfl
      _ ≤ ‖lift π ν (op h f)‖ * ‖moved h f‖ := real_inner_le_norm _ _
      _ = ‖op h f‖ * ‖f‖ := by rw [norm_lift, norm_moved]
  exact le_of_mul_le_mul_left h1 (lt_of_le_of_ne (norm_nonneg _) (Ne.symm h0))

/-- Where the norm does not decrease the value after a move is determined by the position. -/
theorem moved_eq_lift (h : MeasurePreserving F (π.prod ν) π) {f : Lp ℝ 2 π}
    (hf : ‖f‖ ≤ ‖op h f‖) : moved h f = lift π ν (op h f) := by
  have h1 : ⟪lift π ν (op h f), moved h f⟫_ℝ = ‖op h f‖ ^ 2 := by
    rw [← ContinuousLinearMap.adjoint_inner_right]
    exact real_inner_self_eq_norm_sq _
  have h2 : ‖moved h f - lift π ν (op h f)‖ ^ 2 ≤ 0 := by
    rw [@norm_sub_sq ℝ, real_inner_comm, norm_moved, norm_lift]
    simp only [RCLike.re_to_real]
    rw [h1]
    nlinarith [norm_nonneg f, norm_nonneg (op h f), norm_op_le h f]
  rw [← sub_eq_zero, ← norm_eq_zero]
  exact pow_eq_zero_iff two_ne_zero |>.mp (le_antisymm h2 (by positivity))

theorem op_toLp (hF : Measurable F) (h : MeasurePreserving F (π.prod ν) π) {f : X → ℝ} {M : ℝ}
    (hf : Measurable f) (hb : ∀ x, |f x| ≤ M) (hL : MemLp f 2 π) (hL' : MemLp (avg ν F f) 2 π) :
    op h (hL.toLp f) = hL'.toLp (avg ν F f) := by
  refine ext_inner_left ℝ fun g => ?_
  rw [inner_op, L2.inner_def]
  have e1 : ∫ z, g z.1 * (hL.toLp f) (F z) ∂(π.prod ν) = ∫ z, g z.1 * f (F z) ∂(π.prod ν) := by
    refine integral_congr_ae ?_
    filter_upwards [h.quasiMeasurePreserving.ae hL.coeFn_toLp] with z hz
    rw [hz]
  have hg : Integrable g π := (Lp.memLp g).integrable (by norm_num)
  have hi : Integrable (fun z : X × Ω => g z.1 * f (F z)) (π.prod ν) := by
    refine ((hg.comp_fst ν).mul_const M).mono ?_ (.of_forall fun z => ?_)
    · exact (((Lp.stronglyMeasurable g).comp_measurable measurable_fst).mul
        (hf.comp hF).stronglyMeasurable).aestronglyMeasurable
    · rw [norm_mul, norm_mul]
      refine mul_le_mul_of_nonneg_left ?_ (norm_nonneg _)
      exact (hb _).trans (le_abs_self M)
  rw [e1, integral_prod _ hi]
  refine integral_congr_ae ?_
  filter_upwards [hL'.coeFn_toLp] with x hx
  rw [hx]
  simp only [integral_const_mul, avg, RCLike.inner_apply, conj_trivial]
  ring

end Verif.Ergodic

namespace Verif.Ergodic
open Filter Topology MeasureTheory
open scoped InnerProductSpace

variable {X Ω : Type*} [MeasurableSpace X] [MeasurableSpace Ω]
  {π : Measure X} [IsProbabilityMeasure π] {ν : Measure Ω} [IsProbabilityMeasure ν]
  {F : X × Ω → X}

/-- Only constants are determined by the position before a move. -/
def Mixing (π : Measure X) (ν : Measure Ω) (F : X × Ω → X) : Prop :=
  ∀ g h : X → ℝ, Measurable g → Measurable h → (∀ᵐ z ∂(π.prod ν), g (F z) = h z.1) →
    ∃ c : ℝ, ∀ᵐ x ∂π, g x = c

/-- The function 1. -/
noncomputable def one (π : Measure X) [IsProbabilityMeasure π] : Lp ℝ 2 π :=
  (memLp_const (1 : ℝ)).toLp fun _ => 1

theorem one_ae : one π =ᵐ[π] fun _ => 1 := (memLp_const (1 : ℝ)).coeFn_toLp

theorem inner_one (f : Lp ℝ 2 π) : ⟪one π, f⟫_ℝ = ∫ x, f x ∂π := by
  rw [L2.inner_def]
  refine integral_congr_ae ?_
  filter_upwards [one_ae (π := π)] with x hx
  rw [hx]
  simp

theorem norm_one : ‖one π‖ = 1 := by
  have h : ‖one π‖ ^ 2 = 1 := by
    rw [← real_inner_self_eq_norm_sq, inner_one, integral_congr_ae one_ae]
    simp
  exact (pow_eq_one_iff_of_nonneg (norm_nonneg _) two_ne_zero).mp h

theorem op_one (hF : Measurable F) (h : MeasurePreserving F (π.prod ν) π) :
    op h (one π) = one π := by
  have e : avg ν F (fun _ => 1) = fun _ => (1 : ℝ) := by
    funext x
    simp [avg]
  unfold one
  rw [op_toLp (M := 1) hF h measurable_const (by simp) _ (by rw [e]; exact memLp_const _)]
  simp only [e]

theorem op_tendsto (hF : Measurable F) (hr : Reversible π ν F) (hm : Mixing π ν F)
    (h : MeasurePreserving F (π.prod ν) π) (f : Lp ℝ 2 π) :
    Tendsto (fun n => (op h)^[n] f) atTop (𝓝 ((∫ x, f x ∂π) • one π)) := by
  rw [← inner_one]
  refine powers_tendsto (op h) (op_symmetric hF hr h) (norm_op_le h) (one π) norm_one
    (op_one hF h) (fun g hg => ?_) f
  have h1 : ‖g‖ ≤ ‖op h g‖ := by
    conv_lhs => rw [← hg]
    exact norm_op_le h _
  have h2 := moved_eq_lift h h1
  have h3 : ∀ᵐ z ∂(π.prod ν), g (F z) = op h g z.1 := by
    filter_upwards [moved_ae h g, lift_ae (ν := ν) (op h g)] with z e1 e2
    rw [← e1, ← e2, h2]
  obtain ⟨c, hc⟩ := hm g (op h g) (Lp.stronglyMeasurable g).measurable
    (Lp.stronglyMeasurable _).measurable h3
  refine ⟨c, Lp.ext ?_⟩
  filter_upwards [hc, Lp.coeFn_smul c (one π), one_ae (π := π)] with x e1 e2 e3
  rw [e1, e2, Pi.smul_apply, e3]
  simp

theorem memLp_bounded {f : X → ℝ} {M : ℝ} (hf : Measurable f) (hb : ∀ x, |f x| ≤ M)
    (p : ENNReal) : MemLp f p π :=
  MemLp.of_bound hf.aestronglyMeasurable M (.of_forall hb)

theorem op_iterate (hF : Measurable F) (h : MeasurePreserving F (π.prod ν) π) {f : X → ℝ} {M : ℝ}
    (hf : Measurable f) (hb : ∀ x, |f x| ≤ M) (n : ℕ) :
    (op h)^[n] ((memLp_bounded hf hb 2).toLp f) =
      (memLp_bounded (iterate_avg hF hf hb n).1 (iterate_avg hF hf hb n).2 2).toLp
        ((avg ν F)^[n] f) := by
  induction n with
  | zero => rfl
  | succ n ih =>
    rw [Function.iterate_succ_apply', ih]
    rw [op_toLp hF h (iterate_avg hF hf hb n).1 (iterate_avg hF hf hb n).2 _
      (memLp_bounded (measurable_avg hF (iterate_avg hF hf hb n).1)
        (abs_avg_le (iterate_avg hF hf hb n).2) 2)]
    simp only [Function.iterate_succ_apply']

/-- Convergence from an initial law with square integrable density, uniformly in bounded functions. -/
theorem converge_square (hF : Measurable F) (hr : Reversible π ν F) (hm : Mixing π ν F)
    {ρ : X → ℝ} (hρ : MemLp ρ 2 π) {η : ℝ} (hη : 0 < η) :
    ∀ᶠ n in atTop, ∀ f : X → ℝ, Measurable f → (∀ x, |f x| ≤ 1) →
      |∫ x, ρ x * (avg ν F)^[n] f x ∂π - (∫ x, ρ x ∂π) * ∫ x, f x ∂π| ≤ η := by
  have h := hr.preserves hF
  have ht := op_tendsto hF hr hm h (hρ.toLp ρ)
  rw [Metric.tendsto_atTop] at ht
  obtain ⟨N, hN⟩ := ht η hη
  filter_upwards [eventually_ge_atTop N] with n hn f hf hb
  have hsym : ∀ n (x y : Lp ℝ 2 π), ⟪(op h)^[n] x, y⟫_ℝ = ⟪x, (op h)^[n] y⟫_ℝ := by
    intro n
    induction n with
    | zero => intro x y; rfl
    | succ n ih =>
      intro x y
      rw [Function.iterate_succ_apply', op_symmetric hF hr, ih, ← Function.iterate_succ_apply]
  have e1 : ∫ x, ρ x * (avg ν F)^[n] f x ∂π =
      ⟪hρ.toLp ρ, (op h)^[n] ((memLp_bounded hf hb 2).toLp f)⟫_ℝ := by
    rw [op_iterate hF h hf hb, L2.inner_def]
    refine integral_congr_ae ?_
    filter_upwards [hρ.coeFn_toLp, (memLp_bounded (π := π) (iterate_avg (ν := ν) hF hf hb n).1
      (iterate_avg hF hf hb n).2 2).coeFn_toLp] with x h1 h2
    rw [h1, h2]
    simp [mul_comm]
  have e2 : ∫ x, f x ∂π = ⟪one π, (memLp_bounded hf hb 2).toLp f⟫_ℝ := by
    rw [inner_one]
    exact integral_congr_ae (memLp_bounded hf hb 2).coeFn_toLp.symm
  have e3 : ∫ x, ρ x ∂π = ∫ x, (hρ.toLp ρ) x ∂π := integral_congr_ae hρ.coeFn_toLp.symm
  rw [e1, e2, e3, ← hsym, ← real_inner_smul_left, ← inner_sub_left]
  refine (abs_real_inner_le_norm _ _).trans ?_
  have hf1 : ‖(memLp_bounded (π := π) hf hb 2).toLp f‖ ≤ 1 := by
    rw [Lp.norm_toLp]
    refine ENNReal.toReal_le_of_le_ofReal zero_le_one ?_
    have := eLpNorm_le_of_ae_bound (μ := π) (p := 2) (f := f) (C := 1) (.of_forall hb)
    simpa using this
  have := hN n hn
  rw [dist_eq_norm] at this
  calc _ ≤ η * 1 := mul_le_mul this.le hf1 (norm_nonneg _) hη.le
    _ = η := mul_one η

/-- Convergence from an initial law with a density. -/
theorem converge_density (hF : Measurable F) (hr : Reversible π ν F) (hm : Mixing π ν F)
    {ρ : X → ℝ} (hρ : Integrable ρ π) {η : ℝ} (hη : 0 < η) :
    ∀ᶠ n in atTop, ∀ f : X → ℝ, Measurable f → (∀ x, |f x| ≤ 1) →
      |∫ x, ρ x * (avg ν F)^[n] f x ∂π - (∫ x, ρ x ∂π) * ∫ x, f x ∂π| ≤ η := by
  obtain ⟨s, hs, -⟩ := (memLp_one_iff_integrable.mpr hρ).exists_simpleFunc_eLpNorm_sub_lt
    ENNReal.one_ne_top (ε := ENNReal.ofReal (η / 3)) (by positivity)
  have hsi : Integrable s π := s.integrable_of_isFiniteMeasure
  have hd : ∫ x, |ρ x - s x| ∂π ≤ η / 3 := by
    have h1 : ∫ x, |ρ x - s x| ∂π = (eLpNorm (ρ - ⇑s) 1 π).toReal := by
      rw [eLpNorm_one_eq_lintegral_enorm, ← integral_norm_eq_lintegral_enorm]
      · rfl
      · exact (hρ.sub hsi).1
    rw [h1]
    exact ENNReal.toReal_le_of_le_ofReal (by positivity) hs.le
  filter_upwards [converge_square hF hr hm (s.memLp_of_isFiniteMeasure 2 π)
    (show (0 : ℝ) < η / 3 by positivity)] with n hn f hf hb
  have hP := iterate_avg (ν := ν) hF hf hb n
  have hint : ∀ {ρ : X → ℝ}, Integrable ρ π →
      Integrable (fun x => ρ x * (avg ν F)^[n] f x) π := fun hρ =>
    hρ.mul_bdd (c := 1) hP.1.aestronglyMeasurable (.of_forall hP.2)
  have hbound : ∀ {g : X → ℝ}, Measurable g → (∀ x, |g x| ≤ 1) →
      |∫ x, (ρ x - s x) * g x ∂π| ≤ η / 3 := by
    intro g hg hgb
    refine (abs_integral_le_integral_abs).trans (le_trans ?_ hd)
    refine integral_mono_of_nonneg (.of_forall fun x => abs_nonneg _) (hρ.sub hsi).abs
      (.of_forall fun x => ?_)
    simp only [abs_mul]
    exact mul_le_of_le_one_right (abs_nonneg _) (hgb x)
  have h1 := hbound hP.1 hP.2
  have h2 := hbound (g := fun _ => 1) measurable_const (by simp)
  have h3 := hn f hf hb
  have e1 : ∫ x, (ρ x - s x) * (avg ν F)^[n] f x ∂π =
      ∫ x, ρ x * (avg ν F)^[n] f x ∂π - ∫ x, s x * (avg ν F)^[n] f x ∂π := by
    rw [← integral_sub (hint hρ) (hint hsi)]
    exact integral_congr_ae (.of_forall fun x => by simp only; ring)
  have e2 : ∫ x, (ρ x - s x) * (1 : ℝ) ∂π = ∫ x, ρ x ∂π - ∫ x, s x ∂π := by
    rw [← integral_sub hρ hsi]
    exact integral_congr_ae (.of_forall fun x => by simp only; ring)
  rw [e1] at h1
  rw [e2] at h2
  have hfb : |∫ x, f x ∂π| ≤ 1 := by
    have := norm_integral_le_of_norm_le_const (μ := π) (f := f) (C := 1) (.of_forall hb)
    simpa using this
  have h4 : |(∫ x, ρ x ∂π - ∫ x, s x ∂π) * ∫ x, f x ∂π| ≤ η / 3 := by
    rw [abs_mul]
    exact (mul_le_of_le_one_right (abs_nonneg _) hfb).trans h2
  rw [abs_le] at *
  constructor <;> nlinarith

/-- A position from which a move goes somewhere with a density, or stays. -/
def Leaves (π : Measure X) (ν : Measure Ω) (F : X × Ω → X) (x : X) : Prop :=
  ∃ (m : Measure X) (r : ℝ), IsFiniteMeasure m ∧ m ≪ π ∧ 0 ≤ r ∧ r < 1 ∧
    ∀ f : X → ℝ, Measurable f → (∀ y, |f y| ≤ 1) → avg ν F f x = ∫ y, f y ∂m + r * f x

/-- Convergence from a position. -/
theorem converge_start (hF : Measurable F) (hr : Reversible π ν F) (hm : Mixing π ν F) {x : X}
    (hx : Leaves π ν F x) {η : ℝ} (hη : 0 < η) :
    ∀ᶠ n in atTop, ∀ f : X → ℝ, Measurable f → (∀ x, |f x| ≤ 1) →
      |(avg ν F)^[n] f x - ∫ x, f x ∂π| ≤ η := by
  obtain ⟨m, r, hfin, hac, hr0, hr1, hstep⟩ := hx
  have hone := hstep (fun _ => 1) measurable_const (by simp)
  simp only [avg, integral_const, probReal_univ, smul_eq_mul, mul_one] at hone
  have hρ : Integrable (fun y => (m.rnDeriv π y).toReal) π :=
    integrable_toReal_of_lintegral_ne_top (Measure.measurable_rnDeriv m π).aemeasurable
      (Measure.lintegral_rnDeriv_lt_top m π).ne
  have hρe : ∀ f : X → ℝ, ∫ y, (m.rnDeriv π y).toReal * f y ∂π = ∫ y, f y ∂m := fun f =>
    integral_rnDeriv_smul hac
  have hρ1 : ∫ y, (m.rnDeriv π y).toReal ∂π = 1 - r := by
    have := hρe fun _ => 1
    simp only [mul_one, integral_const, smul_eq_mul] at this
    linarith
  have hr1' : 0 < 1 - r := by linarith
  obtain ⟨N, hN⟩ := eventually_atTop.mp (converge_density hF hr hm hρ
    (show 0 < η / 2 * (1 - r) by positivity))
  have hk : ∀ᶠ k in atTop, 2 * r ^ k ≤ η / 2 := by
    have := (tendsto_pow_atTop_nhds_zero_of_lt_one hr0 hr1).const_mul 2
    rw [mul_zero] at this
    exact this.eventually (ge_mem_nhds (by positivity))
  obtain ⟨k₀, hk₀⟩ := eventually_atTop.mp hk
  refine eventually_atTop.mpr ⟨N + k₀, fun n hn f hf hb => ?_⟩
  have hfb : |∫ x, f x ∂π| ≤ 1 := by
    have := norm_integral_le_of_norm_le_const (μ := π) (f := f) (C := 1) (.of_forall hb)
    simpa using this
  have hrec : ∀ k, |(avg ν F)^[N + k] f x - ∫ x, f x ∂π| ≤ η / 2 + 2 * r ^ k := by
    intro k
    induction k with
    | zero =>
      have h1 := (iterate_avg (ν := ν) hF hf hb N).2 x
      rw [pow_zero]
      rw [abs_le] at *
      simp only [add_zero]
      constructor <;> linarith
    | succ k ih =>
      have hP := iterate_avg (ν := ν) hF hf hb (N + k)
      have h1 := hN (N + k) (by omega) f hf hb
      rw [hρe, hρ1] at h1
      have h2 := hstep _ hP.1 hP.2
      have e : (avg ν F)^[N + (k + 1)] f x - ∫ x, f x ∂π =
          (∫ y, (avg ν F)^[N + k] f y ∂m - (1 - r) * ∫ x, f x ∂π) +
            r * ((avg ν F)^[N + k] f x - ∫ x, f x ∂π) := by
        rw [← add_assoc, Function.iterate_succ_apply', h2]
        ring
      rw [e]
      refine (abs_add_le _ _).trans ?_
      rw [abs_mul, abs_of_nonneg hr0, pow_succ]
      nlinarith [mul_le_mul_of_nonneg_left ih hr0]
  obtain ⟨k, rfl⟩ : ∃ k, n = N + k := ⟨n - N, by omega⟩
  exact (hrec k).trans (by linarith [hk₀ k (by omega)])

end Verif.Ergodic
