import Verif.Props.Optimizers
import Verif.Props.Sampling
import Mathlib.Analysis.PSeries
import Mathlib.Analysis.Calculus.MeanValue
import Mathlib.MeasureTheory.Function.ConditionalExpectation.PullOut
import Mathlib.Probability.Process.Filtration
import Mathlib.Probability.ProbabilityMassFunction.Integrals
import Mathlib.Probability.Distributions.Uniform
import Mathlib.Probability.BorelCantelli
import Mathlib.Probability.ConditionalExpectation

/-! C106: training with SGD as stochastic approximation. -/

namespace Verif.Props
open Verif.Updates Verif.Spec MeasureTheory ProbabilityTheory Filter Topology

/-! ### Schedules -/

/-- The conditions of Robbins and Monro on step sizes: the sum is infinite, that of the squares
finite. -/
def RobbinsMonro (η : ℕ → ℝ) : Prop :=
  Tendsto (fun t => ∑ s ∈ Finset.range t, η s) atTop atTop ∧ Summable fun s => η s ^ 2

theorem inverse_time_sums {r δ : ℝ} (hr : 0 < r) (hδ : 0 < δ) :
    RobbinsMonro fun t => r / (1 + δ * t) := by
  have hpos : ∀ t : ℕ, 0 < (t : ℝ) + 1 / δ := fun t => by positivity
  have heq : ∀ t : ℕ, r / (1 + δ * t) = r / δ * (1 / |(t : ℝ) + 1 / δ| ^ (1 : ℝ)) := fun t => by
    rw [Real.rpow_one, abs_of_pos (hpos t)]
    have : 1 + δ * (t : ℝ) ≠ 0 := by positivity
    have := (hpos t).ne'
    field_simp
    ring
  constructor
  · rw [← not_summable_iff_tendsto_nat_atTop_of_nonneg fun t => by positivity]
    intro h
    have h1 : Summable fun t : ℕ => 1 / |(t : ℝ) + 1 / δ| ^ (1 : ℝ) := by
      have h2 : Summable fun t : ℕ => r / δ * (1 / |(t : ℝ) + 1 / δ| ^ (1 : ℝ)) :=
        h.congr fun t => (heq t)
      exact (summable_mul_left_iff (div_pos hr hδ).ne').1 h2
    exact absurd ((Real.summable_one_div_nat_add_rpow (1 / δ) 1).1 h1) (lt_irrefl _)
  · have h1 := ((Real.summable_one_div_nat_add_rpow (1 / δ) 2).2 one_lt_two).mul_left ((r / δ) ^ 2)
    refine h1.congr fun t => ?_
    show _ = (r / (1 + δ * t)) ^ 2
    rw [heq t, Real.rpow_one, Real.rpow_two]
    have := (abs_pos.2 (hpos t).ne').ne'
    field_simp

theorem constant_sums {r : ℝ} (hr : r ≠ 0) : ¬ RobbinsMonro fun _ => r := by
  rintro ⟨-, h⟩
  have h1 := h.tendsto_atTop_zero
  have h2 := tendsto_nhds_unique h1 tendsto_const_nhds
  exact pow_ne_zero 2 hr h2.symm

/-- C106: a schedule of the code with a positive rate meets the conditions of Robbins and Monro
exactly if it is `inverse_time` with a decay. -/
theorem schedule_admissible_iff (kind : String) {r δ : ℝ} (hr : 0 < r) (hδ : 0 ≤ δ) {η : ℕ → ℝ}
    (h : learningRateSchedule kind r δ = .ok η) :
    RobbinsMonro η ↔ kind = "inverse_time" ∧ 0 < δ := by
  unfold learningRateSchedule at h
  split at h
  next hk =>
    injection h with h
    subst h
    subst hk
    simp [constant_sums hr.ne']
  next hk =>
    split at h
    next hk' =>
      injection h with h
      subst h
      subst hk'
      constructor
      · intro h'
        refine ⟨rfl, lt_of_le_of_ne hδ fun h0 => ?_⟩
        subst h0
        simp only [zero_mul, add_zero, div_one] at h'
        exact constant_sums hr.ne' h'
      · rintro ⟨-, h1⟩
        exact inverse_time_sums hr h1
    · cases h

/-! ### Energies and gradients -/

section
variable {K : Type*} [Fintype K]

/-- An energy with gradient `g`, which is Lipschitz continuous with constant `L`, and bounded below
by `m`. -/
structure SmoothEnergy (E : (K → ℝ) → ℝ) (g : (K → ℝ) → K → ℝ) (L m : ℝ) : Prop where
  gradient : ∀ θ v : K → ℝ, HasDerivAt (fun s : ℝ => E (θ + s • v)) (∑ k, g θ k * v k) 0
  lipschitz : ∀ θ θ' : K → ℝ, ∑ k, (g θ k - g θ' k) ^ 2 ≤ L ^ 2 * ∑ k, (θ k - θ' k) ^ 2
  bounded : ∀ θ, m ≤ E θ

/-- Random gradients `G` at the random parameters `θ`: their squares have means, they depend on what
has happened up to their update, given what has happened before their mean is the gradient, and
their mean square grows no faster than that of the gradient. -/
structure UnbiasedGradients {Ω : Type*} {mΩ : MeasurableSpace Ω} (P : Measure Ω)
    (past : Filtration ℕ mΩ) (g : (K → ℝ) → K → ℝ) (θ G : ℕ → Ω → K → ℝ) (σ c : ℝ) : Prop where
  adapted : ∀ t k, StronglyMeasurable[past (t + 1)] fun ω => G t ω k
  square : ∀ t k, Integrable (fun ω => G t ω k ^ 2) P
  unbiased : ∀ t k, P[fun ω => G t ω k | past t] =ᵐ[P] fun ω => g (θ t ω) k
  noise : ∀ t, ∑ k, ∫ ω, G t ω k ^ 2 ∂P ≤ σ + c * ∑ k, ∫ ω, g (θ t ω) k ^ 2 ∂P

variable {E : (K → ℝ) → ℝ} {g : (K → ℝ) → K → ℝ} {L m : ℝ}

theorem SmoothEnergy.deriv_along (h : SmoothEnergy E g L m) (θ v : K → ℝ) (s : ℝ) :
    HasDerivAt (fun s : ℝ => E (θ + s • v)) (∑ k, g (θ + s • v) k * v k) s := by
  have h1 := h.gradient (θ + s • v) v
  have h2 : HasDerivAt (fun r : ℝ => E (θ + s • v + (r - s) • v)) (∑ k, g (θ + s • v) k * v k) s := by
    have h3 : HasDerivAt (fun r : ℝ => E (θ + s • v + r • v)) (∑ k, g (θ + s • v) k * v k) (s - s) := by
      rw [sub_self]
      exact h1
    have h4 : HasDerivAt (fun r : ℝ => r - s) 1 s := (hasDerivAt_id s).sub_const s
    have := h3.comp (h := fun r : ℝ => r - s) s h4
    simpa [Function.comp_def] using this
  refine h2.congr_of_eventuallyEq (Eventually.of_forall fun r => ?_)
  show E (θ + r • v) = E (θ + s • v + (r - s) • v)
  rw [add_assoc, ← add_smul]
  congr 3
  ring

theorem SmoothEnergy.inner_le (h : SmoothEnergy E g L m) (hL : 0 ≤ L) (θ v : K → ℝ) {s : ℝ}
    (hs : 0 ≤ s) : |∑ k, g (θ + s • v) k * v k - ∑ k, g θ k * v k| ≤ L * s * ∑ k, v k ^ 2 := by
  rw [← Finset.sum_sub_distrib]
  simp only [← sub_mul]
  have hN : 0 ≤ ∑ k, v k ^ 2 := Finset.sum_nonneg fun k _ => sq_nonneg _
  refine abs_le_of_sq_le_sq ?_ (by positivity)
  have h1 := Finset.sum_mul_sq_le_sq_mul_sq Finset.univ (fun k => g (θ + s • v) k - g θ k) v
  refine h1.trans ?_
  have h2 := h.lipschitz (θ + s • v) θ
  have h3 : ∑ k, ((θ + s • v) k - θ k) ^ 2 = s ^ 2 * ∑ k, v k ^ 2 := by
    rw [Finset.mul_sum]
    refine Finset.sum_congr rfl fun k _ => ?_
    simp only [Pi.add_apply, Pi.smul_apply, smul_eq_mul]
    ring
  rw [h3] at h2
  calc _ ≤ L ^ 2 * (s ^ 2 * ∑ k, v k ^ 2) * ∑ k, v k ^ 2 := mul_le_mul_of_nonneg_right h2 hN
    _ = _ := by ring

/-- A step changes the energy by the slope up to a square. -/
theorem SmoothEnergy.step_le (h : SmoothEnergy E g L m) (hL : 0 ≤ L) (θ v : K → ℝ) :
    E (θ + v) ≤ E θ + ∑ k, g θ k * v k + L / 2 * ∑ k, v k ^ 2 := by
  set N := ∑ k, v k ^ 2
  set a := ∑ k, g θ k * v k
  have hd : ∀ s : ℝ, HasDerivAt (fun s : ℝ => E (θ + s • v) - s * a - L / 2 * N * s ^ 2)
      (∑ k, g (θ + s • v) k * v k - a - L * N * s) s := fun s => by
    have h1 := ((h.deriv_along θ v s).sub ((hasDerivAt_id s).mul_const a)).sub
      (((hasDerivAt_pow 2 s).const_mul (L / 2 * N)))
    refine h1.congr_deriv ?_
    push_cast
    ring
  have hanti : AntitoneOn (fun s : ℝ => E (θ + s • v) - s * a - L / 2 * N * s ^ 2) (Set.Icc 0 1) := by
    refine antitoneOn_of_deriv_nonpos (convex_Icc 0 1)
      (fun s _ => (hd s).continuousAt.continuousWithinAt)
      (fun s _ => (hd s).differentiableAt.differentiableWithinAt) fun s hs => ?_
    rw [interior_Icc] at hs
    rw [(hd s).deriv]
    have h2 := ((_root_.abs_le).1 (h.inner_le hL θ v hs.1.le)).2
    have h3 : L * s * N = L * N * s := by ring
    linarith
  have h4 := hanti (Set.left_mem_Icc.2 zero_le_one) (Set.right_mem_Icc.2 zero_le_one) zero_le_one
  simp only [one_smul, one_mul, one_pow, mul_one, zero_smul, add_zero, zero_mul, sub_zero] at h4
  norm_num at h4
  linarith

theorem SmoothEnergy.le_abs (h : SmoothEnergy E g L m) (hL : 0 ≤ L) (θ v : K → ℝ) :
    |E (θ + v)| ≤ |m| + |E θ| + ∑ k, g θ k ^ 2 + (L / 2 + 1) * ∑ k, v k ^ 2 := by
  have h1 := h.step_le hL θ v
  have h2 := h.bounded (θ + v)
  have h3 : ∑ k, g θ k * v k ≤ ∑ k, g θ k ^ 2 + ∑ k, v k ^ 2 := by
    rw [← Finset.sum_add_distrib]
    exact Finset.sum_le_sum fun k _ => by
      nlinarith [sq_nonneg (g θ k - v k), sq_nonneg (g θ k), sq_nonneg (v k)]
  have hN : 0 ≤ ∑ k, v k ^ 2 := Finset.sum_nonneg fun k _ => sq_nonneg _
  have hG : 0 ≤ ∑ k, g θ k ^ 2 := Finset.sum_nonneg fun k _ => sq_nonneg _
  have hLN : 0 ≤ L / 2 * ∑ k, v k ^ 2 := by positivity
  rw [_root_.abs_le]
  constructor
  · linarith [neg_abs_le m, abs_nonneg (E θ)]
  · linarith [le_abs_self (E θ), abs_nonneg m]

theorem SmoothEnergy.gradient_continuous (h : SmoothEnergy E g L m) : Continuous g := by
  refine continuous_pi fun k => continuous_iff_continuousAt.2 fun θ => ?_
  rw [ContinuousAt, tendsto_iff_dist_tendsto_zero]
  have h0 : Tendsto (fun θ' : K → ℝ => Real.sqrt (L ^ 2 * ∑ k, (θ' k - θ k) ^ 2)) (𝓝 θ) (𝓝 0) := by
    have hc : Continuous fun θ' : K → ℝ => Real.sqrt (L ^ 2 * ∑ k, (θ' k - θ k) ^ 2) := by fun_prop
    have := hc.tendsto θ
    simpa using this
  refine squeeze_zero (fun _ => dist_nonneg) (fun θ' => ?_) h0
  rw [Real.dist_eq]
  refine Real.abs_le_sqrt ?_
  exact (Finset.single_le_sum (f := fun k => (g θ' k - g θ k) ^ 2) (fun j _ => sq_nonneg _)
    (Finset.mem_univ k)).trans (h.lipschitz θ' θ)

theorem SmoothEnergy.continuous (h : SmoothEnergy E g L m) (hL : 0 ≤ L) : Continuous E := by
  refine continuous_iff_continuousAt.2 fun θ => ?_
  rw [ContinuousAt, tendsto_iff_dist_tendsto_zero]
  have hb : ∀ θ' : K → ℝ, dist (E θ') (E θ) ≤ |∑ k, g θ k * (θ' k - θ k)| +
      |∑ k, g θ' k * (θ k - θ' k)| + L / 2 * ∑ k, (θ' k - θ k) ^ 2 := fun θ' => by
    have h1 := h.step_le hL θ (θ' - θ)
    have h2 := h.step_le hL θ' (θ - θ')
    rw [add_sub_cancel] at h1 h2
    simp only [Pi.sub_apply] at h1 h2
    have h3 : ∑ k, (θ k - θ' k) ^ 2 = ∑ k, (θ' k - θ k) ^ 2 :=
      Finset.sum_congr rfl fun k _ => by ring
    rw [h3] at h2
    rw [Real.dist_eq, _root_.abs_le]
    have a1 := le_abs_self (∑ k, g θ k * (θ' k - θ k))
    have a2 := le_abs_self (∑ k, g θ' k * (θ k - θ' k))
    have a3 := abs_nonneg (∑ k, g θ k * (θ' k - θ k))
    have a4 := abs_nonneg (∑ k, g θ' k * (θ k - θ' k))
    constructor <;> linarith
  refine squeeze_zero (fun _ => dist_nonneg) hb ?_
  have hg := h.gradient_continuous
  have hc : Continuous fun θ' : K → ℝ => |∑ k, g θ k * (θ' k - θ k)| +
      |∑ k, g θ' k * (θ k - θ' k)| + L / 2 * ∑ k, (θ' k - θ k) ^ 2 := by fun_prop
  have := hc.tendsto θ
  simpa using this

end

/-! ### Sums -/

/-- The recursion of mean energies `b` and mean squared gradients `a`. -/
theorem robbins_monro_sums {η a b : ℕ → ℝ} {L σ c m : ℝ} (hη : RobbinsMonro η) (h0 : ∀ t, 0 ≤ η t)
    (ha : ∀ t, 0 ≤ a t) (hb : ∀ t, m ≤ b t) (hL : 0 ≤ L) (hσ : 0 ≤ σ)
    (hstep : ∀ t, b (t + 1) ≤ b t - η t * a t + L / 2 * η t ^ 2 * (σ + c * a t)) :
    (Summable fun t => η t * a t) ∧ ∃ e, Tendsto b atTop (𝓝 e) := by
  obtain ⟨-, hsq⟩ := hη
  have hη0 : Tendsto η atTop (𝓝 0) := by
    have h1 : Tendsto (fun t => Real.sqrt (η t ^ 2)) atTop (𝓝 0) := by
      have := (Real.continuous_sqrt.tendsto 0).comp hsq.tendsto_atTop_zero
      simpa [Function.comp_def] using this
    exact h1.congr fun t => Real.sqrt_sq (h0 t)
  obtain ⟨T, hT⟩ : ∃ T, ∀ t, T ≤ t → L / 2 * c * η t ≤ 1 / 2 := by
    have h1 : Tendsto (fun t => L / 2 * c * η t) atTop (𝓝 0) := by simpa using hη0.const_mul (L / 2 * c)
    exact eventually_atTop.1 (h1.eventually (ge_mem_nhds (by norm_num)))
  -- from `T` on
  have hstep' : ∀ t, T ≤ t → b (t + 1) ≤ b t - η t * a t / 2 + L / 2 * σ * η t ^ 2 := fun t ht => by
    have h1 := hstep t
    have h2 : L / 2 * c * η t * (η t * a t) ≤ 1 / 2 * (η t * a t) :=
      mul_le_mul_of_nonneg_right (hT t ht) (mul_nonneg (h0 t) (ha t))
    have h3 : L / 2 * η t ^ 2 * (σ + c * a t) =
        L / 2 * σ * η t ^ 2 + L / 2 * c * η t * (η t * a t) := by ring
    linarith
  have hsum : ∀ n, ∑ s ∈ Finset.range n, η (s + T) * a (s + T) / 2 ≤
      b T - b (n + T) + L / 2 * σ * ∑ s ∈ Finset.range n, η (s + T) ^ 2 := fun n => by
    induction n with
    | zero => simp
    | succ n ih =>
      rw [Finset.sum_range_succ, Finset.sum_range_succ, mul_add]
      have := hstep' (n + T) (by omega)
      have e : n + 1 + T = n + T + 1 := by omega
      rw [e]
      linarith
  have hsqT : Summable fun s => η (s + T) ^ 2 := (summable_nat_add_iff (f := fun s => η s ^ 2) T).2 hsq
  have hpos : ∀ s, 0 ≤ η (s + T) * a (s + T) / 2 := fun s =>
    div_nonneg (mul_nonneg (h0 _) (ha _)) (by norm_num)
  have hs : Summable fun s => η (s + T) * a (s + T) / 2 := by
    refine summable_of_sum_range_le (c := b T - m + L / 2 * σ * ∑' s, η (s + T) ^ 2) hpos fun n => ?_
    refine (hsum n).trans ?_
    have h1 : ∑ s ∈ Finset.range n, η (s + T) ^ 2 ≤ ∑' s, η (s + T) ^ 2 :=
      hsqT.sum_le_tsum _ fun s _ => sq_nonneg _
    have h2 := mul_le_mul_of_nonneg_left h1 (show 0 ≤ L / 2 * σ by positivity)
    linarith [hb (n + T)]
  refine ⟨?_, ?_⟩
  · rw [← summable_nat_add_iff (f := fun t => η t * a t) T]
    refine (hs.mul_left 2).congr fun s => ?_
    ring
  · -- the energy minus the noise decreases
    have hanti : Antitone fun n => b (n + T) - L / 2 * σ * ∑ s ∈ Finset.range n, η (s + T) ^ 2 := by
      refine antitone_nat_of_succ_le fun n => ?_
      rw [Finset.sum_range_succ, mul_add]
      have h1 := hstep' (n + T) (by omega)
      have e : n + 1 + T = n + T + 1 := by omega
      rw [e]
      have h2 := hpos n
      linarith
    have hbdd : BddBelow (Set.range fun n => b (n + T) -
        L / 2 * σ * ∑ s ∈ Finset.range n, η (s + T) ^ 2) := by
      refine ⟨m - L / 2 * σ * ∑' s, η (s + T) ^ 2, ?_⟩
      rintro _ ⟨n, rfl⟩
      have h1 : ∑ s ∈ Finset.range n, η (s + T) ^ 2 ≤ ∑' s, η (s + T) ^ 2 :=
        hsqT.sum_le_tsum _ fun s _ => sq_nonneg _
      have h2 := mul_le_mul_of_nonneg_left h1 (show 0 ≤ L / 2 * σ by positivity)
      show _ ≤ b (n + T) - _
      linarith [hb (n + T)]
    have h1 := tendsto_atTop_ciInf hanti hbdd
    have h2 := (hsqT.hasSum.tendsto_sum_nat).const_mul (L / 2 * σ)
    refine ⟨_, (tendsto_add_atTop_iff_nat T).1 ((h1.add h2).congr fun n => ?_)⟩
    ring

/-- With step sizes of infinite sum, summable weighted terms come close to 0 again and again. -/
theorem frequently_small {η a : ℕ → ℝ} (hη : Tendsto (fun t => ∑ s ∈ Finset.range t, η s) atTop atTop)
    (h0 : ∀ t, 0 ≤ η t) (hs : Summable fun t => η t * a t) {ε : ℝ} (hε : 0 < ε) :
    ∃ᶠ t in atTop, a t < ε := by
  intro h
  simp only [not_lt] at h
  obtain ⟨T, hT⟩ := eventually_atTop.1 h
  have h1 : Summable fun s => η (s + T) := by
    refine Summable.of_nonneg_of_le (fun s => h0 _) (fun s => ?_)
      (((summable_nat_add_iff (f := fun t => η t * a t) T).2 hs).mul_left (1 / ε))
    have := mul_le_mul_of_nonneg_left (hT (s + T) (by omega)) (h0 (s + T))
    rw [div_mul_eq_mul_div, one_mul, le_div_iff₀ hε]
    exact this
  exact (not_summable_iff_tendsto_nat_atTop_of_nonneg h0).2 hη ((summable_nat_add_iff T).1 h1)

section
variable {K : Type*} [Fintype K] {Ω : Type*} {mΩ : MeasurableSpace Ω} {P : Measure Ω}
  [IsProbabilityMeasure P] {past : Filtration ℕ mΩ} {E : (K → ℝ) → ℝ} {g : (K → ℝ) → K → ℝ}
  {L m σ c : ℝ} {θ G : ℕ → Ω → K → ℝ} {η : ℕ → ℝ}

/-- C106 for any sequence of parameters which moves against unbiased gradients: the mean energy
converges, the mean square of the exact gradient comes close to 0 again and again, and so does almost
surely the exact gradient. -/
theorem stochastic_approximation (hE : SmoothEnergy E g L m) (hL : 0 ≤ L) (hσ : 0 ≤ σ)
    (hη : RobbinsMonro η) (h0 : ∀ t, 0 ≤ η t) (θ₀ : K → ℝ) (hstart : ∀ ω, θ 0 ω = θ₀)
    (hmove : ∀ t ω k, θ (t + 1) ω k = θ t ω k - η t * G t ω k)
    (hG : UnbiasedGradients P past g θ G σ c) :
    (∃ e, Tendsto (fun t => ∫ ω, E (θ t ω) ∂P) atTop (𝓝 e)) ∧
    (∀ ε > 0, ∃ᶠ t in atTop, ∑ k, ∫ ω, g (θ t ω) k ^ 2 ∂P < ε) ∧
    ∀ᵐ ω ∂P, ∀ ε > 0, ∃ᶠ t in atTop, ∑ k, g (θ t ω) k ^ 2 < ε := by
  have hcg := hE.gradient_continuous
  have hcE := hE.continuous hL
  -- measurability
  have hθm : ∀ t k, StronglyMeasurable[past t] fun ω => θ t ω k := by
    intro t
    induction t with
    | zero =>
      intro k
      simp only [hstart]
      exact stronglyMeasurable_const
    | succ t ih =>
      intro k
      have e : (fun ω => θ (t + 1) ω k) = fun ω => θ t ω k - η t * G t ω k := funext fun ω => hmove t ω k
      rw [e]
      exact ((ih k).mono (past.mono (Nat.le_succ t))).sub ((hG.adapted t k).const_mul (η t))
  have hθm' : ∀ t, Measurable[past t] (θ t) := fun t =>
    @measurable_pi_lambda _ _ _ (past t) _ _ fun k => (hθm t k).measurable
  have hgm : ∀ t k, StronglyMeasurable[past t] fun ω => g (θ t ω) k := fun t k =>
    (((continuous_apply k).comp hcg).measurable.comp (hθm' t)).stronglyMeasurable
  have hEm : ∀ t, StronglyMeasurable[past t] fun ω => E (θ t ω) := fun t =>
    (hcE.measurable.comp (hθm' t)).stronglyMeasurable
  have hGm : ∀ t k, AEStronglyMeasurable (fun ω => G t ω k) P := fun t k =>
    ((hG.adapted t k).mono (past.le _)).aestronglyMeasurable
  have hG2 : ∀ t k, MemLp (fun ω => G t ω k) 2 P := fun t k =>
    (memLp_two_iff_integrable_sq (hGm t k)).2 (hG.square t k)
  have hg2 : ∀ t k, MemLp (fun ω => g (θ t ω) k) 2 P := fun t k =>
    (memLp_congr_ae (hG.unbiased t k)).1 (MemLp.condExp one_le_two (hG2 t k))
  have hθ2 : ∀ t k, MemLp (fun ω => θ t ω k - θ₀ k) 2 P := by
    intro t
    induction t with
    | zero =>
      intro k
      simp only [hstart, sub_self]
      exact MemLp.zero
    | succ t ih =>
      intro k
      have e : (fun ω => θ (t + 1) ω k - θ₀ k) = fun ω => (θ t ω k - θ₀ k) - η t * G t ω k :=
        funext fun ω => by rw [hmove t ω k]; ring
      rw [e]
      exact (ih k).sub ((hG2 t k).const_mul (η t))
  have hEi : ∀ t, Integrable (fun ω => E (θ t ω)) P := fun t => by
    have hb : Integrable (fun ω => |m| + |E θ₀| + ∑ k, g θ₀ k ^ 2 +
        (L / 2 + 1) * ∑ k, (θ t ω k - θ₀ k) ^ 2) P :=
      (integrable_const _).add ((integrable_finsetSum _ fun k _ => (hθ2 t k).integrable_sq).const_mul _)
    refine hb.mono' ((hEm t).mono (past.le t)).aestronglyMeasurable (Eventually.of_forall fun ω => ?_)
    have := hE.le_abs hL θ₀ (θ t ω - θ₀)
    rw [add_sub_cancel] at this
    exact this
  -- the mean of one step
  have hprod : ∀ t k, Integrable (fun ω => g (θ t ω) k * G t ω k) P := fun t k =>
    (hg2 t k).integrable_mul (hG2 t k)
  have hinner : ∀ t k, ∫ ω, g (θ t ω) k * G t ω k ∂P = ∫ ω, g (θ t ω) k ^ 2 ∂P := fun t k => by
    have h1 := condExp_mul_of_stronglyMeasurable_left (μ := P) (m := past t) (hgm t k)
      (g := fun ω => G t ω k) (hprod t k) ((hG2 t k).integrable one_le_two)
    rw [← integral_condExp (past.le t)]
    refine integral_congr_ae ?_
    filter_upwards [h1, hG.unbiased t k] with ω e1 e2
    have e3 : (P[fun ω => g (θ t ω) k * G t ω k | past t]) ω =
      ((fun ω => g (θ t ω) k) * P[fun ω => G t ω k | past t]) ω := e1
    rw [e3, Pi.mul_apply, e2, sq]
  have hstep : ∀ t, ∫ ω, E (θ (t + 1) ω) ∂P ≤ ∫ ω, E (θ t ω) ∂P -
      η t * ∑ k, ∫ ω, g (θ t ω) k ^ 2 ∂P +
      L / 2 * η t ^ 2 * (σ + c * ∑ k, ∫ ω, g (θ t ω) k ^ 2 ∂P) := fun t => by
    have hpt : ∀ ω, E (θ (t + 1) ω) ≤ E (θ t ω) - η t * ∑ k, g (θ t ω) k * G t ω k +
        L / 2 * η t ^ 2 * ∑ k, G t ω k ^ 2 := fun ω => by
      have h1 := hE.step_le hL (θ t ω) fun k => -(η t * G t ω k)
      have e1 : (θ t ω + fun k => -(η t * G t ω k)) = θ (t + 1) ω := funext fun k => by
        rw [hmove t ω k, Pi.add_apply, sub_eq_add_neg]
      have e2 : ∑ k, g (θ t ω) k * -(η t * G t ω k) = -(η t * ∑ k, g (θ t ω) k * G t ω k) := by
        rw [Finset.mul_sum, ← Finset.sum_neg_distrib]
        exact Finset.sum_congr rfl fun k _ => by ring
      have e3 : ∑ k, (-(η t * G t ω k)) ^ 2 = η t ^ 2 * ∑ k, G t ω k ^ 2 := by
        rw [Finset.mul_sum]
        exact Finset.sum_congr rfl fun k _ => by ring
      rw [e1, e2, e3] at h1
      linarith
    have i1 : Integrable (fun ω => ∑ k, g (θ t ω) k * G t ω k) P :=
      integrable_finsetSum _ fun k _ => hprod t k
    have i2 : Integrable (fun ω => ∑ k, G t ω k ^ 2) P := integrable_finsetSum _ fun k _ => hG.square t k
    have h2 := integral_mono (hEi (t + 1)) (((hEi t).sub (i1.const_mul (η t))).add
      (i2.const_mul (L / 2 * η t ^ 2))) hpt
    rw [integral_add' ((hEi t).sub (i1.const_mul (η t))) (i2.const_mul _),
      integral_sub' (hEi t) (i1.const_mul (η t)), integral_const_mul, integral_const_mul,
      integral_finsetSum _ fun k _ => hprod t k, integral_finsetSum _ fun k _ => hG.square t k] at h2
    simp only [hinner] at h2
    have h4 := mul_le_mul_of_nonneg_left (hG.noise t) (show 0 ≤ L / 2 * η t ^ 2 by positivity)
    linarith
  have ha : ∀ t, 0 ≤ ∑ k, ∫ ω, g (θ t ω) k ^ 2 ∂P := fun t =>
    Finset.sum_nonneg fun k _ => integral_nonneg fun ω => sq_nonneg _
  have hb : ∀ t, m ≤ ∫ ω, E (θ t ω) ∂P := fun t => by
    have := integral_mono (integrable_const m) (hEi t) fun ω => hE.bounded (θ t ω)
    simpa using this
  obtain ⟨hsum, hconv⟩ := robbins_monro_sums hη h0 ha hb hL hσ hstep
  refine ⟨hconv, fun ε hε => frequently_small hη.1 h0 hsum hε, ?_⟩
  -- almost surely
  have hi : ∀ t, Integrable (fun ω => η t * ∑ k, g (θ t ω) k ^ 2) P := fun t =>
    (integrable_finsetSum _ fun k _ => (hg2 t k).integrable_sq).const_mul _
  have hnn : ∀ t ω, 0 ≤ η t * ∑ k, g (θ t ω) k ^ 2 := fun t ω =>
    mul_nonneg (h0 t) (Finset.sum_nonneg fun k _ => sq_nonneg _)
  have hmean : ∀ t, ∫ ω, η t * ∑ k, g (θ t ω) k ^ 2 ∂P = η t * ∑ k, ∫ ω, g (θ t ω) k ^ 2 ∂P := fun t => by
    rw [integral_const_mul, integral_finsetSum _ fun k _ => (hg2 t k).integrable_sq]
  have hae : ∀ᵐ ω ∂P, Summable fun t => η t * ∑ k, g (θ t ω) k ^ 2 := by
    have h1 : ∫⁻ ω, ∑' t, ENNReal.ofReal (η t * ∑ k, g (θ t ω) k ^ 2) ∂P ≠ ⊤ := by
      rw [lintegral_tsum fun t => (hi t).aemeasurable.ennreal_ofReal]
      have e : ∀ t, ∫⁻ ω, ENNReal.ofReal (η t * ∑ k, g (θ t ω) k ^ 2) ∂P =
          ENNReal.ofReal (η t * ∑ k, ∫ ω, g (θ t ω) k ^ 2 ∂P) := fun t => by
        rw [← hmean, ofReal_integral_eq_lintegral_ofReal (hi t) (Eventually.of_forall (hnn t))]
      simp only [e]
      exact hsum.tsum_ofReal_ne_top
    filter_upwards [ae_lt_top' (AEMeasurable.tsum
      fun t => (hi t).aemeasurable.ennreal_ofReal) h1] with ω hω
    have h2 := ENNReal.summable_toReal hω.ne
    exact h2.congr fun t => ENNReal.toReal_ofReal (hnn t ω)
  filter_upwards [hae] with ω hω ε hε
  exact frequently_small hη.1 h0 hω hε

end

/-! ### The configured optimizer -/

section
variable {K : Type*} {D : ℕ} {Dat Key Aux : Type*}

theorem momentumDirection_zero (nesterov : Bool) (f : ℕ → ℝ) (s : ℕ) :
    momentumDirection 0 nesterov f s = f s := by
  have h : discountedSum 0 f s = f s := by
    unfold discountedSum
    rw [Finset.sum_eq_single_of_mem s (by simp)]
    · simp
    · intro r hr hne
      have : s - r ≠ 0 := by
        have := Finset.mem_range.1 hr
        omega
      simp [this]
  unfold momentumDirection
  split <;> simp [h]

/-- Plain SGD moves against the gradient, one learning rate at a time. -/
theorem configured_sgd_moves (c : OptimizerConfig) (hc : c.optimizerType = "sgd")
    (hm : c.sgd.momentum = 0) {rule : UpdateRule} (hr : getUpdateRule c = .ok rule) :
    ∃ descent schedule, rule = .plain descent ∧
      learningRateSchedule c.sgd.rate.scheduleType c.sgd.rate.learningRate
        c.sgd.rate.learningDecayRate = .ok schedule ∧
      ∀ (valGrad : (Fin D → K → ℝ) → (Fin D → Key) → (Fin D → Dat) → Fin D → Aux × (K → ℝ))
        (steps : ℕ → (Fin D → Dat) × (Fin D → Key)) (params : Fin D → K → ℝ) (t : ℕ) (d : Fin D)
        (k : K),
        (trajectory valGrad (plainRuleApply descent) steps params (fun _ => descent.init) (t + 1)).1
            d k =
          (trajectory valGrad (plainRuleApply descent) steps params (fun _ => descent.init) t).1 d k -
            schedule t * gradientAt valGrad (plainRuleApply descent) steps params
              (fun _ => descent.init) t k := by
  obtain ⟨descent, schedule, h1, h2, h3⟩ := configured_sgd (K := K) (D := D) (Dat := Dat)
    (Key := Key) (Aux := Aux) c hc hr
  refine ⟨descent, schedule, h1, h2, fun valGrad steps params t d k => ?_⟩
  rw [h3, h3, Finset.sum_range_succ, hm, momentumDirection_zero]
  ring

/-- C106: SGD with the schedule `inverse_time`, a positive learning rate and decay and no momentum,
as in the default configuration, on any number of devices.  If the gradients, averaged over the
devices, are unbiased given the past, with mean squares which grow no faster than those of the exact
gradient, and the exact energy has a Lipschitz continuous gradient and a lower bound, then the mean
energy converges, and the exact gradient comes close to 0 again and again, almost surely and in
mean square. -/
theorem configured_sgd_converges [Fintype K] (c : OptimizerConfig) (hc : c.optimizerType = "sgd")
    (hm : c.sgd.momentum = 0) (hk : c.sgd.rate.scheduleType = "inverse_time")
    (hrate : 0 < c.sgd.rate.learningRate) (hdecay : 0 < c.sgd.rate.learningDecayRate)
    {rule : UpdateRule} (hr : getUpdateRule c = .ok rule) :
    ∃ descent, rule = .plain descent ∧
      ∀ {Ω : Type*} {mΩ : MeasurableSpace Ω} (P : Measure Ω) [IsProbabilityMeasure P]
        (past : Filtration ℕ mΩ) (E : (K → ℝ) → ℝ) (g : (K → ℝ) → K → ℝ) (L m σ b : ℝ)
        (valGrad : (Fin D → K → ℝ) → (Fin D → Key) → (Fin D → Dat) → Fin D → Aux × (K → ℝ))
        (steps : ℕ → Ω → (Fin D → Dat) × (Fin D → Key)) (params : Fin D → K → ℝ) (d : Fin D),
        let θ : ℕ → Ω → K → ℝ := fun t ω => (trajectory valGrad (plainRuleApply descent)
          (fun s => steps s ω) params (fun _ => descent.init) t).1 d
        let G : ℕ → Ω → K → ℝ := fun t ω => gradientAt valGrad (plainRuleApply descent)
          (fun s => steps s ω) params (fun _ => descent.init) t
        0 ≤ L → 0 ≤ σ → SmoothEnergy E g L m → UnbiasedGradients P past g θ G σ b →
        (∃ e, Tendsto (fun t => ∫ ω, E (θ t ω) ∂P) atTop (𝓝 e)) ∧
        (∀ ε > 0, ∃ᶠ t in atTop, ∑ k, ∫ ω, g (θ t ω) k ^ 2 ∂P < ε) ∧
        ∀ᵐ ω ∂P, ∀ ε > 0, ∃ᶠ t in atTop, ∑ k, g (θ t ω) k ^ 2 < ε := by
  obtain ⟨descent, schedule, h1, h2, h3⟩ := configured_sgd_moves (K := K) (D := D) (Dat := Dat)
    (Key := Key) (Aux := Aux) c hc hm hr
  refine ⟨descent, h1, ?_⟩
  intro Ω mΩ P _ past E g L m σ b valGrad steps params d θ G hL hσ hE hG
  have hadm := (schedule_admissible_iff _ hrate hdecay.le h2).2 ⟨hk, hdecay⟩
  have hpos : ∀ t, 0 ≤ schedule t := fun t => by
    unfold learningRateSchedule at h2
    rw [hk] at h2
    simp only [String.reduceEq, if_false, if_true] at h2
    injection h2 with h2
    subst h2
    positivity
  exact stochastic_approximation hE hL hσ hadm hpos (params d) (fun ω => rfl)
    (fun t ω k => h3 valGrad (fun s => steps s ω) params t d k) hG

end

/-! ### A parabola with noise -/

/-- A fair coin. -/
noncomputable def coin : Measure Bool := (PMF.uniformOfFintype Bool).toMeasure

instance : IsProbabilityMeasure coin := PMF.toMeasure.isProbabilityMeasure _

/-- Coins thrown one after the other. -/
noncomputable def coins : Measure (ℕ → Bool) := Measure.infinitePi fun _ => coin

instance : IsProbabilityMeasure coins := by
  unfold coins
  infer_instance

/-- What a coin adds to the gradient. -/
def kick (b : Bool) : ℝ := if b then 1 else -1

theorem kick_bounds (b : Bool) : |kick b| = 1 ∧ kick b ^ 2 = 1 := by
  cases b <;> norm_num [kick]

theorem kick_measurable (s : ℕ) : StronglyMeasurable fun ω : ℕ → Bool => kick (ω s) :=
  ((measurable_of_finite kick).comp (measurable_pi_apply s)).stronglyMeasurable

theorem kick_mean (s : ℕ) : ∫ ω, kick (ω s) ∂coins = 0 := by
  have h := (measurePreserving_eval_infinitePi (fun _ : ℕ => coin) s)
  have e : ∫ ω, kick (ω s) ∂coins = ∫ b, kick b ∂coin := by
    have := integral_map (μ := coins) (φ := fun ω : ℕ → Bool => ω s) h.measurable.aemeasurable
      (f := kick) (measurable_of_finite kick).aestronglyMeasurable
    rw [← this]
    congr 1
    exact h.map_eq
  rw [e, coin, PMF.integral_eq_sum]
  simp [kick]

/-- What the coins show up to some time. -/
noncomputable def thrown : Filtration ℕ (inferInstance : MeasurableSpace (ℕ → Bool)) :=
  Filtration.natural (fun s (ω : ℕ → Bool) => kick (ω s)) kick_measurable

theorem kick_adapted (s : ℕ) : StronglyMeasurable[thrown s] fun ω : ℕ → Bool => kick (ω s) :=
  (Filtration.stronglyAdapted_natural (u := fun s (ω : ℕ → Bool) => kick (ω s)) kick_measurable) s

theorem kick_condExp (s : ℕ) :
    coins[fun ω => kick (ω (s + 1)) | thrown s] =ᵐ[coins] fun _ => 0 := by
  have hi : iIndepFun (fun s (ω : ℕ → Bool) => kick (ω s)) coins :=
    iIndepFun_infinitePi (P := fun _ : ℕ => coin) (X := fun _ => kick) fun _ => measurable_of_finite kick
  have := iIndepFun.condExp_natural_ae_eq_of_lt (μ := coins) kick_measurable hi (Nat.lt_succ_self s)
  simp only [Nat.succ_eq_add_one, kick_mean] at this
  exact this

/-- The parabola. -/
theorem parabola_smooth :
    SmoothEnergy (fun θ : Unit → ℝ => θ () ^ 2 / 2) (fun θ => θ) 1 0 where
  gradient θ v := by
    have h1 : HasDerivAt (fun s : ℝ => θ () + s * v ()) (v ()) 0 := by
      simpa using ((hasDerivAt_id (0 : ℝ)).mul_const (v ())).const_add (θ ())
    have h2 := (h1.pow 2).div_const 2
    refine HasDerivAt.congr_deriv h2 ?_
    simp
    ring
  lipschitz θ θ' := by simp
  bounded θ := by positivity

/-- The gradient of the parabola plus the next coin is unbiased. -/
theorem parabola_unbiased (η : ℕ → ℝ) (θ : ℕ → (ℕ → Bool) → Unit → ℝ) (θ₀ : Unit → ℝ)
    (hstart : ∀ ω, θ 0 ω = θ₀)
    (hmove : ∀ t ω k, θ (t + 1) ω k = θ t ω k - η t * (θ t ω k + kick (ω (t + 1)))) :
    UnbiasedGradients coins thrown (fun θ => θ) θ (fun t ω k => θ t ω k + kick (ω (t + 1))) 1 1 ∧
      ∀ t, ∫ ω, (θ t ω () + kick (ω (t + 1))) ^ 2 ∂coins = ∫ ω, θ t ω () ^ 2 ∂coins + 1 ∧
        ∫ ω, θ (t + 1) ω () ^ 2 ∂coins = (1 - η t) ^ 2 * ∫ ω, θ t ω () ^ 2 ∂coins + η t ^ 2 := by
  have hm : ∀ t, StronglyMeasurable[thrown t] fun ω => θ t ω () := by
    intro t
    induction t with
    | zero =>
      simp only [hstart]
      exact stronglyMeasurable_const
    | succ t ih =>
      have e : (fun ω => θ (t + 1) ω ()) = fun ω => θ t ω () - η t * (θ t ω () + kick (ω (t + 1))) :=
        funext fun ω => hmove t ω ()
      rw [e]
      have h1 := ih.mono (thrown.mono (Nat.le_succ t))
      exact h1.sub ((h1.add (kick_adapted (t + 1))).const_mul (η t))
  have hb : ∀ t, ∃ B, ∀ ω, |θ t ω ()| ≤ B := by
    intro t
    induction t with
    | zero => exact ⟨|θ₀ ()|, fun ω => by rw [hstart]⟩
    | succ t ih =>
      obtain ⟨B, hB⟩ := ih
      refine ⟨B + |η t| * (B + 1), fun ω => ?_⟩
      rw [hmove]
      refine (abs_sub _ _).trans (add_le_add (hB ω) ?_)
      rw [abs_mul]
      refine mul_le_mul_of_nonneg_left ((abs_add_le _ _).trans (add_le_add (hB ω) ?_)) (abs_nonneg _)
      rw [(kick_bounds _).1]
  have hL : ∀ t, MemLp (fun ω => θ t ω ()) 2 coins := fun t => by
    obtain ⟨B, hB⟩ := hb t
    exact MemLp.of_bound ((hm t).mono (thrown.le t)).aestronglyMeasurable B
      (Eventually.of_forall fun ω => hB ω)
  have hk : ∀ s, MemLp (fun ω : ℕ → Bool => kick (ω s)) 2 coins := fun s =>
    MemLp.of_bound (kick_measurable s).aestronglyMeasurable 1
      (Eventually.of_forall fun ω => (kick_bounds _).1.le)
  have hcross : ∀ t, ∫ ω, θ t ω () * kick (ω (t + 1)) ∂coins = 0 := fun t => by
    have h1 := condExp_mul_of_stronglyMeasurable_left (μ := coins) (m := thrown t) (hm t)
      (g := fun ω => kick (ω (t + 1))) ((hL t).integrable_mul (hk (t + 1)))
      ((hk (t + 1)).integrable one_le_two)
    rw [← integral_condExp (thrown.le t)]
    have h2 : coins[fun ω => θ t ω () * kick (ω (t + 1)) | thrown t] =ᵐ[coins] fun _ => (0 : ℝ) := by
      filter_upwards [h1, kick_condExp t] with ω e1 e2
      have e3 : (coins[fun ω => θ t ω () * kick (ω (t + 1)) | thrown t]) ω =
        ((fun ω => θ t ω ()) * coins[fun ω => kick (ω (t + 1)) | thrown t]) ω := e1
      rw [e3, Pi.mul_apply, e2, mul_zero]
    rw [integral_congr_ae h2, integral_zero]
  have hi : ∀ t, Integrable (fun ω => θ t ω () ^ 2) coins := fun t => (hL t).integrable_sq
  have hc : ∀ t, Integrable (fun ω => θ t ω () * kick (ω (t + 1))) coins := fun t =>
    (hL t).integrable_mul (hk (t + 1))
  have hexp : ∀ t (a b : ℝ), ∫ ω, (a * θ t ω () + b * kick (ω (t + 1))) ^ 2 ∂coins =
      a ^ 2 * ∫ ω, θ t ω () ^ 2 ∂coins + b ^ 2 := fun t a b => by
    have e : ∀ ω : ℕ → Bool, (a * θ t ω () + b * kick (ω (t + 1))) ^ 2 =
        a ^ 2 * θ t ω () ^ 2 + 2 * a * b * (θ t ω () * kick (ω (t + 1))) + b ^ 2 := fun ω => by
      have := (kick_bounds (ω (t + 1))).2
      linear_combination b ^ 2 * this
    simp only [e]
    have i1 : Integrable (fun ω => a ^ 2 * θ t ω () ^ 2) coins := (hi t).const_mul _
    have i2 : Integrable (fun ω => 2 * a * b * (θ t ω () * kick (ω (t + 1)))) coins :=
      (hc t).const_mul _
    have i3 : Integrable (fun ω => a ^ 2 * θ t ω () ^ 2 +
      2 * a * b * (θ t ω () * kick (ω (t + 1)))) coins := i1.add i2
    rw [integral_add i3 (integrable_const _), integral_add i1 i2, integral_const_mul,
      integral_const_mul, hcross]
    simp
  have hsq : ∀ t, ∫ ω, (θ t ω () + kick (ω (t + 1))) ^ 2 ∂coins = ∫ ω, θ t ω () ^ 2 ∂coins + 1 :=
    fun t => by simpa using hexp t 1 1
  refine ⟨⟨fun t k => ?_, fun t k => ?_, fun t k => ?_, fun t => ?_⟩, fun t => ⟨hsq t, ?_⟩⟩
  · exact ((hm t).mono (thrown.mono (Nat.le_succ t))).add (kick_adapted (t + 1))
  · exact ((hL t).add (hk (t + 1))).integrable_sq
  · have h1 := condExp_add (m := thrown t) ((hL t).integrable one_le_two)
      ((hk (t + 1)).integrable one_le_two)
    have h2 := condExp_of_stronglyMeasurable (thrown.le t) (hm t) ((hL t).integrable one_le_two)
    filter_upwards [h1, kick_condExp t] with ω e1 e2
    have e3 : (coins[fun ω => θ t ω () + kick (ω (t + 1)) | thrown t]) ω =
      (coins[fun ω => θ t ω () | thrown t] + coins[fun ω => kick (ω (t + 1)) | thrown t]) ω := e1
    show (coins[fun ω => θ t ω () + kick (ω (t + 1)) | thrown t]) ω = θ t ω ()
    rw [e3, Pi.add_apply, h2, e2, add_zero]
  · simp only [Finset.univ_unique, PUnit.default_eq_unit, Finset.sum_singleton, one_mul]
    rw [hsq, add_comm]
  · have := hexp t (1 - η t) (-η t)
    rw [neg_sq] at this
    rw [← this]
    refine integral_congr_ae (Eventually.of_forall fun ω => ?_)
    show θ (t + 1) ω () ^ 2 = _
    rw [hmove]
    ring

/-- The gradient function of the noisy parabola: the data of an update are coins. -/
def noisyParabola : (Fin 1 → Unit → ℝ) → (Fin 1 → Unit) → (Fin 1 → Bool) → Fin 1 → Unit × (Unit → ℝ) :=
  fun params _ data d => ((), fun k => params d k + kick (data d))

theorem noisyParabola_gradient {S : Type*} (apply : OptimizerApply 1 Unit S Bool Unit)
    (ω : ℕ → Bool) (params : Fin 1 → Unit → ℝ) (opt : Fin 1 → S) (t : ℕ) (k : Unit) :
    gradientAt noisyParabola apply (fun s => (fun _ => ω (s + 1), fun _ => ())) params opt t k =
      (trajectory noisyParabola apply (fun s => (fun _ => ω (s + 1), fun _ => ())) params opt t).1 0 k +
        kick (ω (t + 1)) := by
  simp [gradientAt, noisyParabola]

/-- The hypotheses of `configured_sgd_converges` can be met: the default configuration on the
parabola with coins. -/
example : ∃ descent, getUpdateRule (exampleConfig "sgd" 0) = .ok (.plain descent) ∧
    ∀ᵐ ω ∂coins, ∀ ε > 0, ∃ᶠ t in atTop, (trajectory noisyParabola (plainRuleApply descent)
      (fun s => (fun _ => ω (s + 1), fun _ => ())) (fun _ _ => 3) (fun _ => descent.init) t).1 0 () ^ 2
        < ε := by
  obtain ⟨rule, hr⟩ : ∃ rule, getUpdateRule (exampleConfig "sgd" 0) = .ok rule := ⟨_, rfl⟩
  obtain ⟨descent, schedule, h1, -, h3⟩ := configured_sgd_moves (K := Unit) (D := 1) (Dat := Bool)
    (Key := Unit) (Aux := Unit) (exampleConfig "sgd" 0) rfl rfl hr
  obtain ⟨descent', h1', h⟩ := configured_sgd_converges (K := Unit) (D := 1) (Dat := Bool)
    (Key := Unit) (Aux := Unit) (exampleConfig "sgd" 0) rfl rfl rfl
    (by norm_num [exampleConfig]) (by norm_num [exampleConfig]) hr
  subst h1
  injection h1' with h1'
  subst h1'
  refine ⟨descent, hr, ?_⟩
  have hu := (parabola_unbiased schedule (fun t ω => (trajectory noisyParabola
    (plainRuleApply descent) (fun s => (fun _ => ω (s + 1), fun _ => ())) (fun _ _ => 3)
    (fun _ => descent.init) t).1 0) (fun _ => 3) (fun ω => rfl) fun t ω k => by
      rw [h3, noisyParabola_gradient]).1
  have hG : (fun (t : ℕ) (ω : ℕ → Bool) => gradientAt noisyParabola (plainRuleApply descent)
      (fun s => (fun _ => ω (s + 1), fun _ => ())) (fun _ _ => 3) (fun _ => descent.init) t) =
      fun t ω k => (trajectory noisyParabola (plainRuleApply descent)
        (fun s => (fun _ => ω (s + 1), fun _ => ())) (fun _ _ => 3) (fun _ => descent.init) t).1 0 k +
        kick (ω (t + 1)) :=
    funext fun t => funext fun ω => funext fun k => noisyParabola_gradient ..
  have := (h coins thrown (fun θ : Unit → ℝ => θ () ^ 2 / 2) (fun θ => θ) 1 0 1 1 noisyParabola
    (fun s ω => (fun _ => ω (s + 1), fun _ => ())) (fun _ _ => 3) 0 zero_le_one zero_le_one
    parabola_smooth (by
      show UnbiasedGradients coins thrown _ _ (fun (t : ℕ) (ω : ℕ → Bool) => gradientAt _ _ _ _ _ t) 1 1
      rw [hG]
      exact hu)).2.2
  simpa using this

/-- C106, the decay is needed: with the schedule `constant` the parabola with coins never settles.
However small the rate, the mean square of the gradient is at least the square of the rate after every
update. -/
theorem constant_rate_stays_noisy (c : OptimizerConfig) (hc : c.optimizerType = "sgd")
    (hm : c.sgd.momentum = 0) (hk : c.sgd.rate.scheduleType = "constant") {rule : UpdateRule}
    (hr : getUpdateRule c = .ok rule) :
    ∃ descent, rule = .plain descent ∧ ∀ params : Fin 1 → Unit → ℝ,
      let θ : ℕ → (ℕ → Bool) → Unit → ℝ := fun t ω => (trajectory noisyParabola
        (plainRuleApply descent) (fun s => (fun _ => ω (s + 1), fun _ => ())) params
        (fun _ => descent.init) t).1 0
      let G : ℕ → (ℕ → Bool) → Unit → ℝ := fun t ω => gradientAt noisyParabola
        (plainRuleApply descent) (fun s => (fun _ => ω (s + 1), fun _ => ())) params
        (fun _ => descent.init) t
      UnbiasedGradients coins thrown (fun θ => θ) θ G 1 1 ∧
      ∀ t, c.sgd.rate.learningRate ^ 2 ≤ ∫ ω, θ (t + 1) ω () ^ 2 ∂coins := by
  obtain ⟨descent, schedule, h1, h2, h3⟩ := configured_sgd_moves (K := Unit) (D := 1) (Dat := Bool)
    (Key := Unit) (Aux := Unit) c hc hm hr
  refine ⟨descent, h1, ?_⟩
  intro params θ G
  have hs : schedule = fun _ => c.sgd.rate.learningRate := by
    unfold learningRateSchedule at h2
    rw [if_pos hk] at h2
    injection h2 with h2
    exact h2.symm
  obtain ⟨hu, hmean⟩ := parabola_unbiased schedule θ (params 0) (fun ω => rfl) fun t ω k => by
    simp only [θ]
    rw [h3, noisyParabola_gradient]
  have hG : G = fun t ω k => θ t ω k + kick (ω (t + 1)) :=
    funext fun t => funext fun ω => funext fun k => noisyParabola_gradient ..
  refine ⟨by rw [hG]; exact hu, fun t => ?_⟩
  rw [(hmean t).2, hs]
  have : 0 ≤ ∫ ω, θ t ω () ^ 2 ∂coins := integral_nonneg fun ω => sq_nonneg _
  nlinarith [mul_nonneg (sq_nonneg (1 - c.sgd.rate.learningRate)) this]

end Verif.Props
