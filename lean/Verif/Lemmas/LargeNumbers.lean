import Verif.Lemmas.Chain
import Mathlib.Analysis.Asymptotics.SpecificAsymptotics

/-!
The weak law of large numbers for chains which converge from every start.
-/

namespace Verif.Ergodic
open Filter Topology MeasureTheory Set

/-- Sums of terms which grow slower than their index grow slower than quadratically. -/
theorem sum_sublinear {d : ℕ → ℝ} (h : Tendsto (fun n => d n / (n + 1)) atTop (𝓝 0)) :
    Tendsto (fun n => (∑ k ∈ Finset.range n, d k) / (n : ℝ) ^ 2) atTop (𝓝 0) := by
  have h1 := h.abs.cesaro
  rw [abs_zero] at h1
  refine squeeze_zero_norm (fun n => ?_) h1
  rw [Real.norm_eq_abs, abs_div, abs_of_nonneg (sq_nonneg (n : ℝ))]
  rcases Nat.eq_zero_or_pos n with rfl | hn
  · simp
  have hn' : (0 : ℝ) < n := by exact_mod_cast hn
  rw [div_le_iff₀ (by positivity)]
  have : (n : ℝ)⁻¹ * (∑ i ∈ Finset.range n, |d i / (i + 1)|) * (n : ℝ) ^ 2 =
      ∑ i ∈ Finset.range n, n * |d i / (i + 1)| := by
    rw [← Finset.mul_sum]
    field_simp
  rw [this]
  refine (Finset.abs_sum_le_sum_abs _ _).trans (Finset.sum_le_sum fun i hi => ?_)
  have hi' : ((i : ℝ) + 1) ≤ n := by exact_mod_cast Finset.mem_range.mp hi
  have hi0 : (0 : ℝ) < (i : ℝ) + 1 := by positivity
  rw [abs_div, abs_of_pos hi0, mul_div_assoc', le_div_iff₀ hi0]
  nlinarith [abs_nonneg (d i)]

variable {X Ω : Type*} [MeasurableSpace X] [MeasurableSpace Ω]
  {π : Measure X} [IsProbabilityMeasure π] {ν : Measure Ω} [IsProbabilityMeasure ν]
  {F : X × Ω → X}

omit [IsProbabilityMeasure π] [IsProbabilityMeasure ν] in
/-- Averages of bounded functions converge to their means. -/
theorem ConvergesFrom.tendsto {x : X} (hc : ConvergesFrom π ν F x) {g : X → ℝ}
    (hg : Measurable g) {M : ℝ} (hb : ∀ x, |g x| ≤ M) :
    Tendsto (fun n => (avg ν F)^[n] g x) atTop (𝓝 (∫ x, g x ∂π)) := by
  have hlin : ∀ n, ∀ c : ℝ, (avg ν F)^[n] (fun x => c * g x) = fun x => c * (avg ν F)^[n] g x := by
    intro n c
    induction n with
    | zero => rfl
    | succ n ih =>
      rw [Function.iterate_succ_apply', ih, Function.iterate_succ_apply']
      funext x
      exact integral_const_mul _ _
  have hK : 0 < |M| + 1 := by positivity
  rw [Metric.tendsto_atTop]
  intro ε hε
  have h1 := hc (ε / (2 * (|M| + 1))) (by positivity)
  obtain ⟨N, hN⟩ := eventually_atTop.mp h1
  refine ⟨N, fun n hn => ?_⟩
  have h2 := hN n hn (fun x => (|M| + 1)⁻¹ * g x) (hg.const_mul _) (fun x => by
    rw [abs_mul, abs_inv, abs_of_pos hK, inv_mul_le_iff₀ hK, mul_one]
    linarith [hb x, le_abs_self M])
  rw [hlin, integral_const_mul, ← mul_sub, abs_mul, abs_inv, abs_of_pos hK,
    inv_mul_le_iff₀ hK] at h2
  rw [Real.dist_eq]
  refine h2.trans_lt ?_
  rw [mul_div_assoc', mul_comm, mul_div_mul_right _ _ hK.ne']
  linarith

/-- In the stationary state averages of bounded functions of mean zero converge in the mean square. -/
theorem variance_tendsto (hF : Measurable F) (h : MeasurePreserving F (π.prod ν) π)
    (hc : ∀ x, ConvergesFrom π ν F x) {g : X → ℝ} (hg : Measurable g) {M : ℝ} (hM : 0 ≤ M)
    (hb : ∀ x, |g x| ≤ M) (h0 : ∫ x, g x ∂π = 0) :
    Tendsto (fun n : ℕ => (∫ z, total F g n z.1 z.2 ^ 2
      ∂(π.prod (Measure.pi fun _ : Fin n => ν))) / (n : ℝ) ^ 2) atTop (𝓝 0) := by
  set c : ℕ → ℝ := fun k => ∫ x, g x * (avg ν F)^[k + 1] g x ∂π with hcdef
  have hc0 : Tendsto c atTop (𝓝 0) := by
    have h1 : Tendsto c atTop (𝓝 (∫ x, g x * 0 ∂π)) := by
      refine tendsto_integral_of_dominated_convergence (fun _ => M * M) (fun k => ?_)
        (integrable_const _) (fun k => .of_forall fun x => ?_) (.of_forall fun x => ?_)
      · exact (hg.mul (iterate_avg (ν := ν) hF hg hb (k + 1)).1).aestronglyMeasurable
      · rw [Real.norm_eq_abs, abs_mul]
        exact mul_le_mul (hb _) ((iterate_avg (ν := ν) hF hg hb (k + 1)).2 x) (abs_nonneg _) hM
      · have := (hc x).tendsto hg hb
        rw [h0] at this
        exact (this.comp (tendsto_add_atTop_nat 1)).const_mul _
    simpa using h1
  set v := ∫ x, g x ^ 2 ∂π with hv
  set d : ℕ → ℝ := fun n => v + 2 * ∑ k ∈ Finset.range n, c k with hd
  have hV : ∀ n : ℕ, ∫ z, total F g n z.1 z.2 ^ 2 ∂(π.prod (Measure.pi fun _ : Fin n => ν)) =
      ∑ k ∈ Finset.range n, d k := by
    intro n
    induction n with
    | zero => simp [total]
    | succ n ih =>
      rw [variance_step hF h hg hM hb, ih, Finset.sum_range_succ, hd, add_assoc]
  simp_rw [hV]
  refine sum_sublinear ?_
  have h1 : Tendsto (fun n : ℕ => v / ((n : ℝ) + 1)) atTop (𝓝 0) :=
    tendsto_const_nhds.div_atTop (tendsto_atTop_add_const_right _ _ tendsto_natCast_atTop_atTop)
  have h2 : Tendsto (fun n : ℕ => (∑ k ∈ Finset.range n, c k) / ((n : ℝ) + 1)) atTop (𝓝 0) := by
    have e := hc0.cesaro.abs
    rw [abs_zero] at e
    refine squeeze_zero_norm (fun n => ?_) e
    rw [Real.norm_eq_abs, abs_div, abs_mul, abs_inv, Nat.abs_cast,
      abs_of_pos (show (0 : ℝ) < (n : ℝ) + 1 by positivity)]
    rcases Nat.eq_zero_or_pos n with rfl | hn
    · simp
    have hn' : (0 : ℝ) < n := by exact_mod_cast hn
    rw [inv_mul_eq_div]
    exact div_le_div_of_nonneg_left (abs_nonneg _) hn' (by linarith)
  have h3 := h1.add (h2.const_mul 2)
  rw [mul_zero, add_zero] at h3
  refine h3.congr fun n => ?_
  rw [hd]
  ring

/-- The mean of the size of a sum, in the stationary state. -/
theorem mean_total_le (hF : Measurable F) (h : MeasurePreserving F (π.prod ν) π) {f : X → ℝ}
    (hf : Measurable f) (hi : Integrable f π) (n : ℕ) :
    Integrable (fun z : X × (Fin n → Ω) => total F f n z.1 z.2)
      (π.prod (Measure.pi fun _ : Fin n => ν)) ∧
    ∫ z, |total F f n z.1 z.2| ∂(π.prod (Measure.pi fun _ : Fin n => ν)) ≤
      n * ∫ x, |f x| ∂π := by
  induction n with
  | zero => simp [total]
  | succ n ih =>
    have hp1 : MeasurePreserving (fun z : X × (Fin (n + 1) → Ω) =>
        (z.1, (fun i => z.2 i.castSucc : Fin n → Ω)))
        (π.prod (Measure.pi fun _ => ν)) (π.prod (Measure.pi fun _ => ν)) :=
      (MeasurePreserving.id π).prod (measurePreserving_fst.comp (preserves_last (ν := ν) n))
    have hp2 := chain_preserves h (n + 1)
    have i1 : Integrable (fun z : X × (Fin (n + 1) → Ω) => total F f n z.1 fun i => z.2 i.castSucc)
        (π.prod (Measure.pi fun _ : Fin (n + 1) => ν)) := hp1.integrable_comp_of_integrable ih.1
    have i2 : Integrable (fun z : X × (Fin (n + 1) → Ω) => f (chain F (n + 1) z.1 z.2))
        (π.prod (Measure.pi fun _ : Fin (n + 1) => ν)) := hp2.integrable_comp_of_integrable hi
    refine ⟨i1.add i2, ?_⟩
    have e1 : ∫ z, |total F f n z.1 fun i => z.2 i.castSucc|
        ∂(π.prod (Measure.pi fun _ : Fin (n + 1) => ν)) =
        ∫ z, |total F f n z.1 z.2| ∂(π.prod (Measure.pi fun _ : Fin n => ν)) := by
      conv_rhs => rw [← hp1.map_eq]
      rw [integral_map hp1.measurable.aemeasurable
        (measurable_total hF hf n).abs.aestronglyMeasurable]
    have e2 : ∫ z, |f (chain F (n + 1) z.1 z.2)|
        ∂(π.prod (Measure.pi fun _ : Fin (n + 1) => ν)) = ∫ x, |f x| ∂π := by
      conv_rhs => rw [← hp2.map_eq]
      rw [integral_map hp2.measurable.aemeasurable hf.abs.aestronglyMeasurable]
    calc ∫ z, |total F f (n + 1) z.1 z.2| ∂(π.prod (Measure.pi fun _ : Fin (n + 1) => ν))
        ≤ ∫ z, (|total F f n z.1 fun i => z.2 i.castSucc| + |f (chain F (n + 1) z.1 z.2)|)
          ∂(π.prod (Measure.pi fun _ : Fin (n + 1) => ν)) :=
          integral_mono (i1.add i2).abs (i1.abs.add i2.abs) fun z => abs_add_le _ _
      _ = ∫ z, |total F f n z.1 z.2| ∂(π.prod (Measure.pi fun _ : Fin n => ν)) +
          ∫ x, |f x| ∂π := by rw [integral_add i1.abs i2.abs, e1, e2]
      _ ≤ _ := by
        push_cast
        linarith [ih.2]

/-- In the stationary state averages of integrable functions of mean zero converge in the mean. -/
theorem mean_tendsto (hF : Measurable F) (h : MeasurePreserving F (π.prod ν) π)
    (hc : ∀ x, ConvergesFrom π ν F x) {f : X → ℝ} (hf : Measurable f) (hi : Integrable f π)
    (h0 : ∫ x, f x ∂π = 0) :
    Tendsto (fun n : ℕ => (∫ z, |total F f n z.1 z.2|
      ∂(π.prod (Measure.pi fun _ : Fin n => ν))) / (n : ℝ)) atTop (𝓝 0) := by
  rw [Metric.tendsto_atTop]
  intro ε hε
  -- a bounded approximation
  obtain ⟨g, M, hg, hM, hb, happ⟩ : ∃ (g : X → ℝ) (M : ℝ), Measurable g ∧ 0 ≤ M ∧
      (∀ x, |g x| ≤ M) ∧ ∫ x, |f x - g x| ∂π < ε / 4 := by
    have hlim : Tendsto (fun n : ℕ => ∫ x, |f x - max (-(n : ℝ)) (min n (f x))| ∂π) atTop
        (𝓝 (∫ _, (0 : ℝ) ∂π)) := by
      refine tendsto_integral_of_dominated_convergence (fun x => |f x|) (fun n => ?_) hi.abs
        (fun n => .of_forall fun x => ?_) (.of_forall fun x => ?_)
      · exact (hf.sub (measurable_const.max (measurable_const.min hf))).abs.aestronglyMeasurable
      · have hn : (0 : ℝ) ≤ n := Nat.cast_nonneg n
        rw [Real.norm_eq_abs, abs_abs]
        rcases le_total (f x) n with h1 | h1
        · rw [min_eq_right h1]
          rcases le_total (-(n : ℝ)) (f x) with h2 | h2
          · rw [max_eq_right h2]; simp
          · rw [max_eq_left h2, abs_of_nonpos (by linarith), abs_of_nonpos (by linarith)]
            linarith
        · rw [min_eq_left h1, max_eq_right (by linarith), abs_of_nonneg (by linarith),
            abs_of_nonneg (by linarith)]
          linarith
      · obtain ⟨N, hN⟩ := exists_nat_gt |f x|
        refine tendsto_const_nhds.congr' ?_
        filter_upwards [eventually_ge_atTop N] with n hn
        have h1 : |f x| ≤ n := hN.le.trans (by exact_mod_cast hn)
        rw [min_eq_right (abs_le.mp h1).2, max_eq_right (abs_le.mp h1).1]
        simp
    rw [integral_zero] at hlim
    obtain ⟨n, hn⟩ := (hlim.eventually (gt_mem_nhds (show 0 < ε / 4 by positivity))).exists
    refine ⟨fun x => max (-(n : ℝ)) (min n (f x)), n, measurable_const.max (measurable_const.min hf),
      Nat.cast_nonneg n, fun x => ?_, hn⟩
    have hn : (0 : ℝ) ≤ n := Nat.cast_nonneg n
    exact abs_le.mpr ⟨le_max_left _ _, max_le (by linarith) (min_le_left _ _)⟩
  -- with mean zero
  have hgi : Integrable g π := Integrable.of_bound hg.aestronglyMeasurable M (.of_forall hb)
  set m := ∫ x, g x ∂π with hm
  have hmle : |m| < ε / 4 := by
    refine lt_of_le_of_lt ?_ happ
    have : m = -∫ x, (f x - g x) ∂π := by rw [integral_sub hi hgi, h0, hm]; ring
    rw [this, abs_neg]
    exact norm_integral_le_integral_norm (fun x => f x - g x)
  set g' : X → ℝ := fun x => g x - m with hg'
  have hg'm : Measurable g' := hg.sub measurable_const
  have hb' : ∀ x, |g' x| ≤ M + |m| := fun x => (abs_sub _ _).trans (by linarith [hb x])
  have hg'i : Integrable g' π := hgi.sub (integrable_const _)
  have h0' : ∫ x, g' x ∂π = 0 := by
    rw [hg', integral_sub hgi (integrable_const _), integral_const]
    simp [hm]
  have happ' : ∫ x, |f x - g' x| ∂π < ε / 2 := by
    have i1 : Integrable (fun x => |f x - g x|) π := (hi.sub hgi).abs
    calc ∫ x, |f x - g' x| ∂π ≤ ∫ x, (|f x - g x| + |m|) ∂π := by
          refine integral_mono (hi.sub hg'i).abs (i1.add (integrable_const _)) fun x => ?_
          have : f x - g' x = (f x - g x) + m := by rw [hg']; ring
          simp only [this]
          exact abs_add_le _ _
      _ = ∫ x, |f x - g x| ∂π + |m| := by
          rw [integral_add i1 (integrable_const _), integral_const]
          simp
      _ < ε / 2 := by linarith
  have hvar := variance_tendsto hF h hc hg'm (by positivity) hb' h0'
  have hev := hvar.eventually (gt_mem_nhds (show 0 < (ε / 2) ^ 2 by positivity))
  obtain ⟨N, hN⟩ := eventually_atTop.mp hev
  refine ⟨max N 1, fun n hn => ?_⟩
  have hn1 : (0 : ℝ) < n := by exact_mod_cast (le_of_max_le_right hn)
  have h1 := hN n (le_of_max_le_left hn)
  have hnn : 0 ≤ ∫ z, |total F f n z.1 z.2| ∂(π.prod (Measure.pi fun _ : Fin n => ν)) :=
    integral_nonneg fun z => abs_nonneg _
  rw [Real.dist_eq, sub_zero, abs_of_nonneg (by positivity), div_lt_iff₀ hn1]
  set μ := π.prod (Measure.pi fun _ : Fin n => ν) with hμ
  have t1 := mean_total_le (n := n) hF h hf hi
  have t2 := mean_total_le (n := n) hF h hg'm hg'i
  have t3 := mean_total_le (n := n) hF h (hf.sub hg'm) (hi.sub hg'i)
  have hsub : ∀ z : X × (Fin n → Ω), total F f n z.1 z.2 =
      total F (f - g') n z.1 z.2 + total F g' n z.1 z.2 := fun z => by
    have := total_sub F f g' n z.1 z.2
    rw [show (f - g') = fun x => f x - g' x from rfl, this]
    ring
  have hle : ∫ z, |total F f n z.1 z.2| ∂μ ≤ ∫ z, |total F (f - g') n z.1 z.2| ∂μ +
      ∫ z, |total F g' n z.1 z.2| ∂μ := by
    rw [← integral_add t3.1.abs t2.1.abs]
    refine integral_mono t1.1.abs (t3.1.abs.add t2.1.abs) fun z => ?_
    simp only [hsub z]
    exact abs_add_le _ _
  -- the mean is at most the root of the mean square
  have hsq : (∫ z, |total F g' n z.1 z.2| ∂μ) ^ 2 ≤ ∫ z, total F g' n z.1 z.2 ^ 2 ∂μ := by
    set a := ∫ z, |total F g' n z.1 z.2| ∂μ with ha
    have i2 : Integrable (fun z : X × (Fin n → Ω) => total F g' n z.1 z.2 ^ 2) μ :=
      Integrable.of_bound ((measurable_total hF hg'm n).pow_const 2).aestronglyMeasurable
        ((n * (M + |m|)) ^ 2) (.of_forall fun z => by
          rw [Real.norm_eq_abs, abs_pow]
          exact pow_le_pow_left₀ (abs_nonneg _) (abs_total_le F hb' n _ _) 2)
    have h2 : 0 ≤ ∫ z, (|total F g' n z.1 z.2| - a) ^ 2 ∂μ := integral_nonneg fun z => sq_nonneg _
    have h3 : ∫ z, (|total F g' n z.1 z.2| - a) ^ 2 ∂μ =
        ∫ z, total F g' n z.1 z.2 ^ 2 ∂μ - a ^ 2 := by
      have e : ∀ z : X × (Fin n → Ω), (|total F g' n z.1 z.2| - a) ^ 2 =
          (total F g' n z.1 z.2 ^ 2 - 2 * a * |total F g' n z.1 z.2|) + a ^ 2 := fun z => by
        rw [sub_sq, sq_abs]; ring
      simp_rw [e]
      have i3 : Integrable (fun z : X × (Fin n → Ω) => 2 * a * |total F g' n z.1 z.2|) μ :=
        t2.1.abs.const_mul _
      have i4 : Integrable (fun z : X × (Fin n → Ω) =>
        total F g' n z.1 z.2 ^ 2 - 2 * a * |total F g' n z.1 z.2|) μ := i2.sub i3
      rw [integral_add i4 (integrable_const _), integral_sub i2 i3, integral_const_mul, ← ha,
        integral_const]
      simp
      ring
    linarith
  have hroot : ∫ z, |total F g' n z.1 z.2| ∂μ < ε / 2 * n := by
    rw [div_lt_iff₀ (by positivity), ← mul_pow] at h1
    exact lt_of_pow_lt_pow_left₀ 2 (by positivity) (hsq.trans_lt h1)
  have hmul : (n : ℝ) * ∫ x, |(f - g') x| ∂π < n * (ε / 2) := by
    exact mul_lt_mul_of_pos_left happ' hn1
  have := t3.2
  linarith

end Verif.Ergodic

namespace Verif.Ergodic
open Filter Topology MeasureTheory Set

variable {X Ω : Type*} [MeasurableSpace X] [MeasurableSpace Ω]
  {π : Measure X} [IsProbabilityMeasure π] {ν : Measure Ω} [IsProbabilityMeasure ν]
  {F : X × Ω → X}

/-- A size, cut off at 1. -/
noncomputable def cut (c s : ℝ) : ℝ := min 1 (|s| / c)

theorem measurable_cut (c : ℝ) : Measurable (cut c) :=
  measurable_const.min (measurable_id.abs.div_const c)

theorem cut_nonneg {c : ℝ} (hc : 0 ≤ c) (s : ℝ) : 0 ≤ cut c s :=
  le_min zero_le_one (div_nonneg (abs_nonneg _) hc)

theorem cut_le (c s : ℝ) : cut c s ≤ 1 := min_le_left _ _

theorem abs_cut_le {c : ℝ} (hc : 0 ≤ c) (s : ℝ) : |cut c s| ≤ 1 := by
  rw [abs_of_nonneg (cut_nonneg hc s)]
  exact cut_le c s

theorem cut_add {c : ℝ} (hc : 0 ≤ c) (s t : ℝ) : cut c (s + t) ≤ cut c s + cut c t := by
  unfold cut
  have hs : 0 ≤ |s| / c := div_nonneg (abs_nonneg _) hc
  have ht : 0 ≤ |t| / c := div_nonneg (abs_nonneg _) hc
  have h : |s + t| / c ≤ |s| / c + |t| / c := by
    rw [← add_div]
    exact div_le_div_of_nonneg_right (abs_add_le s t) hc
  rcases min_cases 1 (|s| / c) with h1 | h1 <;> rcases min_cases 1 (|t| / c) with h2 | h2 <;>
    rcases min_cases 1 (|s + t| / c) with h3 | h3 <;> linarith

theorem avg_add {f g : X → ℝ} {M N : ℝ} (hF : Measurable F) (hf : Measurable f)
    (hb : ∀ x, |f x| ≤ M) (hg : Measurable g) (hb' : ∀ x, |g x| ≤ N) (x : X) :
    avg ν F (fun x => f x + g x) x = avg ν F f x + avg ν F g x := by
  have hFx : Measurable fun y => F (x, y) := hF.comp measurable_prodMk_left
  exact integral_add
    (Integrable.of_bound (hf.comp hFx).aestronglyMeasurable M (.of_forall fun y => hb _))
    (Integrable.of_bound (hg.comp hFx).aestronglyMeasurable N (.of_forall fun y => hb' _))

theorem avg_mono {f g : X → ℝ} {M N : ℝ} (hF : Measurable F) (hf : Measurable f)
    (hb : ∀ x, |f x| ≤ M) (hg : Measurable g) (hb' : ∀ x, |g x| ≤ N) (h : ∀ x, f x ≤ g x) (x : X) :
    avg ν F f x ≤ avg ν F g x := by
  have hFx : Measurable fun y => F (x, y) := hF.comp measurable_prodMk_left
  exact integral_mono
    (Integrable.of_bound (hf.comp hFx).aestronglyMeasurable M (.of_forall fun y => hb _))
    (Integrable.of_bound (hg.comp hFx).aestronglyMeasurable N (.of_forall fun y => hb' _))
    fun y => h _

/-- The mean of the cut off size of the sum, from a position. -/
noncomputable def dev (ν : Measure Ω) (F : X × Ω → X) (f : X → ℝ) (c : ℝ) (n : ℕ) (x : X) : ℝ :=
  ∫ ys, cut c (total F f n x ys) ∂(Measure.pi fun _ : Fin n => ν)

theorem measurable_dev (hF : Measurable F) {f : X → ℝ} (hf : Measurable f) (c : ℝ) (n : ℕ) :
    Measurable (dev ν F f c n) :=
  (((measurable_cut c).comp
    (measurable_total hF hf n)).stronglyMeasurable.integral_prod_right').measurable

omit [MeasurableSpace X] in
theorem abs_dev_le (f : X → ℝ) {c : ℝ} (hc : 0 ≤ c) (n : ℕ) (x : X) : |dev ν F f c n x| ≤ 1 := by
  have := norm_integral_le_of_norm_le_const (μ := Measure.pi fun _ : Fin n => ν)
    (f := fun ys => cut c (total F f n x ys)) (C := 1) (.of_forall fun y => abs_cut_le hc _)
  simpa [dev] using this

theorem dev_succ (hF : Measurable F) {f : X → ℝ} (hf : Measurable f) {c : ℝ} (hc : 0 ≤ c) (n : ℕ)
    (x : X) : dev ν F f c (n + 1) x ≤ avg ν F (fun x => dev ν F f c n x + cut c (f x)) x := by
  have hp := preserves_first (ν := ν) n
  have hFx : Measurable fun y => F (x, y) := hF.comp measurable_prodMk_left
  have hm1 : Measurable fun z : Ω × (Fin n → Ω) =>
      cut c (f (F (x, z.1)) + total F f n (F (x, z.1)) z.2) := by
    refine (measurable_cut c).comp (((hf.comp hFx).comp measurable_fst).add ?_)
    exact (measurable_total hF hf n).comp ((hFx.comp measurable_fst).prodMk measurable_snd)
  have hm2 : Measurable fun z : Ω × (Fin n → Ω) => cut c (total F f n (F (x, z.1)) z.2) :=
    (measurable_cut c).comp ((measurable_total hF hf n).comp
      ((hFx.comp measurable_fst).prodMk measurable_snd))
  have i1 : Integrable (fun z : Ω × (Fin n → Ω) =>
      cut c (f (F (x, z.1)) + total F f n (F (x, z.1)) z.2))
      (ν.prod (Measure.pi fun _ : Fin n => ν)) :=
    Integrable.of_bound hm1.aestronglyMeasurable 1 (.of_forall fun z => abs_cut_le hc _)
  have e : dev ν F f c (n + 1) x = ∫ z, cut c (f (F (x, z.1)) + total F f n (F (x, z.1)) z.2)
      ∂(ν.prod (Measure.pi fun _ : Fin n => ν)) := by
    rw [← hp.map_eq, integral_map hp.measurable.aemeasurable hm1.aestronglyMeasurable]
    unfold dev
    simp_rw [total_succ]
  rw [e, integral_prod _ i1]
  unfold avg
  refine integral_mono i1.integral_prod_left ?_ fun y => ?_
  · refine Integrable.of_bound (((measurable_dev hF hf c n).comp hFx).add
      ((measurable_cut c).comp (hf.comp hFx))).aestronglyMeasurable (1 + 1) (.of_forall fun y => ?_)
    exact (abs_add_le _ _).trans (add_le_add (abs_dev_le f hc n _) (abs_cut_le hc _))
  · have hy : Measurable fun ys => cut c (total F f n (F (x, y)) ys) :=
      hm2.comp (measurable_prodMk_left (x := y))
    have i2 : Integrable (fun ys => cut c (total F f n (F (x, y)) ys))
        (Measure.pi fun _ : Fin n => ν) :=
      Integrable.of_bound hy.aestronglyMeasurable 1 (.of_forall fun z => abs_cut_le hc _)
    have hy1 : Measurable fun ys => cut c (f (F (x, y)) + total F f n (F (x, y)) ys) :=
      hm1.comp (measurable_prodMk_left (x := y))
    have i3 : Integrable (fun ys => cut c (f (F (x, y)) + total F f n (F (x, y)) ys))
        (Measure.pi fun _ : Fin n => ν) :=
      Integrable.of_bound hy1.aestronglyMeasurable 1 (.of_forall fun z => abs_cut_le hc _)
    calc ∫ ys, cut c (f (F (x, y)) + total F f n (F (x, y)) ys) ∂(Measure.pi fun _ : Fin n => ν)
        ≤ ∫ ys, (cut c (total F f n (F (x, y)) ys) + cut c (f (F (x, y))))
          ∂(Measure.pi fun _ : Fin n => ν) := by
          refine integral_mono i3 (i2.add (integrable_const _)) fun ys => ?_
          have := cut_add hc (f (F (x, y))) (total F f n (F (x, y)) ys)
          simp only
          linarith
      _ = _ := by
          rw [integral_add i2 (integrable_const _), integral_const]
          simp [dev]

/-- What the first `k` positions contribute. -/
noncomputable def burn (ν : Measure Ω) (F : X × Ω → X) (f : X → ℝ) (c : ℝ) : ℕ → X → ℝ
  | 0, _ => 0
  | k + 1, x => avg ν F (fun x => burn ν F f c k x + cut c (f x)) x

theorem burn_bound (hF : Measurable F) {f : X → ℝ} (hf : Measurable f) {c : ℝ} (hc : 0 ≤ c)
    (k : ℕ) : Measurable (burn ν F f c k) ∧ ∀ x, |burn ν F f c k x| ≤ k := by
  induction k with
  | zero => exact ⟨measurable_const, fun x => by simp [burn]⟩
  | succ k ih =>
    have hm : Measurable fun x => burn ν F f c k x + cut c (f x) :=
      ih.1.add ((measurable_cut c).comp hf)
    refine ⟨measurable_avg hF hm, fun x => ?_⟩
    push_cast
    exact abs_avg_le (fun x => (abs_add_le _ _).trans (add_le_add (ih.2 x) (abs_cut_le hc _))) x

theorem dev_burn (hF : Measurable F) {f : X → ℝ} (hf : Measurable f) {c : ℝ} (hc : 0 ≤ c) (n k : ℕ)
    (x : X) : dev ν F f c (n + k) x ≤ (avg ν F)^[k] (dev ν F f c n) x + burn ν F f c k x := by
  induction k generalizing x with
  | zero => simp [burn]
  | succ k ih =>
    have hd := measurable_dev (ν := ν) hF hf c
    have hdb := abs_dev_le (ν := ν) (F := F) f hc
    have hcm : Measurable fun x => cut c (f x) := (measurable_cut c).comp hf
    have hB := burn_bound (ν := ν) hF hf hc k
    have hA := iterate_avg (ν := ν) hF (hd n) (hdb n) k
    have hBc : Measurable fun x => burn ν F f c k x + cut c (f x) := hB.1.add hcm
    have hBb : ∀ x, |burn ν F f c k x + cut c (f x)| ≤ k + 1 := fun x =>
      (abs_add_le _ _).trans (add_le_add (hB.2 x) (abs_cut_le hc _))
    refine (dev_succ hF hf hc (n + k) x).trans ?_
    rw [Function.iterate_succ_apply', burn, ← avg_add hF hA.1 hA.2 hBc hBb]
    refine avg_mono hF ((hd _).add hcm) (M := 1 + 1) (fun x =>
      (abs_add_le _ _).trans (add_le_add (hdb _ x) (abs_cut_le hc _))) (hA.1.add hBc)
      (N := 1 + (k + 1)) (fun x => (abs_add_le _ _).trans (add_le_add (hA.2 x) (hBb x)))
      (fun x => ?_) x
    have := ih x
    simp only [Pi.add_apply]
    linarith

theorem burn_tendsto (hF : Measurable F) {f : X → ℝ} (hf : Measurable f) (k : ℕ) (x : X) :
    Tendsto (fun n : ℕ => burn ν F f n k x) atTop (𝓝 0) := by
  induction k generalizing x with
  | zero => exact tendsto_const_nhds
  | succ k ih =>
    have hFx : Measurable fun y => F (x, y) := hF.comp measurable_prodMk_left
    have h1 : Tendsto (fun n : ℕ => burn ν F f n (k + 1) x) atTop (𝓝 (∫ _, (0 : ℝ) ∂ν)) := by
      unfold burn avg
      refine tendsto_integral_of_dominated_convergence (fun _ => (k : ℝ) + 1) (fun n => ?_)
        (integrable_const _) (fun n => .of_forall fun y => ?_) (.of_forall fun y => ?_)
      · exact (((burn_bound hF hf (Nat.cast_nonneg n) k).1.comp hFx).add
          ((measurable_cut _).comp (hf.comp hFx))).aestronglyMeasurable
      · exact (abs_add_le _ _).trans (add_le_add ((burn_bound hF hf (Nat.cast_nonneg n) k).2 _)
          (abs_cut_le (Nat.cast_nonneg n) _))
      · have h2 : Tendsto (fun n : ℕ => cut n (f (F (x, y)))) atTop (𝓝 0) := by
          have h3 : Tendsto (fun n : ℕ => |f (F (x, y))| / (n : ℝ)) atTop (𝓝 0) :=
            tendsto_const_nhds.div_atTop tendsto_natCast_atTop_atTop
          have h4 := (tendsto_const_nhds (x := (1 : ℝ))).min h3
          rw [min_eq_right zero_le_one] at h4
          exact h4
        have h5 := (ih (F (x, y))).add h2
        rw [add_zero] at h5
        exact h5
    simpa using h1

/-- Law of large numbers: if the chain preserves `π` and converges to it from every position, then
averages of integrable functions along it converge in probability to their means, from every
position. -/
theorem large_numbers (hF : Measurable F) (h : MeasurePreserving F (π.prod ν) π)
    (hc : ∀ x, ConvergesFrom π ν F x) {f : X → ℝ} (hf : Measurable f) (hi : Integrable f π) (x : X)
    {ε : ℝ} (hε : 0 < ε) :
    Tendsto (fun n : ℕ => (Measure.pi fun _ : Fin n => ν).real
      {ys | ε ≤ |total F f n x ys / n - ∫ x, f x ∂π|}) atTop (𝓝 0) := by
  set m := ∫ x, f x ∂π with hm
  set g : X → ℝ := fun x => f x - m with hg
  have hgm : Measurable g := hf.sub measurable_const
  have hgi : Integrable g π := hi.sub (integrable_const _)
  have hg0 : ∫ x, g x ∂π = 0 := by
    rw [hg, integral_sub hi (integrable_const _), integral_const]
    simp [hm]
  have hmean := mean_tendsto hF h hc hgm hgi hg0
  -- the cut off deviations tend to zero
  have hdev : Tendsto (fun n : ℕ => dev ν F g n n x) atTop (𝓝 0) := by
    rw [Metric.tendsto_atTop]
    intro η hη
    obtain ⟨k, hk⟩ := (hc x (η / 4) (by positivity)).exists
    have hb := burn_tendsto (ν := ν) hF hgm k x
    have hev1 := hb.eventually (gt_mem_nhds (show 0 < η / 4 by positivity))
    have hev2 := hmean.eventually (gt_mem_nhds (show 0 < η / 4 by positivity))
    obtain ⟨N1, hN1⟩ := eventually_atTop.mp hev1
    obtain ⟨N2, hN2⟩ := eventually_atTop.mp hev2
    refine ⟨max N1 (max N2 1) + k, fun n hn => ?_⟩
    obtain ⟨l, rfl⟩ := Nat.exists_eq_add_of_le' (show k ≤ n by omega)
    have hl : max N1 (max N2 1) ≤ l := by omega
    have hl1 : N1 ≤ l + k := by have := le_max_left N1 (max N2 1); omega
    have hl2 : N2 ≤ l := (le_max_left N2 1).trans ((le_max_right _ _).trans hl)
    have hl3 : 1 ≤ l := (le_max_right N2 1).trans ((le_max_right _ _).trans hl)
    have hl0 : (0 : ℝ) < l := by exact_mod_cast hl3
    have hcn : (0 : ℝ) ≤ ((l + k : ℕ) : ℝ) := Nat.cast_nonneg _
    have h1 := dev_burn (ν := ν) hF hgm hcn l k x
    have h2 := (abs_le.mp (hk (dev ν F g ((l + k : ℕ) : ℝ) l) (measurable_dev hF hgm _ _)
      (abs_dev_le g hcn l))).2
    have h3 := hN1 (l + k) hl1
    have h4 : ∫ x, dev ν F g ((l + k : ℕ) : ℝ) l x ∂π ≤
        (∫ z, |total F g l z.1 z.2| ∂(π.prod (Measure.pi fun _ : Fin l => ν))) / (l : ℝ) := by
      have i1 : Integrable (fun z : X × (Fin l → Ω) => cut ((l + k : ℕ) : ℝ) (total F g l z.1 z.2))
          (π.prod (Measure.pi fun _ : Fin l => ν)) :=
        Integrable.of_bound ((measurable_cut _).comp
          (measurable_total hF hgm l)).aestronglyMeasurable 1 (.of_forall fun z => abs_cut_le hcn _)
      have i2 := (mean_total_le (ν := ν) hF h hgm hgi l).1
      have e : ∫ x, dev ν F g ((l + k : ℕ) : ℝ) l x ∂π =
          ∫ z, cut ((l + k : ℕ) : ℝ) (total F g l z.1 z.2)
            ∂(π.prod (Measure.pi fun _ : Fin l => ν)) := (integral_prod _ i1).symm
      rw [e, ← integral_div]
      refine integral_mono i1 (i2.abs.div_const _) fun z => (min_le_right _ _).trans ?_
      refine div_le_div_of_nonneg_left (abs_nonneg _) hl0 ?_
      push_cast
      linarith [(Nat.cast_nonneg k : (0 : ℝ) ≤ k)]
    have h5 := hN2 l hl2
    have h6 : 0 ≤ dev ν F g ((l + k : ℕ) : ℝ) (l + k) x :=
      integral_nonneg fun ys => cut_nonneg hcn _
    rw [Real.dist_eq, sub_zero, abs_of_nonneg h6]
    linarith
  -- Markov
  have hδ : 0 < min 1 ε := lt_min one_pos hε
  have hlim := hdev.div_const (min 1 ε)
  rw [zero_div] at hlim
  refine squeeze_zero' (.of_forall fun n => measureReal_nonneg) ?_ hlim
  filter_upwards [eventually_ge_atTop 1] with n hn
  have hn0 : (0 : ℝ) < n := by exact_mod_cast hn
  have hmx : Measurable (total F g n x) := (measurable_total hF hgm n).comp measurable_prodMk_left
  have i1 : Integrable (fun ys => cut n (total F g n x ys)) (Measure.pi fun _ : Fin n => ν) :=
    Integrable.of_bound ((measurable_cut _).comp hmx).aestronglyMeasurable 1
      (.of_forall fun z => abs_cut_le hn0.le _)
  have hmk := mul_meas_ge_le_integral_of_nonneg (μ := Measure.pi fun _ : Fin n => ν)
    (.of_forall fun ys => cut_nonneg hn0.le (total F g n x ys)) i1 (min 1 ε)
  rw [le_div_iff₀ hδ, mul_comm]
  refine le_trans (mul_le_mul_of_nonneg_left (measureReal_mono fun ys hys => ?_) hδ.le) hmk
  have hys' : ε ≤ |total F f n x ys / n - m| := hys
  have e : total F g n x ys = n * (total F f n x ys / n - m) := by
    rw [hg, total_sub, total_const]
    field_simp
  show min 1 ε ≤ cut n (total F g n x ys)
  unfold cut
  rw [e, abs_mul, abs_of_pos hn0, mul_div_cancel_left₀ _ hn0.ne']
  exact min_le_min le_rfl hys'

omit [IsProbabilityMeasure π] in
/-- A chain of `k` moves at a time also converges. -/
theorem ConvergesFrom.every (hF : Measurable F) {x : X} (h : ConvergesFrom π ν F x) {k : ℕ}
    (hk : k ≠ 0) : ConvergesFrom π (Measure.pi fun _ : Fin k => ν) (fun z => chain F k z.1 z.2) x := by
  have hit : ∀ (n : ℕ) (f : X → ℝ), Measurable f → (∀ x, |f x| ≤ 1) →
      (avg (Measure.pi fun _ : Fin k => ν) (fun z => chain F k z.1 z.2))^[n] f =
        (avg ν F)^[n * k] f := by
    intro n f hf hb
    induction n with
    | zero => simp
    | succ n ih =>
      have hA := iterate_avg (ν := ν) hF hf hb (n * k)
      rw [Function.iterate_succ_apply', ih]
      funext x
      rw [avg_chain hF hA.1 hA.2, ← Function.iterate_add_apply]
      rw [show k + n * k = (n + 1) * k by ring]
  intro η hη
  obtain ⟨N, hN⟩ := eventually_atTop.mp (h η hη)
  refine eventually_atTop.mpr ⟨N, fun n hn f hf hb => ?_⟩
  rw [hit n f hf hb]
  exact hN _ (hn.trans (Nat.le_mul_of_pos_right n (Nat.pos_of_ne_zero hk))) f hf hb

end Verif.Ergodic
