import Verif.Props.Evaluation
import Verif.Lemmas.CoulombSquare
import Verif.Spec.EnergyVariance

/-!
C95: the variance which an evaluation saves converges to the variance of the local energy, which for
configured wave functions is finite and equal to `∫ |(H - E)ψ|² / ∫ |ψ|²`.
-/

namespace Verif.Props
open MeasureTheory ProbabilityTheory MCMC Spec Reversible Ergodic Filter Topology Stat Setup

section general

variable {X : Type} [NormedAddCommGroup X] [NormedSpace ℝ X] [MeasurableSpace X] [BorelSpace X]
  [FiniteDimensional ℝ X] {ndev nbatch : ℕ}

/-- All local energies recorded by an evaluation are finite, and the average of `φ` of those of the
walker `w` is within `ε` of `v`. -/
def WalkerAverage (E : X → XR) {n : ℕ} (x : Fin n → Fin ndev × Fin nbatch → X)
    (w : Fin ndev × Fin nbatch) (φ : ℝ → ℝ) (v ε : ℝ) : Prop :=
  ∃ r : Fin ndev → Fin n → Fin nbatch → ℝ, (∀ g t b, E (x t (g, b)) = .fin (r g t b)) ∧
    |(∑ t, φ (r w.1 t w.2)) / n - v| < ε

/-- Averages over the epochs for one walker. -/
theorem walker_average_converges (vol G : Measure X) [vol.IsAddHaarMeasure] (hG : Noise vol G)
    (logabs : Bool) {σ : ℝ} (hσ : σ ≠ 0) {amp E : X → XR} {ψ e : X → ℝ} (hm : AEMeasurable ψ vol)
    (h0 : ∀ᵐ x ∂vol, ψ x ≠ 0) (hn : Integrable (fun x => ψ x ^ 2) vol)
    (hamp : ∀ᵐ x ∂vol, amp x = amplitudes logabs ψ x) (hE : ∀ᵐ x ∂vol, E x = .fin (e x))
    (he : AEStronglyMeasurable e (born vol ψ)) (pos : Fin ndev × Fin nbatch → X)
    (hpos : ∀ w, amp (pos w) = amplitudes logabs ψ (pos w))
    (hEpos : ∀ w, ∃ r, E (pos w) = .fin r) (w : Fin ndev × Fin nbatch) {φ : ℝ → ℝ}
    (hφ : Measurable φ) (hφe : Integrable (fun x => φ (e x)) (born vol ψ)) (m : ℕ) {k : ℕ}
    (hk : k ≠ 0) {ε : ℝ} (hε : 0 < ε) :
    Tendsto (fun n => ((Measure.pi fun _ : Fin m => noiseLaw G (Fin ndev × Fin nbatch)).prod
        (Measure.pi fun _ : Fin n => Measure.pi fun _ : Fin k =>
          noiseLaw G (Fin ndev × Fin nbatch))).real
      {z | ¬WalkerAverage E (epochPositions logabs σ amp pos z.1 z.2) w φ
        (∫ x, φ (e x) ∂(born vol ψ)) ε}) atTop (𝓝 0) := by
  have hprob := born_probability vol h0 hn
  have hI := norm_pos vol h0 hn
  classical
  -- sets of measure zero
  have hac : vol ≪ born vol ψ := by
    refine withDensity_absolutelyContinuous' ?_ ?_
    · exact ((hm.pow_const 2).div_const _).ennreal_ofReal
    · filter_upwards [h0] with x hx
      rw [Ne, ENNReal.ofReal_eq_zero, not_le]
      positivity
  have hmk : ∀ᵐ x ∂vol, e x = he.mk e x := hac.ae_le he.ae_eq_mk
  obtain ⟨ψ₁, N, hψ₁, hae, hNm, hN, hq, hS⟩ := exists_version vol logabs hm hamp pos hpos
    (hE.and hmk)
  have h0' : ∀ᵐ x ∂vol, ψ₁ x ≠ 0 := by
    filter_upwards [h0, hae] with x h1 h2
    rwa [← h2]
  have hn' : Integrable (fun x => ψ₁ x ^ 2) vol :=
    hn.congr (by filter_upwards [hae] with x hx; simp only [hx])
  -- a measurable version of the local energy
  obtain ⟨e₁, he₁m, he₁N, hES⟩ : ∃ e₁ : X → ℝ, Measurable e₁ ∧ (∀ x ∉ N, e x = e₁ x) ∧
      ∀ x ∈ Nᶜ ∪ Set.range pos, E x = .fin (e₁ x) := by
    choose r hr using hEpos
    set e' : X → ℝ := fun x => if h : ∃ w, pos w = x then r h.choose else he.mk e x with he'
    have hpos' : ∀ w, E (pos w) = .fin (e' (pos w)) := fun w => by
      have h : ∃ w', pos w' = pos w := ⟨w, rfl⟩
      simp only [he', dif_pos h]
      rw [← hr, h.choose_spec]
    have hN₁ : ∀ x ∉ N, e x = e' x := fun x hx => by
      by_cases h : ∃ w, pos w = x
      · obtain ⟨w, rfl⟩ := h
        exact XR.fin_inj.mp ((hq _ hx).1.symm.trans (hpos' w))
      · simp only [he', dif_neg h]
        exact (hq x hx).2
    refine ⟨e', ?_, hN₁, ?_⟩
    · refine he.stronglyMeasurable_mk.measurable.measurable_of_countable_ne
        ((Set.finite_range pos).countable.mono fun x hx => ?_)
      by_contra hc
      exact hx (by simp only [he', dif_neg (show ¬∃ w, pos w = x from hc)])
    · rintro x (hx | ⟨w, rfl⟩)
      · rw [(hq x hx).1, hN₁ x hx]
      · exact hpos' w
  have hborn := born_congr vol hae
  have hNv : ∀ᵐ x ∂vol, x ∉ N := by
    rw [ae_iff]
    simpa using hN
  have hNb : ∀ᵐ x ∂(born vol ψ), x ∉ N := (withDensity_absolutelyContinuous vol _).ae_le hNv
  have heq : (fun x => φ (e x)) =ᵐ[born vol ψ] fun x => φ (e₁ x) := by
    filter_upwards [hNb] with x hx using congrArg φ (he₁N x hx)
  have hi₁ : Integrable (fun x => φ (e₁ x)) (born vol ψ) := hφe.congr heq
  have hmean : ∫ x, φ (e x) ∂(born vol ψ) = ∫ x, φ (e₁ x) ∂(born vol ψ) := integral_congr_ae heq
  have hproj := measurePreserving_eval (fun _ : Fin ndev × Fin nbatch => born vol ψ) w
  have hfm : Measurable fun x : Fin ndev × Fin nbatch → X => φ (e₁ (x w)) :=
    (hφ.comp he₁m).comp (measurable_pi_apply w)
  have hfi : Integrable (fun x : Fin ndev × Fin nbatch → X => φ (e₁ (x w)))
      (Measure.pi fun _ => born vol ψ) := hproj.integrable_comp_of_integrable hi₁
  have hfmean : ∫ x : Fin ndev × Fin nbatch → X, φ (e₁ (x w)) ∂(Measure.pi fun _ => born vol ψ) =
      ∫ x, φ (e x) ∂(born vol ψ) := by
    have := integral_map (μ := Measure.pi fun _ : Fin ndev × Fin nbatch => born vol ψ)
      (f := fun x => φ (e₁ x)) hproj.measurable.aemeasurable (hφ.comp he₁m).aestronglyMeasurable
    rw [hproj.map_eq] at this
    rw [hmean, this]
  rw [hborn] at hfi hfmean
  have hlim := epochs_large_numbers vol G hG logabs hσ hψ₁ h0' hn' hfm hfi pos m hk hε
  rw [hfmean, ← hborn] at hlim
  have hlaw := hG.law (W := Fin ndev × Fin nbatch)
  refine squeeze_zero' (.of_forall fun n => measureReal_nonneg) ?_ hlim
  refine .of_forall fun n => ?_
  refine ENNReal.toReal_mono (measure_ne_top _ _) (measure_mono_ae ?_)
  filter_upwards [ae_epochs vol G hG logabs hσ hψ₁ hNm hN pos hS m k n] with z hz hz3
  by_contra hz4
  refine hz3 ⟨fun g t b => e₁ (epochPositions logabs σ amp pos z.1 z.2 t (g, b)),
    fun g t b => hES _ ((hz t).2 _), ?_⟩
  have hz4' : ¬ε ≤ |total (epochStep (Fin ndev × Fin nbatch) logabs σ ψ₁ k)
      (fun x => φ (e₁ (x w))) n (chain (jointStep logabs σ ψ₁) m pos z.1) z.2 / n -
        ∫ x, φ (e x) ∂(born vol ψ)| := hz4
  rw [total_eq_sum, not_le] at hz4'
  simpa only [(hz _).1] using hz4'

/-! ### From the walkers to the saved variance -/

variable {n : ℕ}

/-- The saved variance, from the means and mean squares of the walkers. -/
noncomputable def varianceOf {W : Type} [Fintype W] (a b : W → ℝ) : ℝ :=
  (∑ w, b w) / Fintype.card W - ((∑ w, a w) / Fintype.card W) ^ 2 +
    (∑ w, (a w - (∑ w, a w) / Fintype.card W) ^ 2) / (Fintype.card W - 1) / Fintype.card W

theorem varianceOf_near {W : Type} [Fintype W] [Nonempty W] (A B : ℝ) {ε : ℝ} (hε : 0 < ε) :
    ∃ δ, 0 < δ ∧ ∀ a b : W → ℝ, (∀ w, |a w - A| < δ) → (∀ w, |b w - B| < δ) →
      |varianceOf a b - (B - A ^ 2)| < ε := by
  have hc : Continuous fun p : (W → ℝ) × (W → ℝ) => varianceOf p.1 p.2 := by
    unfold varianceOf
    fun_prop
  have hv : varianceOf (fun _ : W => A) (fun _ => B) = B - A ^ 2 := by
    have : (Fintype.card W : ℝ) ≠ 0 := by exact_mod_cast Fintype.card_ne_zero
    unfold varianceOf
    simp only [Finset.sum_const, Finset.card_univ, nsmul_eq_mul]
    rw [mul_div_cancel_left₀ _ this, mul_div_cancel_left₀ _ this]
    simp
  obtain ⟨δ, hδ, h⟩ := Metric.continuous_iff.mp hc (fun _ => A, fun _ => B) ε hε
  refine ⟨δ, hδ, fun a b ha hb => ?_⟩
  have := h (a, b) ?_
  · rwa [Real.dist_eq, hv] at this
  · rw [Prod.dist_eq, max_lt_iff, dist_pi_lt_iff hδ, dist_pi_lt_iff hδ]
    exact ⟨ha, hb⟩

theorem saved_variance_eq (r : Fin ndev → Fin n → Fin nbatch → ℝ) (hn : n ≠ 0)
    (hW : ndev * nbatch ≠ 0) :
    recordedVariance r + walkerMeanVariance r / (ndev * nbatch : ℕ) =
      varianceOf (W := Fin ndev × Fin nbatch) (fun w => (∑ t, r w.1 t w.2) / n)
        fun w => (∑ t, r w.1 t w.2 ^ 2) / n := by
  have hn' : (n : ℝ) ≠ 0 := by exact_mod_cast hn
  have hg : (ndev : ℝ) ≠ 0 := by exact_mod_cast left_ne_zero_of_mul hW
  have hb : (nbatch : ℝ) ≠ 0 := by exact_mod_cast right_ne_zero_of_mul hW
  have hmean : recordedMean r =
      (∑ w : Fin ndev × Fin nbatch, (∑ t, r w.1 t w.2) / n) / Fintype.card (Fin ndev × Fin nbatch) := by
    unfold recordedMean
    simp only [Fintype.card_prod, Fintype.card_fin, Nat.cast_mul]
    rw [← Finset.sum_div, div_div]
    congr 1
    simp only [Fintype.sum_prod_type]
    rw [Finset.sum_comm]
    exact Finset.sum_congr rfl fun g _ => Finset.sum_comm
  have hvar : recordedVariance r =
      (∑ w : Fin ndev × Fin nbatch, (∑ t, r w.1 t w.2 ^ 2) / n) /
        Fintype.card (Fin ndev × Fin nbatch) - recordedMean r ^ 2 := by
    have e1 : ∑ t, ∑ g, ∑ b, (r g t b - recordedMean r) ^ 2 =
        (∑ t, ∑ g, ∑ b, r g t b ^ 2) - 2 * recordedMean r * (∑ t, ∑ g, ∑ b, r g t b) +
          n * (ndev * nbatch) * recordedMean r ^ 2 := by
      simp only [sub_sq, Finset.sum_add_distrib, Finset.sum_sub_distrib, Finset.sum_const,
        Finset.card_univ, Fintype.card_fin, nsmul_eq_mul, ← Finset.mul_sum, ← Finset.sum_mul]
      ring
    have e2 : ∑ t, ∑ g, ∑ b, r g t b = n * (ndev * nbatch) * recordedMean r := by
      unfold recordedMean
      field_simp
    have e3 : (∑ w : Fin ndev × Fin nbatch, (∑ t, r w.1 t w.2 ^ 2) / (n : ℝ)) =
        (∑ t, ∑ g, ∑ b, r g t b ^ 2) / n := by
      rw [← Finset.sum_div]
      congr 1
      simp only [Fintype.sum_prod_type]
      rw [Finset.sum_comm (s := Finset.univ (α := Fin n))]
      exact Finset.sum_congr rfl fun g _ => Finset.sum_comm
    unfold recordedVariance
    rw [e1, e2, e3]
    simp only [Fintype.card_prod, Fintype.card_fin, Nat.cast_mul]
    field_simp
    ring
  unfold varianceOf
  rw [← hmean, hvar]
  congr 1
  unfold walkerMeanVariance walkerMean
  simp only [Fintype.card_prod, Fintype.card_fin, Fintype.sum_prod_type]

/-- The outcome of an evaluation: all local energies which it records are finite, it saves
statistics, and the variance in them is within `ε` of `V₀`. -/
def EvaluatesVariance (E : X → XR) {n : ℕ} (x : Fin n → Fin ndev × Fin nbatch → X) (V₀ ε : ℝ) : Prop :=
  ∃ r : Fin ndev → Fin n → Fin nbatch → ℝ, (∀ g t b, E (x t (g, b)) = .fin (r g t b)) ∧
    ∃ s a, finishEvaluation true (energyRows n r) = .ok (some s) ∧ s.variance = .fin a ∧
      |a - V₀| < ε

/-- C95.  The variance which an evaluation saves is, with a probability which tends to 1 as the number
of epochs grows, as close as one likes to the variance of the local energy over `|ψ|²`. -/
theorem evaluation_variance_converges (vol G : Measure X) [vol.IsAddHaarMeasure] (hG : Noise vol G)
    (logabs : Bool) {σ : ℝ} (hσ : σ ≠ 0) {amp E : X → XR} {ψ e : X → ℝ} (hm : AEMeasurable ψ vol)
    (h0 : ∀ᵐ x ∂vol, ψ x ≠ 0) (hn : Integrable (fun x => ψ x ^ 2) vol)
    (hamp : ∀ᵐ x ∂vol, amp x = amplitudes logabs ψ x) (hE : ∀ᵐ x ∂vol, E x = .fin (e x))
    (he : Integrable e (born vol ψ)) (he2 : Integrable (fun x => e x ^ 2) (born vol ψ))
    (pos : Fin ndev × Fin nbatch → X)
    (hpos : ∀ w, amp (pos w) = amplitudes logabs ψ (pos w))
    (hEpos : ∀ w, ∃ r, E (pos w) = .fin r) (hW : 2 ≤ ndev * nbatch) (m : ℕ) {k : ℕ}
    (hk : k ≠ 0) {ε : ℝ} (hε : 0 < ε) :
    Tendsto (fun n => ((Measure.pi fun _ : Fin m => noiseLaw G (Fin ndev × Fin nbatch)).prod
        (Measure.pi fun _ : Fin n => Measure.pi fun _ : Fin k =>
          noiseLaw G (Fin ndev × Fin nbatch))).real
      {z | ¬EvaluatesVariance E (epochPositions logabs σ amp pos z.1 z.2)
        (expectedEnergy vol ψ fun x => (e x - expectedEnergy vol ψ e) ^ 2) ε})
      atTop (𝓝 0) := by
  have hprob := born_probability vol h0 hn
  have hlaw := hG.law (W := Fin ndev × Fin nbatch)
  have hne : Nonempty (Fin ndev × Fin nbatch) := by
    rw [← Fintype.card_pos_iff]
    simp only [Fintype.card_prod, Fintype.card_fin]
    omega
  set A := expectedEnergy vol ψ e with hA
  set B := expectedEnergy vol ψ fun x => e x ^ 2 with hB
  have hV : (expectedEnergy vol ψ fun x => (e x - A) ^ 2) = B - A ^ 2 := by
    have e1 : (fun x => (e x - A) ^ 2) = fun x => e x ^ 2 - 2 * A * e x + A ^ 2 := by
      funext x; ring
    unfold expectedEnergy at hA hB ⊢
    have i1 : Integrable (fun x => e x ^ 2 - 2 * A * e x) (born vol ψ) := he2.sub (he.const_mul _)
    rw [e1, integral_add i1 (integrable_const _), integral_sub he2 (he.const_mul _),
      integral_const_mul, integral_const, ← hA, ← hB]
    simp
    ring
  rw [hV]
  obtain ⟨δ, hδ, hδ'⟩ := varianceOf_near (W := Fin ndev × Fin nbatch) A B hε
  have l1 := fun w => walker_average_converges vol G hG logabs hσ hm h0 hn hamp hE he.1 pos hpos
    hEpos w (φ := fun u => u) measurable_id he m hk hδ
  have l2 := fun w => walker_average_converges vol G hG logabs hσ hm h0 hn hamp hE he.1 pos hpos
    hEpos w (φ := fun u => u ^ 2) (measurable_id.pow_const 2) he2 m hk hδ
  have hsum := tendsto_finsetSum Finset.univ fun (w : Fin ndev × Fin nbatch) _ => (l1 w).add (l2 w)
  simp only [add_zero, Finset.sum_const_zero] at hsum
  refine squeeze_zero' (.of_forall fun n => measureReal_nonneg) ?_ hsum
  filter_upwards [eventually_ge_atTop 2] with n hn2
  have hμ : IsProbabilityMeasure ((Measure.pi fun _ : Fin m =>
      noiseLaw G (Fin ndev × Fin nbatch)).prod (Measure.pi fun _ : Fin n =>
        Measure.pi fun _ : Fin k => noiseLaw G (Fin ndev × Fin nbatch))) := inferInstance
  generalize ((Measure.pi fun _ : Fin m => noiseLaw G (Fin ndev × Fin nbatch)).prod
        (Measure.pi fun _ : Fin n => Measure.pi fun _ : Fin k =>
          noiseLaw G (Fin ndev × Fin nbatch))) = μ at hμ ⊢
  refine le_trans (measureReal_mono (fun z hz => ?_)) ((measureReal_iUnion_fintype_le
    fun w => {z | ¬WalkerAverage E (epochPositions logabs σ amp pos z.1 z.2) w (fun u => u)
        (∫ x, e x ∂(born vol ψ)) δ} ∪
      {z | ¬WalkerAverage E (epochPositions logabs σ amp pos z.1 z.2) w (fun u => u ^ 2)
        (∫ x, e x ^ 2 ∂(born vol ψ)) δ}).trans
    (Finset.sum_le_sum fun w _ => measureReal_union_le _ _))
  by_contra hz'
  simp only [Set.mem_iUnion, Set.mem_union, Set.mem_ofPred_eq, not_exists, not_or, not_not] at hz'
  refine hz ?_
  obtain ⟨w₀⟩ := hne
  obtain ⟨⟨r, hr, -⟩, -⟩ := hz' w₀
  have huniq : ∀ r' : Fin ndev → Fin n → Fin nbatch → ℝ,
      (∀ g t b, E (epochPositions logabs σ amp pos z.1 z.2 t (g, b)) = .fin (r' g t b)) → r' = r :=
    fun r' hr' => funext fun g => funext fun t => funext fun b =>
      XR.fin_inj.mp ((hr' g t b).symm.trans (hr g t b))
  obtain ⟨s, hs1, -, hs2⟩ := evaluation_statistics_partial r hn2 hW
  refine ⟨r, hr, s, _, hs1, hs2, ?_⟩
  rw [saved_variance_eq r (by omega) (by omega)]
  refine hδ' _ _ (fun w => ?_) fun w => ?_
  · obtain ⟨⟨r', hr', h⟩, -⟩ := hz' w
    rwa [huniq r' hr'] at h
  · obtain ⟨-, r', hr', h⟩ := hz' w
    rwa [huniq r' hr'] at h

end general

end Verif.Props

namespace Verif.Props
open Verif.Construct Verif.Net Verif.Spec Verif.Slog Verif.Decay Verif.Phys Verif.Ibp MeasureTheory
open Filter Topology
open scoped ContDiff

section

variable {N m d : ℕ} {R : Fin m → Fin d → ℝ} {ψ : Pos N d → ℝ}

theorem one_div_softDist_le (s : ℝ) {a b : Fin d → ℝ} (h : a ≠ b) :
    1 / softDist s a b ≤ 1 / softDist 0 a b := by
  refine one_div_le_one_div_of_le ?_ ?_
  · refine lt_of_lt_of_le ?_ (norm_sub_le_softDist 0 a b)
    exact norm_pos_iff.mpr (sub_ne_zero.mpr h)
  · unfold softDist
    refine Real.sqrt_le_sqrt ?_
    nlinarith [sq_nonneg s]

theorem coulombEI_le_sing (s : ℝ) (Z : Fin m → ℝ) {x : Pos N d} (hx : Good R x) :
    |coulombEI 1 s R Z x| ≤ (∑ p : Fin N × Fin m, |Z p.2|) * sing R x := by
  unfold coulombEI
  rw [abs_neg, Finset.sum_mul]
  refine (Finset.abs_sum_le_sum_abs _ _).trans (Finset.sum_le_sum fun p _ => ?_)
  rw [one_mul, abs_div, abs_of_nonneg (Ibp.softDist_nonneg _ _ _), div_eq_mul_one_div]
  exact mul_le_mul_of_nonneg_left ((one_div_softDist_le _ (hx.2 _ _)).trans (ion_le_sing R x _ _))
    (abs_nonneg _)

theorem coulombEE_le_sing (s : ℝ) {x : Pos N d} (hx : Good R x) :
    |coulombEE 1 s x| ≤ (pairs N).card * sing R x := by
  unfold coulombEE
  refine (Finset.abs_sum_le_sum_abs _ _).trans ((Finset.sum_le_card_nsmul _ _ (sing R x)
    fun p hp => ?_).trans (le_of_eq (nsmul_eq_mul _ _)))
  have hp : p.1 < p.2 := by simpa [pairs] using hp
  rw [abs_of_nonneg (one_div_softDist_nonneg _ _ _)]
  exact (one_div_softDist_le _ (hx.1 _ _ hp.ne)).trans (pair_le_sing R x _ _)

theorem coulomb_le_sing (eiSoft eeSoft : ℝ) (Z : Fin m → ℝ) {x : Pos N d} (hx : Good R x) :
    |coulomb eiSoft eeSoft R Z x| ≤
      ((∑ p : Fin N × Fin m, |Z p.2|) + (pairs N).card + |coulombII R Z|) * sing R x := by
  unfold coulomb
  refine (abs_add_le _ _).trans ?_
  rw [add_mul, add_mul]
  exact add_le_add ((abs_add_le _ _).trans (add_le_add (coulombEI_le_sing eiSoft Z hx)
    (coulombEE_le_sing eeSoft hx))) (le_mul_of_one_le_right (abs_nonneg _) (one_le_sing R x))

theorem measurable_coulomb (eiSoft eeSoft : ℝ) (R : Fin m → Fin d → ℝ) (Z : Fin m → ℝ) :
    Measurable fun x : Pos N d => coulomb eiSoft eeSoft R Z x := by
  unfold coulomb coulombEI coulombEE softDist
  fun_prop

/-- `Hψ` decays exponentially up to Coulomb singularities. -/
theorem abs_hamiltonian_le {β C : ℝ} (hb : Bounded R ψ β C) (eiSoft eeSoft : ℝ) (Z : Fin m → ℝ)
    {x : Pos N d} (hx : Good R x) :
    |hamiltonian ψ (coulomb eiSoft eeSoft R Z) x| ≤
      (1 / 2 * (N * d * C) +
        ((∑ p : Fin N × Fin m, |Z p.2|) + (pairs N).card + |coulombII R Z|) * C) *
        (Real.exp (-(β * ∑ e, ‖x e‖)) * sing R x) := by
  set B := (∑ p : Fin N × Fin m, |Z p.2|) + (pairs N).card + |coulombII R Z| with hB
  have hB0 : 0 ≤ B := by
    have := Finset.sum_nonneg fun (p : Fin N × Fin m) (_ : p ∈ Finset.univ) => abs_nonneg (Z p.2)
    positivity
  have h1 := one_le_sing R x
  have hexp := Real.exp_pos (-(β * ∑ e, ‖x e‖))
  have hkin : |∑ i, ∑ k, partial2 ψ i k x| ≤
      N * d * (C * Real.exp (-(β * ∑ e, ‖x e‖)) * sing R x) := by
    refine (Finset.abs_sum_le_sum_abs _ _).trans ((Finset.sum_le_sum fun i _ =>
      (Finset.abs_sum_le_sum_abs _ _).trans (Finset.sum_le_sum fun k _ =>
        hb.second i k x hx)).trans (le_of_eq ?_))
    simp
    ring
  have hpot := mul_le_mul (coulomb_le_sing eiSoft eeSoft Z hx) (hb.value x hx) (abs_nonneg _)
    (by positivity)
  rw [← hB] at hpot
  unfold hamiltonian
  refine (abs_add_le _ _).trans ?_
  rw [abs_mul, abs_mul, show |(-(1 / 2) : ℝ)| = 1 / 2 by norm_num]
  nlinarith

theorem measurable_hamiltonian (m0 : AEStronglyMeasurable ψ volume)
    (m2 : ∀ i k, AEStronglyMeasurable (partial2 ψ i k) volume) (eiSoft eeSoft : ℝ) (Z : Fin m → ℝ) :
    AEStronglyMeasurable (hamiltonian ψ (coulomb eiSoft eeSoft R Z)) := by
  unfold hamiltonian
  exact ((Finset.aestronglyMeasurable_fun_sum _ fun i _ =>
    Finset.aestronglyMeasurable_fun_sum _ fun k _ => m2 i k).const_mul _).add
    ((measurable_coulomb eiSoft eeSoft R Z).aestronglyMeasurable.mul m0)

/-- Exponential bounds make `Hψ` square-integrable in three and more dimensions. -/
theorem integrable_hamiltonian_sq (hd : 3 ≤ d) {β C : ℝ} (hβ : 0 < β)
    (hb : Bounded R ψ β C) (m0 : AEStronglyMeasurable ψ volume)
    (m2 : ∀ i k, AEStronglyMeasurable (partial2 ψ i k) volume) (eiSoft eeSoft : ℝ) (Z : Fin m → ℝ) :
    AEStronglyMeasurable (hamiltonian ψ (coulomb eiSoft eeSoft R Z)) ∧
      Integrable fun x => hamiltonian ψ (coulomb eiSoft eeSoft R Z) x ^ 2 := by
  have hmeas := measurable_hamiltonian (R := R) m0 m2 eiSoft eeSoft Z
  refine ⟨hmeas, ?_⟩
  refine ((integrable_singSq (N := N) (R := R) hd (show 0 < 2 * β by positivity)).const_mul
    ((1 / 2 * (N * d * C) +
        ((∑ p : Fin N × Fin m, |Z p.2|) + (pairs N).card + |coulombII R Z|) * C) ^ 2)).mono' ?_ ?_
  · exact hmeas.pow 2
  · filter_upwards [ae_good (N := N) (by omega) R] with x hx
    rw [Real.norm_eq_abs, abs_of_nonneg (sq_nonneg _), ← sq_abs]
    refine (pow_le_pow_left₀ (abs_nonneg _) (abs_hamiltonian_le hb eiSoft eeSoft Z hx) 2).trans
      (le_of_eq ?_)
    rw [mul_assoc 2 β, ← exp_sq]
    ring

/-- The second moment of the local energy is that of `Hψ`, and its variance is the variance of the
energy. -/
theorem expect_sq (h : WaveFunction ψ (partial1 ψ) (partial2 ψ)) {V : Pos N d → ℝ}
    (h2 : Integrable fun x => hamiltonian ψ V x ^ 2) :
    FiniteExpect ψ (fun x => (kineticLaplacian (logAbs ψ) x + V x) ^ 2) ∧
      expect ψ (fun x => (kineticLaplacian (logAbs ψ) x + V x - rayleigh ψ V) ^ 2) =
        energyVariance ψ V := by
  have key : ∀ᵐ x, ∀ c, ψ x ^ 2 * (kineticLaplacian (logAbs ψ) x + V x - c) ^ 2 =
      (hamiltonian ψ V x - c * ψ x) ^ 2 := by
    filter_upwards [ae_partials h] with x hx c
    have : ψ x * (kineticLaplacian (logAbs ψ) x + V x) = hamiltonian ψ V x := by
      unfold kineticLaplacian hamiltonian
      simp only [(hx.2 _ _).2, ← Finset.sum_div]
      have := hx.1
      field_simp
    rw [← this]
    ring
  constructor
  · rw [finiteExpect_iff h]
    refine h2.congr ?_
    filter_upwards [key] with x hx
    simpa using (hx 0).symm
  · rw [expect_eq h, energyVariance]
    congr 1
    refine integral_congr_ae ?_
    filter_upwards [key] with x hx using hx _

/-- C95: the variance of the energy is zero for eigenfunctions of `H` and for no other wave
function. -/
theorem energyVariance_eq_zero_iff (h : WaveFunction ψ (partial1 ψ) (partial2 ψ)) {V : Pos N d → ℝ}
    (h2 : Integrable fun x => hamiltonian ψ V x ^ 2) (hm : AEStronglyMeasurable (hamiltonian ψ V)) :
    energyVariance ψ V = 0 ↔ ∀ᵐ x, hamiltonian ψ V x = rayleigh ψ V * ψ x := by
  have hn := norm_ne_zero h
  have hi : Integrable fun x => (hamiltonian ψ V x - rayleigh ψ V * ψ x) ^ 2 := by
    have m1 : MemLp (hamiltonian ψ V) 2 := (memLp_two_iff_integrable_sq hm).mpr h2
    have m2 : MemLp (fun x => rayleigh ψ V * ψ x) 2 :=
      ((memLp_two_iff_integrable_sq h.measurable).mpr h.normalisable).const_mul _
    exact (memLp_two_iff_integrable_sq (m1.sub m2).1).mp (m1.sub m2)
  unfold energyVariance
  rw [div_eq_zero_iff, or_iff_left hn, integral_eq_zero_iff_of_nonneg (fun _ => sq_nonneg _) hi]
  refine eventually_congr (.of_forall fun x => ?_)
  simp only [Pi.zero_apply, pow_eq_zero_iff two_ne_zero, sub_eq_zero]

end

section configured

variable {K nion d : ℕ} {n : Fin (K + 1) → ℕ} {R : Fin nion → Fin d → ℝ}
  (c : ModelCfg) (charges : Fin nion → ℝ) (dtype : ℕ)
  (m : Model nion) (hm : getModelFromConfig c (counts n) R charges dtype = .ok m)
  (P : Params (K + 1) nion d) (v : Stream1 n d → SL) (hv : ∀ q, m.apply P R q = .ok (v q))
  (nonzero : Stream1 n d → Prop) (ψ : Stream1 n d → ℝ)
  (hψ : ∀ q, ModelValue c P R charges q (nonzero q) (ψ q))
  (f : Pos (∑ s, n s) d → ℝ)
  (hf : ∀ y, (v (splitPositions y)).2.isFin → (v (splitPositions y)).2 = .fin (f y))
  (hc : Decays c P charges n)

section moment

variable {q : Pos (∑ s, n s) d} (hq : Good R q) (h0 : ψ (splitPositions q) ≠ 0)

include hc hψ hq h0 in
/-- `Hψ` of a configured wave function is square-integrable. -/
theorem configured_hamiltonian_sq (hd : 3 ≤ d) (eiSoft eeSoft : ℝ) :
    AEStronglyMeasurable (hamiltonian (fun y => ψ (splitPositions y))
      (coulomb eiSoft eeSoft R charges)) ∧
    Integrable fun x => hamiltonian (fun y => ψ (splitPositions y))
      (coulomb eiSoft eeSoft R charges) x ^ 2 := by
  obtain ⟨β, C, hβ, -, hb⟩ := configured_decay hc hψ
  obtain ⟨hw, -, -⟩ := configured_wave_function (by omega) hc hψ hq h0
  refine integrable_hamiltonian_sq hd hβ hb hw.measurable (fun i k => ?_) eiSoft eeSoft charges
  have hs : ContDiff ℝ ⊤ (splitPositions : Pos (∑ s, n s) d → Stream1 n d) := by
    unfold splitPositions
    exact contDiff_pi.mpr fun e => contDiff_apply ℝ _ _
  have hω : ∀ x, Good R x → ContDiffAt ℝ ω (fun y => ψ (splitPositions y)) x := fun x hx =>
    (configured_value_smooth hψ (smooth_place_of_decays hc hx)).comp x hs.contDiffAt
  exact aestronglyMeasurable_of_good (by omega) fun x hx => by
    rw [funext fun x => partial2_eq (ψ := fun y => ψ (splitPositions y)) (i := i) (k := k) x]
    exact (partial1_smooth (n := ω) (partial1_smooth (n := ω) hω i k) i k x hx).continuousAt

include hc hψ hq h0 in
/-- C95: the variance of the energy of a configured wave function is zero if it is an eigenfunction
of `H`, and only then. -/
theorem configured_variance_eq_zero_iff (hd : 3 ≤ d) (eiSoft eeSoft : ℝ) :
    energyVariance (fun y => ψ (splitPositions y)) (coulomb eiSoft eeSoft R charges) = 0 ↔
      ∃ E, ∀ᵐ x : Pos (∑ s, n s) d, hamiltonian (fun y => ψ (splitPositions y))
        (coulomb eiSoft eeSoft R charges) x = E * ψ (splitPositions x) := by
  obtain ⟨hw, hei, hee⟩ := configured_wave_function (by omega) hc hψ hq h0
  obtain ⟨h1, h2⟩ := configured_hamiltonian_sq c charges P nonzero ψ hψ hc hq h0 hd eiSoft eeSoft
  rw [energyVariance_eq_zero_iff hw h2 h1]
  refine ⟨fun h => ⟨_, h⟩, fun ⟨E, h⟩ => ?_⟩
  obtain ⟨-, h3⟩ := expect_standard hw eiSoft eeSoft R charges (hei eiSoft) (hee eeSoft)
  rw [expect_eq hw] at h3
  have hE : rayleigh (fun y => ψ (splitPositions y)) (coulomb eiSoft eeSoft R charges) = E := by
    rw [← h3, div_eq_iff (norm_ne_zero hw), ← integral_const_mul]
    refine integral_congr_ae ?_
    filter_upwards [ae_partials hw, h] with x hx hE
    have : ψ (splitPositions x) * (kineticLaplacian (logAbs fun y => ψ (splitPositions y)) x +
        coulomb eiSoft eeSoft R charges x) = hamiltonian (fun y => ψ (splitPositions y))
        (coulomb eiSoft eeSoft R charges) x := by
      unfold kineticLaplacian hamiltonian
      simp only [(hx.2 _ _).2, ← Finset.sum_div]
      have := hx.1
      field_simp
    rw [sq, mul_assoc, this, hE]
    ring
  rwa [hE]

include hm hv hψ hf hc hq h0

/-- C95: the standard local energy of a configured model has a finite second moment, its mean is the
energy `E` of the wave function and its variance is `∫ |Hψ - Eψ|² / ∫ |ψ|²`. -/
theorem configured_energy_variance (hd : 3 ≤ d) (hR : Distinct R) {κ : Type}
    (permutation : κ → Equiv.Perm (Fin (∑ s, n s))) (ibpParts sampleParts : List String) (b : ℕ)
    (eiSoft eeSoft : ℝ) :
    ∃ E, ∃ e : Pos (∑ s, n s) d → ℝ,
      assembleMolLocalEnergy permutation "standard" ibpParts b sampleParts R charges eiSoft eeSoft f
        = some E ∧
      (∀ᵐ x, ∀ key, E x key = .fin (e x)) ∧
      FiniteExpect (fun y => ψ (splitPositions y)) e ∧
      FiniteExpect (fun y => ψ (splitPositions y)) (fun x => e x ^ 2) ∧
      expect (fun y => ψ (splitPositions y)) e =
        rayleigh (fun y => ψ (splitPositions y)) (coulomb eiSoft eeSoft R charges) ∧
      expect (fun y => ψ (splitPositions y)) (fun x => (e x -
          rayleigh (fun y => ψ (splitPositions y)) (coulomb eiSoft eeSoft R charges)) ^ 2) =
        energyVariance (fun y => ψ (splitPositions y)) (coulomb eiSoft eeSoft R charges) := by
  obtain ⟨hw, hei, hee⟩ := configured_wave_function (by omega) hc hψ hq h0
  obtain ⟨h1, h2⟩ := expect_standard hw eiSoft eeSoft R charges (hei eiSoft) (hee eeSoft)
  obtain ⟨h3, h4⟩ := expect_sq hw
    (configured_hamiltonian_sq c charges P nonzero ψ hψ hc hq h0 hd eiSoft eeSoft).2
  refine ⟨_, _, by unfold assembleMolLocalEnergy; rw [if_pos rfl], ?_, h1, h3, h2, h4⟩
  filter_upwards [ae_good (by omega) R, hw.ne_zero] with x hx hne key
  obtain ⟨E, hE, h⟩ := standard_energy_terms permutation ibpParts sampleParts b R charges eiSoft
    eeSoft f x key ⟨.inr hx.2, .inr hx.1, hR⟩
  unfold assembleMolLocalEnergy at hE
  rw [if_pos rfl] at hE
  obtain rfl := Option.some.inj hE
  rw [h]
  have hl := configured_log_eq c charges dtype m hm P v hv nonzero ψ hψ f hf
    (smooth_place_of_decays hc hx) hne
  have : kineticLaplacian f x = kineticLaplacian (logAbs fun y => ψ (splitPositions y)) x := by
    unfold kineticLaplacian coordLaplacian
    simp only [partial1_congr hl, partial2_congr hl]
  rw [this, coulomb]
  congr 1
  ring

end moment

variable {ndev nbatch : ℕ} (hW : 2 ≤ ndev * nbatch)
  (pos : Fin ndev × Fin nbatch → Pos (∑ s, n s) d) (hgood : ∀ w, Good R (pos w))
  (h0 : ∀ w, ψ (splitPositions (pos w)) ≠ 0) (hR : Distinct R) {σ : ℝ} (hσ : σ ≠ 0)

include hm hv hψ hf hc hW hgood h0 hR hσ

/-- C95 for configured models which decay, with the standard local energy: the saved variance tends in
probability to the variance `∫ |Hψ - Eψ|² / ∫ |ψ|²` of the energy of the wave function. -/
theorem configured_evaluation_variance_converges (hd : 3 ≤ d) {κ : Type}
    (permutation : κ → Equiv.Perm (Fin (∑ s, n s))) (ibpParts sampleParts : List String) (b : ℕ)
    (eiSoft eeSoft : ℝ) (key : κ) (nburn : ℕ) {nsteps : ℕ} (hk : nsteps ≠ 0) {ε : ℝ} (hε : 0 < ε) :
    ∃ E, assembleMolLocalEnergy permutation "standard" ibpParts b sampleParts R charges eiSoft eeSoft f
        = some E ∧
      Tendsto (fun nepochs => ((Measure.pi fun _ : Fin nburn =>
          noiseLaw (positionNoise (∑ s, n s) d) (Fin ndev × Fin nbatch)).prod
        (Measure.pi fun _ : Fin nepochs => Measure.pi fun _ : Fin nsteps =>
          noiseLaw (positionNoise (∑ s, n s) d) (Fin ndev × Fin nbatch))).real
        {z | ¬EvaluatesVariance (fun x => E x key)
          (epochPositions true σ (fun y => (v (splitPositions y)).2) pos z.1 z.2)
          (energyVariance (fun y => ψ (splitPositions y)) (coulomb eiSoft eeSoft R charges)) ε})
        atTop (𝓝 0) := by
  have w : Fin ndev × Fin nbatch := ⟨⟨0, Nat.pos_of_ne_zero (by rintro rfl; omega)⟩,
    ⟨0, Nat.pos_of_ne_zero (by rintro rfl; omega)⟩⟩
  obtain ⟨hw, -, -⟩ := configured_wave_function (by omega) hc hψ (hgood w) (h0 w)
  obtain ⟨E, e, h1, h2, h3, h3', h4, h5⟩ := configured_energy_variance c charges dtype m hm P v hv
    nonzero ψ hψ f hf hc (hgood w) (h0 w) hd hR permutation ibpParts sampleParts b eiSoft eeSoft
  refine ⟨E, h1, ?_⟩
  rw [← h5, ← h4]
  refine evaluation_variance_converges volume _ (noise_positions _ _) true hσ
    hw.measurable.aemeasurable
    hw.ne_zero hw.normalisable (hw.ne_zero.mono fun y hy => configured_amplitude hm hv hψ hy)
    (h2.mono fun x hx => hx key) h3 h3' pos (fun w => configured_amplitude hm hv hψ (h0 w))
    (fun w => ?_) hW nburn hk hε
  obtain ⟨E', hE', h⟩ := standard_energy_terms permutation ibpParts sampleParts b R charges eiSoft
    eeSoft f (pos w) key ⟨.inr (hgood w).2, .inr (hgood w).1, hR⟩
  rw [h1] at hE'
  obtain rfl := Option.some.inj hE'
  exact ⟨_, h⟩

end configured

/-- Two walkers for helium, both started with the electrons at (1,1,1) and (2,2,2): whatever the
decay `a ≠ 0` of the orbitals, evaluations end with a variance within 1/1000 of the variance of the
energy of `exp (-|a r₁| - |a r₂|)` with a probability which tends to 1. -/
example (P : Params 2 1 3) (a : ℝ) (ha : a ≠ 0)
    (permutation : Unit → Equiv.Perm (Fin (∑ _ : Fin 2, 1))) :
    ∃ m : Model 1, getModelFromConfig {} (counts fun _ : Fin 2 => 1)
        (fun (_ : Fin 1) (_ : Fin 3) => (0 : ℝ)) (fun _ => 2) 32 = .ok m ∧
      ∃ f : (Fin (∑ _ : Fin 2, 1) → Fin 3 → ℝ) → ℝ,
        (∀ y, m.apply (heliumParams P a) (fun _ _ => 0) (splitPositions (n := fun _ : Fin 2 => 1) y) =
          .ok (.fin 1, .fin (f y))) ∧
        ∃ E, assembleMolLocalEnergy permutation "standard" [] 1 [] (fun (_ : Fin 1) _ => 0)
            (fun _ => 2) 0 0 f = some E ∧
          Tendsto (fun nepochs => ((Measure.pi fun _ : Fin 5000 =>
              noiseLaw (positionNoise (∑ _ : Fin 2, 1) 3) (Fin 1 × Fin 2)).prod
            (Measure.pi fun _ : Fin nepochs => Measure.pi fun _ : Fin 10 =>
              noiseLaw (positionNoise (∑ _ : Fin 2, 1) 3) (Fin 1 × Fin 2))).real
            {z | ¬EvaluatesVariance (fun x => E x ())
              (epochPositions true (1 / 4) (fun y => .fin (f y)) (fun _ e _ => (e.val + 1 : ℝ)) z.1 z.2)
              (energyVariance (heliumWave a) (coulomb 0 0 (fun (_ : Fin 1) _ => 0) fun _ => 2))
              (1 / 1000)})
            atTop (𝓝 0) := by
  obtain ⟨m, hm, nz, ψ, hψ, hval, hpos, hv⟩ := helium_model P a
  have hR : Distinct fun (_ : Fin 1) (_ : Fin 3) => (0 : ℝ) := fun i j h =>
    absurd (Subsingleton.elim i j) h
  refine ⟨m, hm, fun y => Real.log (ψ (splitPositions y)), fun y => hv _, ?_⟩
  obtain ⟨E, h1, h2⟩ := configured_evaluation_variance_converges {} _ _ m hm _ _ hv nz ψ hψ
    (fun y => Real.log (ψ (splitPositions y))) (fun _ _ => rfl) (helium_decays P ha)
    (ndev := 1) (nbatch := 2) (by norm_num) (fun _ e _ => (e.val + 1 : ℝ)) (fun _ => helium_good)
    (fun _ => (hpos _).ne') hR (σ := 1 / 4) (by norm_num)
    (by norm_num) permutation [] [] 1 0 0 () 5000 (nsteps := 10) (by norm_num) (ε := 1 / 1000)
    (by norm_num)
  rw [show (fun y => ψ (splitPositions y)) = heliumWave a from funext hval] at h2
  exact ⟨E, h1, h2⟩

/-- The variance for helium with such orbitals is zero only if they make an eigenfunction. -/
example (P : Params 2 1 3) (a : ℝ) (ha : a ≠ 0) :
    energyVariance (heliumWave a) (coulomb 0 0 (fun (_ : Fin 1) _ => 0) fun _ => 2) = 0 ↔
      ∃ E, ∀ᵐ x, hamiltonian (heliumWave a) (coulomb 0 0 (fun (_ : Fin 1) _ => 0) fun _ => 2) x =
        E * heliumWave a x := by
  obtain ⟨m, hm, nz, ψ, hψ, hval, hpos, hv⟩ := helium_model P a
  have := configured_variance_eq_zero_iff {} _ _ nz ψ hψ (helium_decays P ha) helium_good
    (hpos _).ne' (by norm_num) 0 0
  rw [show (fun y => ψ (splitPositions y)) = heliumWave a from funext hval] at this
  simpa only [hval] using this

end Verif.Props
