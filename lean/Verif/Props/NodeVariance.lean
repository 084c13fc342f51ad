import Verif.Lemmas.Node
import Verif.Props.EvalVariance

/-!
# C97: kinetic energies integrated by parts and nodes

With `|∇ψ|²/2ψ²` in place of `-∇²ψ/2ψ` (`create_gradient_squared_kinetic_energy`, `vmcnet/physics/ibp.py`) the
local energy grows like the inverse square of the distance from a node of the wave function.  Its mean
is still the energy, but its second moment is infinite, so that the variance saved by an evaluation
(`vmcnet/mcmc/statistics.py`) grows beyond all bounds.
-/

namespace Verif.Props
open Verif.Construct Verif.Net Verif.Spec Verif.Slog Verif.Decay Verif.Phys Verif.Ibp MeasureTheory
open Verif.Stat Verif.Ergodic Verif.Energy
open Filter Topology
open scoped ContDiff

section general

variable {X : Type} [NormedAddCommGroup X] [NormedSpace ℝ X] [MeasurableSpace X] [BorelSpace X]
  [FiniteDimensional ℝ X] {ndev nbatch : ℕ}

/-- The outcome of an evaluation: all local energies which it records are finite, it saves
statistics, and the variance in them is greater than `M`. -/
def VarianceExceeds (E : X → XR) {n : ℕ} (x : Fin n → Fin ndev × Fin nbatch → X) (M : ℝ) : Prop :=
  ∃ r : Fin ndev → Fin n → Fin nbatch → ℝ, (∀ g t b, E (x t (g, b)) = .fin (r g t b)) ∧
    ∃ s a, finishEvaluation true (energyRows n r) = .ok (some s) ∧ s.variance = .fin a ∧ M < a

/-- Squares cut off at large enough values have large means if the second moment is infinite. -/
theorem exists_cutoff {Ω : Type*} [MeasurableSpace Ω] {π : Measure Ω} [IsFiniteMeasure π] {e : Ω → ℝ}
    (he : AEStronglyMeasurable e π) (h2 : ¬Integrable (fun x => e x ^ 2) π) (B : ℝ) :
    ∃ T : ℕ, Integrable (fun x => min (e x ^ 2) T) π ∧ B < ∫ x, min (e x ^ 2) T ∂π := by
  have hm : ∀ T : ℕ, AEStronglyMeasurable (fun x => min (e x ^ 2) (T : ℝ)) π := fun T =>
    ((he.pow 2).aemeasurable.min aemeasurable_const).aestronglyMeasurable
  have hi : ∀ T : ℕ, Integrable (fun x => min (e x ^ 2) (T : ℝ)) π := fun T =>
    Integrable.of_bound (hm T) T (.of_forall fun x => by
      rw [Real.norm_eq_abs, abs_of_nonneg (le_min (sq_nonneg _) (Nat.cast_nonneg _))]
      exact min_le_right _ _)
  by_contra hcon
  push Not at hcon
  have hle := fun T => hcon T (hi T)
  apply h2
  refine ⟨he.pow 2, ?_⟩
  rw [hasFiniteIntegral_iff_ofReal (.of_forall fun x => sq_nonneg _)]
  have hsup : ∀ x, ENNReal.ofReal (e x ^ 2) = ⨆ T : ℕ, ENNReal.ofReal (min (e x ^ 2) T) := by
    intro x
    refine le_antisymm ?_ (iSup_le fun T => ENNReal.ofReal_le_ofReal (min_le_left _ _))
    obtain ⟨T, hT⟩ := exists_nat_ge (e x ^ 2)
    refine le_iSup_of_le T ?_
    rw [min_eq_left hT]
  have hmc : ∫⁻ x, ENNReal.ofReal (e x ^ 2) ∂π = ⨆ T : ℕ, ∫⁻ x, ENNReal.ofReal (min (e x ^ 2) T) ∂π := by
    simp only [hsup]
    refine lintegral_iSup' (fun T => (hm T).aemeasurable.ennreal_ofReal) (.of_forall fun x => ?_)
    intro a b hab
    exact ENNReal.ofReal_le_ofReal (min_le_min le_rfl (by exact_mod_cast hab))
  rw [hmc]
  refine lt_of_le_of_lt (iSup_le fun T => ?_) (ENNReal.ofReal_lt_top (r := B))
  rw [← ofReal_integral_eq_lintegral_ofReal (hi T)
    (.of_forall fun x => le_min (sq_nonneg _) (Nat.cast_nonneg _))]
  exact ENNReal.ofReal_le_ofReal (hle T)

theorem varianceOf_large {W : Type} [Fintype W] [Nonempty W] {a b : W → ℝ} {A B : ℝ}
    (ha : ∀ w, |a w - A| < 1) (hb : ∀ w, B < b w) : B - (|A| + 1) ^ 2 < varianceOf a b := by
  have hc : (0 : ℝ) < Fintype.card W := by exact_mod_cast Fintype.card_pos
  have hc1 : (1 : ℝ) ≤ Fintype.card W := by exact_mod_cast Fintype.card_pos
  have h1 : B < (∑ w, b w) / Fintype.card W := by
    rw [lt_div_iff₀ hc]
    calc B * Fintype.card W = ∑ _ : W, B := by simp [mul_comm]
      _ < _ := Finset.sum_lt_sum_of_nonempty Finset.univ_nonempty fun w _ => hb w
  have h2 : |(∑ w, a w) / Fintype.card W| ≤ |A| + 1 := by
    rw [abs_div, abs_of_pos hc, div_le_iff₀ hc]
    calc |∑ w, a w| ≤ ∑ w, |a w| := Finset.abs_sum_le_sum_abs _ _
      _ ≤ ∑ _ : W, (|A| + 1) := Finset.sum_le_sum fun w _ => by
        have := ha w
        have h3 := abs_sub_abs_le_abs_sub (a w) A
        linarith
      _ = _ := by rw [Finset.sum_const, Finset.card_univ, nsmul_eq_mul, mul_comm]
  have h3 : ((∑ w, a w) / Fintype.card W) ^ 2 ≤ (|A| + 1) ^ 2 := by
    rw [← sq_abs]
    exact pow_le_pow_left₀ (abs_nonneg _) h2 2
  unfold varianceOf
  have h4 : 0 ≤ (∑ w, (a w - (∑ w, a w) / Fintype.card W) ^ 2) / ((Fintype.card W : ℝ) - 1) /
      Fintype.card W :=
    div_nonneg (div_nonneg (Finset.sum_nonneg fun w _ => sq_nonneg _) (by linarith)) hc.le
  linarith

/-- C97.  If the local energy has a finite mean but an infinite second moment, the variance which an
evaluation saves exceeds every bound with a probability which tends to 1 as the number of epochs grows. -/
theorem evaluation_variance_diverges (vol G : Measure X) [vol.IsAddHaarMeasure] (hG : Noise vol G)
    (logabs : Bool) {σ : ℝ} (hσ : σ ≠ 0) {amp E : X → XR} {ψ e : X → ℝ} (hm : AEMeasurable ψ vol)
    (h0 : ∀ᵐ x ∂vol, ψ x ≠ 0) (hn : Integrable (fun x => ψ x ^ 2) vol)
    (hamp : ∀ᵐ x ∂vol, amp x = amplitudes logabs ψ x) (hE : ∀ᵐ x ∂vol, E x = .fin (e x))
    (he : Integrable e (born vol ψ)) (he2 : ¬Integrable (fun x => e x ^ 2) (born vol ψ))
    (pos : Fin ndev × Fin nbatch → X)
    (hpos : ∀ w, amp (pos w) = amplitudes logabs ψ (pos w))
    (hEpos : ∀ w, ∃ r, E (pos w) = .fin r) (hW : 2 ≤ ndev * nbatch) (m : ℕ) {k : ℕ}
    (hk : k ≠ 0) (M : ℝ) :
    Tendsto (fun n => ((Measure.pi fun _ : Fin m => noiseLaw G (Fin ndev × Fin nbatch)).prod
        (Measure.pi fun _ : Fin n => Measure.pi fun _ : Fin k =>
          noiseLaw G (Fin ndev × Fin nbatch))).real
      {z | ¬VarianceExceeds E (epochPositions logabs σ amp pos z.1 z.2) M}) atTop (𝓝 0) := by
  have hprob := born_probability vol h0 hn
  have hlaw := hG.law (W := Fin ndev × Fin nbatch)
  have hne : Nonempty (Fin ndev × Fin nbatch) := by
    rw [← Fintype.card_pos_iff]
    simp only [Fintype.card_prod, Fintype.card_fin]
    omega
  set A := ∫ x, e x ∂(born vol ψ) with hA
  obtain ⟨T, hTi, hT⟩ := exists_cutoff he.1 he2 (M + 1 + (|A| + 1) ^ 2)
  have l1 := fun w => walker_average_converges vol G hG logabs hσ hm h0 hn hamp hE he.1 pos hpos
    hEpos w (φ := fun u => u) measurable_id he m hk one_pos
  have l2 := fun w => walker_average_converges vol G hG logabs hσ hm h0 hn hamp hE he.1 pos hpos
    hEpos w (φ := fun u => min (u ^ 2) T) (by fun_prop) hTi m hk one_pos
  have hsum := tendsto_finsetSum Finset.univ fun (w : Fin ndev × Fin nbatch) _ => (l1 w).add (l2 w)
  simp only [add_zero, Finset.sum_const_zero] at hsum
  refine squeeze_zero' (.of_forall fun n => measureReal_nonneg) ?_ hsum
  filter_upwards [eventually_ge_atTop 2] with n hn2
  have hμ : IsProbabilityMeasure ((Measure.pi fun _ : Fin m =>
      noiseLaw G (Fin ndev × Fin nbatch)).prod (Measure.pi fun _ : Fin n =>
        Measure.pi fun _ : Fin k => noiseLaw G (Fin ndev × Fin nbatch))) := inferInstance
  generalize ((Measure.pi fun _ : Fin m => noiseLaw G (Fin ndev × Fin nbatch)).prod
        (Measure.pi fun _ : Fin n => Measure.pi fun _ : Fin k =>
          noiseLaw G (Fin ndev × Fin nbatch))) = μ at hμ ⊢
  refine le_trans (measureReal_mono (fun z hz => ?_)) ((measureReal_iUnion_fintype_le
    fun w => {z | ¬WalkerAverage E (epochPositions logabs σ amp pos z.1 z.2) w (fun u => u)
        (∫ x, e x ∂(born vol ψ)) 1} ∪
      {z | ¬WalkerAverage E (epochPositions logabs σ amp pos z.1 z.2) w (fun u => min (u ^ 2) T)
        (∫ x, min (e x ^ 2) T ∂(born vol ψ)) 1}).trans
    (Finset.sum_le_sum fun w _ => measureReal_union_le _ _))
  by_contra hz'
  simp only [Set.mem_iUnion, Set.mem_union, Set.mem_ofPred_eq, not_exists, not_or, not_not] at hz'
  refine hz ?_
  obtain ⟨w₀⟩ := hne
  obtain ⟨⟨r, hr, -⟩, -⟩ := hz' w₀
  have huniq : ∀ r' : Fin ndev → Fin n → Fin nbatch → ℝ,
      (∀ g t b, E (epochPositions logabs σ amp pos z.1 z.2 t (g, b)) = .fin (r' g t b)) → r' = r :=
    fun r' hr' => funext fun g => funext fun t => funext fun b =>
      XR.fin_inj.mp ((hr' g t b).symm.trans (hr g t b))
  obtain ⟨s, hs1, -, hs2⟩ := evaluation_statistics_partial r hn2 hW
  refine ⟨r, hr, s, _, hs1, hs2, ?_⟩
  rw [saved_variance_eq r (by omega) (by omega)]
  have := Nonempty.intro w₀
  have hn0 : (0 : ℝ) < n := by exact_mod_cast (by omega : 0 < n)
  have key := varianceOf_large (W := Fin ndev × Fin nbatch) (A := A) (B := M + (|A| + 1) ^ 2)
    (a := fun w => (∑ t, r w.1 t w.2) / n) (b := fun w => (∑ t, r w.1 t w.2 ^ 2) / n)
    (fun w => by
      obtain ⟨⟨r', hr', h⟩, -⟩ := hz' w
      rwa [huniq r' hr'] at h)
    (fun w => by
      obtain ⟨-, r', hr', h⟩ := hz' w
      rw [huniq r' hr', abs_lt] at h
      have h3 : (∑ t, min (r w.1 t w.2 ^ 2) (T : ℝ)) / n ≤ (∑ t, r w.1 t w.2 ^ 2) / n := by
        gcongr with t
        exact min_le_left _ _
      linarith [h.1])
  linarith

end general

section node

variable {N m d : ℕ} {R : Fin m → Fin d → ℝ} {ψ : Pos N d → ℝ}

/-- A place where particles are apart and where the wave function changes sign with a slope. -/
structure RegularNode (R : Fin m → Fin d → ℝ) (ψ : Pos N d → ℝ) (q : Pos N d) : Prop where
  good : Good R q
  zero : ψ q = 0
  slope : ∃ i k, partial1 ψ i k q ≠ 0

theorem RegularNode.fderiv_ne {q : Pos N d} (hn : RegularNode R ψ q) (hd : DifferentiableAt ℝ ψ q) :
    fderiv ℝ ψ q ≠ 0 := by
  obtain ⟨i, k, h⟩ := hn.slope
  intro h0
  rw [partial1_eq hd i k, h0] at h
  simp at h

theorem contDiffAt_softDist {E : Type*} [NormedAddCommGroup E] [NormedSpace ℝ E] (s : ℝ)
    {a b : E → Fin d → ℝ} {x : E} (ha : ContDiffAt ℝ ω a x) (hb : ContDiffAt ℝ ω b x)
    (h : a x ≠ b x) : ContDiffAt ℝ ω (fun y => softDist s (a y) (b y)) x := by
  unfold softDist
  have hc : ∀ l, ContDiffAt ℝ ω (fun y => (a y l - b y l) ^ 2) x := fun l =>
    ((contDiffAt_pi.mp ha l).sub (contDiffAt_pi.mp hb l)).pow 2
  refine ContDiffAt.sqrt ((ContDiffAt.sum fun l _ => hc l).add contDiffAt_const) ?_
  obtain ⟨l, hl⟩ := Function.ne_iff.mp h
  have h1 : 0 < (a x l - b x l) ^ 2 := by
    have := sub_ne_zero.mpr hl
    positivity
  have h2 : (a x l - b x l) ^ 2 ≤ ∑ l, (a x l - b x l) ^ 2 :=
    Finset.single_le_sum (f := fun l => (a x l - b x l) ^ 2) (fun l _ => sq_nonneg _)
      (Finset.mem_univ l)
  have h3 : 0 ≤ s ^ 2 := sq_nonneg s
  linarith

theorem softDist_pos (s : ℝ) {a b : Fin d → ℝ} (h : a ≠ b) : 0 < softDist s a b :=
  lt_of_lt_of_le (norm_pos_iff.mpr (sub_ne_zero.mpr h)) (norm_sub_le_softDist s a b)

theorem contDiffAt_position (i : Fin N) (x : Pos N d) : ContDiffAt ℝ ω (fun y : Pos N d => y i) x :=
  (contDiff_apply ℝ _ i).contDiffAt

theorem coneEI_smooth (s : ℝ) (Z : Fin m → ℝ) (x : Pos N d) (hx : Good R x) :
    ContDiffAt ℝ ω (coneEI s R Z) x := by
  unfold coneEI
  exact (ContDiffAt.sum fun p _ => contDiffAt_const.mul
    (contDiffAt_softDist s (contDiffAt_position p.1 x) contDiffAt_const (hx.2 p.1 p.2))).neg

theorem coneEE_smooth (s : ℝ) (x : Pos N d) (hx : Good R x) : ContDiffAt ℝ ω (coneEE s) x := by
  unfold coneEE
  refine ContDiffAt.sum fun p hp => ?_
  have hne : x p.1 ≠ x p.2 := hx.1 _ _ (by
    simp only [pairs, Finset.mem_filter, Finset.mem_univ, true_and] at hp
    exact hp.ne)
  exact (contDiffAt_softDist s (contDiffAt_position p.1 x) (contDiffAt_position p.2 x) hne).div_const 4

theorem coulombEI_continuousAt (s : ℝ) (Z : Fin m → ℝ) (x : Pos N d) (hx : Good R x) :
    ContinuousAt (coulombEI 1 s R Z) x := by
  unfold coulombEI
  refine (tendsto_finsetSum _ fun p _ => Tendsto.const_mul 1 ?_).neg
  exact (tendsto_const_nhds).div (contDiffAt_softDist s (contDiffAt_position p.1 x) contDiffAt_const
    (hx.2 p.1 p.2)).continuousAt (softDist_pos s (hx.2 p.1 p.2)).ne'

theorem coulombEE_continuousAt (s : ℝ) (x : Pos N d) (hx : Good R x) :
    ContinuousAt (coulombEE 1 s) x := by
  unfold coulombEE
  refine tendsto_finsetSum _ fun p hp => ?_
  have hne : x p.1 ≠ x p.2 := hx.1 _ _ (by
    simp only [pairs, Finset.mem_filter, Finset.mem_univ, true_and] at hp
    exact hp.ne)
  exact (tendsto_const_nhds).div (contDiffAt_softDist s (contDiffAt_position p.1 x)
    (contDiffAt_position p.2 x) hne).continuousAt (softDist_pos s hne).ne'

/-- The integrated-by-parts local energy (`ibp_energy_terms`). -/
noncomputable def ibpEnergy (parts : List String) (R : Fin m → Fin d → ℝ) (Z : Fin m → ℝ)
    (eiSoft eeSoft : ℝ) (f : Pos N d → ℝ) (x : Pos N d) : ℝ :=
  (if "kinetic" ∈ parts then kineticGradient f x else kineticLaplacian f x) +
    (if "ei" ∈ parts then ibpForm f (coneEI eiSoft R Z) x else coulombEI 1 eiSoft R Z x) +
    (if "ee" ∈ parts then ibpForm f (coneEE eeSoft) x else coulombEE 1 eeSoft x) + coulombII R Z

/-- A form times `ψ²`, in terms of derivatives of `ψ`. -/
theorem sq_mul_ibpForm {U : Pos N d → ℝ} {x : Pos N d} (h0 : ψ x ≠ 0)
    (h : ∀ i k, partial1 (logAbs ψ) i k x = partial1 ψ i k x / ψ x) :
    ψ x ^ 2 * ibpForm (logAbs ψ) U x =
      ψ x * (-2 * ∑ i, ∑ k, partial1 ψ i k x * partial1 U i k x) := by
  unfold ibpForm
  simp only [h, div_mul_eq_mul_div, ← Finset.sum_div]
  field_simp

theorem continuousAt_form {U : Pos N d → ℝ} (hψ : ∀ x, Good R x → ContDiffAt ℝ ω ψ x)
    (hU : ∀ x, Good R x → ContDiffAt ℝ ω U x) (x : Pos N d) (hx : Good R x) :
    ContinuousAt (fun x => -2 * ∑ i, ∑ k, partial1 ψ i k x * partial1 U i k x) x := by
  refine Tendsto.const_mul _ (tendsto_finsetSum _ fun i _ => tendsto_finsetSum _ fun k _ => ?_)
  exact (partial1_smooth (n := ω) hψ i k x hx).continuousAt.mul
    (partial1_smooth (n := ω) hU i k x hx).continuousAt

/-- Kinetic energies integrated by parts have infinite second moments if there is a regular node. -/
theorem ibp_second_moment_infinite (h : WaveFunction ψ (partial1 ψ) (partial2 ψ))
    (hψ : ∀ x, Good R x → ContDiffAt ℝ ω ψ x) {q : Pos N d} (hq : RegularNode R ψ q)
    {parts : List String} (hk : "kinetic" ∈ parts) (Z : Fin m → ℝ) (eiSoft eeSoft : ℝ)
    {e : Pos N d → ℝ} (he : ∀ᵐ x, e x = ibpEnergy parts R Z eiSoft eeSoft (logAbs ψ) x) :
    ¬FiniteExpect ψ (fun x => e x ^ 2) := by
  rw [finiteExpect_iff h]
  have hcψ := (hψ q hq.good).continuousAt
  -- `ψ²` times the energy
  obtain ⟨F, hF, hF0, hFe⟩ : ∃ F : Pos N d → ℝ, ContinuousAt F q ∧ 0 < F q ∧
      ∀ᵐ x, ψ x ^ 2 * e x = F x := by
    refine ⟨fun x => (1 / 2 * ∑ i, ∑ k, partial1 ψ i k x ^ 2) +
      (if "ei" ∈ parts then ψ x * (-2 * ∑ i, ∑ k, partial1 ψ i k x * partial1 (coneEI eiSoft R Z) i k x)
        else ψ x ^ 2 * coulombEI 1 eiSoft R Z x) +
      (if "ee" ∈ parts then ψ x * (-2 * ∑ i, ∑ k, partial1 ψ i k x * partial1 (coneEE eeSoft) i k x)
        else ψ x ^ 2 * coulombEE 1 eeSoft x) + ψ x ^ 2 * coulombII R Z, ?_, ?_, ?_⟩
    · refine ((ContinuousAt.add ?_ ?_).add ?_).add ((hcψ.pow 2).mul continuousAt_const)
      · exact Tendsto.const_mul _ (tendsto_finsetSum _ fun i _ => tendsto_finsetSum _ fun k _ =>
          ((partial1_smooth (n := ω) hψ i k q hq.good).continuousAt.pow 2))
      · split_ifs
        · exact hcψ.mul (continuousAt_form hψ (coneEI_smooth eiSoft Z) q hq.good)
        · exact (hcψ.pow 2).mul (coulombEI_continuousAt eiSoft Z q hq.good)
      · split_ifs
        · exact hcψ.mul (continuousAt_form hψ (coneEE_smooth eeSoft) q hq.good)
        · exact (hcψ.pow 2).mul (coulombEE_continuousAt eeSoft q hq.good)
    · obtain ⟨i, k, hik⟩ := hq.slope
      have h1 : 0 < partial1 ψ i k q ^ 2 := by positivity
      have h2 : partial1 ψ i k q ^ 2 ≤ ∑ k, partial1 ψ i k q ^ 2 :=
        Finset.single_le_sum (f := fun k => partial1 ψ i k q ^ 2) (fun _ _ => sq_nonneg _)
          (Finset.mem_univ k)
      have h3 : ∑ k, partial1 ψ i k q ^ 2 ≤ ∑ i, ∑ k, partial1 ψ i k q ^ 2 :=
        Finset.single_le_sum (f := fun i => ∑ k, partial1 ψ i k q ^ 2)
          (fun _ _ => Finset.sum_nonneg fun _ _ => sq_nonneg _) (Finset.mem_univ i)
      have h4 : 0 < 1 / 2 * ∑ i, ∑ k, partial1 ψ i k q ^ 2 := by linarith
      simp only [hq.zero, zero_mul, ne_eq, OfNat.ofNat_ne_zero, not_false_eq_true, zero_pow, ite_self,
        add_zero]
      exact h4
    · filter_upwards [he, ae_partials h] with x hx hp
      rw [hx, ibpEnergy, if_pos hk, mul_add, mul_add, mul_add]
      have h1 := fun i k => (hp.2 i k).1
      have h2 : ψ x ^ 2 * kineticGradient (logAbs ψ) x = 1 / 2 * ∑ i, ∑ k, partial1 ψ i k x ^ 2 := by
        unfold kineticGradient
        simp only [h1, div_pow, ← Finset.sum_div]
        have := hp.1
        field_simp
      rw [h2]
      simp only [mul_ite, sq_mul_ibpForm hp.1 h1]
  have hU := hF.eventually (isOpen_Ioi.mem_nhds (show F q / 2 < F q by linarith))
  refine Node.not_integrable_node volume ((hψ q hq.good).of_le (by simp)) hq.zero
    (hq.fderiv_ne ((hψ q hq.good).differentiableAt (by simp))) (half_pos hF0) hU ?_
  filter_upwards [hFe] with x hx hxU
  rw [hx]
  exact (le_of_lt hxU).trans (le_abs_self _)

end node

section configured

variable {K nion : ℕ} {n : Fin (K + 1) → ℕ} {R : Fin nion → Fin 3 → ℝ}
  (c : ModelCfg) (charges : Fin nion → ℝ) (dtype : ℕ)
  (m : Model nion) (hm : getModelFromConfig c (counts n) R charges dtype = .ok m)
  (P : Params (K + 1) nion 3) (v : Stream1 n 3 → SL) (hv : ∀ q, m.apply P R q = .ok (v q))
  (nonzero : Stream1 n 3 → Prop) (ψ : Stream1 n 3 → ℝ)
  (hψ : ∀ q, ModelValue c P R charges q (nonzero q) (ψ q))
  (f : Pos (∑ s, n s) 3 → ℝ)
  (hf : ∀ y, (v (splitPositions y)).2.isFin → (v (splitPositions y)).2 = .fin (f y))
  (hc : Decays c P charges n) (hR : Distinct R)
  {node : Pos (∑ s, n s) 3} (hnode : RegularNode R (fun y => ψ (splitPositions y)) node)

include hm hv hψ hf hc hR hnode

/-- C97: the local energy of a configured model with the kinetic energy integrated by parts has the
energy of the wave function as its mean, and an infinite second moment if there is a regular node. -/
theorem configured_ibp_variance_infinite {q : Pos (∑ s, n s) 3} (hq : Good R q)
    (h0 : ψ (splitPositions q) ≠ 0) {κ : Type} [Nonempty κ] (permutation : κ → Equiv.Perm (Fin (∑ s, n s)))
    {parts : List String} (hk : "kinetic" ∈ parts) (sampleParts : List String) (b : ℕ) :
    ∃ E, ∃ e : Pos (∑ s, n s) 3 → ℝ,
      assembleMolLocalEnergy permutation "ibp" parts b sampleParts R charges 0 0 f = some E ∧
      (∀ᵐ x, ∀ key, E x key = .fin (e x)) ∧
      FiniteExpect (fun y => ψ (splitPositions y)) e ∧
      expect (fun y => ψ (splitPositions y)) e =
        rayleigh (fun y => ψ (splitPositions y)) (coulomb 0 0 R charges) ∧
      ¬FiniteExpect (fun y => ψ (splitPositions y)) (fun x => e x ^ 2) := by
  obtain ⟨E, e, h1, h2, h3, h4⟩ := configured_ibp_expectation c charges dtype m hm P v hv nonzero ψ hψ
    f hf hc hq h0 hR permutation parts sampleParts b
  obtain ⟨hw, -, -⟩ := configured_wave_function (by norm_num) hc hψ hq h0
  refine ⟨E, e, h1, h2, h3, h4, ?_⟩
  have hs : ContDiff ℝ ⊤ (splitPositions : Pos (∑ s, n s) 3 → Stream1 n 3) := by
    unfold splitPositions
    exact contDiff_pi.mpr fun e => contDiff_apply ℝ _ _
  have hω : ∀ x, Good R x → ContDiffAt ℝ ω (fun y => ψ (splitPositions y)) x := fun x hx =>
    (configured_value_smooth hψ (smooth_place_of_decays hc hx)).comp x hs.contDiffAt
  have key := Classical.arbitrary κ
  refine ibp_second_moment_infinite hw hω hnode hk charges 0 0 ?_
  filter_upwards [ae_good (by norm_num) R, hw.ne_zero, h2] with x hx hne h2
  obtain ⟨E', hE', h⟩ := ibp_energy_terms permutation parts sampleParts b R charges 0 0 f x key
    ⟨.inr hx.2, .inr hx.1, hR⟩
  obtain rfl := Option.some.inj (h1.symm.trans hE')
  have hl := configured_log_eq c charges dtype m hm P v hv nonzero ψ hψ f hf
    (smooth_place_of_decays hc hx) hne
  rw [← XR.fin_inj.mp (h.symm.trans (h2 key))]
  simp only [ibpEnergy, kineticLaplacian, kineticGradient, ibpForm, coordLaplacian,
    partial1_congr hl, partial2_congr hl]

/-- C97 for configured models which decay, with the kinetic energy integrated by parts, without
softening in three dimensions: the saved average tends in probability to the energy of the wave
function, and the saved variance to infinity. -/
theorem configured_ibp_evaluation_variance_diverges {ndev nbatch : ℕ} (hW : 2 ≤ ndev * nbatch)
    (pos : Fin ndev × Fin nbatch → Pos (∑ s, n s) 3) (hgood : ∀ w, Good R (pos w))
    (h0 : ∀ w, ψ (splitPositions (pos w)) ≠ 0) {σ : ℝ} (hσ : σ ≠ 0) {κ : Type}
    (permutation : κ → Equiv.Perm (Fin (∑ s, n s))) {parts : List String} (hpart : "kinetic" ∈ parts)
    (sampleParts : List String) (b : ℕ) (key : κ) (nburn : ℕ) {nsteps : ℕ} (hk : nsteps ≠ 0) (M : ℝ) :
    ∃ E, assembleMolLocalEnergy permutation "ibp" parts b sampleParts R charges 0 0 f = some E ∧
      Tendsto (fun nepochs => ((Measure.pi fun _ : Fin nburn =>
          noiseLaw (positionNoise (∑ s, n s) 3) (Fin ndev × Fin nbatch)).prod
        (Measure.pi fun _ : Fin nepochs => Measure.pi fun _ : Fin nsteps =>
          noiseLaw (positionNoise (∑ s, n s) 3) (Fin ndev × Fin nbatch))).real
        {z | ¬VarianceExceeds (fun x => E x key)
          (epochPositions true σ (fun y => (v (splitPositions y)).2) pos z.1 z.2) M}) atTop (𝓝 0) := by
  have w : Fin ndev × Fin nbatch := ⟨⟨0, Nat.pos_of_ne_zero (by rintro rfl; omega)⟩,
    ⟨0, Nat.pos_of_ne_zero (by rintro rfl; omega)⟩⟩
  obtain ⟨hw, -, -⟩ := configured_wave_function (by norm_num) hc hψ (hgood w) (h0 w)
  have := Nonempty.intro key
  obtain ⟨E, e, h1, h2, h3, -, h4⟩ := configured_ibp_variance_infinite c charges dtype m hm P v hv
    nonzero ψ hψ f hf hc hR hnode (hgood w) (h0 w) permutation hpart sampleParts b
  refine ⟨E, h1, ?_⟩
  refine evaluation_variance_diverges volume _ (noise_positions _ _) true hσ
    hw.measurable.aemeasurable
    hw.ne_zero hw.normalisable (hw.ne_zero.mono fun y hy => configured_amplitude hm hv hψ hy)
    (h2.mono fun x hx => hx key) h3 h4 pos (fun w => configured_amplitude hm hv hψ (h0 w))
    (fun w => ?_) hW nburn hk M
  obtain ⟨E', hE', h⟩ := ibp_energy_terms permutation parts sampleParts b R charges 0 0 f (pos w) key
    ⟨.inr (hgood w).2, .inr (hgood w).1, hR⟩
  rw [h1] at hE'
  obtain rfl := Option.some.inj hE'
  exact ⟨_, h⟩

end configured

/-! ### An example: the hydrogen molecule with one electron in the antibonding orbital -/

/-- Two nuclei at (1,0,0) and (-1,0,0). -/
def protons (j : Fin 2) (k : Fin 3) : ℝ := if k = 0 then (if j = 0 then 1 else -1) else 0

/-- Orbitals with kernels 0, biases 1 and decays 1: the difference of two exponentials for the first
electron and their sum for the second. -/
def hydrogenParams (P : Params 2 2 3) : Params 2 2 3 :=
  { P with orbitals := fun _ _ =>
      ⟨fun _ _ _ => 0, fun _ _ => 1, fun _ _ => 1, fun _ _ _ _ _ => 0,
        fun s _ j => if s = 0 ∧ j = 1 then -1 else 1, 0, true, true⟩ }

/-- The first electron. -/
def electron₁ : Fin (∑ _ : Fin 2, 1) := finSigmaFinEquiv (⟨0, 0⟩ : Σ _ : Fin 2, Fin 1)

/-- The second electron. -/
def electron₂ : Fin (∑ _ : Fin 2, 1) := finSigmaFinEquiv (⟨1, 0⟩ : Σ _ : Fin 2, Fin 1)

theorem electron_ne : electron₁ ≠ electron₂ := fun h => by
  have := finSigmaFinEquiv.injective h
  simp at this

theorem electron_cases (e : Fin (∑ _ : Fin 2, 1)) : e = electron₁ ∨ e = electron₂ := by
  obtain ⟨⟨s, i⟩, rfl⟩ := finSigmaFinEquiv.surjective e
  obtain rfl := Subsingleton.elim i 0
  fin_cases s
  · exact .inl rfl
  · exact .inr rfl

/-- `(exp (-|r₁ - R₁|) - exp (-|r₁ - R₂|)) (exp (-|r₂ - R₁|) + exp (-|r₂ - R₂|))` -/
noncomputable def hydrogenWave (y : Pos (∑ _ : Fin 2, 1) 3) : ℝ :=
  (Real.exp (-Real.sqrt ((y electron₁ 0 - 1) ^ 2 + y electron₁ 1 ^ 2 + y electron₁ 2 ^ 2)) -
      Real.exp (-Real.sqrt ((y electron₁ 0 + 1) ^ 2 + y electron₁ 1 ^ 2 + y electron₁ 2 ^ 2))) *
    (Real.exp (-Real.sqrt ((y electron₂ 0 - 1) ^ 2 + y electron₂ 1 ^ 2 + y electron₂ 2 ^ 2)) +
      Real.exp (-Real.sqrt ((y electron₂ 0 + 1) ^ 2 + y electron₂ 1 ^ 2 + y electron₂ 2 ^ 2)))

theorem hydrogen_model (P : Params 2 2 3) :
    ∃ m : Model 2, getModelFromConfig {} (counts fun _ : Fin 2 => 1) protons (fun _ => 1) 32 = .ok m ∧
      ∃ (nz : Stream1 (fun _ : Fin 2 => 1) 3 → Prop) (ψ : Stream1 (fun _ : Fin 2 => 1) 3 → ℝ)
        (v : Stream1 (fun _ : Fin 2 => 1) 3 → SL),
        (∀ q, ModelValue {} (hydrogenParams P) protons (fun _ => 1) q (nz q) (ψ q)) ∧
        (∀ y, ψ (splitPositions y) = hydrogenWave y) ∧
        (∀ q, m.apply (hydrogenParams P) protons q = .ok (v q)) ∧
        ∀ y, hydrogenWave y ≠ 0 → v (splitPositions y) =
          (.fin (SignType.sign (hydrogenWave y)), .fin (logAbs hydrogenWave y)) := by
  let n : Fin 2 → ℕ := fun _ => 1
  obtain ⟨m, hm⟩ := (model_config_accepted_iff {} (counts n) protons (fun _ => 1) 32).mpr
    (by rw [counts_length]; exact default_acceptable "ferminet" (by simp))
  have hcall : ∀ pos : Stream1 n 3, ∃ v, m.apply (hydrogenParams P) protons pos = .ok v :=
    fun pos => (configured_model_callable_iff {} _ _ _ m hm ⟨rfl, fun _ => rfl⟩
    (fun _ => Nat.one_pos) (hydrogenParams P) pos).mpr (by
      left
      refine ⟨rfl, .inr (by simp), ?_⟩
      simp [Spec.PairsWithoutTwo])
  choose v hv using hcall
  choose nz ψ hψ hrep using fun pos =>
    configured_model_value {} _ _ _ m hm (hydrogenParams P) pos (v pos) (hv pos)
  have hval : ∀ y, ψ (splitPositions y) = hydrogenWave y := by
    intro y
    rcases model_value_inv (hψ (splitPositions y)) with
      ⟨-, N, D, hD, hr⟩ | ⟨h, -⟩ | ⟨h, -⟩ | ⟨h, -⟩ | ⟨h, -⟩
    · rcases fermi_dets_inv hD with ⟨-, _, z, -, hD⟩ | ⟨h, -⟩
      · obtain rfl : N = 1 := congrArg Sigma.fst hD
        obtain rfl := eq_of_heq (Sigma.mk.inj hD).2
        rcases combined_inv hr with ⟨-, h⟩ | ⟨h, -⟩ | ⟨h, -⟩ | ⟨h, -⟩
        · rw [h]
          have e0 : splitPositions y (⟨0, 0⟩ : Σ _ : Fin 2, Fin 1) = y electron₁ := rfl
          have e1 : splitPositions y (⟨1, 0⟩ : Σ _ : Fin 2, Fin 1) = y electron₂ := rfl
          simp [orbitalValue, envelopeValue, hydrogenParams, Fin.prod_univ_succ, Fin.sum_univ_succ, n,
            protons, hydrogenWave, e0, e1]
          simp only [add_assoc, sub_eq_add_neg]
        all_goals cases h
      · cases h
    all_goals simp at h
  have hrep' : ∀ y, hydrogenWave y ≠ 0 → v (splitPositions y) =
          (.fin (SignType.sign (hydrogenWave y)), .fin (logAbs hydrogenWave y)) := by
    intro y hy
    rw [← hval] at hy
    have := hrep _ (model_value_nonzero (hψ _) hy)
    rw [hval] at this
    unfold logAbs
    rcases this with ⟨h, h'⟩ | ⟨h, h'⟩ | ⟨h, -⟩
    · rw [h', _root_.sign_pos h, abs_of_pos h]
      simp
    · rw [h', _root_.sign_neg h, abs_of_neg h]
      simp
    · rw [hval] at hy
      exact absurd h hy
  exact ⟨m, hm, nz, ψ, v, hψ, hval, hv, hrep'⟩

theorem hydrogen_decays (P : Params 2 2 3) :
    Decays {} (hydrogenParams P) (fun _ => 1) fun _ : Fin 2 => 1 :=
  .inl ⟨.inl rfl, fun _ _ _ _ => one_ne_zero⟩

theorem protons_distinct : Distinct protons := by
  intro i j h h'
  have := congrFun h' 0
  fin_cases i <;> fin_cases j <;> simp_all [protons] <;> norm_num at this

/-- The first electron in the middle of the nuclei, the second at (0,1,0). -/
theorem hydrogen_node : RegularNode protons hydrogenWave
    fun e k => if e = electron₂ ∧ k = 1 then 1 else 0 := by
  refine ⟨⟨fun i j hij h => ?_, fun i j h => ?_⟩, ?_, electron₁, 0, ?_⟩
  · have := congrFun h 1
    rcases electron_cases i with rfl | rfl <;> rcases electron_cases j with rfl | rfl <;>
      simp [electron_ne] at this hij
  · have := congrFun h 0
    fin_cases j <;> simp [protons] at this
  · simp [hydrogenWave]
  · have h : (fun t => hydrogenWave (shift (fun e k => if e = electron₂ ∧ k = 1 then 1 else 0) electron₁ 0 t)) =ᶠ[𝓝 0]
        fun t => (Real.exp (t - 1) - Real.exp (-t - 1)) *
          (Real.exp (-Real.sqrt 2) + Real.exp (-Real.sqrt 2)) := by
      filter_upwards [Ioo_mem_nhds (show (-1 : ℝ) < 0 by norm_num) (show (0 : ℝ) < 1 by norm_num)]
        with t ht
      have h1 : Real.sqrt ((t - 1) ^ 2) = 1 - t := by
        rw [Real.sqrt_sq_eq_abs, abs_of_neg (by linarith [ht.2])]
        ring
      have h2 : Real.sqrt ((t + 1) ^ 2) = t + 1 := Real.sqrt_sq (by linarith [ht.1])
      simp [hydrogenWave, shift, h1, h2, electron_ne, electron_ne.symm]
      rw [show (1 : ℝ) + 1 = 2 by norm_num, show -1 + -t = -t - 1 by ring]
    rw [partial1, h.deriv_eq]
    have h1 : HasDerivAt (fun t : ℝ => (Real.exp (t - 1) - Real.exp (-t - 1)) *
          (Real.exp (-Real.sqrt 2) + Real.exp (-Real.sqrt 2)))
        ((Real.exp (0 - 1) * 1 - Real.exp (-0 - 1) * (-1)) *
          (Real.exp (-Real.sqrt 2) + Real.exp (-Real.sqrt 2))) 0 :=
      ((((hasDerivAt_id (0 : ℝ)).sub_const 1).exp).sub
        (((hasDerivAt_id (0 : ℝ)).neg.sub_const 1).exp)).mul_const _
    rw [h1.deriv]
    have := Real.exp_pos (0 - 1)
    have := Real.exp_pos (-0 - 1)
    have := Real.exp_pos (-Real.sqrt 2)
    have : 0 < Real.exp (0 - 1) * 1 - Real.exp (-0 - 1) * (-1) := by linarith
    positivity

theorem hydrogen_good : Good protons
    fun (e : Fin (∑ _ : Fin 2, 1)) _ => (e.val + 2 : ℝ) := by
  refine ⟨fun i j hij h => hij (Fin.ext ?_), fun i I h => ?_⟩
  · have := congrFun h 0
    simpa using this
  · have := congrFun h 1
    simp only [protons] at this
    have : (i.val : ℝ) + 2 ≠ 0 := by positivity
    simp_all

theorem hydrogen_ne_zero : hydrogenWave (fun e _ => (e.val + 2 : ℝ)) ≠ 0 := by
  have h1 : Real.sqrt (9 : ℝ) < Real.sqrt 17 := Real.sqrt_lt_sqrt (by norm_num) (by norm_num)
  have h2 := Real.exp_lt_exp.mpr (neg_lt_neg h1)
  unfold hydrogenWave
  refine mul_ne_zero ?_ (by positivity)
  have h3 : ((electron₁.val : ℕ) : ℝ) = 0 := by
    simp [electron₁]
  simp only [h3]
  have e1 : ((0 : ℝ) + 2 - 1) ^ 2 + (0 + 2) ^ 2 + (0 + 2) ^ 2 = 9 := by norm_num
  have e2 : ((0 : ℝ) + 2 + 1) ^ 2 + (0 + 2) ^ 2 + (0 + 2) ^ 2 = 17 := by norm_num
  rw [e1, e2]
  exact (sub_pos.mpr h2).ne'

/-- Two walkers for the hydrogen molecule, both started with the electrons at (2,2,2) and (3,3,3), with
the default parts integrated by parts: the saved variance is more than a million with a probability
which tends to 1. -/
example (P : Params 2 2 3) (permutation : Unit → Equiv.Perm (Fin (∑ _ : Fin 2, 1))) :
    ∃ m : Model 2, getModelFromConfig {} (counts fun _ : Fin 2 => 1) protons (fun _ => 1) 32 = .ok m ∧
      ∃ v : (Stream1 (fun _ : Fin 2 => 1) 3) → SL,
        (∀ q, m.apply (hydrogenParams P) protons q = .ok (v q)) ∧
        (∀ y, hydrogenWave y ≠ 0 → v (splitPositions y) =
          (.fin (SignType.sign (hydrogenWave y)), .fin (logAbs hydrogenWave y))) ∧
        ∃ f, (∀ y, hydrogenWave y ≠ 0 → f y = logAbs hydrogenWave y) ∧
        ∃ E, assembleMolLocalEnergy permutation "ibp" ["kinetic", "ei", "ee"] 1 [] protons
            (fun _ => 1) 0 0 f = some E ∧
          Tendsto (fun nepochs => ((Measure.pi fun _ : Fin 5000 =>
              noiseLaw (positionNoise (∑ _ : Fin 2, 1) 3) (Fin 1 × Fin 2)).prod
            (Measure.pi fun _ : Fin nepochs => Measure.pi fun _ : Fin 10 =>
              noiseLaw (positionNoise (∑ _ : Fin 2, 1) 3) (Fin 1 × Fin 2))).real
            {z | ¬VarianceExceeds (fun x => E x ())
              (epochPositions true (1 / 4) (fun y => (v (splitPositions y)).2)
                (fun _ e _ => (e.val + 2 : ℝ)) z.1 z.2) 1000000}) atTop (𝓝 0) := by
  obtain ⟨m, hm, nz, ψ, v, hψ, hval, hv, hrep⟩ := hydrogen_model P
  have hfun : (fun y => ψ (splitPositions y)) = hydrogenWave := funext hval
  have hex : ∀ y : Pos (∑ _ : Fin 2, 1) 3, ∃ a, (v (splitPositions y)).2.isFin →
      (v (splitPositions y)).2 = .fin a := fun y => by
    cases (v (splitPositions y)).2 <;> simp [XR.isFin]
  choose f hf using hex
  refine ⟨m, hm, v, hv, hrep, f, fun y hy => ?_, ?_⟩
  · have := hf y (by rw [hrep y hy]; exact trivial)
    rw [hrep y hy] at this
    exact (XR.fin_inj.mp this).symm
  exact configured_ibp_evaluation_variance_diverges {} _ _ m hm _ _ hv nz ψ hψ
    f hf (hydrogen_decays P) protons_distinct (hfun ▸ hydrogen_node)
    (ndev := 1) (nbatch := 2) (by norm_num) (fun _ e _ => (e.val + 2 : ℝ)) (fun _ => hydrogen_good)
    (fun _ => by rw [hval]; exact hydrogen_ne_zero) (σ := 1 / 4) (by norm_num)
    permutation (by simp) [] 1 () 5000 (nsteps := 10) (by norm_num) 1000000

end Verif.Props
