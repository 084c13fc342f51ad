import Verif.Lemmas.Adaptive
import Verif.Props.Evaluation

/-!
C92: adjusting the step width from the acceptance of past moves does not leave `|psi|^2` invariant.
-/

namespace Verif.Props
open MeasureTheory ProbabilityTheory MCMC Spec Reversible Ergodic Filter Topology

section adaptive

variable {W : Type} [Fintype W] {X : Type} [AddCommGroup X] [Module ℝ X]

/-- One step with adjusted width (`dynamicStep`) with given draws. -/
noncomputable def adaptiveStep (logabs : Bool) (nmoves : ℕ) (adjust : ℝ → ℝ → ℝ) (amp : X → XR)
    (d : PAData W X MoveMetadata) (y : W → X × ℝ) : PAData W X MoveMetadata :=
  (dynamicStep (P := Unit) (K := Unit) (fun k => (k, k)) (fun _ w => (y w).2) (fun _ w => (y w).1)
    (fun _ => .fin 0) (fun _ _ => amp) nmoves adjust logabs () d ()).2.1

/-- `n` steps with given draws. -/
noncomputable def adaptiveWalk (logabs : Bool) (nmoves : ℕ) (adjust : ℝ → ℝ → ℝ) (amp : X → XR) :
    (n : ℕ) → PAData W X MoveMetadata → (Fin n → W → X × ℝ) → PAData W X MoveMetadata
  | 0, d, _ => d
  | n + 1, d, ys => adaptiveStep logabs nmoves adjust amp
      (adaptiveWalk logabs nmoves adjust amp n d fun i => ys i.castSucc) (ys (Fin.last n))

/-- Walkers at given positions, with the initial width. -/
noncomputable def adaptiveData (amp : X → XR) (σ : ℝ) (pos : W → X) : PAData W X MoveMetadata :=
  initialData (P := Unit) (fun _ _ => amp) pos () ⟨σ, 0, 0⟩

/-- The walk of the code with keys is the walk with the draws made from its keys. -/
theorem adaptive_walk_uses_draws {K : Type} (split : K → K × K) (uniform : K → W → ℝ)
    (normal : K → W → X) (meanFn : (W → XR) → XR) (logabs : Bool) (nmoves : ℕ) (adjust : ℝ → ℝ → ℝ)
    (amp : X → XR) (d : PAData W X MoveMetadata) (k : K) (n : ℕ) :
    let step := dynamicStep (P := Unit) split uniform normal meanFn (fun _ _ => amp) nmoves adjust
      logabs
    let key := fun i => (iterSteps step () i (d, k)).2
    (iterSteps step () n (d, k)).1 = adaptiveWalk logabs nmoves adjust amp n d
      (fun i w => (normal (split (split (key i)).1).2 w, uniform (split (key i)).2 w)) := by
  intro step key
  induction n with
  | zero => rfl
  | succ n ih =>
    show (step () (iterSteps step () n (d, k)).1 (iterSteps step () n (d, k)).2).2.1 = _
    rw [adaptiveWalk]
    simp only [Fin.val_castSucc, Fin.val_last]
    rw [← ih]
    rfl

theorem adaptiveStep_meta (logabs : Bool) (nmoves : ℕ) (adjust : ℝ → ℝ → ℝ) (amp : X → XR)
    (d : PAData W X MoveMetadata) (y : W → X × ℝ) :
    (adaptiveStep logabs nmoves adjust amp d y).moveMetadata =
      updateMoveMetadata nmoves adjust d.moveMetadata (maskMean fun w =>
        XR.lt (.fin (y w).2) (accept logabs (d.amplitude w)
          (amp (d.position w + d.moveMetadata.stdMove • (y w).1)))) := rfl

/-- Forgetting the width. -/
def plain {M : Type} (d : PAData W X M) : PAData W X Unit := ⟨d.position, d.amplitude, ()⟩

/-- A step with adjusted width moves the walkers as a step of its present width. -/
theorem adaptiveStep_plain (logabs : Bool) (nmoves : ℕ) (adjust : ℝ → ℝ → ℝ) (amp : X → XR)
    (d : PAData W X MoveMetadata) (y : W → X × ℝ) :
    plain (adaptiveStep logabs nmoves adjust amp d y) =
      drawStep logabs d.moveMetadata.stdMove amp (plain d) y := rfl

/-- The width is left as it is until `nmoves` moves are made. -/
theorem adaptive_width_constant (logabs : Bool) (nmoves : ℕ) (adjust : ℝ → ℝ → ℝ) (amp : X → XR)
    (d : PAData W X MoveMetadata) (h0 : d.moveMetadata.movesSinceUpdate = 0) {n : ℕ} (hn : n < nmoves)
    (ys : Fin n → W → X × ℝ) :
    (adaptiveWalk logabs nmoves adjust amp n d ys).moveMetadata.stdMove = d.moveMetadata.stdMove ∧
      (adaptiveWalk logabs nmoves adjust amp n d ys).moveMetadata.movesSinceUpdate = n := by
  induction n with
  | zero => exact ⟨rfl, h0⟩
  | succ n ih =>
    obtain ⟨h1, h2⟩ := ih (by omega) fun i => ys i.castSucc
    rw [adaptiveWalk, adaptiveStep_meta, updateMoveMetadata, h2, if_neg (by omega)]
    exact ⟨h1, rfl⟩

/-- The first `nmoves` moves, and the `nmoves` moves after each adjustment of the width, are those of a
walk of fixed width. -/
theorem adaptive_walk_fixed (logabs : Bool) (nmoves : ℕ) (adjust : ℝ → ℝ → ℝ) (amp : X → XR)
    (d : PAData W X MoveMetadata) (h0 : d.moveMetadata.movesSinceUpdate = 0) {n : ℕ} (hn : n ≤ nmoves)
    (ys : Fin n → W → X × ℝ) :
    plain (adaptiveWalk logabs nmoves adjust amp n d ys) =
      walkDraws logabs d.moveMetadata.stdMove amp n (plain d) ys := by
  induction n with
  | zero => rfl
  | succ n ih =>
    rw [adaptiveWalk, adaptiveStep_plain, walkDraws, ih (by omega),
      (adaptive_width_constant logabs nmoves adjust amp d h0 (by omega) _).1]

end adaptive

section invariant

variable {ι W : Type} [Fintype ι] [Fintype W]

/-- C92, the part which holds: the moves before the width is first adjusted, at most `nmoves` of them,
leave `|psi|^2` invariant.  Missing: all further moves; see `adaptive_width_not_invariant`. -/
theorem adaptive_walk_invariant_partial (logabs : Bool) (σ c : ℝ) (hc : 0 ≤ c)
    (ψ : (ι → ℝ) → ℝ) (hψ : Measurable ψ) (nmoves : ℕ) (adjust : ℝ → ℝ → ℝ) {n : ℕ}
    (hn : n ≤ nmoves) :
    Measure.map (fun z : (W → ι → ℝ) × (Fin n → W → (ι → ℝ) × ℝ) =>
        (adaptiveWalk logabs nmoves adjust (amplitudes logabs ψ) n
          (adaptiveData (amplitudes logabs ψ) σ z.1) z.2).position)
      ((Measure.pi fun _ : W => psiSquared c ψ).prod (Measure.pi fun _ => drawLaw ι W)) =
    Measure.pi fun _ : W => psiSquared c ψ := by
  conv_rhs => rw [← metropolis_leaves_psi_squared_invariant logabs σ c hc ψ hψ n]
  congr 1
  funext z
  have h := adaptive_walk_fixed logabs nmoves adjust (amplitudes logabs ψ)
    (adaptiveData (amplitudes logabs ψ) σ z.1) rfl hn z.2
  exact congrArg PAData.position h

/-- Hundred moves of two walkers with the default interval of 100 moves between adjustments. -/
example (ψ : (Fin 3 → ℝ) → ℝ) (hψ : Measurable ψ) :
    Measure.map (fun z : (Fin 2 → Fin 3 → ℝ) × (Fin 100 → Fin 2 → (Fin 3 → ℝ) × ℝ) =>
        (adaptiveWalk true 100 (thresholdAdjust 0.5 0.05 0.1) (amplitudes true ψ) 100
          (adaptiveData (amplitudes true ψ) 0.25 z.1) z.2).position)
      ((Measure.pi fun _ : Fin 2 => psiSquared 1 ψ).prod (Measure.pi fun _ => drawLaw (Fin 3) (Fin 2))) =
    Measure.pi fun _ : Fin 2 => psiSquared 1 ψ :=
  adaptive_walk_invariant_partial true 0.25 1 zero_le_one ψ hψ 100 _ le_rfl

end invariant

section witness

variable {X : Type} [NormedAddCommGroup X] [NormedSpace ℝ X] [FiniteDimensional ℝ X]
  [MeasurableSpace X] [BorelSpace X]

theorem adjust_up {τ δ η σ : ℝ} (hδ : 0 ≤ δ) (hhi : τ + δ < 1) :
    thresholdAdjust τ δ η σ 1 = σ * (1 + η) := by
  simp only [thresholdAdjust]
  rw [if_neg (by linarith), if_pos hhi]

theorem adjust_down {τ δ η σ : ℝ} (hδ : 0 ≤ δ) (hlo : 0 < τ - δ) :
    thresholdAdjust τ δ η σ 0 = σ * (1 - η) := by
  simp only [thresholdAdjust]
  rw [if_pos hlo, if_neg (by linarith)]

omit [FiniteDimensional ℝ X] [MeasurableSpace X] [BorelSpace X] in
open Classical in
/-- The second move of one walker whose width is adjusted after every move. -/
theorem two_steps (logabs : Bool) {τ δ η : ℝ} (hδ : 0 ≤ δ) (hhi : τ + δ < 1) (hlo : 0 < τ - δ) (ψ : X → ℝ) (σ : ℝ)
    (pos : Fin 1 → X) (ys : Fin 2 → Fin 1 → X × ℝ) (hu : ∀ i, 0 ≤ (ys i 0).2) :
    (adaptiveWalk logabs 1 (thresholdAdjust τ δ η) (amplitudes logabs ψ) 2
      (adaptiveData (amplitudes logabs ψ) σ pos) ys).position 0 =
      twoMoves (acceptance logabs ψ) σ (σ * (1 + η)) (σ * (1 - η)) (pos 0, ys 0 0, ys 1 0) := by
  set amp := amplitudes logabs ψ with hamp
  set d₁ := adaptiveStep logabs 1 (thresholdAdjust τ δ η) amp (adaptiveData amp σ pos) (ys 0) with hd₁
  have hplain : plain d₁ = drawStep logabs σ amp (dataAt amp pos) (ys 0) := rfl
  have hcons : Consistent (P := Unit) (fun _ _ => amp) () (plain d₁) := by
    rw [hplain]
    exact step_consistent (P := Unit) (K := Unit) _ _ _ _ _ _ _ _ _ _ _ (fun w => rfl)
  have hx₁ : d₁.position 0 = arStep (acceptance logabs ψ) (pos 0, σ • (ys 0 0).1, (ys 0 0).2) :=
    drawStep_position logabs σ ψ pos (ys 0) 0 (hu 0)
  have hmask := mask_iff logabs (ψ (pos 0)) (ψ (pos 0 + σ • (ys 0 0).1)) (ys 0 0).2 (hu 0)
  have hs : d₁.moveMetadata.stdMove = if (ys 0 0).2 < acceptance logabs ψ (pos 0)
      (pos 0 + σ • (ys 0 0).1) then σ * (1 + η) else σ * (1 - η) := by
    rw [hd₁, adaptiveStep_meta]
    have hmean : maskMean (fun w : Fin 1 => XR.lt (.fin (ys 0 w).2) (accept logabs
        ((adaptiveData amp σ pos).amplitude w) (amp ((adaptiveData amp σ pos).position w +
          (adaptiveData amp σ pos).moveMetadata.stdMove • (ys 0 w).1)))) =
        if (ys 0 0).2 < acceptance logabs ψ (pos 0) (pos 0 + σ • (ys 0 0).1) then 1 else 0 := by
      unfold maskMean
      rw [Fin.sum_univ_one, Fintype.card_fin, Nat.cast_one, div_one]
      exact if_congr hmask rfl rfl
    rw [hmean]
    have e1 : ∀ r : ℝ, (updateMoveMetadata 1 (thresholdAdjust τ δ η)
        (adaptiveData amp σ pos).moveMetadata r).stdMove = thresholdAdjust τ δ η σ r := fun r => by
      show (updateMoveMetadata 1 (thresholdAdjust τ δ η) ⟨σ, 0, 0⟩ r).stdMove = _
      simp [updateMoveMetadata]
    rw [e1]
    split_ifs
    · exact adjust_up hδ hhi
    · exact adjust_down hδ hlo
  have hpos : (adaptiveWalk logabs 1 (thresholdAdjust τ δ η) amp 2 (adaptiveData amp σ pos)
      ys).position 0 = (drawStep logabs d₁.moveMetadata.stdMove amp (plain d₁) (ys 1)).position 0 := rfl
  rw [hpos, data_of_consistent _ hcons,
    drawStep_position logabs d₁.moveMetadata.stdMove ψ _ (ys 1) 0 (hu 1), hs]
  have e : (plain d₁).position 0 = arStep (acceptance logabs ψ) (pos 0, σ • (ys 0 0).1, (ys 0 0).2) :=
    hx₁
  rw [e]
  unfold twoMoves
  by_cases hm : (ys 0 0).2 < acceptance logabs ψ (pos 0) (pos 0 + σ • (ys 0 0).1)
  · have e2 : arStep (acceptance logabs ψ) (pos 0, σ • (ys 0 0).1, (ys 0 0).2) =
        pos 0 + σ • (ys 0 0).1 := if_pos hm
    rw [if_pos hm, if_pos hm, e2]
    rfl
  · have e2 : arStep (acceptance logabs ψ) (pos 0, σ • (ys 0 0).1, (ys 0 0).2) = pos 0 := if_neg hm
    rw [if_neg hm, if_neg hm, e2]
    rfl

theorem psi_balance (logabs : Bool) (ψ : X → ℝ) (x y : X) :
    ψ x ^ 2 * acceptance logabs ψ x y = min (ψ x ^ 2) (ψ y ^ 2) := by
  unfold acceptance accProb
  by_cases h : logabs = true ∧ ψ x = 0 ∧ ψ y = 0
  · rw [if_pos h, h.2.1, h.2.2]
    simp
  rw [if_neg h]
  split_ifs with h2
  · rw [mul_one]
    rcases h2 with h2 | h2
    · rw [min_eq_left (by nlinarith)]
    · rw [mul_self_eq_zero] at h2
      rw [h2, min_eq_left]
      · simp; positivity
  · push Not at h2
    rw [← sq, ← sq, mul_div_cancel₀ _ (by rw [sq]; exact h2.2), min_eq_right]
    nlinarith [h2.1]

/-- C92, the part which fails: adjusting the width does not leave `|psi|^2` invariant, for any wave
function which is normalisable, integrable and zero almost nowhere.  One walker which is distributed as
`|psi|^2` is no longer after two moves, if the width is adjusted after every move and was large enough. -/
theorem adaptive_width_not_invariant [Nontrivial X] (vol G : Measure X) [vol.IsAddHaarMeasure]
    (hG : Noise vol G) {g : X → ℝ} {C : ℝ} (hg : HasDensity vol G g C) (logabs : Bool) {ψ : X → ℝ}
    (hm : Measurable ψ) (h0 : ∀ᵐ x ∂vol, ψ x ≠ 0) (hn : Integrable (fun x => ψ x ^ 2) vol)
    (h1 : Integrable ψ vol) {τ δ η : ℝ} (hη : 0 < η) (hη1 : η < 1) (hδ : 0 ≤ δ) (hhi : τ + δ < 1)
    (hlo : 0 < τ - δ) :
    ∀ᶠ σ in atTop, Measure.map (fun z : (Fin 1 → X) × (Fin 2 → Fin 1 → X × ℝ) =>
        (adaptiveWalk logabs 1 (thresholdAdjust τ δ η) (amplitudes logabs ψ) 2
          (adaptiveData (amplitudes logabs ψ) σ z.1) z.2).position)
      ((Measure.pi fun _ : Fin 1 => born vol ψ).prod (Measure.pi fun _ => noiseLaw G (Fin 1))) ≠
    Measure.pi fun _ : Fin 1 => born vol ψ := by
  have := hG.probability
  have hprob := born_probability vol h0 hn
  have hI := norm_pos vol h0 hn
  have hα := measurable_acceptance logabs hm
  have hα0 : ∀ x y, 0 ≤ acceptance logabs ψ x y := fun _ _ => accProb_nonneg _ _ _
  have hα1 : ∀ x y, acceptance logabs ψ x y ≤ 1 := fun _ _ => accProb_le_one _ _ _
  obtain ⟨A, hA, hgain⟩ := gain_ne vol G hg (p := fun x => ψ x ^ 2) (α := acceptance logabs ψ)
    (hm.pow_const 2) (fun x => sq_nonneg _) hα hα0 (psi_balance logabs ψ)
    (h0.mono fun x hx => by positivity) hn (by simpa only [Real.sqrt_sq_eq_abs] using h1.abs)
    (c := 1 - η) (c' := 1 + η) (by linarith) (by linarith)
  filter_upwards [hgain, eventually_gt_atTop 0] with σ hσ hσ0 heq
  -- the draws of the only walker
  set N := G.prod unif with hN
  have hpN : IsProbabilityMeasure (noiseLaw G (Fin 1)) := hG.law
  have hred : MeasurePreserving (fun z : (Fin 1 → X) × (Fin 2 → Fin 1 → X × ℝ) =>
      (z.1 0, z.2 0 0, z.2 1 0))
      ((Measure.pi fun _ : Fin 1 => born vol ψ).prod (Measure.pi fun _ => noiseLaw G (Fin 1)))
      ((born vol ψ).prod (N.prod N)) := by
    have e0 : MeasurePreserving (fun x : Fin 1 → X => x 0) (Measure.pi fun _ : Fin 1 => born vol ψ)
        (born vol ψ) := measurePreserving_eval (fun _ => born vol ψ) 0
    have e1 : MeasurePreserving (fun y : Fin 1 → X × ℝ => y 0) (noiseLaw G (Fin 1)) N :=
      measurePreserving_eval (fun _ => N) 0
    have e2 := measurePreserving_piFinTwo fun _ : Fin 2 => noiseLaw G (Fin 1)
    exact e0.prod ((e1.prod e1).comp e2)
  have hpre : MeasurePreserving (fun x : Fin 1 → X => x 0) (Measure.pi fun _ : Fin 1 => born vol ψ)
      (born vol ψ) := measurePreserving_eval (fun _ => born vol ψ) 0
  have hT := measurable_twoMoves hα σ (σ * (1 + η)) (σ * (1 - η))
  -- both moves as a function of the draws
  have hae : ∀ᵐ z ∂((Measure.pi fun _ : Fin 1 => born vol ψ).prod
      (Measure.pi fun _ : Fin 2 => noiseLaw G (Fin 1))),
      (adaptiveWalk logabs 1 (thresholdAdjust τ δ η) (amplitudes logabs ψ) 2
        (adaptiveData (amplitudes logabs ψ) σ z.1) z.2).position =
      fun _ => twoMoves (acceptance logabs ψ) σ (σ * (1 + η)) (σ * (1 - η)) (z.1 0, z.2 0 0, z.2 1 0) := by
    have hu : ∀ᵐ y ∂N, (0 : ℝ) ≤ y.2 := by
      have h : ∀ᵐ u ∂unif, (0 : ℝ) ≤ u := by
        unfold unif
        filter_upwards [ae_restrict_mem measurableSet_Ico] with u hu using hu.1
      exact (Measure.quasiMeasurePreserving_snd (μ := G) (ν := unif)).ae h
    have hu2 : ∀ᵐ y ∂((born vol ψ).prod (N.prod N)), 0 ≤ y.2.1.2 ∧ 0 ≤ y.2.2.2 := by
      have ha := (Measure.quasiMeasurePreserving_fst (μ := N) (ν := N)).ae (p := fun y => 0 ≤ y.2) hu
      have hb := (Measure.quasiMeasurePreserving_snd (μ := N) (ν := N)).ae (p := fun y => 0 ≤ y.2) hu
      exact (Measure.quasiMeasurePreserving_snd (μ := born vol ψ) (ν := N.prod N)).ae
        (p := fun y => 0 ≤ y.1.2 ∧ 0 ≤ y.2.2) (ha.and hb)
    filter_upwards [hred.quasiMeasurePreserving.ae hu2] with z hz
    funext w
    rw [Subsingleton.elim w 0]
    refine two_steps logabs hδ hhi hlo ψ σ z.1 z.2 fun i => ?_
    fin_cases i
    · exact hz.1
    · exact hz.2
  rw [Measure.map_congr hae] at heq
  have heq2 : ((born vol ψ).prod (N.prod N)).map
      (twoMoves (acceptance logabs ψ) σ (σ * (1 + η)) (σ * (1 - η))) = born vol ψ := by
    have h := congrArg (Measure.map fun x : Fin 1 → X => x 0) heq
    rw [hpre.map_eq, Measure.map_map (measurable_pi_apply 0) (by
      exact measurable_pi_lambda _ fun _ => hT.comp hred.measurable)] at h
    rw [← hred.map_eq, Measure.map_map hT hred.measurable]
    exact h
  -- means of the region
  set f : X → ℝ := A.indicator 1 with hf
  have hfm : Measurable f := measurable_one.indicator hA
  have hfb : ∀ x, |f x| ≤ 1 := fun x => by
    by_cases hx : x ∈ A <;> simp [hf, hx]
  have hinv : ∀ s : ℝ, s ≠ 0 → MeasurePreserving (fun z : X × X × ℝ =>
      arStep (acceptance logabs ψ) (z.1, s • z.2.1, z.2.2)) ((born vol ψ).prod (G.prod unif))
      (born vol ψ) := fun s hs => by
    have hsm : Measurable fun x : X => s • x := measurable_const_smul s
    have := (hG.scale hs).probability
    have hp := (single_reversible vol G hG logabs hs hm h0 hn).preserves (measurable_arStep hα)
    exact hp.comp ((MeasurePreserving.id _).prod ((hsm.measurePreserving _).prod
      (MeasurePreserving.id _)))
  have hmean := two_moves_mean hα hα0 hα1 G (born vol ψ) hinv (σ := σ) (s := σ * (1 + η))
    (s' := σ * (1 - η)) hσ0.ne' (mul_pos hσ0 (by linarith)).ne' (mul_pos hσ0 (by linarith)).ne' hfm hfb
  rw [← integral_map (hT.aemeasurable) (hfm.aestronglyMeasurable)] at hmean
  rw [← hN, heq2] at hmean
  have hg2 : ∀ s : ℝ, ∫ x, acc G (acceptance logabs ψ) σ x * (mv G (acceptance logabs ψ) s f x - f x)
      ∂(born vol ψ) = gain vol G (fun x => ψ x ^ 2) (acceptance logabs ψ) A σ s /
        ∫ x, ψ x ^ 2 ∂vol := fun s => by
    unfold born gain
    rw [integral_withDensity_eq_integral_toReal_smul
      ((hm.pow_const 2).div_const _).ennreal_ofReal (.of_forall fun x => ENNReal.ofReal_lt_top),
      ← integral_div]
    congr 1
    funext x
    rw [ENNReal.toReal_ofReal (by positivity), mv_eq hα hα0 hα1 G s hfm hfb, smul_eq_mul]
    unfold acc
    ring
  rw [hg2, hg2, ← sub_div, mul_comm σ, mul_comm σ] at hmean
  have : gain vol G (fun x => ψ x ^ 2) (acceptance logabs ψ) A σ ((1 + η) * σ) -
      gain vol G (fun x => ψ x ^ 2) (acceptance logabs ψ) A σ ((1 - η) * σ) = 0 := by
    have h : (gain vol G (fun x => ψ x ^ 2) (acceptance logabs ψ) A σ ((1 + η) * σ) -
      gain vol G (fun x => ψ x ^ 2) (acceptance logabs ψ) A σ ((1 - η) * σ)) /
        ∫ x, ψ x ^ 2 ∂vol = 0 := by linarith
    rcases div_eq_zero_iff.mp h with h | h
    · exact h
    · exact absurd h hI.ne'
  linarith

end witness

/-- Densities of products of noises. -/
theorem HasDensity.pi {ι : Type} [Fintype ι] {X : Type} [NormedAddCommGroup X] [NormedSpace ℝ X]
    [FiniteDimensional ℝ X] [MeasureSpace X] [BorelSpace X] [(volume : Measure X).IsAddHaarMeasure]
    {G : Measure X} [IsProbabilityMeasure G] {g : X → ℝ} {C : ℝ} (h : HasDensity volume G g C) :
    HasDensity volume (Measure.pi fun _ : ι => G) (fun x => ∏ i, g (x i)) (C ^ Fintype.card ι) := by
  have hint : Integrable g volume := by
    have h1 : ∫⁻ x, ENNReal.ofReal (g x) = 1 := by
      have := measure_univ (μ := G)
      rwa [h.eq, withDensity_apply _ MeasurableSet.univ, Measure.restrict_univ] at this
    refine ⟨h.measurable.aestronglyMeasurable, ?_⟩
    rw [hasFiniteIntegral_iff_ofReal (.of_forall h.nonneg), h1]
    exact ENNReal.one_lt_top
  refine ⟨?_, fun x => Finset.prod_nonneg fun i _ => h.nonneg _, fun x => ?_, ?_, ?_, ?_⟩
  · exact Finset.measurable_prod _ fun i _ => h.measurable.comp (measurable_pi_apply i)
  · refine (Finset.prod_le_prod (fun i _ => h.nonneg _) fun i _ => h.le _).trans_eq ?_
    rw [Finset.prod_const, Finset.card_univ]
  · exact tendsto_finsetProd _ fun i _ => h.continuous.tendsto.comp
      ((continuous_apply i).tendsto (0 : ι → X))
  · exact Finset.prod_pos fun i _ => h.pos
  · refine Measure.pi_eq fun s hs => ?_
    have e : ∀ x : ι → X, (Set.univ.pi s).indicator (fun x => ENNReal.ofReal (∏ i, g (x i))) x =
        ENNReal.ofReal (∏ i, (s i).indicator g (x i)) := fun x => by
      by_cases hx : x ∈ Set.univ.pi s
      · rw [Set.indicator_of_mem hx]
        congr 1
        exact Finset.prod_congr rfl fun i _ => (Set.indicator_of_mem (hx i trivial) _).symm
      · rw [Set.indicator_of_notMem hx]
        simp only [Set.mem_univ_pi, not_forall] at hx
        obtain ⟨i, hi⟩ := hx
        rw [Finset.prod_eq_zero (Finset.mem_univ i) (Set.indicator_of_notMem hi _), ENNReal.ofReal_zero]
    have hind : ∀ i, Integrable ((s i).indicator g) volume := fun i => hint.indicator (hs i)
    rw [withDensity_apply _ (MeasurableSet.univ_pi hs), ← lintegral_indicator (MeasurableSet.univ_pi hs)]
    simp only [e]
    rw [← ofReal_integral_eq_lintegral_ofReal, integral_fintype_prod_volume_eq_prod,
      ENNReal.ofReal_prod_of_nonneg]
    · refine Finset.prod_congr rfl fun i _ => ?_
      rw [ofReal_integral_eq_lintegral_ofReal (hind i)
        (.of_forall fun x => Set.indicator_nonneg (fun y _ => h.nonneg y) x), h.eq,
        withDensity_apply _ (hs i), ← lintegral_indicator (hs i)]
      congr 1
      funext x
      by_cases hx : x ∈ s i <;> simp [hx]
    · exact fun i _ => integral_nonneg fun x => Set.indicator_nonneg (fun y _ => h.nonneg y) x
    · exact Integrable.fintype_prod fun i => hind i
    · exact .of_forall fun x => Finset.prod_nonneg fun i _ =>
        Set.indicator_nonneg (fun y _ => h.nonneg y) _

theorem density_normal (ι : Type) [Fintype ι] : HasDensity volume (stdNormal ι)
    (fun x => ∏ i, gaussianPDFReal 0 1 (x i)) ((√(2 * Real.pi))⁻¹ ^ Fintype.card ι) := by
  refine HasDensity.pi ⟨measurable_gaussianPDFReal 0 1, gaussianPDFReal_nonneg 0 1, fun x => ?_, ?_, ?_, ?_⟩
  · unfold gaussianPDFReal
    simp only [NNReal.coe_one, mul_one, sub_zero]
    refine mul_le_of_le_one_right (by positivity) (Real.exp_le_one_iff.mpr ?_)
    exact div_nonpos_of_nonpos_of_nonneg (neg_nonpos.mpr (sq_nonneg x)) zero_le_two
  · have : Continuous (gaussianPDFReal 0 1) := by
      unfold gaussianPDFReal
      fun_prop
    exact this.continuousAt
  · exact gaussianPDFReal_pos 0 1 0 one_ne_zero
  · rw [gaussianReal_of_var_ne_zero 0 one_ne_zero]
    rfl

/-- Draws of the positions of `N` particles. -/
theorem density_positions (N d : ℕ) : HasDensity volume (positionNoise N d)
    (fun x => ∏ e, ∏ i, gaussianPDFReal 0 1 (x e i))
    (((√(2 * Real.pi))⁻¹ ^ Fintype.card (Fin d)) ^ Fintype.card (Fin N)) :=
  HasDensity.pi (density_normal (Fin d))

/-- The harmonic oscillator with the thresholds of the runner (runners.py:210): for all large widths the
ground state is not invariant. -/
example : ∀ᶠ σ in atTop, Measure.map (fun z : (Fin 1 → Fin 1 → ℝ) × (Fin 2 → Fin 1 → (Fin 1 → ℝ) × ℝ) =>
      (adaptiveWalk true 1 (thresholdAdjust 0.5 0.05 0.1)
        (amplitudes true fun x : Fin 1 → ℝ => Real.exp (-(x 0) ^ 2)) 2
        (adaptiveData (amplitudes true fun x : Fin 1 → ℝ => Real.exp (-(x 0) ^ 2)) σ z.1) z.2).position)
      ((Measure.pi fun _ : Fin 1 => born volume fun x : Fin 1 → ℝ => Real.exp (-(x 0) ^ 2)).prod
        (Measure.pi fun _ => noiseLaw (stdNormal (Fin 1)) (Fin 1))) ≠
    Measure.pi fun _ : Fin 1 => born volume fun x : Fin 1 → ℝ => Real.exp (-(x 0) ^ 2) := by
  have hi : ∀ b : ℝ, 0 < b → Integrable (fun x : Fin 1 → ℝ => Real.exp (-b * (x 0) ^ 2)) volume :=
    fun b hb => (volume_preserving_funUnique (Fin 1) ℝ).integrable_comp_of_integrable
      (integrable_exp_neg_mul_sq hb)
  refine adaptive_width_not_invariant volume _ (noise_normal (Fin 1)) (density_normal (Fin 1)) true
    (by fun_prop) (.of_forall fun x => (Real.exp_pos _).ne') ?_ ?_ (by norm_num) (by norm_num)
    (by norm_num) (by norm_num) (by norm_num)
  · refine (hi 2 two_pos).congr (.of_forall fun x => ?_)
    simp only [← Real.exp_nat_mul]
    congr 1
    push_cast
    ring
  · refine (hi 1 one_pos).congr (.of_forall fun x => ?_)
    simp

end Verif.Props
