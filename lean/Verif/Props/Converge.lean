import Verif.Lemmas.LargeNumbers
import Verif.Props.Invariance

/-!
C90: walkers moved by the fixed-width Metropolis step converge to `|psi|^2`, wherever they start.
-/

namespace Verif.Props
open MeasureTheory ProbabilityTheory MCMC Spec Reversible Ergodic Filter Topology

section general

variable {W : Type} [Fintype W] {X : Type} [NormedAddCommGroup X] [NormedSpace ℝ X]
  [FiniteDimensional ℝ X] [MeasurableSpace X] [BorelSpace X]

/-- Symmetric noise which reaches every region of the space, and only regions of positive volume. -/
structure Noise (vol G : Measure X) : Prop where
  probability : IsProbabilityMeasure G
  symmetric : G.map (fun x => -x) = G
  ac : G ≪ vol
  reaches : vol ≪ G

theorem Noise.scale {vol G : Measure X} [vol.IsAddHaarMeasure] (h : Noise vol G) {σ : ℝ}
    (hσ : σ ≠ 0) : Noise vol (G.map fun x => σ • x) := by
  have hs : Measurable fun x : X => σ • x := measurable_const_smul σ
  have := h.probability
  have hv : vol.map (fun x => σ • x) = ENNReal.ofReal |(σ ^ Module.finrank ℝ X)⁻¹| • vol :=
    Measure.map_addHaar_smul vol hσ
  have hc : ENNReal.ofReal |(σ ^ Module.finrank ℝ X)⁻¹| ≠ 0 := by
    rw [Ne, ENNReal.ofReal_eq_zero, not_le]
    positivity
  refine ⟨Measure.isProbabilityMeasure_map hs.aemeasurable, ?_, ?_, ?_⟩
  · rw [Measure.map_map measurable_neg hs]
    conv_rhs => rw [← h.symmetric, Measure.map_map hs measurable_neg]
    congr 1
    funext x
    simp
  · have h1 := h.ac.map hs
    rw [hv] at h1
    exact h1.trans Measure.smul_absolutelyContinuous
  · have h1 := h.reaches.map hs
    rw [hv] at h1
    exact (Measure.absolutelyContinuous_smul hc).trans h1

/-- Law of the draws of one step: normal and uniform draws for each walker, all independent. -/
noncomputable def noiseLaw (G : Measure X) (W : Type) [Fintype W] : Measure (W → X × ℝ) :=
  Measure.pi fun _ => G.prod unif

omit [NormedSpace ℝ X] [FiniteDimensional ℝ X] [BorelSpace X] in
theorem Noise.law {vol G : Measure X} (h : Noise vol G) : IsProbabilityMeasure (noiseLaw G W) := by
  have := h.probability
  unfold noiseLaw
  infer_instance

/-- The acceptance probabilities of the code. -/
noncomputable def acceptance (logabs : Bool) (ψ : X → ℝ) (x y : X) : ℝ :=
  accProb logabs (ψ x) (ψ y)

omit [NormedAddCommGroup X] [NormedSpace ℝ X] [FiniteDimensional ℝ X] [BorelSpace X] in
theorem measurable_acceptance (logabs : Bool) {ψ : X → ℝ} (hψ : Measurable ψ) :
    Measurable fun z : X × X => acceptance logabs ψ z.1 z.2 :=
  (measurable_accProb logabs).comp ((hψ.comp measurable_fst).prodMk (hψ.comp measurable_snd))

theorem accProb_pos (b : Bool) {x y : ℝ} (hy : y ≠ 0) : 0 < accProb b x y := by
  unfold accProb
  rw [if_neg (fun h => hy h.2.2)]
  split_ifs with h
  · exact one_pos
  · push Not at h
    exact div_pos (mul_self_pos.mpr hy) (lt_of_le_of_ne (mul_self_nonneg x) (Ne.symm h.2))

/-- One step of all walkers. -/
noncomputable def jointStep (logabs : Bool) (σ : ℝ) (ψ : X → ℝ) (z : (W → X) × (W → X × ℝ)) :
    W → X :=
  fun w => arStep (acceptance logabs ψ) (z.1 w, σ • (z.2 w).1, (z.2 w).2)

omit [Fintype W] in
theorem measurable_jointStep (logabs : Bool) (σ : ℝ) {ψ : X → ℝ} (hψ : Measurable ψ) :
    Measurable (jointStep (W := W) logabs σ ψ) := by
  refine measurable_pi_lambda _ fun w => ?_
  exact (measurable_arStep (measurable_acceptance logabs hψ)).comp (by fun_prop)

/-- Walkers move independently. -/
theorem joint_law {G : Measure X} [IsProbabilityMeasure G] (logabs : Bool) (σ : ℝ) {ψ : X → ℝ}
    (hψ : Measurable ψ) (n : ℕ) (x : W → X) :
    law (noiseLaw G W) (jointStep logabs σ ψ) n x =
      Measure.pi fun w => law ((G.map fun x => σ • x).prod unif) (arStep (acceptance logabs ψ)) n
        (x w) := by
  have hs : Measurable fun x : X => σ • x := measurable_const_smul σ
  have : IsProbabilityMeasure (G.map fun x => σ • x) :=
    Measure.isProbabilityMeasure_map hs.aemeasurable
  have hF := measurable_arStep (measurable_acceptance logabs hψ)
  have hJ := measurable_jointStep (W := W) logabs σ hψ
  set γ := G.map fun x => σ • x with hγ
  set F := arStep (acceptance logabs ψ) with hFdef
  have hlaw : ∀ n x, IsProbabilityMeasure (law (γ.prod unif) F n x) := law_probability hF
  induction n with
  | zero =>
    simp only [law]
    refine (Measure.pi_eq fun s hs => ?_).symm
    rw [Measure.dirac_apply' _ (MeasurableSet.univ_pi hs)]
    simp only [Measure.dirac_apply' _ (hs _)]
    by_cases h : ∀ w, x w ∈ s w
    · rw [Set.indicator_of_mem (show x ∈ Set.univ.pi s from fun w _ => h w)]
      simp [h]
    · rw [Set.indicator_of_notMem (show x ∉ Set.univ.pi s from fun h' => h fun w => h' w trivial)]
      push Not at h
      obtain ⟨w, hw⟩ := h
      exact (Finset.prod_eq_zero (Finset.mem_univ w) (Set.indicator_of_notMem hw _)).symm
  | succ n ih =>
    rw [law, ih]
    have h1 := (measurePreserving_arrowProdEquivProdArrow X (X × ℝ) W
      (fun w => law (γ.prod unif) F n (x w)) (fun _ => G.prod unif)).symm
    have h2 : ∀ w, MeasurePreserving (fun z : X × X × ℝ => F (z.1, σ • z.2.1, z.2.2))
        ((law (γ.prod unif) F n (x w)).prod (G.prod unif))
        (law (γ.prod unif) F (n + 1) (x w)) := by
      intro w
      have e1 : MeasurePreserving (fun z : X × X × ℝ => (z.1, (σ • z.2.1, z.2.2)))
          ((law (γ.prod unif) F n (x w)).prod (G.prod unif))
          ((law (γ.prod unif) F n (x w)).prod (γ.prod unif)) :=
        (MeasurePreserving.id _).prod ((hs.measurePreserving _).prod (MeasurePreserving.id _))
      exact (⟨hF, rfl⟩ : MeasurePreserving F _ _).comp e1
    have h3 := measurePreserving_pi (fun w => (law (γ.prod unif) F n (x w)).prod (G.prod unif))
      (fun w => law (γ.prod unif) F (n + 1) (x w)) h2
    exact (h3.comp h1).map_eq

section wave

variable (vol G : Measure X) [vol.IsAddHaarMeasure] (hG : Noise vol G) (logabs : Bool) {σ : ℝ}
  (hσ : σ ≠ 0) {ψ : X → ℝ} (hm : Measurable ψ) (h0 : ∀ᵐ x ∂vol, ψ x ≠ 0)
  (hn : Integrable (fun x => ψ x ^ 2) vol)

include h0 hn in
omit [NormedSpace ℝ X] [FiniteDimensional ℝ X] [BorelSpace X] in
theorem norm_pos : 0 < ∫ y, ψ y ^ 2 ∂vol := by
  rw [integral_pos_iff_support_of_nonneg (fun x => sq_nonneg _) hn]
  have : vol (Function.support fun x => ψ x ^ 2) = vol Set.univ := by
    refine measure_congr ?_
    filter_upwards [h0] with x hx
    exact propext ⟨fun _ => trivial, fun _ => pow_ne_zero 2 hx⟩
  rw [this]
  exact (NeZero.pos (vol Set.univ))

include h0 hn in
omit [NormedSpace ℝ X] [FiniteDimensional ℝ X] [BorelSpace X] in
theorem born_probability : IsProbabilityMeasure (born vol ψ) := by
  refine ⟨?_⟩
  unfold born
  rw [withDensity_apply _ MeasurableSet.univ, Measure.restrict_univ,
    ← ofReal_integral_eq_lintegral_ofReal (hn.div_const _) (.of_forall fun x => by positivity),
    integral_div, div_self (norm_pos vol h0 hn).ne', ENNReal.ofReal_one]

include hG hσ hm h0 hn

/-- One walker. -/
theorem single_reversible : Reversible (born vol ψ) ((G.map fun x => σ • x).prod unif)
    (arStep (acceptance logabs ψ)) := by
  have hγ := hG.scale hσ
  have := hγ.probability
  refine arStep_reversible vol _ hγ.symmetric _ ((hm.pow_const 2).div_const _).ennreal_ofReal _
    (measurable_acceptance logabs hm) (fun _ _ => accProb_nonneg _ _ _)
    (fun _ _ => accProb_le_one _ _ _) fun x y => ?_
  have hI := norm_pos vol h0 hn
  rw [← ENNReal.ofReal_mul (by positivity), ← ENNReal.ofReal_mul (by positivity)]
  congr 1
  have := accProb_balance logabs (ψ x) (ψ y)
  unfold acceptance
  rw [div_mul_eq_mul_div, div_mul_eq_mul_div, this]

theorem single_converges (x : X) : ConvergesFrom (born vol ψ) ((G.map fun x => σ • x).prod unif)
    (arStep (acceptance logabs ψ)) x := by
  have hγ := hG.scale hσ
  have := hγ.probability
  have := born_probability vol h0 hn
  have hI := norm_pos vol h0 hn
  have hpm : Measurable fun x => ENNReal.ofReal (ψ x ^ 2 / ∫ y, ψ y ^ 2 ∂vol) :=
    ((hm.pow_const 2).div_const _).ennreal_ofReal
  have hp0 : ∀ᵐ x ∂vol, ENNReal.ofReal (ψ x ^ 2 / ∫ y, ψ y ^ 2 ∂vol) ≠ 0 := by
    filter_upwards [h0] with x hx
    rw [Ne, ENNReal.ofReal_eq_zero, not_le]
    positivity
  have ha := measurable_acceptance logabs hm
  have ha0 : ∀ x y, 0 ≤ acceptance logabs ψ x y := fun _ _ => accProb_nonneg _ _ _
  have ha1 : ∀ x y, acceptance logabs ψ x y ≤ 1 := fun _ _ => accProb_le_one _ _ _
  have hap : ∀ x, ∀ᵐ y ∂vol, 0 < acceptance logabs ψ x y := fun x => by
    filter_upwards [h0] with y hy
    exact accProb_pos logabs hy
  have hmix : Mixing (born vol ψ) ((G.map fun x => σ • x).prod unif)
      (arStep (acceptance logabs ψ)) := by
    have : IsProbabilityMeasure (vol.withDensity fun x =>
      ENNReal.ofReal (ψ x ^ 2 / ∫ y, ψ y ^ 2 ∂vol)) := this
    exact arStep_mixing hγ.ac hγ.reaches ha1 hap
  intro η hη
  exact converge_start (measurable_arStep ha) (single_reversible vol G hG logabs hσ hm h0 hn) hmix
    (arStep_leaves hγ.ac hpm hp0 ha ha0 ha1 hap x) hη

/-- All walkers. -/
theorem joint_converges (x : W → X) : ConvergesFrom (Measure.pi fun _ : W => born vol ψ)
    (noiseLaw G W) (jointStep logabs σ ψ) x := by
  have := hG.probability
  have := hG.law (W := W)
  have := (hG.scale hσ).probability
  have := born_probability vol h0 hn
  have hJ := measurable_jointStep (W := W) logabs σ hm
  have hF := measurable_arStep (measurable_acceptance logabs hm)
  intro η hη
  have hc : 0 < η / (Fintype.card W + 1) := by positivity
  have hnear : ∀ᶠ n in atTop, ∀ w, Near (η / (Fintype.card W + 1))
      (law ((G.map fun x => σ • x).prod unif) (arStep (acceptance logabs ψ)) n (x w))
      (born vol ψ) := by
    rw [Filter.eventually_all]
    intro w
    filter_upwards [single_converges vol G hG logabs hσ hm h0 hn (x w) _ hc] with n hn f hf hb
    rw [integral_law hF hf hb]
    exact hn f hf hb
  filter_upwards [hnear] with n hn f hf hb
  have hlaw : ∀ w, IsProbabilityMeasure (law ((G.map fun x => σ • x).prod unif)
      (arStep (acceptance logabs ψ)) n (x w)) := fun w => law_probability hF n _
  rw [← integral_law hJ hf hb, joint_law logabs σ hm]
  refine (near_pi _ _ hn f hf hb).trans ?_
  rw [mul_div_assoc', div_le_iff₀ (by positivity)]
  nlinarith

theorem joint_step_preserves : MeasurePreserving (jointStep logabs σ ψ)
    ((Measure.pi fun _ : W => born vol ψ).prod (noiseLaw G W))
    (Measure.pi fun _ : W => born vol ψ) := by
  have := hG.probability
  have := (hG.scale hσ).probability
  have := born_probability vol h0 hn
  have hs : Measurable fun x : X => σ • x := measurable_const_smul σ
  have hF := measurable_arStep (measurable_acceptance logabs hm)
  have hp := (single_reversible vol G hG logabs hσ hm h0 hn).preserves hF
  have h1 := (measurePreserving_arrowProdEquivProdArrow X (X × ℝ) W
    (fun _ => born vol ψ) (fun _ => G.prod unif)).symm
  have h2 : MeasurePreserving (fun z : X × X × ℝ =>
      arStep (acceptance logabs ψ) (z.1, σ • z.2.1, z.2.2))
      ((born vol ψ).prod (G.prod unif)) (born vol ψ) := by
    have e1 : MeasurePreserving (fun z : X × X × ℝ => (z.1, (σ • z.2.1, z.2.2)))
        ((born vol ψ).prod (G.prod unif))
        ((born vol ψ).prod ((G.map fun x => σ • x).prod unif)) :=
      (MeasurePreserving.id _).prod ((hs.measurePreserving _).prod (MeasurePreserving.id _))
    exact hp.comp e1
  have h3 := measurePreserving_pi (fun _ : W => (born vol ψ).prod (G.prod unif))
    (fun _ : W => born vol ψ) fun _ => h2
  exact h3.comp h1

end wave

/-! ### The walk of the code -/

omit [Fintype W] [NormedAddCommGroup X] [NormedSpace ℝ X] [FiniteDimensional ℝ X]
  [MeasurableSpace X] [BorelSpace X] in
theorem data_of_consistent {amp : X → XR} (d : PAData W X Unit)
    (h : Consistent (P := Unit) (fun _ _ => amp) () d) : d = dataAt amp d.position := by
  obtain ⟨p, a, ⟨⟩⟩ := d
  have : a = fun w => amp (p w) := funext h
  rw [this]
  rfl

/-- Draws which do not propose a position in `N`. -/
def Avoids (σ : ℝ) (N : Set X) : Set ((W → X) × (W → X × ℝ)) :=
  {z | ∀ w, 0 ≤ (z.2 w).2 ∧ z.1 w + σ • (z.2 w).1 ∉ N}

theorem measurableSet_avoids (σ : ℝ) {N : Set X} (hN : MeasurableSet N) :
    MeasurableSet (Avoids (W := W) σ N) := by
  have : Avoids (W := W) σ N = ⋂ w, {z | 0 ≤ (z.2 w).2 ∧ z.1 w + σ • (z.2 w).1 ∉ N} := by
    ext z
    simp [Avoids]
  rw [this]
  refine MeasurableSet.iInter fun w => MeasurableSet.inter ?_ ?_
  · have h : Measurable fun z : (W → X) × (W → X × ℝ) => (z.2 w).2 := by fun_prop
    exact measurableSet_le measurable_const h
  · have h : Measurable fun z : (W → X) × (W → X × ℝ) => z.1 w + σ • (z.2 w).1 := by fun_prop
    exact h hN.compl

theorem ae_avoids {vol G : Measure X} [vol.IsAddHaarMeasure] (hG : Noise vol G) {σ : ℝ}
    (hσ : σ ≠ 0) {N : Set X} (hN : vol N = 0) (x : W → X) :
    ∀ᵐ y ∂(noiseLaw G W), (x, y) ∈ Avoids σ N := by
  have := hG.probability
  have hγ := hG.scale hσ
  have hs : Measurable fun x : X => σ • x := measurable_const_smul σ
  show ∀ᵐ y ∂(noiseLaw G W), ∀ w, 0 ≤ (y w).2 ∧ x w + σ • (y w).1 ∉ N
  rw [Filter.eventually_all]
  intro w
  have h1 : ∀ᵐ u ∂unif, (0 : ℝ) ≤ u := by
    unfold unif
    filter_upwards [ae_restrict_mem measurableSet_Ico] with u hu using hu.1
  have h2 : ∀ᵐ z ∂(G.prod unif), (0 : ℝ) ≤ z.2 :=
    (Measure.quasiMeasurePreserving_snd (μ := G) (ν := unif)).ae h1
  have e1 : ∀ᵐ y ∂vol, y ∉ N := by
    rw [ae_iff]
    simpa using hN
  have e2 : ∀ᵐ η ∂(G.map fun x => σ • x), x w + η ∉ N := ae_translate hγ.ac e1 (x w)
  have e3 : ∀ᵐ η ∂G, x w + σ • η ∉ N := (hs.measurePreserving G).quasiMeasurePreserving.ae e2
  have e4 : ∀ᵐ z ∂(G.prod unif), x w + σ • z.1 ∉ N :=
    (Measure.quasiMeasurePreserving_fst (μ := G) (ν := unif)).ae e3
  exact (Measure.quasiMeasurePreserving_eval (fun _ : W => G.prod unif) w).ae (h2.and e4)

omit [Fintype W] [FiniteDimensional ℝ X] [MeasurableSpace X] [BorelSpace X] in
/-- One step of the code. -/
theorem drawStep_joint (logabs : Bool) (σ : ℝ) {amp : X → XR} {ψ : X → ℝ} {N : Set X} {S : Set X}
    (hN : ∀ x ∉ N, x ∈ S) (hS : ∀ x ∈ S, amp x = amplitudes logabs ψ x) {x : W → X}
    (hx : ∀ w, x w ∈ S) {y : W → X × ℝ} (hy : (x, y) ∈ Avoids σ N) :
    drawStep logabs σ amp (dataAt amp x) y = dataAt amp (jointStep logabs σ ψ (x, y)) ∧
      ∀ w, jointStep logabs σ ψ (x, y) w ∈ S := by
  have hpos : (drawStep logabs σ amp (dataAt amp x) y).position = jointStep logabs σ ψ (x, y) := by
    funext w
    have h := stays_or_moves (P := Unit) (K := Unit) (fun k => (k, k)) (fun _ w => (y w).2)
      (fun _ w => (y w).1) (fun _ => .fin 0) (fun _ _ => amp)
      (fun _ _ => σ) none logabs () (dataAt amp x) () w
    simp only at h
    have e1 : amp (x w) = amplitudeOf logabs (ψ (x w)) := hS _ (hx w)
    have e2 : amp (x w + σ • (y w).1) = amplitudeOf logabs (ψ (x w + σ • (y w).1)) :=
      hS _ (hN _ (hy w).2)
    have hmask := mask_iff logabs (ψ (x w)) (ψ (x w + σ • (y w).1)) (y w).2 (hy w).1
    rw [← e1, ← e2] at hmask
    unfold jointStep arStep arMove acceptance
    split_ifs with hm
    · exact (h.1 (hmask.mpr hm)).1
    · exact (h.2 (fun h2 => hm (hmask.mp h2))).1
  have hcons : Consistent (P := Unit) (fun _ _ => amp) ()
      (drawStep logabs σ amp (dataAt amp x) y) :=
    step_consistent (P := Unit) (K := Unit) _ _ _ _ _ _ _ _ _ _ _ (fun w => rfl)
  refine ⟨?_, fun w => ?_⟩
  · rw [data_of_consistent _ hcons, hpos]
  · unfold jointStep arStep arMove
    split_ifs
    · exact hN _ (hy w).2
    · exact hx w

omit [FiniteDimensional ℝ X] [MeasurableSpace X] [BorelSpace X] [Fintype W] in
/-- The walk of the code is the chain, as long as proposals avoid `N`. -/
theorem walk_chain (logabs : Bool) (σ : ℝ) {amp : X → XR} {ψ : X → ℝ} {N : Set X} {S : Set X}
    (hN : ∀ x ∉ N, x ∈ S) (hS : ∀ x ∈ S, amp x = amplitudes logabs ψ x) {x : W → X}
    (hx : ∀ w, x w ∈ S) (n : ℕ) {ys : Fin n → W → X × ℝ}
    (hy : Along (jointStep logabs σ ψ) (Avoids σ N) n x ys) :
    walkDraws logabs σ amp n (dataAt amp x) ys = dataAt amp (chain (jointStep logabs σ ψ) n x ys) ∧
      ∀ w, chain (jointStep logabs σ ψ) n x ys w ∈ S := by
  induction n with
  | zero => exact ⟨rfl, hx⟩
  | succ n ih =>
    obtain ⟨h1, h2⟩ := ih hy.1
    rw [walkDraws, h1]
    exact drawStep_joint logabs σ hN hS h2 hy.2

/-- The positions of the walkers after `n` steps of the code from given positions, with given
draws. -/
noncomputable def walkPositions (logabs : Bool) (σ : ℝ) (amp : X → XR) (pos : W → X) (n : ℕ)
    (ys : Fin n → W → X × ℝ) : W → X :=
  (walkDraws logabs σ amp n (dataAt amp pos) ys).position

omit [NormedSpace ℝ X] [FiniteDimensional ℝ X] in
/-- A measurable wave function which gives the amplitudes at all positions off a null set and at the
initial positions. -/
theorem exists_version (vol : Measure X) [vol.IsAddHaarMeasure] (logabs : Bool) {amp : X → XR}
    {ψ : X → ℝ} (hm : AEMeasurable ψ vol) (hamp : ∀ᵐ x ∂vol, amp x = amplitudes logabs ψ x)
    (pos : W → X) (hpos : ∀ w, amp (pos w) = amplitudes logabs ψ (pos w)) {q : X → Prop}
    (hq : ∀ᵐ x ∂vol, q x) :
    ∃ (ψ₁ : X → ℝ) (N : Set X), Measurable ψ₁ ∧ ψ =ᵐ[vol] ψ₁ ∧ MeasurableSet N ∧ vol N = 0 ∧
      (∀ x ∉ N, q x) ∧
      ∀ x ∈ Nᶜ ∪ Set.range pos, amp x = amplitudes logabs ψ₁ x := by
  have hfin : (Set.range pos).Countable := (Set.finite_range pos).countable
  classical
  set ψ₁ : X → ℝ := fun x => if x ∈ Set.range pos then ψ x else hm.mk ψ x with hψ₁
  have hae : ψ =ᵐ[vol] ψ₁ := by
    filter_upwards [hm.ae_eq_mk] with x hx
    simp only [hψ₁]
    split_ifs
    · rfl
    · exact hx
  have hmeas : Measurable ψ₁ := by
    refine hm.measurable_mk.measurable_of_countable_ne (hfin.mono fun x hx => ?_)
    by_contra hc
    exact hx (by simp only [hψ₁, if_neg hc])
  obtain ⟨N, hsub, hNm, hN⟩ := exists_measurable_superset_of_null
    (ae_iff.mp ((hamp.and hae).and hq))
  have hN' : ∀ x ∉ N, (amp x = amplitudes logabs ψ x ∧ ψ x = ψ₁ x) ∧ q x := fun x hx => by
    by_contra h
    exact hx (hsub h)
  refine ⟨ψ₁, N, hmeas, hae, hNm, hN, fun x hx => (hN' x hx).2, fun x hx => ?_⟩
  rcases hx with hx | ⟨w, rfl⟩
  · rw [(hN' x hx).1.1, amplitudes, amplitudes, (hN' x hx).1.2]
  · rw [hpos w, amplitudes, amplitudes, hψ₁]
    simp

omit [NormedAddCommGroup X] [NormedSpace ℝ X] [FiniteDimensional ℝ X] [BorelSpace X] in
theorem born_congr (vol : Measure X) {ψ ψ₁ : X → ℝ} (h : ψ =ᵐ[vol] ψ₁) :
    born vol ψ = born vol ψ₁ := by
  unfold born
  have e : ∫ y, ψ y ^ 2 ∂vol = ∫ y, ψ₁ y ^ 2 ∂vol :=
    integral_congr_ae (by filter_upwards [h] with x hx; simp only [hx])
  rw [e]
  refine withDensity_congr_ae ?_
  filter_upwards [h] with x hx
  rw [hx]

/-- C90.  Walkers which start at any positions and make Metropolis steps of a fixed width with fresh
independent draws converge in law to independent walkers distributed as `|ψ|²`, uniformly on all sets
of positions of all walkers, for all wave functions which are normalisable and zero almost nowhere.
The amplitudes need to be right only almost everywhere and at the initial positions. -/
theorem metropolis_converges (vol G : Measure X) [vol.IsAddHaarMeasure] (hG : Noise vol G)
    (logabs : Bool) {σ : ℝ} (hσ : σ ≠ 0) {amp : X → XR} {ψ : X → ℝ} (hm : AEMeasurable ψ vol)
    (h0 : ∀ᵐ x ∂vol, ψ x ≠ 0) (hn : Integrable (fun x => ψ x ^ 2) vol)
    (hamp : ∀ᵐ x ∂vol, amp x = amplitudes logabs ψ x) (pos : W → X)
    (hpos : ∀ w, amp (pos w) = amplitudes logabs ψ (pos w)) {ε : ℝ} (hε : 0 < ε) :
    ∀ᶠ n in atTop, ∀ A : Set (W → X), MeasurableSet A →
      |((Measure.pi fun _ : Fin n => noiseLaw G W).map (walkPositions logabs σ amp pos n)).real A -
        (Measure.pi fun _ : W => born vol ψ).real A| ≤ ε := by
  obtain ⟨ψ₁, N, hψ₁, hae, hNm, hN, -, hS⟩ := exists_version vol logabs hm hamp pos hpos
    (q := fun _ => True) (.of_forall fun _ => trivial)
  have h0' : ∀ᵐ x ∂vol, ψ₁ x ≠ 0 := by
    filter_upwards [h0, hae] with x h1 h2
    rwa [← h2]
  have hn' : Integrable (fun x => ψ₁ x ^ 2) vol :=
    hn.congr (by filter_upwards [hae] with x hx; simp only [hx])
  have := hG.law (W := W)
  have hJ := measurable_jointStep (W := W) logabs σ hψ₁
  rw [born_congr vol hae]
  filter_upwards [joint_converges (W := W) vol G hG logabs hσ hψ₁ h0' hn' pos ε hε] with n hn A hA
  have e : (Measure.pi fun _ : Fin n => noiseLaw G W).map (walkPositions logabs σ amp pos n) =
      law (noiseLaw G W) (jointStep logabs σ ψ₁) n pos := by
    rw [← map_chain hJ]
    refine Measure.map_congr ?_
    filter_upwards [ae_along hJ (measurableSet_avoids σ hNm) (ae_avoids hG hσ hN) n pos] with ys hys
    unfold walkPositions
    rw [(walk_chain logabs σ (fun x hx => .inl hx) hS (fun w => .inr ⟨w, rfl⟩) n hys).1]
    rfl
  rw [e]
  refine Near.set (fun f hf hb => ?_) hA
  rw [integral_law hJ hf hb]
  exact hn f hf hb

end general

end Verif.Props
