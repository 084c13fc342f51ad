import Verif.Lemmas.Invariance
import Verif.Props.Metropolis

/-!
C19: the fixed-width Gaussian Metropolis step, and hence any number of steps, leaves the
density proportional to `|psi|^2` invariant.

`jax.random.normal` is taken to be independent standard normal draws and
`jax.random.uniform` independent uniform draws on [0,1); everything else is the model of the
code (`MCMC.paStep`).
-/

namespace Verif.Props
open MeasureTheory ProbabilityTheory ENNReal MCMC Spec Reversible

variable {ι W : Type} [Fintype ι] [Fintype W]

/-- Law of `jax.random.normal` for one walker. -/
noncomputable def stdNormal (ι : Type) [Fintype ι] : Measure (ι → ℝ) :=
  Measure.pi fun _ => gaussianReal 0 1

instance : IsProbabilityMeasure (stdNormal ι) := by unfold stdNormal; infer_instance

/-- The measure `c |psi|^2 dx` on the positions of one walker. -/
noncomputable def psiSquared (c : ℝ) (ψ : (ι → ℝ) → ℝ) : Measure (ι → ℝ) :=
  volume.withDensity fun x => ENNReal.ofReal (c * ψ x ^ 2)

instance (c : ℝ) (ψ : (ι → ℝ) → ℝ) : SigmaFinite (psiSquared c ψ) := by
  unfold psiSquared
  exact SigmaFinite.withDensity_ofReal _

/-- The amplitude stored by the code for the wavefunction value `ψ x`. -/
noncomputable def amplitudeOf (logabs : Bool) (r : ℝ) : XR :=
  if logabs then XR.log (.fin |r|) else .fin r

/-- The amplitudes stored by the code for the wavefunction `ψ`. -/
noncomputable def amplitudes {X : Type} (logabs : Bool) (ψ : X → ℝ) (x : X) : XR :=
  amplitudeOf logabs (ψ x)

section step

variable {X : Type} [AddCommGroup X] [Module ℝ X]

/-- The model's step, fed with given normal and uniform draws for each walker. -/
noncomputable def drawStep (logabs : Bool) (σ : ℝ) (amp : X → XR)
    (d : PAData W X Unit) (y : W → X × ℝ) : PAData W X Unit :=
  (paStep (P := Unit) (K := Unit) (fun k => (k, k)) (fun _ w => (y w).2) (fun _ w => (y w).1)
    (fun _ => .fin 0) (fun _ _ => amp) (fun _ _ => σ) none logabs
    () d ()).2.1

/-- `n` steps with given draws. -/
noncomputable def walkDraws (logabs : Bool) (σ : ℝ) (amp : X → XR) :
    (n : ℕ) → PAData W X Unit → (Fin n → W → X × ℝ) → PAData W X Unit
  | 0, d, _ => d
  | n + 1, d, ys =>
    drawStep logabs σ amp (walkDraws logabs σ amp n d fun i => ys i.castSucc) (ys (Fin.last n))

/-- Walker data at given positions. -/
noncomputable def dataAt (amp : X → XR) (pos : W → X) :
    PAData W X Unit :=
  initialData (P := Unit) (fun _ _ => amp) pos () ()

omit [Fintype W] in
/-- The walk of the code with keys is the walk with the draws made from its keys. -/
theorem walk_uses_draws {K : Type} (split : K → K × K) (uniform : K → W → ℝ)
    (normal : K → W → X) (meanFn : (W → XR) → XR) (logabs : Bool) (σ : ℝ)
    (amp : X → XR) (d : PAData W X Unit) (k : K) (n : ℕ) :
    let step := paStep (P := Unit) split uniform normal meanFn
      (fun _ _ => amp) (fun _ _ => σ) none logabs
    let key := fun i => (iterSteps step () i (d, k)).2
    (iterSteps step () n (d, k)).1 = walkDraws logabs σ amp n d
      (fun i w => (normal (split (split (key i)).1).2 w, uniform (split (key i)).2 w)) := by
  intro step key
  induction n with
  | zero => rfl
  | succ n ih =>
    show (step () (iterSteps step () n (d, k)).1 (iterSteps step () n (d, k)).2).2.1 = _
    rw [walkDraws]
    simp only [Fin.val_castSucc, Fin.val_last]
    rw [← ih]
    rfl

end step

/-! The acceptance as a real function. -/

open Classical in
/-- acceptance probability as a function of the wavefunction values -/
noncomputable def accProb (logabs : Bool) (x y : ℝ) : ℝ :=
  if logabs = true ∧ x = 0 ∧ y = 0 then 0
  else if x * x < y * y ∨ x * x = 0 then 1 else y * y / (x * x)

theorem mask_iff (logabs : Bool) (x y u : ℝ) (hu : 0 ≤ u) :
    XR.lt (.fin u) (accept logabs (amplitudeOf logabs x) (amplitudeOf logabs y)) ↔
      u < accProb logabs x y := by
  cases logabs with
  | false =>
    simp only [accept, amplitudeOf, accProb, Bool.false_eq_true, if_false, false_and,
      acceptPlain_fin, XR.fin_lt]
  | true =>
    simp only [accept, amplitudeOf, accProb, if_true, true_and]
    by_cases h : x = 0 ∧ y = 0
    · rw [if_pos h, h.1, h.2, abs_zero, XR.log_zero, acceptLog_ninf_ninf]
      simp only [XR.not_lt_nan, false_iff]
      exact not_lt.mpr hu
    · rw [if_neg h, ← acceptances_agree_partial x y (by tauto), acceptPlain_fin, XR.fin_lt]

theorem accProb_nonneg (b : Bool) (x y : ℝ) : 0 ≤ accProb b x y := by
  unfold accProb
  split_ifs
  · exact le_rfl
  · norm_num
  · exact div_nonneg (mul_self_nonneg y) (mul_self_nonneg x)

theorem accProb_le_one (b : Bool) (x y : ℝ) : accProb b x y ≤ 1 := by
  unfold accProb
  split_ifs with h1 h2
  · norm_num
  · exact le_rfl
  · push Not at h2; exact (sq_div_le_one h2.2 (not_lt.mpr h2.1)).2

theorem accProb_balance (b : Bool) (x y : ℝ) :
    x ^ 2 * accProb b x y = y ^ 2 * accProb b y x := by
  by_cases h : x = 0 ∧ y = 0
  · rw [h.1, h.2]
  have h' : ¬ (b = true ∧ x = 0 ∧ y = 0) := by tauto
  have h'' : ¬ (b = true ∧ y = 0 ∧ x = 0) := by tauto
  have := detailed_balance_plain x y
  rw [acceptPlain_fin, acceptPlain_fin, XR.fin_mul, XR.fin_mul, XR.fin_inj] at this
  unfold accProb
  rw [if_neg h', if_neg h'']
  exact this

theorem measurable_accProb (b : Bool) : Measurable fun z : ℝ × ℝ => accProb b z.1 z.2 := by
  unfold accProb
  refine Measurable.ite ?_ measurable_const (Measurable.ite ?_ measurable_const (by fun_prop))
  · refine (MeasurableSet.const _).inter (MeasurableSet.inter ?_ ?_)
    · exact measurableSet_eq_fun measurable_fst measurable_const
    · exact measurableSet_eq_fun measurable_snd measurable_const
  · refine MeasurableSet.union ?_ ?_
    · exact measurableSet_lt (f := fun z : ℝ × ℝ => z.1 * z.1) (g := fun z => z.2 * z.2)
        (by fun_prop) (by fun_prop)
    · exact measurableSet_eq_fun (f := fun z : ℝ × ℝ => z.1 * z.1) (by fun_prop)
        measurable_const

theorem stdNormal_neg : (stdNormal ι).map (fun x => -x) = stdNormal ι := by
  unfold stdNormal
  have : (fun x : ι → ℝ => -x) = fun x i => -(x i) := rfl
  have h : (gaussianReal 0 1).map (fun x => -x) = gaussianReal 0 1 := by
    rw [gaussianReal_map_neg, neg_zero]
  rw [this]
  exact (measurePreserving_pi (fun _ : ι => gaussianReal 0 1) (fun _ : ι => gaussianReal 0 1)
    (f := fun _ x => -x) fun _ => ⟨measurable_neg, h⟩).map_eq

theorem scaled_neg (σ : ℝ) : ((stdNormal ι).map (fun x => σ • x)).map (fun x => -x) =
    (stdNormal ι).map (fun x => σ • x) := by
  have hs : Measurable fun x : ι → ℝ => σ • x := measurable_const_smul σ
  rw [Measure.map_map measurable_neg hs]
  conv_rhs => rw [← stdNormal_neg, Measure.map_map hs measurable_neg]
  congr 1
  funext x
  simp

omit [Fintype W] in
/-- One walker: the move made by the model. -/
theorem drawStep_position {X : Type} [AddCommGroup X] [Module ℝ X] (logabs : Bool) (σ : ℝ)
    (ψ : X → ℝ) (pos : W → X) (y : W → X × ℝ) (w : W) (hu : 0 ≤ (y w).2) :
    (drawStep logabs σ (amplitudes logabs ψ) (dataAt (amplitudes logabs ψ) pos) y).position w =
      arMove (fun a b => accProb logabs (ψ a) (ψ b)) (pos w) (σ • (y w).1) (y w).2 := by
  have h := stays_or_moves (P := Unit) (K := Unit) (fun k => (k, k)) (fun _ w => (y w).2)
    (fun _ w => (y w).1) (fun _ => .fin 0) (fun _ _ x => amplitudeOf logabs (ψ x))
    (fun _ _ => σ) none logabs () (dataAt (amplitudes logabs ψ) pos) () w
  simp only at h
  have hmask := mask_iff logabs (ψ (pos w)) (ψ (pos w + σ • (y w).1)) (y w).2 hu
  unfold arMove
  split_ifs with hm
  · exact (h.1 (hmask.mpr hm)).1
  · exact (h.2 (fun h2 => hm (hmask.mp h2))).1

/-- Law of the draws used in one step. -/
noncomputable def drawLaw (ι W : Type) [Fintype ι] [Fintype W] :
    Measure (W → (ι → ℝ) × ℝ) :=
  Measure.pi fun _ => (stdNormal ι).prod unif

instance : IsProbabilityMeasure (drawLaw ι W) := by unfold drawLaw; infer_instance

/-- One walker, in the form of a measure preserving map. -/
theorem arMove_preserves (logabs : Bool) (σ c : ℝ) (hc : 0 ≤ c) (ψ : (ι → ℝ) → ℝ)
    (hψ : Measurable ψ) :
    MeasurePreserving (fun z : (ι → ℝ) × (ι → ℝ) × ℝ =>
        arMove (fun a b => accProb logabs (ψ a) (ψ b)) z.1 (σ • z.2.1) z.2.2)
      ((psiSquared c ψ).prod ((stdNormal ι).prod unif)) (psiSquared c ψ) := by
  have ha : Measurable fun z : (ι → ℝ) × (ι → ℝ) => accProb logabs (ψ z.1) (ψ z.2) :=
    (measurable_accProb logabs).comp ((hψ.comp measurable_fst).prodMk (hψ.comp measurable_snd))
  have hs : Measurable fun x : ι → ℝ => σ • x := measurable_const_smul σ
  have hprob : IsProbabilityMeasure ((stdNormal ι).map fun x => σ • x) :=
    Measure.isProbabilityMeasure_map hs.aemeasurable
  have key := arMove_invariant (X := ι → ℝ) volume ((stdNormal ι).map fun x => σ • x)
    (scaled_neg σ) (fun x => ENNReal.ofReal (c * ψ x ^ 2))
    ((measurable_const.mul (hψ.pow_const 2)).ennreal_ofReal)
    (fun a b => accProb logabs (ψ a) (ψ b)) ha (fun _ _ => accProb_nonneg _ _ _)
    (fun _ _ => accProb_le_one _ _ _) (by
      intro x y
      rw [← ENNReal.ofReal_mul (by positivity), ← ENNReal.ofReal_mul (by positivity), mul_assoc,
        mul_assoc, accProb_balance])
  have h1 : MeasurePreserving (fun z : (ι → ℝ) × (ι → ℝ) × ℝ => (z.1, (σ • z.2.1, z.2.2)))
      ((psiSquared c ψ).prod ((stdNormal ι).prod unif))
      ((psiSquared c ψ).prod (((stdNormal ι).map fun x => σ • x).prod unif)) :=
    (MeasurePreserving.id _).prod ((hs.measurePreserving _).prod (MeasurePreserving.id _))
  have h2 : MeasurePreserving (fun z : (ι → ℝ) × (ι → ℝ) × ℝ =>
      arMove (fun a b => accProb logabs (ψ a) (ψ b)) z.1 z.2.1 z.2.2)
      ((psiSquared c ψ).prod (((stdNormal ι).map fun x => σ • x).prod unif))
      (psiSquared c ψ) := ⟨measurable_arMove ha, key⟩
  exact h2.comp h1

/-- All walkers at once, one step, as a measure preserving map. -/
theorem joint_preserves (logabs : Bool) (σ c : ℝ) (hc : 0 ≤ c) (ψ : (ι → ℝ) → ℝ)
    (hψ : Measurable ψ) :
    MeasurePreserving (fun z : (W → ι → ℝ) × (W → (ι → ℝ) × ℝ) => fun w =>
        arMove (fun a b => accProb logabs (ψ a) (ψ b)) (z.1 w) (σ • (z.2 w).1) (z.2 w).2)
      ((Measure.pi fun _ : W => psiSquared c ψ).prod (drawLaw ι W))
      (Measure.pi fun _ : W => psiSquared c ψ) := by
  have h1 := (measurePreserving_arrowProdEquivProdArrow (ι → ℝ) ((ι → ℝ) × ℝ) W
    (fun _ => psiSquared c ψ) (fun _ => (stdNormal ι).prod unif)).symm
  have h2 := measurePreserving_pi (fun _ : W => (psiSquared c ψ).prod ((stdNormal ι).prod unif))
    (fun _ : W => psiSquared c ψ) (fun _ => arMove_preserves logabs σ c hc ψ hψ)
  exact h2.comp h1

/-- The uniform draws are almost surely non-negative. -/
theorem draws_nonneg : ∀ᵐ y ∂(drawLaw ι W), ∀ w, 0 ≤ (y w).2 := by
  rw [Filter.eventually_all]
  intro w
  have h1 : ∀ᵐ u ∂unif, (0 : ℝ) ≤ u := by
    unfold unif
    filter_upwards [ae_restrict_mem measurableSet_Ico] with u hu using hu.1
  have h2 : ∀ᵐ z ∂((stdNormal ι).prod unif), (0 : ℝ) ≤ z.2 :=
    (Measure.quasiMeasurePreserving_snd (μ := stdNormal ι) (ν := unif)).ae h1
  exact (Measure.quasiMeasurePreserving_eval
    (fun _ : W => (stdNormal ι).prod unif) w).ae h2

/-- C19.  If the walkers are independent with density `c |psi|^2` (any normalisation `c`,
nodes of `psi` allowed), then after any number of fixed-width Gaussian Metropolis steps of the
code with fresh independent draws the walkers still have that law; both for plain and for log
amplitudes. -/
theorem metropolis_leaves_psi_squared_invariant (logabs : Bool) (σ c : ℝ) (hc : 0 ≤ c)
    (ψ : (ι → ℝ) → ℝ) (hψ : Measurable ψ) (n : ℕ) :
    Measure.map (fun z : (W → ι → ℝ) × (Fin n → W → (ι → ℝ) × ℝ) =>
        (walkDraws logabs σ (amplitudes logabs ψ) n (dataAt (amplitudes logabs ψ) z.1) z.2).position)
      ((Measure.pi fun _ : W => psiSquared c ψ).prod (Measure.pi fun _ => drawLaw ι W)) =
    Measure.pi fun _ : W => psiSquared c ψ := by
  -- a measure preserving function which agrees almost surely with the walk
  suffices H : ∃ F : (W → ι → ℝ) × (Fin n → W → (ι → ℝ) × ℝ) → (W → ι → ℝ),
      MeasurePreserving F
        ((Measure.pi fun _ : W => psiSquared c ψ).prod (Measure.pi fun _ => drawLaw ι W))
        (Measure.pi fun _ : W => psiSquared c ψ) ∧
      ∀ᵐ z ∂((Measure.pi fun _ : W => psiSquared c ψ).prod
          (Measure.pi fun _ : Fin n => drawLaw ι W)),
        walkDraws logabs σ (amplitudes logabs ψ) n (dataAt (amplitudes logabs ψ) z.1) z.2 = dataAt (amplitudes logabs ψ) (F z) by
    obtain ⟨F, hF, hae⟩ := H
    conv_rhs => rw [← hF.map_eq]
    refine Measure.map_congr ?_
    filter_upwards [hae] with z hz
    rw [hz]; rfl
  induction n with
  | zero =>
    refine ⟨fun z => z.1, ?_, Filter.Eventually.of_forall fun z => rfl⟩
    exact measurePreserving_fst
  | succ n ih =>
    obtain ⟨F, hF, hae⟩ := ih
    -- split off the draws of the last step
    have hsplit := measurePreserving_piFinSuccAbove
      (fun _ : Fin (n + 1) => drawLaw ι W) (Fin.last n)
    set μ := Measure.pi fun _ : W => psiSquared c ψ with hμ
    set ν := drawLaw ι W with hν
    let g : (W → ι → ℝ) × (Fin (n + 1) → W → (ι → ℝ) × ℝ) →
        ((W → ι → ℝ) × (Fin n → W → (ι → ℝ) × ℝ)) × (W → (ι → ℝ) × ℝ) :=
      fun z => ((z.1, fun i => z.2 i.castSucc), z.2 (Fin.last n))
    have hg : MeasurePreserving g (μ.prod (Measure.pi fun _ => ν))
        ((μ.prod (Measure.pi fun _ => ν)).prod ν) := by
      have e1 : MeasurePreserving
          (Prod.map id (MeasurableEquiv.piFinSuccAbove
            (fun _ : Fin (n + 1) => W → (ι → ℝ) × ℝ) (Fin.last n)))
          (μ.prod (Measure.pi fun _ => ν)) (μ.prod (ν.prod (Measure.pi fun _ => ν))) :=
        (MeasurePreserving.id μ).prod hsplit
      have e2 : MeasurePreserving (Prod.map id Prod.swap)
          (μ.prod (ν.prod (Measure.pi fun _ : Fin n => ν)))
          (μ.prod ((Measure.pi fun _ : Fin n => ν).prod ν)) :=
        (MeasurePreserving.id μ).prod Measure.measurePreserving_swap
      have e3 := (measurePreserving_prodAssoc μ (Measure.pi fun _ : Fin n => ν) ν).symm
      have := e3.comp (e2.comp e1)
      convert this using 1
      funext z
      simp only [g, Function.comp, Prod.map, id, MeasurableEquiv.prodAssoc]
      refine Prod.ext (Prod.ext rfl ?_) rfl
      funext i
      show z.2 i.castSucc = z.2 ((Fin.last n).succAbove i)
      rw [Fin.succAbove_last]
    have hstep := joint_preserves (W := W) logabs σ c hc ψ hψ
    have hFn : MeasurePreserving (Prod.map F id)
        ((μ.prod (Measure.pi fun _ : Fin n => ν)).prod ν) (μ.prod ν) :=
      hF.prod (MeasurePreserving.id ν)
    refine ⟨_, (hstep.comp hFn).comp hg, ?_⟩
    have hae1 : ∀ᵐ q ∂((μ.prod (Measure.pi fun _ : Fin n => ν)).prod ν),
        walkDraws logabs σ (amplitudes logabs ψ) n (dataAt (amplitudes logabs ψ) q.1.1) q.1.2 = dataAt (amplitudes logabs ψ) (F q.1) :=
      Measure.quasiMeasurePreserving_fst.ae hae
    have hae2 : ∀ᵐ q ∂((μ.prod (Measure.pi fun _ : Fin n => ν)).prod ν),
        ∀ w, 0 ≤ (q.2 w).2 := Measure.quasiMeasurePreserving_snd.ae draws_nonneg
    have hboth := hg.quasiMeasurePreserving.ae (hae1.and hae2)
    filter_upwards [hboth] with z hz
    obtain ⟨h1, h2⟩ := hz
    simp only [g] at h1 h2
    rw [walkDraws, h1]
    have hpos : (drawStep logabs σ (amplitudes logabs ψ) (dataAt (amplitudes logabs ψ) (F (z.1, fun i => z.2 i.castSucc)))
        (z.2 (Fin.last n))).position = fun w =>
        arMove (fun a b => accProb logabs (ψ a) (ψ b)) (F (z.1, fun i => z.2 i.castSucc) w)
          (σ • (z.2 (Fin.last n) w).1) (z.2 (Fin.last n) w).2 := by
      funext w
      exact drawStep_position logabs σ ψ _ _ w (h2 w)
    -- the stored amplitudes follow the positions (C20)
    have hcons : Consistent (P := Unit) (fun _ _ => amplitudes logabs ψ) ()
        (drawStep logabs σ (amplitudes logabs ψ) (dataAt (amplitudes logabs ψ) (F (z.1, fun i => z.2 i.castSucc)))
          (z.2 (Fin.last n))) :=
      step_consistent (P := Unit) (K := Unit) _ _ _ _ _ _ _ _ _ _ _ (fun w => rfl)
    have hdata : ∀ d : PAData W (ι → ℝ) Unit,
        Consistent (P := Unit) (fun _ _ => amplitudes logabs ψ) () d →
        d = dataAt (amplitudes logabs ψ) d.position := by
      rintro ⟨p, a, ⟨⟩⟩ h
      have : a = fun w => amplitudeOf logabs (ψ (p w)) := funext h
      rw [this]; rfl
    rw [hdata _ hcons, hpos]
    rfl

/-- A measurable wavefunction with a node. -/
example : Measurable (fun x : Fin 1 → ℝ => x 0 * Real.exp (-(x 0) ^ 2)) := by fun_prop

open Classical in
/-- A wavefunction for which the target is a probability measure: the box state. -/
example : psiSquared 1 (fun x : Fin 1 → ℝ => if x 0 ∈ Set.Ico (0 : ℝ) 1 then 1 else 0)
    Set.univ = 1 := by
  unfold psiSquared
  rw [withDensity_apply _ MeasurableSet.univ, Measure.restrict_univ]
  have : ∀ x : Fin 1 → ℝ, ENNReal.ofReal (1 * (if x 0 ∈ Set.Ico (0 : ℝ) 1 then (1 : ℝ) else 0) ^ 2)
      = (Set.univ.pi fun _ : Fin 1 => Set.Ico (0 : ℝ) 1).indicator 1 x := by
    intro x
    by_cases h : x 0 ∈ Set.Ico (0 : ℝ) 1
    · have h2 : x ∈ Set.univ.pi fun _ : Fin 1 => Set.Ico (0 : ℝ) 1 := by
        intro i _; rwa [Subsingleton.elim i 0]
      rw [if_pos h, Set.indicator_of_mem h2]; simp
    · have h2 : x ∉ Set.univ.pi fun _ : Fin 1 => Set.Ico (0 : ℝ) 1 := fun h2 => h (h2 0 trivial)
      rw [if_neg h, Set.indicator_of_notMem h2]; simp
  simp_rw [this]
  rw [lintegral_indicator_one (MeasurableSet.univ_pi fun _ => measurableSet_Ico),
    Real.volume_pi_Ico]
  simp

end Verif.Props
