import Verif.Lemmas.Race
import Verif.Props.InitialPositions

/-! The law of the initial positions when there are no more electrons than ions. -/

namespace Verif.Props

open Verif.Setup Verif.Spec Verif.Race MeasureTheory ProbabilityTheory
open scoped ENNReal NNReal

/-- The law of the numbers of `jax.random.gumbel`: `-log(-log(u))` for a uniform `u`. -/
noncomputable def gumbelLaw : Measure ℝ := unitUniform.map fun u => -Real.log (-Real.log u)

theorem measurable_gumbel : Measurable fun u : ℝ => -Real.log (-Real.log u) := by fun_prop

instance : IsProbabilityMeasure gumbelLaw :=
  Measure.isProbabilityMeasure_map measurable_gumbel.aemeasurable

/-- The probability of drawing the ions `ion 0, ion 1, …` in this order without putting one back:
every draw takes an ion which is left with probability proportional to its charge. -/
noncomputable def withoutReplacement {n k : ℕ} (charges : Fin n → ℝ) (ion : Fin k → Fin n) : ℝ :=
  ∏ e, charges (ion e) / ∑ i ∈ Finset.univ.filter (fun i => ∀ l < e, ion l ≠ i), charges i

/-- The positions of the electrons of one chain placed at ions drawn without replacement and
displaced by independent normal numbers of variance `v`. -/
noncomputable def distinctIonMixture {n k d : ℕ} (ionPos : Fin n → Fin d → ℝ)
    (charges : Fin n → ℝ) (v : ℝ≥0) : Measure (Fin k → Fin d → ℝ) :=
  ∑ ion : Fin k ↪ Fin n, ENNReal.ofReal (withoutReplacement charges ion) •
    Measure.pi fun e => Measure.pi fun c => gaussianReal (ionPos (ion e) c) v

theorem successive_withoutReplacement {n k : ℕ} (p : Fin n → ℝ) (σ : Fin k ↪ Fin n) :
    successive (fun j => p (σ j)) (∑ i : {i // i ∉ Set.range σ}, p i) =
      withoutReplacement p σ := by
  classical
  rw [successive_eq, withoutReplacement]
  refine Finset.prod_congr rfl fun e _ => ?_
  congr 1
  have h1 : ∑ i : {i // i ∉ Set.range σ}, p i =
      ∑ i ∈ Finset.univ.filter (fun i => i ∉ Set.range σ), p i := by
    rw [Finset.sum_subtype (p := fun i => i ∉ Set.range σ)]
    simp
  rw [← Finset.sum_map (Finset.Ici e) σ p, h1, ← Finset.sum_union]
  · refine Finset.sum_congr ?_ fun _ _ => rfl
    ext i
    simp only [Finset.mem_union, Finset.mem_map, Finset.mem_Ici, Finset.mem_filter,
      Finset.mem_univ, true_and, Set.mem_range, not_exists]
    constructor
    · rintro (⟨l, hl, rfl⟩ | h) j hj
      · intro hc; exact absurd (σ.injective hc ▸ hl) (not_le.2 hj)
      · exact h j
    · intro h
      by_cases hr : ∃ l, σ l = i
      · obtain ⟨l, hl⟩ := hr
        exact Or.inl ⟨l, not_lt.1 fun hc => h l hc hl, hl⟩
      · exact Or.inr fun l hl => hr ⟨l, hl⟩
  · rw [Finset.disjoint_left]
    intro i h1 h2
    obtain ⟨l, -, rfl⟩ := Finset.mem_map.1 h1
    exact (Finset.mem_filter.1 h2).2 ⟨l, rfl⟩

/-- Only the ratios of the charges matter. -/
theorem withoutReplacement_div {n k : ℕ} (charges : Fin n → ℝ) (s : ℝ) (hs : s ≠ 0)
    (ion : Fin k → Fin n) :
    withoutReplacement (fun i => charges i / s) ion = withoutReplacement charges ion := by
  unfold withoutReplacement
  refine Finset.prod_congr rfl fun e _ => ?_
  rw [← Finset.sum_div, div_div_div_cancel_right₀ hs]

theorem map_gumbel {p : ℝ} (hp : 0 < p) :
    gumbelLaw.map (fun g => Real.exp (-g) / p) = expLaw p := by
  rw [gumbelLaw, Measure.map_map (by fun_prop) measurable_gumbel, ← map_uniform hp]
  refine Measure.map_congr ?_
  have h0 : ∀ᵐ u ∂unitUniform, u ≠ 0 :=
    ae_restrict_of_ae (by simp [ae_iff])
  filter_upwards [h0, ae_restrict_mem measurableSet_Ico] with u hu h1
  have hlog : Real.log u < 0 := Real.log_neg (lt_of_le_of_ne h1.1 (Ne.symm hu)) h1.2
  simp only [Function.comp_apply, neg_neg]
  rw [Real.exp_log (by linarith)]

/-- The distribution function of the Gumbel law. -/
theorem gumbelLaw_Iic (x : ℝ) :
    gumbelLaw (Set.Iic x) = ENNReal.ofReal (Real.exp (-Real.exp (-x))) := by
  have h := map_gumbel one_pos
  have h1 := congrArg (fun μ => μ (Set.Ici (Real.exp (-x)))) h
  have hm : Measurable fun g : ℝ => Real.exp (-g) / 1 := by fun_prop
  simp only [Measure.map_apply hm measurableSet_Ici] at h1
  have hset : (fun g : ℝ => Real.exp (-g) / 1) ⁻¹' Set.Ici (Real.exp (-x)) = Set.Iic x := by
    ext g
    simp
  rw [hset] at h1
  rw [h1, ← measure_congr Ioi_ae_eq_Ici, expLaw_Ioi one_pos (Real.exp_pos _).le, mul_one]

/-- The probability that `jax.random.choice` without replacement draws the ions `ion`, in this
order. -/
theorem selection_probability {n k : ℕ} (h : k ≤ n) (charges : Fin n → ℝ)
    (hc : ∀ i, 0 < charges i) (ion : Fin k ↪ Fin n) :
    (Measure.pi fun _ => gumbelLaw)
      {g | ∀ e, chooseDistinct (fun i => charges i / ∑ j, charges j) g (Fin.castLE h e) = ion e} =
    ENNReal.ofReal (withoutReplacement charges ion) := by
  obtain rfl | hk := Nat.eq_zero_or_pos k
  · simp [withoutReplacement]
  have hn : 0 < n := lt_of_lt_of_le hk h
  have hsum : 0 < ∑ j, charges j :=
    Finset.sum_pos (fun i _ => hc i) ⟨⟨0, hn⟩, Finset.mem_univ _⟩
  set p : Fin n → ℝ := fun i => charges i / ∑ j, charges j with hpdef
  have hp : ∀ i, 0 < p i := fun i => div_pos (hc i) hsum
  have hprob := fun i => isProb (hp i)
  have hmap : (Measure.pi fun _ : Fin n => gumbelLaw).map (fun g i => Real.exp (-g i) / p i) =
      Measure.pi fun i => expLaw (p i) := by
    have : ∀ i, SigmaFinite (gumbelLaw.map fun g => Real.exp (-g) / p i) := fun i => by
      rw [map_gumbel (hp i)]; infer_instance
    rw [Measure.pi_map_pi (f := fun i g => Real.exp (-g) / p i) fun i => by fun_prop]
    simp only [map_gumbel (hp _)]
  have hfc := first_clocks h p hp ion
  rw [successive_withoutReplacement, hpdef, withoutReplacement_div charges _ hsum.ne'] at hfc
  rw [← hfc, ← hmap, Measure.map_apply (measurable_pi_lambda _ fun i => by fun_prop)]
  · congr 1
    ext g
    have : (fun i => Real.log (Real.exp (-g i) / p i)) = fun i => -g i - Real.log (p i) := by
      funext i
      rw [Real.log_div (Real.exp_pos _).ne' (hp i).ne', Real.log_exp]
    simp only [Set.mem_preimage, Set.mem_ofPred_eq, this, chooseDistinct]
  · have hlog : Measurable fun (T : Fin n → ℝ) i => Real.log (T i) :=
      measurable_pi_lambda _ fun i => by fun_prop
    exact hlog (measurableSet_sort h ion)


theorem measurableSet_selection {n k : ℕ} (h : k ≤ n) (p : Fin n → ℝ) (ion : Fin k → Fin n) :
    MeasurableSet {g | ∀ e, chooseDistinct p g (Fin.castLE h e) = ion e} := by
  have hm : Measurable fun (g : Fin n → ℝ) i => -g i - Real.log (p i) :=
    measurable_pi_lambda _ fun i => by fun_prop
  exact hm (measurableSet_sort h ion)

/-- The first electron is at ion `i` with probability proportional to the charge of the ion. -/
theorem first_electron_probability {m : ℕ} (charges : Fin (m + 1) → ℝ)
    (hc : ∀ i, 0 < charges i) (i : Fin (m + 1)) :
    (Measure.pi fun _ => gumbelLaw)
      {g | chooseDistinct (fun i => charges i / ∑ j, charges j) g 0 = i} =
    ENNReal.ofReal (charges i / ∑ j, charges j) := by
  have h := selection_probability (k := 1) (Nat.le_add_left 1 m) charges hc
    ⟨fun _ => i, Function.injective_of_subsingleton _⟩
  simpa [withoutReplacement] using h

/-- No more electrons than ions: the chains are independent, the electrons of a chain are at ions
drawn without replacement, with probabilities proportional to the charges of the ions left, plus
normal displacements whose standard deviation is `initWidth`.  (The documentation makes
`initWidth` the variance, see `init_width_is_not_the_variance`.)  `D ω` is a generator which
produces the numbers `ω` from the keys used here. -/
theorem initial_position_law_few_electrons_partial {K : Type} {m nelec d nchains : ℕ} (r : Rng K)
    (key : K) (hfew : nelec ≤ m + 1) (ionPos : Fin (m + 1) → Fin d → ℝ)
    (charges : Fin (m + 1) → ℝ) (hc : ∀ i, 0 < charges i) (initWidth : ℝ)
    (D : (Fin nchains → (Fin (m + 1) → ℝ) × (Fin nelec → Fin d → ℝ)) →
      InitDraws K nelec (m + 1) d)
    (hu : ∀ ω (c : Fin nchains), (D ω).gumbel (subKey r.split key c) = (ω c).1)
    (hn : ∀ ω (c : Fin nchains),
      (D ω).normal (subKey r.split key nchains) nchains c = (ω c).2) :
    (Measure.pi fun _ => (Measure.pi fun _ => gumbelLaw).prod
        (Measure.pi fun _ => normalNoise d)).map
      (fun ω => (initializeMolecularPos r (D ω) key nchains ionPos charges initWidth).2) =
    Measure.pi fun _ => distinctIonMixture ionPos charges (Real.toNNReal (initWidth ^ 2)) := by
  classical
  set p : Fin (m + 1) → ℝ := fun i => charges i / ∑ j, charges j with hpdef
  let G : (Fin nelec → Fin (m + 1)) → (Fin nelec → Fin d → ℝ) → Fin nelec → Fin d → ℝ :=
    fun ion z e k => ionPos (ion e) k + initWidth * z e k
  have hG : ∀ ion, Measurable (G ion) := fun ion =>
    measurable_pi_lambda _ fun e => measurable_pi_lambda _ fun k => by fun_prop
  let place : (Fin (m + 1) → ℝ) × (Fin nelec → Fin d → ℝ) → Fin nelec → Fin d → ℝ :=
    fun gz => G (fun e => chooseDistinct p gz.1 (Fin.castLE hfew e)) gz.2
  let A : (Fin nelec ↪ Fin (m + 1)) → Set (Fin (m + 1) → ℝ) := fun ion =>
    {g | ∀ e, chooseDistinct p g (Fin.castLE hfew e) = ion e}
  have hA : ∀ ion, MeasurableSet (A ion) := fun ion => measurableSet_selection hfew p ion
  have hpre : ∀ S : Set (Fin nelec → Fin d → ℝ), place ⁻¹' S =
      ⋃ ion ∈ (Finset.univ : Finset (Fin nelec ↪ Fin (m + 1))), A ion ×ˢ (G ion ⁻¹' S) := by
    intro S
    ext gz
    constructor
    · intro h
      refine Set.mem_iUnion₂.2 ⟨⟨fun e => chooseDistinct p gz.1 (Fin.castLE hfew e), fun a b hab =>
        Fin.castLE_injective hfew ((chooseDistinct p gz.1).injective hab)⟩, Finset.mem_univ _,
        fun e => rfl, h⟩
    · intro h
      obtain ⟨ion, -, hi, hz⟩ := Set.mem_iUnion₂.1 h
      have : (fun e => chooseDistinct p gz.1 (Fin.castLE hfew e)) = ion := funext hi
      show G (fun e => chooseDistinct p gz.1 (Fin.castLE hfew e)) gz.2 ∈ S
      rw [this]
      exact hz
  have hpm : Measurable place := by
    intro S hS
    rw [hpre S]
    exact Finset.measurableSet_biUnion _ fun ion _ => (hA ion).prod (hG ion hS)
  have hplace : ((Measure.pi fun _ => gumbelLaw).prod (Measure.pi fun _ => normalNoise d)).map
      place = distinctIonMixture ionPos charges (Real.toNNReal (initWidth ^ 2)) := by
    ext S hS
    rw [Measure.map_apply hpm hS, hpre S, measure_biUnion_finset, distinctIonMixture,
      Measure.finsetSum_apply]
    · refine Finset.sum_congr rfl fun ion _ => ?_
      rw [Measure.prod_prod, selection_probability hfew charges hc, Measure.smul_apply,
        smul_eq_mul, ← Measure.map_apply (hG ion) hS]
      congr 2
      have : ∀ e, SigmaFinite ((normalNoise d).map fun z k =>
          ionPos (ion e) k + initWidth * z k) := fun e => by
        rw [map_normalNoise]; infer_instance
      have hpi := Measure.pi_map_pi (μ := fun _ : Fin nelec => normalNoise d)
        (f := fun e z k => ionPos (ion e) k + initWidth * z k) fun e => Measurable.aemeasurable (by fun_prop)
      simp only [map_normalNoise] at hpi
      exact hpi
    · intro i _ j _ hij
      rw [Function.onFun, Set.disjoint_left]
      rintro ⟨g, z⟩ ⟨h1, -⟩ ⟨h2, -⟩
      exact hij (DFunLike.ext _ _ fun e => (h1 e).symm.trans (h2 e))
    · exact fun ion _ => (hA ion).prod (hG ion hS)
  have hfun : (fun ω => (initializeMolecularPos r (D ω) key nchains ionPos charges
      initWidth).2) = fun ω c => place (ω c) := by
    funext ω c e k
    rw [initial_positions_draws]
    simp only [hn, assignIons, dif_pos hfew, hu]
    change takeRow ionPos _ k + _ = ionPos _ k + _
    congr 2
    unfold takeRow
    congr 1
    exact Fin.ext (min_eq_left (Nat.lt_succ_iff.1 (Fin.is_lt _)))
  have hprob : IsProbabilityMeasure (((Measure.pi fun _ => gumbelLaw).prod
      (Measure.pi fun _ => normalNoise d)).map place) :=
    Measure.isProbabilityMeasure_map hpm.aemeasurable
  rw [hfun, ← hplace]
  exact Measure.pi_map_pi (f := fun _ => place) fun _ => hpm.aemeasurable

/-- A generator which produces the Gumbel and normal numbers `ω` when started from seed 0. -/
noncomputable def givenGumbel {nchains nelec nion d : ℕ}
    (ω : Fin nchains → (Fin nion → ℝ) × (Fin nelec → Fin d → ℝ)) : InitDraws Key nelec nion d where
  uniform := fun _ _ => 0
  gumbel := fun k => if h : keyDepth k - 1 < nchains then (ω ⟨_, h⟩).1 else 0
  normal := fun _ _ c => if h : (c : ℕ) < nchains then (ω ⟨c, h⟩).2 else 0

theorem givenGumbel_gumbel {nchains nelec nion d : ℕ}
    (ω : Fin nchains → (Fin nion → ℝ) × (Fin nelec → Fin d → ℝ)) (c : Fin nchains) :
    (givenGumbel ω).gumbel (subKey freeRng.split (.seed 0) c) = (ω c).1 := by
  have h : keyDepth (subKey freeRng.split (.seed 0) c) - 1 = c := by
    rw [depth_subKey]; simp [keyDepth]
  simp only [givenGumbel, h, c.2, dif_pos]

theorem givenGumbel_normal {nchains nelec nion d : ℕ}
    (ω : Fin nchains → (Fin nion → ℝ) × (Fin nelec → Fin d → ℝ)) (c : Fin nchains) :
    (givenGumbel ω).normal (subKey freeRng.split (.seed 0) nchains) nchains c = (ω c).2 := by
  simp only [givenGumbel, c.2, dif_pos]

/-- Two electrons and ions of charges 3, 2 and 1, in five chains. -/
example (ionPos : Fin 3 → Fin 3 → ℝ) :
    (Measure.pi fun _ => (Measure.pi fun _ => gumbelLaw).prod
        (Measure.pi fun _ => normalNoise 3)).map
      (fun ω : Fin 5 → (Fin 3 → ℝ) × (Fin 2 → Fin 3 → ℝ) =>
        (initializeMolecularPos freeRng (givenGumbel ω) (.seed 0) 5 ionPos ![3, 2, 1] 1).2) =
    Measure.pi fun _ => distinctIonMixture ionPos ![3, 2, 1] 1 := by
  have h := initial_position_law_few_electrons_partial freeRng (.seed 0) (m := 2) (nelec := 2)
    (d := 3) (nchains := 5) (by norm_num) ionPos ![3, 2, 1]
    (by intro i; fin_cases i <;> norm_num) 1 givenGumbel givenGumbel_gumbel givenGumbel_normal
  rw [h]
  norm_num

/-- The probability that the second of them is first drawn and then the third: 2/6 times 1/4. -/
example : withoutReplacement ![3, 2, 1] (![1, 2] : Fin 2 → Fin 3) = 2 / 6 * (1 / 4) := by
  have h : (Finset.univ.filter fun i : Fin 3 => (1 : Fin 3) ≠ i) = {0, 2} := by decide
  simp [withoutReplacement, Fin.prod_univ_two, Fin.sum_univ_three, h]
  norm_num

/-- Drawing without replacement the later electrons are not at an ion with probability
proportional to its charge: of two electrons around ions of charge 2 and 1 the second is at the
first ion with probability 1/3. -/
theorem second_electron_not_proportional :
    (Measure.pi fun _ => gumbelLaw)
      {g | chooseDistinct (fun i => ![(2 : ℝ), 1] i / ∑ j, ![(2 : ℝ), 1] j) g 1 = 0} =
    ENNReal.ofReal (1 / 3) := by
  have h := selection_probability (k := 2) (n := 2) le_rfl ![2, 1]
    (by intro i; fin_cases i <;> norm_num) (Equiv.swap 0 1).toEmbedding
  have hv : withoutReplacement ![(2 : ℝ), 1] (Equiv.swap (0 : Fin 2) 1).toEmbedding = 1 / 3 := by
    have h : (Finset.univ.filter fun i : Fin 2 => (1 : Fin 2) ≠ i) = {0} := by decide
    simp [withoutReplacement, Fin.prod_univ_two, h]
    norm_num
  rw [hv] at h
  rw [← h]
  congr 1
  ext g
  simp only [Set.mem_ofPred_eq, Fin.forall_fin_two]
  generalize chooseDistinct (fun i => ![(2 : ℝ), 1] i / ∑ j, ![(2 : ℝ), 1] j) g = τ
  revert τ
  decide

end Verif.Props
