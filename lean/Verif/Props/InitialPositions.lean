import Verif.Props.Keys
import Mathlib.MeasureTheory.Constructions.Pi
import Mathlib.MeasureTheory.Measure.Prod
import Mathlib.Probability.Distributions.Gaussian.Real
import Mathlib.Tactic

/-! Properties of the initial electron positions. -/

namespace Verif.Props

open Verif.Setup Verif.Spec MeasureTheory ProbabilityTheory
open scoped ENNReal NNReal

/-! ### Choosing an ion with given probabilities -/

section choose
variable {m : ℕ} (p : Fin (m + 1) → ℝ)

theorem cumsum_mono (hp : ∀ i, 0 ≤ p i) : Monotone (cumsum p) := fun _ _ hij =>
  Finset.sum_le_sum_of_subset_of_nonneg (Finset.Iic_subset_Iic.2 hij) fun k _ _ => hp k

theorem cumsum_last : cumsum p (Fin.last m) = ∑ i, p i := by
  unfold cumsum
  congr 1
  ext i
  simp [Fin.le_last]

theorem cumsum_lt_add (hp : ∀ i, 0 ≤ p i) {i j : Fin (m + 1)} (h : i < j) :
    cumsum p i ≤ cumsum p j - p j := by
  have : cumsum p j = p j + ∑ k ∈ Finset.Iio j, p k := by
    unfold cumsum
    rw [← Finset.insert_erase (Finset.mem_Iic.2 (le_refl j)),
      Finset.sum_insert (Finset.notMem_erase _ _)]
    congr 2
    ext k
    simp [lt_iff_le_and_ne, and_comm]
  rw [this, add_sub_cancel_left]
  exact Finset.sum_le_sum_of_subset_of_nonneg
    (fun k hk => Finset.mem_Iio.2 (lt_of_le_of_lt (Finset.mem_Iic.1 hk) h)) fun k _ _ => hp k

theorem cumsum_pred {i j : Fin (m + 1)} (h : (j : ℕ) = i + 1) :
    cumsum p i = cumsum p j - p j := by
  have : cumsum p j = p j + cumsum p i := by
    unfold cumsum
    rw [← Finset.insert_erase (Finset.mem_Iic.2 (le_refl j)),
      Finset.sum_insert (Finset.notMem_erase _ _)]
    congr 2
    ext k
    simp only [Finset.mem_erase, Finset.mem_Iic, ne_eq, Fin.ext_iff, Fin.le_def]
    omega
  rw [this, add_sub_cancel_left]

theorem cumsum_zero : cumsum p 0 = p 0 := by
  unfold cumsum
  rw [show Finset.Iic (0 : Fin (m + 1)) = {0} from ?_, Finset.sum_singleton]
  ext k
  simp

/-- Ion `i` is chosen exactly when the uniform number falls into its interval, of length
`p i`. -/
theorem chooseReplace_eq_iff (hp : ∀ i, 0 ≤ p i) (hsum : ∑ i, p i = 1) (u : ℝ)
    (hu : u ∈ Set.Ico (0 : ℝ) 1) (i : Fin (m + 1)) :
    chooseReplace p u = i ↔ u ∈ Set.Ico (1 - cumsum p i) (1 - cumsum p i + p i) := by
  classical
  have hmono := cumsum_mono p hp
  set r := 1 - u with hr
  have hrpos : 0 < r := by have := hu.2; linarith
  have hset : ∀ n : Fin (m + 1), (Finset.univ.filter fun j => cumsum p j < r).card = n ↔
      (Finset.univ.filter fun j => cumsum p j < r) = Finset.Iio n := by
    intro n
    constructor
    · intro h
      refine Finset.eq_of_subset_of_card_le ?_ ?_
      · intro j hj
        rw [Finset.mem_Iio]
        by_contra hn
        have hsub : Finset.Iic j ⊆ Finset.univ.filter fun j => cumsum p j < r := by
          intro k hk
          rw [Finset.mem_filter] at hj ⊢
          exact ⟨Finset.mem_univ _, lt_of_le_of_lt (hmono (Finset.mem_Iic.1 hk)) hj.2⟩
        have := Finset.card_le_card hsub
        rw [Fin.card_Iic, h] at this
        have : (n : ℕ) ≤ j := by
          rw [not_lt] at hn; exact hn
        omega
      · rw [Fin.card_Iio, h]
    · intro h; rw [h, Fin.card_Iio]
  have hcl : cumsum p (Fin.last m) * (1 - u) = r := by rw [cumsum_last, hsum, one_mul]
  unfold chooseReplace
  rw [hcl, hset i]
  constructor
  · intro h
    have h1 : ¬ cumsum p i < r := by
      intro hlt
      have : i ∈ Finset.Iio i := by rw [← h]; simp [hlt]
      exact lt_irrefl _ (Finset.mem_Iio.1 this)
    have h2 : cumsum p i - p i < r := by
      rcases Nat.eq_zero_or_pos (i : ℕ) with h0 | h0
      · have : i = 0 := Fin.ext h0
        rw [this, cumsum_zero, sub_self]; exact hrpos
      · let j : Fin (m + 1) := ⟨i - 1, by have := i.2; omega⟩
        have hj : (i : ℕ) = j + 1 := by simp only [j]; omega
        rw [← cumsum_pred p hj]
        have : j ∈ Finset.univ.filter fun j => cumsum p j < r := by
          rw [h, Finset.mem_Iio, Fin.lt_def]; omega
        exact (Finset.mem_filter.1 this).2
    constructor <;> linarith
  · rintro ⟨h1, h2⟩
    ext j
    simp only [Finset.mem_filter, Finset.mem_univ, true_and, Finset.mem_Iio]
    constructor
    · intro hj
      by_contra hn
      have := hmono (not_lt.1 hn)
      linarith
    · intro hj
      have := cumsum_lt_add p hp hj
      linarith

theorem chooseReplace_lt (hsum : ∑ i, p i = 1) (u : ℝ) (hu : 0 ≤ u) :
    chooseReplace p u < m + 1 := by
  classical
  unfold chooseReplace
  rw [cumsum_last, hsum, one_mul]
  have : (Finset.univ.filter fun j => cumsum p j < 1 - u) ⊆ Finset.univ.erase (Fin.last m) := by
    intro j hj
    rw [Finset.mem_erase]
    refine ⟨?_, Finset.mem_univ _⟩
    rintro rfl
    have := (Finset.mem_filter.1 hj).2
    rw [cumsum_last, hsum] at this
    linarith
  have h := Finset.card_le_card this
  rw [Finset.card_erase_of_mem (Finset.mem_univ _), Finset.card_univ, Fintype.card_fin] at h
  omega

/-- Uniform numbers on [0, 1). -/
noncomputable def unitUniform : Measure ℝ := volume.restrict (Set.Ico 0 1)

instance : IsProbabilityMeasure unitUniform := ⟨by
  rw [unitUniform, Measure.restrict_apply_univ, Real.volume_Ico]; simp⟩

theorem measurable_chooseReplace : Measurable (chooseReplace p) := by
  classical
  have : chooseReplace p = fun u => ∑ i : Fin (m + 1),
      if cumsum p i < cumsum p (Fin.last m) * (1 - u) then 1 else 0 := by
    funext u
    unfold chooseReplace
    rw [Finset.card_filter]
  rw [this]
  refine Finset.measurable_sum _ fun i _ => Measurable.ite ?_ measurable_const measurable_const
  exact measurableSet_lt measurable_const (by fun_prop)

/-- Ion `i` is chosen with probability `p i`. -/
theorem choose_probability (hp : ∀ i, 0 ≤ p i) (hsum : ∑ i, p i = 1) (i : Fin (m + 1)) :
    unitUniform {u | chooseReplace p u = i} = ENNReal.ofReal (p i) := by
  have hmeas : MeasurableSet {u | chooseReplace p u = i} :=
    measurable_chooseReplace p (measurableSet_singleton (i : ℕ))
  have h1 : cumsum p i ≤ 1 := by
    rw [← hsum, ← cumsum_last]; exact cumsum_mono p hp (Fin.le_last i)
  have h2 : p i ≤ cumsum p i :=
    Finset.single_le_sum (fun k _ => hp k) (Finset.mem_Iic.2 (le_refl i))
  have hset : {u | chooseReplace p u = i} ∩ Set.Ico 0 1 =
      Set.Ico (1 - cumsum p i) (1 - cumsum p i + p i) := by
    ext u
    constructor
    · rintro ⟨ha, hb⟩
      exact (chooseReplace_eq_iff p hp hsum u hb i).1 ha
    · intro hu
      have hb : u ∈ Set.Ico (0 : ℝ) 1 := ⟨by linarith [hu.1], by linarith [hu.2]⟩
      exact ⟨(chooseReplace_eq_iff p hp hsum u hb i).2 hu, hb⟩
  rw [unitUniform, Measure.restrict_apply hmeas, hset, Real.volume_Ico]
  congr 1
  ring

/-- A quantity computed from the chosen ion and an independent `z` has the mixture law. -/
theorem choose_mixture {Z Y : Type} [MeasurableSpace Z] [MeasurableSpace Y] (ν : Measure Z)
    [IsProbabilityMeasure ν] (hp : ∀ i, 0 ≤ p i) (hsum : ∑ i, p i = 1)
    (g : Fin (m + 1) → Z → Y) (hg : ∀ i, Measurable (g i)) :
    (unitUniform.prod ν).map (fun uz => takeRow g (chooseReplace p uz.1) uz.2) =
      ∑ i, ENNReal.ofReal (p i) • ν.map (g i) := by
  have hA : ∀ i : Fin (m + 1), MeasurableSet {u | chooseReplace p u = i} := fun i =>
    measurable_chooseReplace p (measurableSet_singleton (i : ℕ))
  have hmeas : Measurable fun uz : ℝ × Z => takeRow g (chooseReplace p uz.1) uz.2 := by
    have h1 : Measurable fun nz : ℕ × Z => takeRow g nz.1 nz.2 :=
      measurable_from_prod_countable_right fun n =>
        hg ⟨min n m, Nat.lt_succ_of_le (min_le_right _ _)⟩
    exact h1.comp (((measurable_chooseReplace p).comp measurable_fst).prodMk measurable_snd)
  ext S hS
  rw [Measure.map_apply hmeas hS, Measure.finsetSum_apply]
  have hae : ∀ᵐ uz ∂(unitUniform.prod ν), uz.1 ∈ Set.Ico (0 : ℝ) 1 :=
    Measure.quasiMeasurePreserving_fst.ae (ae_restrict_mem measurableSet_Ico)
  have hpre : ((fun uz : ℝ × Z => takeRow g (chooseReplace p uz.1) uz.2) ⁻¹' S)
      =ᵐ[unitUniform.prod ν] ⋃ i ∈ (Finset.univ : Finset (Fin (m + 1))),
        {u | chooseReplace p u = i} ×ˢ (g i ⁻¹' S) := by
    filter_upwards [hae] with uz hu
    have hlt := chooseReplace_lt p hsum uz.1 hu.1
    have htake : takeRow g (chooseReplace p uz.1) = g ⟨chooseReplace p uz.1, hlt⟩ := by
      unfold takeRow
      congr 2
      exact min_eq_left (Nat.lt_succ_iff.1 hlt)
    refine propext ⟨fun h => ?_, fun h => ?_⟩
    · refine Set.mem_iUnion₂.2 ⟨⟨_, hlt⟩, Finset.mem_univ _, rfl, ?_⟩
      have h' : takeRow g (chooseReplace p uz.1) uz.2 ∈ S := h
      rw [htake] at h'
      exact h'
    · obtain ⟨i, -, hi, hz⟩ := Set.mem_iUnion₂.1 h
      show takeRow g (chooseReplace p uz.1) uz.2 ∈ S
      rw [htake, show (⟨chooseReplace p uz.1, hlt⟩ : Fin (m + 1)) = i from Fin.ext hi]
      exact hz
  rw [measure_congr hpre, measure_biUnion_finset]
  · refine Finset.sum_congr rfl fun i _ => ?_
    rw [Measure.prod_prod, choose_probability p hp hsum, Measure.smul_apply, smul_eq_mul,
      Measure.map_apply (hg i) hS]
  · intro i _ j _ hij
    rw [Function.onFun, Set.disjoint_left]
    rintro ⟨u, z⟩ ⟨h1, -⟩ ⟨h2, -⟩
    exact hij (Fin.ext (h1.symm.trans h2))
  · exact fun i _ => (hA i).prod (hg i hS)

end choose

/-! ### The law of the initial positions -/

/-- Standard normal displacements of one electron. -/
noncomputable def normalNoise (d : ℕ) : Measure (Fin d → ℝ) := Measure.pi fun _ => gaussianReal 0 1

instance (d : ℕ) : IsProbabilityMeasure (normalNoise d) := by unfold normalNoise; infer_instance

/-- The position of an electron placed at a random ion, ion `i` with probability proportional
to its charge, and displaced by independent normal numbers of variance `v`. -/
noncomputable def ionMixture {m d : ℕ} (ionPos : Fin (m + 1) → Fin d → ℝ)
    (charges : Fin (m + 1) → ℝ) (v : ℝ≥0) : Measure (Fin d → ℝ) :=
  ∑ i, ENNReal.ofReal (charges i / ∑ j, charges j) •
    Measure.pi fun k => gaussianReal (ionPos i k) v

theorem map_normalNoise {d : ℕ} (x : Fin d → ℝ) (w : ℝ) :
    (normalNoise d).map (fun z k => x k + w * z k) =
      Measure.pi fun k => gaussianReal (x k) (Real.toNNReal (w ^ 2)) := by
  have h : ∀ k, (gaussianReal 0 1).map (fun z => x k + w * z) =
      gaussianReal (x k) (Real.toNNReal (w ^ 2)) := by
    intro k
    have h1 := gaussianReal_map_const_mul (μ := 0) (v := 1) w
    have h2 := gaussianReal_map_const_add (μ := w * 0) (v := .mk (w ^ 2) (sq_nonneg _) * 1) (x k)
    rw [← h1, Measure.map_map (by fun_prop) (by fun_prop)] at h2
    rw [show (fun z => x k + w * z) = (fun y => x k + y) ∘ (fun z => w * z) from rfl, h2]
    congr 1
    · ring
    · rw [mul_one]; ext; simp [Real.coe_toNNReal _ (sq_nonneg w)]
  have : ∀ k, SigmaFinite ((gaussianReal 0 1).map fun z => x k + w * z) := fun k => by
    rw [h k]; infer_instance
  unfold normalNoise
  rw [Measure.pi_map_pi (f := fun k z => x k + w * z) fun k => by fun_prop]
  simp only [h]

theorem relative_charges {m : ℕ} (charges : Fin (m + 1) → ℝ) (hc : ∀ i, 0 ≤ charges i)
    (htot : 0 < ∑ i, charges i) :
    (∀ i, 0 ≤ charges i / ∑ j, charges j) ∧ ∑ i, charges i / ∑ j, charges j = 1 :=
  ⟨fun i => div_nonneg (hc i) htot.le, by rw [← Finset.sum_div, div_self htot.ne']⟩

/-- More electrons than ions: all electrons of all chains are placed independently, each at
ion `i` with probability proportional to its charge plus normal displacements whose standard
deviation is `initWidth`.  (The documentation makes `initWidth` the variance; this holds for
the widths 0 and 1, see `init_width_is_not_the_variance`.)  `D ω` is a generator which produces the numbers `ω` from the keys
used here. -/
theorem initial_position_law_partial {K : Type} {m nelec d nchains : ℕ} (r : Rng K) (key : K)
    (hmany : m + 1 < nelec) (ionPos : Fin (m + 1) → Fin d → ℝ) (charges : Fin (m + 1) → ℝ)
    (hc : ∀ i, 0 ≤ charges i) (htot : 0 < ∑ i, charges i) (initWidth : ℝ)
    (D : (Fin nchains → Fin nelec → ℝ × (Fin d → ℝ)) → InitDraws K nelec (m + 1) d)
    (hu : ∀ ω (c : Fin nchains) e, (D ω).uniform (subKey r.split key c) e = (ω c e).1)
    (hn : ∀ ω (c : Fin nchains) e,
      (D ω).normal (subKey r.split key nchains) nchains c e = (ω c e).2) :
    (Measure.pi fun _ => Measure.pi fun _ => unitUniform.prod (normalNoise d)).map
      (fun ω => (initializeMolecularPos r (D ω) key nchains ionPos charges initWidth).2) =
    Measure.pi fun _ => Measure.pi fun _ =>
      ionMixture ionPos charges (Real.toNNReal (initWidth ^ 2)) := by
  obtain ⟨hp, hsum⟩ := relative_charges charges hc htot
  set p : Fin (m + 1) → ℝ := fun i => charges i / ∑ j, charges j with hpdef
  let g : Fin (m + 1) → (Fin d → ℝ) → Fin d → ℝ := fun i z k => ionPos i k + initWidth * z k
  have hg : ∀ i, Measurable (g i) := fun i => by fun_prop
  let place : ℝ × (Fin d → ℝ) → Fin d → ℝ := fun uz => takeRow g (chooseReplace p uz.1) uz.2
  have hplace : (unitUniform.prod (normalNoise d)).map place =
      ionMixture ionPos charges (Real.toNNReal (initWidth ^ 2)) := by
    rw [show place = fun uz => takeRow g (chooseReplace p uz.1) uz.2 from rfl,
      choose_mixture p (normalNoise d) hp hsum g hg]
    unfold ionMixture
    refine Finset.sum_congr rfl fun i _ => ?_
    rw [map_normalNoise]
  have hpm : Measurable place := by
    have h1 : Measurable fun nz : ℕ × (Fin d → ℝ) => takeRow g nz.1 nz.2 :=
      measurable_from_prod_countable_right fun n =>
        hg ⟨min n m, Nat.lt_succ_of_le (min_le_right _ _)⟩
    exact h1.comp (((measurable_chooseReplace p).comp measurable_fst).prodMk measurable_snd)
  have hfun : (fun ω => (initializeMolecularPos r (D ω) key nchains ionPos charges
      initWidth).2) = fun ω c e => place (ω c e) := by
    funext ω c e k
    rw [initial_positions_draws]
    simp only [hn, assignIons, dif_neg (not_le.2 hmany), hu]
    rfl
  have hprob : IsProbabilityMeasure ((unitUniform.prod (normalNoise d)).map place) :=
    Measure.isProbabilityMeasure_map hpm.aemeasurable
  rw [hfun, ← hplace]
  have h1 : (Measure.pi fun _ : Fin nelec => unitUniform.prod (normalNoise d)).map
      (fun ω e => place (ω e)) =
        Measure.pi fun _ => (unitUniform.prod (normalNoise d)).map place :=
    Measure.pi_map_pi (f := fun _ => place) fun _ => hpm.aemeasurable
  have h2 : Measurable fun (ω : Fin nelec → ℝ × (Fin d → ℝ)) e => place (ω e) :=
    measurable_pi_lambda _ fun e => hpm.comp (measurable_pi_apply e)
  have : IsProbabilityMeasure ((Measure.pi fun _ : Fin nelec =>
      unitUniform.prod (normalNoise d)).map (fun ω e => place (ω e))) :=
    Measure.isProbabilityMeasure_map h2.aemeasurable
  rw [← h1]
  exact Measure.pi_map_pi (f := fun _ (ω : Fin nelec → ℝ × (Fin d → ℝ)) e => place (ω e))
    fun _ => h2.aemeasurable

/-- No more electrons than ions: the electrons of a chain sit at different ions, displaced by
`initWidth` times the normal numbers. -/
theorem initial_positions_distinct_ions {K : Type} {m nelec d nchains : ℕ} (r : Rng K) (key : K)
    (draws : InitDraws K nelec (m + 1) d) (hfew : nelec ≤ m + 1)
    (ionPos : Fin (m + 1) → Fin d → ℝ) (charges : Fin (m + 1) → ℝ) (initWidth : ℝ)
    (c : Fin nchains) :
    ∃ ion : Fin nelec ↪ Fin (m + 1), ∀ e k,
      (initializeMolecularPos r draws key nchains ionPos charges initWidth).2 c e k =
        ionPos (ion e) k +
          initWidth * draws.normal (subKey r.split key nchains) nchains c e k := by
  set σ := chooseDistinct (fun i => charges i / ∑ j, charges j)
    (draws.gumbel (subKey r.split key c)) with hσ
  refine ⟨⟨fun e => σ (Fin.castLE hfew e), fun a b h =>
    Fin.castLE_injective hfew (σ.injective h)⟩, fun e k => ?_⟩
  rw [initial_positions_draws]
  simp only [assignIons, dif_pos hfew]
  congr 2
  unfold takeRow
  congr 1
  exact Fin.ext (min_eq_left (Nat.lt_succ_iff.1 (Fin.is_lt _)))

/-- As many electrons as ions: every ion gets exactly one electron. -/
theorem initial_positions_all_ions {K : Type} {m d nchains : ℕ} (r : Rng K) (key : K)
    (draws : InitDraws K (m + 1) (m + 1) d) (ionPos : Fin (m + 1) → Fin d → ℝ)
    (charges : Fin (m + 1) → ℝ) (initWidth : ℝ) (c : Fin nchains) :
    ∃ ion : Fin (m + 1) ≃ Fin (m + 1), ∀ e k,
      (initializeMolecularPos r draws key nchains ionPos charges initWidth).2 c e k =
        ionPos (ion e) k +
          initWidth * draws.normal (subKey r.split key nchains) nchains c e k := by
  obtain ⟨f, hf⟩ := initial_positions_distinct_ions r key draws le_rfl ionPos charges initWidth c
  exact ⟨Equiv.ofBijective f (Finite.injective_iff_bijective.1 f.injective), hf⟩

/-! ### A generator which produces given numbers; the documented width -/

/-- A generator which produces the numbers `ω` when started from seed 0. -/
noncomputable def givenDraws {nchains nelec nion d : ℕ}
    (ω : Fin nchains → Fin nelec → ℝ × (Fin d → ℝ)) : InitDraws Key nelec nion d where
  uniform := fun k e => if h : keyDepth k - 1 < nchains then (ω ⟨_, h⟩ e).1 else 0
  gumbel := fun _ _ => 0
  normal := fun _ _ c e => if h : (c : ℕ) < nchains then (ω ⟨c, h⟩ e).2 else 0

theorem givenDraws_uniform {nchains nelec nion d : ℕ}
    (ω : Fin nchains → Fin nelec → ℝ × (Fin d → ℝ)) (c : Fin nchains) (e : Fin nelec) :
    (givenDraws (nion := nion) ω).uniform (subKey freeRng.split (.seed 0) c) e = (ω c e).1 := by
  have h : keyDepth (subKey freeRng.split (.seed 0) c) - 1 = c := by
    rw [depth_subKey]; simp [keyDepth]
  simp only [givenDraws, h, c.2, dif_pos]

theorem givenDraws_normal {nchains nelec nion d : ℕ}
    (ω : Fin nchains → Fin nelec → ℝ × (Fin d → ℝ)) (c : Fin nchains) (e : Fin nelec) :
    (givenDraws (nion := nion) ω).normal (subKey freeRng.split (.seed 0) nchains) nchains c e =
      (ω c e).2 := by
  simp only [givenDraws, c.2, dif_pos]

/-- Three electrons around ions of charge 2 and 1 in two chains, width 1: independent, each at
the first ion with probability 2/3. -/
example : (Measure.pi fun _ => Measure.pi fun _ => unitUniform.prod (normalNoise 3)).map
      (fun ω : Fin 2 → Fin 3 → ℝ × (Fin 3 → ℝ) => (initializeMolecularPos freeRng
        (givenDraws ω) (.seed 0) 2 (fun i k => i + k) ![2, 1] 1).2) =
    Measure.pi fun _ => Measure.pi fun _ => ionMixture (fun i k => i + k) ![2, 1] 1 := by
  have h := initial_position_law_partial freeRng (.seed 0) (m := 1) (nelec := 3) (d := 3) (nchains := 2)
    (by norm_num) (fun i k => i + k) ![2, 1] (by intro i; fin_cases i <;> norm_num)
    (show (0 : ℝ) < ∑ i : Fin 2, ![(2 : ℝ), 1] i by rw [Fin.sum_univ_two]; norm_num) 1 givenDraws givenDraws_uniform givenDraws_normal
  rw [h]
  norm_num

/-- Two electrons, three ions: two different ions. -/
example (draws : InitDraws Key 2 3 3) (ionPos : Fin 3 → Fin 3 → ℝ) (charges : Fin 3 → ℝ) :
    ∃ ion : Fin 2 ↪ Fin 3, ∀ e k,
      (initializeMolecularPos freeRng draws (.seed 0) 5 ionPos charges 1).2 4 e k =
        ionPos (ion e) k + 1 * draws.normal (subKey freeRng.split (.seed 0) 5) 5 4 e k :=
  initial_positions_distinct_ions freeRng (.seed 0) draws (by norm_num) ionPos charges 1 4

/-- The documentation calls `init_width` the diagonal of the covariance.  This is the law only
for widths 0 and 1: already for one ion and one dimension any other width gives a different
law. -/
theorem init_width_is_not_the_variance (initWidth : ℝ) (hw : 0 ≤ initWidth) (h0 : initWidth ≠ 0)
    (h1 : initWidth ≠ 1) :
    (Measure.pi fun _ => Measure.pi fun _ => unitUniform.prod (normalNoise 1)).map
      (fun ω : Fin 1 → Fin 2 → ℝ × (Fin 1 → ℝ) => (initializeMolecularPos freeRng
        (givenDraws ω) (.seed 0) 1 (fun _ _ => 0) (fun _ : Fin 1 => 1) initWidth).2) ≠
    Measure.pi fun _ => Measure.pi fun _ =>
      ionMixture (fun _ _ => 0) (fun _ : Fin 1 => 1) (Real.toNNReal initWidth) := by
  intro h
  rw [initial_position_law_partial freeRng (.seed 0) (m := 0) (nelec := 2) (d := 1) (nchains := 1)
    (by norm_num) (fun _ _ => 0) (fun _ => 1) (fun _ => by norm_num) (by norm_num) initWidth
    givenDraws givenDraws_uniform givenDraws_normal] at h
  have hm : ∀ v : ℝ≥0, ionMixture (fun (_ : Fin 1) (_ : Fin 1) => (0 : ℝ)) (fun _ : Fin 1 => 1) v =
      Measure.pi fun _ => gaussianReal 0 v := by
    intro v; simp [ionMixture]
  simp only [hm] at h
  have h2 := congrArg (fun μ => μ.map (Function.eval (0 : Fin 1))) h
  simp only [(measurePreserving_eval (fun _ : Fin 1 => Measure.pi fun _ : Fin 2 =>
    Measure.pi fun _ : Fin 1 => gaussianReal 0 _) 0).map_eq] at h2
  have h3 := congrArg (fun μ => μ.map (Function.eval (0 : Fin 2))) h2
  simp only [(measurePreserving_eval (fun _ : Fin 2 =>
    Measure.pi fun _ : Fin 1 => gaussianReal 0 _) 0).map_eq] at h3
  have h4 := congrArg (fun μ => μ.map (Function.eval (0 : Fin 1))) h3
  simp only [(measurePreserving_eval (fun _ : Fin 1 => gaussianReal 0 _) 0).map_eq] at h4
  have h5 := congrArg (fun μ => Var[id; μ]) h4
  simp only [variance_id_gaussianReal, Real.coe_toNNReal _ (sq_nonneg initWidth),
    Real.coe_toNNReal _ hw] at h5
  have : initWidth * (initWidth - 1) = 0 := by nlinarith
  rcases mul_eq_zero.1 this with h6 | h6
  · exact h0 h6
  · exact h1 (by linarith)

end Verif.Props
