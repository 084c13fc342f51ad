import Mathlib.MeasureTheory.Constructions.Pi
import Mathlib.MeasureTheory.Integral.Prod
import Mathlib.Analysis.SpecialFunctions.ImproperIntegrals
import Mathlib.Data.Fin.Tuple.Sort
import Mathlib.Tactic

/-!
The order in which independent exponential clocks ring, and sorting by it.
-/

open MeasureTheory Set
open scoped ENNReal

namespace Verif.Race

/-- The exponential law of rate `r`. -/
noncomputable def expLaw (r : ℝ) : Measure ℝ :=
  (volume.restrict (Ioi 0)).withDensity fun t => ENNReal.ofReal (r * Real.exp (-r * t))

theorem measurable_density (r : ℝ) :
    Measurable fun t : ℝ => ENNReal.ofReal (r * Real.exp (-r * t)) := by fun_prop

theorem lintegral_exp_Ioi {r b s : ℝ} (hr : 0 < r) (hb : 0 ≤ b) (hs : 0 ≤ s) :
    ∫⁻ t in Ioi s, ENNReal.ofReal (Real.exp (-(t * b))) ∂expLaw r =
      ENNReal.ofReal (r / (r + b) * Real.exp (-(s * (r + b)))) := by
  have hsub : Ioi s ⊆ Ioi (0 : ℝ) := fun t ht => lt_of_le_of_lt hs ht
  have hab : -(r + b) < 0 := by linarith
  rw [expLaw, restrict_withDensity measurableSet_Ioi, Measure.restrict_restrict measurableSet_Ioi,
    inter_eq_self_of_subset_left hsub,
    lintegral_withDensity_eq_lintegral_mul _ (measurable_density r) (by fun_prop)]
  have h1 : ∀ t : ℝ, ((fun t => ENNReal.ofReal (r * Real.exp (-r * t))) *
      fun t => ENNReal.ofReal (Real.exp (-(t * b)))) t =
      ENNReal.ofReal (r * Real.exp (-(r + b) * t)) := by
    intro t
    rw [Pi.mul_apply, ← ENNReal.ofReal_mul (by positivity), mul_assoc, ← Real.exp_add]
    congr 3
    ring
  rw [lintegral_congr h1, ← ofReal_integral_eq_lintegral_ofReal]
  · rw [integral_const_mul, integral_exp_mul_Ioi hab]
    congr 1
    rw [show -(r + b) * s = -(s * (r + b)) by ring]
    have : r + b ≠ 0 := by linarith
    field_simp
  · exact (integrableOn_exp_mul_Ioi hab s).const_mul r
  · exact Filter.Eventually.of_forall fun t => by positivity

theorem expLaw_Ioi {r s : ℝ} (hr : 0 < r) (hs : 0 ≤ s) :
    expLaw r (Ioi s) = ENNReal.ofReal (Real.exp (-(s * r))) := by
  have h := lintegral_exp_Ioi hr le_rfl hs
  simp only [mul_zero, neg_zero, Real.exp_zero, ENNReal.ofReal_one, add_zero,
    div_self hr.ne', one_mul] at h
  rw [← h, setLIntegral_one]

theorem expLaw_Ici_zero {r : ℝ} : expLaw r (Iic 0) = 0 := by
  rw [expLaw, withDensity_apply _ measurableSet_Iic, Measure.restrict_restrict measurableSet_Iic]
  have : Iic (0 : ℝ) ∩ Ioi 0 = ∅ := by
    ext t; simp
  simp [this]

theorem expLaw_univ {r : ℝ} (hr : 0 < r) : expLaw r univ = 1 := by
  rw [← Iic_union_Ioi (a := (0 : ℝ)), measure_union (by
    rw [Set.disjoint_left]; intro t h1 h2; exact not_lt.2 (mem_Iic.1 h1) (mem_Ioi.1 h2)) measurableSet_Ioi,
    expLaw_Ici_zero, expLaw_Ioi hr le_rfl]
  simp

theorem isProb {r : ℝ} (hr : 0 < r) : IsProbabilityMeasure (expLaw r) := ⟨expLaw_univ hr⟩

instance noAtoms (r : ℝ) : NullSingletonClass (expLaw r) := by
  unfold expLaw; infer_instance

instance sfin (r : ℝ) : SigmaFinite (expLaw r) := by
  unfold expLaw; infer_instance

/-- All the clocks ring after `s`, those of the list in the order of the list, and the others
after them. -/
def Wins {k : ℕ} {ι : Type} (s : ℝ) (x : Fin k → ℝ) (z : ι → ℝ) : Prop :=
  (∀ j, s < x j) ∧ StrictMono x ∧ (∀ i, s < z i) ∧ ∀ j i, x j < z i

theorem wins_cons {k : ℕ} {ι : Type} (s t : ℝ) (y : Fin k → ℝ) (z : ι → ℝ) :
    Wins s (Fin.cons t y : Fin (k + 1) → ℝ) z ↔ s < t ∧ Wins t y z := by
  constructor
  · rintro ⟨h1, h2, h3, h4⟩
    refine ⟨by simpa using h1 0, fun j => ?_, fun i j hij => ?_, fun i => ?_, fun j i => ?_⟩
    · simpa using h2 (Fin.succ_pos j)
    · simpa using h2 (Fin.succ_lt_succ_iff.2 hij)
    · simpa using h4 0 i
    · simpa using h4 j.succ i
  · rintro ⟨h0, h1, h2, h3, h4⟩
    refine ⟨fun j => ?_, fun i j hij => ?_, fun i => h0.trans (h3 i), fun j i => ?_⟩
    · refine Fin.cases (by simpa using h0) (fun j => ?_) j
      simpa using h0.trans (h1 j)
    · revert hij
      refine Fin.cases ?_ (fun j => ?_) j
      · intro h; exact absurd h (Fin.not_lt_zero _)
      · refine Fin.cases ?_ (fun i => ?_) i
        · intro _; simpa using h1 j
        · intro h; simpa using h2 (Fin.succ_lt_succ_iff.1 h)
    · refine Fin.cases (by simpa using h3 i) (fun j => ?_) j
      simpa using h4 j i

theorem measurableSet_wins {k : ℕ} {ι : Type} [Finite ι] (s : ℝ) :
    MeasurableSet {x : (Fin k → ℝ) × (ι → ℝ) | Wins s x.1 x.2} := by
  have : {x : (Fin k → ℝ) × (ι → ℝ) | Wins s x.1 x.2} =
      (⋂ j, {x | s < x.1 j}) ∩ ((⋂ i : Fin k, ⋂ j : Fin k, {x | i < j → x.1 i < x.1 j}) ∩
        ((⋂ i, {x | s < x.2 i}) ∩ ⋂ j, ⋂ i, {x | x.1 j < x.2 i})) := by
    ext x
    simp [Wins, StrictMono]
  rw [this]
  refine (MeasurableSet.iInter fun j => measurableSet_lt (by fun_prop) (by fun_prop)).inter
    ((MeasurableSet.iInter fun i => MeasurableSet.iInter fun j => ?_).inter
    ((MeasurableSet.iInter fun j => measurableSet_lt (by fun_prop) (by fun_prop)).inter
    (MeasurableSet.iInter fun i => MeasurableSet.iInter fun j =>
      measurableSet_lt (by fun_prop) (by fun_prop))))
  by_cases h : i < j
  · simp only [h, forall_const]
    exact measurableSet_lt (by fun_prop) (by fun_prop)
  · simp [h]

/-- The product of the probabilities of successive choices: each of the listed rates over the sum
of the rates not chosen before it. -/
noncomputable def successive : {k : ℕ} → (Fin k → ℝ) → ℝ → ℝ
  | 0, _, _ => 1
  | _ + 1, a, B => a 0 / (∑ j, a j + B) * successive (fun j => a j.succ) B

theorem successive_nonneg : ∀ {k : ℕ} (a : Fin k → ℝ) (B : ℝ), (∀ j, 0 ≤ a j) → 0 ≤ B →
    0 ≤ successive a B
  | 0, _, _, _, _ => zero_le_one
  | _ + 1, _, B, ha, hB => mul_nonneg (div_nonneg (ha 0)
      (add_nonneg (Finset.sum_nonneg fun j _ => ha j) hB))
      (successive_nonneg _ B (fun j => ha j.succ) hB)

theorem successive_eq : ∀ {k : ℕ} (a : Fin k → ℝ) (B : ℝ),
    successive a B = ∏ j, a j / (∑ l ∈ Finset.Ici j, a l + B)
  | 0, _, _ => by simp [successive]
  | k + 1, a, B => by
    rw [successive, successive_eq (fun j => a j.succ) B, Fin.prod_univ_succ]
    congr 1
    · congr 3
      ext l; simp
    · refine Finset.prod_congr rfl fun j _ => ?_
      congr 2
      refine (Finset.sum_map (Finset.Ici j) (Fin.succEmb k) a).symm.trans ?_
      congr 1
      ext l
      simp only [Finset.mem_Ici, Finset.mem_map, Fin.coe_succEmb]
      constructor
      · rintro ⟨i, hi, rfl⟩; exact Fin.succ_le_succ_iff.2 hi
      · intro hl
        have hl0 : l ≠ 0 := by
          rintro rfl
          exact absurd hl (not_le.2 (Fin.succ_pos j))
        obtain ⟨i, rfl⟩ := Fin.exists_succ_eq.2 hl0
        exact ⟨i, Fin.succ_le_succ_iff.1 hl, rfl⟩

theorem race : ∀ {k : ℕ} {ι : Type} [Fintype ι] (a : Fin k → ℝ) (b : ι → ℝ), (∀ j, 0 < a j) →
    (∀ i, 0 < b i) → ∀ s : ℝ, 0 ≤ s →
    ((Measure.pi fun j => expLaw (a j)).prod (Measure.pi fun i => expLaw (b i)))
      {x | Wins s x.1 x.2} =
    ENNReal.ofReal (successive a (∑ i, b i) * Real.exp (-(s * (∑ j, a j + ∑ i, b i))))
  | 0, ι, _, _, b, _, hb, s, hs => by
    have hset : {x : (Fin 0 → ℝ) × (ι → ℝ) | Wins s x.1 x.2} =
        univ ×ˢ (univ.pi fun _ => Ioi s) := by
      ext x
      simp [Wins, Subsingleton.strictMono]
    rw [hset, Measure.prod_prod, Measure.pi_pi]
    simp only [expLaw_Ioi (hb _) hs]
    rw [← ENNReal.ofReal_prod_of_nonneg fun i _ => by positivity, ← Real.exp_sum]
    simp [successive, Finset.mul_sum]
  | k + 1, ι, _, a, b, ha, hb, s, hs => by
    have e1 := (measurePreserving_piFinSuccAbove (fun j => expLaw (a j)) 0).prod
      (MeasurePreserving.id (Measure.pi fun i => expLaw (b i)))
    have e2 := (measurePreserving_prodAssoc (expLaw (a 0))
      (Measure.pi fun j : Fin k => expLaw (a (Fin.succAbove 0 j)))
      (Measure.pi fun i => expLaw (b i)))
    have e := e2.comp e1
    set S : Set (ℝ × (Fin k → ℝ) × (ι → ℝ)) := {x | s < x.1 ∧ Wins x.1 x.2.1 x.2.2} with hS
    have hSm : MeasurableSet S := by
      have : S = {x | Wins s (Fin.cons x.1 x.2.1 : Fin (k + 1) → ℝ) x.2.2} := by
        ext x
        exact (wins_cons s x.1 x.2.1 x.2.2).symm
      rw [this]
      have hm : Measurable fun x : ℝ × (Fin k → ℝ) × (ι → ℝ) =>
          ((Fin.cons x.1 x.2.1 : Fin (k + 1) → ℝ), x.2.2) := by
        refine Measurable.prodMk (measurable_pi_lambda _ fun j => ?_) (by fun_prop)
        refine Fin.cases ?_ (fun j => ?_) j
        · simpa using measurable_fst
        · simp only [Fin.cons_succ]; fun_prop
      exact hm (measurableSet_wins s)
    have hpre := e.measure_preimage hSm.nullMeasurableSet
    have hset : {x : (Fin (k + 1) → ℝ) × (ι → ℝ) | Wins s x.1 x.2} =
        (MeasurableEquiv.prodAssoc ∘ Prod.map
          (MeasurableEquiv.piFinSuccAbove (fun _ => ℝ) 0) id) ⁻¹' S := by
      ext x
      have hx : x.1 = (Fin.cons (x.1 0) (fun j => x.1 j.succ) : Fin (k + 1) → ℝ) :=
        (Fin.cons_self_tail x.1).symm
      rw [Set.mem_ofPred_eq, hx, wins_cons]
      rfl
    have hB : 0 ≤ ∑ i, b i := Finset.sum_nonneg fun i _ => (hb i).le
    have hA : 0 ≤ ∑ j : Fin k, a j.succ := Finset.sum_nonneg fun i _ => (ha _).le
    rw [hset]
    refine hpre.trans ?_
    rw [Measure.prod_apply hSm]
    have hsec : ∀ t : ℝ, ((Measure.pi fun j : Fin k => expLaw (a (Fin.succAbove 0 j))).prod
        (Measure.pi fun i => expLaw (b i))) (Prod.mk t ⁻¹' S) =
        (Ioi s).indicator (fun t => ENNReal.ofReal (successive (fun j => a j.succ) (∑ i, b i)) *
          ENNReal.ofReal (Real.exp (-(t * (∑ j : Fin k, a j.succ + ∑ i, b i))))) t := by
      intro t
      by_cases ht : s < t
      · have h1 : Prod.mk t ⁻¹' S = {x : (Fin k → ℝ) × (ι → ℝ) | Wins t x.1 x.2} := by
          ext x; simp [hS, ht]
        have := race (fun j : Fin k => a j.succ) b (fun j => ha _) hb t (hs.trans ht.le)
        rw [indicator_of_mem (show t ∈ Ioi s from ht), h1,
          ← ENNReal.ofReal_mul (successive_nonneg _ _ (fun j => (ha _).le) hB)]
        exact this
      · have h1 : Prod.mk t ⁻¹' S = ∅ := by
          ext x; simp [hS, ht]
        rw [h1, measure_empty, indicator_of_notMem (show t ∉ Ioi s from ht)]
    rw [lintegral_congr hsec, lintegral_indicator measurableSet_Ioi,
      lintegral_const_mul _ (by fun_prop), lintegral_exp_Ioi (ha 0) (add_nonneg hA hB) hs,
      ← ENNReal.ofReal_mul (successive_nonneg _ _ (fun j => (ha _).le) hB)]
    congr 1
    rw [successive, Fin.sum_univ_succ, add_assoc]
    ring

theorem ae_ne {n : ℕ} (a : Fin n → ℝ) (ha : ∀ i, 0 < a i) (i j : Fin n) (hij : i ≠ j) :
    ∀ᵐ x ∂Measure.pi (fun i => expLaw (a i)), x i ≠ x j := by
  have := fun i => isProb (ha i)
  obtain _ | n := n
  · exact i.elim0
  obtain ⟨l, rfl⟩ := Fin.exists_succAbove_eq hij.symm
  have e := measurePreserving_piFinSuccAbove (fun j => expLaw (a j)) i
  have hS : MeasurableSet {p : ℝ × (Fin n → ℝ) | p.1 = p.2 l} :=
    measurableSet_eq_fun (by fun_prop) (by fun_prop)
  have h0 : ((expLaw (a i)).prod (Measure.pi fun j : Fin n => expLaw (a (i.succAbove j))))
      {p : ℝ × (Fin n → ℝ) | p.1 = p.2 l} = 0 := by
    rw [Measure.prod_apply_symm hS]
    refine (lintegral_congr fun y => ?_).trans lintegral_zero
    have : (fun x : ℝ => (x, y)) ⁻¹' {p : ℝ × (Fin n → ℝ) | p.1 = p.2 l} = {y l} := by
      ext t; simp
    rw [this, measure_singleton]
  have h1 := e.measure_preimage hS.nullMeasurableSet
  rw [h0] at h1
  rw [ae_iff]
  refine Eq.trans (congrArg _ ?_) h1
  ext x
  simp [Fin.removeNth]

/-- A law of the sites splits into the chosen sites and the others. -/
theorem split_sites {n k : ℕ} (μ : Fin n → Measure ℝ) [∀ i, SigmaFinite (μ i)]
    (σ : Fin k ↪ Fin n) :
    MeasurePreserving (fun T : Fin n → ℝ =>
        ((fun j => T (σ j)), fun i : {i // i ∉ Set.range σ} => T i)) (Measure.pi μ)
      ((Measure.pi fun j => μ (σ j)).prod (Measure.pi fun i : {i // i ∉ Set.range σ} => μ i)) := by
  classical
  let e : Fin k ⊕ {i // i ∉ Set.range σ} ≃ Fin n :=
    (Equiv.sumCongr (Equiv.ofInjective σ σ.injective) (Equiv.refl _)).trans
      (Equiv.Set.sumCompl (Set.range σ))
  have h1 := (measurePreserving_piCongrLeft μ e).symm
  have h2 := measurePreserving_sumPiEquivProdPi (fun i => μ (e i))
  exact h2.comp h1


/-- Sorting distinct values puts the sites of `σ` first, in the order of `σ`, exactly when their
values increase along `σ` and are below all the other values. -/
theorem sort_first_iff {n k : ℕ} (h : k ≤ n) (f : Fin n → ℝ) (hf : Function.Injective f)
    (σ : Fin k ↪ Fin n) :
    (∀ j, Tuple.sort f (Fin.castLE h j) = σ j) ↔
      StrictMono (fun j => f (σ j)) ∧ ∀ j (i : {i // i ∉ Set.range σ}), f (σ j) < f i := by
  have hm : StrictMono (f ∘ Tuple.sort f) :=
    (Tuple.monotone_sort f).strictMono_of_injective (hf.comp (Tuple.sort f).injective)
  have hrank : ∀ i i', f i < f i' ↔ (Tuple.sort f).symm i < (Tuple.sort f).symm i' := by
    intro i i'
    rw [← hm.lt_iff_lt]
    simp
  constructor
  · intro hs
    refine ⟨fun i j hij => ?_, fun j i => ?_⟩
    · change f (σ i) < f (σ j)
      rw [hrank, ← hs, ← hs]
      simpa using hij
    · rw [hrank, ← hs, Equiv.symm_apply_apply]
      by_contra hc
      have hlt : ((Tuple.sort f).symm i).val < k := by
        have := not_lt.1 hc
        have h2 : ((Tuple.sort f).symm i).val ≤ (Fin.castLE h j).val := this
        exact lt_of_le_of_lt h2 j.2
      apply i.2
      refine ⟨⟨_, hlt⟩, ?_⟩
      rw [← hs]
      have : Fin.castLE h ⟨((Tuple.sort f).symm i).val, hlt⟩ = (Tuple.sort f).symm i := rfl
      rw [this, Equiv.apply_symm_apply]
  · rintro ⟨h1, h2⟩ j
    rw [← Equiv.eq_symm_apply]
    have hset : Finset.Iio ((Tuple.sort f).symm (σ j)) =
        (Finset.Iio j).image fun l => (Tuple.sort f).symm (σ l) := by
      ext r
      simp only [Finset.mem_Iio, Finset.mem_image]
      constructor
      · intro hr
        have hlt : f (Tuple.sort f r) < f (σ j) := by
          rw [hrank]; simpa using hr
        by_cases hc : Tuple.sort f r ∈ Set.range σ
        · obtain ⟨l, hl⟩ := hc
          refine ⟨l, ?_, by rw [hl, Equiv.symm_apply_apply]⟩
          rw [← hl] at hlt
          exact h1.lt_iff_lt.1 hlt
        · exact absurd hlt (h2 j ⟨_, hc⟩).not_gt
      · rintro ⟨l, hl, rfl⟩
        exact (hrank _ _).1 (h1 hl)
    have hcard := congrArg Finset.card hset
    rw [Finset.card_image_of_injective _ (by
      intro x y hxy
      exact σ.injective ((Tuple.sort f).symm.injective hxy))] at hcard
    simp only [Fin.card_Iio] at hcard
    exact Fin.ext hcard.symm

theorem measurableSet_sort {n k : ℕ} (h : k ≤ n) (σ : Fin k → Fin n) :
    MeasurableSet {f : Fin n → ℝ | ∀ j, Tuple.sort f (Fin.castLE h j) = σ j} := by
  have hτ : ∀ τ : Equiv.Perm (Fin n), MeasurableSet {f : Fin n → ℝ | Tuple.sort f = τ} := by
    intro τ
    have : {f : Fin n → ℝ | Tuple.sort f = τ} =
        (⋂ i : Fin n, ⋂ j : Fin n, {f | i ≤ j → f (τ i) ≤ f (τ j)}) ∩
        ⋂ i : Fin n, ⋂ j : Fin n, {f | i < j → f (τ i) = f (τ j) → τ i < τ j} := by
      ext f
      rw [Set.mem_ofPred_eq, eq_comm, Tuple.eq_sort_iff]
      simp [Monotone]
    rw [this]
    refine (MeasurableSet.iInter fun i => MeasurableSet.iInter fun j => ?_).inter
      (MeasurableSet.iInter fun i => MeasurableSet.iInter fun j => ?_)
    · by_cases hij : i ≤ j
      · simp only [hij, forall_const]
        exact measurableSet_le (by fun_prop) (by fun_prop)
      · simp [hij]
    · by_cases hij : i < j
      · by_cases ht : τ i < τ j
        · simp [ht]
        · simp only [hij, ht, forall_const, imp_false]
          exact (measurableSet_eq_fun (by fun_prop) (by fun_prop)).compl
      · simp [hij]
  have : {f : Fin n → ℝ | ∀ j, Tuple.sort f (Fin.castLE h j) = σ j} =
      ⋃ τ ∈ {τ : Equiv.Perm (Fin n) | ∀ j, τ (Fin.castLE h j) = σ j},
        {f : Fin n → ℝ | Tuple.sort f = τ} := by
    ext f
    simp
  rw [this]
  exact MeasurableSet.biUnion (Set.to_countable _) fun τ _ => hτ τ

/-- The probability that the `k` smallest of independent exponential clocks are those of `σ`, in
this order. -/
theorem first_clocks {n k : ℕ} (h : k ≤ n) (p : Fin n → ℝ) (hp : ∀ i, 0 < p i)
    (σ : Fin k ↪ Fin n) :
    (Measure.pi fun i => expLaw (p i)) {T | ∀ j, Tuple.sort (fun i => Real.log (T i)) (Fin.castLE h j) = σ j} =
      ENNReal.ofReal (successive (fun j => p (σ j))
        (∑ i : {i // i ∉ Set.range σ}, p i)) := by
  have := fun i => isProb (hp i)
  have hr := race (fun j => p (σ j)) (fun i : {i // i ∉ Set.range σ} => p i) (fun j => hp _)
    (fun i => hp _) 0 le_rfl
  simp only [zero_mul, neg_zero, Real.exp_zero, mul_one] at hr
  rw [← hr, ← (split_sites (fun i => expLaw (p i)) σ).measure_preimage
    (measurableSet_wins 0).nullMeasurableSet]
  refine measure_congr ?_
  have hne : ∀ᵐ x ∂Measure.pi (fun i => expLaw (p i)), Function.Injective x := by
    have : ∀ᵐ x ∂Measure.pi (fun i => expLaw (p i)), ∀ i j, i ≠ j → x i ≠ x j := by
      rw [ae_all_iff]; intro i
      rw [ae_all_iff]; intro j
      by_cases hij : i = j
      · simp [hij]
      · filter_upwards [ae_ne p hp i j hij] with x hx _ using hx
    filter_upwards [this] with x hx i j hxy
    by_contra hc
    exact hx i j hc hxy
  have hpos : ∀ᵐ x ∂Measure.pi (fun i => expLaw (p i)), ∀ i, 0 < x i := by
    rw [ae_all_iff]; intro i
    have h0 : ∀ᵐ t ∂expLaw (p i), 0 < t := by
      rw [ae_iff]
      simpa [Set.Iic_def] using expLaw_Ici_zero (r := p i)
    exact (measurePreserving_eval (fun i => expLaw (p i)) i).quasiMeasurePreserving.ae h0
  filter_upwards [hne, hpos] with x hx hx0
  refine propext ?_
  change (∀ j, Tuple.sort (fun i => Real.log (x i)) (Fin.castLE h j) = σ j) ↔
    Wins 0 (fun j => x (σ j)) (fun i : {i // i ∉ Set.range σ} => x i)
  have hlog : ∀ i j, Real.log (x i) < Real.log (x j) ↔ x i < x j := fun i j =>
    Real.log_lt_log_iff (hx0 i) (hx0 j)
  rw [sort_first_iff h (fun i => Real.log (x i))
    (fun i j hij => hx (Real.log_injOn_pos (hx0 i) (hx0 j) hij)) σ]
  simp only [StrictMono, hlog]
  constructor
  · rintro ⟨h1, h2⟩
    exact ⟨fun j => hx0 _, h1, fun i => hx0 _, h2⟩
  · rintro ⟨_, h1, _, h2⟩
    exact ⟨h1, h2⟩

/-- The logarithm of a uniform number, negated and divided by the rate, has the exponential law. -/
theorem map_uniform {r : ℝ} (hr : 0 < r) :
    ((volume : Measure ℝ).restrict (Ico 0 1)).map (fun u => -Real.log u / r) = expLaw r := by
  have hprob := isProb hr
  have hm : Measurable fun u : ℝ => -Real.log u / r := by fun_prop
  have : IsProbabilityMeasure ((volume : Measure ℝ).restrict (Ico 0 1)) := ⟨by simp⟩
  have := Measure.isProbabilityMeasure_map (μ := (volume : Measure ℝ).restrict (Ico 0 1))
    hm.aemeasurable
  refine Measure.ext_of_Iic _ _ fun s => ?_
  have key : ∀ (μ : Measure ℝ) [IsProbabilityMeasure μ], μ (Iic s) = 1 - μ (Ioi s) := by
    intro μ _
    rw [← compl_Ioi, prob_compl_eq_one_sub measurableSet_Ioi]
  rw [key, key]
  congr 1
  rw [Measure.map_apply hm measurableSet_Ioi,
    Measure.restrict_apply (hm measurableSet_Ioi)]
  rcases le_or_gt 0 s with hs | hs
  · rw [expLaw_Ioi hr hs]
    have hset : ((fun u : ℝ => -Real.log u / r) ⁻¹' Ioi s ∩ Ico 0 1 : Set ℝ) =ᵐ[volume]
        (Ioo 0 (Real.exp (-(s * r))) : Set ℝ) := by
      have h0 : ∀ᵐ u : ℝ, u ≠ 0 := by simp [ae_iff]
      filter_upwards [h0] with u hu
      refine propext ?_
      change (s < -Real.log u / r ∧ 0 ≤ u ∧ u < 1) ↔ 0 < u ∧ u < Real.exp (-(s * r))
      rw [lt_div_iff₀ hr]
      constructor
      · rintro ⟨h1, h2, h3⟩
        have hu0 : 0 < u := lt_of_le_of_ne h2 (Ne.symm hu)
        exact ⟨hu0, (Real.log_lt_iff_lt_exp hu0).1 (by linarith)⟩
      · rintro ⟨h1, h2⟩
        have h3 := (Real.log_lt_iff_lt_exp h1).2 h2
        refine ⟨by linarith, h1.le, ?_⟩
        have : 0 ≤ s * r := by positivity
        exact (Real.log_neg_iff h1).1 (by linarith [lt_of_le_of_ne (show Real.log u ≤ 0 by linarith) (by
          intro hc
          rw [Real.log_eq_zero] at hc
          have := Real.exp_le_one_iff.2 (show -(s * r) ≤ 0 by linarith)
          rcases hc with hc | hc | hc <;> linarith)])
    rw [measure_congr hset, Real.volume_Ioo, sub_zero]
  · have h1 : expLaw r (Ioi s) = 1 := by
      refine le_antisymm prob_le_one ?_
      calc (1 : ℝ≥0∞) = expLaw r (Ioi 0) := by rw [expLaw_Ioi hr le_rfl]; simp
        _ ≤ _ := measure_mono (Ioi_subset_Ioi hs.le)
    have h2 : (fun u : ℝ => -Real.log u / r) ⁻¹' Ioi s ∩ Ico 0 1 = Ico 0 1 := by
      refine inter_eq_right.2 fun u hu => ?_
      have : Real.log u ≤ 0 := Real.log_nonpos hu.1 hu.2.le
      change s < -Real.log u / r
      have : 0 ≤ -Real.log u / r := div_nonneg (by linarith) hr.le
      linarith
    rw [h1, h2]
    simp

end Verif.Race
