import Verif.Lemmas.Mixing
import Verif.Spec.Variational
import Mathlib.MeasureTheory.Measure.Lebesgue.EqHaar

/-!
Laws and paths of chains, products of chains, and sums along paths.
-/

namespace Verif.Ergodic
open Filter Topology MeasureTheory Set

section law

variable {X Ω : Type*} [MeasurableSpace X] [MeasurableSpace Ω]

/-- The law of the position after `n` moves. -/
noncomputable def law (ν : Measure Ω) (F : X × Ω → X) : ℕ → X → Measure X
  | 0, x => Measure.dirac x
  | n + 1, x => ((law ν F n x).prod ν).map F

variable {ν : Measure Ω} [IsProbabilityMeasure ν] {F : X × Ω → X}

theorem law_probability (hF : Measurable F) (n : ℕ) (x : X) :
    IsProbabilityMeasure (law ν F n x) := by
  induction n with
  | zero => unfold law; infer_instance
  | succ n ih =>
    unfold law
    exact Measure.isProbabilityMeasure_map hF.aemeasurable

theorem integral_law (hF : Measurable F) {f : X → ℝ} {M : ℝ} (hf : Measurable f)
    (hb : ∀ x, |f x| ≤ M) (n : ℕ) (x : X) : ∫ y, f y ∂(law ν F n x) = (avg ν F)^[n] f x := by
  induction n generalizing f with
  | zero => simp [law, integral_dirac' _ _ hf.stronglyMeasurable]
  | succ n ih =>
    have := law_probability (ν := ν) hF n x
    rw [law, integral_map hF.aemeasurable hf.aestronglyMeasurable, integral_prod (fun z => f (F z))
      (Integrable.of_bound (hf.comp hF).aestronglyMeasurable M (.of_forall fun z => hb _)),
      Function.iterate_succ_apply]
    exact ih (measurable_avg hF hf) (abs_avg_le hb)

end law

section pi

variable {X : Type} [MeasurableSpace X]

/-- Two laws differ by at most `η` on every function bounded by 1. -/
def Near (η : ℝ) (μ ν : Measure X) : Prop :=
  ∀ f : X → ℝ, Measurable f → (∀ x, |f x| ≤ 1) → |∫ x, f x ∂μ - ∫ x, f x ∂ν| ≤ η

theorem near_pi_fin {η : ℝ} {n : ℕ} (μ ν : Fin n → Measure X) [∀ i, IsProbabilityMeasure (μ i)]
    [∀ i, IsProbabilityMeasure (ν i)] (h : ∀ i, Near η (μ i) (ν i)) :
    Near (n * η) (Measure.pi μ) (Measure.pi ν) := by
  induction n with
  | zero =>
    intro f hf hb
    have : μ = ν := Subsingleton.elim _ _
    rw [this]
    simp
  | succ n ih =>
    intro f hf hb
    have e : ∀ (μ : Fin (n + 1) → Measure X) [∀ i, IsProbabilityMeasure (μ i)],
        ∫ x, f x ∂(Measure.pi μ) = ∫ x, ∫ y, f (Fin.cons x y)
          ∂(Measure.pi fun i : Fin n => μ i.succ) ∂(μ 0) := by
      intro μ _
      have hp := (measurePreserving_piFinSuccAbove μ 0).symm
      rw [← hp.integral_comp (MeasurableEquiv.measurableEmbedding _)]
      have hc : Measurable fun z : X × (Fin n → X) => f (Fin.cons z.1 z.2) := by
        refine hf.comp (measurable_pi_lambda _ fun i => ?_)
        refine Fin.cases ?_ (fun i => ?_) i
        · simpa using measurable_fst
        · simp only [Fin.cons_succ]; fun_prop
      rw [← integral_prod (f := fun z : X × (Fin n → X) => f (Fin.cons z.1 z.2))
        (Integrable.of_bound hc.aestronglyMeasurable 1 (.of_forall fun z => hb _))]
      simp only [Fin.succAbove_zero]
      refine integral_congr_ae (.of_forall fun z => ?_)
      simp [MeasurableEquiv.piFinSuccAbove, Fin.insertNthEquiv]
    rw [e μ, e ν]
    have hc : Measurable fun z : X × (Fin n → X) => f (Fin.cons z.1 z.2) := by
      refine hf.comp (measurable_pi_lambda _ fun i => ?_)
      refine Fin.cases ?_ (fun i => ?_) i
      · simpa using measurable_fst
      · simp only [Fin.cons_succ]; fun_prop
    have hmeas : ∀ (κ : Measure (Fin n → X)) [IsProbabilityMeasure κ],
        Measurable fun x => ∫ y, f (Fin.cons x y) ∂κ := fun κ _ =>
      (hc.stronglyMeasurable.integral_prod_right' (ν := κ)).measurable
    have hbd : ∀ (κ : Measure (Fin n → X)) [IsProbabilityMeasure κ] x,
        |∫ y, f (Fin.cons x y) ∂κ| ≤ 1 := by
      intro κ _ x
      have := norm_integral_le_of_norm_le_const (μ := κ) (f := fun y => f (Fin.cons x y)) (C := 1)
        (.of_forall fun y => hb _)
      simpa using this
    have h1 := h 0 (fun x => ∫ y, f (Fin.cons x y) ∂(Measure.pi fun i : Fin n => ν i.succ))
      (hmeas _) (hbd _)
    have h2 : |∫ x, (∫ y, f (Fin.cons x y) ∂(Measure.pi fun i : Fin n => μ i.succ)) ∂(μ 0) -
        ∫ x, (∫ y, f (Fin.cons x y) ∂(Measure.pi fun i : Fin n => ν i.succ)) ∂(μ 0)| ≤ n * η := by
      have hi : ∀ (κ : Measure (Fin n → X)) [IsProbabilityMeasure κ],
          Integrable (fun x => ∫ y, f (Fin.cons x y) ∂κ) (μ 0) := fun κ _ =>
        Integrable.of_bound (hmeas κ).aestronglyMeasurable 1 (.of_forall (hbd κ))
      rw [← integral_sub (hi _) (hi _)]
      have := norm_integral_le_of_norm_le_const (μ := μ 0) (C := n * η)
        (f := fun x => ∫ y, f (Fin.cons x y) ∂(Measure.pi fun i : Fin n => μ i.succ) -
          ∫ y, f (Fin.cons x y) ∂(Measure.pi fun i : Fin n => ν i.succ)) (.of_forall fun x =>
          ih (fun i => μ i.succ) (fun i => ν i.succ) (fun i => h i.succ) _
            (hc.comp measurable_prodMk_left) fun y => hb _)
      simpa using this
    push_cast
    rw [abs_le] at *
    constructor <;> linarith

theorem near_pi {W : Type} [Fintype W] {η : ℝ} (μ ν : W → Measure X)
    [∀ i, IsProbabilityMeasure (μ i)] [∀ i, IsProbabilityMeasure (ν i)]
    (h : ∀ i, Near η (μ i) (ν i)) :
    Near (Fintype.card W * η) (Measure.pi μ) (Measure.pi ν) := by
  intro f hf hb
  let e : Fin (Fintype.card W) ≃ W := (Fintype.equivFin W).symm
  have h1 := measurePreserving_piCongrLeft μ e
  have h2 := measurePreserving_piCongrLeft ν e
  rw [← h1.integral_comp (MeasurableEquiv.measurableEmbedding _),
    ← h2.integral_comp (MeasurableEquiv.measurableEmbedding _)]
  exact near_pi_fin (fun i => μ (e i)) (fun i => ν (e i)) (fun i => h _) _
    (hf.comp (MeasurableEquiv.measurable _)) fun x => hb _

theorem Near.set {η : ℝ} {μ ν : Measure X} (h : Near η μ ν) {A : Set X} (hA : MeasurableSet A) :
    |μ.real A - ν.real A| ≤ η := by
  have := h (A.indicator 1) (measurable_one.indicator hA) fun x => by
    by_cases hx : x ∈ A <;> simp [hx]
  rwa [integral_indicator_one hA, integral_indicator_one hA] at this

theorem pi_ac_fin {n : ℕ} (μ ν : Fin n → Measure X) [∀ i, SigmaFinite (μ i)]
    [∀ i, SigmaFinite (ν i)] (h : ∀ i, μ i ≪ ν i) : Measure.pi μ ≪ Measure.pi ν := by
  induction n with
  | zero => rw [show μ = ν from Subsingleton.elim _ _]
  | succ n ih =>
    have h1 := (measurePreserving_piFinSuccAbove μ 0).symm.map_eq
    have h2 := (measurePreserving_piFinSuccAbove ν 0).symm.map_eq
    rw [← h1, ← h2]
    exact ((h 0).prod (ih _ _ fun i => h _)).map (MeasurableEquiv.measurable _)

theorem pi_ac {W : Type} [Fintype W] (μ ν : W → Measure X) [∀ i, SigmaFinite (μ i)]
    [∀ i, SigmaFinite (ν i)] (h : ∀ i, μ i ≪ ν i) : Measure.pi μ ≪ Measure.pi ν := by
  let e : Fin (Fintype.card W) ≃ W := (Fintype.equivFin W).symm
  have h1 := (measurePreserving_piCongrLeft μ e).map_eq
  have h2 := (measurePreserving_piCongrLeft ν e).map_eq
  rw [← h1, ← h2]
  exact (pi_ac_fin _ _ fun i => h _).map (MeasurableEquiv.measurable _)

end pi

end Verif.Ergodic

namespace Verif.Ergodic
open Filter Topology MeasureTheory Set

section chain

variable {X Ω : Type*} [MeasurableSpace X] [MeasurableSpace Ω]

/-- The position after `n` moves with given draws. -/
def chain (F : X × Ω → X) : (n : ℕ) → X → (Fin n → Ω) → X
  | 0, x, _ => x
  | n + 1, x, ys => F (chain F n x fun i => ys i.castSucc, ys (Fin.last n))

omit [MeasurableSpace X] [MeasurableSpace Ω] in
theorem chain_succ (F : X × Ω → X) (n : ℕ) (x : X) (ys : Fin (n + 1) → Ω) :
    chain F (n + 1) x ys = chain F n (F (x, ys 0)) fun i => ys i.succ := by
  induction n with
  | zero => rfl
  | succ n ih =>
    rw [chain, ih, chain]
    rfl

theorem measurable_chain {F : X × Ω → X} (hF : Measurable F) (n : ℕ) :
    Measurable fun z : X × (Fin n → Ω) => chain F n z.1 z.2 := by
  induction n with
  | zero => exact measurable_fst
  | succ n ih =>
    unfold chain
    refine hF.comp (Measurable.prodMk ?_ (by fun_prop))
    exact ih.comp (measurable_fst.prodMk (by fun_prop))

/-- `C` holds for positions and draws along the chain. -/
def Along (F : X × Ω → X) (C : Set (X × Ω)) : (n : ℕ) → X → (Fin n → Ω) → Prop
  | 0, _, _ => True
  | n + 1, x, ys => Along F C n x (fun i => ys i.castSucc) ∧
      (chain F n x fun i => ys i.castSucc, ys (Fin.last n)) ∈ C

theorem measurableSet_along {F : X × Ω → X} (hF : Measurable F) {C : Set (X × Ω)}
    (hC : MeasurableSet C) (n : ℕ) :
    MeasurableSet {z : X × (Fin n → Ω) | Along F C n z.1 z.2} := by
  induction n with
  | zero => simp [Along]
  | succ n ih =>
    have h1 : Measurable fun z : X × (Fin (n + 1) → Ω) => (z.1, fun i : Fin n => z.2 i.castSucc) :=
      measurable_fst.prodMk (by fun_prop)
    exact (h1 ih).inter ((((measurable_chain hF n).comp h1).prodMk (by fun_prop)) hC)

variable {ν : Measure Ω} [IsProbabilityMeasure ν] {F : X × Ω → X}

/-- Splitting off the last draws. -/
theorem preserves_last (n : ℕ) : MeasurePreserving
    (fun ys : Fin (n + 1) → Ω => ((fun i => ys i.castSucc : Fin n → Ω), ys (Fin.last n)))
    (Measure.pi fun _ => ν) ((Measure.pi fun _ => ν).prod ν) := by
  have hsplit := measurePreserving_piFinSuccAbove (fun _ : Fin (n + 1) => ν) (Fin.last n)
  have := (Measure.measurePreserving_swap (μ := ν) (ν := Measure.pi fun _ : Fin n => ν)).comp hsplit
  convert this using 1
  funext ys
  refine Prod.ext ?_ rfl
  funext i
  show ys i.castSucc = ys ((Fin.last n).succAbove i)
  rw [Fin.succAbove_last]

/-- Splitting off the first draws. -/
theorem preserves_first (n : ℕ) : MeasurePreserving
    (fun ys : Fin (n + 1) → Ω => (ys 0, (fun i => ys i.succ : Fin n → Ω)))
    (Measure.pi fun _ => ν) (ν.prod (Measure.pi fun _ => ν)) := by
  have hsplit := measurePreserving_piFinSuccAbove (fun _ : Fin (n + 1) => ν) 0
  convert hsplit using 1
  funext ys
  refine Prod.ext rfl ?_
  funext i
  show ys i.succ = ys (Fin.succAbove 0 i)
  rw [Fin.succAbove_zero]

theorem map_chain (hF : Measurable F) (n : ℕ) (x : X) :
    (Measure.pi fun _ : Fin n => ν).map (chain F n x) = law ν F n x := by
  induction n with
  | zero =>
    show Measure.map (fun _ => x) _ = _
    rw [Measure.map_const, measure_univ, one_smul, law]
  | succ n ih =>
    rw [law, ← ih, ← (MeasurePreserving.id ν).map_eq]
    have hc : Measurable (chain F n x) := (measurable_chain hF n).comp measurable_prodMk_left
    rw [(MeasurePreserving.id ν).map_eq]
    have h1 : MeasurePreserving (Prod.map (chain F n x) id)
        ((Measure.pi fun _ : Fin n => ν).prod ν)
        (((Measure.pi fun _ : Fin n => ν).map (chain F n x)).prod ν) := by
      have : IsProbabilityMeasure ((Measure.pi fun _ : Fin n => ν).map (chain F n x)) :=
        Measure.isProbabilityMeasure_map hc.aemeasurable
      exact (hc.measurePreserving _).prod (MeasurePreserving.id ν)
    have h2 := h1.comp (preserves_last (ν := ν) n)
    rw [← h2.map_eq, Measure.map_map hF h2.measurable]
    rfl

theorem avg_chain (hF : Measurable F) {f : X → ℝ} {M : ℝ} (hf : Measurable f)
    (hb : ∀ x, |f x| ≤ M) (n : ℕ) (x : X) :
    avg (Measure.pi fun _ : Fin n => ν) (fun z => chain F n z.1 z.2) f x = (avg ν F)^[n] f x := by
  have hc : Measurable (chain F n x) := (measurable_chain hF n).comp measurable_prodMk_left
  rw [← integral_law hF hf hb, ← map_chain hF, integral_map hc.aemeasurable hf.aestronglyMeasurable]
  rfl

theorem ae_along (hF : Measurable F) {C : Set (X × Ω)} (hC : MeasurableSet C)
    (h : ∀ x, ∀ᵐ y ∂ν, (x, y) ∈ C) (n : ℕ) (x : X) :
    ∀ᵐ ys ∂(Measure.pi fun _ : Fin n => ν), Along F C n x ys := by
  induction n with
  | zero => exact .of_forall fun _ => trivial
  | succ n ih =>
    have h1 := (Measure.quasiMeasurePreserving_fst (μ := Measure.pi fun _ : Fin n => ν)
      (ν := ν)).ae ih
    have hset : MeasurableSet {z : (Fin n → Ω) × Ω | (chain F n x z.1, z.2) ∈ C} := by
      have hc : Measurable (chain F n x) := (measurable_chain hF n).comp measurable_prodMk_left
      exact ((hc.comp measurable_fst).prodMk measurable_snd) hC
    have h2 : ∀ᵐ z ∂((Measure.pi fun _ : Fin n => ν).prod ν),
        z ∈ {z : (Fin n → Ω) × Ω | (chain F n x z.1, z.2) ∈ C} := by
      rw [Measure.ae_prod_mem_iff_ae_ae_mem hset]
      exact .of_forall fun ys => h (chain F n x ys)
    exact (preserves_last n).quasiMeasurePreserving.ae (h1.and h2)

/-- Moves preserve the target, so do chains. -/
theorem chain_preserves {π : Measure X} [SFinite π] (h : MeasurePreserving F (π.prod ν) π) (n : ℕ) :
    MeasurePreserving (fun z : X × (Fin n → Ω) => chain F n z.1 z.2)
      (π.prod (Measure.pi fun _ => ν)) π := by
  induction n with
  | zero => exact measurePreserving_fst
  | succ n ih =>
    have h1 : MeasurePreserving (fun z : X × (Fin (n + 1) → Ω) =>
        ((z.1, fun i : Fin n => z.2 i.castSucc), z.2 (Fin.last n)))
        (π.prod (Measure.pi fun _ => ν)) ((π.prod (Measure.pi fun _ => ν)).prod ν) := by
      have e1 := (MeasurePreserving.id π).prod (preserves_last (ν := ν) n)
      have e2 := (measurePreserving_prodAssoc π (Measure.pi fun _ : Fin n => ν) ν).symm
      exact e2.comp e1
    exact (h.comp (ih.prod (MeasurePreserving.id ν))).comp h1

end chain

section total

variable {X Ω : Type*}

/-- The sum of `f` over the positions after each of `n` moves. -/
def total (F : X × Ω → X) (f : X → ℝ) : (n : ℕ) → X → (Fin n → Ω) → ℝ
  | 0, _, _ => 0
  | n + 1, x, ys => total F f n x (fun i => ys i.castSucc) + f (chain F (n + 1) x ys)

theorem total_succ (F : X × Ω → X) (f : X → ℝ) (n : ℕ) (x : X) (ys : Fin (n + 1) → Ω) :
    total F f (n + 1) x ys = f (F (x, ys 0)) + total F f n (F (x, ys 0)) fun i => ys i.succ := by
  induction n with
  | zero => simp [total, chain]
  | succ n ih =>
    rw [total, ih, chain_succ, total, add_assoc]
    rfl

theorem total_sub (F : X × Ω → X) (f g : X → ℝ) (n : ℕ) (x : X) (ys : Fin n → Ω) :
    total F (fun x => f x - g x) n x ys = total F f n x ys - total F g n x ys := by
  induction n with
  | zero => simp [total]
  | succ n ih => rw [total, ih, total, total]; ring

theorem total_const (F : X × Ω → X) (c : ℝ) (n : ℕ) (x : X) (ys : Fin n → Ω) :
    total F (fun _ => c) n x ys = n * c := by
  induction n with
  | zero => simp [total]
  | succ n ih => rw [total, ih]; push_cast; ring

theorem abs_total_le (F : X × Ω → X) {f : X → ℝ} {M : ℝ} (hb : ∀ x, |f x| ≤ M) (n : ℕ) (x : X)
    (ys : Fin n → Ω) : |total F f n x ys| ≤ n * M := by
  induction n with
  | zero => simp [total]
  | succ n ih =>
    rw [total]
    refine (abs_add_le _ _).trans ?_
    have h1 := ih fun i => ys i.castSucc
    have h2 := hb (chain F (n + 1) x ys)
    push_cast
    linarith

variable [MeasurableSpace X] [MeasurableSpace Ω]

theorem measurable_total {F : X × Ω → X} (hF : Measurable F) {f : X → ℝ} (hf : Measurable f)
    (n : ℕ) : Measurable fun z : X × (Fin n → Ω) => total F f n z.1 z.2 := by
  induction n with
  | zero => exact measurable_const
  | succ n ih =>
    unfold total
    refine Measurable.add ?_ (hf.comp (measurable_chain hF _))
    exact ih.comp (measurable_fst.prodMk (by fun_prop))

end total

section lln

variable {X Ω : Type*} [MeasurableSpace X] [MeasurableSpace Ω]
  {π : Measure X} [IsProbabilityMeasure π] {ν : Measure Ω} [IsProbabilityMeasure ν]
  {F : X × Ω → X}

/-- The chain converges from `x`, uniformly on bounded functions. -/
def ConvergesFrom (π : Measure X) (ν : Measure Ω) (F : X × Ω → X) (x : X) : Prop :=
  ∀ η > 0, ∀ᶠ n in atTop, ∀ f : X → ℝ, Measurable f → (∀ x, |f x| ≤ 1) →
    |(avg ν F)^[n] f x - ∫ x, f x ∂π| ≤ η

/-- The first move of a chain from a random position, then the others. -/
theorem preserves_step (h : MeasurePreserving F (π.prod ν) π) (n : ℕ) : MeasurePreserving
    (fun z : X × (Fin (n + 1) → Ω) => (F (z.1, z.2 0), (fun i => z.2 i.succ : Fin n → Ω)))
    (π.prod (Measure.pi fun _ => ν)) (π.prod (Measure.pi fun _ => ν)) := by
  have e1 := (MeasurePreserving.id π).prod (preserves_first (ν := ν) n)
  have e2 := (measurePreserving_prodAssoc π ν (Measure.pi fun _ : Fin n => ν)).symm
  have e3 := h.prod (MeasurePreserving.id (Measure.pi fun _ : Fin n => ν))
  exact (e3.comp e2).comp e1

/-- The mean of the sum from a position. -/
theorem integral_total (hF : Measurable F) {g : X → ℝ} (hg : Measurable g) {M : ℝ}
    (hb : ∀ x, |g x| ≤ M) (n : ℕ) (x : X) :
    ∫ ys, total F g n x ys ∂(Measure.pi fun _ : Fin n => ν) =
      ∑ k ∈ Finset.range n, (avg ν F)^[k + 1] g x := by
  induction n with
  | zero => simp [total]
  | succ n ih =>
    have hm := measurable_total hF hg
    have hmx : ∀ n, Measurable (total F g n x) := fun n => (hm n).comp measurable_prodMk_left
    have hp := preserves_last (ν := ν) n
    have e : ∫ ys, total F g n x (fun i => ys i.castSucc) ∂(Measure.pi fun _ : Fin (n + 1) => ν) =
        ∫ ys, total F g n x ys ∂(Measure.pi fun _ : Fin n => ν) := by
      have h1 : MeasurePreserving (fun ys : Fin (n + 1) → Ω => (fun i => ys i.castSucc : Fin n → Ω))
          (Measure.pi fun _ => ν) (Measure.pi fun _ => ν) := measurePreserving_fst.comp hp
      rw [← h1.map_eq, integral_map h1.measurable.aemeasurable (hmx n).aestronglyMeasurable]
    have hc : Measurable (chain F (n + 1) x) := (measurable_chain hF _).comp measurable_prodMk_left
    rw [Finset.sum_range_succ, ← ih, ← e, ← avg_chain hF hg hb]
    unfold avg
    have i1 : Integrable (fun ys : Fin (n + 1) → Ω => total F g n x fun i => ys i.castSucc)
        (Measure.pi fun _ : Fin (n + 1) => ν) :=
      Integrable.of_bound ((hmx n).comp (by fun_prop)).aestronglyMeasurable (n * M)
        (.of_forall fun ys => abs_total_le F hb n x _)
    have i2 : Integrable (fun ys : Fin (n + 1) → Ω => g (chain F (n + 1) x ys))
        (Measure.pi fun _ : Fin (n + 1) => ν) :=
      Integrable.of_bound (hg.comp hc).aestronglyMeasurable M (.of_forall fun ys => hb _)
    exact integral_add i1 i2

/-- The variance of the sum in the stationary state, one move at a time. -/
theorem variance_step (hF : Measurable F) (h : MeasurePreserving F (π.prod ν) π) {g : X → ℝ}
    (hg : Measurable g) {M : ℝ} (hM : 0 ≤ M) (hb : ∀ x, |g x| ≤ M) (n : ℕ) :
    ∫ z, total F g (n + 1) z.1 z.2 ^ 2 ∂(π.prod (Measure.pi fun _ : Fin (n + 1) => ν)) =
      ∫ z, total F g n z.1 z.2 ^ 2 ∂(π.prod (Measure.pi fun _ : Fin n => ν)) +
      ∫ x, g x ^ 2 ∂π + 2 * ∑ k ∈ Finset.range n, ∫ x, g x * (avg ν F)^[k + 1] g x ∂π := by
  have hm := measurable_total hF hg n
  have hp := preserves_step h n
  have hmeas : Measurable fun z : X × (Fin n → Ω) => (g z.1 + total F g n z.1 z.2) ^ 2 :=
    ((hg.comp measurable_fst).add hm).pow_const 2
  have e : ∫ z, total F g (n + 1) z.1 z.2 ^ 2 ∂(π.prod (Measure.pi fun _ : Fin (n + 1) => ν)) =
      ∫ z, (g z.1 + total F g n z.1 z.2) ^ 2 ∂(π.prod (Measure.pi fun _ : Fin n => ν)) := by
    conv_rhs => rw [← hp.map_eq]
    rw [integral_map hp.measurable.aemeasurable hmeas.aestronglyMeasurable]
    refine integral_congr_ae (.of_forall fun z => ?_)
    simp only [total_succ]
  have hbt : ∀ z : X × (Fin n → Ω), |total F g n z.1 z.2| ≤ n * M := fun z =>
    abs_total_le F hb n _ _
  have i1 : Integrable (fun z : X × (Fin n → Ω) => g z.1 ^ 2)
      (π.prod (Measure.pi fun _ : Fin n => ν)) :=
    Integrable.of_bound ((hg.comp measurable_fst).pow_const 2).aestronglyMeasurable (M ^ 2)
      (.of_forall fun z => by
        rw [Real.norm_eq_abs, abs_pow]; exact pow_le_pow_left₀ (abs_nonneg _) (hb _) 2)
  have i2 : Integrable (fun z : X × (Fin n → Ω) => g z.1 * total F g n z.1 z.2)
      (π.prod (Measure.pi fun _ : Fin n => ν)) :=
    Integrable.of_bound ((hg.comp measurable_fst).mul hm).aestronglyMeasurable (M * (n * M))
      (.of_forall fun z => by
        rw [Real.norm_eq_abs, abs_mul]
        exact mul_le_mul (hb _) (hbt z) (abs_nonneg _) hM)
  have i3 : Integrable (fun z : X × (Fin n → Ω) => total F g n z.1 z.2 ^ 2)
      (π.prod (Measure.pi fun _ : Fin n => ν)) :=
    Integrable.of_bound (hm.pow_const 2).aestronglyMeasurable ((n * M) ^ 2)
      (.of_forall fun z => by
        rw [Real.norm_eq_abs, abs_pow]; exact pow_le_pow_left₀ (abs_nonneg _) (hbt z) 2)
  have e2 : ∀ z : X × (Fin n → Ω), (g z.1 + total F g n z.1 z.2) ^ 2 =
      total F g n z.1 z.2 ^ 2 + g z.1 ^ 2 + 2 * (g z.1 * total F g n z.1 z.2) := fun z => by ring
  rw [e]
  simp_rw [e2]
  have i4 : Integrable (fun z : X × (Fin n → Ω) => total F g n z.1 z.2 ^ 2 + g z.1 ^ 2)
      (π.prod (Measure.pi fun _ : Fin n => ν)) := i3.add i1
  rw [integral_add i4 (i2.const_mul 2), integral_add i3 i1, integral_const_mul,
    integral_prod _ i1, integral_prod _ i2]
  congr 1
  · congr 1
    simp
  · congr 1
    rw [← integral_finsetSum]
    · refine integral_congr_ae (.of_forall fun x => ?_)
      simp only
      rw [integral_const_mul, integral_total hF hg hb, Finset.mul_sum]
    · intro k _
      have hP := iterate_avg (ν := ν) hF hg hb (k + 1)
      exact Integrable.of_bound (hg.mul hP.1).aestronglyMeasurable (M * M) (.of_forall fun x => by
        rw [Real.norm_eq_abs, abs_mul]
        exact mul_le_mul (hb _) (hP.2 x) (abs_nonneg _) hM)

end lln

end Verif.Ergodic
