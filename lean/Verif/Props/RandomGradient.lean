import Verif.Props.ParamGradient
import Verif.Props.LocalEnergy
import Mathlib.Probability.Distributions.Uniform

/-!
C96 with random particles: the gradient computed from local energies of sampled electrons is the
derivative of the energy in the mean over walkers and over permutations of the electrons.
-/

namespace Verif.Props
open Verif.Construct Verif.Net Verif.Spec Verif.Slog Verif.Decay Verif.Phys Verif.Ibp MeasureTheory
open Filter Topology Verif.Energy
open scoped ContDiff

section draws

variable {X κ : Type*} [MeasurableSpace X] [MeasurableSpace κ] {μ : Measure X}
  [IsProbabilityMeasure μ] {ρ : Measure κ} [IsProbabilityMeasure ρ] {n : ℕ}

/-- Draws of permutations with equal probabilities. -/
structure UniformDraws (ρ : Measure κ) (permutation : κ → Equiv.Perm (Fin n)) : Prop where
  measurable : ∀ σ, MeasurableSet {k | permutation k = σ}
  uniform : ∀ σ, ρ.real {k | permutation k = σ} = 1 / n.factorial

omit [IsProbabilityMeasure ρ] [MeasurableSpace κ] in
theorem draws_sum (permutation : κ → Equiv.Perm (Fin n)) (F : Equiv.Perm (Fin n) → ℝ) (k : κ) :
    F (permutation k) = ∑ σ, F σ * Set.indicator {k | permutation k = σ} (fun _ => (1 : ℝ)) k := by
  classical
  simp [Set.indicator_apply]

variable {permutation : κ → Equiv.Perm (Fin n)} (hp : UniformDraws ρ permutation)

include hp

theorem integrable_draws {e : Equiv.Perm (Fin n) → X → ℝ} (he : ∀ σ, Integrable (e σ) μ) :
    Integrable (fun p : X × κ => e (permutation p.2) p.1) (μ.prod ρ) := by
  have : (fun p : X × κ => e (permutation p.2) p.1) = fun p => ∑ σ, e σ p.1 *
      Set.indicator {k | permutation k = σ} (fun _ => (1 : ℝ)) p.2 :=
    funext fun p => draws_sum permutation (fun σ => e σ p.1) p.2
  rw [this]
  exact integrable_finsetSum _ fun σ _ => (he σ).mul_prod
    ((integrable_const (1 : ℝ)).indicator (hp.measurable σ))

theorem integral_draws {e : Equiv.Perm (Fin n) → X → ℝ} (he : ∀ σ, Integrable (e σ) μ) :
    ∫ p : X × κ, e (permutation p.2) p.1 ∂(μ.prod ρ) = ∫ x, permMean (fun σ => e σ x) ∂μ := by
  rw [integral_prod _ (integrable_draws hp he)]
  refine integral_congr_ae (.of_forall fun x => ?_)
  simp only
  have h1 : ∀ k, e (permutation k) x = ∑ σ, e σ x *
      Set.indicator {k | permutation k = σ} (fun _ => (1 : ℝ)) k :=
    draws_sum permutation fun σ => e σ x
  have h2 : ∀ σ, Integrable (fun k => e σ x *
      Set.indicator {k | permutation k = σ} (fun _ => (1 : ℝ)) k) ρ := fun σ =>
    ((integrable_const (1 : ℝ)).indicator (hp.measurable σ)).const_mul _
  simp only [h1]
  rw [integral_finsetSum _ fun σ _ => h2 σ]
  unfold permMean
  rw [Finset.sum_div, Fintype.card_perm, Fintype.card_fin]
  refine Finset.sum_congr rfl fun σ _ => ?_
  rw [integral_const_mul, integral_indicator (hp.measurable σ)]
  simp only [integral_const, MeasurableSet.univ, measureReal_restrict_apply, Set.univ_inter,
    hp.uniform, smul_eq_mul, mul_one]
  rw [mul_one_div]

end draws

section mild

variable {N m d : ℕ} {R : Fin m → Fin d → ℝ} {β : ℝ}

/-- Exponential decay up to Coulomb singularities. -/
structure Mild (R : Fin m → Fin d → ℝ) (β : ℝ) (H : Pos N d → ℝ) : Prop where
  measurable : AEStronglyMeasurable H volume
  bound : ∃ M, ∀ x, Good R x → |H x| ≤ M * (Real.exp (-(β * ∑ e, ‖x e‖)) * sing R x)

theorem Mild.add {H H' : Pos N d → ℝ} (h : Mild R β H) (h' : Mild R β H') :
    Mild R β fun x => H x + H' x := by
  obtain ⟨m1, M, hM⟩ := h
  obtain ⟨m2, M', hM'⟩ := h'
  refine ⟨m1.add m2, M + M', fun x hx => ?_⟩
  rw [add_mul]
  exact (abs_add_le _ _).trans (add_le_add (hM x hx) (hM' x hx))

theorem Mild.const_mul {H : Pos N d → ℝ} (h : Mild R β H) (c : ℝ) : Mild R β fun x => c * H x := by
  obtain ⟨m1, M, hM⟩ := h
  refine ⟨m1.const_mul c, |c| * M, fun x hx => ?_⟩
  rw [abs_mul, mul_assoc]
  exact mul_le_mul_of_nonneg_left (hM x hx) (abs_nonneg _)

theorem Mild.zero : Mild R β fun _ : Pos N d => 0 :=
  ⟨aestronglyMeasurable_const, 0, fun x _ => by simp⟩

theorem Mild.sum {ι : Type*} {s : Finset ι} {H : ι → Pos N d → ℝ} (h : ∀ a ∈ s, Mild R β (H a)) :
    Mild R β fun x => ∑ a ∈ s, H a x := by
  classical
  induction s using Finset.induction_on with
  | empty => simpa using Mild.zero
  | insert a s ha ih =>
    simp only [Finset.sum_insert ha]
    exact (h a (by simp)).add (ih fun b hb => h b (by simp [hb]))

variable {ψ : Pos N d → ℝ} {C : ℝ} (hw : WaveFunction ψ (partial1 ψ) (partial2 ψ))
  (hb : Bounded R ψ β C)

include hw hb

theorem Mild.second (i : Fin N) (k : Fin d) : Mild R β (partial2 ψ i k) :=
  ⟨measurable_partial2 hw i k, C, fun x hx => by
    have := hb.second i k x hx
    rwa [mul_assoc] at this⟩

theorem Mild.value : Mild R β ψ :=
  ⟨hw.measurable, C, fun x hx => by
    have h1 := hb.value x hx
    rw [← mul_assoc]
    exact h1.trans (le_mul_of_one_le_right ((abs_nonneg _).trans h1) (one_le_sing R x))⟩

omit hw hb in
theorem mild_of_le {f : Pos N d → ℝ} (hw : WaveFunction ψ (partial1 ψ) (partial2 ψ))
    (hb : Bounded R ψ β C) (hf : Measurable f) (h0 : ∀ x, 0 ≤ f x)
    (h1 : ∀ x, Good R x → f x ≤ sing R x) : Mild R β fun x => ψ x * f x := by
  refine ⟨hw.measurable.mul hf.aestronglyMeasurable, C, fun x hx => ?_⟩
  rw [abs_mul, abs_of_nonneg (h0 x), ← mul_assoc]
  exact mul_le_mul (hb.value x hx) (h1 x hx) (h0 x) ((abs_nonneg _).trans (hb.value x hx))

theorem Mild.ion (s : ℝ) (i : Fin N) (J : Fin m) : Mild R β fun x => ψ x * (1 / softDist s (x i) (R J)) :=
  mild_of_le hw hb (by unfold softDist; fun_prop) (fun _ => one_div_softDist_nonneg _ _ _)
    fun x hx => (one_div_softDist_le s (hx.2 i J)).trans (ion_le_sing R x i J)

theorem Mild.pair (s : ℝ) {i j : Fin N} (hij : i ≠ j) :
    Mild R β fun x => ψ x * (1 / softDist s (x i) (x j)) :=
  mild_of_le hw hb (by unfold softDist; fun_prop) (fun _ => one_div_softDist_nonneg _ _ _)
    fun x hx => (one_div_softDist_le s (hx.1 i j hij)).trans (pair_le_sing R x i j)

end mild

section terms

variable {N m d : ℕ} {R : Fin m → Fin d → ℝ} {β : ℝ} {ψ : Pos N d → ℝ} {C : ℝ}

/-- Local energies whose product with the wave function decays. -/
def MildEnergy (R : Fin m → Fin d → ℝ) (β : ℝ) (ψ e : Pos N d → ℝ) : Prop :=
  ∃ H, Mild R β H ∧ ∀ᵐ x, ψ x * e x = H x

theorem MildEnergy.add {e e' : Pos N d → ℝ} (h : MildEnergy R β ψ e) (h' : MildEnergy R β ψ e') :
    MildEnergy R β ψ fun x => e x + e' x := by
  obtain ⟨H, hH, he⟩ := h
  obtain ⟨H', hH', he'⟩ := h'
  refine ⟨_, hH.add hH', ?_⟩
  filter_upwards [he, he'] with x h1 h2
  rw [mul_add, h1, h2]

theorem MildEnergy.const_mul {e : Pos N d → ℝ} (h : MildEnergy R β ψ e) (c : ℝ) :
    MildEnergy R β ψ fun x => c * e x := by
  obtain ⟨H, hH, he⟩ := h
  refine ⟨_, hH.const_mul c, ?_⟩
  filter_upwards [he] with x h1
  rw [← h1]
  ring

theorem MildEnergy.sum {ι : Type*} {s : Finset ι} {e : ι → Pos N d → ℝ}
    (h : ∀ a ∈ s, MildEnergy R β ψ (e a)) : MildEnergy R β ψ fun x => ∑ a ∈ s, e a x := by
  classical
  induction s using Finset.induction_on with
  | empty => exact ⟨_, Mild.zero, .of_forall fun x => by simp⟩
  | insert a s ha ih =>
    simp only [Finset.sum_insert ha]
    exact (h a (by simp)).add (ih fun b hb => h b (by simp [hb]))

variable (hw : WaveFunction ψ (partial1 ψ) (partial2 ψ)) (hb : Bounded R ψ β C)

include hw hb

theorem mildEnergy_coord (i : Fin N) (k : Fin d) :
    MildEnergy R β ψ fun x => coordLaplacian (logAbs ψ) x i k := by
  refine ⟨_, Mild.second hw hb i k, ?_⟩
  filter_upwards [ae_partials hw] with x hx
  rw [(hx.2 i k).2, mul_div_cancel₀ _ hx.1]

theorem mildEnergy_const (c : ℝ) : MildEnergy R β ψ fun _ => c :=
  ⟨_, (Mild.value hw hb).const_mul c, .of_forall fun _ => mul_comm _ _⟩

theorem mildEnergy_ion (s : ℝ) (i : Fin N) (J : Fin m) :
    MildEnergy R β ψ fun x => 1 / softDist s (x i) (R J) :=
  ⟨_, Mild.ion hw hb s i J, .of_forall fun _ => rfl⟩

theorem mildEnergy_pair (s : ℝ) (i j : Fin N) :
    MildEnergy R β ψ fun x => if j ≠ i then 1 / softDist s (x i) (x j) else 0 := by
  by_cases h : j = i
  · simpa [h] using mildEnergy_const hw hb 0
  · simp only [ne_eq, h, not_false_eq_true, if_true]
    exact ⟨_, Mild.pair hw hb s (Ne.symm h), .of_forall fun _ => rfl⟩

theorem mildEnergy_sampledKinetic (k : ℕ) (σ : Equiv.Perm (Fin N)) :
    MildEnergy R β ψ (sampledKinetic k σ (logAbs ψ)) :=
  ((MildEnergy.sum fun i _ => MildEnergy.sum fun c _ =>
    mildEnergy_coord hw hb (σ i) c).const_mul _).const_mul _

theorem mildEnergy_sampledEI (k : ℕ) (σ : Equiv.Perm (Fin N)) (s : ℝ) (Z : Fin m → ℝ) :
    MildEnergy R β ψ (sampledEI k σ s R Z) := by
  have := ((MildEnergy.sum (s := firstLabels N k) fun i _ => MildEnergy.sum (s := Finset.univ)
    fun J _ => (mildEnergy_ion hw hb s (σ i) J).const_mul (Z J)).const_mul (-1)).const_mul
      ((N : ℝ) / k)
  simp only [mul_one_div, neg_one_mul] at this
  exact this

theorem mildEnergy_sampledEE (k : ℕ) (σ : Equiv.Perm (Fin N)) (s : ℝ) :
    MildEnergy R β ψ (sampledEE k σ s) := by
  have := ((MildEnergy.sum (s := firstLabels N k) fun i _ => MildEnergy.sum (s := Finset.univ)
    fun j _ => mildEnergy_pair hw hb s (σ i) j).const_mul (1 / 2)).const_mul ((N : ℝ) / k)
  simp only [one_div_mul_eq_div] at this
  exact this

/-- The sum of all electrons is the sum of the sampled ones when all are sampled. -/
theorem mildEnergy_kinetic : MildEnergy R β ψ (kineticLaplacian (logAbs ψ)) :=
  (MildEnergy.sum fun i _ => MildEnergy.sum fun c _ => mildEnergy_coord hw hb i c).const_mul _

theorem mildEnergy_coulombEI (s : ℝ) (Z : Fin m → ℝ) :
    MildEnergy R β ψ (coulombEI 1 s R Z) := by
  have := ((MildEnergy.sum (s := Finset.univ) fun i _ => MildEnergy.sum (s := Finset.univ)
    fun J _ => (mildEnergy_ion hw hb s i J).const_mul (Z J)).const_mul (-1))
  unfold coulombEI
  simpa only [mul_one_div, neg_one_mul, Fintype.sum_prod_type, one_mul] using this

theorem mildEnergy_coulombEE (s : ℝ) : MildEnergy R β ψ (coulombEE 1 s) := by
  unfold coulombEE
  refine MildEnergy.sum fun p hp => ?_
  have h : p.2 ≠ p.1 := by
    simp only [pairs, Finset.mem_filter, Finset.mem_univ, true_and] at hp
    exact hp.ne'
  have := mildEnergy_pair hw hb s p.1 p.2
  simpa only [ne_eq, h, not_false_eq_true, if_true] using this

/-- The local energy with a permutation of the electrons (`random_particle_energy_terms`). -/
noncomputable def sampledEnergy (parts : List String) (k : ℕ) (R : Fin m → Fin d → ℝ) (Z : Fin m → ℝ)
    (eiSoft eeSoft : ℝ) (f : Pos N d → ℝ) (σ : Equiv.Perm (Fin N)) (x : Pos N d) : ℝ :=
  (if "kinetic" ∈ parts then sampledKinetic k σ f x else kineticLaplacian f x) +
    (if "ei" ∈ parts then sampledEI k σ eiSoft R Z x else coulombEI 1 eiSoft R Z x) +
    (if "ee" ∈ parts then sampledEE k σ eeSoft x else coulombEE 1 eeSoft x) + coulombII R Z

theorem mildEnergy_sampled (parts : List String) (k : ℕ) (Z : Fin m → ℝ) (eiSoft eeSoft : ℝ)
    (σ : Equiv.Perm (Fin N)) :
    MildEnergy R β ψ (sampledEnergy parts k R Z eiSoft eeSoft (logAbs ψ) σ) := by
  unfold sampledEnergy
  refine ((MildEnergy.add ?_ ?_).add ?_).add (mildEnergy_const hw hb _)
  · split_ifs
    · exact mildEnergy_sampledKinetic hw hb k σ
    · exact mildEnergy_kinetic hw hb
  · split_ifs
    · exact mildEnergy_sampledEI hw hb k σ _ Z
    · exact mildEnergy_coulombEI hw hb _ Z
  · split_ifs
    · exact mildEnergy_sampledEE hw hb k σ _
    · exact mildEnergy_coulombEE hw hb _

omit hw hb in
theorem sampledEnergy_mean (parts : List String) {k : ℕ} (hk : 0 < k) (hkn : k ≤ N) (Z : Fin m → ℝ)
    (eiSoft eeSoft : ℝ) (f : Pos N d → ℝ) (x : Pos N d) :
    permMean (fun σ => sampledEnergy parts k R Z eiSoft eeSoft f σ x) =
      kineticLaplacian f x + coulomb eiSoft eeSoft R Z x := by
  unfold sampledEnergy coulomb
  simp only [permMean_add, permMean_const]
  have h1 : permMean (fun σ => if "kinetic" ∈ parts then sampledKinetic k σ f x
      else kineticLaplacian f x) = kineticLaplacian f x := by
    split_ifs
    · exact sampledKinetic_mean k hk hkn f x
    · exact permMean_const _
  have h2 : permMean (fun σ : Equiv.Perm (Fin N) => if "ei" ∈ parts then sampledEI k σ eiSoft R Z x
      else coulombEI 1 eiSoft R Z x) = coulombEI 1 eiSoft R Z x := by
    split_ifs
    · exact sampledEI_mean k hk hkn _ R Z x
    · exact permMean_const _
  have h3 : permMean (fun σ : Equiv.Perm (Fin N) => if "ee" ∈ parts then sampledEE k σ eeSoft x
      else coulombEE 1 eeSoft x) = coulombEE 1 eeSoft x := by
    split_ifs
    · exact sampledEE_mean k hk hkn _ x
    · exact permMean_const _
  rw [h1, h2, h3]
  ring

omit hw hb in
/-- Integrability of a mild local energy and of its product with a logarithmic derivative. -/
theorem finiteExpect_mild (hd : 2 ≤ d) (hβ : 0 < β) (hw : WaveFunction ψ (partial1 ψ) (partial2 ψ))
    (hb : Bounded R ψ β C) {e : Pos N d → ℝ} (he : MildEnergy R β ψ e) {ψ' g : Pos N d → ℝ}
    (hm' : AEStronglyMeasurable ψ' volume)
    (hle : ∀ x, Good R x → |ψ' x| ≤ C * Real.exp (-(β * ∑ e, ‖x e‖)))
    (hg : ∀ᵐ x, ψ x * g x = ψ' x) :
    FiniteExpect ψ e ∧ FiniteExpect ψ fun x => e x * g x := by
  obtain ⟨H, ⟨hm, M, hM⟩, hH⟩ := he
  constructor
  · refine (finiteExpect_iff hw _).mpr
      ((integrable_of_le hd hβ hw.measurable hm hb.value hM).congr ?_)
    filter_upwards [hH] with x hx
    rw [← hx]
    ring
  · refine (finiteExpect_iff hw _).mpr ((integrable_of_le hd hβ hm' hm hle hM).congr ?_)
    filter_upwards [hH, hg] with x hx hx'
    rw [← hx, ← hx']
    ring

end terms

section configured

variable {K nion d : ℕ} {n : Fin (K + 1) → ℕ} {R : Fin nion → Fin d → ℝ}
  {c : ModelCfg} {charges : Fin nion → ℝ} {P : ℝ → Params (K + 1) nion d}
  {nonzero : ℝ → Stream1 n d → Prop} {ψ : ℝ → Stream1 n d → ℝ}

theorem sampledEnergy_congr {N m d : ℕ} {R : Fin m → Fin d → ℝ} {f g : Pos N d → ℝ} {x : Pos N d}
    (h : f =ᶠ[𝓝 x] g) (parts : List String) (k : ℕ) (Z : Fin m → ℝ) (a b : ℝ)
    (σ : Equiv.Perm (Fin N)) :
    sampledEnergy parts k R Z a b f σ x = sampledEnergy parts k R Z a b g σ x := by
  have : ∀ i c, coordLaplacian f x i c = coordLaplacian g x i c := fun i c => by
    unfold coordLaplacian
    rw [partial1_congr h, partial2_congr h]
  unfold sampledEnergy sampledKinetic kineticLaplacian
  simp only [this]

/-- C96 with random particles, in three dimensions: the gradient which training computes without
clipping from local energies of `k` sampled electrons is the exact derivative of the energy
`∫ (½|∇ψ|² + Vψ²) / ∫ ψ²`, in the mean over independent walkers distributed as `|ψ|²` and over
permutations which are all equally likely, drawn independently for every walker. -/
theorem configured_random_gradient_unbiased {R : Fin nion → Fin 3 → ℝ} {P : ℝ → Params (K + 1) nion 3}
    {nonzero : ℝ → Stream1 n 3 → Prop} {ψ : ℝ → Stream1 n 3 → ℝ}
    (dtype : ℕ) (m : Model nion)
    (hm : getModelFromConfig c (counts n) R charges dtype = .ok m) (hP : SmoothPath P)
    (v : ℝ → Stream1 n 3 → SL) (hv : ∀ θ q, m.apply (P θ) R q = .ok (v θ q))
    (hψ : ∀ θ q, ModelValue c (P θ) R charges q (nonzero θ q) (ψ θ q))
    (f : ℝ → Pos (∑ s, n s) 3 → ℝ)
    (hf : ∀ θ y, (v θ (splitPositions y)).2.isFin → (v θ (splitPositions y)).2 = .fin (f θ y))
    {θ₀ : ℝ} (hc : ∀ᶠ θ in 𝓝 θ₀, Decays c (P θ) charges n) {q : Pos (∑ s, n s) 3} (hq : Good R q)
    (h0 : ψ θ₀ (splitPositions q) ≠ 0) (hR : Distinct R) {κ : Type} [MeasurableSpace κ]
    (ρ : Measure κ) [IsProbabilityMeasure ρ] (permutation : κ → Equiv.Perm (Fin (∑ s, n s)))
    (hρ : UniformDraws ρ permutation) (ibpParts sampleParts : List String) {k : ℕ} (hk : 0 < k)
    (hkn : k ≤ ∑ s, n s) (eiSoft eeSoft : ℝ) :
    ∃ E, assembleMolLocalEnergy permutation "random_particle" ibpParts k sampleParts R charges eiSoft
        eeSoft (f θ₀) = some E ∧
      (∀ᵐ x, ∀ key, ∃ e, E x key = .fin e) ∧
      (∀ᵐ x, DifferentiableAt ℝ (fun θ => f θ x) θ₀) ∧
      ∀ {J : Type} (j : J) (walker : Pos (∑ s, n s) 3 × κ → RealWalker J),
        (∀ᵐ x, ∀ key, E x key = .fin (walker (x, key)).eloc) →
        (∀ᵐ x, ∀ key, HasDerivAt (fun θ => f θ x) ((walker (x, key)).gradLogPsi j) θ₀) →
        ∀ (N : ℕ), 2 ≤ N → ∀ nanSafe : Bool,
        ∃ G : (Fin N → Pos (∑ s, n s) 3 × κ) → ℝ,
          (∀ x devs l, IsLayout (List.ofFn fun i => walker (x i)) devs l →
            meanGrad (valueAndGrad .randomParticle N none nanSafe
              (devs.map fun l => l.map RealWalker.toX)).2.2 j = .fin (G x)) ∧
          Integrable G (Measure.pi fun _ =>
            (born volume fun y => ψ θ₀ (splitPositions y)).prod ρ) ∧
          HasDerivAt (fun θ => rayleigh (fun y => ψ θ (splitPositions y))
              (coulomb eiSoft eeSoft R charges))
            (∫ x, G x ∂(Measure.pi fun _ =>
              (born volume fun y => ψ θ₀ (splitPositions y)).prod ρ)) θ₀ := by
  obtain ⟨I, hI, hθ₀, hcI, ψ', β, C, hβ, hF⟩ :=
    configured_family (by norm_num) (by omega) hP hψ hc hq h0
  have hθI := mem_of_mem_nhds hθ₀
  have hw := hF.wave θ₀ hθI
  have hb := hF.bounded θ₀ hθI
  obtain ⟨hlog, hder⟩ := configured_log_family (by norm_num) dtype m hm v hv hψ f hf hθ₀ hcI hF
  obtain ⟨E, hE⟩ : ∃ E, assembleMolLocalEnergy permutation "random_particle" ibpParts k sampleParts R
      charges eiSoft eeSoft (f θ₀) = some E := by
    unfold assembleMolLocalEnergy
    rw [if_neg (by decide), if_neg (by decide), if_pos rfl]
    exact ⟨_, rfl⟩
  set e : Equiv.Perm (Fin (∑ s, n s)) → Pos (∑ s, n s) 3 → ℝ :=
    sampledEnergy sampleParts k R charges eiSoft eeSoft
      (logAbs fun y => ψ θ₀ (splitPositions y)) with he_def
  have hEe : ∀ᵐ x, ∀ key, E x key = .fin (e (permutation key) x) := by
    filter_upwards [ae_good (by norm_num) R, hlog] with x hx hl key
    obtain ⟨E', hE', h⟩ := random_particle_energy_terms permutation ibpParts sampleParts k hk hkn R
      charges eiSoft eeSoft (f θ₀) x key ⟨.inr hx.2, .inr hx.1, hR⟩
    obtain rfl := Option.some.inj (hE.symm.trans hE')
    rw [h, he_def, ← sampledEnergy_congr hl]
    rfl
  refine ⟨E, hE, hEe.mono fun x hx key => ⟨_, hx key⟩, hder.mono fun x hx => hx.differentiableAt,
    fun {J} j walker he hg N hN nanSafe => ?_⟩
  set g : Pos (∑ s, n s) 3 → ℝ := fun x => ψ' θ₀ x / ψ θ₀ (splitPositions x) with hg_def
  have hgψ : ∀ᵐ x, ψ θ₀ (splitPositions x) * g x = ψ' θ₀ x := by
    filter_upwards [hw.ne_zero] with x hne
    rw [hg_def, mul_div_cancel₀ _ hne]
  have := isProbabilityMeasure_born hw.normalisable (norm_ne_zero hw)
  set μ := born volume fun y => ψ θ₀ (splitPositions y) with hμ
  have hac : μ ≪ volume := withDensity_absolutelyContinuous _ _
  obtain ⟨ie, ig, ieg, hD⟩ := hF.rayleigh_deriv (by norm_num) hβ hI hθ₀ eiSoft eeSoft charges
    (mul_local_energy hw (coulomb eiSoft eeSoft R charges)) hgψ
  have hmild := fun σ => finiteExpect_mild (by norm_num) hβ hw hb
    (mildEnergy_sampled hw hb sampleParts k charges eiSoft eeSoft σ)
    (hF.deriv_measurable (by norm_num) hθ₀) (hF.deriv_le θ₀ hθI) hgψ
  -- the walkers
  have we : (fun p => (walker p).eloc) =ᵐ[μ.prod ρ] fun p => e (permutation p.2) p.1 := by
    have : ∀ᵐ x ∂μ, ∀ key, (walker (x, key)).eloc = e (permutation key) x := by
      refine hac.ae_le ?_
      filter_upwards [hEe, he] with x h1 h2 key
      exact XR.fin_inj.mp ((h2 key).symm.trans (h1 key))
    filter_upwards [Measure.quasiMeasurePreserving_fst.ae this] with p hp
    exact hp p.2
  have wg : (fun p => (walker p).gradLogPsi j) =ᵐ[μ.prod ρ] fun p => g p.1 := by
    have : ∀ᵐ x ∂μ, ∀ key, (walker (x, key)).gradLogPsi j = g x := by
      refine hac.ae_le ?_
      filter_upwards [hder, hg] with x h1 h2 key
      exact (h2 key).unique h1
    filter_upwards [Measure.quasiMeasurePreserving_fst.ae this] with p hp
    exact hp p.2
  have weg : (fun p => (walker p).eloc * (walker p).gradLogPsi j) =ᵐ[μ.prod ρ]
      fun p => e (permutation p.2) p.1 * g p.1 := we.mul wg
  have i1 := (integrable_draws hρ fun σ => (hmild σ).1).congr we.symm
  have i2 : Integrable (fun p => (walker p).gradLogPsi j) (μ.prod ρ) :=
    (Integrable.comp_fst ig ρ).congr wg.symm
  have i3 := (integrable_draws hρ (e := fun σ x => e σ x * g x) fun σ => (hmild σ).2).congr weg.symm
  have mean : ∀ x, permMean (fun σ => e σ x) = kineticLaplacian (logAbs fun y => ψ θ₀
      (splitPositions y)) x + coulomb eiSoft eeSoft R charges x := fun x =>
    sampledEnergy_mean sampleParts hk hkn charges eiSoft eeSoft _ x
  have m1 : ∫ p, (walker p).eloc ∂(μ.prod ρ) = ∫ x, (kineticLaplacian (logAbs fun y => ψ θ₀
      (splitPositions y)) x + coulomb eiSoft eeSoft R charges x) ∂μ := by
    rw [integral_congr_ae we, integral_draws hρ fun σ => (hmild σ).1]
    exact integral_congr_ae (.of_forall fun x => mean x)
  have m2 : ∫ p, (walker p).gradLogPsi j ∂(μ.prod ρ) = ∫ x, g x ∂μ := by
    rw [integral_congr_ae wg, integral_prod _ (Integrable.comp_fst ig ρ)]
    simp [hμ]
  have m3 : ∫ p, (walker p).eloc * (walker p).gradLogPsi j ∂(μ.prod ρ) =
      ∫ x, (kineticLaplacian (logAbs fun y => ψ θ₀ (splitPositions y)) x +
        coulomb eiSoft eeSoft R charges x) * g x ∂μ := by
    rw [integral_congr_ae weg, integral_draws hρ (e := fun σ x => e σ x * g x) fun σ => (hmild σ).2]
    refine integral_congr_ae (.of_forall fun x => ?_)
    simp only
    rw [← mean x]
    unfold permMean
    rw [← Finset.sum_mul, div_mul_eq_mul_div]
  refine ⟨fun x => covGrad (walkerPairs (fun x => (walker x).eloc)
    (fun x => (walker x).gradLogPsi j) x), fun x devs l hl => ?_,
    integrable_covGrad (N := N) i1 i2 i3, ?_⟩
  · have := gradient_is_covariance_partial .randomParticle (by simp) nanSafe _ devs l hl
      (by simpa using hN) j
    rw [List.length_ofFn] at this
    rw [this]
    congr 2
    unfold walkerPairs
    rw [List.map_ofFn]
    rfl
  · refine hD.congr_deriv ?_
    rw [expected_covGrad hN i1 i2 i3, m1, m2, m3]
    rfl

end configured

/-! ### An example -/

/-- Permutations drawn with equal probabilities. -/
theorem exists_uniformDraws (n : ℕ) : ∃ (_ : MeasurableSpace (Equiv.Perm (Fin n)))
    (ρ : Measure (Equiv.Perm (Fin n))), IsProbabilityMeasure ρ ∧ UniformDraws ρ id := by
  let _ : MeasurableSpace (Equiv.Perm (Fin n)) := ⊤
  refine ⟨⊤, (PMF.uniformOfFintype (Equiv.Perm (Fin n))).toMeasure, inferInstance,
    fun σ => trivial, fun σ => ?_⟩
  have : {k : Equiv.Perm (Fin n) | id k = σ} = {σ} := by
    ext
    simp
  rw [this, measureReal_def, PMF.toMeasure_apply_singleton _ σ (MeasurableSpace.measurableSet_top)]
  simp [Fintype.card_perm]

/-- The default FermiNet for a helium atom, with the kinetic energy and the attraction of one of the
two electrons, drawn at random. -/
example (P : Params 2 1 3) (a : ℝ) (ha : a ≠ 0) {κ : Type} [MeasurableSpace κ]
    (ρ : Measure κ) [IsProbabilityMeasure ρ] (permutation : κ → Equiv.Perm (Fin (∑ _ : Fin 2, 1)))
    (hρ : UniformDraws ρ permutation) :
    ∃ m : Model 1, getModelFromConfig {} (counts fun _ : Fin 2 => 1)
        (fun (_ : Fin 1) (_ : Fin 3) => (0 : ℝ)) (fun _ => 2) 32 = .ok m ∧
      ∃ f : ℝ → (Fin (∑ _ : Fin 2, 1) → Fin 3 → ℝ) → ℝ,
        (∀ θ y, m.apply (heliumParams P θ) (fun _ _ => 0)
          (splitPositions (n := fun _ : Fin 2 => 1) y) = .ok (.fin 1, .fin (f θ y))) ∧
        ∃ E, assembleMolLocalEnergy permutation "random_particle" [] 1 ["kinetic", "ei"]
            (fun (_ : Fin 1) _ => 0) (fun _ => 2) 0 0 (f a) = some E ∧
        ∃ walker : (Fin (∑ _ : Fin 2, 1) → Fin 3 → ℝ) × κ → RealWalker Unit,
          (∀ᵐ x, ∀ key, E x key = .fin (walker (x, key)).eloc) ∧
          (∀ᵐ x, ∀ key, HasDerivAt (fun θ => f θ x) ((walker (x, key)).gradLogPsi ()) a) ∧
          ∃ G : (Fin 2 → (Fin (∑ _ : Fin 2, 1) → Fin 3 → ℝ) × κ) → ℝ,
            (∀ x, meanGrad (valueAndGrad .randomParticle 2 none true
              [[(walker (x 0)).toX], [(walker (x 1)).toX]]).2.2 () = .fin (G x)) ∧
            HasDerivAt (fun θ => rayleigh (heliumWave θ)
                (coulomb 0 0 (fun (_ : Fin 1) _ => 0) fun _ => 2))
              (∫ x, G x ∂(Measure.pi fun _ => (born volume (heliumWave a)).prod ρ)) a := by
  choose m' hm' nz ψ hψ hval hpos hv' using helium_model P
  have hmm : ∀ θ, m' θ = m' a := fun θ => Except.ok.inj ((hm' θ).symm.trans (hm' a))
  have hv : ∀ θ q, (m' a).apply (heliumParams P θ) (fun _ _ => 0) q =
      .ok (.fin 1, .fin (Real.log (ψ θ q))) := fun θ q => by
    rw [← hmm θ]
    exact hv' θ q
  have hne : ψ a (splitPositions fun (e : Fin (∑ _ : Fin 2, 1)) _ => (e.val + 1 : ℝ)) ≠ 0 :=
    (hpos a _).ne'
  have hR : Distinct fun (_ : Fin 1) (_ : Fin 3) => (0 : ℝ) := fun i j h =>
    absurd (Subsingleton.elim i j) h
  refine ⟨m' a, hm' a, fun θ y => Real.log (ψ θ (splitPositions y)), fun θ y => hv θ _, ?_⟩
  obtain ⟨E, hE, hfin, hdiff, hG⟩ := configured_random_gradient_unbiased 32 (m' a)
    (hm' a) (helium_path P) _ hv hψ (fun θ y => Real.log (ψ θ (splitPositions y))) (fun _ _ _ => rfl)
    (by filter_upwards [isOpen_ne.mem_nhds ha] with θ hθ using helium_decays P hθ)
    helium_good hne hR ρ permutation hρ [] ["kinetic", "ei"] one_pos (by simp) 0 0
  classical
  let walker : (Fin (∑ _ : Fin 2, 1) → Fin 3 → ℝ) × κ → RealWalker Unit := fun p =>
    ⟨if h : ∃ e, E p.1 p.2 = .fin e then h.choose else 0, 0,
      fun _ => deriv (fun θ => Real.log (ψ θ (splitPositions p.1))) a, fun _ => 0⟩
  have h1 : ∀ᵐ x, ∀ key, E x key = .fin (walker (x, key)).eloc := hfin.mono fun x hx key => by
    simp only [walker, dif_pos (hx key)]
    exact (hx key).choose_spec
  have h2 : ∀ᵐ x, ∀ key, HasDerivAt (fun θ => Real.log (ψ θ (splitPositions x)))
      ((walker (x, key)).gradLogPsi ()) a := hdiff.mono fun x hx key => hx.hasDerivAt
  obtain ⟨G, g1, -, g2⟩ := hG () walker h1 h2 2 le_rfl true
  refine ⟨E, hE, walker, h1, h2, G, fun x => ?_, ?_⟩
  · exact g1 x [[walker (x 0)], [walker (x 1)]] 1 ⟨by simp [List.ofFn_succ], by simp, by simp, by simp⟩
  · have e : ∀ θ, (fun y => ψ θ (splitPositions y)) = heliumWave θ := fun θ => funext (hval θ)
    simpa only [e] using g2

end Verif.Props
