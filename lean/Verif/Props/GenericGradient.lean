import Verif.Props.NodeGradient

/-!
# C99: the generic gradient estimator

The generic estimator (`vmcnet/physics/core.py:366-400`) adds the average of the derivatives of the local
energies to the standard gradient.  It is used for local energies integrated by parts, which are not `Hψ/ψ`.
For configured models its mean is the derivative of the energy.  Near nodes which move, neither
contribution has a mean: only the sum has, with exactly the factors of the code and without clipping.
-/

namespace Verif.Props
open Verif.Construct Verif.Net Verif.Spec Verif.Slog Verif.Decay Verif.Phys Verif.Ibp MeasureTheory
open Verif.Stat Verif.Ergodic Verif.Energy
open Filter Topology
open scoped ContDiff

section nice

variable {N m d : ℕ} {R : Fin m → Fin d → ℝ} {I : Set ℝ}

/-- Functions of a parameter and of positions which are measurable, differentiable with respect to the
parameter, and bounded together with this derivative by a multiple of `v`. -/
def Nice (R : Fin m → Fin d → ℝ) (I : Set ℝ) (v : Pos N d → ℝ) (f : ℝ → Pos N d → ℝ) : Prop :=
  ∃ (f' : ℝ → Pos N d → ℝ) (M : ℝ), (∀ θ ∈ I, AEStronglyMeasurable (f θ) volume) ∧
    ∀ θ ∈ I, ∀ x, Good R x → HasDerivAt (fun τ => f τ x) (f' θ x) θ ∧ |f θ x| ≤ M * v x ∧
      |f' θ x| ≤ M * v x

variable {v w : Pos N d → ℝ} {f g : ℝ → Pos N d → ℝ}

theorem Nice.congr (hf : Nice R I v f) (h : ∀ θ x, g θ x = f θ x) : Nice R I v g := by
  rwa [show g = f from funext fun θ => funext (h θ)]

theorem Nice.fixed {u : Pos N d → ℝ} {M : ℝ} (hM : 0 ≤ M) (hv : ∀ x, 0 ≤ v x)
    (hu : AEStronglyMeasurable u volume)
    (hb : ∀ x, Good R x → |u x| ≤ M * v x) : Nice R I v fun _ => u :=
  ⟨fun _ _ => 0, M, fun _ _ => hu, fun θ _ x hx => ⟨hasDerivAt_const θ (u x), hb x hx, by
    rw [abs_zero]
    exact mul_nonneg hM (hv x)⟩⟩

theorem Nice.add (hf : Nice R I v f) (hg : Nice R I v g) : Nice R I v fun θ x => f θ x + g θ x := by
  obtain ⟨f', M, mf, hf⟩ := hf
  obtain ⟨g', M', mg, hg⟩ := hg
  refine ⟨fun θ x => f' θ x + g' θ x, M + M', fun θ hθ => (mf θ hθ).add (mg θ hθ), fun θ hθ x hx => ?_⟩
  obtain ⟨a1, a2, a3⟩ := hf θ hθ x hx
  obtain ⟨b1, b2, b3⟩ := hg θ hθ x hx
  rw [add_mul]
  exact ⟨a1.add b1, (abs_add_le _ _).trans (add_le_add a2 b2), (abs_add_le _ _).trans (add_le_add a3 b3)⟩

theorem Nice.mul (hf : Nice R I v f) (hg : Nice R I w g) :
    Nice R I (fun x => v x * w x) fun θ x => f θ x * g θ x := by
  obtain ⟨f', M, mf, hf⟩ := hf
  obtain ⟨g', M', mg, hg⟩ := hg
  refine ⟨fun θ x => f' θ x * g θ x + f θ x * g' θ x, 2 * M * M',
    fun θ hθ => (mf θ hθ).mul (mg θ hθ), fun θ hθ x hx => ?_⟩
  obtain ⟨a1, a2, a3⟩ := hf θ hθ x hx
  obtain ⟨b1, b2, b3⟩ := hg θ hθ x hx
  have ha := (abs_nonneg _).trans a2
  have hb := (abs_nonneg _).trans b2
  have h1 := mul_le_mul a2 b2 (abs_nonneg _) ha
  have h2 := mul_le_mul a3 b2 (abs_nonneg _) ha
  have h3 := mul_le_mul a2 b3 (abs_nonneg _) ha
  have h4 := mul_nonneg ha hb
  refine ⟨a1.mul b1, ?_, (abs_add_le _ _).trans ?_⟩
  · rw [abs_mul]
    linarith
  · rw [abs_mul, abs_mul]
    linarith

theorem Nice.const_mul (c : ℝ) (hf : Nice R I v f) : Nice R I v fun θ x => c * f θ x := by
  obtain ⟨f', M, mf, hf⟩ := hf
  refine ⟨fun θ x => c * f' θ x, |c| * M, fun θ hθ => (mf θ hθ).const_mul c, fun θ hθ x hx => ?_⟩
  obtain ⟨a1, a2, a3⟩ := hf θ hθ x hx
  rw [abs_mul, abs_mul, mul_assoc]
  exact ⟨a1.const_mul c, mul_le_mul_of_nonneg_left a2 (abs_nonneg c),
    mul_le_mul_of_nonneg_left a3 (abs_nonneg c)⟩

theorem Nice.sum {ι : Type} [Fintype ι] {f : ι → ℝ → Pos N d → ℝ} (hv : ∀ x, 0 ≤ v x)
    (hf : ∀ i, Nice R I v (f i)) : Nice R I v fun θ x => ∑ i, f i θ x := by
  classical
  have : ∀ s : Finset ι, Nice R I v fun θ x => ∑ i ∈ s, f i θ x := by
    intro s
    induction s using Finset.induction_on with
    | empty =>
      refine (Nice.fixed le_rfl hv (u := fun _ => 0) aestronglyMeasurable_const fun x _ => ?_).congr
        fun θ x => Finset.sum_empty
      simp
    | insert i s hi ih => exact ((hf i).add ih).congr fun θ x => Finset.sum_insert hi
  exact this Finset.univ

theorem Nice.mono (hv : ∀ x, 0 ≤ v x) (h : ∀ x, Good R x → v x ≤ w x) (hf : Nice R I v f) :
    Nice R I w f := by
  obtain ⟨f', M, mf, hf⟩ := hf
  refine ⟨f', |M|, mf, fun θ hθ x hx => ?_⟩
  obtain ⟨a1, a2, a3⟩ := hf θ hθ x hx
  have : M * v x ≤ |M| * w x := mul_le_mul (le_abs_self M) (h x hx) (hv x) (abs_nonneg M)
  exact ⟨a1, a2.trans this, a3.trans this⟩

/-- The derivative is measurable. -/
theorem measurable_of_slopes (hd : 0 < d) {θ : ℝ} (hI : I ∈ 𝓝 θ) {f' : Pos N d → ℝ}
    (hm : ∀ θ ∈ I, AEStronglyMeasurable (f θ) volume)
    (h : ∀ x, Good R x → HasDerivAt (fun τ => f τ x) (f' x) θ) : AEStronglyMeasurable f' volume := by
  classical
  refine aestronglyMeasurable_of_tendsto_ae (𝓝[≠] θ)
    (f := fun τ x => if τ ∈ I then slope (fun s => f s x) θ τ else 0) (fun τ => ?_) ?_
  · by_cases hτ : τ ∈ I
    · simp only [hτ, if_true, slope_def_field]
      exact (((hm τ hτ).aemeasurable.sub
        (hm θ (mem_of_mem_nhds hI)).aemeasurable).div_const _).aestronglyMeasurable
    · simp only [hτ, if_false]
      exact aestronglyMeasurable_const
  · filter_upwards [ae_good (N := N) hd R] with x hx
    refine ((hasDerivAt_iff_tendsto_slope.mp (h x hx))).congr' ?_
    filter_upwards [mem_nhdsWithin_of_mem_nhds hI] with τ hτ
    rw [if_pos hτ]

end nice

section cones

variable {N m d : ℕ} {R : Fin m → Fin d → ℝ}

theorem abs_softNormBwd_le {s : ℝ} {a b : Fin d → ℝ} (h : s ≠ 0 ∨ a ≠ b) (k : Fin d) :
    |softNormBwd (fun k => a k - b k) s k| ≤ 1 := by
  have e := Verif.Phys.softNormBwd_eq (s := s) (a := a) (b := b) h k
  rw [e]
  have := abs_div_softDist_le s (fun k => a k - b k) k
  refine le_trans (le_of_eq ?_) this
  congr 2
  unfold softDist
  simp

theorem abs_coneEI_le (s : ℝ) (Z : Fin m → ℝ) {x : Pos N d} (hx : Good R x) (i : Fin N) (k : Fin d) :
    |partial1 (coneEI s R Z) i k x| ≤ ∑ j, |Z j / 2| := by
  rw [← gradUei_eq s R Z x (.inr hx.2)]
  unfold gradUei
  refine (Finset.abs_sum_le_sum_abs _ _).trans (Finset.sum_le_sum fun j _ => ?_)
  rw [abs_mul, abs_neg]
  exact mul_le_of_le_one_right (abs_nonneg _) (abs_softNormBwd_le (.inr (hx.2 i j)) k)

theorem abs_coneEE_le (s : ℝ) {x : Pos N d} (hx : Good R x) (i : Fin N) (k : Fin d) :
    |partial1 (coneEE s) i k x| ≤ ∑ _i : Fin N, ∑ _j : Fin N, (1 : ℝ) := by
  rw [← gradUee_eq s x (.inr hx.1)]
  unfold gradUee
  refine (Finset.abs_sum_le_sum_abs _ _).trans (Finset.sum_le_sum fun a _ =>
    (Finset.abs_sum_le_sum_abs _ _).trans (Finset.sum_le_sum fun b _ => ?_))
  by_cases hab : a = b
  · subst hab
    simp
  · have h1 := abs_softNormBwd_le (s := s) (.inr (hx.1 a b hab)) k
    have h2 : |triu1 (fun _ _ => (1 / 4 : ℝ)) a b| ≤ 1 / 4 := by
      unfold triu1
      split_ifs <;> norm_num
    have h3 : |((if a = i then 1 else 0) - if b = i then 1 else 0 : ℝ)| ≤ 1 := by
      split_ifs <;> norm_num
    rw [abs_mul, abs_mul]
    have h4 := mul_le_mul h2 h1 (abs_nonneg _) (by norm_num)
    have h5 := mul_le_mul h4 h3 (abs_nonneg _) (by norm_num)
    unfold computeDisplacements
    linarith

end cones

section density

variable {N m d : ℕ} {R : Fin m → Fin d → ℝ} {I : Set ℝ}

/-- `ψ²` times the local energy, in terms of derivatives of `ψ`. -/
noncomputable def ibpDensity (parts : List String) (R : Fin m → Fin d → ℝ) (Z : Fin m → ℝ)
    (eiSoft eeSoft : ℝ) (ψ : Pos N d → ℝ) (x : Pos N d) : ℝ :=
  (if "kinetic" ∈ parts then 1 / 2 * ∑ i, ∑ k, partial1 ψ i k x * partial1 ψ i k x
    else -(1 / 2) * ∑ i, ∑ k, ψ x * partial2 ψ i k x) +
  (if "ei" ∈ parts then -2 * ∑ i, ∑ k, ψ x * partial1 ψ i k x * partial1 (coneEI eiSoft R Z) i k x
    else ψ x * ψ x * coulombEI 1 eiSoft R Z x) +
  (if "ee" ∈ parts then -2 * ∑ i, ∑ k, ψ x * partial1 ψ i k x * partial1 (coneEE eeSoft) i k x
    else ψ x * ψ x * coulombEE 1 eeSoft x) + coulombII R Z * (ψ x * ψ x)

theorem jet_logAbs {ψ : Pos N d → ℝ} {x : Pos N d} {i : Fin N} {k : Fin d} {v1 v2 : ℝ}
    (h : HasJet (fun t => ψ (shift x i k t)) v1 v2) (h0 : ψ x ≠ 0) :
    partial1 (logAbs ψ) i k x = partial1 ψ i k x / ψ x ∧
      coordLaplacian (logAbs ψ) x i k = partial2 ψ i k x / ψ x := by
  rw [h.partial1, h.partial2]
  obtain ⟨u', h1, rfl, h2⟩ := h
  have e0 : shift x i k 0 = x := by
    rw [← add_unitStep]
    simp
  have hlog : ∀ᶠ t in 𝓝 (0 : ℝ), HasDerivAt (fun t => logAbs ψ (shift x i k t))
      (u' t / ψ (shift x i k t)) t := by
    filter_upwards [h1, h1.self_of_nhds.continuousAt.eventually_ne (by simpa only [e0] using h0)]
      with t ht hne
    unfold logAbs
    simpa only [Real.log_abs] using ht.log hne
  have hp1 : partial1 (logAbs ψ) i k x = u' 0 / ψ x := by
    have := hlog.self_of_nhds.deriv
    rwa [e0] at this
  refine ⟨hp1, ?_⟩
  have hev : deriv (fun t => logAbs ψ (shift x i k t)) =ᶠ[𝓝 0] fun t => u' t / ψ (shift x i k t) :=
    hlog.mono fun t ht => ht.deriv
  have h3 := h2.fun_div h1.self_of_nhds (by simpa only [e0] using h0)
  unfold coordLaplacian
  rw [hp1]
  unfold partial2
  rw [hev.deriv_eq, h3.deriv, e0]
  field_simp
  ring

/-- The value of the density at places where the wave function is not zero. -/
theorem sq_mul_ibpEnergy {ψ : Pos N d → ℝ} {x : Pos N d}
    (h : ∀ i k, ∃ v1 v2, HasJet (fun t => ψ (shift x i k t)) v1 v2) (h0 : ψ x ≠ 0)
    (parts : List String) (Z : Fin m → ℝ) (eiSoft eeSoft : ℝ) :
    ψ x ^ 2 * ibpEnergy parts R Z eiSoft eeSoft (logAbs ψ) x =
      ibpDensity parts R Z eiSoft eeSoft ψ x := by
  have hp : ∀ i k, partial1 (logAbs ψ) i k x = partial1 ψ i k x / ψ x ∧
      coordLaplacian (logAbs ψ) x i k = partial2 ψ i k x / ψ x := fun i k => by
    obtain ⟨v1, v2, hv⟩ := h i k
    exact jet_logAbs hv h0
  have h1 : ψ x ^ 2 * kineticGradient (logAbs ψ) x =
      1 / 2 * ∑ i, ∑ k, partial1 ψ i k x * partial1 ψ i k x := by
    unfold kineticGradient
    simp only [(hp _ _).1, div_pow, ← Finset.sum_div, ← sq]
    field_simp
  have h2 : ψ x ^ 2 * kineticLaplacian (logAbs ψ) x =
      -(1 / 2) * ∑ i, ∑ k, ψ x * partial2 ψ i k x := by
    unfold kineticLaplacian
    simp only [(hp _ _).2, ← Finset.sum_div, ← Finset.mul_sum]
    field_simp
  have h3 : ∀ U : Pos N d → ℝ, ψ x ^ 2 * ibpForm (logAbs ψ) U x =
      -2 * ∑ i, ∑ k, ψ x * partial1 ψ i k x * partial1 U i k x := fun U => by
    rw [sq_mul_ibpForm h0 fun i k => (hp i k).1]
    simp only [mul_assoc, ← Finset.mul_sum]
    ring
  unfold ibpEnergy ibpDensity
  rw [mul_add, mul_add, mul_add]
  simp only [mul_ite, h1, h2, h3, ← sq]
  ring

variable {ψ ψ' : ℝ → Pos N d → ℝ} {β C : ℝ}

/-- the exponential which bounds a family of wave functions -/
noncomputable def decay (β : ℝ) (x : Pos N d) : ℝ := Real.exp (-(β * ∑ e, ‖x e‖))

theorem decay_nonneg (β : ℝ) (x : Pos N d) : 0 ≤ decay β x := (Real.exp_pos _).le

theorem sing_nonneg (R : Fin m → Fin d → ℝ) (x : Pos N d) : 0 ≤ sing R x :=
  zero_le_one.trans (one_le_sing R x)

theorem Family.nice (h : Family R I ψ ψ' β C) : Nice R I (decay β) ψ :=
  ⟨ψ', C, fun θ hθ => (h.wave θ hθ).measurable, fun θ hθ x hx =>
    ⟨h.deriv θ hθ x hx, (h.bounded θ hθ).value x hx, h.deriv_le θ hθ x hx⟩⟩

theorem Family.nice1 (h : Family R I ψ ψ' β C) (i : Fin N) (k : Fin d) :
    Nice R I (decay β) fun θ => partial1 (ψ θ) i k := by
  obtain ⟨p1, p2, hp⟩ := h.mixed
  exact ⟨fun θ => p1 θ i k, C, fun θ hθ => (h.wave θ hθ).measurable1 i k, fun θ hθ x hx =>
    ⟨(hp θ hθ i k x hx).1, (h.bounded θ hθ).first i k x hx, (hp θ hθ i k x hx).2.2.1⟩⟩

theorem Family.nice2 (h : Family R I ψ ψ' β C) (i : Fin N) (k : Fin d) :
    Nice R I (fun x => decay β x * sing R x) fun θ => partial2 (ψ θ) i k := by
  obtain ⟨p1, p2, hp⟩ := h.mixed
  refine ⟨fun θ => p2 θ i k, C, fun θ hθ => measurable_partial2 (h.wave θ hθ) i k, fun θ hθ x hx =>
    ⟨(hp θ hθ i k x hx).2.1, ?_, ?_⟩⟩
  · rw [← mul_assoc]
    exact (h.bounded θ hθ).second i k x hx
  · rw [← mul_assoc]
    exact (hp θ hθ i k x hx).2.2.2.1

/-- The density is differentiable with respect to the parameter, with integrable bounds. -/
theorem Family.nice_density (hd : 2 ≤ d) (h : Family R I ψ ψ' β C) (parts : List String) (Z : Fin m → ℝ)
    (eiSoft eeSoft : ℝ) : Nice R I (fun x => decay β x * (decay β x * sing R x))
      fun θ => ibpDensity parts R Z eiSoft eeSoft (ψ θ) := by
  have hw : ∀ x : Pos N d, 0 ≤ decay β x * (decay β x * sing R x) := fun x =>
    mul_nonneg (decay_nonneg β x) (mul_nonneg (decay_nonneg β x) (sing_nonneg R x))
  have hle : ∀ x : Pos N d, Good R x → decay β x * decay β x ≤ decay β x * (decay β x * sing R x) :=
    fun x _ => mul_le_mul_of_nonneg_left
      (le_mul_of_one_le_right (decay_nonneg β x) (one_le_sing R x)) (decay_nonneg β x)
  have hdd : ∀ x : Pos N d, 0 ≤ decay β x * decay β x := fun x =>
    mul_nonneg (decay_nonneg β x) (decay_nonneg β x)
  have sq := h.nice.mul h.nice
  have pot : ∀ {V : Pos N d → ℝ} {M : ℝ}, 0 ≤ M → AEStronglyMeasurable V volume →
      (∀ x, Good R x → |V x| ≤ M * sing R x) →
      Nice R I (fun x => decay β x * (decay β x * sing R x)) fun θ x => ψ θ x * ψ θ x * V x := by
    intro V M hM hV hb
    refine (sq.mul (Nice.fixed hM (sing_nonneg R) hV hb)).mono
      (fun x => mul_nonneg (hdd x) (sing_nonneg R x)) fun x _ => le_of_eq ?_
    ring
  have form : ∀ {U : Pos N d → ℝ} {M : ℝ}, 0 ≤ M → (∀ x, Good R x → ContDiffAt ℝ ω U x) →
      (∀ x, Good R x → ∀ i k, |partial1 U i k x| ≤ M) →
      Nice R I (fun x => decay β x * (decay β x * sing R x)) fun θ x =>
        -2 * ∑ i, ∑ k, ψ θ x * partial1 (ψ θ) i k x * partial1 U i k x := by
    intro U M hM hU hb
    refine (Nice.sum hw fun i => Nice.sum hw fun k => ?_).const_mul (-2)
    refine ((h.nice.mul (h.nice1 i k)).mul (Nice.fixed (v := fun _ => 1) hM (fun _ => zero_le_one)
      (aestronglyMeasurable_of_good (R := R) (by omega) fun x hx =>
        (partial1_smooth (n := ω) hU i k x hx).continuousAt) fun x hx => ?_)).mono ?_ fun x hx => ?_
    · rw [mul_one]
      exact hb x hx i k
    · intro x
      rw [mul_one]
      exact hdd x
    · rw [mul_one]
      exact hle x hx
  unfold ibpDensity
  refine (((Nice.add ?_ ?_).add ?_).add ((sq.mono hdd hle).const_mul _))
  · split_ifs
    · exact (Nice.sum hw fun i => Nice.sum hw fun k =>
        ((h.nice1 i k).mul (h.nice1 i k)).mono hdd hle).const_mul _
    · exact (Nice.sum hw fun i => Nice.sum hw fun k => h.nice.mul (h.nice2 i k)).const_mul _
  · split_ifs
    · exact form (Finset.sum_nonneg fun _ _ => abs_nonneg _) (coneEI_smooth eiSoft Z)
        fun x hx i k => abs_coneEI_le eiSoft Z hx i k
    · exact pot (Finset.sum_nonneg fun _ _ => abs_nonneg _)
        (aestronglyMeasurable_of_good (R := R) (by omega) fun x hx =>
          coulombEI_continuousAt eiSoft Z x hx) fun x hx => coulombEI_le_sing eiSoft Z hx
  · split_ifs
    · exact form (Finset.sum_nonneg fun _ _ => Finset.sum_nonneg fun _ _ => zero_le_one)
        (coneEE_smooth eeSoft) fun x hx i k => abs_coneEE_le eeSoft hx i k
    · exact pot (Nat.cast_nonneg _)
        (aestronglyMeasurable_of_good (R := R) (by omega) fun x hx =>
          coulombEE_continuousAt eeSoft x hx) fun x hx => coulombEE_le_sing eeSoft hx

theorem integrable_weight (hd : 2 ≤ d) (hβ : 0 < β) :
    Integrable fun x : Pos N d => decay β x * (decay β x * sing R x) := by
  refine (integrable_sing (R := R) hd (show 0 < 2 * β by positivity)).congr (.of_forall fun x => ?_)
  simp only [decay, ← mul_assoc, exp_sq]

/-- Families of wave functions with local energies which are integrated by parts. -/
theorem Family.smooth_ibp (hd : 2 ≤ d) (hβ : 0 < β) (h : Family R I ψ ψ' β C)
    {θ₀ : ℝ} (hIθ : I ∈ 𝓝 θ₀) (parts : List String) (Z : Fin m → ℝ) (eiSoft eeSoft : ℝ) :
    SmoothFamily volume ψ (fun θ => ibpEnergy parts R Z eiSoft eeSoft (logAbs (ψ θ))) θ₀ ∧
    ∀ᵐ x, DifferentiableAt ℝ (fun θ => ibpEnergy parts R Z eiSoft eeSoft (logAbs (ψ θ)) x) θ₀ := by
  obtain ⟨a', M, hm, ha⟩ := h.nice_density hd parts Z eiSoft eeSoft
  obtain ⟨w', M', hm', hw'⟩ := h.nice.mul h.nice
  have hθ₀ := mem_of_mem_nhds hIθ
  have hgood : ∀ᵐ x : Pos N d, Good R x := ae_good (by omega) R
  have hw := h.wave θ₀ hθ₀
  have hval : ∀ θ ∈ I, ∀ x, Good R x → ψ θ x ≠ 0 →
      ψ θ x ^ 2 * ibpEnergy parts R Z eiSoft eeSoft (logAbs (ψ θ)) x =
        ibpDensity parts R Z eiSoft eeSoft (ψ θ) x := fun θ hθ x hx h0 => by
    obtain ⟨p1, p2, hp⟩ := h.mixed
    exact sq_mul_ibpEnergy (fun i k => (hp θ hθ i k x hx).2.2.2.2) h0 parts Z eiSoft eeSoft
  have hA : ∀ θ ∈ I, ∀ᵐ x, ψ θ x ^ 2 * ibpEnergy parts R Z eiSoft eeSoft (logAbs (ψ θ)) x =
      ibpDensity parts R Z eiSoft eeSoft (ψ θ) x := fun θ hθ => by
    filter_upwards [hgood, (h.wave θ hθ).ne_zero] with x hx h0
    exact hval θ hθ x hx h0
  have hA₀ : ∀ᵐ x, ∀ᶠ θ in 𝓝 θ₀, ψ θ x ≠ 0 ∧
      ψ θ x ^ 2 * ibpEnergy parts R Z eiSoft eeSoft (logAbs (ψ θ)) x =
        ibpDensity parts R Z eiSoft eeSoft (ψ θ) x := by
    filter_upwards [hgood, hw.ne_zero] with x hx h0
    filter_upwards [hIθ, (h.deriv θ₀ hθ₀ x hx).continuousAt.eventually_ne h0] with θ hθ h0
    exact ⟨h0, hval θ hθ x hx h0⟩
  have hweight := integrable_weight (R := R) (N := N) hd hβ
  have hdens : Integrable (ibpDensity parts R Z eiSoft eeSoft (ψ θ₀)) :=
    (hweight.const_mul M).mono' (hm θ₀ hθ₀) (hgood.mono fun x hx => (ha θ₀ hθ₀ x hx).2.1)
  constructor
  · exact
      { measurable := Filter.mem_of_superset hIθ fun θ hθ => (h.wave θ hθ).measurable.aemeasurable
        measurable_energy := Filter.mem_of_superset hIθ fun θ hθ =>
          (hm θ hθ).congr ((hA θ hθ).mono fun x hx => hx.symm)
        ne_zero := hw.ne_zero
        normalisable := hw.normalisable
        norm_pos := lt_of_le_of_ne (integral_nonneg fun x => sq_nonneg _) (norm_ne_zero hw).symm
        integrable_energy := hdens.congr ((hA θ₀ hθ₀).mono fun x hx => hx.symm)
        dominated := by
          refine ⟨I, hIθ, fun θ => ibpDensity parts R Z eiSoft eeSoft (ψ θ), w', a',
            fun x => (|M| + |M'|) * (decay β x * (decay β x * sing R x)), hA,
            hA₀.mono fun x hx => hx.mono fun θ hθ => hθ.2,
            measurable_of_slopes (R := R) (by omega) hIθ hm' fun x hx => (hw' θ₀ hθ₀ x hx).1,
            measurable_of_slopes (R := R) (by omega) hIθ hm fun x hx => (ha θ₀ hθ₀ x hx).1,
            hweight.const_mul _, ?_⟩
          filter_upwards [hgood] with x hx θ hθ
          have h1 := hw' θ hθ x hx
          have h2 := ha θ hθ x hx
          have h0 := decay_nonneg β x
          have hs := one_le_sing R x
          have h3 : 0 ≤ decay β x * (decay β x * sing R x) :=
            mul_nonneg h0 (mul_nonneg h0 (sing_nonneg R x))
          have h4 : decay β x * decay β x ≤ decay β x * (decay β x * sing R x) :=
            mul_le_mul_of_nonneg_left (le_mul_of_one_le_right h0 hs) h0
          refine ⟨?_, h2.1, h1.2.2.trans ?_, h2.2.2.trans ?_⟩
          · simpa only [sq] using h1.1
          · have := mul_le_mul (le_abs_self M') h4 (mul_nonneg h0 h0) (abs_nonneg _)
            have := mul_nonneg (abs_nonneg M) h3
            linarith
          · have := mul_le_mul_of_nonneg_right (le_abs_self M) h3
            have := mul_nonneg (abs_nonneg M') h3
            linarith }
  · filter_upwards [hgood, hA₀, hw.ne_zero] with x hx hAx h0
    have h1 := ((ha θ₀ hθ₀ x hx).1.div ((h.deriv θ₀ hθ₀ x hx).fun_pow 2) (pow_ne_zero 2 h0))
    refine (h1.congr_of_eventuallyEq ?_).differentiableAt
    filter_upwards [hAx] with θ hθ
    rw [Pi.div_apply, ← hθ.2, mul_div_cancel_left₀ _ (pow_ne_zero 2 hθ.1)]

end density

section configured

variable {K nion d : ℕ} {n : Fin (K + 1) → ℕ} {R : Fin nion → Fin d → ℝ}
  {c : ModelCfg} {charges : Fin nion → ℝ} {P : ℝ → Params (K + 1) nion d}
  {nonzero : ℝ → Stream1 n d → Prop} {ψ : ℝ → Stream1 n d → ℝ}

/-- The local energies of the logarithms which a configured model computes. -/
theorem configured_ibp_family (hd : 2 ≤ d) (dtype : ℕ) (m : Model nion)
    (hm : getModelFromConfig c (counts n) R charges dtype = .ok m)
    (v : ℝ → Stream1 n d → SL) (hv : ∀ θ q, m.apply (P θ) R q = .ok (v θ q))
    (hψ : ∀ θ q, ModelValue c (P θ) R charges q (nonzero θ q) (ψ θ q))
    (f : ℝ → Pos (∑ s, n s) d → ℝ)
    (hf : ∀ θ y, (v θ (splitPositions y)).2.isFin → (v θ (splitPositions y)).2 = .fin (f θ y))
    {I : Set ℝ} {θ₀ : ℝ} (hθ₀ : I ∈ 𝓝 θ₀) (hcI : ∀ θ ∈ I, Decays c (P θ) charges n)
    {ψ' : ℝ → Pos (∑ s, n s) d → ℝ} {β C : ℝ}
    (hF : Family R I (fun θ y => ψ θ (splitPositions y)) ψ' β C) (hR : Distinct R) {κ : Type}
    (permutation : κ → Equiv.Perm (Fin (∑ s, n s))) (parts sampleParts : List String) (b : ℕ)
    (eiSoft eeSoft : ℝ) :
    ∃ E : ℝ → Pos (∑ s, n s) d → κ → XR,
      (∀ θ, assembleMolLocalEnergy permutation "ibp" parts b sampleParts R charges eiSoft eeSoft
        (f θ) = some (E θ)) ∧
      (∀ θ ∈ I, ∀ᵐ x, ∀ key, E θ x key =
        .fin (ibpEnergy parts R charges eiSoft eeSoft (logAbs fun y => ψ θ (splitPositions y)) x)) ∧
      ∀ᵐ x, ∀ᶠ θ in 𝓝 θ₀, ∀ key, E θ x key =
        .fin (ibpEnergy parts R charges eiSoft eeSoft (logAbs fun y => ψ θ (splitPositions y)) x) := by
  have hθI := mem_of_mem_nhds hθ₀
  have hE : ∀ θ, ∃ E, assembleMolLocalEnergy permutation "ibp" parts b sampleParts R charges eiSoft
      eeSoft (f θ) = some E := fun θ =>
    ⟨_, by unfold assembleMolLocalEnergy; rw [if_neg (by decide), if_pos rfl]⟩
  choose E hE using hE
  have key : ∀ θ ∈ I, ∀ x, Good R x → ψ θ (splitPositions x) ≠ 0 → ∀ key, E θ x key =
      .fin (ibpEnergy parts R charges eiSoft eeSoft (logAbs fun y => ψ θ (splitPositions y)) x) := by
    intro θ hθ x hx h0 key
    have hl := configured_log_eq c charges dtype m hm (P θ) (v θ) (hv θ) (nonzero θ) (ψ θ)
      (hψ θ) (f θ) (hf θ) (smooth_place_of_decays (hcI θ hθ) hx) h0
    obtain ⟨E', hE', h⟩ := ibp_energy_terms permutation parts sampleParts b R charges eiSoft
      eeSoft (f θ) x key ⟨.inr hx.2, .inr hx.1, hR⟩
    obtain rfl := Option.some.inj ((hE θ).symm.trans hE')
    rw [h]
    unfold ibpEnergy ibpForm kineticLaplacian kineticGradient coordLaplacian
    simp only [partial1_congr hl, partial2_congr hl]
  refine ⟨E, hE, fun θ hθ => ?_, ?_⟩
  · filter_upwards [ae_good (by omega) R, (hF.wave θ hθ).ne_zero] with x hx h0
    exact key θ hθ x hx h0
  · filter_upwards [ae_good (by omega) R, (hF.wave θ₀ hθI).ne_zero] with x hx h0
    filter_upwards [hθ₀, (hF.deriv θ₀ hθI x hx).continuousAt.eventually_ne h0] with θ hθ h0
    exact key θ hθ x hx h0

/-- C99: for configured models whose parameters depend smoothly on a number `θ`, and whose wave
functions decay, local energies in which any of the terms are integrated by parts are differentiable
with respect to `θ` almost everywhere, and the gradient which the generic estimator computes is the
exact derivative of their mean over `|ψ|²`, in the mean over independent walkers: for every number of
walkers, every layout of them on devices, every softening and whether or not clipping is configured. -/
theorem configured_ibp_gradient_unbiased (hd : 2 ≤ d) (hn : 0 < ∑ s, n s) (dtype : ℕ) (m : Model nion)
    (hm : getModelFromConfig c (counts n) R charges dtype = .ok m) (hP : SmoothPath P)
    (v : ℝ → Stream1 n d → SL) (hv : ∀ θ q, m.apply (P θ) R q = .ok (v θ q))
    (hψ : ∀ θ q, ModelValue c (P θ) R charges q (nonzero θ q) (ψ θ q))
    (f : ℝ → Pos (∑ s, n s) d → ℝ)
    (hf : ∀ θ y, (v θ (splitPositions y)).2.isFin → (v θ (splitPositions y)).2 = .fin (f θ y))
    {θ₀ : ℝ} (hc : ∀ᶠ θ in 𝓝 θ₀, Decays c (P θ) charges n) {q : Pos (∑ s, n s) d} (hq : Good R q)
    (h0 : ψ θ₀ (splitPositions q) ≠ 0) (hR : Distinct R) {κ : Type}
    (permutation : κ → Equiv.Perm (Fin (∑ s, n s))) (parts sampleParts : List String) (b : ℕ)
    (eiSoft eeSoft : ℝ) :
    ∃ (E : ℝ → Pos (∑ s, n s) d → κ → XR) (e : ℝ → Pos (∑ s, n s) d → ℝ),
      (∀ θ, assembleMolLocalEnergy permutation "ibp" parts b sampleParts R charges eiSoft eeSoft
        (f θ) = some (E θ)) ∧
      (∀ᶠ θ in 𝓝 θ₀, ∀ᵐ x, ∀ key, E θ x key = .fin (e θ x)) ∧
      (∀ᵐ x, ∀ᶠ θ in 𝓝 θ₀, ∀ key, E θ x key = .fin (e θ x)) ∧
      (∀ᵐ x, DifferentiableAt ℝ (fun θ => f θ x) θ₀) ∧
      (∀ᵐ x, DifferentiableAt ℝ (fun θ => e θ x) θ₀) ∧
      ∀ {J : Type} (j : J) (walker : Pos (∑ s, n s) d → RealWalker J),
        (∀ᵐ x, (walker x).eloc = e θ₀ x) →
        (∀ᵐ x, HasDerivAt (fun θ => f θ x) ((walker x).gradLogPsi j) θ₀) →
        (∀ᵐ x, HasDerivAt (fun θ => e θ x) ((walker x).gradEloc j) θ₀) →
        ∀ (N : ℕ), 2 ≤ N → ∀ (clip : Option (List XR → XR → List XR)) (nanSafe : Bool),
        ∃ G : (Fin N → Pos (∑ s, n s) d) → ℝ,
          (∀ x devs l, IsLayout (List.ofFn fun i => walker (x i)) devs l →
            meanGrad (valueAndGrad .ibp N clip nanSafe
              (devs.map fun l => l.map RealWalker.toX)).2.2 j = .fin (G x)) ∧
          Integrable G (Measure.pi fun _ => born volume fun y => ψ θ₀ (splitPositions y)) ∧
          HasDerivAt (fun θ => expect (fun y => ψ θ (splitPositions y)) (e θ))
            (∫ x, G x ∂(Measure.pi fun _ => born volume fun y => ψ θ₀ (splitPositions y))) θ₀ := by
  obtain ⟨I, hI, hθ₀, hcI, ψ', β, C, hβ, hF⟩ := configured_family hd hn hP hψ hc hq h0
  obtain ⟨E, hE, hEe, hEe₀⟩ := configured_ibp_family hd dtype m hm v hv hψ f hf hθ₀ hcI hF hR
    permutation parts sampleParts b eiSoft eeSoft
  obtain ⟨hlog, hder⟩ := configured_log_family hd dtype m hm v hv hψ f hf hθ₀ hcI hF
  obtain ⟨hS, hdiff⟩ := hF.smooth_ibp hd hβ hθ₀ parts charges eiSoft eeSoft
  refine ⟨E, _, hE, Filter.mem_of_superset hθ₀ hEe, hEe₀, hder.mono fun x hx => hx.differentiableAt,
    hdiff, fun {J} j walker he hg he' N hN clip nanSafe => ?_⟩
  refine generic_gradient_unbiased hS walker j he ?_ he' N hN clip nanSafe
  filter_upwards [ae_good (by omega) R, hS.ne_zero, hg, hder] with x hx hne h1 h2
  rw [h1.unique h2]
  simpa only [Real.log_abs] using (hF.deriv θ₀ (mem_of_mem_nhds hθ₀) x hx).log hne

end configured

section three

variable {K nion : ℕ} {n : Fin (K + 1) → ℕ} {R : Fin nion → Fin 3 → ℝ}
  {c : ModelCfg} {charges : Fin nion → ℝ} {P : ℝ → Params (K + 1) nion 3}
  {nonzero : ℝ → Stream1 n 3 → Prop} {ψ : ℝ → Stream1 n 3 → ℝ}

/-- C99: in three dimensions and without softening, the mean of the gradient which the generic
estimator computes is the derivative of the energy `∫ (½|∇ψ|² + Vψ²) / ∫ ψ²`, whichever terms are
integrated by parts. -/
theorem configured_ibp_gradient_energy (hn : 0 < ∑ s, n s) (dtype : ℕ) (m : Model nion)
    (hm : getModelFromConfig c (counts n) R charges dtype = .ok m) (hP : SmoothPath P)
    (v : ℝ → Stream1 n 3 → SL) (hv : ∀ θ q, m.apply (P θ) R q = .ok (v θ q))
    (hψ : ∀ θ q, ModelValue c (P θ) R charges q (nonzero θ q) (ψ θ q))
    (f : ℝ → Pos (∑ s, n s) 3 → ℝ)
    (hf : ∀ θ y, (v θ (splitPositions y)).2.isFin → (v θ (splitPositions y)).2 = .fin (f θ y))
    {θ₀ : ℝ} (hc : ∀ᶠ θ in 𝓝 θ₀, Decays c (P θ) charges n) {q : Pos (∑ s, n s) 3} (hq : Good R q)
    (h0 : ψ θ₀ (splitPositions q) ≠ 0) (hR : Distinct R) {κ : Type} [Nonempty κ]
    (permutation : κ → Equiv.Perm (Fin (∑ s, n s))) (parts sampleParts : List String) (b : ℕ) :
    ∃ (E : ℝ → Pos (∑ s, n s) 3 → κ → XR) (e : ℝ → Pos (∑ s, n s) 3 → ℝ),
      (∀ θ, assembleMolLocalEnergy permutation "ibp" parts b sampleParts R charges 0 0
        (f θ) = some (E θ)) ∧
      (∀ᶠ θ in 𝓝 θ₀, ∀ᵐ x, ∀ key, E θ x key = .fin (e θ x)) ∧
      (∀ᵐ x, ∀ᶠ θ in 𝓝 θ₀, ∀ key, E θ x key = .fin (e θ x)) ∧
      (∀ᵐ x, DifferentiableAt ℝ (fun θ => f θ x) θ₀) ∧
      (∀ᵐ x, DifferentiableAt ℝ (fun θ => e θ x) θ₀) ∧
      ∀ {J : Type} (j : J) (walker : Pos (∑ s, n s) 3 → RealWalker J),
        (∀ᵐ x, (walker x).eloc = e θ₀ x) →
        (∀ᵐ x, HasDerivAt (fun θ => f θ x) ((walker x).gradLogPsi j) θ₀) →
        (∀ᵐ x, HasDerivAt (fun θ => e θ x) ((walker x).gradEloc j) θ₀) →
        ∀ (N : ℕ), 2 ≤ N → ∀ (clip : Option (List XR → XR → List XR)) (nanSafe : Bool),
        ∃ G : (Fin N → Pos (∑ s, n s) 3) → ℝ,
          (∀ x devs l, IsLayout (List.ofFn fun i => walker (x i)) devs l →
            meanGrad (valueAndGrad .ibp N clip nanSafe
              (devs.map fun l => l.map RealWalker.toX)).2.2 j = .fin (G x)) ∧
          Integrable G (Measure.pi fun _ => born volume fun y => ψ θ₀ (splitPositions y)) ∧
          HasDerivAt (fun θ => rayleigh (fun y => ψ θ (splitPositions y)) (coulomb 0 0 R charges))
            (∫ x, G x ∂(Measure.pi fun _ => born volume fun y => ψ θ₀ (splitPositions y))) θ₀ := by
  obtain ⟨E, e, hE, hEe, hEe₀, hd1, hd2, hG⟩ := configured_ibp_gradient_unbiased (by norm_num) hn dtype m
    hm hP v hv hψ f hf hc hq h0 hR permutation parts sampleParts b 0 0
  have hcont : ∀ᶠ θ in 𝓝 θ₀, ψ θ (splitPositions q) ≠ 0 := by
    obtain ⟨I, -, hθ₀, -, ψ', β, C, -, hF⟩ := configured_family (by norm_num) hn hP hψ hc hq h0
    exact (hF.deriv θ₀ (mem_of_mem_nhds hθ₀) q hq).continuousAt.eventually_ne h0
  refine ⟨E, e, hE, hEe, hEe₀, hd1, hd2, fun {J} j walker he hg he' N hN clip nanSafe => ?_⟩
  obtain ⟨G, g1, g2, g3⟩ := hG j walker he hg he' N hN clip nanSafe
  refine ⟨G, g1, g2, g3.congr_of_eventuallyEq ?_⟩
  filter_upwards [hc, hEe, hcont] with θ hcθ hEθ hqθ
  obtain ⟨E', e', hE', hEe', -, hmean⟩ := configured_ibp_expectation c charges dtype m hm (P θ) (v θ)
    (hv θ) (nonzero θ) (ψ θ) (hψ θ) (f θ) (hf θ) hcθ hq hqθ hR permutation parts sampleParts b
  obtain rfl := Option.some.inj ((hE θ).symm.trans hE')
  rw [← hmean]
  refine integral_congr_ae ((withDensity_absolutelyContinuous volume _).ae_le ?_)
  filter_upwards [hEθ, hEe'] with x h1 h2
  obtain ⟨key⟩ := ‹Nonempty κ›
  exact XR.fin_inj.mp ((h2 key).symm.trans (h1 key))

end three

section node

variable {N m d : ℕ} {R : Fin m → Fin d → ℝ} {ψ : Pos N d → ℝ}

/-- The density at nodes. -/
theorem ibpDensity_node (hψ : ∀ x, Good R x → ContDiffAt ℝ ω ψ x) {q : Pos N d}
    (hq : RegularNode R ψ q) {parts : List String} (hk : "kinetic" ∈ parts) (Z : Fin m → ℝ)
    (eiSoft eeSoft : ℝ) : ContinuousAt (ibpDensity parts R Z eiSoft eeSoft ψ) q ∧
      0 < ibpDensity parts R Z eiSoft eeSoft ψ q := by
  have hcψ := (hψ q hq.good).continuousAt
  have hp : ∀ i k, ContinuousAt (partial1 ψ i k) q := fun i k =>
    (partial1_smooth (n := ω) hψ i k q hq.good).continuousAt
  constructor
  · unfold ibpDensity
    refine ((ContinuousAt.add ?_ ?_).add ?_).add (continuousAt_const.mul (hcψ.mul hcψ))
    · simp only [if_pos hk]
      exact Tendsto.const_mul _ (tendsto_finsetSum _ fun i _ => tendsto_finsetSum _ fun k _ =>
        (hp i k).mul (hp i k))
    · split_ifs
      · exact Tendsto.const_mul _ (tendsto_finsetSum _ fun i _ => tendsto_finsetSum _ fun k _ =>
          (hcψ.mul (hp i k)).mul (partial1_smooth (n := ω) (coneEI_smooth eiSoft Z) i k q
            hq.good).continuousAt)
      · exact (hcψ.mul hcψ).mul (coulombEI_continuousAt eiSoft Z q hq.good)
    · split_ifs
      · exact Tendsto.const_mul _ (tendsto_finsetSum _ fun i _ => tendsto_finsetSum _ fun k _ =>
          (hcψ.mul (hp i k)).mul (partial1_smooth (n := ω) (R := R) (coneEE_smooth eeSoft) i k q
            hq.good).continuousAt)
      · exact (hcψ.mul hcψ).mul (coulombEE_continuousAt (R := R) eeSoft q hq.good)
  · obtain ⟨i, k, hik⟩ := hq.slope
    have h1 : 0 < partial1 ψ i k q * partial1 ψ i k q := mul_self_pos.mpr hik
    have h2 : partial1 ψ i k q * partial1 ψ i k q ≤ ∑ k, partial1 ψ i k q * partial1 ψ i k q :=
      Finset.single_le_sum (f := fun k => partial1 ψ i k q * partial1 ψ i k q)
        (fun _ _ => mul_self_nonneg _) (Finset.mem_univ k)
    have h3 : ∑ k, partial1 ψ i k q * partial1 ψ i k q ≤
        ∑ i, ∑ k, partial1 ψ i k q * partial1 ψ i k q :=
      Finset.single_le_sum (f := fun i => ∑ k, partial1 ψ i k q * partial1 ψ i k q)
        (fun _ _ => Finset.sum_nonneg fun _ _ => mul_self_nonneg _) (Finset.mem_univ i)
    unfold ibpDensity
    simp only [hq.zero, zero_mul, mul_zero, Finset.sum_const_zero, ite_self, add_zero, if_pos hk]
    linarith

/-- The product of an energy integrated by parts and the derivative of the logarithm has no mean. -/
theorem ibp_product_no_mean (h : WaveFunction ψ (partial1 ψ) (partial2 ψ))
    (hψ : ∀ x, Good R x → ContDiffAt ℝ ω ψ x) {q : Pos N d} (hq : RegularNode R ψ q)
    {parts : List String} (hk : "kinetic" ∈ parts) (Z : Fin m → ℝ) (eiSoft eeSoft : ℝ)
    {ψ' e g : Pos N d → ℝ} (hmove : ∃ a > 0, ∀ᶠ x in 𝓝 q, a ≤ |ψ' x|)
    (he : ∀ᵐ x, ψ x ^ 2 * e x = ibpDensity parts R Z eiSoft eeSoft ψ x)
    (hg : ∀ᵐ x, ψ x * g x = ψ' x) : ¬FiniteExpect ψ (fun x => e x * g x) := by
  rw [finiteExpect_iff h]
  obtain ⟨a, ha, hmove⟩ := hmove
  obtain ⟨hc, h0⟩ := ibpDensity_node hψ hq hk Z eiSoft eeSoft
  have hU := hc.eventually (isOpen_Ioi.mem_nhds
    (show ibpDensity parts R Z eiSoft eeSoft ψ q / 2 < _ from half_lt_self h0))
  refine Node.not_integrable_node_abs volume ((hψ q hq.good).of_le (by simp)) hq.zero
    (hq.fderiv_ne ((hψ q hq.good).differentiableAt (by simp)))
    (mul_pos (half_pos h0) ha) (hU.and hmove) ?_
  filter_upwards [he, hg] with x h1 h2 hx
  have : ψ x * (ψ x ^ 2 * (e x * g x)) = ψ x ^ 2 * e x * (ψ x * g x) := by ring
  rw [this, h1, h2, abs_mul]
  exact mul_le_mul ((le_of_lt hx.1).trans (le_abs_self _)) hx.2 ha.le (abs_nonneg _)

end node

section estimators

variable {X : Type} [MeasurableSpace X] {π : Measure X} [IsProbabilityMeasure π] {e g e' : X → ℝ}
  {D n : ℕ}

/-- `expected_generic` for walkers on `D` devices. -/
theorem integrable_generic (h2 : 2 ≤ D * n) (he : Integrable e π) (hg : Integrable g π)
    (h : Integrable (fun x => 2 * (e x * g x) + e' x) π) :
    Integrable (fun x : Fin D × Fin n → X => gradientOf (fun d b => e (x (d, b)))
      (fun d b => g (x (d, b))) + (∑ d, ∑ b, e' (x (d, b))) / (D * n)) (Measure.pi fun _ => π) := by
  have h1 := (expected_generic h2 he hg h).1
  have hmp := measurePreserving_piCongrLeft (fun _ : Fin (D * n) => π) (finProdFinEquiv (m := D) (n := n))
  refine (hmp.integrable_comp_of_integrable h1).congr (.of_forall fun x => ?_)
  have hx : ∀ p, (MeasurableEquiv.piCongrLeft (fun _ : Fin (D * n) => X) finProdFinEquiv x)
      (finProdFinEquiv p) = x p := fun p => Equiv.piCongrLeft_apply_apply _ _ _ _
  have hs : ∀ f : X → ℝ, ∑ i, f (MeasurableEquiv.piCongrLeft (fun _ : Fin (D * n) => X)
      finProdFinEquiv x i) = ∑ d, ∑ b, f (x (d, b)) := fun f => by
    rw [← (finProdFinEquiv (m := D) (n := n)).sum_comp, Fintype.sum_prod_type]
    simp only [hx]
  simp only [Function.comp_apply]
  rw [hs e']
  congr 1
  · unfold covGrad gradientOf walkerPairs avgL
    simp only [List.map_ofFn, List.length_ofFn, List.sum_ofFn, Function.comp_def]
    rw [hs e]
    push_cast
    rw [hs fun y => (e y - (∑ d, ∑ b, e (x (d, b))) / (D * n)) * g y]
  · push_cast
    rfl

/-- Functions of the walkers which grow like the product of one of them have no mean. -/
theorem no_mean (d₀ : Fin D) (b₀ : Fin n) (he : Integrable e π) (hg : Integrable g π)
    (heg : ¬Integrable (fun x => e x * g x) π) (Δ : (Fin D × Fin n → X) → ℝ)
    (h : ∀ B S : ℝ, ∃ C, 0 ≤ C ∧ ∀ x : Fin D × Fin n → X,
      (∀ d b, (d, b) ≠ (d₀, b₀) → |e (x (d, b))| ≤ B ∧ |g (x (d, b))| ≤ S) →
      |e (x (d₀, b₀)) * g (x (d₀, b₀))| ≤
        C * (|Δ x| + |e (x (d₀, b₀))| + |g (x (d₀, b₀))| + 1)) :
    ¬Integrable Δ (Measure.pi fun _ : Fin D × Fin n => π) := by
  refine Node.not_integrable_of_le (d₀, b₀) (w := fun x => e x * g x)
    (u := fun y => |e y| + |g y| + 1) (he.1.mul hg.1) ((he.abs.add hg.abs).add (integrable_const 1))
    heg fun x => ?_
  obtain ⟨C, -, hC⟩ := h (∑ i, |e (x i)|) (∑ i, |g (x i)|)
  refine ⟨C, fun y => ?_⟩
  have := hC (Function.update x (d₀, b₀) y) fun d b hdb => by
    rw [Function.update_of_ne hdb]
    exact ⟨Finset.single_le_sum (f := fun i => |e (x i)|) (fun _ _ => abs_nonneg _) (Finset.mem_univ _),
      Finset.single_le_sum (f := fun i => |g (x i)|) (fun _ _ => abs_nonneg _) (Finset.mem_univ _)⟩
  simpa only [Function.update_self, add_assoc] using this

/-- The estimators of products which have no means: alone, with other factors, and after clipping. -/
theorem mismatched_no_mean (h2 : 2 ≤ D * n) (he : Integrable e π) (hg : Integrable g π)
    (h : Integrable (fun x => 2 * (e x * g x) + e' x) π) (heg : ¬Integrable (fun x => e x * g x) π)
    (threshold : ℝ) (center : Center) (S : (Fin D × Fin n → X) → ℝ)
    (hS : ∀ x, ∃ c, Clips threshold center (fun d b => e (x (d, b))) c ∧
      S x = gradientOf c fun d b => g (x (d, b))) :
    ¬Integrable S (Measure.pi fun _ : Fin D × Fin n => π) ∧
    (threshold ≤ 0 → ∀ α, α ≠ 1 → ¬Integrable
      (fun x => α * S x + (∑ d, ∑ b, e' (x (d, b))) / (D * n))
      (Measure.pi fun _ : Fin D × Fin n => π)) ∧
    (0 < threshold → 4 * threshold < n → 3 ≤ n → ¬Integrable
      (fun x => S x + (∑ d, ∑ b, e' (x (d, b))) / (D * n))
      (Measure.pi fun _ : Fin D × Fin n => π)) := by
  have hD : 0 < D := Nat.pos_of_ne_zero (by rintro rfl; omega)
  have hn : 0 < n := Nat.pos_of_ne_zero (by rintro rfl; omega)
  have hT := integrable_generic h2 he hg h
  have hSn : ¬Integrable S (Measure.pi fun _ : Fin D × Fin n => π) := by
    refine no_mean ⟨0, hD⟩ ⟨0, hn⟩ he hg heg S fun B M => ?_
    obtain ⟨C, hC, hb⟩ := gradient_large hn h2 threshold center ⟨0, hD⟩ B M
    refine ⟨C, hC, fun x hx => ?_⟩
    obtain ⟨c, hc, hSc⟩ := hS x
    rw [hSc]
    exact hb _ c (fun d b => g (x (d, b))) hc hx
  refine ⟨hSn, fun ht α hα hi => hSn ?_, fun ht0 ht hn3 hi => ?_⟩
  · have hSe : ∀ x, S x = gradientOf (fun d b => e (x (d, b))) fun d b => g (x (d, b)) := fun x => by
      obtain ⟨c, hc, hSc⟩ := hS x
      rw [Clips, if_neg (not_lt.mpr ht)] at hc
      rw [hSc, hc]
    refine ((hi.sub hT).const_mul (α - 1)⁻¹).congr (.of_forall fun x => ?_)
    have hα' : α - 1 ≠ 0 := sub_ne_zero.mpr hα
    simp only [Pi.sub_apply, ← hSe]
    field_simp
    ring
  · refine no_mean ⟨0, hD⟩ ⟨0, hn⟩ he hg heg (fun x => S x + (∑ d, ∑ b, e' (x (d, b))) / (D * n) -
      (gradientOf (fun d b => e (x (d, b))) (fun d b => g (x (d, b))) +
        (∑ d, ∑ b, e' (x (d, b))) / (D * n))) (fun B M => ?_) (hi.sub hT)
    obtain ⟨C, hC, hb⟩ := clipping_large hn3 ht0 ht center (⟨0, hD⟩ : Fin D) B M
    refine ⟨C, hC, fun x hx => ?_⟩
    obtain ⟨c, hc, hSc⟩ := hS x
    rw [hSc, add_sub_add_right_eq_sub]
    exact hb _ c (fun d b => g (x (d, b))) hc hx

end estimators

section configured

variable {K nion d : ℕ} {n : Fin (K + 1) → ℕ} {R : Fin nion → Fin d → ℝ}
  {c : ModelCfg} {charges : Fin nion → ℝ} {P : ℝ → Params (K + 1) nion d}
  {nonzero : ℝ → Stream1 n d → Prop} {ψ : ℝ → Stream1 n d → ℝ}

/-- C99: with the kinetic energy integrated by parts and a regular node which moves with the parameter, the
first contribution to the generic gradient — the one of the standard estimator — has no mean.  Without
clipping, 1 is the only factor for it with which the sum of both contributions has a mean: the
factor `nchains / (nchains - 1)` of the code cannot be left out.  With clipping, for thresholds less than
a quarter of the number of walkers per device, the sum has no mean. -/
theorem configured_ibp_gradient_parts (hd : 2 ≤ d) (hn : 0 < ∑ s, n s) (dtype : ℕ) (m : Model nion)
    (hm : getModelFromConfig c (counts n) R charges dtype = .ok m) (hP : SmoothPath P)
    (v : ℝ → Stream1 n d → SL) (hv : ∀ θ q, m.apply (P θ) R q = .ok (v θ q))
    (hψ : ∀ θ q, ModelValue c (P θ) R charges q (nonzero θ q) (ψ θ q))
    (f : ℝ → Pos (∑ s, n s) d → ℝ)
    (hf : ∀ θ y, (v θ (splitPositions y)).2.isFin → (v θ (splitPositions y)).2 = .fin (f θ y))
    {θ₀ : ℝ} (hc : ∀ᶠ θ in 𝓝 θ₀, Decays c (P θ) charges n) {q : Pos (∑ s, n s) d} (hq : Good R q)
    (h0 : ψ θ₀ (splitPositions q) ≠ 0) (hR : Distinct R)
    {node : Pos (∑ s, n s) d} (hnode : RegularNode R (fun y => ψ θ₀ (splitPositions y)) node)
    (hmove : deriv (fun θ => ψ θ (splitPositions node)) θ₀ ≠ 0) {κ : Type} [Nonempty κ]
    (permutation : κ → Equiv.Perm (Fin (∑ s, n s))) {parts : List String} (hk : "kinetic" ∈ parts)
    (sampleParts : List String) (b : ℕ) (eiSoft eeSoft : ℝ) {E : ℝ → Pos (∑ s, n s) d → κ → XR}
    {e : ℝ → Pos (∑ s, n s) d → ℝ}
    (hE : ∀ θ, assembleMolLocalEnergy permutation "ibp" parts b sampleParts R charges eiSoft eeSoft
        (f θ) = some (E θ))
    (hEe : ∀ᵐ x, ∀ᶠ θ in 𝓝 θ₀, ∀ key, E θ x key = .fin (e θ x)) {J : Type} (j : J)
    (walker : Pos (∑ s, n s) d → RealWalker J) (he : ∀ᵐ x, (walker x).eloc = e θ₀ x)
    (hg : ∀ᵐ x, HasDerivAt (fun θ => f θ x) ((walker x).gradLogPsi j) θ₀)
    (he' : ∀ᵐ x, HasDerivAt (fun θ => e θ x) ((walker x).gradEloc j) θ₀)
    {ndev nbatch : ℕ} (h2 : 2 ≤ ndev * nbatch) (threshold : ℝ) (center : Center) (nanSafe : Bool) :
    ∃ S : (Fin ndev × Fin nbatch → Pos (∑ s, n s) d) → ℝ,
      (∀ x, meanGrad (valueAndGrad .standard (ndev * nbatch) (getClippingFn threshold center) nanSafe
        (List.ofFn fun d => List.ofFn fun b => (walker (x (d, b))).toX)).2.2 j = .fin (S x)) ∧
      ¬Integrable S (Measure.pi fun _ => born volume fun y => ψ θ₀ (splitPositions y)) ∧
      (threshold ≤ 0 → ∀ α, α ≠ 1 → ¬Integrable (fun x => α * S x +
          (∑ d, ∑ b, (walker (x (d, b))).gradEloc j) / (ndev * nbatch))
        (Measure.pi fun _ => born volume fun y => ψ θ₀ (splitPositions y))) ∧
      (0 < threshold → 4 * threshold < nbatch → 3 ≤ nbatch → ¬Integrable (fun x => S x +
          (∑ d, ∑ b, (walker (x (d, b))).gradEloc j) / (ndev * nbatch))
        (Measure.pi fun _ => born volume fun y => ψ θ₀ (splitPositions y))) := by
  obtain ⟨I, hI, hθ₀, hcI, ψ', β, C, hβ, hF⟩ := configured_family hd hn hP hψ hc hq h0
  have hθI := mem_of_mem_nhds hθ₀
  have hw := hF.wave θ₀ hθI
  obtain ⟨E', hE', -, hEe₀⟩ := configured_ibp_family hd dtype m hm v hv hψ f hf hθ₀ hcI hF hR
    permutation parts sampleParts b eiSoft eeSoft
  obtain rfl : E = E' := funext fun θ => Option.some.inj ((hE θ).symm.trans (hE' θ))
  obtain ⟨hlog, hder⟩ := configured_log_family hd dtype m hm v hv hψ f hf hθ₀ hcI hF
  obtain ⟨hS, -⟩ := hF.smooth_ibp hd hβ hθ₀ parts charges eiSoft eeSoft
  have hee : ∀ᵐ x, ∀ᶠ θ in 𝓝 θ₀, e θ x =
      ibpEnergy parts R charges eiSoft eeSoft (logAbs fun y => ψ θ (splitPositions y)) x := by
    obtain ⟨key⟩ := ‹Nonempty κ›
    filter_upwards [hEe, hEe₀] with x h1 h2
    filter_upwards [h1, h2] with θ h1 h2
    exact XR.fin_inj.mp ((h1 key).symm.trans (h2 key))
  have hwe : ∀ᵐ x, (walker x).eloc =
      ibpEnergy parts R charges eiSoft eeSoft (logAbs fun y => ψ θ₀ (splitPositions y)) x := by
    filter_upwards [he, hee] with x h1 h2
    rw [h1, h2.self_of_nhds]
  have hg₁ : ∀ᵐ x, HasDerivAt (fun θ => Real.log |ψ θ (splitPositions x)|)
      ((walker x).gradLogPsi j) θ₀ := by
    filter_upwards [ae_good (by omega) R, hS.ne_zero, hg, hder] with x hx hne h1 h2
    rw [h1.unique h2]
    simpa only [Real.log_abs] using (hF.deriv θ₀ hθI x hx).log hne
  have he₁ : ∀ᵐ x, HasDerivAt
      (fun θ => ibpEnergy parts R charges eiSoft eeSoft (logAbs fun y => ψ θ (splitPositions y)) x)
      ((walker x).gradEloc j) θ₀ := by
    filter_upwards [he', hee] with x h1 h2
    exact h1.congr_of_eventuallyEq (h2.mono fun θ h => h.symm)
  obtain ⟨ig, isum, -⟩ := expectedEnergy_hasDerivAt_sum hS hg₁ he₁
  have := isProbabilityMeasure_born hw.normalisable (norm_ne_zero hw)
  have hwe' : ∀ᵐ x ∂(born volume fun y => ψ θ₀ (splitPositions y)), ibpEnergy parts R charges eiSoft
      eeSoft (logAbs fun y => ψ θ₀ (splitPositions y)) x = (walker x).eloc :=
    (withDensity_absolutelyContinuous volume _).ae_le (hwe.mono fun x hx => hx.symm)
  have ie := ((integrable_born₀ hS.measurable.self_of_nhds hS.norm_pos.ne').mpr
    hS.integrable_energy).congr hwe'
  have isum' : Integrable (fun x => 2 * ((walker x).eloc * (walker x).gradLogPsi j) +
      (walker x).gradEloc j) (born volume fun y => ψ θ₀ (splitPositions y)) :=
    isum.congr (hwe'.mono fun x hx => by simp only [hx])
  have hg' : ∀ᵐ x : Pos (∑ s, n s) d, ψ θ₀ (splitPositions x) * (walker x).gradLogPsi j =
      ψ' θ₀ x := by
    filter_upwards [hw.ne_zero, hg, hder] with x hne h1 h2
    rw [h1.unique h2, mul_div_cancel₀ _ hne]
  have hs : ContDiff ℝ ⊤ (splitPositions : Pos (∑ s, n s) d → Stream1 n d) := by
    unfold splitPositions
    exact contDiff_pi.mpr fun e => contDiff_apply ℝ _ _
  have hω : ∀ τ ∈ I, ∀ x, Good R x → ContDiffAt ℝ ω (fun y => ψ τ (splitPositions y)) x :=
    fun τ hτ x hx =>
      (configured_value_smooth (hψ τ) (smooth_place_of_decays (hcI τ hτ) hx)).comp x hs.contDiffAt
  have hmv : ∃ a > 0, ∀ᶠ x in 𝓝 node, a ≤ |ψ' θ₀ x| := by
    rw [(hF.deriv θ₀ hθI node hnode.good).deriv] at hmove
    have hcont := (hF.deriv_continuousAt hβ hI hθ₀ hω hnode.good).abs
    refine ⟨|ψ' θ₀ node| / 2, half_pos (abs_pos.mpr hmove), ?_⟩
    filter_upwards [hcont.eventually (isOpen_Ioi.mem_nhds
      (show |ψ' θ₀ node| / 2 < |ψ' θ₀ node| from half_lt_self (abs_pos.mpr hmove)))] with x hx
    exact le_of_lt hx
  have hdens : ∀ᵐ x : Pos (∑ s, n s) d, ψ θ₀ (splitPositions x) ^ 2 * (walker x).eloc =
      ibpDensity parts R charges eiSoft eeSoft (fun y => ψ θ₀ (splitPositions y)) x := by
    filter_upwards [ae_good (by omega) R, hw.ne_zero, hwe] with x hx hne h1
    obtain ⟨p1, p2, hp⟩ := hF.mixed
    rw [h1]
    exact sq_mul_ibpEnergy (ψ := fun y => ψ θ₀ (splitPositions y)) (fun i k => (hp θ₀ hθI i k x hx).2.2.2.2) hne parts charges eiSoft eeSoft
  have heg := ibp_product_no_mean hw (hω θ₀ hθI) hnode hk charges eiSoft eeSoft hmv hdens hg'
  have hD : 0 < ndev := Nat.pos_of_ne_zero (by rintro rfl; omega)
  have hn : 0 < nbatch := Nat.pos_of_ne_zero (by rintro rfl; omega)
  choose cl hcl hG using fun x : Fin ndev × Fin nbatch → Pos (∑ s, n s) d =>
    clipped_gradient .standard (by simp) nanSafe threshold center (fun d b => walker (x (d, b)))
      hD hn h2 j
  exact ⟨_, hG, mismatched_no_mean h2 ie ig isum' heg threshold center _ fun x => ⟨_, hcl x, rfl⟩⟩

end configured

/-- The default FermiNet for a hydrogen molecule with a node which moves with the parameter, and the kinetic
energy integrated by parts.  With 2000 walkers, the mean of the generic gradient is the derivative of the
energy.  With the walkers on four devices, the first contribution has no mean, also not if the second one is added after
leaving out the factor 2000/1999, or after the default clipping. -/
example (P : Params 2 2 3) (permutation : Unit → Equiv.Perm (Fin (∑ _ : Fin 2, 1))) :
    ∃ m : Model 2, getModelFromConfig {} (counts fun _ : Fin 2 => 1) protons (fun _ => 1) 32 = .ok m ∧
      ∃ v : ℝ → (Stream1 (fun _ : Fin 2 => 1) 3) → SL,
        (∀ θ q, m.apply (mixedParams P θ) protons q = .ok (v θ q)) ∧
        ∃ f : ℝ → Pos (∑ _ : Fin 2, 1) 3 → ℝ,
          (∀ θ y, mixedWave θ y ≠ 0 →
            v θ (splitPositions y) = (.fin (SignType.sign (mixedWave θ y)), .fin (f θ y))) ∧
        ∃ (E : ℝ → Pos (∑ _ : Fin 2, 1) 3 → Unit → XR)
          (walker : Pos (∑ _ : Fin 2, 1) 3 → RealWalker Unit),
          (∀ θ, assembleMolLocalEnergy permutation "ibp" ["kinetic"] 1 [] protons (fun _ => 1) 0 0
            (f θ) = some (E θ)) ∧
          (∀ᵐ x, E (-Real.exp 1) x () = .fin (walker x).eloc) ∧
          (∀ᵐ x, HasDerivAt (fun θ => f θ x) ((walker x).gradLogPsi ()) (-Real.exp 1)) ∧
          (∀ᵐ x, ∃ e : ℝ → ℝ, (∀ᶠ θ in 𝓝 (-Real.exp 1), E θ x () = .fin (e θ)) ∧
            HasDerivAt e ((walker x).gradEloc ()) (-Real.exp 1)) ∧
          (∃ G : (Fin 2000 → Pos (∑ _ : Fin 2, 1) 3) → ℝ,
            (∀ x devs l, IsLayout (List.ofFn fun i => walker (x i)) devs l →
              meanGrad (valueAndGrad .ibp 2000 (getClippingFn 5 .mean) true
                (devs.map fun l => l.map RealWalker.toX)).2.2 () = .fin (G x)) ∧
            Integrable G (Measure.pi fun _ => born volume (mixedWave (-Real.exp 1))) ∧
            HasDerivAt (fun θ => rayleigh (mixedWave θ) (coulomb 0 0 protons fun _ => 1))
              (∫ x, G x ∂(Measure.pi fun _ => born volume (mixedWave (-Real.exp 1)))) (-Real.exp 1)) ∧
          (∃ S : (Fin 4 × Fin 500 → Pos (∑ _ : Fin 2, 1) 3) → ℝ,
            (∀ x, meanGrad (valueAndGrad .standard (4 * 500) (getClippingFn 0 .mean) true
              (List.ofFn fun d => List.ofFn fun b => (walker (x (d, b))).toX)).2.2 () = .fin (S x)) ∧
            ¬Integrable S (Measure.pi fun _ => born volume (mixedWave (-Real.exp 1))) ∧
            ¬Integrable (fun x => 1999 / 2000 * S x +
                (∑ d, ∑ b, (walker (x (d, b))).gradEloc ()) / ((4 : ℕ) * (500 : ℕ)))
              (Measure.pi fun _ => born volume (mixedWave (-Real.exp 1)))) ∧
          ∃ S : (Fin 4 × Fin 500 → Pos (∑ _ : Fin 2, 1) 3) → ℝ,
            (∀ x, meanGrad (valueAndGrad .standard (4 * 500) (getClippingFn 5 .mean) true
              (List.ofFn fun d => List.ofFn fun b => (walker (x (d, b))).toX)).2.2 () = .fin (S x)) ∧
            ¬Integrable (fun x => S x +
                (∑ d, ∑ b, (walker (x (d, b))).gradEloc ()) / ((4 : ℕ) * (500 : ℕ)))
              (Measure.pi fun _ => born volume (mixedWave (-Real.exp 1))) := by
  obtain ⟨m, hm, nz, ψ, v, hψ, hval, hv, hrep⟩ := mixed_model P
  have hfun : ∀ θ, (fun y => ψ θ (splitPositions y)) = mixedWave θ := fun θ => funext (hval θ)
  have hex : ∀ θ (y : Pos (∑ _ : Fin 2, 1) 3), ∃ a, (v θ (splitPositions y)).2.isFin →
      (v θ (splitPositions y)).2 = .fin a := fun θ y => by
    cases (v θ (splitPositions y)).2 <;> simp [XR.isFin]
  choose f hf using hex
  refine ⟨m, hm, v, hv, f, fun θ y hy => ?_, ?_⟩
  · have := hf θ y (by rw [hrep θ y hy]; exact trivial)
    rw [← this, hrep θ y hy]
  have hc : ∀ᶠ θ in 𝓝 (-Real.exp 1), Decays {} (mixedParams P θ) (fun _ => 1) fun _ : Fin 2 => 1 :=
    .of_forall fun θ => mixed_decays P θ
  have hne := mixed_ne_zero
  rw [← hval] at hne
  obtain ⟨E, e, hE, hEe, hEe₀, hdiff, hdiff', hG⟩ := configured_ibp_gradient_energy (by simp) 32 m hm
    (mixed_path P) v hv hψ f hf hc hydrogen_good hne protons_distinct permutation ["kinetic"] [] 1
  let walker : Pos (∑ _ : Fin 2, 1) 3 → RealWalker Unit := fun x =>
    ⟨e (-Real.exp 1) x, 0, fun _ => deriv (fun θ => f θ x) (-Real.exp 1),
      fun _ => deriv (fun θ => e θ x) (-Real.exp 1)⟩
  have h1 : ∀ᵐ x, (walker x).eloc = e (-Real.exp 1) x := .of_forall fun _ => rfl
  have h2 : ∀ᵐ x, HasDerivAt (fun θ => f θ x) ((walker x).gradLogPsi ()) (-Real.exp 1) :=
    hdiff.mono fun x hx => hx.hasDerivAt
  have h3 : ∀ᵐ x, HasDerivAt (fun θ => e θ x) ((walker x).gradEloc ()) (-Real.exp 1) :=
    hdiff'.mono fun x hx => hx.hasDerivAt
  refine ⟨E, walker, hE, hEe.self_of_nhds.mono fun x hx => hx (), h2, ?_, ?_, ?_, ?_⟩
  · filter_upwards [hEe₀, h3] with x h4 h5
    exact ⟨_, h4.mono fun θ h => h (), h5⟩
  · obtain ⟨G, g1, g2, g3⟩ := hG () walker h1 h2 h3 2000 (by norm_num) (getClippingFn 5 .mean) true
    refine ⟨G, g1, ?_, ?_⟩
    · rwa [hfun] at g2
    · simpa only [hfun] using g3
  all_goals
    have hparts := fun threshold center => configured_ibp_gradient_parts (by norm_num) (by simp) 32 m hm
      (mixed_path P) v hv hψ f hf hc hydrogen_good hne protons_distinct
      (by rw [hfun]; exact mixed_node) (by simp only [hval]; exact mixed_moves) permutation
      (parts := ["kinetic"]) (by simp) [] 1 0 0 hE hEe₀ () walker h1 h2 h3 (ndev := 4) (nbatch := 500)
      (by norm_num) threshold center true
  · obtain ⟨S, s1, s2, s3, -⟩ := hparts 0 .mean
    rw [hfun] at s2 s3
    exact ⟨S, s1, s2, s3 le_rfl _ (by norm_num)⟩
  · obtain ⟨S, s1, -, -, s4⟩ := hparts 5 .mean
    rw [hfun] at s4
    exact ⟨S, s1, s4 (by norm_num) (by norm_num) (by norm_num)⟩

end Verif.Props
