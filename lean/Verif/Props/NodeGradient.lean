import Verif.Lemmas.NodeGradient
import Verif.Props.ClippedGradient
import Verif.Props.NodeVariance
import Verif.Props.ParamGradient

/-!
# C98: gradients and nodes

Near a node which moves with a parameter the local energy `Hψ/ψ` and the derivative `∂ψ/ψ` of the logarithm both
grow like the inverse of the distance.  Each has a finite second moment over `|ψ|²`, their product has
not.  The mean of the gradient is the derivative of the energy (C96), but its variance is infinite,
whether local energies are clipped or not.
-/

namespace Verif.Props
open Verif.Construct Verif.Net Verif.Spec Verif.Slog Verif.Decay Verif.Phys Verif.Ibp MeasureTheory
open Verif.Stat Verif.Ergodic Verif.Energy
open Filter Topology
open scoped ContDiff

section general

variable {N m d : ℕ} {R : Fin m → Fin d → ℝ} {ψ : Pos N d → ℝ}

theorem hamiltonian_continuousAt (hψ : ∀ x, Good R x → ContDiffAt ℝ ω ψ x) (eiSoft eeSoft : ℝ)
    (Z : Fin m → ℝ) (x : Pos N d) (hx : Good R x) :
    ContinuousAt (hamiltonian ψ (coulomb eiSoft eeSoft R Z)) x := by
  unfold hamiltonian
  refine ContinuousAt.add (Tendsto.const_mul _ (tendsto_finsetSum _ fun i _ =>
    tendsto_finsetSum _ fun k _ => ?_)) (ContinuousAt.mul ?_ (hψ x hx).continuousAt)
  · rw [funext fun x => partial2_eq (ψ := ψ) (i := i) (k := k) x]
    exact (partial1_smooth (n := ω) (partial1_smooth (n := ω) hψ i k) i k x hx).continuousAt
  · unfold coulomb
    exact ((coulombEI_continuousAt eiSoft Z x hx).add (coulombEE_continuousAt eeSoft x hx)).add
      continuousAt_const

/-- The product of the local energy and the derivative of the logarithm has an infinite second moment. -/
theorem product_second_moment_infinite (h : WaveFunction ψ (partial1 ψ) (partial2 ψ))
    (hψ : ∀ x, Good R x → ContDiffAt ℝ ω ψ x) {q : Pos N d} (hq : RegularNode R ψ q)
    (eiSoft eeSoft : ℝ) (Z : Fin m → ℝ) (hH : hamiltonian ψ (coulomb eiSoft eeSoft R Z) q ≠ 0)
    {ψ' e g : Pos N d → ℝ} (hmove : ∃ a > 0, ∀ᶠ x in 𝓝 q, a ≤ |ψ' x|)
    (he : ∀ᵐ x, ψ x * e x = hamiltonian ψ (coulomb eiSoft eeSoft R Z) x)
    (hg : ∀ᵐ x, ψ x * g x = ψ' x) : ¬FiniteExpect ψ (fun x => (e x * g x) ^ 2) := by
  rw [finiteExpect_iff h]
  obtain ⟨a, ha, hmove⟩ := hmove
  have hc := (hamiltonian_continuousAt hψ eiSoft eeSoft Z q hq.good).abs
  have hH0 := abs_pos.mpr hH
  have hU := hc.eventually (isOpen_Ioi.mem_nhds
    (show |hamiltonian ψ (coulomb eiSoft eeSoft R Z) q| / 2 < _ from half_lt_self hH0))
  refine Node.not_integrable_node volume ((hψ q hq.good).of_le (by simp)) hq.zero
    (hq.fderiv_ne ((hψ q hq.good).differentiableAt (by simp)))
    (mul_pos (half_pos hH0) ha) (hU.and hmove) ?_
  filter_upwards [he, hg] with x h1 h2 hx
  have : ψ x ^ 2 * (e x * g x) = ψ x * e x * (ψ x * g x) := by ring
  rw [this, h1, h2, abs_mul]
  exact mul_le_mul (le_of_lt hx.1) hx.2 ha.le (abs_nonneg _)

/-- The gradient of walkers on `D` devices, with clipped energies, has an infinite second moment. -/
theorem gradient_second_moment_infinite {X : Type} [MeasurableSpace X] {π : Measure X}
    [IsProbabilityMeasure π] {e g : X → ℝ} (he : AEStronglyMeasurable e π) (hg : AEStronglyMeasurable g π)
    (he2 : Integrable (fun x => e x ^ 2) π) (hg2 : Integrable (fun x => g x ^ 2) π)
    (heg : ¬Integrable (fun x => (e x * g x) ^ 2) π) {D n : ℕ} (h2 : 2 ≤ D * n) (threshold : ℝ)
    (center : Center) (G : (Fin D × Fin n → X) → ℝ)
    (hG : ∀ x, ∃ c, Clips threshold center (fun d b => e (x (d, b))) c ∧
      G x = gradientOf c fun d b => g (x (d, b))) :
    ¬Integrable (fun x => G x ^ 2) (Measure.pi fun _ : Fin D × Fin n => π) := by
  have hD : 0 < D := Nat.pos_of_ne_zero (by rintro rfl; omega)
  have hn : 0 < n := Nat.pos_of_ne_zero (by rintro rfl; omega)
  refine Node.not_integrable_sq (⟨0, hD⟩, ⟨0, hn⟩) he hg he2 hg2 heg fun x => ?_
  obtain ⟨C, hC, h⟩ := gradient_large hn h2 threshold center ⟨0, hD⟩ (∑ i, |e (x i)|) (∑ i, |g (x i)|)
  refine ⟨C, hC, fun y => ?_⟩
  obtain ⟨c, hc, hGc⟩ := hG (Function.update x (⟨0, hD⟩, ⟨0, hn⟩) y)
  have := h _ c (fun d b => g (Function.update x (⟨0, hD⟩, ⟨0, hn⟩) y (d, b))) hc fun d b hdb => by
    rw [Function.update_of_ne hdb]
    exact ⟨Finset.single_le_sum (f := fun i => |e (x i)|) (fun _ _ => abs_nonneg _) (Finset.mem_univ _),
      Finset.single_le_sum (f := fun i => |g (x i)|) (fun _ _ => abs_nonneg _) (Finset.mem_univ _)⟩
  rw [← hGc] at this
  simpa only [Function.update_self] using this

end general

section configured

variable {K nion : ℕ} {n : Fin (K + 1) → ℕ} {R : Fin nion → Fin 3 → ℝ}
  {c : ModelCfg} {charges : Fin nion → ℝ} {P : ℝ → Params (K + 1) nion 3}
  {nonzero : ℝ → Stream1 n 3 → Prop} {ψ : ℝ → Stream1 n 3 → ℝ}

/-- C98: for configured models which decay, with a regular node where neither `Hψ` nor the derivative
of `ψ` with respect to the parameter is zero, the square of the gradient
which the standard estimator computes has no finite mean over independent walkers distributed as
`|ψ|²`: for every number of walkers and devices, with every clipping threshold and centre and
without clipping (thresholds which are not positive). -/
theorem configured_gradient_variance_infinite (hn : 0 < ∑ s, n s) (dtype : ℕ) (m : Model nion)
    (hm : getModelFromConfig c (counts n) R charges dtype = .ok m) (hP : SmoothPath P)
    (v : ℝ → Stream1 n 3 → SL) (hv : ∀ θ q, m.apply (P θ) R q = .ok (v θ q))
    (hψ : ∀ θ q, ModelValue c (P θ) R charges q (nonzero θ q) (ψ θ q))
    (f : ℝ → Pos (∑ s, n s) 3 → ℝ)
    (hf : ∀ θ y, (v θ (splitPositions y)).2.isFin → (v θ (splitPositions y)).2 = .fin (f θ y))
    {θ₀ : ℝ} (hc : ∀ᶠ θ in 𝓝 θ₀, Decays c (P θ) charges n) {q : Pos (∑ s, n s) 3} (hq : Good R q)
    (h0 : ψ θ₀ (splitPositions q) ≠ 0) (hR : Distinct R) (eiSoft eeSoft : ℝ)
    {node : Pos (∑ s, n s) 3} (hnode : RegularNode R (fun y => ψ θ₀ (splitPositions y)) node)
    (hH : hamiltonian (fun y => ψ θ₀ (splitPositions y)) (coulomb eiSoft eeSoft R charges) node ≠ 0)
    (hmove : deriv (fun θ => ψ θ (splitPositions node)) θ₀ ≠ 0) {κ : Type}
    (permutation : κ → Equiv.Perm (Fin (∑ s, n s))) (ibpParts sampleParts : List String) (b : ℕ) :
    ∃ E, assembleMolLocalEnergy permutation "standard" ibpParts b sampleParts R charges eiSoft eeSoft
        (f θ₀) = some E ∧
      (∀ᵐ x, ∃ e, ∀ key, E x key = .fin e) ∧
      (∀ᵐ x, DifferentiableAt ℝ (fun θ => f θ x) θ₀) ∧
      ∀ {J : Type} (j : J) (walker : Pos (∑ s, n s) 3 → RealWalker J),
        (∀ᵐ x, ∃ key, E x key = .fin (walker x).eloc) →
        (∀ᵐ x, HasDerivAt (fun θ => f θ x) ((walker x).gradLogPsi j) θ₀) →
        ∀ (ndev nbatch : ℕ), 2 ≤ ndev * nbatch → ∀ (threshold : ℝ) (center : Center) (nanSafe : Bool),
        ∃ G : (Fin ndev × Fin nbatch → Pos (∑ s, n s) 3) → ℝ,
          (∀ x, meanGrad (valueAndGrad .standard (ndev * nbatch) (getClippingFn threshold center) nanSafe
            (List.ofFn fun d => List.ofFn fun b => (walker (x (d, b))).toX)).2.2 j = .fin (G x)) ∧
          ¬Integrable (fun x => G x ^ 2)
            (Measure.pi fun _ => born volume fun y => ψ θ₀ (splitPositions y)) := by
  obtain ⟨I, hI, hθ₀, hcI, ψ', β, C, hβ, hF⟩ := configured_family (by norm_num) hn hP hψ hc hq h0
  have hθI := mem_of_mem_nhds hθ₀
  have hw := hF.wave θ₀ hθI
  obtain ⟨hlog, hder⟩ := configured_log_family (by norm_num) dtype m hm v hv hψ f hf hθ₀ hcI hF
  obtain ⟨E, e, hE, hEe, -⟩ := configured_energy_expectation c charges dtype m hm (P θ₀) (v θ₀)
    (hv θ₀) (nonzero θ₀) (ψ θ₀) (hψ θ₀) (f θ₀) (hf θ₀) (hcI θ₀ hθI) hq h0 (by norm_num) hR permutation
    ibpParts sampleParts b eiSoft eeSoft
  refine ⟨E, hE, hEe.mono fun x hx => ⟨_, hx⟩,
    hder.mono fun x hx => hx.differentiableAt,
    fun {J} j walker he hg ndev nbatch h2 threshold center nanSafe => ?_⟩
  have he' : ∀ᵐ x : Pos (∑ s, n s) 3, ψ θ₀ (splitPositions x) * (walker x).eloc =
      hamiltonian (fun y => ψ θ₀ (splitPositions y)) (coulomb eiSoft eeSoft R charges) x := by
    filter_upwards [ae_good (by norm_num) R, hlog, he,
      mul_local_energy hw (coulomb eiSoft eeSoft R charges)] with x hx hl ⟨key, hE₁⟩ hH
    obtain ⟨E', hE', h⟩ := standard_energy_terms permutation ibpParts sampleParts b R charges eiSoft
      eeSoft (f θ₀) x key ⟨.inr hx.2, .inr hx.1, hR⟩
    obtain rfl := Option.some.inj (hE.symm.trans hE')
    rw [h] at hE₁
    have : kineticLaplacian (f θ₀) x =
        kineticLaplacian (logAbs fun y => ψ θ₀ (splitPositions y)) x := by
      unfold kineticLaplacian coordLaplacian
      simp only [partial1_congr hl, partial2_congr hl]
    rw [← hH, ← XR.fin_inj.mp hE₁, this, coulomb]
    ring
  have hg' : ∀ᵐ x : Pos (∑ s, n s) 3, ψ θ₀ (splitPositions x) * (walker x).gradLogPsi j =
      ψ' θ₀ x := by
    filter_upwards [hw.ne_zero, hg, hder] with x hne h1 h2
    rw [h1.unique h2, mul_div_cancel₀ _ hne]
  have hs : ContDiff ℝ ⊤ (splitPositions : Pos (∑ s, n s) 3 → Stream1 n 3) := by
    unfold splitPositions
    exact contDiff_pi.mpr fun e => contDiff_apply ℝ _ _
  have hω : ∀ x, Good R x → ContDiffAt ℝ ω (fun y => ψ θ₀ (splitPositions y)) x := fun x hx =>
    (configured_value_smooth (hψ θ₀) (smooth_place_of_decays (hcI θ₀ hθI) hx)).comp x hs.contDiffAt
  obtain ⟨ie, ig, -, -⟩ := hF.rayleigh_deriv (by norm_num) hβ hI hθ₀ eiSoft eeSoft charges he' hg'
  have := isProbabilityMeasure_born hw.normalisable (norm_ne_zero hw)
  have ie2 : FiniteExpect (fun y => ψ θ₀ (splitPositions y)) fun x => (walker x).eloc ^ 2 := by
    rw [finiteExpect_iff hw]
    refine (configured_hamiltonian_sq c charges (P θ₀) (nonzero θ₀) (ψ θ₀) (hψ θ₀) (hcI θ₀ hθI) hq h0
      le_rfl eiSoft eeSoft).2.congr ?_
    filter_upwards [he'] with x hx
    rw [← hx]
    ring
  have ig2 : FiniteExpect (fun y => ψ θ₀ (splitPositions y)) fun x => (walker x).gradLogPsi j ^ 2 := by
    rw [finiteExpect_iff hw]
    have hm' := hF.deriv_measurable (by norm_num) hθ₀
    have := integrable_of_le (R := R) (by norm_num) hβ hm' hm' (hF.deriv_le θ₀ hθI) (M := C)
      fun x hx => ?_
    · refine this.congr ?_
      filter_upwards [hg'] with x hx
      rw [← hx]
      ring
    · have h1 := hF.deriv_le θ₀ hθI x hx
      rw [← mul_assoc]
      exact h1.trans (le_mul_of_one_le_right ((abs_nonneg _).trans h1) (one_le_sing R x))
  have hmv : ∃ a > 0, ∀ᶠ x in 𝓝 node, a ≤ |ψ' θ₀ x| := by
    rw [(hF.deriv θ₀ hθI node hnode.good).deriv] at hmove
    have hcont := (hF.deriv_continuousAt hβ hI hθ₀ (fun τ hτ x hx =>
      (configured_value_smooth (hψ τ) (smooth_place_of_decays (hcI τ hτ) hx)).comp x hs.contDiffAt)
      hnode.good).abs
    refine ⟨|ψ' θ₀ node| / 2, half_pos (abs_pos.mpr hmove), ?_⟩
    filter_upwards [hcont.eventually (isOpen_Ioi.mem_nhds
      (show |ψ' θ₀ node| / 2 < |ψ' θ₀ node| from half_lt_self (abs_pos.mpr hmove)))] with x hx
    exact le_of_lt hx
  have heg := product_second_moment_infinite hw hω hnode eiSoft eeSoft charges hH hmv he' hg'
  have hD : 0 < ndev := Nat.pos_of_ne_zero (by rintro rfl; omega)
  have hn : 0 < nbatch := Nat.pos_of_ne_zero (by rintro rfl; omega)
  choose cl hcl hG using fun x : Fin ndev × Fin nbatch → Pos (∑ s, n s) 3 =>
    clipped_gradient .standard (by simp) nanSafe threshold center (fun d b => walker (x (d, b)))
      hD hn h2 j
  exact ⟨_, hG, gradient_second_moment_infinite ie.1 ig.1 ie2 ig2 heg h2 threshold center _
    fun x => ⟨_, hcl x, rfl⟩⟩

end configured
/-! ### An example: the hydrogen molecule with a node away from the middle -/

/-- As `hydrogenParams`, with the weight `θ` of the second nucleus in the orbital of the first electron. -/
def mixedParams (P : Params 2 2 3) (θ : ℝ) : Params 2 2 3 :=
  { P with orbitals := fun _ _ =>
      ⟨fun _ _ _ => 0, fun _ _ => 1, fun _ _ => 1, fun _ _ _ _ _ => 0,
        fun s _ j => if s = 0 ∧ j = 1 then θ else 1, 0, true, true⟩ }

/-- `exp (-|r - R₁|)` -/
noncomputable def near₁ (r : Fin 3 → ℝ) : ℝ := Real.exp (-Real.sqrt ((r 0 - 1) ^ 2 + r 1 ^ 2 + r 2 ^ 2))

/-- `exp (-|r - R₂|)` -/
noncomputable def near₂ (r : Fin 3 → ℝ) : ℝ := Real.exp (-Real.sqrt ((r 0 + 1) ^ 2 + r 1 ^ 2 + r 2 ^ 2))

/-- `(exp (-|r₁ - R₁|) + θ exp (-|r₁ - R₂|)) (exp (-|r₂ - R₁|) + exp (-|r₂ - R₂|))` -/
noncomputable def mixedWave (θ : ℝ) (y : Pos (∑ _ : Fin 2, 1) 3) : ℝ :=
  (near₁ (y electron₁) + θ * near₂ (y electron₁)) * (near₁ (y electron₂) + near₂ (y electron₂))

theorem mixed_model (P : Params 2 2 3) :
    ∃ m : Model 2, getModelFromConfig {} (counts fun _ : Fin 2 => 1) protons (fun _ => 1) 32 = .ok m ∧
      ∃ (nz : ℝ → Stream1 (fun _ : Fin 2 => 1) 3 → Prop) (ψ : ℝ → Stream1 (fun _ : Fin 2 => 1) 3 → ℝ)
        (v : ℝ → Stream1 (fun _ : Fin 2 => 1) 3 → SL),
        (∀ θ q, ModelValue {} (mixedParams P θ) protons (fun _ => 1) q (nz θ q) (ψ θ q)) ∧
        (∀ θ y, ψ θ (splitPositions y) = mixedWave θ y) ∧
        (∀ θ q, m.apply (mixedParams P θ) protons q = .ok (v θ q)) ∧
        ∀ θ y, mixedWave θ y ≠ 0 → v θ (splitPositions y) =
          (.fin (SignType.sign (mixedWave θ y)), .fin (logAbs (mixedWave θ) y)) := by
  let n : Fin 2 → ℕ := fun _ => 1
  obtain ⟨m, hm⟩ := (model_config_accepted_iff {} (counts n) protons (fun _ => 1) 32).mpr
    (by rw [counts_length]; exact default_acceptable "ferminet" (by simp))
  have hcall : ∀ θ (pos : Stream1 n 3), ∃ v, m.apply (mixedParams P θ) protons pos = .ok v :=
    fun θ pos => (configured_model_callable_iff {} _ _ _ m hm ⟨rfl, fun _ => rfl⟩
    (fun _ => Nat.one_pos) (mixedParams P θ) pos).mpr (by
      left
      refine ⟨rfl, .inr (by simp), ?_⟩
      simp [Spec.PairsWithoutTwo])
  choose v hv using hcall
  choose nz ψ hψ hrep using fun θ pos =>
    configured_model_value {} _ _ _ m hm (mixedParams P θ) pos (v θ pos) (hv θ pos)
  have hval : ∀ θ y, ψ θ (splitPositions y) = mixedWave θ y := by
    intro θ y
    rcases model_value_inv (hψ θ (splitPositions y)) with
      ⟨-, N, D, hD, hr⟩ | ⟨h, -⟩ | ⟨h, -⟩ | ⟨h, -⟩ | ⟨h, -⟩
    · rcases fermi_dets_inv hD with ⟨-, _, z, -, hD⟩ | ⟨h, -⟩
      · obtain rfl : N = 1 := congrArg Sigma.fst hD
        obtain rfl := eq_of_heq (Sigma.mk.inj hD).2
        rcases combined_inv hr with ⟨-, h⟩ | ⟨h, -⟩ | ⟨h, -⟩ | ⟨h, -⟩
        · rw [h]
          have e0 : splitPositions y (⟨0, 0⟩ : Σ _ : Fin 2, Fin 1) = y electron₁ := rfl
          have e1 : splitPositions y (⟨1, 0⟩ : Σ _ : Fin 2, Fin 1) = y electron₂ := rfl
          simp [orbitalValue, envelopeValue, mixedParams, Fin.prod_univ_succ, Fin.sum_univ_succ, n,
            protons, mixedWave, near₁, near₂, e0, e1]
          simp only [add_assoc]
        all_goals cases h
      · cases h
    all_goals simp at h
  refine ⟨m, hm, nz, ψ, v, hψ, hval, hv, fun θ y hy => ?_⟩
  rw [← hval] at hy
  have := hrep θ _ (model_value_nonzero (hψ _ _) hy)
  rw [hval] at this
  unfold logAbs
  rcases this with ⟨h, h'⟩ | ⟨h, h'⟩ | ⟨h, -⟩
  · rw [h', _root_.sign_pos h, abs_of_pos h]
    simp
  · rw [h', _root_.sign_neg h, abs_of_neg h]
    simp
  · rw [hval] at hy
    exact absurd h hy

theorem mixed_decays (P : Params 2 2 3) (θ : ℝ) :
    Decays {} (mixedParams P θ) (fun _ => 1) fun _ : Fin 2 => 1 :=
  .inl ⟨.inl rfl, fun _ _ _ _ => one_ne_zero⟩

theorem mixed_path (P : Params 2 2 3) : SmoothPath fun θ => mixedParams P θ :=
  { SmoothPath.const P with
    orbitals := fun _ _ => ⟨fun _ _ _ => contDiff_const, fun _ _ => contDiff_const,
      fun _ _ => contDiff_const, fun _ _ _ _ _ => contDiff_const, fun s _ j => by
        change ContDiff ℝ _ fun θ : ℝ => if s = 0 ∧ j = 1 then θ else 1
        split_ifs
        · exact contDiff_id
        · exact contDiff_const⟩ }

/-- The first electron at (½,0,0), the second at (0,1,0). -/
noncomputable def mixedNode (e : Fin (∑ _ : Fin 2, 1)) (k : Fin 3) : ℝ :=
  if e = electron₁ then (if k = 0 then 1 / 2 else 0) else (if k = 1 then 1 else 0)

/-- The orbital of the second electron at its place. -/
noncomputable def second : ℝ := near₁ (mixedNode electron₂) + near₂ (mixedNode electron₂)

theorem second_pos : 0 < second := by
  unfold second near₁ near₂
  positivity

theorem mixed_along {k : Fin 3} (t : ℝ) : mixedWave (-Real.exp 1) (shift mixedNode electron₁ k t) =
    (near₁ (shift mixedNode electron₁ k t electron₁) -
      Real.exp 1 * near₂ (shift mixedNode electron₁ k t electron₁)) * second := by
  unfold mixedWave second
  rw [show shift mixedNode electron₁ k t electron₂ = mixedNode electron₂ from
    Function.update_of_ne electron_ne.symm _ _]
  ring

theorem mixed_along_zero : (fun t => mixedWave (-Real.exp 1) (shift mixedNode electron₁ 0 t)) =ᶠ[𝓝 0]
    fun t => (Real.exp (t - 1 / 2) - Real.exp (-t - 1 / 2)) * second := by
  filter_upwards [Ioo_mem_nhds (show (-1 / 2 : ℝ) < 0 by norm_num) (show (0 : ℝ) < 1 / 2 by norm_num)]
    with t ht
  rw [mixed_along]
  congr 1
  have h1 : Real.sqrt ((1 / 2 + t - 1) ^ 2) = 1 / 2 - t := by
    rw [Real.sqrt_sq_eq_abs, abs_of_neg (by linarith [ht.2])]
    ring
  have h2 : Real.sqrt ((1 / 2 + t + 1) ^ 2) = t + 3 / 2 := by
    rw [Real.sqrt_sq (by linarith [ht.1])]
    ring
  have e0 : shift mixedNode electron₁ 0 t electron₁ 0 = 1 / 2 + t := by simp [shift, mixedNode]
  have e1 : shift mixedNode electron₁ 0 t electron₁ 1 = 0 := by simp [shift, mixedNode]
  have e2 : shift mixedNode electron₁ 0 t electron₁ 2 = 0 := by simp [shift, mixedNode]
  simp only [near₁, near₂, e0, e1, e2]
  norm_num at h1 h2 ⊢
  rw [h1, h2, ← Real.exp_add]
  congr 2 <;> ring

theorem mixed_across {k : Fin 3} (hk : k ≠ 0) (t : ℝ) :
    mixedWave (-Real.exp 1) (shift mixedNode electron₁ k t) =
    (Real.exp (-Real.sqrt ((1 / 2) ^ 2 + t ^ 2)) - Real.exp 1 * Real.exp (-Real.sqrt ((3 / 2) ^ 2 + t ^ 2))) *
      second := by
  rw [mixed_along]
  congr 1
  have e0 : shift mixedNode electron₁ k t electron₁ 0 = 1 / 2 := by simp [shift, mixedNode, hk.symm]
  have e1 : shift mixedNode electron₁ k t electron₁ 1 ^ 2 + shift mixedNode electron₁ k t electron₁ 2 ^ 2 =
      t ^ 2 := by
    fin_cases k
    · exact absurd rfl hk
    · simp [shift, mixedNode]
    · simp [shift, mixedNode]
  simp only [near₁, near₂, e0, add_assoc, e1]
  norm_num

/-- The second derivative of `exp (-√(a² + t²))` at 0. -/
theorem exp_neg_sqrt_deriv {a : ℝ} (ha : 0 < a) :
    ∃ p : ℝ → ℝ, (∀ t, HasDerivAt (fun t => Real.exp (-Real.sqrt (a ^ 2 + t ^ 2))) (p t) t) ∧
      HasDerivAt p (-(Real.exp (-a) / a)) 0 := by
  have hs : ∀ t : ℝ, HasDerivAt (fun t => Real.sqrt (a ^ 2 + t ^ 2)) (t / Real.sqrt (a ^ 2 + t ^ 2)) t :=
    fun t => by
      have h1 : HasDerivAt (fun t : ℝ => a ^ 2 + t ^ 2) (2 * t) t := by
        simpa using (hasDerivAt_pow 2 t).const_add (a ^ 2)
      have h2 := h1.sqrt (by positivity)
      refine h2.congr_deriv ?_
      have : Real.sqrt (a ^ 2 + t ^ 2) ≠ 0 := by positivity
      field_simp
  refine ⟨fun t => t * (Real.exp (-Real.sqrt (a ^ 2 + t ^ 2)) * (-1 / Real.sqrt (a ^ 2 + t ^ 2))),
    fun t => ?_, ?_⟩
  · refine (hs t).neg.exp.congr_deriv ?_
    rw [Pi.neg_apply]
    ring
  · have h1 : DifferentiableAt ℝ (fun t => Real.exp (-Real.sqrt (a ^ 2 + t ^ 2)) *
        (-1 / Real.sqrt (a ^ 2 + t ^ 2))) 0 := by
      refine ((hs 0).neg.exp.differentiableAt).mul ((differentiableAt_const _).div
        (hs 0).differentiableAt ?_)
      positivity
    refine ((hasDerivAt_id (0 : ℝ)).mul h1.hasDerivAt).congr_deriv ?_
    have : Real.sqrt (a ^ 2) = a := Real.sqrt_sq ha.le
    simp [this]
    ring

theorem mixed_partial2 (k : Fin 3) : partial2 (mixedWave (-Real.exp 1)) electron₁ k mixedNode =
    if k = 0 then 0 else -(4 / 3) * Real.exp (-(1 / 2)) * second := by
  unfold partial2
  split_ifs with hk
  · rw [hk, mixed_along_zero.deriv.deriv_eq]
    have h1 : deriv (fun t => (Real.exp (t - 1 / 2) - Real.exp (-t - 1 / 2)) * second) =
        fun t => (Real.exp (t - 1 / 2) + Real.exp (-t - 1 / 2)) * second := funext fun t => by
      refine HasDerivAt.deriv ?_
      refine (((((hasDerivAt_id t).sub_const (1 / 2)).exp).sub
        (((hasDerivAt_id t).neg.sub_const (1 / 2)).exp)).mul_const second).congr_deriv ?_
      simp
    rw [h1]
    have h2 := (((((hasDerivAt_id (0 : ℝ)).sub_const (1 / 2)).exp).add
        (((hasDerivAt_id (0 : ℝ)).neg.sub_const (1 / 2)).exp)).mul_const second).deriv
    refine h2.trans ?_
    simp
  · rw [funext (mixed_across hk)]
    obtain ⟨p, hp, hp0⟩ := exp_neg_sqrt_deriv (show (0 : ℝ) < 1 / 2 by norm_num)
    obtain ⟨r, hr, hr0⟩ := exp_neg_sqrt_deriv (show (0 : ℝ) < 3 / 2 by norm_num)
    have h1 := funext fun t => (((hp t).sub ((hr t).const_mul (Real.exp 1))).mul_const second).deriv
    have h2 := ((hp0.sub (hr0.const_mul (Real.exp 1))).mul_const second).deriv
    refine (congrArg (fun g => deriv g 0) h1).trans (h2.trans ?_)
    have h3 : Real.exp 1 * Real.exp (-(3 / 2)) = Real.exp (-(1 / 2)) := by
      rw [← Real.exp_add]
      norm_num
    rw [← h3]
    ring_nf

theorem mixed_node : RegularNode protons (mixedWave (-Real.exp 1)) mixedNode := by
  refine ⟨⟨fun i j hij h => ?_, fun i j h => ?_⟩, ?_, electron₁, 0, ?_⟩
  · have := congrFun h 1
    rcases electron_cases i with rfl | rfl <;> rcases electron_cases j with rfl | rfl <;>
      simp [mixedNode, electron_ne.symm] at this hij
  · have h0 := congrFun h 0
    rcases electron_cases i with rfl | rfl <;> fin_cases j <;>
      simp [mixedNode, protons, electron_ne.symm] at h0 <;> norm_num at h0
  · have := mixed_across (k := 1) (by simp) 0
    rw [shift_zero] at this
    rw [this]
    have h3 : Real.exp 1 * Real.exp (-(3 / 2)) = Real.exp (-(1 / 2)) := by
      rw [← Real.exp_add]
      norm_num
    have h4 : Real.sqrt ((1 / 2) ^ 2 + 0 ^ 2) = 1 / 2 := by
      rw [zero_pow two_ne_zero, add_zero, Real.sqrt_sq (by norm_num)]
    have h5 : Real.sqrt ((3 / 2) ^ 2 + 0 ^ 2) = 3 / 2 := by
      rw [zero_pow two_ne_zero, add_zero, Real.sqrt_sq (by norm_num)]
    rw [h4, h5, h3, sub_self, zero_mul]
  · rw [partial1, mixed_along_zero.deriv_eq]
    have h1 := (((((hasDerivAt_id (0 : ℝ)).sub_const (1 / 2)).exp).sub
        (((hasDerivAt_id (0 : ℝ)).neg.sub_const (1 / 2)).exp)).mul_const second).deriv
    refine ne_of_eq_of_ne h1 ?_
    have := second_pos
    simpa using this.ne'

theorem mixed_hamiltonian (eiSoft eeSoft : ℝ) (Z : Fin 2 → ℝ) :
    hamiltonian (mixedWave (-Real.exp 1)) (coulomb eiSoft eeSoft protons Z) mixedNode ≠ 0 := by
  unfold hamiltonian
  rw [mixed_node.zero, mul_zero, add_zero, Finset.sum_eq_single electron₁]
  · have h1 := second_pos
    have h2 := Real.exp_pos (-(1 / 2))
    simp only [mixed_partial2, Fin.sum_univ_three]
    simp only [if_true, show (1 : Fin 3) ≠ 0 by decide, show (2 : Fin 3) ≠ 0 by decide, if_false]
    have := mul_pos h2 h1
    nlinarith
  · intro i _ hi
    obtain rfl := (electron_cases i).resolve_left hi
    refine Finset.sum_eq_zero fun k _ => ?_
    unfold partial2
    have h : (fun t => mixedWave (-Real.exp 1) (shift mixedNode electron₂ k t)) = fun _ => 0 :=
      funext fun t => by
        have h0 : near₁ (mixedNode electron₁) + -Real.exp 1 * near₂ (mixedNode electron₁) = 0 := by
          have := mixed_node.zero
          unfold mixedWave at this
          exact (mul_eq_zero.mp this).resolve_right second_pos.ne'
        unfold mixedWave
        rw [show shift mixedNode electron₂ k t electron₁ = mixedNode electron₁ from
          Function.update_of_ne electron_ne _ _, h0, zero_mul]
    rw [h]
    simp
  · simp

theorem mixed_moves : deriv (fun θ => mixedWave θ mixedNode) (-Real.exp 1) ≠ 0 := by
  have hd : deriv (fun θ => mixedWave θ mixedNode) (-Real.exp 1) = near₂ (mixedNode electron₁) *
      (near₁ (mixedNode electron₂) + near₂ (mixedNode electron₂)) := by
    have := (((hasDerivAt_id (-Real.exp 1)).mul_const (near₂ (mixedNode electron₁))).const_add
      (near₁ (mixedNode electron₁))).mul_const
        (near₁ (mixedNode electron₂) + near₂ (mixedNode electron₂))
    refine this.deriv.trans ?_
    rw [one_mul]
  rw [hd]
  unfold near₁ near₂
  positivity

theorem mixed_ne_zero : mixedWave (-Real.exp 1) (fun e _ => (e.val + 2 : ℝ)) ≠ 0 := by
  have h1 : (4 : ℝ) < Real.sqrt 17 := Real.lt_sqrt_of_sq_lt (by norm_num)
  unfold mixedWave
  refine mul_ne_zero ?_ (by unfold near₁ near₂; positivity)
  have h3 : ((electron₁.val : ℕ) : ℝ) = 0 := by
    simp [electron₁]
  simp only [near₁, near₂, h3]
  have e1 : Real.sqrt (((0 : ℝ) + 2 - 1) ^ 2 + (0 + 2) ^ 2 + (0 + 2) ^ 2) = 3 := by
    rw [show ((0 : ℝ) + 2 - 1) ^ 2 + (0 + 2) ^ 2 + (0 + 2) ^ 2 = 3 ^ 2 by norm_num,
      Real.sqrt_sq (by norm_num)]
  have e2 : ((0 : ℝ) + 2 + 1) ^ 2 + (0 + 2) ^ 2 + (0 + 2) ^ 2 = 17 := by norm_num
  rw [e1, e2]
  have h2 : Real.exp (1 + -Real.sqrt 17) < Real.exp (-3) := Real.exp_lt_exp.mpr (by linarith)
  rw [Real.exp_add] at h2
  refine ne_of_gt ?_
  linarith

/-- The default FermiNet for a hydrogen molecule, with the weight of a nucleus in an orbital as
parameter and 2000 walkers on four devices: with the default clipping, the square of the gradient has no finite
mean. -/
example (P : Params 2 2 3) (permutation : Unit → Equiv.Perm (Fin (∑ _ : Fin 2, 1))) :
    ∃ m : Model 2, getModelFromConfig {} (counts fun _ : Fin 2 => 1) protons (fun _ => 1) 32 = .ok m ∧
      ∃ v : ℝ → (Stream1 (fun _ : Fin 2 => 1) 3) → SL,
        (∀ θ q, m.apply (mixedParams P θ) protons q = .ok (v θ q)) ∧
        (∀ θ y, mixedWave θ y ≠ 0 → v θ (splitPositions y) =
          (.fin (SignType.sign (mixedWave θ y)), .fin (logAbs (mixedWave θ) y))) ∧
        ∃ f : ℝ → Pos (∑ _ : Fin 2, 1) 3 → ℝ,
          (∀ θ y, mixedWave θ y ≠ 0 → f θ y = logAbs (mixedWave θ) y) ∧
        ∃ E, assembleMolLocalEnergy permutation "standard" [] 1 [] protons (fun _ => 1) 0 0
            (f (-Real.exp 1)) = some E ∧
        ∃ walker : Pos (∑ _ : Fin 2, 1) 3 → RealWalker Unit,
          (∀ᵐ x, E x () = .fin (walker x).eloc) ∧
          (∀ᵐ x, HasDerivAt (fun θ => f θ x) ((walker x).gradLogPsi ()) (-Real.exp 1)) ∧
          ∃ G : (Fin 4 × Fin 500 → Pos (∑ _ : Fin 2, 1) 3) → ℝ,
            (∀ x, meanGrad (valueAndGrad .standard (4 * 500) (getClippingFn 5 .mean) true
              (List.ofFn fun d => List.ofFn fun b => (walker (x (d, b))).toX)).2.2 () = .fin (G x)) ∧
            ¬Integrable (fun x => G x ^ 2)
              (Measure.pi fun _ => born volume (mixedWave (-Real.exp 1))) := by
  obtain ⟨m, hm, nz, ψ, v, hψ, hval, hv, hrep⟩ := mixed_model P
  have hfun : ∀ θ, (fun y => ψ θ (splitPositions y)) = mixedWave θ := fun θ => funext (hval θ)
  have hex : ∀ θ (y : Pos (∑ _ : Fin 2, 1) 3), ∃ a, (v θ (splitPositions y)).2.isFin →
      (v θ (splitPositions y)).2 = .fin a := fun θ y => by
    cases (v θ (splitPositions y)).2 <;> simp [XR.isFin]
  choose f hf using hex
  refine ⟨m, hm, v, hv, hrep, f, fun θ y hy => ?_, ?_⟩
  · have := hf θ y (by rw [hrep θ y hy]; exact trivial)
    rw [hrep θ y hy] at this
    exact (XR.fin_inj.mp this).symm
  obtain ⟨E, hE, hfin, hdiff, hG⟩ := configured_gradient_variance_infinite (by simp) 32 m hm
    (mixed_path P) v hv hψ f hf (θ₀ := -Real.exp 1) (.of_forall fun θ => mixed_decays P θ)
    hydrogen_good (by rw [hval]; exact mixed_ne_zero) protons_distinct 0 0
    (by rw [hfun]; exact mixed_node) (by rw [hfun]; exact mixed_hamiltonian 0 0 _)
    (by simp only [hval]; exact mixed_moves) permutation [] [] 1
  classical
  let walker : Pos (∑ _ : Fin 2, 1) 3 → RealWalker Unit := fun x =>
    ⟨if h : ∃ e, ∀ key, E x key = .fin e then h.choose else 0, 0,
      fun _ => deriv (fun θ => f θ x) (-Real.exp 1), fun _ => 0⟩
  have h1 : ∀ᵐ x, E x () = .fin (walker x).eloc := hfin.mono fun x hx => by
    simp only [walker, dif_pos hx]
    exact hx.choose_spec ()
  have h2 : ∀ᵐ x, HasDerivAt (fun θ => f θ x) ((walker x).gradLogPsi ()) (-Real.exp 1) :=
    hdiff.mono fun x hx => hx.hasDerivAt
  obtain ⟨G, g1, g2⟩ := hG () walker (h1.mono fun x hx => ⟨(), hx⟩) h2 4 500 (by norm_num) 5 .mean true
  refine ⟨E, hE, walker, h1, h2, G, g1, ?_⟩
  rwa [hfun] at g2

end Verif.Props
