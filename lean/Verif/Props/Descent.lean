import Verif.Props.Sampling
import Verif.Props.CGLimit
import Verif.Props.Optimizers
import Verif.Props.Spring
import Verif.Props.JointEnergy

/-!
C102: with enough walkers, a step of training which is short enough lowers the energy of a configured
wave function.
-/

namespace Verif.Props
open Verif.Construct Verif.Net Verif.Spec Verif.Slog Verif.Decay Verif.Phys Verif.Ibp MeasureTheory
open Filter Topology Verif.Energy Verif.Updates ProbabilityTheory

/-! ### Directions of descent -/

/-- Short enough steps along `-x` lower `E`. -/
def Lowers {K : Type*} (E : (K → ℝ) → ℝ) (θ x : K → ℝ) : Prop :=
  ∃ t₀ > 0, ∀ t, 0 < t → t < t₀ → E (fun k => θ k - t * x k) < E θ

theorem lowers_of_inner {K : Type*} [Fintype K] {E : (K → ℝ) → ℝ} {θ g x : K → ℝ}
    (hE : ∀ v, HasDerivAt (fun t : ℝ => E (θ + t • v)) (g ⬝ᵥ v) 0) (h : 0 < g ⬝ᵥ x) :
    Lowers E θ x := by
  have h1 := hE (-x)
  rw [dotProduct_neg] at h1
  have h2 := h1.tendsto_slope_zero_right
  simp only [zero_add, zero_smul, add_zero, smul_eq_mul] at h2
  obtain ⟨t₀, ht₀, hsub⟩ := mem_nhdsGT_iff_exists_Ioo_subset.1
    (h2.eventually_lt_const (neg_neg_of_pos h))
  refine ⟨t₀, ht₀, fun t h0 h1 => ?_⟩
  have h3 := hsub ⟨h0, h1⟩
  simp only [Set.mem_ofPred_eq] at h3
  have h4 := mul_neg_of_pos_of_neg h0 h3
  rw [mul_inv_cancel_left₀ h0.ne'] at h4
  have e : (fun k => θ k - t * x k) = θ + t • -x := by
    funext k
    simp [sub_eq_add_neg]
  rw [e]
  linarith

theorem Lowers.smul {K : Type*} {E : (K → ℝ) → ℝ} {θ x : K → ℝ} (h : Lowers E θ x) {a : ℝ}
    (ha : 0 < a) : Lowers E θ fun k => a * x k := by
  obtain ⟨t₀, ht₀, h⟩ := h
  refine ⟨t₀ / a, by positivity, fun t h0 h1 => ?_⟩
  have := h (t * a) (by positivity) ((lt_div_iff₀ ha).1 h1)
  simpa only [mul_assoc] using this

/-! ### The gradient of the energy -/

section family

variable {N m d : ℕ} {R : Fin m → Fin d → ℝ} {I : Set ℝ} {ψ ψ' : ℝ → Pos N d → ℝ} {β C : ℝ}

/-- Derivatives of the logarithm have finite second moments. -/
theorem Family.score_sq (hd : 2 ≤ d) (hβ : 0 < β) (h : Family R I ψ ψ' β C) {θ : ℝ} (hθ : I ∈ 𝓝 θ)
    {g : Pos N d → ℝ} (hg : ∀ᵐ x, ψ θ x * g x = ψ' θ x) :
    FiniteExpect (ψ θ) fun x => g x ^ 2 := by
  have hθI := mem_of_mem_nhds hθ
  have hm' := h.deriv_measurable hd hθ
  rw [finiteExpect_iff (h.wave θ hθI)]
  have i2 : Integrable fun x => ψ' θ x * ψ' θ x :=
    integrable_of_le (R := R) (M := C) hd hβ hm' hm' (h.deriv_le θ hθI) fun x hx => by
      have h1 := h.deriv_le θ hθI x hx
      have h2 := one_le_sing R x
      have h3 := Real.exp_pos (-(β * ∑ e, ‖x e‖))
      have h4 : 0 ≤ C := by
        by_contra hC
        nlinarith [abs_nonneg (ψ' θ x), mul_neg_of_neg_of_pos (not_le.1 hC) h3]
      calc |ψ' θ x| ≤ C * (Real.exp (-(β * ∑ e, ‖x e‖)) * 1) := by rwa [mul_one]
        _ ≤ _ := by gcongr
  refine i2.congr ?_
  filter_upwards [hg] with x hx
  rw [← hx]
  ring

end family

section configured

variable {S nion d : ℕ} {n : Fin (S + 1) → ℕ} {R : Fin nion → Fin d → ℝ} {c : ModelCfg}
  {charges : Fin nion → ℝ} {K : Type} [Fintype K] [DecidableEq K] {P : (K → ℝ) → Params (S + 1) nion d}
  {nonzero : (K → ℝ) → Stream1 n d → Prop} {ψ : (K → ℝ) → Stream1 n d → ℝ}

/-- The linear form with the given coefficients. -/
noncomputable def form (g : K → ℝ) : (K → ℝ) →L[ℝ] ℝ := ∑ k, g k • ContinuousLinearMap.proj k

theorem form_apply (g v : K → ℝ) : form g v = g ⬝ᵥ v := by
  simp [form, dotProduct]

/-- The energy of the wave function with parameters `θ`. -/
noncomputable def energyAt (ψ : (K → ℝ) → Stream1 n d → ℝ) (V : Pos (∑ s, n s) d → ℝ)
    (θ : K → ℝ) : ℝ := rayleigh (fun y => ψ θ (splitPositions y)) V

/-- Local energies and derivatives of the logarithms of a configured model: their means exist, and
twice the covariances are the gradient of the energy. -/
theorem configured_energy_gradient (hd : 2 ≤ d) (hn : 0 < ∑ s, n s) (dtype : ℕ) (m : Model nion)
    (hm : getModelFromConfig c (counts n) R charges dtype = .ok m) {θ₀ : K → ℝ}
    (hP : Entries (ContDiff ℝ 1) P)
    (v : (K → ℝ) → Stream1 n d → SL) (hv : ∀ θ q, m.apply (P θ) R q = .ok (v θ q))
    (hψ : ∀ θ q, ModelValue c (P θ) R charges q (nonzero θ q) (ψ θ q))
    (f : (K → ℝ) → Pos (∑ s, n s) d → ℝ)
    (hf : ∀ θ y, (v θ (splitPositions y)).2.isFin → (v θ (splitPositions y)).2 = .fin (f θ y))
    (hc : ∀ᶠ θ in 𝓝 θ₀, Decays c (P θ) charges n) {q : Pos (∑ s, n s) d} (hq : Good R q)
    (h0 : ψ θ₀ (splitPositions q) ≠ 0) (hR : Distinct R) {κ : Type}
    (permutation : κ → Equiv.Perm (Fin (∑ s, n s))) (ibpParts sampleParts : List String) (b : ℕ)
    (eiSoft eeSoft : ℝ) :
    ∃ E, assembleMolLocalEnergy permutation "standard" ibpParts b sampleParts R charges eiSoft eeSoft
        (f θ₀) = some E ∧
      (∀ᵐ x, ∃ e, ∀ key, E x key = .fin e) ∧
      IsProbabilityMeasure (born volume fun y : Pos (∑ s, n s) d => ψ θ₀ (splitPositions y)) ∧
      ∀ (walker : Pos (∑ s, n s) d → RealWalker K),
        (∀ᵐ x, ∃ key, E x key = .fin (walker x).eloc) →
        (∀ᵐ x, ∀ k, HasDerivAt (fun t => f (Function.update θ₀ k t) x) ((walker x).gradLogPsi k)
          (θ₀ k)) →
        let μ := born volume fun y : Pos (∑ s, n s) d => ψ θ₀ (splitPositions y)
        Integrable (fun x => (walker x).eloc) μ ∧
        (∀ k, Integrable (fun x => (walker x).gradLogPsi k) μ) ∧
        (∀ k, Integrable (fun x => (walker x).eloc * (walker x).gradLogPsi k) μ) ∧
        (∀ k l, Integrable (fun x => (walker x).gradLogPsi k * (walker x).gradLogPsi l) μ) ∧
        ∀ w, HasDerivAt (fun t : ℝ => energyAt ψ (coulomb eiSoft eeSoft R charges) (θ₀ + t • w))
          ((fun k => 2 * ((∫ x, (walker x).eloc * (walker x).gradLogPsi k ∂μ) -
            (∫ x, (walker x).eloc ∂μ) * ∫ x, (walker x).gradLogPsi k ∂μ)) ⬝ᵥ w) 0 := by
  have hline : ∀ w : K → ℝ, Tendsto (fun t : ℝ => θ₀ + t • w) (𝓝 0) (𝓝 θ₀) := fun w => by
    have : Continuous fun t : ℝ => θ₀ + t • w := by fun_prop
    simpa using this.tendsto 0
  have hcp := mem_of_mem_nhds hc
  have hw := (configured_wave_function hd hcp (hψ θ₀) hq h0).1
  have hprob := isProbabilityMeasure_born hw.normalisable (norm_ne_zero hw)
  obtain ⟨E, e, hE, hEe, -⟩ := configured_energy_expectation c charges dtype m hm (P θ₀) (v θ₀)
    (hv θ₀) (nonzero θ₀) (ψ θ₀) (hψ θ₀) (f θ₀) (hf θ₀) hcp hq h0 hd hR permutation ibpParts
    sampleParts b eiSoft eeSoft
  refine ⟨E, hE, hEe.mono fun x hx => ⟨_, hx⟩, hprob, fun walker he hpartial => ?_⟩
  intro μ
  have hg : ∀ᵐ x, HasFDerivAt (fun θ => f θ x) (form (walker x).gradLogPsi) θ₀ := by
    filter_upwards [ae_good (by omega) R, hw.ne_zero, hpartial] with x hx hne h1
    exact Joint.configured_log_gradient c R charges dtype m hm P v hv nonzero ψ hψ f hf θ₀ x hne
      (hP.mono fun _ h => h.contDiffAt) (Joint.decays_smooth hcp (smooth_place_of_decays hcp hx).apart)
      h1
  have hPl : ∀ w : K → ℝ, SmoothPath fun t : ℝ => P (θ₀ + t • w) := fun w =>
    hP.comp (fun t : ℝ => θ₀ + t • w) fun _ h => h.comp (by fun_prop)
  have h00 : ∀ w : K → ℝ, θ₀ + (0 : ℝ) • w = θ₀ := fun w => by simp
  -- along every line
  have key : ∀ w : K → ℝ,
      Integrable (fun x => (walker x).eloc) μ ∧
      Integrable (fun x => (walker x).gradLogPsi ⬝ᵥ w) μ ∧
      Integrable (fun x => (walker x).eloc * (walker x).gradLogPsi ⬝ᵥ w) μ ∧
      Integrable (fun x => ((walker x).gradLogPsi ⬝ᵥ w) ^ 2) μ ∧
      HasDerivAt (fun t : ℝ => energyAt ψ (coulomb eiSoft eeSoft R charges) (θ₀ + t • w))
        (2 * ((∫ x, (walker x).eloc * (walker x).gradLogPsi ⬝ᵥ w ∂μ) -
          (∫ x, (walker x).eloc ∂μ) * ∫ x, (walker x).gradLogPsi ⬝ᵥ w ∂μ)) 0 := by
    intro w
    obtain ⟨I, hI, hI0, hcI, ψ', β, C, hβ, hF⟩ := configured_family (P := fun t : ℝ => P (θ₀ + t • w))
      (nonzero := fun t => nonzero (θ₀ + t • w)) (ψ := fun t => ψ (θ₀ + t • w)) hd hn (hPl w)
      (fun t q => hψ _ q) (θ₀ := 0) ((hline w).eventually hc) hq (by simpa only [h00] using h0)
    obtain ⟨hlog, hder⟩ := configured_log_family (P := fun t : ℝ => P (θ₀ + t • w))
      (nonzero := fun t => nonzero (θ₀ + t • w)) (ψ := fun t => ψ (θ₀ + t • w)) hd dtype m hm
      (fun t => v (θ₀ + t • w)) (fun t q => hv _ q) (fun t q => hψ _ q) (fun t => f (θ₀ + t • w))
      (fun t y => hf _ y) hI0 hcI hF
    simp only [h00] at hlog hder
    have he' : ∀ᵐ x : Pos (∑ s, n s) d, ψ (θ₀ + (0 : ℝ) • w) (splitPositions x) * (walker x).eloc =
        hamiltonian (fun y => ψ (θ₀ + (0 : ℝ) • w) (splitPositions y))
          (coulomb eiSoft eeSoft R charges) x := by
      simp only [h00]
      filter_upwards [ae_good (by omega) R, hlog, he,
        mul_local_energy hw (coulomb eiSoft eeSoft R charges)] with x hx hl ⟨key, hE₁⟩ hH
      obtain ⟨E', hE', h⟩ := standard_energy_terms permutation ibpParts sampleParts b R charges
        eiSoft eeSoft (f θ₀) x key ⟨.inr hx.2, .inr hx.1, hR⟩
      obtain rfl := Option.some.inj (hE.symm.trans hE')
      rw [h] at hE₁
      have : kineticLaplacian (f θ₀) x =
          kineticLaplacian (logAbs fun y => ψ θ₀ (splitPositions y)) x := by
        unfold kineticLaplacian coordLaplacian
        simp only [partial1_congr hl, partial2_congr hl]
      rw [← hH, ← XR.fin_inj.mp hE₁, this, coulomb]
      ring
    have hg' : ∀ᵐ x : Pos (∑ s, n s) d, ψ (θ₀ + (0 : ℝ) • w) (splitPositions x) *
        (walker x).gradLogPsi ⬝ᵥ w = ψ' 0 x := by
      simp only [h00]
      filter_upwards [hw.ne_zero, hg, hder] with x hne h1 h2
      have hl : HasDerivAt (fun t : ℝ => θ₀ + t • w) w 0 := by
        simpa using ((hasDerivAt_id (0 : ℝ)).smul_const w).const_add θ₀
      have h3 : HasDerivAt (fun t : ℝ => f (θ₀ + t • w) x) (form (walker x).gradLogPsi w) 0 :=
        HasFDerivAt.comp_hasDerivAt (l := fun θ => f θ x) 0 (by simpa only [h00] using h1) hl
      rw [form_apply] at h3
      rw [h3.unique h2, mul_div_cancel₀ _ hne]
    obtain ⟨ie, ig, ieg, hD⟩ := hF.rayleigh_deriv hd hβ hI hI0 eiSoft eeSoft charges he' hg'
    have isq := hF.score_sq hd hβ hI0 hg'
    unfold FiniteExpect at ie ig ieg isq
    unfold expect expectedEnergy at hD
    simp only [h00] at ie ig ieg isq hD
    exact ⟨ie, ig, ieg, isq, hD⟩
  classical
  have hsingle : ∀ (g : K → ℝ) k, g ⬝ᵥ Pi.single k 1 = g k := fun g k => by simp
  have i1 : ∀ k, Integrable (fun x => (walker x).gradLogPsi k) μ := fun k => by
    simpa only [hsingle] using (key (Pi.single k 1)).2.1
  have i2 : ∀ k, Integrable (fun x => (walker x).eloc * (walker x).gradLogPsi k) μ := fun k => by
    simpa only [hsingle] using (key (Pi.single k 1)).2.2.1
  have i3 : ∀ k, MemLp (fun x => (walker x).gradLogPsi k) 2 μ := fun k =>
    (memLp_two_iff_integrable_sq (i1 k).aestronglyMeasurable).2 (by
      simpa only [hsingle] using (key (Pi.single k 1)).2.2.2.1)
  refine ⟨(key 0).1, i1, i2, fun k l => (i3 k).integrable_mul (i3 l), fun w =>
    (key w).2.2.2.2.congr_deriv ?_⟩
  have e1 : ∫ x, (walker x).eloc * (walker x).gradLogPsi ⬝ᵥ w ∂μ =
      ∑ k, (∫ x, (walker x).eloc * (walker x).gradLogPsi k ∂μ) * w k := by
    simp only [dotProduct, Finset.mul_sum, ← mul_assoc]
    rw [integral_finsetSum _ fun k _ => (i2 k).mul_const (w k)]
    simp only [integral_mul_const]
  have e2 : ∫ x, (walker x).gradLogPsi ⬝ᵥ w ∂μ = ∑ k, (∫ x, (walker x).gradLogPsi k ∂μ) * w k := by
    simp only [dotProduct]
    rw [integral_finsetSum _ fun k _ => (i1 k).mul_const (w k)]
    simp only [integral_mul_const]
  rw [e1, e2, dotProduct, Finset.mul_sum, ← Finset.sum_sub_distrib, Finset.mul_sum]
  exact Finset.sum_congr rfl fun k _ => by ring

end configured

/-! ### What is computed from the walkers -/

section sample

variable {K : Type} {D n : ℕ}

/-- The gradient which training computes from the walkers on all devices, without clipping. -/
noncomputable def computedGradient (nanSafe : Bool) (walkers : ℕ → RealWalker K) (D n : ℕ) (k : K) :
    XR :=
  meanGrad (valueAndGrad .standard (D * n) none nanSafe (List.ofFn fun d : Fin D =>
    List.ofFn fun i : Fin n => (onDevices walkers D n d i).toX)).2.2 k

theorem layout_onDevices {α : Type*} (x : ℕ → α) (hD : 0 < D) (hn : 0 < n) :
    IsLayout (List.ofFn fun i : Fin (D * n) => x i)
      (List.ofFn fun d : Fin D => List.ofFn fun i : Fin n => onDevices x D n d i) n where
  flatten := by
    rw [List.ofFn_mul]
    rfl
  ne := by
    intro h
    have := congrArg List.length h
    simp at this
    omega
  pos := hn
  len r hr := by
    obtain ⟨d, rfl⟩ := List.mem_ofFn.1 hr
    simp

theorem computedGradient_eq (nanSafe : Bool) (walkers : ℕ → RealWalker K) (hD : 0 < D)
    (hn : 2 ≤ n) (k : K) :
    computedGradient nanSafe walkers D n k = .fin (covGrad (walkerPairs (fun i => (walkers i).eloc)
      (fun i => (walkers i).gradLogPsi k) fun i : Fin (D * n) => (i : ℕ))) := by
  have hN : 2 ≤ D * n := by nlinarith
  have := gradient_is_covariance_partial .standard (by simp) nanSafe _ _ n
    (layout_onDevices walkers hD (by omega)) (by simpa using hN) k
  rw [List.length_ofFn] at this
  unfold computedGradient
  have e : (List.ofFn fun d : Fin D => List.ofFn fun i : Fin n => (onDevices walkers D n d i).toX) =
      (List.ofFn fun d : Fin D => List.ofFn fun i : Fin n => onDevices walkers D n d i).map
        fun l => l.map RealWalker.toX := by
    rw [List.map_ofFn]
    simp only [Function.comp_def, List.map_ofFn]
  rw [e, this]
  congr 2
  unfold walkerPairs
  rw [List.map_ofFn]
  rfl

/-- The centred local energies which training computes from the walkers, without clipping. -/
noncomputable def computedEnergies (nanSafe : Bool) (walkers : ℕ → RealWalker K) (D n : ℕ) :
    List (List XR) :=
  (valueAndGrad .standard (D * n) none nanSafe (List.ofFn fun d : Fin D =>
    List.ofFn fun i : Fin n => (onDevices walkers D n d i).toX)).2.1.centered

theorem computedEnergies_eq (nanSafe : Bool) (walkers : ℕ → RealWalker K) (hD : 0 < D)
    (hn : 2 ≤ n) : ∃ c : ℝ, computedEnergies nanSafe walkers D n = List.ofFn fun d : Fin D =>
      List.ofFn fun i : Fin n => .fin ((onDevices walkers D n d i).eloc - c) := by
  have hN : 2 ≤ D * n := by nlinarith
  have hst := energy_statistics _ _ n nanSafe
    (layout_onDevices (fun i => (walkers i).eloc) hD (by omega)) (by simpa using hN)
  rw [List.length_ofFn] at hst
  refine ⟨avgL (List.ofFn fun i : Fin (D * n) => (walkers i).eloc), ?_⟩
  have e : ((List.ofFn fun d : Fin D => List.ofFn fun i : Fin n =>
      (onDevices walkers D n d i).toX).map fun l => l.map Walker.eloc) =
      (List.ofFn fun d : Fin D => List.ofFn fun i : Fin n =>
        onDevices (fun i => (walkers i).eloc) D n d i).map fun r => r.map XR.fin := by
    simp only [List.map_ofFn, Function.comp_def]
    rfl
  simp only [computedEnergies, valueAndGrad, getClipped, e, hst]
  simp only [List.map_ofFn, Function.comp_def, XR.fin_sub]
  rfl

end sample

/-! ### First steps of training -/

section first

variable {K : Type} [Fintype K] {D n : ℕ} {Dat Key Aux St : Type}

/-- The average over devices of the gradients which `valGrad` computes is the one from the walkers. -/
def GradientFrom (valGrad : (Fin D → K → ℝ) → (Fin D → Key) → (Fin D → Dat) → Fin D → Aux × (K → ℝ))
    (steps : ℕ → (Fin D → Dat) × (Fin D → Key)) (θ₀ : K → ℝ) (nanSafe : Bool)
    (walkers : ℕ → RealWalker K) (n : ℕ) : Prop :=
  ∀ k, computedGradient nanSafe walkers D n k =
    .fin ((∑ d, (valGrad (fun _ => θ₀) (steps 0).2 (steps 0).1 d).2 k) / D)

/-- The centred energies which `valGrad` returns on the devices are those from the walkers. -/
def EnergiesFrom
    (valGrad : (Fin D → K → ℝ) → (Fin D → Key) → (Fin D → Dat) → Fin D → (Fin n → ℝ) × (K → ℝ))
    (steps : ℕ → (Fin D → Dat) × (Fin D → Key)) (θ₀ : K → ℝ) (nanSafe : Bool)
    (walkers : ℕ → RealWalker K) : Prop :=
  computedEnergies nanSafe walkers D n = List.ofFn fun d : Fin D => List.ofFn fun i : Fin n =>
    .fin ((valGrad (fun _ => θ₀) (steps 0).2 (steps 0).1 d).1 i)

/-- If the first learning rate is small enough, the first update lowers `E`, on every device. -/
def FirstUpdateLowers (E : (K → ℝ) → ℝ) (θ₀ : K → ℝ)
    (valGrad : (Fin D → K → ℝ) → (Fin D → Key) → (Fin D → Dat) → Fin D → Aux × (K → ℝ))
    (steps : ℕ → (Fin D → Dat) × (Fin D → Key))
    (apply : (ℕ → ℝ) → OptimizerApply D K St Dat Aux) (init : St) : Prop :=
  ∃ η₀ > 0, ∀ schedule : ℕ → ℝ, 0 < schedule 0 → schedule 0 < η₀ → ∀ d,
    E ((trajectory valGrad (apply schedule) steps (fun _ => θ₀) (fun _ => init) 1).1 d) < E θ₀

/-- The factor of the first step of SGD. -/
theorem momentum_first {m : ℝ} (hm : 0 ≤ m) (nesterov : Bool) :
    ∃ a : ℝ, 0 < a ∧ ∀ g : ℕ → ℝ, momentumDirection m nesterov g 0 = a * g 0 := by
  cases nesterov with
  | true => exact ⟨1 + m, by positivity, fun g => by
      simp [momentumDirection, discountedSum_zero]; ring⟩
  | false => exact ⟨1, one_pos, fun g => by simp [momentumDirection, discountedSum_zero]⟩

omit [Fintype K] in
theorem sgd_first_lowers {E : (K → ℝ) → ℝ} {θ₀ G : K → ℝ} (h : Lowers E θ₀ G)
    (valGrad : (Fin D → K → ℝ) → (Fin D → Key) → (Fin D → Dat) → Fin D → Aux × (K → ℝ))
    (steps : ℕ → (Fin D → Dat) × (Fin D → Key))
    (hG : ∀ k, G k = (∑ d, (valGrad (fun _ => θ₀) (steps 0).2 (steps 0).1 d).2 k) / D)
    (c : SgdConfig) (hc : 0 ≤ c.momentum) :
    FirstUpdateLowers E θ₀ valGrad steps (fun schedule => plainRuleApply (sgdOptimizer schedule c))
      (sgdOptimizer 0 c).init := by
  obtain ⟨a, ha, hdir⟩ := momentum_first hc c.nesterov
  obtain ⟨t₀, ht₀, hlow⟩ := h.smul ha
  refine ⟨t₀, ht₀, fun schedule h0 h1 d => ?_⟩
  obtain ⟨e1, e2⟩ := plain_steps (Aux := Aux) (sgdOptimizer schedule c) valGrad steps
    (fun _ => θ₀) d
  have hstep := (sgd_unroll schedule c
    (gradientAt valGrad (plainRuleApply (sgdOptimizer schedule c)) steps (fun _ => θ₀) _)
    (fun s => (trajectory valGrad (plainRuleApply (sgdOptimizer schedule c)) steps (fun _ => θ₀) _
      s).1 d) (fun s => (trajectory valGrad (plainRuleApply (sgdOptimizer schedule c)) steps
      (fun _ => θ₀) _ s).2 d) rfl e1 e2 1).2
  have e : (trajectory valGrad (plainRuleApply (sgdOptimizer schedule c)) steps (fun _ => θ₀)
      (fun _ => (sgdOptimizer 0 c).init) 1).1 d = fun k => θ₀ k - schedule 0 * (a * G k) := by
    funext k
    refine (hstep k).trans ?_
    rw [Finset.sum_range_one, hdir, hG]
    rfl
  rw [e]
  exact hlow _ h0 h1

omit [Fintype K] in
theorem adam_first_lowers {E : (K → ℝ) → ℝ} {θ₀ G : K → ℝ} (c : AdamConfig) (h1 : c.b1 ≠ 1)
    (h2 : c.b2 ≠ 1)
    (h : Lowers E θ₀ fun k => G k / (Real.sqrt (G k ^ 2 + c.epsRoot) + c.eps))
    (valGrad : (Fin D → K → ℝ) → (Fin D → Key) → (Fin D → Dat) → Fin D → Aux × (K → ℝ))
    (steps : ℕ → (Fin D → Dat) × (Fin D → Key))
    (hG : ∀ k, G k = (∑ d, (valGrad (fun _ => θ₀) (steps 0).2 (steps 0).1 d).2 k) / D) :
    FirstUpdateLowers E θ₀ valGrad steps (fun schedule => plainRuleApply (adamOptimizer schedule c))
      (adamOptimizer 0 c).init := by
  obtain ⟨t₀, ht₀, hlow⟩ := h
  refine ⟨t₀, ht₀, fun schedule l0 l1 d => ?_⟩
  obtain ⟨e1, e2⟩ := plain_steps (Aux := Aux) (adamOptimizer schedule c) valGrad steps
    (fun _ => θ₀) d
  have hstep := (adam_unroll schedule c h1 h2
    (gradientAt valGrad (plainRuleApply (adamOptimizer schedule c)) steps (fun _ => θ₀) _)
    (fun s => (trajectory valGrad (plainRuleApply (adamOptimizer schedule c)) steps (fun _ => θ₀) _
      s).1 d) (fun s => (trajectory valGrad (plainRuleApply (adamOptimizer schedule c)) steps
      (fun _ => θ₀) _ s).2 d) rfl e1 e2 1).2
  have e : (trajectory valGrad (plainRuleApply (adamOptimizer schedule c)) steps (fun _ => θ₀)
      (fun _ => (adamOptimizer 0 c).init) 1).1 d =
      fun k => θ₀ k - schedule 0 * (G k / (Real.sqrt (G k ^ 2 + c.epsRoot) + c.eps)) := by
    funext k
    refine (hstep k).trans ?_
    rw [Finset.sum_range_one, hG]
    simp only [adamDirection, discountedMean, discountedSum_zero, div_one]
    rfl
  rw [e]
  exact hlow _ l0 l1

theorem sr_first_lowers [DecidableEq K] (hD : 0 < D) (hn : 0 < n) (mode : SRMode) {damping : ℝ}
    (hdamp : 0 < damping) (maxiter : Option ℕ) {nc : ℝ} (hnc : 0 < nc) {E : (K → ℝ) → ℝ}
    {θ₀ G : K → ℝ} (J : Fin D → Fin n → K → ℝ)
    (h : ∀ d, Lowers E θ₀ (preconditionGrad mode damping maxiter J (fun _ => G) d))
    (valGrad : (Fin D → K → ℝ) → (Fin D → Key) → (Fin D → Dat) → Fin D → Aux × (K → ℝ))
    (jac : (K → ℝ) → Dat → Fin n → K → ℝ)
    (steps : ℕ → (Fin D → Dat) × (Fin D → Key))
    (hJ : ∀ d, jac θ₀ ((steps 0).1 d) = J d)
    (hG : ∀ k, G k = (∑ d, (valGrad (fun _ => θ₀) (steps 0).2 (steps 0).1 d).2 k) / D)
    (c : SgdConfig) (hc : 0 ≤ c.momentum) :
    FirstUpdateLowers E θ₀ valGrad steps (fun schedule => srRuleApply mode damping maxiter nc schedule
      (sgdOptimizer schedule c) jac) (sgdOptimizer 0 c).init := by
  obtain ⟨b, hb, hdir⟩ := momentum_first hc c.nesterov
  choose t₀ ht₀ hlow using fun d => (h d).smul hb
  have hne : (Finset.univ : Finset (Fin D)).Nonempty := ⟨⟨0, hD⟩, Finset.mem_univ _⟩
  refine ⟨Finset.univ.inf' hne t₀, (Finset.lt_inf'_iff hne).2 fun d _ => ht₀ d,
    fun schedule h0 h1 d => ?_⟩
  obtain ⟨a, ha, hrec⟩ := sr_steps (Aux := Aux) hD hn mode hdamp maxiter hnc schedule
    (sgdOptimizer schedule c) valGrad jac steps (fun _ => θ₀)
  obtain ⟨a0, a1, -⟩ := ha 0
  set T := trajectory valGrad (srRuleApply mode damping maxiter nc schedule (sgdOptimizer schedule c)
    jac) steps (fun _ => θ₀) fun _ => (sgdOptimizer schedule c).init
  have hstep := (sgd_unroll schedule c (fun s k => a s * preconditionGrad mode damping maxiter
      (fun d => jac ((T s).1 d) ((steps s).1 d)) (fun _ => gradientAt valGrad (srRuleApply mode damping
      maxiter nc schedule (sgdOptimizer schedule c) jac) steps (fun _ => θ₀)
      (fun _ => (sgdOptimizer schedule c).init) s) d k) (fun s => (T s).1 d) (fun s => (T s).2 d) rfl
    (fun s => (hrec s d).1) (fun s => (hrec s d).2) 1).2
  have hpre : preconditionGrad mode damping maxiter (fun d => jac θ₀ ((steps 0).1 d))
      (fun _ k => (∑ d, (valGrad (fun _ => θ₀) (steps 0).2 (steps 0).1 d).2 k) / D) =
      preconditionGrad mode damping maxiter J fun _ => G := by
    rw [funext hJ, ← funext hG]
  have e : (trajectory valGrad (srRuleApply mode damping maxiter nc schedule
      (sgdOptimizer schedule c) jac) steps (fun _ => θ₀)
      (fun _ => (sgdOptimizer 0 c).init) 1).1 d = fun k => θ₀ k - schedule 0 * a 0 *
        (b * preconditionGrad mode damping maxiter J (fun _ => G) d k) := by
    funext k
    refine (hstep k).trans ?_
    rw [Finset.sum_range_one, hdir, ← hpre]
    show θ₀ k - schedule 0 * (b * (a 0 * _)) = _
    have : ∀ x y z : ℝ, x * (b * (y * z)) = x * y * (b * z) := fun x y z => by ring
    rw [this]
    rfl
  rw [e]
  refine hlow d _ (by positivity) ?_
  refine lt_of_le_of_lt ?_ ((Finset.lt_inf'_iff hne).1 h1 d (Finset.mem_univ d))
  exact mul_le_of_le_one_right h0.le a1

end first

section spring

variable {K : Type} [Fintype K] {D n : ℕ} {Dat Key : Type}

/-- The equation which the first direction of SPRING solves on its device. -/
theorem spring_first [DecidableEq K] {damping : ℝ} (hd : 0 < damping) (mu : ℝ) (hn : 0 < n)
    (J : Fin n → K → ℝ) (energies : Fin n → ℝ) (c : ℝ) :
    (dampedFisher damping fun (_ : Fin 1) => J).mulVec
      (springUpdate damping mu 0 J (fun i => energies i - c) fun _ => 0) =
    fun k => (∑ i, energies i * J i k) / n - (∑ i, energies i) / n * ((∑ i, J i k) / n) := by
  funext k
  have h := spring_normal hd mu J (fun i => energies i - c) (fun _ => 0) k
  simp only at h
  set t := springUpdate damping mu 0 J (fun i => energies i - c) fun _ => 0
  have hs : Real.sqrt n * Real.sqrt n = n := Real.mul_self_sqrt (Nat.cast_nonneg n)
  have hn0 : (n : ℝ) ≠ 0 := by positivity
  have hcen : ∑ i, (J i k - (∑ j, J j k) / n) = 0 := by
    rw [Finset.sum_sub_distrib, Finset.sum_const, Finset.card_univ, Fintype.card_fin, nsmul_eq_mul,
      mul_div_cancel₀ _ hn0, sub_self]
  have e1 : ∀ i, springO J i k * ((∑ l, springO J i l * t l) - (energies i - c) / Real.sqrt n) =
      (∑ l, (J i k - (∑ j, J j k) / n) * (J i l - (∑ j, J j l) / n) * t l) / n -
        ((J i k - (∑ j, J j k) / n) * energies i - (J i k - (∑ j, J j k) / n) * c) / n := by
    intro i
    rw [mul_sub, Finset.mul_sum, Finset.sum_div]
    congr 1
    · refine Finset.sum_congr rfl fun l _ => ?_
      rw [springO_eq, springO_eq, ← mul_assoc, div_mul_div_comm, hs]
      ring
    · rw [springO_eq, div_mul_div_comm, hs]
      ring
  simp only [e1] at h
  rw [Finset.sum_sub_distrib, ← Finset.sum_div, ← Finset.sum_div, Finset.sum_sub_distrib,
    ← Finset.sum_mul, hcen, zero_mul, sub_zero, mul_zero, sub_zero] at h
  rw [dampedFisher_mulVec]
  have e2 : ∑ i, (J i k - (∑ j, J j k) / n) * energies i = (∑ i, energies i * J i k) -
      (∑ i, energies i) * ((∑ i, J i k) / n) := by
    rw [Finset.sum_mul, ← Finset.sum_sub_distrib]
    exact Finset.sum_congr rfl fun i _ => by ring
  rw [e2] at h
  have e3 : ∑ l, walkerCov (fun (_ : Fin 1) i => J i k) (fun _ i => J i l) * t l =
      (∑ i, ∑ l, (J i k - (∑ j, J j k) / n) * (J i l - (∑ j, J j l) / n) * t l) / n := by
    rw [Finset.sum_comm, Finset.sum_div]
    refine Finset.sum_congr rfl fun l _ => ?_
    unfold walkerCov Spec.walkerMean
    simp only [Finset.univ_unique, Finset.sum_singleton, one_mul]
    rw [← Finset.sum_mul]
    ring
  rw [e3]
  rw [sub_div] at h
  rw [div_mul_eq_mul_div]
  linarith

/-- The first update of SPRING lowers `E` if its direction does. -/
theorem spring_first_lowers (hD : 0 < D) {damping mu momentum : ℝ} (hmom : momentum < 1)
    {nc : Option ℝ} (hnc : ∀ c, nc = some c → 0 < c) {E : (K → ℝ) → ℝ} {θ₀ : K → ℝ}
    (valGrad : (Fin D → K → ℝ) → (Fin D → Key) → (Fin D → Dat) → Fin D → (Fin n → ℝ) × (K → ℝ))
    (jac : (K → ℝ) → Dat → Fin n → K → ℝ) (steps : ℕ → (Fin D → Dat) × (Fin D → Key))
    (h : ∀ d, Lowers E θ₀ (springUpdate damping mu 0 (jac θ₀ ((steps 0).1 d))
      (valGrad (fun _ => θ₀) (steps 0).2 (steps 0).1 d).1 fun _ => 0)) :
    FirstUpdateLowers E θ₀ valGrad steps
      (fun schedule => springApply damping mu momentum nc schedule jac) ⟨fun _ => 0, 0⟩ := by
  choose t₀ ht₀ hlow using fun d => (h d).smul (sub_pos.2 hmom)
  have hne : (Finset.univ : Finset (Fin D)).Nonempty := ⟨⟨0, hD⟩, Finset.mem_univ _⟩
  refine ⟨Finset.univ.inf' hne t₀, (Finset.lt_inf'_iff hne).2 fun d _ => ht₀ d,
    fun schedule h0 h1 d => ?_⟩
  set φ : Fin D → K → ℝ := fun d => springUpdate damping mu momentum (jac θ₀ ((steps 0).1 d))
    (valGrad (fun _ => θ₀) (steps 0).2 (steps 0).1 d).1 fun _ => 0 with hφ
  have hmove : ∀ k, (trajectory valGrad (springApply damping mu momentum nc schedule jac) steps
      (fun _ => θ₀) (fun _ => ⟨fun _ => 0, 0⟩) 1).1 d k =
      θ₀ k + springMove nc (fun d k => -(schedule 0) * φ d k) d k := fun k =>
    springApply_fst damping mu momentum nc schedule jac
      (fun _ k => pmean fun d => (valGrad (fun _ => θ₀) (steps 0).2 (steps 0).1 d).2 k)
      (fun _ => θ₀) (fun _ => ⟨fun _ => 0, 0⟩) (steps 0).1
      (fun d => (valGrad (fun _ => θ₀) (steps 0).2 (steps 0).1 d).1) d k
  have hφk : ∀ k, φ d k = (1 - momentum) * springUpdate damping mu 0 (jac θ₀ ((steps 0).1 d))
      (valGrad (fun _ => θ₀) (steps 0).2 (steps 0).1 d).1 (fun _ => 0) k := fun k => by
    simp only [hφ, springUpdate]
    ring
  obtain ⟨a, a0, a1, ha⟩ : ∃ a : ℝ, 0 < a ∧ a ≤ 1 ∧ ∀ k,
      springMove nc (fun d k => -(schedule 0) * φ d k) d k = -(schedule 0 * a * φ d k) := by
    cases hc : nc with
    | none => exact ⟨1, one_pos, le_rfl, fun k => by simp [springMove]⟩
    | some c =>
      obtain ⟨a, h0, h1, h2, -⟩ := spring_constraint (fun d k => -(schedule 0) * φ d k) (hnc c hc)
      refine ⟨a, h0, h1, fun k => ?_⟩
      simp only [springMove]
      rw [h2]
      simp only [toReal]
      ring
  have e : (trajectory valGrad (springApply damping mu momentum nc schedule jac) steps
      (fun _ => θ₀) (fun _ => ⟨fun _ => 0, 0⟩) 1).1 d = fun k => θ₀ k - schedule 0 * a *
        ((1 - momentum) * springUpdate damping mu 0 (jac θ₀ ((steps 0).1 d))
          (valGrad (fun _ => θ₀) (steps 0).2 (steps 0).1 d).1 (fun _ => 0) k) := by
    funext k
    rw [hmove, ha, hφk]
    ring
  rw [e]
  refine hlow d _ (by positivity) ?_
  exact lt_of_le_of_lt (mul_le_of_le_one_right h0.le a1)
    ((Finset.lt_inf'_iff hne).1 h1 d (Finset.mem_univ d))

end spring

/-! ### C102 -/

section configured

variable {S nion d : ℕ} {n : Fin (S + 1) → ℕ} {R : Fin nion → Fin d → ℝ} {c : ModelCfg}
  {charges : Fin nion → ℝ} {K : Type} [Fintype K] [DecidableEq K]
  {P : (K → ℝ) → Params (S + 1) nion d}
  {nonzero : (K → ℝ) → Stream1 n d → Prop} {ψ : (K → ℝ) → Stream1 n d → ℝ}

/-- C102: take a configured model whose parameters depend smoothly on finitely many numbers `θ`, near
`θ₀` where it decays, and independent walkers `X 0, X 1, …` distributed as `|ψ|²`. Unless the gradient
of the energy vanishes, with probability one there is a number of walkers from which on the first
update of SGD, of Adam, of stochastic reconfiguration with SGD and of SPRING, computed from the first
`D * N` walkers on `D` devices, lowers the exact energy if the learning rate is small enough; for
stochastic reconfiguration with every iteration limit of the solver and every norm constraint. -/
theorem configured_training_lowers_energy (hd : 2 ≤ d) (hn : 0 < ∑ s, n s) (dtype : ℕ)
    (m : Model nion) (hm : getModelFromConfig c (counts n) R charges dtype = .ok m) {θ₀ : K → ℝ}
    (hP : Entries (ContDiff ℝ 1) P)
    (v : (K → ℝ) → Stream1 n d → SL) (hv : ∀ θ q, m.apply (P θ) R q = .ok (v θ q))
    (hψ : ∀ θ q, ModelValue c (P θ) R charges q (nonzero θ q) (ψ θ q))
    (f : (K → ℝ) → Pos (∑ s, n s) d → ℝ)
    (hf : ∀ θ y, (v θ (splitPositions y)).2.isFin → (v θ (splitPositions y)).2 = .fin (f θ y))
    (hc : ∀ᶠ θ in 𝓝 θ₀, Decays c (P θ) charges n) {q : Pos (∑ s, n s) d} (hq : Good R q)
    (h0 : ψ θ₀ (splitPositions q) ≠ 0) (hR : Distinct R) {κ : Type}
    (permutation : κ → Equiv.Perm (Fin (∑ s, n s))) (ibpParts sampleParts : List String) (b : ℕ)
    (eiSoft eeSoft : ℝ) :
    ∃ E, assembleMolLocalEnergy permutation "standard" ibpParts b sampleParts R charges eiSoft eeSoft
        (f θ₀) = some E ∧
      (∀ᵐ x, ∃ e, ∀ key, E x key = .fin e) ∧
      IsProbabilityMeasure (born volume fun y : Pos (∑ s, n s) d => ψ θ₀ (splitPositions y)) ∧
      ∀ (walker : Pos (∑ s, n s) d → RealWalker K),
        (∀ᵐ x, ∃ key, E x key = .fin (walker x).eloc) →
        (∀ᵐ x, ∀ k, HasDerivAt (fun t => f (Function.update θ₀ k t) x) ((walker x).gradLogPsi k)
          (θ₀ k)) →
        ∃ g : K → ℝ,
          (∀ w, HasDerivAt (fun t : ℝ =>
            energyAt ψ (coulomb eiSoft eeSoft R charges) (θ₀ + t • w)) (g ⬝ᵥ w) 0) ∧
          (g ≠ 0 → ∀ {Ω : Type} [MeasurableSpace Ω] (Pr : Measure Ω)
            (X : ℕ → Ω → Pos (∑ s, n s) d),
            IndependentWalkers Pr X (born volume fun y => ψ θ₀ (splitPositions y)) →
            ∀ (D : ℕ), 0 < D → ∀ nanSafe : Bool,
            -- SGD
            (∀ᵐ ω ∂Pr, ∀ᶠ N in atTop, ∀ {Dat Key Aux : Type}
              (valGrad : (Fin D → K → ℝ) → (Fin D → Key) → (Fin D → Dat) → Fin D → Aux × (K → ℝ))
              (steps : ℕ → (Fin D → Dat) × (Fin D → Key)),
              GradientFrom valGrad steps θ₀ nanSafe (fun i => walker (X i ω)) N →
              ∀ sgd : SgdConfig, 0 ≤ sgd.momentum →
              FirstUpdateLowers (energyAt ψ (coulomb eiSoft eeSoft R charges)) θ₀ valGrad steps
                (fun schedule => plainRuleApply (sgdOptimizer schedule sgd))
                (sgdOptimizer 0 sgd).init) ∧
            -- Adam
            (∀ adam : AdamConfig, adam.b1 ≠ 1 → adam.b2 ≠ 1 → 0 < adam.eps → 0 ≤ adam.epsRoot →
              ∀ᵐ ω ∂Pr, ∀ᶠ N in atTop, ∀ {Dat Key Aux : Type}
              (valGrad : (Fin D → K → ℝ) → (Fin D → Key) → (Fin D → Dat) → Fin D → Aux × (K → ℝ))
              (steps : ℕ → (Fin D → Dat) × (Fin D → Key)),
              GradientFrom valGrad steps θ₀ nanSafe (fun i => walker (X i ω)) N →
              FirstUpdateLowers (energyAt ψ (coulomb eiSoft eeSoft R charges)) θ₀ valGrad steps
                (fun schedule => plainRuleApply (adamOptimizer schedule adam))
                (adamOptimizer 0 adam).init) ∧
            -- stochastic reconfiguration
            (∀ (damping : ℝ), 0 < damping → ∀ maxiter : Option ℕ,
              ∀ᵐ ω ∂Pr, ∀ᶠ N in atTop, ∀ {Dat Key Aux : Type}
              (valGrad : (Fin D → K → ℝ) → (Fin D → Key) → (Fin D → Dat) → Fin D → Aux × (K → ℝ))
              (jac : (K → ℝ) → Dat → Fin N → K → ℝ)
              (steps : ℕ → (Fin D → Dat) × (Fin D → Key)),
              GradientFrom valGrad steps θ₀ nanSafe (fun i => walker (X i ω)) N →
              (∀ d i k, jac θ₀ ((steps 0).1 d) i k =
                (onDevices (fun i => walker (X i ω)) D N d i).gradLogPsi k) →
              ∀ (mode : SRMode) (nc : ℝ), 0 < nc → ∀ sgd : SgdConfig, 0 ≤ sgd.momentum →
              FirstUpdateLowers (energyAt ψ (coulomb eiSoft eeSoft R charges)) θ₀ valGrad steps
                (fun schedule => srRuleApply mode damping maxiter nc schedule
                  (sgdOptimizer schedule sgd) jac)
                (sgdOptimizer 0 sgd).init) ∧
            -- SPRING
            (∀ (damping mu momentum : ℝ), 0 < damping → momentum < 1 →
              ∀ᵐ ω ∂Pr, ∀ᶠ N in atTop, ∀ {Dat Key : Type}
              (valGrad : (Fin D → K → ℝ) → (Fin D → Key) → (Fin D → Dat) → Fin D →
                (Fin N → ℝ) × (K → ℝ))
              (jac : (K → ℝ) → Dat → Fin N → K → ℝ)
              (steps : ℕ → (Fin D → Dat) × (Fin D → Key)),
              EnergiesFrom valGrad steps θ₀ nanSafe (fun i => walker (X i ω)) →
              (∀ d i k, jac θ₀ ((steps 0).1 d) i k =
                (onDevices (fun i => walker (X i ω)) D N d i).gradLogPsi k) →
              ∀ nc : Option ℝ, (∀ b, nc = some b → 0 < b) →
              FirstUpdateLowers (energyAt ψ (coulomb eiSoft eeSoft R charges)) θ₀ valGrad steps
                (fun schedule => springApply damping mu momentum nc schedule jac)
                ⟨fun _ => 0, 0⟩)) := by
  obtain ⟨E, hE, hfin, hprob, hall⟩ := configured_energy_gradient hd hn dtype m hm hP v hv hψ f hf hc
    hq h0 hR permutation ibpParts sampleParts b eiSoft eeSoft
  refine ⟨E, hE, hfin, hprob, fun walker he hg => ?_⟩
  obtain ⟨ie, ig, ieg, igg, hder⟩ := hall walker he hg
  set μ := born volume fun y : Pos (∑ s, n s) d => ψ θ₀ (splitPositions y)
  set g : K → ℝ := fun k => 2 * ((∫ x, (walker x).eloc * (walker x).gradLogPsi k ∂μ) -
    (∫ x, (walker x).eloc ∂μ) * ∫ x, (walker x).gradLogPsi k ∂μ) with hgdef
  refine ⟨g, hder, fun hg0 {Ω} _ Pr X hX D hD nanSafe => ?_⟩
  -- the computed gradient
  let G : Ω → ℕ → K → ℝ := fun ω N k => covGrad (walkerPairs (fun i => (walker (X i ω)).eloc)
    (fun i => (walker (X i ω)).gradLogPsi k) fun i : Fin (D * N) => (i : ℕ))
  have hGlim : ∀ᵐ ω ∂Pr, ∀ k, Tendsto (fun N => G ω N k) atTop (𝓝 (g k)) :=
    ae_all_iff.2 fun k => by
      filter_upwards [covGrad_tendsto hX ie (ig k) (ieg k)] with ω hω
      exact hω.comp (tendsto_mul_atTop hD)
  have hcomp : ∀ ω N, 2 ≤ N → ∀ {Dat Key Aux : Type}
      (valGrad : (Fin D → K → ℝ) → (Fin D → Key) → (Fin D → Dat) → Fin D → Aux × (K → ℝ))
      (steps : ℕ → (Fin D → Dat) × (Fin D → Key)),
      GradientFrom valGrad steps θ₀ nanSafe (fun i => walker (X i ω)) N →
      ∀ k, G ω N k = (∑ d, (valGrad (fun _ => θ₀) (steps 0).2 (steps 0).1 d).2 k) / D := by
    intro ω N hN Dat Key Aux valGrad steps h k
    have h1 := h k
    rw [computedGradient_eq nanSafe _ hD hN] at h1
    exact XR.fin_inj.mp h1
  have hgg : 0 < g ⬝ᵥ g :=
    lt_of_le_of_ne (treeInner_self_nonneg g) fun h => hg0 (treeInner_self_eq_zero.1 h.symm)
  refine ⟨?_, fun adam hb1 hb2 heps her => ?_, fun damping hdamp maxiter => ?_,
    fun damping mu momentum hdamp hmom => ?_⟩
  · filter_upwards [hGlim] with ω hω
    have ht := tendsto_treeInner (fun k => tendsto_const_nhds (x := g k) (f := atTop)) hω
    filter_upwards [ht.eventually_const_lt hgg, eventually_ge_atTop 2] with N h1 h2
    intro Dat Key Aux valGrad steps hvg sgd hs
    exact sgd_first_lowers (lowers_of_inner hder h1) valGrad steps (hcomp ω N h2 valGrad steps hvg)
      sgd hs
  · filter_upwards [hGlim] with ω hω
    have hne : ∀ x : ℝ, Real.sqrt (x ^ 2 + adam.epsRoot) + adam.eps ≠ 0 := fun x =>
      (add_pos_of_nonneg_of_pos (Real.sqrt_nonneg _) heps).ne'
    have hlim : ∀ k, Tendsto (fun N => G ω N k / (Real.sqrt (G ω N k ^ 2 + adam.epsRoot) + adam.eps))
        atTop (𝓝 (g k / (Real.sqrt (g k ^ 2 + adam.epsRoot) + adam.eps))) := fun k =>
      (hω k).div ((((hω k).pow 2).add_const _).sqrt.add_const _) (hne _)
    have ht := tendsto_treeInner (fun k => tendsto_const_nhds (x := g k) (f := atTop)) hlim
    have hpos : 0 < treeInner g fun k => g k / (Real.sqrt (g k ^ 2 + adam.epsRoot) + adam.eps) := by
      obtain ⟨k₀, hk₀⟩ := Function.ne_iff.1 hg0
      refine Finset.sum_pos' (fun k _ => ?_) ⟨k₀, Finset.mem_univ _, ?_⟩
      · rw [← mul_div_assoc]
        exact div_nonneg (mul_self_nonneg _)
          (add_pos_of_nonneg_of_pos (Real.sqrt_nonneg _) heps).le
      · rw [← mul_div_assoc]
        exact div_pos (mul_self_pos.2 hk₀) (add_pos_of_nonneg_of_pos (Real.sqrt_nonneg _) heps)
    filter_upwards [ht.eventually_const_lt hpos, eventually_ge_atTop 2] with N h1 h2
    intro Dat Key Aux valGrad steps hvg
    exact adam_first_lowers adam hb1 hb2 (lowers_of_inner hder h1) valGrad steps
      (hcomp ω N h2 valGrad steps hvg)
  · filter_upwards [hGlim, fisher_tendsto hX hD damping (O := fun x => (walker x).gradLogPsi) ig igg]
      with ω hω hF
    have hlow : ∀ N a, damping * treeInner a a ≤ treeInner a ((dampedFisher damping
        (onDevices (fun i => (walker (X i ω)).gradLogPsi) D N)).mulVec a) := fun N a => by
      rw [dampedFisher_quadratic]
      have := walkerMean_nonneg fun (d : Fin D) (i : Fin N) =>
        sq_nonneg (∑ k, (onDevices (fun i => (walker (X i ω)).gradLogPsi) D N d i k -
          Spec.walkerMean fun d i => onDevices (fun i => (walker (X i ω)).gradLogPsi) D N d i k) * a k)
      linarith
    have hcg := cgSeq_limit_descent (A := fun N => dampedFisher damping
      (onDevices (fun i => (walker (X i ω)).gradLogPsi) D N)) (g := fun N => G ω N) (g₀ := g) hdamp
      (fun N k l => dampedFisher_symm damping _ k l) hlow hF hω hg0
      (maxiter.getD (10 * Fintype.card K))
    filter_upwards [hcg, eventually_ge_atTop 2] with N h1 h2
    intro Dat Key Aux valGrad jac steps hvg hjac mode nc hnc sgd hs
    refine sr_first_lowers hD (by omega) mode hdamp maxiter hnc
      (onDevices (fun i => (walker (X i ω)).gradLogPsi) D N) (fun d => ?_) valGrad jac steps
      (fun d => funext fun i => funext fun k => hjac d i k) (hcomp ω N h2 valGrad steps hvg) sgd hs
    obtain ⟨j, hj, e1, e2, -⟩ := precondition_eq (damping := damping) mode maxiter hD
      (show 0 < N by omega) (onDevices (fun i => (walker (X i ω)).gradLogPsi) D N) (G ω N)
    rw [e1]
    exact lowers_of_inner hder (h1 j hj fun i hi => (cgTol_nonneg _).trans_lt (e2 i hi))
  · have a1 := device_average_tendsto hX ie D
    have a2 := ae_all_iff.2 fun k => device_average_tendsto hX (ig k) D
    have a3 := ae_all_iff.2 fun k => device_average_tendsto hX (ieg k) D
    have a4 := ae_all_iff.2 fun k => ae_all_iff.2 fun l => device_average_tendsto hX (igg k l) D
    filter_upwards [a1, a2, a3, a4] with ω t1 t2 t3 t4
    have hdev : ∀ d : Fin D, ∀ᶠ N in atTop, ∀ c : ℝ, 0 < treeInner g
        (springUpdate damping mu 0 (fun i k => (onDevices (fun i => walker (X i ω)) D N d i).gradLogPsi k)
          (fun i => (onDevices (fun i => walker (X i ω)) D N d i).eloc - c) fun _ => 0) := by
      intro d
      set J : (N : ℕ) → Fin N → K → ℝ := fun N i k =>
        (onDevices (fun i => walker (X i ω)) D N d i).gradLogPsi k
      set e : (N : ℕ) → Fin N → ℝ := fun N i => (onDevices (fun i => walker (X i ω)) D N d i).eloc
      have hfst : Tendsto (Prod.fst : ℕ × ℝ → ℕ) (atTop ×ˢ 𝓟 Set.univ) atTop := tendsto_fst
      have hb : ∀ k, Tendsto (fun N : ℕ => (∑ i, e N i * J N i k) / N -
          (∑ i, e N i) / N * ((∑ i, J N i k) / N)) atTop (𝓝 (g k / 2)) := fun k => by
        have e1 : g k / 2 = (∫ x, (walker x).eloc * (walker x).gradLogPsi k ∂μ) -
            (∫ x, (walker x).eloc ∂μ) * ∫ x, (walker x).gradLogPsi k ∂μ := by
          simp only [hgdef]
          ring
        rw [e1]
        exact (t3 k d).sub ((t1 d).mul (t2 k d))
      have hA : ∀ k l, Tendsto (fun N : ℕ => dampedFisher damping (fun _ : Fin 1 => J N) k l) atTop
          (𝓝 ((∫ x, (walker x).gradLogPsi k * (walker x).gradLogPsi l ∂μ) -
            (∫ x, (walker x).gradLogPsi k ∂μ) * (∫ x, (walker x).gradLogPsi l ∂μ) +
            if k = l then damping else 0)) := fun k l => by
        have t := ((t4 k l d).sub ((t2 k d).mul (t2 l d))).add_const (if k = l then damping else 0)
        refine t.congr' ?_
        filter_upwards [eventually_gt_atTop 0] with N hN
        unfold dampedFisher fisher
        rw [walkerCov_smul, walkerCov_of_means one_pos hN]
        unfold Spec.walkerMean
        simp only [Finset.univ_unique, Finset.sum_singleton, one_mul]
        have e4 : ∀ z : ℝ, 1 / 4 * (2 * 2 * z) = z := fun z => by ring
        rw [e4]
        rfl
      have hlow : ∀ (N : ℕ) a, damping * treeInner a a ≤
          treeInner a ((dampedFisher damping fun _ : Fin 1 => J N).mulVec a) := fun N a => by
        rw [dampedFisher_quadratic]
        have := walkerMean_nonneg fun (_ : Fin 1) (i : Fin N) =>
          sq_nonneg (∑ k, (J N i k - Spec.walkerMean fun (_ : Fin 1) i => J N i k) * a k)
        linarith
      have hg2 : (fun k => g k / 2) ≠ 0 := fun h => hg0 (funext fun k => by
        have := congrFun h k
        simp only [Pi.zero_apply] at this ⊢
        linarith)
      have hsolve := solve_limit_descent (l := atTop ×ˢ 𝓟 Set.univ)
        (A := fun p : ℕ × ℝ => dampedFisher damping fun _ : Fin 1 => J p.1)
        (b := fun p k => (∑ i, e p.1 i * J p.1 i k) / p.1 -
          (∑ i, e p.1 i) / p.1 * ((∑ i, J p.1 i k) / p.1)) (b₀ := fun k => g k / 2)
        (x := fun p => springUpdate damping mu 0 (J p.1) (fun i => e p.1 i - p.2) fun _ => 0) hdamp
        (fun p => hlow p.1) (fun k l => (hA k l).comp hfst) (fun k => (hb k).comp hfst) hg2
        ((hfst.eventually_gt_atTop 0).mono fun p hp => spring_first hdamp mu hp (J p.1) (e p.1) p.2)
      rw [eventually_prod_principal_iff] at hsolve
      filter_upwards [hsolve] with N hN c
      have h2 := hN c (Set.mem_univ c)
      have e2 : ∀ x : K → ℝ, treeInner (fun k => g k / 2) x = treeInner g x / 2 := fun x => by
        unfold treeInner
        rw [Finset.sum_div]
        exact Finset.sum_congr rfl fun k _ => by ring
      rw [e2] at h2
      linarith
    filter_upwards [eventually_all.2 hdev, eventually_ge_atTop 2] with N h1 h2
    intro Dat Key valGrad jac steps hen hjac nc hnc
    refine spring_first_lowers hD hmom hnc valGrad jac steps fun d => ?_
    obtain ⟨c, hc⟩ := computedEnergies_eq nanSafe (fun i => walker (X i ω)) hD h2
    unfold EnergiesFrom at hen
    rw [hc] at hen
    have h3 := congrFun (List.ofFn_injective hen) d
    have h4 : (valGrad (fun _ => θ₀) (steps 0).2 (steps 0).1 d).1 =
        fun i => (onDevices (fun i => walker (X i ω)) D N d i).eloc - c := funext fun i =>
      (XR.fin_inj.mp (congrFun (List.ofFn_injective h3) i)).symm
    have h5 : jac θ₀ ((steps 0).1 d) =
        fun i k => (onDevices (fun i => walker (X i ω)) D N d i).gradLogPsi k :=
      funext fun i => funext fun k => hjac d i k
    rw [h4, h5]
    exact lowers_of_inner hder (h1 d c)

end configured

/-! ### An example -/

theorem partial1_scaled {N d : ℕ} (f : Pos N d → ℝ) (a : ℝ) (i : Fin N) (k : Fin d) (x : Pos N d) :
    partial1 (fun y => f (a • y)) i k x = a * partial1 f i k (a • x) := by
  have e : ∀ t, a • shift x i k t = shift (a • x) i k (a * t) := fun t => by
    funext e l
    simp only [Pi.smul_apply, smul_eq_mul, shift_entry]
    ring
  unfold partial1
  simp only [e]
  rw [deriv_comp_mul_left (f := fun t => f (shift (a • x) i k t)), mul_zero, smul_eq_mul]

theorem softDist_scaled {d : ℕ} {a : ℝ} (ha : 0 ≤ a) (x y : Fin d → ℝ) :
    softDist 0 (a • x) (a • y) = a * softDist 0 x y := by
  have e : ((∑ k, ((a • x) k - (a • y) k) ^ 2) + (0 : ℝ) ^ 2) =
      a ^ 2 * ((∑ k, (x k - y k) ^ 2) + 0 ^ 2) := by
    rw [mul_add, Finset.mul_sum]
    simp only [Pi.smul_apply, smul_eq_mul]
    congr 1
    · exact Finset.sum_congr rfl fun k _ => by ring
    · ring
  unfold softDist
  rw [e, Real.sqrt_mul (sq_nonneg a), Real.sqrt_sq ha]

/-- The potential of a helium atom. -/
noncomputable def heliumPotential : Pos (∑ _ : Fin 2, 1) 3 → ℝ :=
  coulomb 0 0 (fun (_ : Fin 1) _ => 0) fun _ => 2

theorem heliumPotential_scaled {a : ℝ} (ha : 0 < a) (x : Pos (∑ _ : Fin 2, 1) 3) :
    heliumPotential x = a * heliumPotential (a • x) := by
  have e0 : (fun _ : Fin 3 => (0 : ℝ)) = a • fun _ : Fin 3 => (0 : ℝ) := by
    funext k
    simp
  have e1 : ∀ i, softDist 0 ((a • x) i) (fun _ => 0) = a * softDist 0 (x i) fun _ => 0 := fun i => by
    conv_lhs => rw [e0]
    exact softDist_scaled ha.le _ _
  have e2 : ∀ i j, softDist 0 ((a • x) i) ((a • x) j) = a * softDist 0 (x i) (x j) := fun i j =>
    softDist_scaled ha.le _ _
  have e3 : coulombII (fun (_ : Fin 1) (_ : Fin 3) => (0 : ℝ)) (fun _ => 2) = 0 := by
    unfold coulombII pairs
    rw [Finset.filter_false_of_mem (fun p _ => by simp [Subsingleton.elim p.1 p.2])]
    rfl
  unfold heliumPotential coulomb
  rw [e3, add_zero, add_zero]
  unfold coulombEI coulombEE
  simp only [e1, e2]
  rw [mul_add, mul_neg, Finset.mul_sum, Finset.mul_sum]
  have h : a ≠ 0 := ha.ne'
  congr 1
  · congr 1
    exact Finset.sum_congr rfl fun p _ => by
      rw [← div_div, div_right_comm]
      field_simp
  · exact Finset.sum_congr rfl fun p _ => by
      rw [← div_div, div_right_comm]
      field_simp

theorem heliumWave_scaled {a : ℝ} (y : Pos (∑ _ : Fin 2, 1) 3) :
    heliumWave a y = heliumWave 1 (a • y) := by
  simp [heliumWave]

theorem heliumWave_deriv (x : Pos (∑ _ : Fin 2, 1) 3) (hx : ∀ e, x e ≠ 0)
    (i : Fin (∑ _ : Fin 2, 1)) (k : Fin 3) :
    partial1 (heliumWave 1) i k x = -(heliumWave 1 x * (x i k / Real.sqrt (∑ l, x i l ^ 2))) := by
  have hpos : ∀ e, (∑ l, x e l ^ 2) ≠ 0 := fun e h => hx e (funext fun l => by
    have := (Finset.sum_eq_zero_iff_of_nonneg (fun l _ => sq_nonneg (x e l))).1 h l (Finset.mem_univ l)
    simpa using this)
  have h1 : ∀ e, HasDerivAt (fun t : ℝ => Real.sqrt (∑ l, (1 * shift x i k t e l) ^ 2))
      (if e = i then x i k / Real.sqrt (∑ l, x i l ^ 2) else 0) 0 := by
    intro e
    have h2 : HasDerivAt (fun t : ℝ => ∑ l, (1 * shift x i k t e l) ^ 2)
        (∑ l, 2 * x e l * if e = i ∧ l = k then 1 else 0) 0 := by
      refine HasDerivAt.fun_sum fun l _ => ?_
      simp only [shift_entry, one_mul]
      have h3 : HasDerivAt (fun t : ℝ => x e l + t * if e = i ∧ l = k then 1 else 0)
          (1 * if e = i ∧ l = k then 1 else 0) 0 :=
        ((hasDerivAt_id (0 : ℝ)).mul_const _).const_add _
      have := h3.fun_pow 2
      simpa using this
    have h4 := h2.sqrt (by simpa [shift_zero] using hpos e)
    refine h4.congr_deriv ?_
    simp only [shift_zero, one_mul]
    split_ifs with h
    · subst h
      simp only [true_and, mul_ite, mul_one, mul_zero, Finset.sum_ite_eq', Finset.mem_univ, if_true]
      rw [mul_div_mul_left _ _ two_ne_zero]
    · simp [h]
  have h5 : HasDerivAt (fun t : ℝ => heliumWave 1 (shift x i k t)) _ 0 :=
    ((HasDerivAt.fun_sum (u := Finset.univ) fun e _ => h1 e).fun_neg.exp).const_mul 6
  refine h5.deriv.trans ?_
  simp only [shift_zero, Finset.sum_ite_eq', Finset.mem_univ, if_true, one_mul, heliumWave]
  ring

theorem helium_kinetic_pos (x : Pos (∑ _ : Fin 2, 1) 3) (hx : ∀ e, x e ≠ 0) :
    0 < 1 / 2 * ∑ i, ∑ k, partial1 (heliumWave 1) i k x ^ 2 := by
  obtain ⟨e₀⟩ : Nonempty (Fin (∑ _ : Fin 2, 1)) := ⟨⟨0, by simp⟩⟩
  obtain ⟨k, hk⟩ := Function.ne_iff.1 (hx e₀)
  have h1 : 0 < ∑ l, x e₀ l ^ 2 := Finset.sum_pos' (fun l _ => sq_nonneg _)
    ⟨k, Finset.mem_univ _, sq_pos_of_ne_zero hk⟩
  have h2 : partial1 (heliumWave 1) e₀ k x ≠ 0 := by
    rw [heliumWave_deriv x hx]
    refine neg_ne_zero.2 (mul_ne_zero ?_ (div_ne_zero hk (Real.sqrt_pos.2 h1).ne'))
    exact (mul_pos (by norm_num) (Real.exp_pos _)).ne'
  have h3 : 0 < ∑ i, ∑ k, partial1 (heliumWave 1) i k x ^ 2 :=
    Finset.sum_pos' (fun i _ => Finset.sum_nonneg fun k _ => sq_nonneg _) ⟨e₀, Finset.mem_univ _,
      Finset.sum_pos' (fun k _ => sq_nonneg _) ⟨k, Finset.mem_univ _, sq_pos_of_ne_zero h2⟩⟩
  exact mul_pos (by norm_num) h3

/-- The energy of the wave function with decay `a`: a kinetic part quadratic in `a` and a potential
part linear in `a`. -/
theorem helium_energy (P : Params 2 1 3) : ∃ T U : ℝ, 0 < T ∧ ∀ a, 0 < a →
    rayleigh (heliumWave a) heliumPotential = a ^ 2 * T + a * U := by
  obtain ⟨m, hm, nz, ψ, hψ, hval, hpos, hv⟩ := helium_model P 1
  have hne : ψ (splitPositions fun (e : Fin (∑ _ : Fin 2, 1)) _ => (e.val + 1 : ℝ)) ≠ 0 :=
    (hpos _).ne'
  obtain ⟨hw, hEI, hEE⟩ := configured_wave_function (by norm_num) (helium_decays P one_ne_zero) hψ
    helium_good hne
  rw [show (fun y => ψ (splitPositions y)) = heliumWave 1 from funext hval] at hw hEI hEE
  set K : Pos (∑ _ : Fin 2, 1) 3 → ℝ := fun x => 1 / 2 * ∑ i, ∑ k, partial1 (heliumWave 1) i k x ^ 2
  set W : Pos (∑ _ : Fin 2, 1) 3 → ℝ := fun x => heliumPotential x * heliumWave 1 x ^ 2
  have hK : Integrable K := (integrable_finsetSum _ fun i _ => integrable_finsetSum _ fun k _ =>
    hw.gradient_sq i k).const_mul _
  have hW : Integrable W := (finite_potential hw 0 0 (fun (_ : Fin 1) _ => 0) (fun _ => 2) (hEI 0)
    (hEE 0)).congr (Eventually.of_forall fun x => mul_comm _ _)
  have hZ : 0 < ∫ x, heliumWave 1 x ^ 2 :=
    lt_of_le_of_ne (integral_nonneg fun x => sq_nonneg _) (norm_ne_zero hw).symm
  have hK0 : 0 ≤ K := fun x => by
    exact mul_nonneg (by norm_num) (Finset.sum_nonneg fun i _ => Finset.sum_nonneg fun k _ => sq_nonneg _)
  have hT : 0 < ∫ x, K x := by
    refine lt_of_le_of_ne (integral_nonneg hK0) fun h => ?_
    have h1 := (integral_eq_zero_iff_of_nonneg hK0 hK).1 h.symm
    obtain ⟨x, hx0, hx⟩ := (h1.and (ae_good (by norm_num) fun (_ : Fin 1) (_ : Fin 3) => (0 : ℝ))).exists
    exact (helium_kinetic_pos x fun e h => hx.2 e 0 h).ne' hx0
  refine ⟨(∫ x, K x) / ∫ x, heliumWave 1 x ^ 2, (∫ x, W x) / ∫ x, heliumWave 1 x ^ 2, by positivity,
    fun a ha => ?_⟩
  have e1 : ∀ x, 1 / 2 * (∑ i, ∑ k, partial1 (heliumWave a) i k x ^ 2) +
      heliumPotential x * heliumWave a x ^ 2 = (fun y => a ^ 2 * K y + a * W y) (a • x) := fun x => by
    have : heliumWave a = fun y => heliumWave 1 (a • y) := funext fun y => heliumWave_scaled y
    rw [this]
    simp only [partial1_scaled, K, W]
    rw [heliumPotential_scaled ha x]
    simp only [mul_pow, ← Finset.mul_sum]
    ring
  have e2 : ∀ x, heliumWave a x ^ 2 = (fun y => heliumWave 1 y ^ 2) (a • x) := fun x => by
    rw [heliumWave_scaled]
  unfold rayleigh
  rw [funext e1, funext e2, Measure.integral_comp_smul volume (fun y => a ^ 2 * K y + a * W y),
    Measure.integral_comp_smul volume (fun y => heliumWave 1 y ^ 2),
    integral_add (hK.const_mul _) (hW.const_mul _), integral_const_mul (a ^ 2) K,
    integral_const_mul a W,
    smul_eq_mul, smul_eq_mul, mul_div_mul_left _ _ (by positivity)]
  ring

/-- The derivative of that energy vanishes at one place at most. -/
theorem helium_gradient_ne (P : Params 2 1 3) : ∃ a : ℝ, 0 < a ∧ ∀ s : ℝ,
    HasDerivAt (fun t : ℝ => rayleigh (heliumWave (a + t)) heliumPotential) s 0 → s ≠ 0 := by
  obtain ⟨T, U, hT, hE⟩ := helium_energy P
  have hder : ∀ a : ℝ, 0 < a → ∀ s : ℝ,
      HasDerivAt (fun t : ℝ => rayleigh (heliumWave (a + t)) heliumPotential) s 0 →
      s = 2 * a * T + U := by
    intro a ha s hs
    have h1 : HasDerivAt (fun t : ℝ => (a + t) ^ 2 * T + (a + t) * U) (2 * a * T + U) 0 := by
      have h0 : HasDerivAt (fun t : ℝ => a + t) 1 0 := (hasDerivAt_id (0 : ℝ)).const_add a
      have := ((h0.fun_pow 2).mul_const T).fun_add (h0.mul_const U)
      refine this.congr_deriv ?_
      simp
    refine hs.unique (h1.congr_of_eventuallyEq ?_)
    filter_upwards [eventually_gt_nhds (show -a < 0 by linarith)] with t ht
    exact hE _ (by linarith)
  by_cases h : 2 * 1 * T + U = 0
  · refine ⟨2, by norm_num, fun s hs h0 => ?_⟩
    have := hder 2 (by norm_num) s hs
    linarith
  · exact ⟨1, one_pos, fun s hs h0 => h ((hder 1 one_pos s hs).symm.trans h0)⟩

/-- The default FermiNet for a helium atom, with the decay of its orbitals as the only parameter: there
is a decay at which the gradient of the energy does not vanish, and the first updates on two devices
lower the energy. -/
example (P : Params 2 1 3) (sgd : SgdConfig) (hs : 0 ≤ sgd.momentum) : ∃ a : ℝ, 0 < a ∧
    ∃ walker : Pos (∑ _ : Fin 2, 1) 3 → RealWalker Unit,
      IsProbabilityMeasure (born volume (heliumWave a)) ∧
      ∀ᵐ ω ∂(Measure.infinitePi fun _ : ℕ => born volume (heliumWave a)), ∀ᶠ N in atTop,
        ∃ (valGrad : (Fin 2 → Unit → ℝ) → (Fin 2 → Unit) → (Fin 2 → Fin 2) → Fin 2 →
            (Fin N → ℝ) × (Unit → ℝ)) (jac : (Unit → ℝ) → Fin 2 → Fin N → Unit → ℝ)
          (steps : ℕ → (Fin 2 → Fin 2) × (Fin 2 → Unit)),
          GradientFrom valGrad steps (fun _ => a) true (fun i => walker (ω i)) N ∧
          EnergiesFrom valGrad steps (fun _ => a) true (fun i => walker (ω i)) ∧
          (∀ d i k, jac (fun _ => a) ((steps 0).1 d) i k =
            (onDevices (fun i => walker (ω i)) 2 N d i).gradLogPsi k) ∧
          FirstUpdateLowers (fun θ => rayleigh (heliumWave (θ ())) heliumPotential) (fun _ => a) valGrad
            steps (fun schedule => plainRuleApply (sgdOptimizer schedule sgd))
            (sgdOptimizer 0 sgd).init ∧
          FirstUpdateLowers (fun θ => rayleigh (heliumWave (θ ())) heliumPotential) (fun _ => a) valGrad
            steps (fun schedule => srRuleApply .lazy 0.001 none 0.001 schedule
              (sgdOptimizer schedule sgd) jac) (sgdOptimizer 0 sgd).init ∧
          FirstUpdateLowers (fun θ => rayleigh (heliumWave (θ ())) heliumPotential) (fun _ => a) valGrad
            steps (fun schedule => springApply 0.001 0.99 0 (some 0.001) schedule jac)
            ⟨fun _ => 0, 0⟩ := by
  obtain ⟨a, ha, hgrad⟩ := helium_gradient_ne P
  choose m' hm' nz ψ hψ hval hpos hv' using helium_model P
  have hmm : ∀ θ, m' θ = m' a := fun θ => Except.ok.inj ((hm' θ).symm.trans (hm' a))
  have hv : ∀ θ q, (m' a).apply (heliumParams P θ) (fun _ _ => 0) q =
      .ok (.fin 1, .fin (Real.log (ψ θ q))) := fun θ q => by
    rw [← hmm θ]
    exact hv' θ q
  have hne : ψ a (splitPositions fun (e : Fin (∑ _ : Fin 2, 1)) _ => (e.val + 1 : ℝ)) ≠ 0 :=
    (hpos a _).ne'
  have hR : Distinct fun (_ : Fin 1) (_ : Fin 3) => (0 : ℝ) := fun i j h =>
    absurd (Subsingleton.elim i j) h
  have hdec : ∀ᶠ θ in 𝓝 a, Decays {} (heliumParams P θ) (fun _ => 2) fun _ : Fin 2 => 1 := by
    filter_upwards [isOpen_ne.mem_nhds ha.ne'] with θ hθ using helium_decays P hθ
  obtain ⟨E₁, hE₁, hfin₁, hdiff, -⟩ := configured_gradient_unbiased (by norm_num) (by simp) 32 (m' a)
    (hm' a) (helium_path P) _ hv hψ (fun θ y => Real.log (ψ θ (splitPositions y))) (fun _ _ _ => rfl)
    hdec helium_good hne hR (fun _ : Unit => 1) [] [] 1 0 0
  have hproj : Tendsto (fun θ : Unit → ℝ => θ ()) (𝓝 fun _ => a) (𝓝 a) :=
    (continuous_apply ()).tendsto _
  have hpath : Entries (ContDiff ℝ 1) fun θ : Unit → ℝ => heliumParams P (θ ()) :=
    { Entries.const (Q := fun g : (Unit → ℝ) → ℝ => ContDiff ℝ 1 g) (fun _ => contDiff_const) P with
      orbitals := fun _ _ => ⟨fun _ _ _ => contDiff_const, fun _ _ => contDiff_const,
        fun _ _ => contDiff_apply ℝ ℝ (), fun _ _ _ _ _ => contDiff_const,
        fun _ _ _ => contDiff_const⟩ }
  obtain ⟨E, hE, hfin, hprob, hall⟩ := configured_training_lowers_energy (K := Unit)
    (P := fun θ => heliumParams P (θ ())) (θ₀ := fun _ => a) (nonzero := fun θ => nz (θ ()))
    (ψ := fun θ => ψ (θ ())) (by norm_num) (by simp) 32 (m' a) (hm' a) hpath
    (fun θ q => (.fin 1, .fin (Real.log (ψ (θ ()) q)))) (fun θ q => hv _ q) (fun θ q => hψ _ q)
    (fun θ y => Real.log (ψ (θ ()) (splitPositions y))) (fun _ _ _ => rfl) (hproj.eventually hdec)
    helium_good hne hR (fun _ : Unit => 1) [] [] 1 0 0
  classical
  let walker : Pos (∑ _ : Fin 2, 1) 3 → RealWalker Unit := fun x =>
    ⟨if h : ∃ e, ∀ key, E x key = .fin e then h.choose else 0, 0,
      fun _ => deriv (fun θ => Real.log (ψ θ (splitPositions x))) a, fun _ => 0⟩
  have he : ∀ θ, (fun y => ψ θ (splitPositions y)) = heliumWave θ := fun θ => funext (hval θ)
  have hen : energyAt (fun θ : Unit → ℝ => ψ (θ ())) (coulomb 0 0 (fun (_ : Fin 1) (_ : Fin 3) => 0)
      fun _ => 2) = fun θ => rayleigh (heliumWave (θ ())) heliumPotential := by
    funext θ
    unfold energyAt
    rw [he]
    rfl
  obtain ⟨g, hg, hmain⟩ := hall walker (hfin.mono fun x hx => ⟨(), by
    simp only [walker, dif_pos hx]
    exact hx.choose_spec ()⟩) (hdiff.mono fun x hx _ => by
    simpa only [Function.update_self] using hx.hasDerivAt)
  simp only [hen] at hg hmain
  have hg0 : g ≠ 0 := by
    rintro rfl
    refine hgrad 0 ?_ rfl
    have := hg fun _ => 1
    simpa using this
  simp only [he] at hprob hmain
  obtain ⟨h1, -, h3, h4⟩ := hmain hg0 _ _ (independent_walkers_exist _) 2 (by norm_num) true
  refine ⟨a, ha, walker, hprob, ?_⟩
  filter_upwards [h1, h3 0.001 (by norm_num) none, h4 0.001 0.99 0 (by norm_num) (by norm_num)]
    with ω k1 k2 k3
  filter_upwards [k1, k2, k3, eventually_ge_atTop 2] with N l1 l2 l3 hN
  obtain ⟨c, hc⟩ := computedEnergies_eq true (fun i => walker (ω i)) (D := 2) (by norm_num) hN
  let valGrad : (Fin 2 → Unit → ℝ) → (Fin 2 → Unit) → (Fin 2 → Fin 2) → Fin 2 →
      (Fin N → ℝ) × (Unit → ℝ) := fun _ _ _ d =>
    (fun i => (onDevices (fun i => walker (ω i)) 2 N d i).eloc - c, fun k =>
      covGrad (walkerPairs (fun i => (walker (ω i)).eloc) (fun i => (walker (ω i)).gradLogPsi k)
        fun i : Fin (2 * N) => (i : ℕ)))
  let jac : (Unit → ℝ) → Fin 2 → Fin N → Unit → ℝ := fun _ d i k =>
    (onDevices (fun i => walker (ω i)) 2 N d i).gradLogPsi k
  have g1 : GradientFrom valGrad (fun _ => (id, fun _ => ())) (fun _ => a) true
      (fun i => walker (ω i)) N := fun k => by
    rw [computedGradient_eq true _ (by norm_num) hN]
    simp [valGrad]
  have g2 : EnergiesFrom valGrad (fun _ => (id, fun _ => ())) (fun _ => a) true
      fun i => walker (ω i) := hc
  have g3 : ∀ d i k, jac (fun _ => a) d i k =
      (onDevices (fun i => walker (ω i)) 2 N d i).gradLogPsi k := fun _ _ _ => rfl
  exact ⟨valGrad, jac, fun _ => (id, fun _ => ()), g1, g2, g3, l1 _ _ g1 sgd hs,
    l2 _ jac _ g1 g3 .lazy 0.001 (by norm_num) sgd hs,
    l3 _ jac _ g2 g3 (some 0.001) fun b hb => by
      obtain rfl := Option.some.inj hb
      norm_num⟩

end Verif.Props
