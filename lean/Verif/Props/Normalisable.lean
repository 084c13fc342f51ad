import Verif.Props.Decay
import Verif.Props.Ibp

/-!
C89: configured wave functions which decay are normalisable and have finite energy, and the mean of
their local energies over walkers distributed as `|ψ|²` is the energy of the wave function.
-/

namespace Verif.Props
open Verif.Construct Verif.Net Verif.Spec Verif.Slog Verif.Decay Verif.Phys Verif.Ibp MeasureTheory

variable {K nion d : ℕ} {n : Fin (K + 1) → ℕ} {R : Fin nion → Fin d → ℝ}

/-- C89: a configured wave function which decays and is not zero somewhere is zero almost nowhere,
normalisable, twice differentiable along almost all lines, and has finite kinetic, electron-ion and
electron-electron energies. -/
theorem configured_wave_function (hd : 2 ≤ d) {c : ModelCfg} {P : Params (K + 1) nion d}
    {charges : Fin nion → ℝ} (hc : Decays c P charges n) {nonzero : Stream1 n d → Prop}
    {ψ : Stream1 n d → ℝ} (hψ : ∀ q, ModelValue c P R charges q (nonzero q) (ψ q))
    {q : Fin (∑ s, n s) → Fin d → ℝ} (hq : Good R q) (h0 : ψ (splitPositions q) ≠ 0) :
    WaveFunction (fun y => ψ (splitPositions y)) (partial1 fun y => ψ (splitPositions y))
        (partial2 fun y => ψ (splitPositions y)) ∧
      (∀ s, FiniteEI (fun y => ψ (splitPositions y)) s R) ∧
      ∀ s, FiniteEE (fun y => ψ (splitPositions y)) s := by
  obtain ⟨β, C, hβ, hC, hb⟩ := configured_decay hc hψ
  obtain ⟨β', -, hT⟩ := configured_value_tame (I := {0}) (P := fun _ => P)
    (ψ := fun q => ψ (splitPositions q.2)) isCompact_singleton (Set.singleton_nonempty 0)
    (Entries.const (fun c => Par.const c) P) (fun _ _ => hc) fun q => hψ (splitPositions q.2)
  have hs : ContDiff ℝ ⊤ (splitPositions : Pos (∑ s, n s) d → Stream1 n d) := by
    unfold splitPositions
    exact contDiff_pi.mpr fun e => contDiff_apply ℝ _ _
  have := wave_function_of_bounds hd hβ hC hb (fun x hx => (configured_value_smooth hψ
    (smooth_place_of_decays hc hx)).comp x hs.contDiffAt) hq h0 fun i k => by
      obtain ⟨f1, f2, -, hj, -⟩ := hT i k
      exact ⟨fun x => f1 (0, x), fun x => f2 (0, x), fun x hx => hj (0, x) ⟨rfl, hx⟩⟩
  exact ⟨this.1, fun s => this.2.1 s _ R, this.2.2⟩

/-! ### Expected energies -/

section congr

variable {N d : ℕ} {f g : Pos N d → ℝ} {x : Pos N d}

theorem eventually_shift (h : f =ᶠ[nhds x] g) (i : Fin N) (k : Fin d) :
    (fun t => f (shift x i k t)) =ᶠ[nhds 0] fun t => g (shift x i k t) := by
  have hc : Filter.Tendsto (fun t : ℝ => shift x i k t) (nhds 0) (nhds x) := by
    have : Continuous fun t : ℝ => shift x i k t := by
      simp only [← add_unitStep]
      fun_prop
    have h := this.tendsto 0
    rwa [shift_zero] at h
  exact hc.eventually h

theorem partial1_congr (h : f =ᶠ[nhds x] g) (i : Fin N) (k : Fin d) :
    partial1 f i k x = partial1 g i k x := (eventually_shift h i k).deriv_eq

theorem partial2_congr (h : f =ᶠ[nhds x] g) (i : Fin N) (k : Fin d) :
    partial2 f i k x = partial2 g i k x := (eventually_shift h i k).deriv.deriv_eq

end congr

/-- The potential energy of all particles. -/
noncomputable def coulomb {N m d : ℕ} (eiSoft eeSoft : ℝ) (R : Pos m d) (Z : Fin m → ℝ)
    (x : Pos N d) : ℝ := coulombEI 1 eiSoft R Z x + coulombEE 1 eeSoft x + coulombII R Z

theorem finite_potential {N m d : ℕ} {ψ : Pos N d → ℝ} {ψ1 ψ2 : Fin N → Fin d → Pos N d → ℝ}
    (h : WaveFunction ψ ψ1 ψ2) (eiSoft eeSoft : ℝ) (R : Pos m d) (Z : Fin m → ℝ)
    (hei : FiniteEI ψ eiSoft R) (hee : FiniteEE ψ eeSoft) :
    Integrable fun x => ψ x ^ 2 * coulomb eiSoft eeSoft R Z x := by
  have e : (fun x => ψ x ^ 2 * coulomb eiSoft eeSoft R Z x) = fun x =>
      (∑ p : Fin N × Fin m, -Z p.2 * (ψ x ^ 2 / softDist eiSoft (x p.1) (R p.2))) +
      (∑ p ∈ pairs N, ψ x ^ 2 / softDist eeSoft (x p.1) (x p.2)) + coulombII R Z * ψ x ^ 2 := by
    funext x
    unfold coulomb coulombEI coulombEE
    rw [← Finset.sum_neg_distrib, mul_add, mul_add, Finset.mul_sum, Finset.mul_sum]
    congr 1
    · congr 1
      · exact Finset.sum_congr rfl fun p _ => by ring
      · exact Finset.sum_congr rfl fun p _ => by ring
    · ring
  rw [e]
  refine ((integrable_finsetSum _ fun p _ => (hei p.1 p.2).const_mul _).add
    (integrable_finsetSum _ fun p hp => hee p.1 p.2 ?_)).add (h.normalisable.const_mul _)
  simpa [pairs] using hp

/-- The expectation of kinetic plus potential energy is the energy of the wave function. -/
theorem expect_standard {N m d : ℕ} {ψ : Pos N d → ℝ}
    (h : WaveFunction ψ (partial1 ψ) (partial2 ψ)) (eiSoft eeSoft : ℝ) (R : Pos m d) (Z : Fin m → ℝ)
    (hei : FiniteEI ψ eiSoft R) (hee : FiniteEE ψ eeSoft) :
    FiniteExpect ψ (fun x => kineticLaplacian (logAbs ψ) x + coulomb eiSoft eeSoft R Z x) ∧
      expect ψ (fun x => kineticLaplacian (logAbs ψ) x + coulomb eiSoft eeSoft R Z x) =
        rayleigh ψ (coulomb eiSoft eeSoft R Z) := by
  obtain ⟨k1, k2, k3⟩ := ibp_kinetic_expectation h
  have hp := finite_potential h eiSoft eeSoft R Z hei hee
  have hV := (finiteExpect_iff h (coulomb eiSoft eeSoft R Z)).mpr hp
  refine ⟨k2.add hV, ?_⟩
  rw [expect_add k2 hV, ← k3, ← expect_add k1 hV, expect_eq h, rayleigh]
  congr 1
  refine integral_congr_ae ?_
  filter_upwards [ae_partials h] with x hx
  unfold kineticGradient
  simp only [(hx.2 _ _).1, mul_add, div_pow]
  have h0 := hx.1
  rw [mul_comm (coulomb eiSoft eeSoft R Z x)]
  congr 1
  simp only [← Finset.sum_div]
  field_simp

section energy

variable (c : ModelCfg) (charges : Fin nion → ℝ) (dtype : ℕ)
  (m : Model nion) (hm : getModelFromConfig c (counts n) R charges dtype = .ok m)
  (P : Params (K + 1) nion d) (v : Stream1 n d → SL) (hv : ∀ q, m.apply P R q = .ok (v q))
  (nonzero : Stream1 n d → Prop) (ψ : Stream1 n d → ℝ)
  (hψ : ∀ q, ModelValue c P R charges q (nonzero q) (ψ q))
  (f : Pos (∑ s, n s) d → ℝ)
  (hf : ∀ y, (v (splitPositions y)).2.isFin → (v (splitPositions y)).2 = .fin (f y))

include hm hv hψ hf

/-- The logarithm which the model returns, near a position at which the wave function is not zero. -/
theorem configured_log_eq {x : Pos (∑ s, n s) d} (hx : SmoothPlace c P R (splitPositions x))
    (h0 : ψ (splitPositions x) ≠ 0) : f =ᶠ[nhds x] logAbs fun y => ψ (splitPositions y) := by
  have hs : ContDiff ℝ 0 (splitPositions : Pos (∑ s, n s) d → Stream1 n d) := by
    unfold splitPositions
    exact contDiff_pi.mpr fun e => contDiff_apply ℝ _ _
  have hsm : ContDiffAt ℝ 0 (fun y => ψ (splitPositions y)) x :=
    (configured_value_smooth (k := 0) hψ hx).comp x hs.contDiffAt
  refine (hsm.continuousAt.eventually_ne h0).mono fun y hy => ?_
  have hr := configured_model_computes_partial c R charges dtype m hm P _ _
    (hv (splitPositions y)) _ _ (hψ _) (model_value_nonzero (hψ _) hy)
  have hf := hf y
  unfold logAbs
  rcases hr with ⟨h, h'⟩ | ⟨h, h'⟩ | ⟨h, -⟩
  · rw [h'] at hf
    rw [abs_of_pos h]
    exact (XR.fin_inj.mp (hf trivial)).symm
  · rw [h'] at hf
    rw [abs_of_neg h]
    exact (XR.fin_inj.mp (hf trivial)).symm
  · exact absurd h hy

variable (hc : Decays c P charges n) {q : Pos (∑ s, n s) d} (hq : Good R q)
  (h0 : ψ (splitPositions q) ≠ 0)

include hc hq h0

/-- C89: the standard local energy of a configured model is finite for almost all walkers, has a
finite mean over walkers distributed as `|ψ|²`, and this mean is the energy
`∫ (½|∇ψ|² + Vψ²) / ∫ ψ²` of the wave function. -/
theorem configured_energy_expectation (hd : 2 ≤ d) (hR : Distinct R) {κ : Type}
    (permutation : κ → Equiv.Perm (Fin (∑ s, n s))) (ibpParts sampleParts : List String) (b : ℕ)
    (eiSoft eeSoft : ℝ) :
    ∃ E, ∃ e : Pos (∑ s, n s) d → ℝ,
      assembleMolLocalEnergy permutation "standard" ibpParts b sampleParts R charges eiSoft eeSoft f
        = some E ∧
      (∀ᵐ x, ∀ key, E x key = .fin (e x)) ∧
      FiniteExpect (fun y => ψ (splitPositions y)) e ∧
      expect (fun y => ψ (splitPositions y)) e =
        rayleigh (fun y => ψ (splitPositions y)) (coulomb eiSoft eeSoft R charges) := by
  obtain ⟨hw, hei, hee⟩ := configured_wave_function hd hc hψ hq h0
  obtain ⟨h1, h2⟩ := expect_standard hw eiSoft eeSoft R charges (hei eiSoft) (hee eeSoft)
  refine ⟨_, _, by unfold assembleMolLocalEnergy; rw [if_pos rfl], ?_, h1, h2⟩
  filter_upwards [ae_good (by omega) R, hw.ne_zero] with x hx hne key
  obtain ⟨E, hE, h⟩ := standard_energy_terms permutation ibpParts sampleParts b R charges eiSoft
    eeSoft f x key ⟨.inr hx.2, .inr hx.1, hR⟩
  unfold assembleMolLocalEnergy at hE
  rw [if_pos rfl] at hE
  obtain rfl := Option.some.inj hE
  rw [h]
  have hl := configured_log_eq c charges dtype m hm P v hv nonzero ψ hψ f hf
    (smooth_place_of_decays hc hx) hne
  have : kineticLaplacian f x = kineticLaplacian (logAbs fun y => ψ (splitPositions y)) x := by
    unfold kineticLaplacian coordLaplacian
    simp only [partial1_congr hl, partial2_congr hl]
  rw [this, coulomb]
  congr 1
  ring

end energy

/-- C89: without softening, in three dimensions, the integrated-by-parts local energy of a configured
model has the same mean, whichever parts are integrated. -/
theorem configured_ibp_expectation {R : Fin nion → Fin 3 → ℝ} (c : ModelCfg) (charges : Fin nion → ℝ)
    (dtype : ℕ) (m : Model nion) (hm : getModelFromConfig c (counts n) R charges dtype = .ok m)
    (P : Params (K + 1) nion 3) (v : Stream1 n 3 → SL) (hv : ∀ q, m.apply P R q = .ok (v q))
    (nonzero : Stream1 n 3 → Prop) (ψ : Stream1 n 3 → ℝ)
    (hψ : ∀ q, ModelValue c P R charges q (nonzero q) (ψ q)) (f : Pos (∑ s, n s) 3 → ℝ)
    (hf : ∀ y, (v (splitPositions y)).2.isFin → (v (splitPositions y)).2 = .fin (f y))
    (hc : Decays c P charges n) {q : Pos (∑ s, n s) 3} (hq : Good R q)
    (h0 : ψ (splitPositions q) ≠ 0) (hR : Distinct R) {κ : Type}
    (permutation : κ → Equiv.Perm (Fin (∑ s, n s))) (parts sampleParts : List String) (b : ℕ) :
    ∃ E, ∃ e : Pos (∑ s, n s) 3 → ℝ,
      assembleMolLocalEnergy permutation "ibp" parts b sampleParts R charges 0 0 f = some E ∧
      (∀ᵐ x, ∀ key, E x key = .fin (e x)) ∧
      FiniteExpect (fun y => ψ (splitPositions y)) e ∧
      expect (fun y => ψ (splitPositions y)) e =
        rayleigh (fun y => ψ (splitPositions y)) (coulomb 0 0 R charges) := by
  obtain ⟨hw, hei, hee⟩ := configured_wave_function (by norm_num) hc hψ hq h0
  obtain ⟨-, h2⟩ := expect_standard hw 0 0 R charges (hei 0) (hee 0)
  obtain ⟨E, E₀, e, e₀, hE, hE₀, hval, hfin, hfin₀, heq⟩ := ibp_energy_unbiased_partial
    (K := Unit) (fun _ => 1) hw parts sampleParts b R hR charges (hei 0) (hee 0)
  have hgood : ∀ᵐ x : Pos (∑ s, n s) 3, Good R x := ae_good (by norm_num) R
  refine ⟨_, e, by unfold assembleMolLocalEnergy; rw [if_neg (by decide), if_pos rfl], ?_, hfin, ?_⟩
  · filter_upwards [hgood, hw.ne_zero, hval] with x hx hne hx' key
    obtain ⟨E', hE', h⟩ := ibp_energy_terms permutation parts sampleParts b R charges 0
      0 f x key ⟨.inr hx.2, .inr hx.1, hR⟩
    obtain ⟨E'', hE'', h''⟩ := ibp_energy_terms (K := Unit) (fun _ => 1) parts sampleParts b R charges
      0 0 (logAbs fun y => ψ (splitPositions y)) x () ⟨.inr hx.2, .inr hx.1, hR⟩
    rw [hE] at hE''
    obtain rfl := Option.some.inj hE''
    unfold assembleMolLocalEnergy at hE'
    rw [if_neg (by decide), if_pos rfl] at hE'
    obtain rfl := Option.some.inj hE'
    rw [h, ← (hx' ()).1, h'']
    have hl := configured_log_eq c charges dtype m hm P v hv nonzero ψ hψ f hf
      (smooth_place_of_decays hc hx) hne
    simp only [kineticLaplacian, kineticGradient, ibpForm, coordLaplacian, partial1_congr hl,
      partial2_congr hl]
  · rw [heq, ← h2, expect_eq hw, expect_eq hw]
    congr 1
    refine integral_congr_ae ?_
    filter_upwards [hgood, hval] with x hx hx'
    obtain ⟨E', hE', h⟩ := standard_energy_terms (K := Unit) (fun _ => 1) parts sampleParts b R charges
      0 0 (logAbs fun y => ψ (splitPositions y)) x () ⟨.inr hx.2, .inr hx.1, hR⟩
    rw [hE₀] at hE'
    obtain rfl := Option.some.inj hE'
    have := XR.fin_inj.mp ((hx' ()).2.symm.trans h)
    rw [this, coulomb]
    congr 1
    ring

/-! ### An example -/

/-- Orbitals with kernels 0, biases 2 and 3 and decay `a`. -/
def heliumParams (P : Params 2 1 3) (a : ℝ) : Params 2 1 3 :=
  { P with orbitals := fun _ _ =>
      ⟨fun _ _ _ => 0, fun s _ => s.val + 2, fun _ _ => a, fun _ _ _ _ _ => 0, fun _ _ _ => 1,
        0, true, true⟩ }

/-- Two electrons in independent exponentials. -/
noncomputable def heliumWave (a : ℝ) (y : Pos (∑ _ : Fin 2, 1) 3) : ℝ :=
  6 * Real.exp (-∑ e, Real.sqrt (∑ l, (a * y e l) ^ 2))

/-- The default FermiNet for a nucleus of charge 2 with one electron of each kind can be built and
called, and with these orbitals it stands for the product of two exponentials. -/
theorem helium_model (P : Params 2 1 3) (a : ℝ) :
    ∃ m : Model 1, getModelFromConfig {} (counts fun _ : Fin 2 => 1)
        (fun (_ : Fin 1) (_ : Fin 3) => (0 : ℝ)) (fun _ => 2) 32 = .ok m ∧
      ∃ (nz : Stream1 (fun _ : Fin 2 => 1) 3 → Prop) (ψ : Stream1 (fun _ : Fin 2 => 1) 3 → ℝ),
        (∀ q, ModelValue {} (heliumParams P a) (fun _ _ => 0) (fun _ => 2) q (nz q) (ψ q)) ∧
        (∀ y, ψ (splitPositions y) = heliumWave a y) ∧ (∀ q, 0 < ψ q) ∧
        ∀ q, m.apply (heliumParams P a) (fun _ _ => 0) q = .ok (.fin 1, .fin (Real.log (ψ q))) := by
  let n : Fin 2 → ℕ := fun _ => 1
  obtain ⟨m, hm⟩ := (model_config_accepted_iff {} (counts n)
    (fun (_ : Fin 1) (_ : Fin 3) => (0 : ℝ)) (fun _ => 2) 32).mpr
    (by rw [counts_length]; exact default_acceptable "ferminet" (by simp))
  have hcall : ∀ pos : Stream1 n 3, ∃ v, m.apply (heliumParams P a) (fun _ _ => 0) pos = .ok v :=
    fun pos => (configured_model_callable_iff {} _ _ _ m hm ⟨rfl, fun _ => rfl⟩
    (fun _ => Nat.one_pos) (heliumParams P a) pos).mpr (by
      left
      refine ⟨rfl, .inr (by simp), ?_⟩
      simp [Spec.PairsWithoutTwo])
  choose v hv using hcall
  choose nz ψ hψ hrep using fun pos =>
    configured_model_value {} _ _ _ m hm (heliumParams P a) pos (v pos) (hv pos)
  have hval : ∀ pos, ψ pos = 6 * Real.exp (-∑ e, Real.sqrt (∑ l, (a * pos e l) ^ 2)) := by
    intro pos
    rcases model_value_inv (hψ pos) with ⟨-, N, D, hD, hr⟩ | ⟨h, -⟩ | ⟨h, -⟩ | ⟨h, -⟩ | ⟨h, -⟩
    · rcases fermi_dets_inv hD with ⟨-, _, z, -, hD⟩ | ⟨h, -⟩
      · obtain rfl : N = 1 := congrArg Sigma.fst hD
        obtain rfl := eq_of_heq (Sigma.mk.inj hD).2
        rcases combined_inv hr with ⟨-, h⟩ | ⟨h, -⟩ | ⟨h, -⟩ | ⟨h, -⟩
        · rw [h]
          rw [Fintype.sum_sigma]
          simp [orbitalValue, envelopeValue, heliumParams, Fin.prod_univ_succ, Fin.sum_univ_succ, n]
          rw [Real.exp_add]
          ring
        all_goals cases h
      · cases h
    all_goals simp at h
  have hpos : ∀ pos, 0 < ψ pos := fun pos => by
    rw [hval]
    positivity
  refine ⟨m, hm, nz, ψ, hψ, fun y => ?_, hpos, fun pos => ?_⟩
  · rw [hval, heliumWave, ← finSigmaFinEquiv.sum_comp]
    rfl
  · rw [hv]
    rcases hrep pos (model_value_nonzero (hψ _) (hpos _).ne') with ⟨-, h⟩ | ⟨h, -⟩ | ⟨h, -⟩
    · rw [h]
    · exact absurd h (hpos _).not_gt
    · exact absurd h (hpos _).ne'

theorem helium_decays (P : Params 2 1 3) {a : ℝ} (ha : a ≠ 0) :
    Decays {} (heliumParams P a) (fun _ => 2) fun _ : Fin 2 => 1 :=
  .inl ⟨.inl rfl, fun _ _ _ _ => ha⟩

/-- Two electrons apart from each other and from the nucleus. -/
theorem helium_good : Good (fun (_ : Fin 1) (_ : Fin 3) => (0 : ℝ))
    fun (e : Fin (∑ _ : Fin 2, 1)) _ => (e.val + 1 : ℝ) := by
  refine ⟨fun i j hij h => hij (Fin.ext ?_), fun i I h => ?_⟩
  · have := congrFun h 0
    simpa using this
  · have := congrFun h 0
    simp only at this
    have : (i.val : ℝ) + 1 ≠ 0 := by positivity
    contradiction

/-- With decay `a ≠ 0` it decays exponentially. -/
example (P : Params 2 1 3) (a : ℝ) (ha : a ≠ 0) :
    ∃ β C, 0 < β ∧ 0 ≤ C ∧ Bounded (fun (_ : Fin 1) (_ : Fin 3) => (0 : ℝ)) (heliumWave a) β C := by
  obtain ⟨m, hm, nz, ψ, hψ, hval, -⟩ := helium_model P a
  obtain ⟨β, C, hβ, hC, h⟩ := configured_decay (helium_decays P ha) hψ
  rw [show (fun y => ψ (splitPositions y)) = heliumWave a from funext hval] at h
  exact ⟨β, C, hβ, hC, h⟩

/-- With decay `a ≠ 0` its local energies, standard or integrated by parts, have the mean
`∫ (½|∇ψ|² + Vψ²) / ∫ ψ²` with `ψ = 6 exp (-|a r₁| - |a r₂|)`. -/
example (P : Params 2 1 3) (a : ℝ) (ha : a ≠ 0) (permutation : Unit → Equiv.Perm (Fin (∑ _ : Fin 2, 1))) :
    ∃ m : Model 1, getModelFromConfig {} (counts fun _ : Fin 2 => 1)
        (fun (_ : Fin 1) (_ : Fin 3) => (0 : ℝ)) (fun _ => 2) 32 = .ok m ∧
      ∃ f : (Fin (∑ _ : Fin 2, 1) → Fin 3 → ℝ) → ℝ,
        (∀ y, m.apply (heliumParams P a) (fun _ _ => 0) (splitPositions (n := fun _ : Fin 2 => 1) y) =
          .ok (.fin 1, .fin (f y))) ∧
        ∃ E E' e e', assembleMolLocalEnergy permutation "standard" [] 1 [] (fun (_ : Fin 1) _ => 0)
            (fun _ => 2) 0 0 f = some E ∧
          assembleMolLocalEnergy permutation "ibp" ["kinetic", "ei"] 1 [] (fun (_ : Fin 1) _ => 0)
            (fun _ => 2) 0 0 f = some E' ∧
          (∀ᵐ x, E x () = .fin (e x) ∧ E' x () = .fin (e' x)) ∧
          expect (heliumWave a) e =
            rayleigh (heliumWave a) (coulomb 0 0 (fun (_ : Fin 1) _ => 0) fun _ => 2) ∧
          expect (heliumWave a) e' =
            rayleigh (heliumWave a) (coulomb 0 0 (fun (_ : Fin 1) _ => 0) fun _ => 2) := by
  obtain ⟨m, hm, nz, ψ, hψ, hval, hpos, hv⟩ := helium_model P a
  have hne : ψ (splitPositions fun (e : Fin (∑ _ : Fin 2, 1)) _ => (e.val + 1 : ℝ)) ≠ 0 :=
    (hpos _).ne'
  have hR : Distinct fun (_ : Fin 1) (_ : Fin 3) => (0 : ℝ) := fun i j h =>
    absurd (Subsingleton.elim i j) h
  refine ⟨m, hm, fun y => Real.log (ψ (splitPositions y)), fun y => hv _, ?_⟩
  obtain ⟨E, e, h1, h2, -, h3⟩ := configured_energy_expectation {} _ _ m hm _ _ hv nz ψ hψ
    (fun y => Real.log (ψ (splitPositions y))) (fun _ _ => rfl) (helium_decays P ha) helium_good hne
    (by norm_num) hR permutation [] [] 1 0 0
  obtain ⟨E', e', h1', h2', -, h3'⟩ := configured_ibp_expectation {} _ _ m hm _ _ hv nz ψ hψ
    (fun y => Real.log (ψ (splitPositions y))) (fun _ _ => rfl) (helium_decays P ha) helium_good hne
    hR permutation ["kinetic", "ei"] [] 1
  rw [show (fun y => ψ (splitPositions y)) = heliumWave a from funext hval] at h3 h3'
  exact ⟨E, E', e, e', h1, h1', by filter_upwards [h2, h2'] with x a b using ⟨a (), b ()⟩, h3, h3'⟩

/-- C89: decay of the envelopes is needed.  With decay 0 the same model is not normalisable. -/
theorem configured_not_normalisable (P : Params 2 1 3) : ∃ m : Model 1,
    getModelFromConfig {} (counts fun _ : Fin 2 => 1) (fun (_ : Fin 1) (_ : Fin 3) => (0 : ℝ))
      (fun _ => 2) 32 = .ok m ∧
    ∃ ψ : Stream1 (fun _ : Fin 2 => 1) 3 → ℝ, (∀ q, 0 < ψ q ∧
      m.apply (heliumParams P 0) (fun _ _ => 0) q = .ok (.fin 1, .fin (Real.log (ψ q)))) ∧
    ¬Integrable fun y : Pos (∑ _ : Fin 2, 1) 3 => ψ (splitPositions y) ^ 2 := by
  obtain ⟨m, hm, nz, ψ, hψ, hval, hpos, hv⟩ := helium_model P 0
  refine ⟨m, hm, ψ, fun q => ⟨hpos q, hv q⟩, fun h => ?_⟩
  simp only [hval] at h
  have e : ∀ y, heliumWave 0 y ^ 2 = 36 := fun y => by
    simp [heliumWave]
    norm_num
  simp only [e, integrable_const_iff] at h
  rcases h with h | h
  · norm_num at h
  · have hu : volume (Set.univ : Set (Pos (∑ _ : Fin 2, 1) 3)) < ⊤ := h.measure_univ_lt_top
    have : NoncompactSpace (Pos (∑ _ : Fin 2, 1) 3) := by
      have : Nontrivial (Pos (∑ _ : Fin 2, 1) 3) :=
        ⟨0, 1, fun h => zero_ne_one (congrFun (congrFun h ⟨0, by simp⟩) 0 : (0 : ℝ) = 1)⟩
      exact NormedSpace.noncompactSpace ℝ _
    rw [measure_univ_of_isAddLeftInvariant] at hu
    exact lt_irrefl _ hu

end Verif.Props
