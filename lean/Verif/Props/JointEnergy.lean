import Verif.Props.SmoothJoint
import Verif.Lemmas.ParamPath
import Verif.Lemmas.Bounds
import Verif.Props.Normalisable
import Mathlib.Analysis.Calculus.Deriv.Pi

/-!
C103: logarithms and local energies of configured models are smooth functions of parameters and
positions together.
-/

namespace Verif.Joint
open Verif.Construct Verif.Net Verif.Spec Verif.Slog Verif.Props Verif.Phys Filter Topology

/-! ### Potentials and derivatives -/

section potential

variable {N m d : ℕ} {k : WithTop ℕ∞} {A : Type*} [NormedAddCommGroup A] [NormedSpace ℝ A]

theorem softDist_pos {s : ℝ} {a b : Fin d → ℝ} (h : s ≠ 0 ∨ a ≠ b) :
    (∑ l, (a l - b l) ^ 2) + s ^ 2 ≠ 0 := by
  have h0 : 0 ≤ ∑ l, (a l - b l) ^ 2 := Finset.sum_nonneg fun _ _ => sq_nonneg _
  rcases h with h | h
  · positivity
  · have := sum_sq_ne_zero h
    have : 0 < ∑ l, (a l - b l) ^ 2 := lt_of_le_of_ne h0 this.symm
    positivity

theorem softDist_smooth {a b : A → Fin d → ℝ} {p : A} (ha : ∀ l, ContDiffAt ℝ k (fun q => a q l) p)
    (hb : ∀ l, ContDiffAt ℝ k (fun q => b q l) p) {s : ℝ} (h : s ≠ 0 ∨ a p ≠ b p) :
    ContDiffAt ℝ k (fun q => 1 / softDist s (a q) (b q)) p := by
  unfold softDist
  refine contDiffAt_const.div (ContDiffAt.sqrt ((ContDiffAt.sum fun l _ =>
    ((ha l).sub (hb l)).pow 2).add contDiffAt_const) (softDist_pos h)) ?_
  exact (Real.sqrt_pos.2 (lt_of_le_of_ne (by positivity) (softDist_pos h).symm)).ne'

theorem coulomb_smooth {eiSoft eeSoft : ℝ} {R : Pos m d} (Z : Fin m → ℝ) {x : Pos N d}
    (h : Regular eiSoft eeSoft R x) :
    ContDiffAt ℝ k (fun y => coulombEI 1 eiSoft R Z y + coulombEE 1 eeSoft y + coulombII R Z) x := by
  have hc : ∀ i l, ContDiffAt ℝ k (fun y : Pos N d => y i l) x := fun i l =>
    (contDiff_apply_apply ℝ ℝ i l).contDiffAt
  unfold coulombEI coulombEE
  refine ((ContDiffAt.neg (ContDiffAt.sum fun p _ => contDiffAt_const.mul ?_)).add
    (ContDiffAt.sum fun p hp => ?_)).add contDiffAt_const
  · simp only [div_eq_mul_one_div (Z _)]
    exact contDiffAt_const.mul (softDist_smooth (a := fun y : Pos N d => y p.1)
      (b := fun _ => R p.2) (hc _) (fun _ => contDiffAt_const) (h.1.imp_right fun h => h _ _))
  · exact softDist_smooth (a := fun y : Pos N d => y p.1) (b := fun y : Pos N d => y p.2) (hc _)
      (hc _) (h.2.1.imp_right fun h => h _ _ (by
        have := (Finset.mem_filter.1 hp).2
        exact this.ne))

/-- Partial derivatives of a smooth function of an argument and positions. -/
theorem partial1_joint {F : A × Pos N d → ℝ} {p : A × Pos N d} (hF : ContDiffAt ℝ (k + 1) F p)
    (i : Fin N) (l : Fin d) :
    ContDiffAt ℝ k (fun q : A × Pos N d => partial1 (fun y => F (q.1, y)) i l q.2) p := by
  have h1 : ContDiffAt ℝ k (fun q => fderiv ℝ F q (0, unitStep i l)) p :=
    (hF.fderiv_right le_rfl).clm_apply contDiffAt_const
  refine h1.congr_of_eventuallyEq ?_
  have hd : ∀ᶠ q in 𝓝 p, DifferentiableAt ℝ F q :=
    ((hF.of_le le_add_self).eventually (by simp)).mono fun q hq =>
      hq.differentiableAt (by simp)
  filter_upwards [hd] with q hq
  unfold partial1
  have e : shift q.2 i l 0 = q.2 := by
    rw [← add_unitStep]
    simp
  have hl : HasDerivAt (fun t : ℝ => (q.1, shift q.2 i l t)) ((0 : A), unitStep i l) 0 := by
    have h2 : HasDerivAt (fun t : ℝ => shift q.2 i l t) (unitStep i l) 0 := by
      simp only [← add_unitStep]
      simpa using ((hasDerivAt_id (0 : ℝ)).smul_const (unitStep i l)).const_add q.2
    exact (hasDerivAt_const (0 : ℝ) q.1).prodMk h2
  have h3 : HasFDerivAt F (fderiv ℝ F q) (q.1, shift q.2 i l 0) := by
    rw [e]
    exact hq.hasFDerivAt
  exact (h3.comp_hasDerivAt (0 : ℝ) hl).deriv

theorem kinetic_joint {F : A × Pos N d → ℝ} {p : A × Pos N d} (hF : ContDiffAt ℝ (k + 1 + 1) F p) :
    ContDiffAt ℝ k (fun q : A × Pos N d => kineticLaplacian (fun y => F (q.1, y)) q.2) p := by
  unfold kineticLaplacian coordLaplacian
  refine contDiffAt_const.mul (ContDiffAt.sum fun i _ => ContDiffAt.sum fun l _ => ?_)
  have h1 := partial1_joint hF i l
  simp only [Decay.partial2_eq]
  exact ((h1.of_le le_self_add).pow 2).add (partial1_joint h1 i l)

end potential

/-! ### Models -/

section configured

variable {S nion d : ℕ} {n : Fin (S + 1) → ℕ} {k : WithTop ℕ∞} {A : Type*} [NormedAddCommGroup A]
  [NormedSpace ℝ A] (c : ModelCfg) (ions : Fin nion → Fin d → ℝ) (charges : Fin nion → ℝ)
  (dtype : ℕ) (m : Model nion) (hm : getModelFromConfig c (counts n) ions charges dtype = .ok m)
  (P : A → Params (S + 1) nion d) (v : A → Stream1 n d → SL)
  (hv : ∀ θ q, m.apply (P θ) ions q = .ok (v θ q))
  (nonzero : A → Stream1 n d → Prop) (ψ : A → Stream1 n d → ℝ)
  (hψ : ∀ θ q, ModelValue c (P θ) ions charges q (nonzero θ q) (ψ θ q))
  (f : A → Pos (∑ s, n s) d → ℝ)
  (hf : ∀ θ y, (v θ (splitPositions y)).2.isFin → (v θ (splitPositions y)).2 = .fin (f θ y))
  (θ₀ : A) (x : Pos (∑ s, n s) d) (h0 : ψ θ₀ (splitPositions x) ≠ 0)
  (hP : Entries (fun g => ContDiffAt ℝ k g θ₀) P)
  (hx : SmoothPoint c (P θ₀) ions (splitPositions x))

include hψ hP hx in
/-- C103: the wave function of a configuration is smooth as a function of parameters and positions
together, to whatever order its parameters are functions of `θ`. -/
theorem configured_value_joint :
    ContDiffAt ℝ k (fun q : A × Pos (∑ s, n s) d => ψ q.1 (splitPositions q.2)) (θ₀, x) := by
  refine configured_value_smooth (P := fun q : A × Pos (∑ s, n s) d => P q.1)
    (pos := fun q => splitPositions q.2) (hP.comp Prod.fst fun g hg => ?_) (fun e a => ?_)
    (fun q => hψ q.1 _) hx
  · exact ContDiffAt.comp (θ₀, x) (show ContDiffAt ℝ k g (Prod.fst (θ₀, x)) from hg) contDiffAt_fst
  · unfold splitPositions
    exact (contDiff_apply_apply ℝ ℝ _ a).contDiffAt.comp _ contDiffAt_snd

omit [NormedAddCommGroup A] [NormedSpace ℝ A] in
include hm hv hψ hf in
/-- The logarithm which a model returns where the wave function does not vanish. -/
theorem configured_log_value (θ : A) (y : Pos (∑ s, n s) d) (h : ψ θ (splitPositions y) ≠ 0) :
    f θ y = Real.log (ψ θ (splitPositions y)) := by
  have hr := configured_model_computes_partial c ions charges dtype m hm (P θ) _ _
    (hv θ (splitPositions y)) _ _ (hψ θ _) (model_value_nonzero (hψ θ _) h)
  have hf := hf θ y
  rcases hr with ⟨-, h'⟩ | ⟨-, h'⟩ | ⟨h', -⟩
  · rw [h'] at hf
    exact (XR.fin_inj.mp (hf trivial)).symm
  · rw [h'] at hf
    rw [← Real.log_neg_eq_log]
    exact (XR.fin_inj.mp (hf trivial)).symm
  · exact absurd h' h

include hm hv hψ hf h0 hP hx in
/-- C103: the logarithm which a configured model returns is smooth as a function of parameters and
positions together. -/
theorem configured_log_joint :
    ContDiffAt ℝ k (fun q : A × Pos (∑ s, n s) d => f q.1 q.2) (θ₀, x) := by
  have h1 := configured_value_joint c ions charges P nonzero ψ hψ θ₀ x hP hx
  refine (h1.log h0).congr_of_eventuallyEq ?_
  filter_upwards [h1.continuousAt.eventually_ne h0] with q hq
  exact configured_log_value c ions charges dtype m hm P v hv nonzero ψ hψ f hf q.1 q.2 hq

include hm hv hψ hf h0 hx in
/-- C103: so is the standard local energy, to two orders less. -/
theorem configured_energy_joint (hP : Entries (fun g => ContDiffAt ℝ (k + 1 + 1) g θ₀) P)
    (hR : Distinct ions) {κ : Type} (permutation : κ → Equiv.Perm (Fin (∑ s, n s)))
    (ibpParts sampleParts : List String) (b : ℕ) (eiSoft eeSoft : ℝ) :
    ∃ e : A × Pos (∑ s, n s) d → ℝ, ContDiffAt ℝ k e (θ₀, x) ∧
      ∀ᶠ q in 𝓝 (θ₀, x), ∃ E, assembleMolLocalEnergy permutation "standard" ibpParts b sampleParts
        ions charges eiSoft eeSoft (f q.1) = some E ∧ ∀ key, E q.2 key = .fin (e q) := by
  have hs : ∀ (y : Pos (∑ s, n s) d) i, y i = splitPositions (n := n) y (finSigmaFinEquiv.symm i) :=
    fun y i => by simp [splitPositions]
  have hgood : Good ions x := by
    refine ⟨fun i j hij h => ?_, fun i I h => ?_⟩
    · rw [hs x i, hs x j] at h
      exact hx.apart.electrons _ _ (finSigmaFinEquiv.symm.injective.ne hij) h
    · rw [hs x i] at h
      exact hx.apart.ions _ I h
  have hreg : ∀ y : Pos (∑ s, n s) d, Good ions y → Regular eiSoft eeSoft ions y := fun y hy =>
    ⟨.inr hy.2, .inr hy.1, hR⟩
  refine ⟨fun q => kineticLaplacian (f q.1) q.2 + (coulombEI 1 eiSoft ions charges q.2 +
    coulombEE 1 eeSoft q.2 + coulombII ions charges), ?_, ?_⟩
  · exact (kinetic_joint (configured_log_joint c ions charges dtype m hm P v hv nonzero ψ hψ f hf θ₀ x
      h0 hP hx)).add ((coulomb_smooth charges (hreg x hgood)).comp (θ₀, x) contDiffAt_snd)
  · have : ∀ᶠ q : A × Pos (∑ s, n s) d in 𝓝 (θ₀, x), Good ions q.2 :=
      (continuousAt_snd (p := (θ₀, x))).eventually ((Decay.isOpen_good ions).mem_nhds hgood)
    filter_upwards [this] with q hq
    obtain ⟨E, hE⟩ : ∃ E, assembleMolLocalEnergy permutation "standard" ibpParts b sampleParts
        ions charges eiSoft eeSoft (f q.1) = some E := ⟨_, by
      unfold assembleMolLocalEnergy; rw [if_pos rfl]⟩
    refine ⟨E, hE, fun key => ?_⟩
    obtain ⟨E', h1, h2⟩ := standard_energy_terms permutation ibpParts sampleParts b ions charges
      eiSoft eeSoft (f q.1) q.2 key (hreg _ hq)
    obtain rfl := Option.some.inj (hE.symm.trans h1)
    rw [h2]
    congr 1
    ring

end configured

/-! ### Gradients -/

section gradient

variable {S nion d : ℕ} {n : Fin (S + 1) → ℕ} {K : Type} [Fintype K] [DecidableEq K]
  (c : ModelCfg) (ions : Fin nion → Fin d → ℝ) (charges : Fin nion → ℝ)
  (dtype : ℕ) (m : Model nion) (hm : getModelFromConfig c (counts n) ions charges dtype = .ok m)
  (P : (K → ℝ) → Params (S + 1) nion d) (v : (K → ℝ) → Stream1 n d → SL)
  (hv : ∀ θ q, m.apply (P θ) ions q = .ok (v θ q))
  (nonzero : (K → ℝ) → Stream1 n d → Prop) (ψ : (K → ℝ) → Stream1 n d → ℝ)
  (hψ : ∀ θ q, ModelValue c (P θ) ions charges q (nonzero θ q) (ψ θ q))
  (f : (K → ℝ) → Pos (∑ s, n s) d → ℝ)
  (hf : ∀ θ y, (v θ (splitPositions y)).2.isFin → (v θ (splitPositions y)).2 = .fin (f θ y))
  (θ₀ : K → ℝ) (x : Pos (∑ s, n s) d) (h0 : ψ θ₀ (splitPositions x) ≠ 0)
  (hP : Entries (fun g => ContDiffAt ℝ 1 g θ₀) P)
  (hx : SmoothPoint c (P θ₀) ions (splitPositions x))

/-- A function which is differentiable is approximated by its partial derivatives. -/
theorem hasFDerivAt_of_partials {F : (K → ℝ) → ℝ} {θ₀ g : K → ℝ} (hF : DifferentiableAt ℝ F θ₀)
    (hg : ∀ k, HasDerivAt (fun t => F (Function.update θ₀ k t)) (g k) (θ₀ k)) :
    HasFDerivAt F (∑ k, g k • ContinuousLinearMap.proj (R := ℝ) (φ := fun _ : K => ℝ) k) θ₀ := by
  have h1 := hF.hasFDerivAt
  have : fderiv ℝ F θ₀ = ∑ k, g k • ContinuousLinearMap.proj (R := ℝ) (φ := fun _ : K => ℝ) k := by
    refine ContinuousLinearMap.ext fun w => ?_
    have e : w = ∑ k, w k • (Pi.single k 1 : K → ℝ) := by
      simp [← Pi.single_smul', Finset.univ_sum_single]
    have hk : ∀ k, fderiv ℝ F θ₀ (Pi.single k 1) = g k := fun k => by
      have h2 : HasFDerivAt F (fderiv ℝ F θ₀) (Function.update θ₀ k (θ₀ k)) := by
        rwa [Function.update_eq_self]
      exact (h2.comp_hasDerivAt (θ₀ k) (hasDerivAt_update θ₀ k (θ₀ k))).unique (hg k)
    conv_lhs => rw [e]
    simp [map_sum, hk, mul_comm]
  rwa [this] at h1

include hm hv hψ hf h0 hP hx in
/-- C103: the numbers which differentiation with respect to single parameters yields form the gradient
of the logarithm: they approximate it for small changes of all parameters together. -/
theorem configured_log_gradient {g : K → ℝ}
    (hg : ∀ k, HasDerivAt (fun t => f (Function.update θ₀ k t) x) (g k) (θ₀ k)) :
    HasFDerivAt (fun θ => f θ x)
      (∑ k, g k • ContinuousLinearMap.proj (R := ℝ) (φ := fun _ : K => ℝ) k) θ₀ := by
  have h1 := configured_log_joint c ions charges dtype m hm P v hv nonzero ψ hψ f hf θ₀ x h0 hP hx
  have h2 : DifferentiableAt ℝ (fun θ => f θ x) θ₀ :=
    DifferentiableAt.comp (g := fun q : (K → ℝ) × Pos (∑ s, n s) d => f q.1 q.2) (f := fun θ => (θ, x))
      θ₀ (h1.differentiableAt (by simp)) (differentiableAt_id.prodMk (differentiableAt_const x))
  exact hasFDerivAt_of_partials h2 hg

end gradient

/-! ### An example, and why envelopes have to decay -/

theorem helium_entries {k : WithTop ℕ∞} (P : Params 2 1 3) (a : ℝ) :
    Entries (fun g : ℝ → ℝ => ContDiffAt ℝ k g a) (heliumParams P) :=
  { Entries.const (Q := fun g : ℝ → ℝ => ContDiffAt ℝ k g a) (fun _ => contDiffAt_const) P with
    orbitals := fun _ _ => ⟨fun _ _ _ => contDiffAt_const, fun _ _ => contDiffAt_const,
      fun _ _ => contDiffAt_id, fun _ _ _ _ _ => contDiffAt_const, fun _ _ _ => contDiffAt_const⟩ }

/-- The default FermiNet for a helium atom, as a function of the decay of its orbitals and the
positions: logarithm and local energy are analytic at every decay but 0, wherever particles are
apart. -/
example (P : Params 2 1 3) (a : ℝ) (ha : a ≠ 0) (x : Pos (∑ _ : Fin 2, 1) 3)
    (hx : Good (fun (_ : Fin 1) (_ : Fin 3) => (0 : ℝ)) x) :
    ∃ m : Model 1, getModelFromConfig {} (counts fun _ : Fin 2 => 1)
        (fun (_ : Fin 1) (_ : Fin 3) => (0 : ℝ)) (fun _ => 2) 32 = .ok m ∧
      ∃ f : ℝ → Pos (∑ _ : Fin 2, 1) 3 → ℝ,
        (∀ θ y, m.apply (heliumParams P θ) (fun _ _ => 0)
          (splitPositions (n := fun _ : Fin 2 => 1) y) = .ok (.fin 1, .fin (f θ y))) ∧
        ContDiffAt ℝ ⊤ (fun q : ℝ × Pos (∑ _ : Fin 2, 1) 3 => f q.1 q.2) (a, x) ∧
        ∃ e : ℝ × Pos (∑ _ : Fin 2, 1) 3 → ℝ, ContDiffAt ℝ ⊤ e (a, x) ∧
          ∀ᶠ q in 𝓝 (a, x), ∃ E, assembleMolLocalEnergy (fun _ : Unit => 1) "standard" [] 1 []
            (fun (_ : Fin 1) _ => 0) (fun _ => 2) 0 0 (f q.1) = some E ∧ E q.2 () = .fin (e q) := by
  choose m' hm' nz ψ hψ hval hpos hv' using helium_model P
  have hmm : ∀ θ, m' θ = m' a := fun θ => Except.ok.inj ((hm' θ).symm.trans (hm' a))
  have hv : ∀ θ q, (m' a).apply (heliumParams P θ) (fun _ _ => 0) q =
      .ok (.fin 1, .fin (Real.log (ψ θ q))) := fun θ q => by
    rw [← hmm θ]
    exact hv' θ q
  have hp : SmoothPoint {} (heliumParams P a) (fun _ _ => 0) (splitPositions (n := fun _ : Fin 2 => 1) x) :=
    decays_smooth (helium_decays P ha) ⟨fun e e' he => hx.1 _ _ (finSigmaFinEquiv.injective.ne he),
      fun e j => hx.2 _ j⟩
  have hR : Distinct fun (_ : Fin 1) (_ : Fin 3) => (0 : ℝ) := fun i j h =>
    absurd (Subsingleton.elim i j) h
  refine ⟨m' a, hm' a, fun θ y => Real.log (ψ θ (splitPositions y)), fun θ y => hv θ _,
    configured_log_joint {} _ _ 32 (m' a) (hm' a) _ _ hv nz ψ hψ _ (fun _ _ _ => rfl) a x (hpos _ _).ne'
      (helium_entries P a) hp, ?_⟩
  obtain ⟨e, h1, h2⟩ := configured_energy_joint (k := ⊤) {} _ _ 32 (m' a) (hm' a) _ _ hv nz ψ hψ
    (fun θ y => Real.log (ψ θ (splitPositions y))) (fun _ _ _ => rfl) a x (hpos _ _).ne' hp
    (helium_entries P a) hR (fun _ : Unit => 1) [] [] 1 0 0
  exact ⟨e, h1, h2.mono fun q ⟨E, h3, h4⟩ => ⟨E, h3, h4 ()⟩⟩

/-- C103: at decay 0, which the initializer "zeros" yields, the logarithm has a kink: no position of
the electrons apart from the nucleus has a derivative with respect to the decay. -/
theorem zero_decay_kink (P : Params 2 1 3) (x : Pos (∑ _ : Fin 2, 1) 3)
    (hx : Good (fun (_ : Fin 1) (_ : Fin 3) => (0 : ℝ)) x) (m : ℝ → Model 1)
    (hm : ∀ θ, getModelFromConfig {} (counts fun _ : Fin 2 => 1)
      (fun (_ : Fin 1) (_ : Fin 3) => (0 : ℝ)) (fun _ => 2) 32 = .ok (m θ)) (f : ℝ → ℝ)
    (hf : ∀ θ, (m θ).apply (heliumParams P θ) (fun _ _ => 0)
      (splitPositions (n := fun _ : Fin 2 => 1) x) = .ok (.fin 1, .fin (f θ))) :
    ¬ DifferentiableAt ℝ f 0 := by
  have hfv : ∀ θ, f θ = Real.log 6 - |θ| * ∑ e, Real.sqrt (∑ l, x e l ^ 2) := fun θ => by
    obtain ⟨m', hm', nz, ψ, -, hval, hpos, hv⟩ := helium_model P θ
    obtain rfl : m' = m θ := Except.ok.inj (hm'.symm.trans (hm θ))
    have h1 := XR.fin_inj.mp (Prod.mk.inj (Except.ok.inj ((hf θ).symm.trans (hv _)))).2
    have h2 : ∀ e, Real.sqrt (∑ l, (θ * x e l) ^ 2) = |θ| * Real.sqrt (∑ l, x e l ^ 2) := fun e => by
      simp only [mul_pow, ← Finset.mul_sum]
      rw [Real.sqrt_mul (sq_nonneg θ), Real.sqrt_sq_eq_abs]
    rw [h1, hval, heliumWave, Real.log_mul (by norm_num) (Real.exp_pos _).ne', Real.log_exp]
    simp only [h2, ← Finset.mul_sum]
    ring
  have hpos : 0 < ∑ e, Real.sqrt (∑ l, x e l ^ 2) := by
    obtain ⟨e₀⟩ : Nonempty (Fin (∑ _ : Fin 2, 1)) := ⟨⟨0, by simp⟩⟩
    refine Finset.sum_pos' (fun e _ => Real.sqrt_nonneg _) ⟨e₀, Finset.mem_univ _,
      Real.sqrt_pos.2 (lt_of_le_of_ne (Finset.sum_nonneg fun l _ => sq_nonneg _) ?_)⟩
    have := sum_sq_ne_zero (hx.2 e₀ 0)
    simpa using this.symm
  intro h
  refine not_differentiableAt_abs_zero ?_
  have e : (fun θ : ℝ => |θ|) = fun θ => (Real.log 6 - f θ) / ∑ e, Real.sqrt (∑ l, x e l ^ 2) := by
    funext θ
    rw [hfv, sub_sub_cancel, mul_div_cancel_right₀ _ hpos.ne']
  rw [show (abs : ℝ → ℝ) = fun θ => |θ| from rfl, e]
  exact ((differentiableAt_const _).sub h).div_const _

/-- Such a family exists, whatever the positions are. -/
example (P : Params 2 1 3) (x : Pos (∑ _ : Fin 2, 1) 3) : ∃ (m : ℝ → Model 1) (f : ℝ → ℝ),
    (∀ θ, getModelFromConfig {} (counts fun _ : Fin 2 => 1)
      (fun (_ : Fin 1) (_ : Fin 3) => (0 : ℝ)) (fun _ => 2) 32 = .ok (m θ)) ∧
    ∀ θ, (m θ).apply (heliumParams P θ) (fun _ _ => 0)
      (splitPositions (n := fun _ : Fin 2 => 1) x) = .ok (.fin 1, .fin (f θ)) := by
  choose m' hm' nz ψ _ _ _ hv using helium_model P
  exact ⟨m', fun θ => Real.log (ψ θ (splitPositions x)), hm', fun θ => hv θ _⟩

end Verif.Joint
