import Verif.Model.BatchedGeneric
import Verif.Props.BatchedTypes
import Verif.Props.GenericGradient
import Verif.Props.SpinExpectation

/-!
Training with local energies integrated by parts, on arrays of walkers.
-/

namespace Verif.Props
open Verif.Arrays Verif.Phys Verif.Spec Verif.Construct Verif.Net Verif.Energy Verif.Slog Verif.Decay
open Filter Topology

/-- The derivative along a path of parameters, as a number. -/
noncomputable def pathGrad {P : Type} (Q : ℝ → P) (t₀ : ℝ) (f : P → Except String XR) : XR :=
  .fin (deriv (fun t => numberOf (f (Q t))) t₀)

variable {W S m₀ d : ℕ} {n : Fin (S + 1) → ℕ}

/-- The ibp local energy of one walker which a configured model gives on arrays, at a place which is no node or kink. -/
theorem configured_ibp_one_walker (c : ModelCfg)
    (ions : Fin (m₀ + 1) → Fin d → ℝ) (charges : Fin (m₀ + 1) → ℝ) (dtype : ℕ) (m : Model (m₀ + 1))
    (hm : getModelFromConfig c (counts n) ions charges dtype = .ok m) (hu : Spec.UsesNorms c)
    (hdet : c.ndeterminants ≠ 0) (hn : ∀ s, 0 < n s) (hc : Spec.Callable c (S + 1))
    (P : Params (S + 1) (m₀ + 1) d) (nonzero : Stream1 n d → Prop) (ψ : Stream1 n d → ℝ)
    (hψ : ∀ q, Spec.ModelValue c P ions charges q (nonzero q) (ψ q))
    (eiSoft eeSoft : ℝ) (hR : Distinct ions) {κ : Type} (permutation : κ → ∀ n, Equiv.Perm (Fin n))
    (parts sampleParts : List String) {k : ℕ} (hk : k ≠ 0)
    {F : Arr ℝ → κ → Except String (Arr XR)}
    (hF : molEnergyA permutation "ibp" parts k sampleParts (A2 ions) (A1 charges) eiSoft eeSoft
      (fun X => logPsiA (m.onBatch n P ions) X) = .ok F)
    (x : Pos (∑ s, n s) d) (h0 : ψ (splitPositions x) ≠ 0)
    (hs : SmoothPlace c P ions (splitPositions x : Stream1 n d)) (key : κ) :
    ∃ Z, F (A2 x) key = .ok Z ∧ Z.shape = [] ∧
      Z.get [] = .fin (ibpEnergy parts ions charges eiSoft eeSoft (logAbs fun y => ψ (splitPositions y)) x) := by
  obtain ⟨v, hv, hone⟩ := configured_one_walker c ions charges dtype m hm hu hdet hn P hc
  obtain ⟨F', E', h1, h2, h3⟩ := energy_of_one_walker permutation (.inr (.inl rfl) : Spec.KnownType "ibp")
    parts sampleParts hk ions charges eiSoft eeSoft (logPsi := fun X => logPsiA (m.onBatch n P ions) X)
    (fun y => (hone y).imp fun Z h => ⟨h.1, h.2.1⟩)
  obtain rfl : F' = F := Except.ok.inj (h1.symm.trans hF)
  obtain ⟨Z, h4, h5, h6⟩ := h3 x key
  refine ⟨Z, h4, h5, h6.trans ?_⟩
  let f : Pos (∑ s, n s) d → ℝ := fun y => scalarOf (logPsiA (m.onBatch n P ions) (A2 y))
  have hf : ∀ y, (v (splitPositions y)).2.isFin → (v (splitPositions y)).2 = .fin (f y) := by
    intro y hy
    obtain ⟨Z, h1, -, h3⟩ := hone y
    simp only [f, h1, scalarOf, h3]
    cases h : (v (splitPositions y)).2 with
    | fin r => rfl
    | nan => rw [h] at hy; cases hy
    | ninf => rw [h] at hy; cases hy
    | pinf => rw [h] at hy; cases hy
  have hsp : ∀ i, x i = splitPositions (n := n) x (finSigmaFinEquiv.symm i) := fun i => by
    simp [splitPositions]
  have hreg : Regular eiSoft eeSoft ions x := by
    refine ⟨.inr fun i I h => ?_, .inr fun i j hij h => ?_, hR⟩
    · rw [hsp] at h
      exact hs.apart.ions _ I h
    · rw [hsp, hsp j] at h
      exact hs.apart.electrons _ _ (finSigmaFinEquiv.symm.injective.ne hij) h
  have hl := configured_log_eq c charges dtype m hm P v hv nonzero ψ hψ f hf hs h0
  obtain ⟨E, hE, h⟩ := ibp_energy_terms (fun k => permutation k (∑ s, n s)) parts sampleParts k ions charges eiSoft
    eeSoft f x key hreg
  obtain rfl : E = E' := Option.some.inj (hE.symm.trans h2)
  rw [h]
  unfold ibpEnergy ibpForm kineticLaplacian kineticGradient coordLaplacian
  simp only [partial1_congr hl, partial2_congr hl]

/-- The local energies of the walkers of a device, and their gradients. -/
theorem generic_walkers (c : ModelCfg)
    (ions : Fin (m₀ + 1) → Fin d → ℝ) (charges : Fin (m₀ + 1) → ℝ) (dtype : ℕ) (m : Model (m₀ + 1))
    (hm : getModelFromConfig c (counts n) ions charges dtype = .ok m) (hu : Spec.UsesNorms c)
    (hdet : c.ndeterminants ≠ 0) (hn : ∀ s, 0 < n s) (hc : Spec.Callable c (S + 1))
    (Q : ℝ → Params (S + 1) (m₀ + 1) d) (nonzero : ℝ → Stream1 n d → Prop) (ψ : ℝ → Stream1 n d → ℝ)
    (hψ : ∀ t q, Spec.ModelValue c (Q t) ions charges q (nonzero t q) (ψ t q))
    (eiSoft eeSoft : ℝ) (hR : Distinct ions) {κ : Type} (permutation : κ → ∀ n, Equiv.Perm (Fin n))
    (parts sampleParts : List String) {k : ℕ} (hk : k ≠ 0)
    (hW : 0 < W) {X : Arr ℝ} (hX : X.shape = [d, ∑ s, n s, W])
    (x : Fin W → Pos (∑ s, n s) d) (hx : ∀ w, x w = Spec.positionsOf X [w.val]) (t₀ : ℝ)
    (h0 : ∀ w, ψ t₀ (splitPositions (x w)) ≠ 0)
    (hs : ∀ᶠ t in 𝓝 t₀, ∀ w, SmoothPlace c (Q t) ions (splitPositions (x w) : Stream1 n d))
    (E : ℝ → Fin W → ℝ)
    (hE : ∀ t w, E t w = ibpEnergy parts ions charges eiSoft eeSoft (logAbs fun y => ψ t (splitPositions y)) (x w))
    (r' : Fin W → ℝ) (hr : ∀ w, HasDerivAt (fun t => ψ t (splitPositions (x w))) (r' w) t₀)
    (E' : Fin W → ℝ) (hE' : ∀ w, HasDerivAt (fun t => E t w) (E' w) t₀)
    {F : Params (S + 1) (m₀ + 1) d → Arr ℝ → κ → Except String (Arr XR)}
    (hF : ∀ Q, molEnergyA permutation "ibp" parts k sampleParts (A2 ions) (A1 charges) eiSoft eeSoft
      (fun X => logPsiA (m.onBatch n Q ions) X) = .ok (F Q)) (key : κ) :
    (∃ Y, vmapKeysA (F (Q t₀)) X (fun _ => key) = .ok Y ∧ entriesA Y = List.ofFn fun w => .fin (E t₀ w)) ∧
      ((List.range (X.shape.getLastD 0)).map fun t => pathGrad Q t₀ fun params' =>
        (F params' (X.part [t]) key).map fun y => y.get []) = (List.ofFn E').map XR.fin := by
  have hpart : ∀ w : Fin W, X.part [w.val] = A2 (x w) := fun w => by
    rw [hx w]
    exact part_positions (B := [W]) hX (.cons w.2 .nil)
  have hnear : ∀ w : Fin W, ∀ᶠ t in 𝓝 t₀, ∃ Z, F (Q t) (X.part [w.val]) key = .ok Z ∧ Z.shape = [] ∧
      Z.get [] = .fin (E t w) := by
    intro w
    filter_upwards [hs, (hr w).continuousAt.eventually_ne (h0 w)] with t hst hne
    rw [hpart, hE]
    exact configured_ibp_one_walker c ions charges dtype m hm hu hdet hn hc (Q t) (nonzero t) (ψ t) (hψ t) eiSoft eeSoft
      hR permutation parts sampleParts hk (hF (Q t)) (x w) hne (hst w) key
  have hat : ∀ w : Fin W, ∃ Z, F (Q t₀) (X.part [w.val]) key = .ok Z ∧ Z.shape = [] ∧
      Z.get [] = .fin (E t₀ w) := fun w => (hnear w).self_of_nhds
  choose Z hZ1 hZ2 hZ3 using hat
  obtain ⟨Y, hY1, hY2, hY3⟩ := vmap_keys_numbers (s := [d, ∑ s, n s]) (f := F (Q t₀)) (fun _ => key) hX hW
    (g := fun t => if h : t < W then Z ⟨t, h⟩ else Z ⟨0, hW⟩)
    (fun t ht => by rw [dif_pos ht]; exact hZ2 _) (fun t ht => by rw [dif_pos ht]; exact hZ1 ⟨t, ht⟩)
  have h4 : entriesA Y = List.ofFn fun w => .fin (E t₀ w) := entries_of hY2 fun w => by
    rw [hY3 _ w.2, dif_pos w.2]
    exact hZ3 w
  have hgrad : ∀ w : Fin W, pathGrad Q t₀ (fun params' =>
      (F params' (X.part [w.val]) key).map fun y => y.get []) = .fin (E' w) := by
    intro w
    unfold pathGrad
    congr 1
    refine ((hE' w).congr_of_eventuallyEq ?_).deriv
    filter_upwards [hnear w] with t ht
    obtain ⟨Z, h1, -, h3⟩ := ht
    rw [h1]
    show numberOf (.ok (Z.get [])) = _
    rw [h3]
    rfl
  refine ⟨⟨Y, hY1, h4⟩, ?_⟩
  rw [hX]
  refine List.ext_getElem (by simp) fun t ht _ => ?_
  have ht' : t < W := by simpa using ht
  simp only [List.getElem_map, List.getElem_range, List.getElem_ofFn]
  exact hgrad ⟨t, ht'⟩

/-- C123: the estimates of an epoch of training with local energies integrated by parts, from at least two walkers none
of which is at a node or a kink: energy and variance are mean and sample variance of the local energies of the wave
function, and the gradient along any path of parameters is the covariance of local energies and log amplitudes, as for
the standard local energy, plus the mean of the derivatives of the local energies.  Clipping is never applied. -/
theorem generic_training_estimates (c : ModelCfg)
    (ions : Fin (m₀ + 1) → Fin d → ℝ) (charges : Fin (m₀ + 1) → ℝ) (dtype : ℕ) (m : Model (m₀ + 1))
    (hm : getModelFromConfig c (counts n) ions charges dtype = .ok m) (hu : Spec.UsesNorms c)
    (hdet : c.ndeterminants ≠ 0) (hn : ∀ s, 0 < n s) (hc : Spec.Callable c (S + 1))
    (Q : ℝ → Params (S + 1) (m₀ + 1) d) (nonzero : ℝ → Stream1 n d → Prop) (ψ : ℝ → Stream1 n d → ℝ)
    (hψ : ∀ t q, Spec.ModelValue c (Q t) ions charges q (nonzero t q) (ψ t q))
    (eiSoft eeSoft : ℝ) (hR : Distinct ions) {κ : Type} (permutation : κ → ∀ n, Equiv.Perm (Fin n))
    (parts sampleParts : List String) {k : ℕ} (hk : k ≠ 0)
    (hW : 2 ≤ W) {X : Arr ℝ} (hX : X.shape = [d, ∑ s, n s, W])
    (x : Fin W → Pos (∑ s, n s) d) (hx : ∀ w, x w = Spec.positionsOf X [w.val]) (t₀ : ℝ)
    (h0 : ∀ w, ψ t₀ (splitPositions (x w)) ≠ 0)
    (hs : ∀ᶠ t in 𝓝 t₀, ∀ w, SmoothPlace c (Q t) ions (splitPositions (x w) : Stream1 n d)) (nanSafe : Bool)
    (E : ℝ → Fin W → ℝ)
    (hE : ∀ t w, E t w = ibpEnergy parts ions charges eiSoft eeSoft (logAbs fun y => ψ t (splitPositions y)) (x w))
    (r' : Fin W → ℝ) (hr : ∀ w, HasDerivAt (fun t => ψ t (splitPositions (x w))) (r' w) t₀)
    (E' : Fin W → ℝ) (hE' : ∀ w, HasDerivAt (fun t => E t w) (E' w) t₀) :
    let model := fun Q X => logPsiA (m.onBatch n Q ions) X
    ∃ F, (∀ Q, molEnergyA permutation "ibp" parts k sampleParts (A2 ions) (A1 charges) eiSoft eeSoft
        (model Q) = .ok (F Q)) ∧
      ∀ key, genericValueAndGradA (pathGrad Q t₀) F model W nanSafe (Q t₀) key X =
        .ok (.fin ((∑ w, E t₀ w) / W),
          ⟨.fin ((∑ w, (E t₀ w - (∑ u, E t₀ u) / W) ^ 2) / ((W : ℝ) - 1)), .fin ((∑ w, E t₀ w) / W),
            .fin ((∑ w, (E t₀ w - (∑ u, E t₀ u) / W) ^ 2) / ((W : ℝ) - 1)),
            [List.ofFn fun w => .fin (E t₀ w - (∑ u, E t₀ u) / W)]⟩,
          .fin (2 * W / ((W : ℝ) - 1) *
            ((∑ w, (E t₀ w - (∑ u, E t₀ u) / W) * (r' w / ψ t₀ (splitPositions (x w)))) / W) +
            (∑ w, E' w) / W)) := by
  intro model
  have hW0 : 0 < W := by omega
  have hXx : X = A3 x := by
    rw [funext hx]
    exact eq_A3' hX
  have hall : ∀ Q, ∃ F, molEnergyA permutation "ibp" parts k sampleParts (A2 ions) (A1 charges)
      eiSoft eeSoft (model Q) = .ok F := fun Q => ⟨_, rfl⟩
  choose F hF using hall
  refine ⟨F, hF, fun key => ?_⟩
  obtain ⟨⟨Y, hY1, h4⟩, hgrads⟩ := generic_walkers c ions charges dtype m hm hu hdet hn hc Q nonzero ψ hψ eiSoft eeSoft hR
    permutation parts sampleParts hk hW0 hX x hx t₀ h0 hs E hE r' hr E' hE' hF key
  have hstat : ∀ b, getStatistics [List.ofFn fun w => XR.fin (E t₀ w)] W b =
      (.fin ((∑ w, E t₀ w) / W), .fin ((∑ w, (E t₀ w - (∑ u, E t₀ u) / W) ^ 2) / ((W : ℝ) - 1))) := by
    intro b
    have h13 := energy_statistics (List.ofFn (E t₀)) [List.ofFn (E t₀)] W b
      ⟨by simp, by simp, hW0, by simp⟩ (by simpa using hW)
    rw [List.length_ofFn] at h13
    simp only [List.map_cons, List.map_nil, List.map_ofFn] at h13
    refine h13.trans ?_
    unfold sampleVar avgL
    simp only [List.map_ofFn, List.sum_ofFn, List.length_ofFn, Function.comp]
  have hmean := allreduce_fin nanSafe (rows := [List.ofFn E']) hW0 (by simp) (by simp)
  simp only [List.map_cons, List.map_nil] at hmean
  have hfwd := forward_derivative c ions charges dtype m hm hu hdet hn hc Q hW x
    (fun t w => nonzero t (splitPositions (x w))) (fun t w => ψ t (splitPositions (x w)))
    (fun t w => hψ t _) t₀ h0 r' hr nanSafe fun w => E t₀ w - (∑ u, E t₀ u) / W
  rw [← hXx] at hfwd
  have hcent : centeredA [List.ofFn fun w => XR.fin (E t₀ w)].flatten (.fin ((∑ u, E t₀ u) / W)) =
      A1 fun w => .fin (E t₀ w - (∑ u, E t₀ u) / W) := by
    refine eq_A1 ?_ fun w => ?_
    · unfold centeredA
      simp
    · unfold centeredA
      rw [A1_get _ (by simp)]
      simp
  unfold genericValueAndGradA getClipped
  rw [hY1, ok_bind]
  simp only [h4, hstat, hgrads, hmean]
  refine congrArg Except.ok (congrArg (Prod.mk _) (congrArg₂ Prod.mk ?_ ?_))
  · simp [List.map_ofFn, Function.comp_def]
  · rw [hcent]
    unfold pathGrad
    rw [XR.fin_add]
    congr 2
    · exact hfwd.deriv
    · unfold avgL
      simp [List.sum_ofFn]

open MeasureTheory

/-- C123: for configured models in three dimensions whose parameters depend smoothly on a number `θ` and whose wave
functions decay, the gradient which training with local energies integrated by parts estimates from an array of at least
two walkers is finite for almost all walkers, and its mean over independent walkers distributed as `|ψ|²` is the
derivative of the energy `∫ (½|∇ψ|² + Vψ²) / ∫ ψ²`, whichever terms are integrated by parts. -/
theorem generic_training_unbiased {n : Fin (S + 1) → ℕ} {c : ModelCfg} {ions : Fin (m₀ + 1) → Fin 3 → ℝ}
    {charges : Fin (m₀ + 1) → ℝ} (dtype : ℕ) (m : Model (m₀ + 1))
    (hm : getModelFromConfig c (counts n) ions charges dtype = .ok m) (hu : Spec.UsesNorms c)
    (hdet : c.ndeterminants ≠ 0) (hn : ∀ s, 0 < n s) (hcall : Spec.Callable c (S + 1))
    {Q : ℝ → Params (S + 1) (m₀ + 1) 3} (hQ : SmoothPath Q) {nonzero : ℝ → Stream1 n 3 → Prop}
    {ψ : ℝ → Stream1 n 3 → ℝ}
    (hψ : ∀ t q, Spec.ModelValue c (Q t) ions charges q (nonzero t q) (ψ t q))
    {θ₀ : ℝ} (hc : ∀ᶠ θ in 𝓝 θ₀, Decays c (Q θ) charges n) {q : Pos (∑ s, n s) 3} (hq : Good ions q)
    (h0 : ψ θ₀ (splitPositions q) ≠ 0) (hR : Distinct ions) {κ : Type} [Nonempty κ]
    (permutation : κ → ∀ n, Equiv.Perm (Fin n)) (parts sampleParts : List String) {k : ℕ} (hk : k ≠ 0)
    (hW : 2 ≤ W) (nanSafe : Bool) :
    let model := fun Q X => logPsiA (m.onBatch n Q ions) X
    ∃ F, (∀ Q, molEnergyA permutation "ibp" parts k sampleParts (A2 ions) (A1 charges) 0 0
        (model Q) = .ok (F Q)) ∧
      ∃ G : (Fin W → Pos (∑ s, n s) 3) → ℝ,
        (∀ᵐ x : Fin W → Pos (∑ s, n s) 3, ∀ key, ∃ e aux,
          genericValueAndGradA (pathGrad Q θ₀) F model W nanSafe (Q θ₀) key (A3 x) = .ok (.fin e, aux, .fin (G x))) ∧
        Integrable G (Measure.pi fun _ => born volume fun y => ψ θ₀ (splitPositions y)) ∧
        HasDerivAt (fun θ => rayleigh (fun y => ψ θ (splitPositions y)) (coulomb 0 0 ions charges))
          (∫ x, G x ∂(Measure.pi fun _ => born volume fun y => ψ θ₀ (splitPositions y))) θ₀ := by
  intro model
  have hn' : 0 < ∑ s, n s := Finset.sum_pos (fun s _ => hn s) Finset.univ_nonempty
  obtain ⟨I, hI, hθ₀, hcI, ψ', β, C, hβ, hF⟩ := configured_family (by norm_num) hn' hQ hψ hc hq h0
  have hθI := mem_of_mem_nhds hθ₀
  obtain ⟨hS, hdiff⟩ := hF.smooth_ibp (by norm_num) hβ hθ₀ parts charges 0 0
  let e : ℝ → Pos (∑ s, n s) 3 → ℝ := fun θ =>
    ibpEnergy parts ions charges 0 0 (logAbs fun y => ψ θ (splitPositions y))
  let walker : Pos (∑ s, n s) 3 → RealWalker Unit := fun x =>
    ⟨e θ₀ x, 0, fun _ => ψ' θ₀ x / ψ θ₀ (splitPositions x), fun _ => deriv (fun θ => e θ x) θ₀⟩
  have hgood : ∀ᵐ x : Pos (∑ s, n s) 3, Good ions x := ae_good (by norm_num) ions
  obtain ⟨G, hG1, hG2, hG3⟩ := generic_gradient_unbiased hS walker () (.of_forall fun x => rfl)
    (by
      filter_upwards [hgood, hS.ne_zero] with x hx hne
      simpa only [Real.log_abs] using (hF.deriv θ₀ hθI x hx).log hne)
    (hdiff.mono fun x hx => hx.hasDerivAt) W hW none nanSafe
  have hall : ∀ Q, ∃ F, molEnergyA permutation "ibp" parts k sampleParts (A2 ions) (A1 charges)
      0 0 (model Q) = .ok F := fun Q => ⟨_, rfl⟩
  choose F hFe using hall
  refine ⟨F, hFe, G, ?_, hG2, hG3.congr_of_eventuallyEq ?_⟩
  · filter_upwards [ae_walkers hgood, ae_walkers hS.ne_zero, ae_walkers hdiff] with x hx hne hdx key
    obtain ⟨F', hF', hest⟩ := generic_training_estimates c ions charges dtype m hm hu hdet hn hcall Q nonzero ψ hψ 0 0 hR
      permutation parts sampleParts hk hW (X := A3 x) rfl x
      (fun t => funext fun i => funext fun k => (A3_get x t.2 i.2 k.2).symm) θ₀ hne
      (by
        filter_upwards [hθ₀] with t ht w
        exact smooth_place_of_decays (hcI t ht) (hx w))
      nanSafe (fun t w => e t (x w)) (fun _ _ => rfl) (fun w => ψ' θ₀ (x w))
      (fun w => hF.deriv θ₀ hθI (x w) (hx w)) (fun w => deriv (fun θ => e θ (x w)) θ₀)
      (fun w => (hdx w).hasDerivAt)
    obtain rfl : F' = F := funext fun Q => Except.ok.inj ((hF' Q).symm.trans (hFe Q))
    have h1 := hG1 x [List.ofFn fun i => walker (x i)] W ⟨by simp, by simp, by omega, by simp⟩
    have h2 := gradient_generic nanSafe none (List.ofFn fun i => walker (x i)) [List.ofFn fun i => walker (x i)] W
      ⟨by simp, by simp, by omega, by simp⟩ (by simpa using hW) ()
    rw [List.length_ofFn] at h2
    have hGx : G x = 2 * W / ((W : ℝ) - 1) *
        ((∑ w, (e θ₀ (x w) - (∑ u, e θ₀ (x u)) / W) * (ψ' θ₀ (x w) / ψ θ₀ (splitPositions (x w)))) / W) +
        (∑ w, deriv (fun θ => e θ (x w)) θ₀) / W := by
      rw [← XR.fin_inj.mp (h2.symm.trans h1)]
      unfold covGrad avgL
      simp only [List.map_ofFn, List.sum_ofFn, List.length_ofFn, Function.comp, walker]
      have hW' : (2 : ℝ) ≤ W := by exact_mod_cast hW
      have hA : ∀ A : ℝ, 2 / ((W : ℝ) - 1) * A = 2 * W / ((W : ℝ) - 1) * (A / W) := fun A => by
        have h3 : (W : ℝ) - 1 ≠ 0 := by linarith
        have h4 : (W : ℝ) ≠ 0 := by linarith
        field_simp
      rw [hA]
    rw [hGx]
    exact ⟨_, _, hest key⟩
  · have hcont : ∀ᶠ θ in 𝓝 θ₀, ψ θ (splitPositions q) ≠ 0 :=
      (hF.deriv θ₀ hθI q hq).continuousAt.eventually_ne h0
    filter_upwards [hc, hθ₀, hcont] with θ hcθ hθI hqθ
    obtain ⟨v, hv, hone⟩ := configured_one_walker c ions charges dtype m hm hu hdet hn (Q θ) hcall
    let f : Pos (∑ s, n s) 3 → ℝ := fun y => scalarOf (logPsiA (m.onBatch n (Q θ) ions) (A2 y))
    have hf : ∀ y, (v (splitPositions y)).2.isFin → (v (splitPositions y)).2 = .fin (f y) := by
      intro y hy
      obtain ⟨Z, h1, -, h3⟩ := hone y
      simp only [f, h1, scalarOf, h3]
      cases h : (v (splitPositions y)).2 with
      | fin r => rfl
      | nan => rw [h] at hy; cases hy
      | ninf => rw [h] at hy; cases hy
      | pinf => rw [h] at hy; cases hy
    obtain ⟨E', e', hE', hEe', -, hmean⟩ := configured_ibp_expectation c charges dtype m hm (Q θ) v
      hv (nonzero θ) (ψ θ) (hψ θ) f hf hcθ hq hqθ hR (fun key : κ => permutation key _) parts sampleParts k
    rw [← hmean]
    refine integral_congr_ae ((withDensity_absolutelyContinuous volume _).ae_le ?_)
    filter_upwards [hEe', hgood, (hF.wave θ hθI).ne_zero] with x h2 hx hne
    obtain ⟨key⟩ := ‹Nonempty κ›
    have hl := configured_log_eq c charges dtype m hm (Q θ) v hv (nonzero θ) (ψ θ) (hψ θ) f hf
      (smooth_place_of_decays hcθ hx) hne
    obtain ⟨E, hE, h⟩ := ibp_energy_terms (fun key : κ => permutation key _) parts sampleParts k ions charges 0 0
      f x key ⟨.inr hx.2, .inr hx.1, hR⟩
    obtain rfl := Option.some.inj (hE.symm.trans hE')
    refine XR.fin_inj.mp ((h2 key).symm.trans ?_)
    rw [h]
    unfold ibpEnergy ibpForm kineticLaplacian kineticGradient coordLaplacian
    simp only [partial1_congr hl, partial2_congr hl]

/-- The hydrogen molecule with mixed orbitals, on an array of 2000 walkers, with the kinetic energy integrated by
parts. -/
example (P : Params 2 2 3) (permutation : ℕ → ∀ n, Equiv.Perm (Fin n)) :
    ∃ m : Model 2, getModelFromConfig {} (counts fun _ : Fin 2 => 1) protons (fun _ => 1) 32 = .ok m ∧
      let model := fun Q X => logPsiA (m.onBatch (fun _ : Fin 2 => 1) Q protons) X
      ∃ F, (∀ Q, molEnergyA permutation "ibp" ["kinetic"] 1 [] (A2 protons) (A1 fun _ : Fin 2 => 1) 0 0
          (model Q) = .ok (F Q)) ∧
        ∃ G : (Fin 2000 → Pos (∑ _ : Fin 2, 1) 3) → ℝ,
          (∀ᵐ x : Fin 2000 → Pos (∑ _ : Fin 2, 1) 3, ∀ key, ∃ e aux,
            genericValueAndGradA (pathGrad (mixedParams P) (-Real.exp 1)) F model 2000 true
              (mixedParams P (-Real.exp 1)) key (A3 x) = .ok (.fin e, aux, .fin (G x))) ∧
          Integrable G (Measure.pi fun _ => born volume (mixedWave (-Real.exp 1))) ∧
          HasDerivAt (fun θ => rayleigh (mixedWave θ) (coulomb 0 0 protons fun _ => 1))
            (∫ x, G x ∂(Measure.pi fun _ => born volume (mixedWave (-Real.exp 1)))) (-Real.exp 1) := by
  obtain ⟨m, hm, nz, ψ, v, hψ, hval, hv, hrep⟩ := mixed_model P
  have hfun : ∀ θ, (fun y => ψ θ (splitPositions y)) = mixedWave θ := fun θ => funext (hval θ)
  have hne := mixed_ne_zero
  rw [← hval] at hne
  obtain ⟨F, h1, G, h2, h3, h4⟩ := generic_training_unbiased (W := 2000) 32 m hm ⟨rfl, fun _ => rfl⟩ (by simp)
    (fun _ => Nat.one_pos) (.inl ⟨rfl, .inr (by simp), by simp [Spec.PairsWithoutTwo]⟩) (mixed_path P) hψ
    (.of_forall fun θ => mixed_decays P θ) hydrogen_good hne protons_distinct permutation ["kinetic"] [] (k := 1) one_ne_zero (by norm_num) true
  refine ⟨m, hm, F, h1, G, h2, ?_, ?_⟩
  · rwa [hfun] at h3
  · simpa only [hfun] using h4

end Verif.Props
