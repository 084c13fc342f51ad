import Verif.Model.BatchedGenericDevices
import Verif.Props.BatchedGeneric
import Verif.Props.BatchedDevices

/-!
Training with local energies integrated by parts and the estimate of the spin, on several devices.
-/

namespace Verif.Props
open Verif.Arrays Verif.Phys Verif.Spec Verif.Construct Verif.Net Verif.Energy Verif.Slog Verif.Decay
open Filter Topology

variable {D w d N : ℕ}

theorem sum_onDevice (f : Fin (D * w) → ℝ) : ∑ i : Fin D, ∑ t : Fin w, f (Spec.onDevice i t) = ∑ t, f t := by
  rw [← Fintype.sum_prod_type' fun i t => f (Spec.onDevice i t), ← Equiv.sum_comp finProdFinEquiv]
  refine Finset.sum_congr rfl fun p _ => congrArg f (Fin.ext ?_)
  show p.1.val * w + p.2.val = p.2.val + w * p.1.val
  ring

/-- The mean over all walkers, from the means on the devices. -/
theorem allreduce_devices (nanSafe : Bool) (hD : 0 < D) (hw : 0 < w) (f : Fin (D * w) → ℝ) :
    allreduceMean nanSafe (List.ofFn fun i : Fin D => List.ofFn fun t : Fin w => XR.fin (f (Spec.onDevice i t))) =
      .fin ((∑ t, f t) / (D * w : ℕ)) := by
  have hl := layout_devices hD hw fun i t => f (Spec.onDevice i t)
  have h := allreduce_fin nanSafe (rows := List.ofFn fun i : Fin D => List.ofFn fun t : Fin w => f (Spec.onDevice i t))
    hw hl.ne hl.len
  rw [List.map_ofFn] at h
  have h1 : ((fun r => List.map XR.fin r) ∘ fun i : Fin D => List.ofFn fun t : Fin w => f (Spec.onDevice i t)) =
      fun i => List.ofFn fun t => XR.fin (f (Spec.onDevice i t)) := by
    funext i
    simp [List.map_ofFn, Function.comp_def]
  rw [h1] at h
  rw [h]
  unfold avgL
  rw [sum_devices, length_devices, sum_onDevice]

section spin

variable {slogPsi : Arr ℝ → Except String (Arr SL)} {f : Pos N d → SL}

/-- C124: distributing the walkers to devices does not change the estimate of S². -/
theorem spin_square_on_devices
    (hf : ∀ (W : ℕ) (x : Fin W → Pos N d), 0 < W → slogPsi (A3 x) = .ok (A1 fun t => f (x t)))
    {nUp nDown : ℕ} (hup : 0 < nUp) (hdown : 0 < nDown) (hN : nUp < N) (hD : 0 < D) (hw : 0 < w)
    {X : Arr ℝ} (hX : X.shape = [d, N, D * w])
    (x : Fin (D * w) → Pos N d) (hx : ∀ t, x t = Spec.positionsOf X [t.val])
    (a b : Fin (D * w) → ℝ) (ha : ∀ t, Represents (f (x t)) (a t))
    (hb : ∀ t, Represents (f (Spec.exchange ⟨0, by omega⟩ ⟨nUp, hN⟩ (x t))) (b t)) (h0 : ∀ t, a t ≠ 0)
    (nanSafe : Bool) : ∃ positions v, distributeA D X = .ok positions ∧
      spinSquareA slogPsi nUp nDown nanSafe X = .ok (.fin v) ∧
      spinSquareDevicesA slogPsi nUp nDown nanSafe positions = .ok (.fin v) := by
  have hXx : X = A3 x := by
    rw [funext hx]
    exact eq_A3' hX
  have hW : 0 < D * w := Nat.mul_pos hD hw
  have hex : ∀ i : Fin D, ∃ Y, spinExchangeA slogPsi nUp nDown (A3 fun t : Fin w => x (Spec.onDevice i t)) = .ok Y ∧
      entriesA Y = List.ofFn fun t => XR.fin (-(nUp * nDown * (b (Spec.onDevice i t) / a (Spec.onDevice i t)))) := by
    intro i
    obtain ⟨Y, h1, h2, h3⟩ := spin_exchange_on_arrays slogPsi f (fun x => hf w x hw) hup hdown hN
      fun t : Fin w => x (Spec.onDevice i t)
    exact ⟨Y, h1, entries_of h2 fun t => h3 t _ _ (ha _) (hb _) (h0 _)⟩
  choose Y hY1 hY2 using hex
  refine ⟨_, _, by rw [hXx]; exact distribute_positions hD x, by
    rw [hXx]; exact spin_square_on_arrays slogPsi f (fun x => hf _ x hW) hup hdown hN hW x a b ha hb h0 nanSafe, ?_⟩
  unfold spinSquareDevicesA
  rw [mapM_devices (y := Y) hY1, ok_bind, List.map_ofFn,
    show entriesA ∘ Y = fun i => List.ofFn fun t => XR.fin (-(nUp * nDown * (b (Spec.onDevice i t) / a (Spec.onDevice i t))))
      from funext hY2,
    allreduce_devices nanSafe hD hw fun t => -(nUp * nDown * (b t / a t))]
  refine congrArg Except.ok ?_
  rw [XR.fin_add, XR.fin_add]
  congr 1
  simp only [Finset.sum_neg_distrib, ← Finset.mul_sum]
  push_cast
  ring

/-- C124: the estimate of S² for a configured model of two species is the same on one and on several devices. -/
theorem configured_spin_on_devices {m₀ : ℕ} {n : Fin 2 → ℕ} (c : ModelCfg) (ions : Fin (m₀ + 1) → Fin d → ℝ)
    (charges : Fin (m₀ + 1) → ℝ) (dtype : ℕ) (m : Model (m₀ + 1))
    (hm : getModelFromConfig c (counts n) ions charges dtype = .ok m) (hu : Spec.UsesNorms c)
    (hdet : c.ndeterminants ≠ 0) (hn : ∀ s, 0 < n s) (hc : Spec.Callable c 2)
    (Q : Params 2 (m₀ + 1) d) (nonzero : Stream1 n d → Prop)
    (ψ : Stream1 n d → ℝ) (hψ : ∀ q, Spec.ModelValue c Q ions charges q (nonzero q) (ψ q))
    (hD : 0 < D) (hw : 0 < w) (h01 : n 0 < ∑ s, n s) {X : Arr ℝ} (hX : X.shape = [d, ∑ s, n s, D * w])
    (x x' : Fin (D * w) → Pos (∑ s, n s) d) (hx : ∀ t, x t = Spec.positionsOf X [t.val])
    (hx' : ∀ t, x' t = Spec.exchange ⟨0, by omega⟩ ⟨n 0, h01⟩ (x t))
    (h0 : ∀ t, ψ (splitPositions (x t)) ≠ 0) (h0' : ∀ t, nonzero (splitPositions (x' t))) (nanSafe : Bool) :
    ∃ positions, distributeA D X = .ok positions ∧
      spinSquareDevicesA (m.onBatch n Q ions) (n 0) (n 1) nanSafe positions =
        .ok (.fin (((n 0 : ℝ) - n 1) ^ 2 / 4 + ((n 0 : ℝ) + n 1) / 2 -
          n 0 * n 1 * ((∑ t, ψ (splitPositions (x' t)) / ψ (splitPositions (x t))) / (D * w : ℕ)))) := by
  obtain ⟨f, -, h2⟩ := configured_slog_walkers (W := 1) c ions charges dtype m hm hu hdet hn hc Q one_pos
  have hf : ∀ (W : ℕ) (x : Fin W → Pos (∑ s, n s) d), 0 < W →
      m.onBatch n Q ions (A3 x) = .ok (A1 fun t => f (x t)) := by
    intro W x hW
    obtain ⟨f', h3, h4⟩ := configured_slog_walkers (W := W) c ions charges dtype m hm hu hdet hn hc Q hW
    obtain rfl : f' = f := funext fun x => Except.ok.inj ((h4 x).symm.trans (h2 x))
    exact h3 x
  obtain ⟨positions, v, h3, h4, h5⟩ := spin_square_on_devices hf (hn 0) (hn 1) h01 hD hw hX x hx
    (fun t => ψ (splitPositions (x t))) (fun t => ψ (splitPositions (x' t)))
    (fun t => configured_model_computes_partial c ions charges dtype m hm Q _ _ (h2 _) _ _ (hψ _)
      (model_value_nonzero (hψ _) (h0 t)))
    (fun t => by
      rw [← hx']
      exact configured_model_computes_partial c ions charges dtype m hm Q _ _ (h2 _) _ _ (hψ _) (h0' t))
    h0 nanSafe
  refine ⟨positions, h3, h5.trans (h4.symm.trans ?_)⟩
  exact configured_spin_square c ions charges dtype m hm hu hdet hn hc Q nonzero ψ hψ (Nat.mul_pos hD hw) h01 hX x x' hx
    hx' h0 h0' nanSafe

/-- Helium on two devices with three walkers each is a singlet. -/
example (P : Params 2 1 3) (X : Arr ℝ) (hX : X.shape = [3, 2, 2 * 3]) :
    ∃ m : Model 1, getModelFromConfig {} (counts fun _ : Fin 2 => 1)
        (fun (_ : Fin 1) (_ : Fin 3) => (0 : ℝ)) (fun _ => 2) 32 = .ok m ∧ ∃ positions, distributeA 2 X = .ok positions ∧
      spinSquareDevicesA (m.onBatch (fun _ : Fin 2 => 1) (scaledHelium P 2) fun _ _ => 0) 1 1 false positions =
        .ok (.fin 0) := by
  obtain ⟨m, hm, nz, ψ, hψ⟩ := helium_on_devices P
  have hne : ∀ q, ψ 2 q ≠ 0 := fun q => by
    rw [scaled_helium_value (hψ 2 q)]
    positivity
  let n : Fin 2 → ℕ := fun _ => 1
  obtain ⟨positions, h1, h⟩ := configured_spin_on_devices (D := 2) (w := 3) {} (fun (_ : Fin 1) (_ : Fin 3) => (0 : ℝ))
    (fun _ => 2) 32 m hm
    ⟨rfl, fun _ => rfl⟩ (by simp) (fun _ => Nat.one_pos) helium_callable (scaledHelium P 2) (nz 2) (ψ 2) (hψ 2)
    (by norm_num) (by norm_num) (by simp) (X := X) hX
    _ _ (fun _ => rfl) (fun _ => rfl) (fun t => hne _) (fun t => model_value_nonzero (hψ _ _) (hne _)) false
  refine ⟨m, hm, positions, h1, h.trans ?_⟩
  have hsym : ∀ y : Pos (∑ s, n s) 3, ψ 2 (splitPositions (Spec.exchange ⟨0, by simp⟩ ⟨n 0, by simp [n]⟩ y)) =
      ψ 2 (splitPositions y) := by
    intro y
    rw [scaled_helium_value (hψ _ _), scaled_helium_value (hψ _ _)]
    congr 3
    refine (Fintype.sum_equiv (finSigmaFinEquiv.trans ((Equiv.swap (⟨0, by simp [n]⟩ : Fin (∑ s, n s))
      ⟨n 0, by simp [n]⟩).trans finSigmaFinEquiv.symm)) _ _ fun e => ?_)
    unfold splitPositions Spec.exchange
    simp
  have h2 : ∀ y : Pos (∑ s, n s) 3, ψ 2 (splitPositions (Spec.exchange ⟨0, by simp⟩ ⟨n 0, by simp [n]⟩ y)) /
      ψ 2 (splitPositions y) = 1 := fun y => by rw [hsym, div_self (hne _)]
  rw [Finset.sum_congr rfl fun t _ => h2 _]
  norm_num

end spin

variable {S m₀ : ℕ} {n : Fin (S + 1) → ℕ}

/-- C124: distributing the walkers to devices does not change the estimates of an epoch of training with local energies
integrated by parts: energy, variance and centered energies are the same, and the mean over the devices of the gradients
is the gradient on one device. -/
theorem generic_training_on_devices (c : ModelCfg)
    (ions : Fin (m₀ + 1) → Fin d → ℝ) (charges : Fin (m₀ + 1) → ℝ) (dtype : ℕ) (m : Model (m₀ + 1))
    (hm : getModelFromConfig c (counts n) ions charges dtype = .ok m) (hu : Spec.UsesNorms c)
    (hdet : c.ndeterminants ≠ 0) (hn : ∀ s, 0 < n s) (hc : Spec.Callable c (S + 1))
    (Q : ℝ → Params (S + 1) (m₀ + 1) d) (nonzero : ℝ → Stream1 n d → Prop) (ψ : ℝ → Stream1 n d → ℝ)
    (hψ : ∀ t q, Spec.ModelValue c (Q t) ions charges q (nonzero t q) (ψ t q))
    (eiSoft eeSoft : ℝ) (hR : Distinct ions) {κ : Type} (permutation : κ → ∀ n, Equiv.Perm (Fin n))
    (parts sampleParts : List String) {k : ℕ} (hk : k ≠ 0)
    (hD : 0 < D) (hw : 0 < w) (h2 : 2 ≤ D * w) {X : Arr ℝ} (hX : X.shape = [d, ∑ s, n s, D * w])
    (x : Fin (D * w) → Pos (∑ s, n s) d) (hx : ∀ t, x t = Spec.positionsOf X [t.val]) (t₀ : ℝ)
    (h0 : ∀ t, ψ t₀ (splitPositions (x t)) ≠ 0)
    (hs : ∀ᶠ p in 𝓝 t₀, ∀ t, SmoothPlace c (Q p) ions (splitPositions (x t) : Stream1 n d)) (nanSafe : Bool)
    (hdψ : ∀ t, DifferentiableAt ℝ (fun p => ψ p (splitPositions (x t))) t₀)
    (hdE : ∀ t, DifferentiableAt ℝ (fun p =>
      ibpEnergy parts ions charges eiSoft eeSoft (logAbs fun y => ψ p (splitPositions y)) (x t)) t₀) :
    let model := fun Q X => logPsiA (m.onBatch n Q ions) X
    ∃ F, (∀ Q, molEnergyA permutation "ibp" parts k sampleParts (A2 ions) (A1 charges) eiSoft eeSoft
        (model Q) = .ok (F Q)) ∧
      ∀ key, ∃ positions energy aux auxs g, ∃ gs : Fin D → ℝ, distributeA D X = .ok positions ∧
        genericValueAndGradA (pathGrad Q t₀) F model (D * w) nanSafe (Q t₀) key X = .ok (.fin energy, aux, .fin g) ∧
        genericValueAndGradDevicesA (pathGrad Q t₀) F model (D * w) nanSafe (Q t₀) key positions =
          .ok (.fin energy, auxs, List.ofFn fun i => .fin (gs i)) ∧
        auxs.variance = aux.variance ∧ auxs.energyNoclip = aux.energyNoclip ∧
        auxs.varianceNoclip = aux.varianceNoclip ∧ auxs.centered.flatten = aux.centered.flatten ∧
        (∑ i, gs i) / D = g := by
  intro model
  let E : ℝ → Fin (D * w) → ℝ := fun p t =>
    ibpEnergy parts ions charges eiSoft eeSoft (logAbs fun y => ψ p (splitPositions y)) (x t)
  let r' : Fin (D * w) → ℝ := fun t => deriv (fun p => ψ p (splitPositions (x t))) t₀
  let E' : Fin (D * w) → ℝ := fun t => deriv (fun p => E p t) t₀
  have hr : ∀ t, HasDerivAt (fun p => ψ p (splitPositions (x t))) (r' t) t₀ := fun t => (hdψ t).hasDerivAt
  have hE' : ∀ t, HasDerivAt (fun p => E p t) (E' t) t₀ := fun t => (hdE t).hasDerivAt
  obtain ⟨F, hF, hest⟩ := generic_training_estimates c ions charges dtype m hm hu hdet hn hc Q nonzero ψ hψ eiSoft eeSoft hR
    permutation parts sampleParts hk h2 hX x hx t₀ h0 hs nanSafe E (fun _ _ => rfl) r' hr E' hE'
  refine ⟨F, hF, fun key => ?_⟩
  have hXx : X = A3 x := by
    rw [funext hx]
    exact eq_A3' hX
  let y : Fin D → Fin w → Pos (∑ s, n s) d := fun i t => x (Spec.onDevice i t)
  have hdev := fun i => generic_walkers c ions charges dtype m hm hu hdet hn hc Q nonzero ψ hψ eiSoft eeSoft hR
    permutation parts sampleParts hk hw (X := A3 (y i)) rfl (y i)
    (fun t => funext fun i => funext fun k => (A3_get _ t.2 i.2 k.2).symm) t₀ (fun t => h0 _)
    (hs.mono fun p hp t => hp _) (fun p t => E p (Spec.onDevice i t)) (fun _ _ => rfl) (fun t => r' (Spec.onDevice i t))
    (fun t => hr _) (fun t => E' (Spec.onDevice i t)) (fun t => hE' _) hF key
  choose Y hY1 hY2 using fun i => (hdev i).1
  have hmean : (∑ i : Fin D, ∑ t : Fin w, E t₀ (Spec.onDevice i t)) = ∑ t, E t₀ t := sum_onDevice (E t₀)
  have hstat : ∀ b, getStatistics (List.ofFn fun i : Fin D => List.ofFn fun t : Fin w =>
      XR.fin (E t₀ (Spec.onDevice i t))) (D * w) b =
      (.fin ((∑ t, E t₀ t) / (D * w : ℕ)),
        .fin ((∑ t, (E t₀ t - (∑ u, E t₀ u) / (D * w : ℕ)) ^ 2) / (((D * w : ℕ) : ℝ) - 1))) := by
    intro b
    rw [device_statistics hD hw h2, hmean, sum_onDevice fun t => (E t₀ t - (∑ u, E t₀ u) / (D * w : ℕ)) ^ 2]
  have hfwd := fun i => forward_device_derivative c ions charges dtype m hm hu hdet hn hc Q hw h2 (y i)
      (fun p t => nonzero p (splitPositions (y i t))) (fun p t => ψ p (splitPositions (y i t)))
      (fun p t => hψ p _) t₀ (fun t => h0 _) (fun t => r' (Spec.onDevice i t)) (fun t => hr _) nanSafe
      fun t => E t₀ (Spec.onDevice i t) - (∑ u, E t₀ u) / (D * w : ℕ)
  have hcent : ∀ i, centeredA (List.ofFn fun t : Fin w => XR.fin (E t₀ (Spec.onDevice i t)))
      (.fin ((∑ u, E t₀ u) / (D * w : ℕ))) =
      A1 fun t => .fin (E t₀ (Spec.onDevice i t) - (∑ u, E t₀ u) / (D * w : ℕ)) := by
    intro i
    refine eq_A1 ?_ fun t => ?_
    · unfold centeredA
      simp
    · unfold centeredA
      rw [A1_get _ (by simp)]
      simp
  have hgrads : (List.ofFn fun i => A3 (y i)).map (fun x => (List.range (x.shape.getLastD 0)).map fun t =>
      pathGrad Q t₀ fun params' => (F params' (x.part [t]) key).map fun y => y.get []) =
      List.ofFn fun i => List.ofFn fun t => XR.fin (E' (Spec.onDevice i t)) := by
    rw [List.map_ofFn]
    congr 1
    funext i
    refine (hdev i).2.trans ?_
    simp [List.map_ofFn, Function.comp_def]
  have hes : (List.ofFn Y).map entriesA = List.ofFn fun i => List.ofFn fun t => XR.fin (E t₀ (Spec.onDevice i t)) := by
    rw [List.map_ofFn]
    exact congrArg List.ofFn (funext hY2)
  refine ⟨List.ofFn fun i => A3 (y i), _, _, ⟨_, _, _, List.ofFn fun i : Fin D => List.ofFn fun t : Fin w =>
      .fin (E t₀ (Spec.onDevice i t) - (∑ u, E t₀ u) / (D * w : ℕ))⟩, _,
    fun i => 2 * (D * w : ℕ) / (((D * w : ℕ) : ℝ) - 1) *
    ((∑ t, (E t₀ (Spec.onDevice i t) - (∑ u, E t₀ u) / (D * w : ℕ)) *
      (r' (Spec.onDevice i t) / ψ t₀ (splitPositions (y i t)))) / w) + (∑ t, E' t) / (D * w : ℕ),
    by rw [hXx]; exact distribute_positions hD x, hest key, ?_, rfl, rfl, rfl, ?_, ?_⟩
  · unfold genericValueAndGradDevicesA getClipped
    beta_reduce
    rw [mapM_devices (y := Y) fun i => hY1 i, ok_bind]
    simp only [hgrads, hes, hstat, allreduce_devices nanSafe hD hw E', zip_devices]
    refine congrArg Except.ok (congrArg₂ Prod.mk rfl (congrArg₂ Prod.mk ?_ ?_))
    · simp [List.map_ofFn, Function.comp_def]
    · rw [List.map_ofFn]
      congr 1
      funext i
      simp only [Function.comp, hcent]
      unfold pathGrad
      rw [XR.fin_add]
      congr 2
      exact (hfwd i).deriv
  · rw [List.flatten_singleton, List.ofFn_mul]
    rfl
  · have h3 := sum_onDevice fun t => (E t₀ t - (∑ u, E t₀ u) / (D * w : ℕ)) * (r' t / ψ t₀ (splitPositions (x t)))
    have hD' : (D : ℝ) ≠ 0 := by exact_mod_cast hD.ne'
    rw [Finset.sum_add_distrib, ← Finset.mul_sum, ← Finset.sum_div, h3, Finset.sum_const, Finset.card_univ,
      Fintype.card_fin, nsmul_eq_mul, add_div, mul_div_cancel_left₀ _ hD', mul_div_assoc, div_div]
    congr 3
    push_cast
    ring

open MeasureTheory

/-- C124: on several devices too, the mean over independent walkers distributed as `|ψ|²` of the gradients which training
with local energies integrated by parts estimates, averaged over the devices, is the derivative of the energy
`∫ (½|∇ψ|² + Vψ²) / ∫ ψ²`. -/
theorem generic_training_on_devices_unbiased {n : Fin (S + 1) → ℕ} {c : ModelCfg} {ions : Fin (m₀ + 1) → Fin 3 → ℝ}
    {charges : Fin (m₀ + 1) → ℝ} (dtype : ℕ) (m : Model (m₀ + 1))
    (hm : getModelFromConfig c (counts n) ions charges dtype = .ok m) (hu : Spec.UsesNorms c)
    (hdet : c.ndeterminants ≠ 0) (hn : ∀ s, 0 < n s) (hcall : Spec.Callable c (S + 1))
    {Q : ℝ → Params (S + 1) (m₀ + 1) 3} (hQ : SmoothPath Q) {nonzero : ℝ → Stream1 n 3 → Prop}
    {ψ : ℝ → Stream1 n 3 → ℝ}
    (hψ : ∀ t q, Spec.ModelValue c (Q t) ions charges q (nonzero t q) (ψ t q))
    {θ₀ : ℝ} (hc : ∀ᶠ θ in 𝓝 θ₀, Decays c (Q θ) charges n) {q : Pos (∑ s, n s) 3} (hq : Good ions q)
    (h0 : ψ θ₀ (splitPositions q) ≠ 0) (hR : Distinct ions) {κ : Type} [Nonempty κ]
    (permutation : κ → ∀ n, Equiv.Perm (Fin n)) (parts sampleParts : List String) {k : ℕ} (hk : k ≠ 0)
    (hD : 0 < D) (hw : 0 < w) (h2 : 2 ≤ D * w) (nanSafe : Bool) :
    let model := fun Q X => logPsiA (m.onBatch n Q ions) X
    ∃ F, (∀ Q, molEnergyA permutation "ibp" parts k sampleParts (A2 ions) (A1 charges) 0 0
        (model Q) = .ok (F Q)) ∧
      ∃ G : (Fin (D * w) → Pos (∑ s, n s) 3) → ℝ,
        (∀ᵐ x : Fin (D * w) → Pos (∑ s, n s) 3, ∀ key, ∃ positions e aux, ∃ gs : Fin D → ℝ,
          distributeA D (A3 x) = .ok positions ∧
          genericValueAndGradDevicesA (pathGrad Q θ₀) F model (D * w) nanSafe (Q θ₀) key positions =
            .ok (.fin e, aux, List.ofFn fun i => .fin (gs i)) ∧ (∑ i, gs i) / D = G x) ∧
        Integrable G (Measure.pi fun _ => born volume fun y => ψ θ₀ (splitPositions y)) ∧
        HasDerivAt (fun θ => rayleigh (fun y => ψ θ (splitPositions y)) (coulomb 0 0 ions charges))
          (∫ x, G x ∂(Measure.pi fun _ => born volume fun y => ψ θ₀ (splitPositions y))) θ₀ := by
  intro model
  obtain ⟨F, hF, G, hG, hG2, hG3⟩ := generic_training_unbiased dtype m hm hu hdet hn hcall hQ hψ hc hq h0 hR permutation
    parts sampleParts hk h2 nanSafe
  refine ⟨F, hF, G, ?_, hG2, hG3⟩
  have hn' : 0 < ∑ s, n s := Finset.sum_pos (fun s _ => hn s) Finset.univ_nonempty
  obtain ⟨I, hI, hθ₀, hcI, ψ', β, C, hβ, hfam⟩ := configured_family (by norm_num) hn' hQ hψ hc hq h0
  have hθI := mem_of_mem_nhds hθ₀
  obtain ⟨hS, hdiff⟩ := hfam.smooth_ibp (by norm_num) hβ hθ₀ parts charges 0 0
  have hgood : ∀ᵐ x : Pos (∑ s, n s) 3, Good ions x := ae_good (by norm_num) ions
  filter_upwards [hG, ae_walkers hgood, ae_walkers hS.ne_zero, ae_walkers hdiff] with x hGx hx hne hdx key
  obtain ⟨F', hF', hdev⟩ := generic_training_on_devices c ions charges dtype m hm hu hdet hn hcall Q nonzero ψ hψ 0 0 hR
    permutation parts sampleParts hk hD hw h2 (X := A3 x) rfl x
    (fun t => funext fun i => funext fun k => (A3_get x t.2 i.2 k.2).symm) θ₀ hne
    (by
      filter_upwards [hθ₀] with t ht u
      exact smooth_place_of_decays (hcI t ht) (hx u))
    nanSafe (fun t => (hfam.deriv θ₀ hθI (x t) (hx t)).differentiableAt) hdx
  obtain rfl : F' = F := funext fun Q => Except.ok.inj ((hF' Q).symm.trans (hF Q))
  obtain ⟨positions, e, aux, auxs, g, gs, h1, h3, h4, -, -, -, -, h5⟩ := hdev key
  obtain ⟨e', aux', h6⟩ := hGx key
  refine ⟨positions, e, auxs, gs, h1, h4, h5.trans ?_⟩
  exact XR.fin_inj.mp (congrArg (fun r : XR × Aux × XR => r.2.2) (Except.ok.inj (h3.symm.trans h6)))

/-- The hydrogen molecule with mixed orbitals, on four devices with 500 walkers each, with the kinetic energy integrated
by parts. -/
example (P : Params 2 2 3) (permutation : ℕ → ∀ n, Equiv.Perm (Fin n)) :
    ∃ m : Model 2, getModelFromConfig {} (counts fun _ : Fin 2 => 1) protons (fun _ => 1) 32 = .ok m ∧
      let model := fun Q X => logPsiA (m.onBatch (fun _ : Fin 2 => 1) Q protons) X
      ∃ F, (∀ Q, molEnergyA permutation "ibp" ["kinetic"] 1 [] (A2 protons) (A1 fun _ : Fin 2 => 1) 0 0
          (model Q) = .ok (F Q)) ∧
        ∃ G : (Fin (4 * 500) → Pos (∑ _ : Fin 2, 1) 3) → ℝ,
          (∀ᵐ x : Fin (4 * 500) → Pos (∑ _ : Fin 2, 1) 3, ∀ key, ∃ positions e aux, ∃ gs : Fin 4 → ℝ,
            distributeA 4 (A3 x) = .ok positions ∧
            genericValueAndGradDevicesA (pathGrad (mixedParams P) (-Real.exp 1)) F model (4 * 500) true
              (mixedParams P (-Real.exp 1)) key positions = .ok (.fin e, aux, List.ofFn fun i => .fin (gs i)) ∧
            (∑ i, gs i) / (4 : ℕ) = G x) ∧
          Integrable G (Measure.pi fun _ => born volume (mixedWave (-Real.exp 1))) ∧
          HasDerivAt (fun θ => rayleigh (mixedWave θ) (coulomb 0 0 protons fun _ => 1))
            (∫ x, G x ∂(Measure.pi fun _ => born volume (mixedWave (-Real.exp 1)))) (-Real.exp 1) := by
  obtain ⟨m, hm, nz, ψ, v, hψ, hval, hv, hrep⟩ := mixed_model P
  have hfun : ∀ θ, (fun y => ψ θ (splitPositions y)) = mixedWave θ := fun θ => funext (hval θ)
  have hne := mixed_ne_zero
  rw [← hval] at hne
  obtain ⟨F, h1, G, h2, h3, h4⟩ := generic_training_on_devices_unbiased (D := 4) (w := 500) 32 m hm
    ⟨rfl, fun _ => rfl⟩ (by simp) (fun _ => Nat.one_pos)
    (.inl ⟨rfl, .inr (by simp), by simp [Spec.PairsWithoutTwo]⟩) (mixed_path P) hψ
    (.of_forall fun θ => mixed_decays P θ) hydrogen_good hne protons_distinct permutation ["kinetic"] [] (k := 1)
    one_ne_zero (by norm_num) (by norm_num) (by norm_num) true
  refine ⟨m, hm, F, h1, G, h2, ?_, ?_⟩
  · rwa [hfun] at h3
  · simpa only [hfun] using h4

end Verif.Props
