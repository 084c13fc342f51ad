import Verif.Model.BatchedTraining
import Verif.Props.BatchedEpoch

/-!
What training computes on arrays, from the first positions to the last epoch.
-/

namespace Verif.Spec
open Verif.Arrays Verif.Phys Verif.Construct Verif.Net Verif.Energy Verif.Props

/-- What an epoch of training with parameters `Q` and walkers `x` has to report and to differentiate, if no walker is
at a node or a kink: `E` are the local energies of `ψ`, `E'` those after clipping. -/
def EpochEstimates {S m₀ d W : ℕ} {n : Fin (S + 1) → ℕ} (c : ModelCfg) (ions : Fin (m₀ + 1) → Fin d → ℝ)
    (charges : Fin (m₀ + 1) → ℝ) (eiSoft eeSoft : ℝ) (clipping : Option (List XR → XR → List XR))
    (ψ : Params (S + 1) (m₀ + 1) d → Stream1 n d → ℝ) (Q : Params (S + 1) (m₀ + 1) d)
    (x : Fin W → Pos (∑ s, n s) d) (metrics : TrainMetricsA)
    (forward : Params (S + 1) (m₀ + 1) d → Except String XR) (centered : List (List XR)) : Prop :=
  (∀ t, ψ Q (splitPositions (x t)) ≠ 0) → (∀ t, SmoothPlace c Q ions (splitPositions (x t) : Stream1 n d)) →
  ∀ E E' : Fin W → ℝ, (∀ t, E t = localEnergyOf (ψ Q) ions charges eiSoft eeSoft (x t)) →
    (clipping = none → E' = E) →
    (∀ f, clipping = some f → f (List.ofFn fun t => .fin (E t)) (.fin ((∑ t, E t) / W)) =
      List.ofFn fun t => .fin (E' t)) →
    metrics.energy = .fin ((∑ t, E' t) / W) ∧
    metrics.variance = .fin ((∑ t, (E' t - (∑ u, E' u) / W) ^ 2) / ((W : ℝ) - 1)) ∧
    metrics.energyNoclip = .fin ((∑ t, E t) / W) ∧
    metrics.varianceNoclip = .fin ((∑ t, (E t - (∑ u, E u) / W) ^ 2) / ((W : ℝ) - 1)) ∧
    centered = [List.ofFn fun t => .fin (E' t - (∑ u, E' u) / W)] ∧
    ∀ (path : ℝ → Params (S + 1) (m₀ + 1) d) (p₀ : ℝ), path p₀ = Q →
      ∀ r' : Fin W → ℝ, (∀ t, HasDerivAt (fun p => ψ (path p) (splitPositions (x t))) (r' t) p₀) →
        HasDerivAt (fun p => numberOf (forward (path p))) (2 * W / ((W : ℝ) - 1) *
          ((∑ t, (E' t - (∑ u, E' u) / W) * (r' t / ψ Q (splitPositions (x t)))) / W)) p₀

end Verif.Spec

namespace Verif.Props
open Verif.Arrays Verif.MCMC Verif.Phys Verif.Spec Verif.Construct Verif.Net Verif.Energy Verif.Slog

variable {κ M O : Type} {W d : ℕ}

section configured

variable {S m₀ : ℕ} {n : Fin (S + 1) → ℕ} (c : ModelCfg) (ions : Fin (m₀ + 1) → Fin d → ℝ)
  (charges : Fin (m₀ + 1) → ℝ) (dtype : ℕ) (m : Model (m₀ + 1))
  (hm : getModelFromConfig c (counts n) ions charges dtype = .ok m) (hu : Spec.UsesNorms c)
  (hdet : c.ndeterminants ≠ 0) (hn : ∀ s, 0 < n s) (hc : Spec.Callable c (S + 1))

include hm hu hdet hn hc

/-- The energies which are centered for the optimizer. -/
theorem centered_energies (Q : Params (S + 1) (m₀ + 1) d) (nonzero : Stream1 n d → Prop)
    (ψ : Stream1 n d → ℝ) (hψ : ∀ q, Spec.ModelValue c Q ions charges q (nonzero q) (ψ q))
    (eiSoft eeSoft : ℝ) (hR : Distinct ions) (hW : 2 ≤ W) {X : Arr ℝ} (hX : X.shape = [d, ∑ s, n s, W])
    (x : Fin W → Pos (∑ s, n s) d) (hx : ∀ w, x w = Spec.positionsOf X [w.val])
    (h0 : ∀ w, ψ (splitPositions (x w)) ≠ 0)
    (hs : ∀ w, SmoothPlace c Q ions (splitPositions (x w) : Stream1 n d))
    (E : Fin W → ℝ) (hE : ∀ w, E w = localEnergyOf ψ ions charges eiSoft eeSoft (x w))
    (clipping : Option (List XR → XR → List XR)) (E' : Fin W → ℝ)
    (hnone : clipping = none → E' = E)
    (hsome : ∀ f, clipping = some f → f (List.ofFn fun w => .fin (E w)) (.fin ((∑ w, E w) / W)) =
      List.ofFn fun w => .fin (E' w)) (nanSafe : Bool) {energy aux forward} :
    let model := fun Q X => logPsiA (m.onBatch n Q ions) X
    valueAndForwardA (fun Q => localEnergyA (model Q) (A2 ions) (A1 charges) eiSoft eeSoft)
        model W clipping nanSafe Q X = .ok (energy, aux, forward) →
      energy = .fin ((∑ w, E' w) / W) → aux.energyNoclip = .fin ((∑ w, E w) / W) →
      aux.centered = [List.ofFn fun w => .fin (E' w - (∑ u, E' u) / W)] := by
  intro model h he hnc
  have hW0 : 0 < W := by omega
  obtain ⟨Y, h1, h2, h3⟩ := local_energies_finite c ions charges dtype m hm hu hdet hn hc Q nonzero ψ
    hψ eiSoft eeSoft hR hW0 hX (fun t ht => hx ⟨t, ht⟩ ▸ h0 ⟨t, ht⟩) (fun t ht => hx ⟨t, ht⟩ ▸ hs ⟨t, ht⟩)
  have h4 : entriesA Y = List.ofFn fun w => .fin (E w) :=
    entries_of h2 fun t => by rw [h3, hE, hx]
  unfold valueAndForwardA at h
  beta_reduce at h
  rw [h1, ok_bind, h4] at h
  have h := Except.ok.inj h
  have h5 : (getClipped [List.ofFn fun w => XR.fin (E w)] W clipping nanSafe).1 = energy := congrArg Prod.fst h
  have h6 : (getClipped [List.ofFn fun w => XR.fin (E w)] W clipping nanSafe).2.2 = aux :=
    congrArg (fun r => r.2.1) h
  have h7 : (getStatistics [List.ofFn fun w => XR.fin (E w)] W false).1 = .fin ((∑ w, E w) / W) := by
    rw [← hnc, ← h6]
    rfl
  have h8 : (getClipped [List.ofFn fun w => XR.fin (E w)] W clipping nanSafe).2.1 =
      [List.ofFn fun w => XR.fin (E' w)] := by
    unfold getClipped
    cases hcl : clipping with
    | none => simp only [hnone hcl]
    | some f =>
      simp only [h7, List.map_cons, List.map_nil]
      rw [hsome f hcl]
  have h9 : aux.centered = (getClipped [List.ofFn fun w => XR.fin (E w)] W clipping nanSafe).2.1.map fun l =>
      l.map fun e => e - energy := by
    rw [← h6, ← h5]
    rfl
  rw [h9, h8, he]
  simp only [List.map_cons, List.map_nil, List.map_ofFn]
  congr 2

/-- C119: an epoch of training on arrays. -/
theorem training_epoch (nonzero : Params (S + 1) (m₀ + 1) d → Stream1 n d → Prop)
    (ψ : Params (S + 1) (m₀ + 1) d → Stream1 n d → ℝ)
    (hψ : ∀ Q q, Spec.ModelValue c Q ions charges q (nonzero Q q) (ψ Q q))
    (eiSoft eeSoft : ℝ) (hR : Distinct ions) (hW : 2 ≤ W) (split : κ → κ × κ)
    (uniform normal : κ → List ℕ → Arr ℝ) (meanFn : Arr XR → XR) (getStd : PADataA M → ℝ)
    (updateMeta : Option (M → Arr Bool → M)) (logabs : Bool) (hun : ∀ k s, (uniform k s).shape = s)
    (hnorm : ∀ k s, (normal k s).shape = s) (nsteps : ℕ) (clipping : Option (List XR → XR → List XR)) (nanSafe : Bool)
    (optimizer : (Params (S + 1) (m₀ + 1) d → Except String XR) → Params (S + 1) (m₀ + 1) d → O → PADataA M →
      List (List XR) → Params (S + 1) (m₀ + 1) d × O)
    (s : TrainStateA (Params (S + 1) (m₀ + 1) d) O M κ) (hX : s.data.position.shape = [d, ∑ s, n s, W])
    (hA : logPsiA (m.onBatch n s.params ions) s.data.position = .ok s.data.amplitude) :
    let model := fun Q X => logPsiA (m.onBatch n Q ions) X
    let step := paStepA split uniform normal meanFn model getStd updateMeta logabs
    let energy := fun Q => localEnergyA (model Q) (A2 ions) (A1 charges) eiSoft eeSoft
    ∃ s' metrics walked forward centered,
      trainEpochA step nsteps split energy model W clipping nanSafe optimizer s = .ok (s', metrics) ∧
      walkDataA step nsteps s.params s.data s.key = .ok walked ∧ metrics.acceptRatio = walked.1 ∧
      s'.data.position = walked.2.1.position ∧ s'.data.position.shape = [d, ∑ s, n s, W] ∧
      model s'.params s'.data.position = .ok s'.data.amplitude ∧
      s'.data.moveMetadata = walked.2.1.moveMetadata ∧ s'.key = (split walked.2.2).1 ∧
      (s'.params, s'.optState) = optimizer forward s.params s.optState walked.2.1 centered ∧
      Spec.EpochEstimates c ions charges eiSoft eeSoft clipping ψ s.params
        (fun t : Fin W => Spec.positionsOf s'.data.position [t.val]) metrics forward centered := by
  intro model step energy
  have hW0 : 0 < W := by omega
  obtain ⟨D₀, D₁, r, h1, h2, h3, h4, -, h6⟩ := walked_amplitudes_match c ions charges dtype m hm hu hdet hn hc s.params
    split uniform normal meanFn getStd updateMeta logabs hun hnorm hW0 s.data.position s.data.amplitude
    s.data.moveMetadata hX 0 nsteps s.key
  have hD : D₀ = s.data := by
    have : updateDataA model ⟨s.data.position, s.data.amplitude, s.data.moveMetadata⟩ s.params = .ok s.data := by
      unfold updateDataA
      rw [show model s.params s.data.position = .ok s.data.amplitude from hA]
      rfl
    exact Except.ok.inj (h1.symm.trans this)
  have hD1 : D₁ = (s.data, s.key) := by
    rw [hD] at h2
    exact (Except.ok.inj h2).symm
  rw [hD1] at h3
  obtain ⟨Y, h7, h8, -⟩ := vmapped_local_energies c ions charges dtype m hm hu hdet hn s.params hc (nonzero s.params)
    (ψ s.params) (hψ s.params) eiSoft eeSoft hR hW0 h4
  obtain ⟨v, hv⟩ : ∃ v, valueAndForwardA energy model W clipping nanSafe s.params r.2.1.position = .ok v := by
    unfold valueAndForwardA
    rw [show vmapA (energy s.params) r.2.1.position = .ok Y from h7, ok_bind]
    exact ⟨_, rfl⟩
  obtain ⟨po, hpo⟩ : ∃ po, optimizer v.2.2 s.params s.optState r.2.1 v.2.1.centered = po := ⟨_, rfl⟩
  obtain ⟨A, hA'⟩ : ∃ A, model po.1 r.2.1.position = .ok A := by
    rw [eq_A3' h4]
    exact ⟨_, configured_walkers c ions charges dtype m hm hu hdet hn hc po.1 hW0 _⟩
  refine ⟨⟨po.1, ⟨r.2.1.position, A, r.2.1.moveMetadata⟩, po.2, (split r.2.2).1⟩,
    ⟨v.1, v.2.1.variance, v.2.1.energyNoclip, v.2.1.varianceNoclip, r.1⟩, r, v.2.2, v.2.1.centered, ?_, h3, rfl, rfl,
    h4, hA', rfl, rfl, hpo.symm, ?_⟩
  · unfold trainEpochA
    rw [show walkDataA step nsteps s.params s.data s.key = .ok r from h3, ok_bind]
    unfold updateParamA
    simp only []
    rw [hv, ok_bind]
    unfold updateDataA
    simp only [hpo]
    rw [hA', ok_bind]
    rfl
  · intro h0 hs E E' hE hnone hsome
    have hest := fun (path : ℝ → Params (S + 1) (m₀ + 1) d) (p₀ : ℝ) (hp : path p₀ = s.params) =>
      training_estimates c ions charges dtype m hm hu hdet hn hc path (fun p => nonzero (path p))
        (fun p => ψ (path p)) (fun p q => hψ (path p) q) eiSoft eeSoft hR hW h4 _ (fun _ => rfl) p₀
        (by simpa only [hp] using h0) (by simpa only [hp] using hs) E (by simpa only [hp] using hE) clipping E' hnone
        hsome nanSafe
    obtain ⟨en, aux, fw, h9, h10, h11, h12, h13, -⟩ := hest (fun _ => s.params) 0 rfl
    obtain rfl : v = (en, aux, fw) := Except.ok.inj (hv.symm.trans h9)
    refine ⟨h10, h12, h11, h13, ?_, fun path p₀ hp r' hr => ?_⟩
    · exact centered_energies c ions charges dtype m hm hu hdet hn hc s.params (nonzero s.params) (ψ s.params)
        (hψ s.params) eiSoft eeSoft hR hW h4 _ (fun _ => rfl) h0 hs E hE clipping E' hnone hsome nanSafe h9 h10 h11
    · obtain ⟨en', aux', fw', h14, -, -, -, -, h15⟩ := hest path p₀ hp
      rw [hp] at h14
      obtain ⟨rfl, rfl, rfl⟩ : en = en' ∧ aux = aux' ∧ fw = fw' := by
        have := Except.ok.inj (h9.symm.trans h14)
        simpa using this
      have := h15 r' hr
      rw [hp] at this
      exact this

/-- C119: training on arrays, from any array of positions of at least two walkers on, with any optimizer, raises
nothing.  The states `s e` at the starts of the epochs always hold the amplitudes of the model with their parameters
at their positions.  In each epoch the walkers `walked e` are reached with the parameters of this epoch, the metrics
are those of the wave function with the parameters before the update, and the optimizer is given a function whose
derivatives are the energy gradient of this wave function. -/
theorem training_run (nonzero : Params (S + 1) (m₀ + 1) d → Stream1 n d → Prop)
    (ψ : Params (S + 1) (m₀ + 1) d → Stream1 n d → ℝ)
    (hψ : ∀ Q q, Spec.ModelValue c Q ions charges q (nonzero Q q) (ψ Q q))
    (eiSoft eeSoft : ℝ) (hR : Distinct ions) (hW : 2 ≤ W) (split : κ → κ × κ)
    (uniform normal : κ → List ℕ → Arr ℝ) (meanFn : Arr XR → XR) (getStd : PADataA M → ℝ)
    (updateMeta : Option (M → Arr Bool → M)) (logabs : Bool) (hun : ∀ k s, (uniform k s).shape = s)
    (hnorm : ∀ k s, (normal k s).shape = s) (nburn nsteps : ℕ) (clipping : Option (List XR → XR → List XR))
    (nanSafe : Bool)
    (optimizer : (Params (S + 1) (m₀ + 1) d → Except String XR) → Params (S + 1) (m₀ + 1) d → O → PADataA M →
      List (List XR) → Params (S + 1) (m₀ + 1) d × O) (nepochs : ℕ) (Q : Params (S + 1) (m₀ + 1) d) (X : Arr ℝ)
    (hX : X.shape = [d, ∑ s, n s, W]) (md : M) (o : O) (key : κ) :
    let model := fun Q X => logPsiA (m.onBatch n Q ions) X
    let step := paStepA split uniform normal meanFn model getStd updateMeta logabs
    let energy := fun Q => localEnergyA (model Q) (A2 ions) (A1 charges) eiSoft eeSoft
    ∃ (s : ℕ → TrainStateA (Params (S + 1) (m₀ + 1) d) O M κ) (metrics : ℕ → TrainMetricsA)
      (walked : ℕ → XR × PADataA M × κ) (forward : ℕ → Params (S + 1) (m₀ + 1) d → Except String XR)
      (centered : ℕ → List (List XR)),
      trainA step nburn nsteps split energy model W clipping nanSafe optimizer nepochs Q X md o key =
        .ok (s nepochs, List.ofFn fun e : Fin nepochs => metrics e) ∧
      (s 0).params = Q ∧ (s 0).optState = o ∧
      (∃ A, model Q X = .ok A ∧ burnDataA step Q nburn (⟨X, A, md⟩, key) = .ok ((s 0).data, (s 0).key)) ∧
      ∀ e, (s e).data.position.shape = [d, ∑ s, n s, W] ∧
        model (s e).params (s e).data.position = .ok (s e).data.amplitude ∧
        walkDataA step nsteps (s e).params (s e).data (s e).key = .ok (walked e) ∧
        (metrics e).acceptRatio = (walked e).1 ∧ (s (e + 1)).data.position = (walked e).2.1.position ∧
        (s (e + 1)).data.moveMetadata = (walked e).2.1.moveMetadata ∧ (s (e + 1)).key = (split (walked e).2.2).1 ∧
        ((s (e + 1)).params, (s (e + 1)).optState) =
          optimizer (forward e) (s e).params (s e).optState (walked e).2.1 (centered e) ∧
        Spec.EpochEstimates c ions charges eiSoft eeSoft clipping ψ (s e).params
          (fun t : Fin W => Spec.positionsOf (walked e).2.1.position [t.val]) (metrics e) (forward e) (centered e) := by
  intro model step energy
  have hW0 : 0 < W := by omega
  let P := Params (S + 1) (m₀ + 1) d
  let Good : TrainStateA P O M κ → Prop := fun s => s.data.position.shape = [d, ∑ s, n s, W] ∧
    model s.params s.data.position = .ok s.data.amplitude
  have hepoch := fun (s : TrainStateA P O M κ) (hs : Good s) => training_epoch c ions charges dtype m hm hu hdet hn hc
    nonzero ψ hψ eiSoft eeSoft hR hW split uniform normal meanFn getStd updateMeta logabs hun hnorm nsteps clipping
    nanSafe optimizer s hs.1 hs.2
  have : Nonempty (TrainStateA P O M κ) := ⟨⟨Q, ⟨X, A1 fun _ : Fin W => XR.fin 0, md⟩, o, key⟩⟩
  have : Nonempty TrainMetricsA := ⟨⟨0, 0, 0, 0, 0⟩⟩
  have : Nonempty (XR × PADataA M × κ) := ⟨0, ⟨X, A1 fun _ : Fin W => XR.fin 0, md⟩, key⟩
  choose! next met wlk fwd cen h using hepoch
  obtain ⟨D₀, D₁, r, h1, h2, h3, h4, -, h6⟩ := walked_amplitudes_match c ions charges dtype m hm hu hdet hn hc Q
    split uniform normal meanFn getStd updateMeta logabs hun hnorm hW0 X (A1 fun _ : Fin W => XR.fin 0) md hX nburn 0 key
  have hr : r.2.1 = D₁.1 := by
    have : walkDataA step 0 Q D₁.1 D₁.2 = .ok r := h3
    unfold walkDataA walkLoopA at this
    rw [ok_bind] at this
    exact (congrArg (fun r => r.2.1) (Except.ok.inj this)).symm
  obtain ⟨A, hA⟩ : ∃ A, model Q X = .ok A := by
    rw [eq_A3' hX]
    exact ⟨_, configured_walkers c ions charges dtype m hm hu hdet hn hc Q hW0 _⟩
  have hD₀ : D₀ = ⟨X, A, md⟩ := by
    unfold updateDataA at h1
    beta_reduce at h1
    rw [show logPsiA (m.onBatch n Q ions) X = .ok A from hA, ok_bind] at h1
    exact (Except.ok.inj h1).symm
  rw [hr] at h4 h6
  rw [hD₀] at h2
  let s : ℕ → TrainStateA P O M κ := fun e => next^[e] ⟨Q, D₁.1, o, D₁.2⟩
  have hs : ∀ e, s (e + 1) = next (s e) := fun e => Function.iterate_succ_apply' _ _ _
  have hgood : ∀ e, Good (s e) := by
    intro e
    induction e with
    | zero => exact ⟨h4, h6⟩
    | succ e ih =>
      rw [hs]
      exact ⟨(h _ ih).2.2.2.2.1, (h _ ih).2.2.2.2.2.1⟩
  have hloop : ∀ k e, trainLoopA (trainEpochA step nsteps split energy model W clipping nanSafe optimizer) k (s e) =
      .ok (s (e + k), List.ofFn fun i : Fin k => met (s (e + i))) := by
    intro k
    induction k with
    | zero => exact fun e => rfl
    | succ k ih =>
      intro e
      unfold trainLoopA
      rw [(h _ (hgood e)).1, ok_bind, ← hs, ih (e + 1), ok_bind, List.ofFn_succ]
      simp only [Fin.val_succ, Fin.val_zero, add_zero, Nat.add_right_comm, Nat.add_assoc]
      rfl
  refine ⟨s, fun e => met (s e), fun e => wlk (s e), fun e => fwd (s e), fun e => cen (s e), ?_, rfl, rfl,
    ⟨A, hA, h2⟩, fun e => ?_⟩
  · unfold trainA
    rw [hA, ok_bind, show burnDataA step Q nburn (⟨X, A, md⟩, key) = .ok D₁ from h2, ok_bind]
    refine (hloop nepochs 0).trans ?_
    simp only [Nat.zero_add]
  · obtain ⟨-, g2, g3, g4, -, -, g7, g8, g9, g10⟩ := h _ (hgood e)
    refine ⟨(hgood e).1, (hgood e).2, g2, g3, ?_, ?_, ?_, ?_, ?_⟩
    · rw [hs]; exact g4
    · rw [hs]; exact g7
    · rw [hs]; exact g8
    · rw [hs]; exact g9
    · rw [g4] at g10
      exact g10

end configured

/-- Helium trained for two epochs with an optimizer which only makes the wave function larger, starting from
`6 exp (-|x₁| - |x₂|)`: the parameters are those after two updates, the stored amplitudes are theirs, and the second
energy is that of the wave function `9 exp (-|x₁| - |x₂|)` before the second update. -/
example (P : Params 2 1 3) (hW : 2 ≤ W) (X : Arr ℝ) (hX : X.shape = [3, 2, W])
    (uniform normal : ℕ → List ℕ → Arr ℝ) (hun : ∀ k s, (uniform k s).shape = s)
    (hnorm : ∀ k s, (normal k s).shape = s) (nburn nsteps : ℕ) :
    ∃ m : Model 1, getModelFromConfig {} (counts fun _ : Fin 2 => 1)
        (fun (_ : Fin 1) (_ : Fin 3) => (0 : ℝ)) (fun _ => 2) 32 = .ok m ∧
      let model := fun Q X => logPsiA (m.onBatch (fun _ : Fin 2 => 1) Q fun _ _ => 0) X
      let split : ℕ → ℕ × ℕ := fun k => (2 * k, 2 * k + 1)
      let step := paStepA (M := Unit) split uniform normal (fun _ => .fin 0) model (fun _ => 1 / 4) none true
      let energy := fun Q => localEnergyA (model Q) (A2 fun (_ : Fin 1) (_ : Fin 3) => (0 : ℝ))
        (A1 fun (_ : Fin 1) => (2 : ℝ)) 0 0
      ∃ s m₀ m₁, trainA step nburn nsteps split energy model W none false
          (fun _ _ t _ _ => (scaledHelium P (t + 1), t + 1)) 2 (scaledHelium P 2) X () (2 : ℝ) 7 = .ok (s, [m₀, m₁]) ∧
        s.params = scaledHelium P 4 ∧ model (scaledHelium P 4) s.data.position = .ok s.data.amplitude ∧
        ((∀ t < W, Distinct (Spec.positionsOf s.data.position [t] : Pos 2 3)) →
          (∀ t < W, Apart (Spec.positionsOf s.data.position [t] : Pos 2 3) fun (_ : Fin 1) _ => 0) →
          m₁.energy = .fin ((∑ t : Fin W, localEnergyOf
            (fun q : Stream1 (fun _ : Fin 2 => 1) 3 => 3 * 3 * Real.exp (-∑ e, Real.sqrt (∑ b, q e b ^ 2)))
            (fun (_ : Fin 1) _ => 0) (fun _ => 2) 0 0 (Spec.positionsOf s.data.position [t.val])) / W)) := by
  let n : Fin 2 → ℕ := fun _ => 1
  obtain ⟨m, hm⟩ := (model_config_accepted_iff {} (counts n)
    (fun (_ : Fin 1) (_ : Fin 3) => (0 : ℝ)) (fun _ => 2) 32).mpr
    (by rw [counts_length]; exact default_acceptable "ferminet" (by simp))
  have hc : Spec.Callable ({} : ModelCfg) 2 := by
    left
    refine ⟨rfl, .inr (by simp), ?_⟩
    simp [Spec.PairsWithoutTwo]
  have hex : ∀ (Q : Params 2 1 3) (q : Stream1 n 3), ∃ (nz : Prop) (r : ℝ),
      Spec.ModelValue {} Q (fun (_ : Fin 1) _ => 0) (fun _ => 2) q nz r := by
    intro Q q
    obtain ⟨v, hv⟩ := (configured_model_callable_iff {} (fun (_ : Fin 1) (_ : Fin 3) => (0 : ℝ)) (fun _ => 2) 32 m hm
      ⟨rfl, fun _ => rfl⟩ (fun _ => Nat.one_pos) Q q).mpr hc
    obtain ⟨nz, r, h, -⟩ := configured_model_value {} _ _ _ m hm Q q v hv
    exact ⟨nz, r, h⟩
  choose nz ψ hψ using hex
  obtain ⟨s, metrics, walked, forward, centered, h1, h2, h3, -, h5⟩ := training_run (M := Unit) (O := ℝ) {}
    (fun (_ : Fin 1) (_ : Fin 3) => (0 : ℝ)) (fun _ => 2) 32 m hm ⟨rfl, fun _ => rfl⟩ (by simp) (fun _ => Nat.one_pos)
    hc nz ψ hψ 0 0 (fun i j hij => absurd (Fin.ext (by omega)) hij) hW (fun k : ℕ => (2 * k, 2 * k + 1)) uniform normal
    (fun _ => .fin 0) (fun _ => 1 / 4) none true hun hnorm nburn nsteps none false
    (fun _ _ t _ _ => (scaledHelium P (t + 1), t + 1)) 2 (scaledHelium P 2) X hX () 2 7
  have hp := fun e => Prod.ext_iff.mp (h5 e).2.2.2.2.2.2.2.1
  simp only [] at hp
  have ho1 : (s 1).optState = 3 := by rw [(hp 0).2, h3]; norm_num
  have hp1 : (s 1).params = scaledHelium P 3 := by rw [(hp 0).1, h3]; norm_num
  have hp2 : (s 2).params = scaledHelium P 4 := by rw [(hp 1).1, ho1]; norm_num
  refine ⟨m, hm, s 2, metrics 0, metrics 1, h1, hp2, hp2 ▸ (h5 2).2.1, fun hx hx' => ?_⟩
  have hq : ψ (scaledHelium P 3) = fun q => 3 * 3 * Real.exp (-∑ e, Real.sqrt (∑ b, q e b ^ 2)) :=
    funext fun q => scaled_helium_value (hψ _ q)
  have hE := (h5 1).2.2.2.2.2.2.2.2
  rw [hp1, ← (h5 1).2.2.2.2.1] at hE
  have := (hE (fun t => by
      rw [hq]
      positivity)
    (fun t => ⟨⟨fun e e' he => hx t t.2 _ _ (finSigmaFinEquiv.injective.ne he), fun e j => hx' t t.2 _ j⟩,
      fun h => by simp at h, fun _ _ _ _ _ => .inr (.inl rfl), fun h => by simp at h, fun h => by simp at h⟩)
    _ _ (fun _ => rfl) (fun _ => rfl) (fun f h => by cases h)).1
  rw [this, hq]

end Verif.Props
