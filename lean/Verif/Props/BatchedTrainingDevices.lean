import Verif.Model.BatchedTrainingDevices
import Verif.Props.BatchedAdaptive
import Verif.Props.BatchedTraining

/-!
Training on several devices.
-/

namespace Verif.Spec
open Verif.Arrays Verif.MCMC Verif.Phys Verif.Construct Verif.Net Verif.Energy Verif.Props

/-- What an epoch with walkers `x` on several devices estimates, if no walker is at a node or kink: means over all walkers,
and gradients `forward i` of the devices whose mean is that of the estimator over all walkers. -/
def DeviceEstimates {D w d S m₀ : ℕ} {n : Fin (S + 1) → ℕ} (c : ModelCfg) (ions : Fin (m₀ + 1) → Fin d → ℝ)
    (charges : Fin (m₀ + 1) → ℝ) (eiSoft eeSoft : ℝ) (clipping : Option (List XR → XR → List XR))
    (ψ : Params (S + 1) (m₀ + 1) d → Stream1 n d → ℝ) (Q : Params (S + 1) (m₀ + 1) d)
    (x : Fin D → Fin w → Pos (∑ s, n s) d) (metrics : TrainMetricsA)
    (forward : Fin D → Params (S + 1) (m₀ + 1) d → Except String XR) : Prop :=
  (∀ i t, ψ Q (splitPositions (x i t)) ≠ 0) →
  (∀ i t, SmoothPlace c Q ions (splitPositions (x i t) : Stream1 n d)) →
  ∀ E E' : Fin D → Fin w → ℝ, (∀ i t, E i t = localEnergyOf (ψ Q) ions charges eiSoft eeSoft (x i t)) →
    (clipping = none → E' = E) →
    (∀ f, clipping = some f → ∀ i, f (List.ofFn fun t => .fin (E i t))
      (.fin ((∑ j, ∑ u, E j u) / (D * w : ℕ))) = List.ofFn fun t => .fin (E' i t)) →
    metrics.energy = .fin ((∑ i, ∑ t, E' i t) / (D * w : ℕ)) ∧
    metrics.energyNoclip = .fin ((∑ i, ∑ t, E i t) / (D * w : ℕ)) ∧
    metrics.variance = .fin ((∑ i, ∑ t, (E' i t - (∑ j, ∑ u, E' j u) / (D * w : ℕ)) ^ 2) / (((D * w : ℕ) : ℝ) - 1)) ∧
    metrics.varianceNoclip =
      .fin ((∑ i, ∑ t, (E i t - (∑ j, ∑ u, E j u) / (D * w : ℕ)) ^ 2) / (((D * w : ℕ) : ℝ) - 1)) ∧
    ∀ (path : ℝ → Params (S + 1) (m₀ + 1) d) (p₀ : ℝ), path p₀ = Q → ∀ r' : Fin D → Fin w → ℝ,
      (∀ i t, HasDerivAt (fun p => ψ (path p) (splitPositions (x i t))) (r' i t) p₀) →
      ∃ g : Fin D → ℝ, (∀ i, HasDerivAt (fun p => numberOf (forward i (path p))) (g i) p₀) ∧
        (∑ i, g i) / D = 2 * (D * w : ℕ) / (((D * w : ℕ) : ℝ) - 1) *
          ((∑ i, ∑ t, (E' i t - (∑ j, ∑ u, E' j u) / (D * w : ℕ)) * (r' i t / ψ Q (splitPositions (x i t)))) /
            (D * w : ℕ))

/-- A walk of all devices which returns, with the shapes it was given, for walkers with the amplitudes of the model. -/
def Walks {κ M P : Type} (D : ℕ) (shape : List ℕ) (model : P → Arr ℝ → Except String (Arr XR))
    (walk : List P → List (PADataA M × κ) → Except String (XR × List (PADataA M × κ))) : Prop :=
  ∀ (Q : P) (data : Fin D → PADataA M × κ), (∀ i, (data i).1.position.shape = shape) →
    (∀ i, model Q (data i).1.position = .ok (data i).1.amplitude) →
    ∃ (a : XR) (walked : Fin D → PADataA M × κ), walk (List.ofFn fun _ : Fin D => Q) (List.ofFn data) =
      .ok (a, List.ofFn walked) ∧ ∀ i, (walked i).1.position.shape = shape

end Verif.Spec

namespace Verif.Props
open Verif.Arrays Verif.MCMC Verif.Phys Verif.Spec Verif.Construct Verif.Net Verif.Energy Verif.Slog

variable {κ M O G : Type} [AddCommGroup G] [Module ℝ G] {D w d : ℕ}

theorem clipped_devices (L : Fin D → List XR) (nchains : ℕ) (clipping : Option (List XR → XR → List XR))
    (nanSafe : Bool) : ∃ L' : Fin D → List XR, (getClipped (List.ofFn L) nchains clipping nanSafe).2.1 = List.ofFn L' := by
  unfold getClipped
  cases clipping with
  | none => exact ⟨L, rfl⟩
  | some f => exact ⟨_, List.map_ofFn ..⟩

/-- Devices with the same metadata keep the same metadata. -/
theorem replicas_keep_metadata {N : ℕ} (split : κ → κ × κ) (uniform normal : κ → List ℕ → Arr ℝ)
    (nmoves : ℕ) (adjust : ℝ → ℝ → ℝ) (logabs : Bool) (psi : Pos N d → XR)
    (p : Fin D → PAData (Fin w) (Pos N d) MoveMetadata × κ)
    (h : ∀ i j, (p i).1.moveMetadata = (p j).1.moveMetadata) (k : ℕ) (i j : Fin D) :
    ((devicesNext split uniform normal logabs psi nmoves adjust)^[k] p i).1.moveMetadata =
      ((devicesNext split uniform normal logabs psi nmoves adjust)^[k] p j).1.moveMetadata := by
  induction k generalizing i j with
  | zero => exact h i j
  | succ k ih =>
    simp only [Function.iterate_succ_apply']
    show updateMoveMetadata _ _ _ _ = updateMoveMetadata _ _ _ _
    rw [ih i j]

section configured

variable {S m₀ : ℕ} {n : Fin (S + 1) → ℕ} (c : ModelCfg) (ions : Fin (m₀ + 1) → Fin d → ℝ)
  (charges : Fin (m₀ + 1) → ℝ) (dtype : ℕ) (m : Model (m₀ + 1))
  (hm : getModelFromConfig c (counts n) ions charges dtype = .ok m) (hu : Spec.UsesNorms c)
  (hdet : c.ndeterminants ≠ 0) (hn : ∀ s, 0 < n s) (hc : Spec.Callable c (S + 1))

include hm hu hdet hn hc

/-- C126: an epoch of training on several devices with the same parameters and optimizer state. -/
theorem training_epoch_on_devices (nonzero : Params (S + 1) (m₀ + 1) d → Stream1 n d → Prop)
    (ψ : Params (S + 1) (m₀ + 1) d → Stream1 n d → ℝ)
    (hψ : ∀ Q q, Spec.ModelValue c Q ions charges q (nonzero Q q) (ψ Q q))
    (eiSoft eeSoft : ℝ) (hR : Distinct ions) (hD : 0 < D) (hw : 0 < w) (h2 : 2 ≤ D * w) (split : κ → κ × κ)
    (walk : List (Params (S + 1) (m₀ + 1) d) → List (PADataA M × κ) → Except String (XR × List (PADataA M × κ)))
    (hwalk : Spec.Walks D [d, ∑ s, n s, w] (fun Q X => logPsiA (m.onBatch n Q ions) X) walk)
    (clipping : Option (List XR → XR → List XR)) (nanSafe : Bool)
    (grad : (Params (S + 1) (m₀ + 1) d → Except String XR) → Params (S + 1) (m₀ + 1) d → G)
    (optimizer : G → Params (S + 1) (m₀ + 1) d → O → Params (S + 1) (m₀ + 1) d × O)
    (Q : Params (S + 1) (m₀ + 1) d) (o : O) (data : Fin D → PADataA M) (keys : Fin D → κ)
    (hX : ∀ i, (data i).position.shape = [d, ∑ s, n s, w])
    (hA : ∀ i, logPsiA (m.onBatch n Q ions) (data i).position = .ok (data i).amplitude) :
    let model := fun Q X => logPsiA (m.onBatch n Q ions) X
    let energy := fun Q => localEnergyA (model Q) (A2 ions) (A1 charges) eiSoft eeSoft
    ∃ (Q' : Params (S + 1) (m₀ + 1) d) (o' : O) (data' : Fin D → PADataA M) (keys' : Fin D → κ) (metrics : TrainMetricsA)
      (acc : XR) (walked : Fin D → PADataA M × κ) (forward : Fin D → Params (S + 1) (m₀ + 1) d → Except String XR),
      trainEpochDevicesA walk (updateParamDevicesA grad split energy model (D * w) clipping nanSafe optimizer)
          (List.ofFn fun i => ⟨Q, data i, o, keys i⟩) =
        .ok (List.ofFn fun i => ⟨Q', data' i, o', keys' i⟩, metrics) ∧
      walk (List.ofFn fun _ : Fin D => Q) (List.ofFn fun i => (data i, keys i)) = .ok (acc, List.ofFn walked) ∧
      (∀ i, (data' i).position = (walked i).1.position ∧
        (data' i).moveMetadata = (walked i).1.moveMetadata ∧ (data' i).position.shape = [d, ∑ s, n s, w] ∧
        model Q' (data' i).position = .ok (data' i).amplitude ∧ keys' i = (split (walked i).2).1) ∧
      metrics.acceptRatio = acc ∧
      (Q', o') = optimizer ((D : ℝ)⁻¹ • ∑ i, grad (forward i) Q) Q o ∧
      Spec.DeviceEstimates c ions charges eiSoft eeSoft clipping ψ Q
        (fun i (t : Fin w) => Spec.positionsOf (walked i).1.position [t.val]) metrics forward := by
  intro model energy
  obtain ⟨acc, r, hr1, hr2⟩ := hwalk Q (fun i => (data i, keys i)) hX hA
  have hen : ∀ i, ∃ Y, vmapA (energy Q) (r i).1.position = .ok Y := by
    intro i
    obtain ⟨Y, h7, -, -⟩ := vmapped_local_energies c ions charges dtype m hm hu hdet hn Q hc (nonzero Q) (ψ Q) (hψ Q)
      eiSoft eeSoft hR hw (hr2 i)
    exact ⟨Y, h7⟩
  choose Y hY using hen
  obtain ⟨L', hL'⟩ := clipped_devices (fun i => entriesA (Y i)) (D * w) clipping nanSafe
  obtain ⟨v, hv⟩ : ∃ v, getClipped (List.ofFn fun i => entriesA (Y i)) (D * w) clipping nanSafe = v := ⟨_, rfl⟩
  rw [hv] at hL'
  let forward : Fin D → Params (S + 1) (m₀ + 1) d → Except String XR := fun i Q' =>
    forwardA model (D * w) nanSafe Q' (r i).1.position (centeredA (L' i) v.1)
  obtain ⟨po, hpo⟩ : ∃ po, optimizer ((D : ℝ)⁻¹ • ∑ i, grad (forward i) Q) Q o = po := ⟨_, rfl⟩
  have hamp : ∀ i, ∃ A, model po.1 (r i).1.position = .ok A := by
    intro i
    rw [eq_A3' (hr2 i)]
    exact ⟨_, configured_walkers c ions charges dtype m hm hu hdet hn hc po.1 hw _⟩
  choose A hA' using hamp
  refine ⟨po.1, po.2, fun i => ⟨(r i).1.position, A i, (r i).1.moveMetadata⟩, fun i => (split (r i).2).1,
    ⟨v.1, v.2.2.variance, v.2.2.energyNoclip, v.2.2.varianceNoclip, acc⟩, acc, r, forward, ?_,
    hr1, fun i => ⟨rfl, rfl, hr2 i, hA' i, rfl⟩, rfl, hpo.symm, ?_⟩
  · unfold trainEpochDevicesA
    simp only [List.map_ofFn, Function.comp_def]
    rw [hr1, ok_bind, zip_devices, List.map_ofFn]
    simp only [Function.comp_def]
    unfold updateParamDevicesA
    rw [mapM_devices (f := fun s : TrainStateA (Params (S + 1) (m₀ + 1) d) O M κ =>
      vmapA (energy s.params) s.data.position) (x := fun i => ⟨Q, (r i).1, o, (r i).2⟩) (y := Y) fun i => hY i, ok_bind]
    simp only [List.map_ofFn, Function.comp_def]
    rw [hv, hL', zip_devices, List.map_ofFn]
    simp only [List.length_ofFn, List.sum_ofFn, Function.comp_def]
    rw [mapM_devices (y := fun i => (⟨po.1, ⟨(r i).1.position, A i, (r i).1.moveMetadata⟩, po.2,
      (split (r i).2).1⟩ : TrainStateA _ O M κ)) fun i => ?_, ok_bind]
    · rfl
    · show (updateDataA model (r i).1 (optimizer ((D : ℝ)⁻¹ • ∑ i, grad (forward i) Q) Q o).1 >>= _) = _
      rw [hpo]
      unfold updateDataA
      rw [hA' i]
      simp only [ok_bind]
      rfl
  · intro h0 hs E E' hE hnone hsome
    let x : Fin D → Fin w → Pos (∑ s, n s) d := fun i t => Spec.positionsOf (r i).1.position [t.val]
    have hx : ∀ i, (r i).1.position = A3 (x i) := fun i => eq_A3' (hr2 i)
    let y : Fin (D * w) → Pos (∑ s, n s) d := fun t => x t.divNat t.modNat
    have hy : ∀ i t, y (Spec.onDevice i t) = x i t := by
      intro i t
      have h1 : (Spec.onDevice i t).divNat = i := Fin.ext (by
        show (i.val * w + t.val) / w = i.val
        rw [mul_comm, Nat.mul_add_div hw, Nat.div_eq_of_lt t.2, add_zero])
      have h3 : (Spec.onDevice i t).modNat = t := Fin.ext (by
        show (i.val * w + t.val) % w = t.val
        rw [mul_comm, Nat.mul_add_mod, Nat.mod_eq_of_lt t.2])
      show x _ _ = _
      rw [h1, h3]
    have hyx : ∀ i t, x i t = Spec.positionsOf (A3 y) [i.val * w + t.val] := by
      intro i t
      rw [← hy]
      funext e k
      exact (A3_get y (Spec.onDevice i t).2 e.2 k.2).symm
    have hvf : valueAndForwardDevicesA energy model (D * w) clipping nanSafe Q (List.ofFn fun i => A3 (x i)) =
        .ok (v.1, v.2.2, List.ofFn forward) := by
      unfold valueAndForwardDevicesA
      rw [mapM_devices (y := Y) fun i => by rw [← hx]; exact hY i, ok_bind]
      simp only [List.map_ofFn, Function.comp_def]
      rw [hv, hL', zip_devices, List.map_ofFn]
      simp only [Function.comp_def, ← hx]
      rfl
    have hest := fun (path : ℝ → Params (S + 1) (m₀ + 1) d) (p₀ : ℝ) (hp : path p₀ = Q) =>
      training_on_devices c ions charges dtype m hm hu hdet hn hc path (fun p => nonzero (path p))
        (fun p => ψ (path p)) (fun p q => hψ (path p) q) eiSoft eeSoft hR hD hw h2 (X := A3 y) rfl x hyx p₀
        (by simpa only [hp] using h0) (by simpa only [hp] using hs) E (by simpa only [hp] using hE) clipping E' hnone
        hsome nanSafe
    have hpos : distributeA D (A3 y) = .ok (List.ofFn fun i => A3 (x i)) := by
      rw [distribute_positions hD]
      simp only [hy]
    have huse : ∀ (path : ℝ → Params (S + 1) (m₀ + 1) d) (p₀ : ℝ), path p₀ = Q →
        v.1 = .fin ((∑ i, ∑ t, E' i t) / (D * w : ℕ)) ∧ v.2.2.energyNoclip = .fin ((∑ i, ∑ t, E i t) / (D * w : ℕ)) ∧
        ∀ r' : Fin D → Fin w → ℝ, (∀ i t, HasDerivAt (fun p => ψ (path p) (splitPositions (x i t))) (r' i t) p₀) →
          ∃ g : Fin D → ℝ, (∀ i, HasDerivAt (fun p => numberOf (forward i (path p))) (g i) p₀) ∧
            (∑ i, g i) / D = 2 * (D * w : ℕ) / (((D * w : ℕ) : ℝ) - 1) *
              ((∑ i, ∑ t, (E' i t - (∑ j, ∑ u, E' j u) / (D * w : ℕ)) * (r' i t / ψ Q (splitPositions (x i t)))) /
                (D * w : ℕ)) := by
      intro path p₀ hp
      obtain ⟨positions, g1, en, aux, fw, g2, g3, g4, g5⟩ := hest path p₀ hp
      obtain rfl := Except.ok.inj (hpos.symm.trans g1)
      rw [hp] at g2
      have g6 := Except.ok.inj (hvf.symm.trans g2)
      have g7 : v.1 = en := congrArg (fun z => z.1) g6
      have g8 : v.2.2 = aux := congrArg (fun z => z.2.1) g6
      have g9 : forward = fw := List.ofFn_injective (congrArg (fun z => z.2.2) g6)
      rw [g7, g8, g9]
      refine ⟨g3, g4, fun r' hr' => ?_⟩
      have := g5 r' hr'
      rw [hp] at this
      exact this
    have hYE : (List.ofFn fun i => entriesA (Y i)) = List.ofFn fun i => List.ofFn fun t => XR.fin (E i t) := by
      congr 1
      funext i
      obtain ⟨Y', g1, g2, g3⟩ := local_energies_finite c ions charges dtype m hm hu hdet hn hc Q (nonzero Q) (ψ Q)
        (hψ Q) eiSoft eeSoft hR hw (hr2 i) (fun t ht => h0 i ⟨t, ht⟩) (fun t ht => hs i ⟨t, ht⟩)
      obtain rfl : Y' = Y i := Except.ok.inj (g1.symm.trans (hY i))
      exact entries_of g2 fun t => by rw [g3, hE]
    have hv1 : v.2.1 = List.ofFn fun i => List.ofFn fun t => XR.fin (E' i t) := by
      rw [← hv, hYE]
      unfold getClipped
      cases hcl : clipping with
      | none => simp only [hnone hcl]
      | some f =>
        simp only [device_statistics hD hw h2, List.map_ofFn]
        congr 1
        funext i
        exact hsome f hcl i
    have hv2 : v.2.2.variance = (getStatistics v.2.1 (D * w) nanSafe).2 := by
      rw [← hv]
      rfl
    have hv3 : v.2.2.varianceNoclip =
        (getStatistics (List.ofFn fun i => List.ofFn fun t => XR.fin (E i t)) (D * w) false).2 := by
      rw [← hv, hYE]
      rfl
    rw [hv1, device_statistics hD hw h2] at hv2
    rw [device_statistics hD hw h2] at hv3
    exact ⟨(huse (fun _ => Q) 0 rfl).1, (huse (fun _ => Q) 0 rfl).2.1, hv2, hv3, fun path p₀ hp => (huse path p₀ hp).2.2⟩

/-- Training from data which are already on the devices. -/
theorem training_run_from_devices (nonzero : Params (S + 1) (m₀ + 1) d → Stream1 n d → Prop)
    (ψ : Params (S + 1) (m₀ + 1) d → Stream1 n d → ℝ)
    (hψ : ∀ Q q, Spec.ModelValue c Q ions charges q (nonzero Q q) (ψ Q q))
    (eiSoft eeSoft : ℝ) (hR : Distinct ions) (hD : 0 < D) (hw : 0 < w) (h2 : 2 ≤ D * w) (split : κ → κ × κ)
    (walk : List (Params (S + 1) (m₀ + 1) d) → List (PADataA M × κ) → Except String (XR × List (PADataA M × κ)))
    (hwalk : Spec.Walks D [d, ∑ s, n s, w] (fun Q X => logPsiA (m.onBatch n Q ions) X) walk)
    (clipping : Option (List XR → XR → List XR)) (nanSafe : Bool)
    (grad : (Params (S + 1) (m₀ + 1) d → Except String XR) → Params (S + 1) (m₀ + 1) d → G)
    (optimizer : G → Params (S + 1) (m₀ + 1) d → O → Params (S + 1) (m₀ + 1) d × O) (nepochs : ℕ)
    (Q₀ : Params (S + 1) (m₀ + 1) d) (o₀ : O) (data₀ : Fin D → PADataA M)
    (hX : ∀ i, (data₀ i).position.shape = [d, ∑ s, n s, w])
    (hA : ∀ i, logPsiA (m.onBatch n Q₀ ions) (data₀ i).position = .ok (data₀ i).amplitude) (keys₀ : Fin D → κ) :
    let model := fun Q X => logPsiA (m.onBatch n Q ions) X
    let energy := fun Q => localEnergyA (model Q) (A2 ions) (A1 charges) eiSoft eeSoft
    ∃ (Q : ℕ → Params (S + 1) (m₀ + 1) d) (o : ℕ → O) (data : ℕ → Fin D → PADataA M) (keys : ℕ → Fin D → κ)
      (metrics : ℕ → TrainMetricsA) (acc : ℕ → XR) (walked : ℕ → Fin D → PADataA M × κ)
      (forward : ℕ → Fin D → Params (S + 1) (m₀ + 1) d → Except String XR),
      data 0 = data₀ ∧ Q 0 = Q₀ ∧ o 0 = o₀ ∧ keys 0 = keys₀ ∧
      trainLoopDevicesA (trainEpochDevicesA walk (updateParamDevicesA grad split energy model (D * w) clipping nanSafe optimizer)) nepochs
          (List.ofFn fun i => ⟨Q₀, data₀ i, o₀, keys₀ i⟩) =
        .ok (List.ofFn fun i => ⟨Q nepochs, data nepochs i, o nepochs, keys nepochs i⟩,
          List.ofFn fun e : Fin nepochs => metrics e) ∧
      ∀ e, walk (List.ofFn fun _ : Fin D => Q e) (List.ofFn fun i => (data e i, keys e i)) =
          .ok (acc e, List.ofFn (walked e)) ∧ (∀ i, (data e i).position.shape = [d, ∑ s, n s, w] ∧
          model (Q e) (data e i).position = .ok (data e i).amplitude ∧
          (data (e + 1) i).position = (walked e i).1.position ∧
          (data (e + 1) i).moveMetadata = (walked e i).1.moveMetadata ∧ keys (e + 1) i = (split (walked e i).2).1) ∧
        (metrics e).acceptRatio = acc e ∧
        (Q (e + 1), o (e + 1)) = optimizer ((D : ℝ)⁻¹ • ∑ i, grad (forward e i) (Q e)) (Q e) (o e) ∧
        Spec.DeviceEstimates c ions charges eiSoft eeSoft clipping ψ (Q e)
          (fun i (t : Fin w) => Spec.positionsOf (walked e i).1.position [t.val]) (metrics e) (forward e) := by
  intro model energy
  let St := Params (S + 1) (m₀ + 1) d × O × (Fin D → PADataA M) × (Fin D → κ)
  let Good : St → Prop := fun s => (∀ i, (s.2.2.1 i).position.shape = [d, ∑ s, n s, w]) ∧
    ∀ i, model s.1 (s.2.2.1 i).position = .ok (s.2.2.1 i).amplitude
  let lst : St → List (TrainStateA (Params (S + 1) (m₀ + 1) d) O M κ) := fun s =>
    List.ofFn fun i => ⟨s.1, s.2.2.1 i, s.2.1, s.2.2.2 i⟩
  have hepoch : ∀ s : St, Good s → ∃ (s' : St) (metrics : TrainMetricsA) (acc : XR) (walked : Fin D → PADataA M × κ)
      (forward : Fin D → Params (S + 1) (m₀ + 1) d → Except String XR),
      trainEpochDevicesA walk (updateParamDevicesA grad split energy model (D * w) clipping nanSafe optimizer) (lst s) =
        .ok (lst s', metrics) ∧
      walk (List.ofFn fun _ : Fin D => s.1) (List.ofFn fun i => (s.2.2.1 i, s.2.2.2 i)) = .ok (acc, List.ofFn walked) ∧
      (∀ i, (s'.2.2.1 i).position = (walked i).1.position ∧
        (s'.2.2.1 i).moveMetadata = (walked i).1.moveMetadata ∧ (s'.2.2.1 i).position.shape = [d, ∑ s, n s, w] ∧
        model s'.1 (s'.2.2.1 i).position = .ok (s'.2.2.1 i).amplitude ∧ s'.2.2.2 i = (split (walked i).2).1) ∧
      metrics.acceptRatio = acc ∧
      (s'.1, s'.2.1) = optimizer ((D : ℝ)⁻¹ • ∑ i, grad (forward i) s.1) s.1 s.2.1 ∧
      Spec.DeviceEstimates c ions charges eiSoft eeSoft clipping ψ s.1
        (fun i (t : Fin w) => Spec.positionsOf (walked i).1.position [t.val]) metrics forward := by
    intro s hs
    obtain ⟨Q', o', data', keys', h⟩ := training_epoch_on_devices c ions charges dtype m hm hu hdet hn hc
      nonzero ψ hψ eiSoft eeSoft hR hD hw h2 split walk hwalk clipping
      nanSafe grad optimizer s.1 s.2.1 s.2.2.1 s.2.2.2 hs.1 hs.2
    exact ⟨(Q', o', data', keys'), h⟩
  let s₀ : St := (Q₀, o₀, data₀, keys₀)
  have : Nonempty St := ⟨s₀⟩
  have : Nonempty TrainMetricsA := ⟨⟨0, 0, 0, 0, 0⟩⟩
  have : Nonempty XR := ⟨0⟩
  have : Nonempty (Fin D → PADataA M × κ) := ⟨fun i => (data₀ i, keys₀ i)⟩
  choose! next met ac wlk fwd h using hepoch
  let s : ℕ → St := fun e => next^[e] s₀
  have hs : ∀ e, s (e + 1) = next (s e) := fun e => Function.iterate_succ_apply' _ _ _
  have hgood : ∀ e, Good (s e) := by
    intro e
    induction e with
    | zero => exact ⟨hX, hA⟩
    | succ e ih =>
      rw [hs]
      exact ⟨fun i => ((h _ ih).2.2.1 i).2.2.1, fun i => ((h _ ih).2.2.1 i).2.2.2.1⟩
  have hloop : ∀ k e, trainLoopDevicesA
      (trainEpochDevicesA walk (updateParamDevicesA grad split energy model (D * w) clipping nanSafe optimizer)) k (lst (s e)) =
      .ok (lst (s (e + k)), List.ofFn fun i : Fin k => met (s (e + i))) := by
    intro k
    induction k with
    | zero => exact fun e => rfl
    | succ k ih =>
      intro e
      unfold trainLoopDevicesA
      rw [(h _ (hgood e)).1, ok_bind, ← hs, ih (e + 1), ok_bind, List.ofFn_succ]
      simp only [Fin.val_succ, Fin.val_zero, add_zero, Nat.add_right_comm, Nat.add_assoc]
      rfl
  refine ⟨fun e => (s e).1, fun e => (s e).2.1, fun e => (s e).2.2.1, fun e => (s e).2.2.2, fun e => met (s e),
    fun e => ac (s e), fun e => wlk (s e), fun e => fwd (s e), rfl, rfl, rfl, rfl, ?_, fun e => ?_⟩
  · refine (hloop nepochs 0).trans ?_
    simp only [Nat.zero_add]
    rfl
  · obtain ⟨-, g1, g2, g5, g3, g4⟩ := h _ (hgood e)
    refine ⟨g1, fun i => ⟨(hgood e).1 i, (hgood e).2 i, ?_, ?_, ?_⟩, g5, ?_, g4⟩
    · simp only [hs]; exact (g2 i).1
    · simp only [hs]; exact (g2 i).2.1
    · simp only [hs]; exact (g2 i).2.2.2.2
    · simp only [hs]; exact g3

/-- C126: training on several devices which start with the same parameters and optimizer state, for any number of epochs,
raises nothing.  At the start of every epoch all devices have the same parameters and optimizer state, and the amplitudes of
the model with these parameters; the metrics are those over the walkers of all devices, and the optimizer is given the mean
of the gradients of the devices, which is the gradient estimated from the walkers of all devices. -/
theorem training_run_on_devices (nonzero : Params (S + 1) (m₀ + 1) d → Stream1 n d → Prop)
    (ψ : Params (S + 1) (m₀ + 1) d → Stream1 n d → ℝ)
    (hψ : ∀ Q q, Spec.ModelValue c Q ions charges q (nonzero Q q) (ψ Q q))
    (eiSoft eeSoft : ℝ) (hR : Distinct ions) (hD : 0 < D) (hw : 0 < w) (h2 : 2 ≤ D * w) (split : κ → κ × κ)
    (walk : List (Params (S + 1) (m₀ + 1) d) → List (PADataA M × κ) → Except String (XR × List (PADataA M × κ)))
    (hwalk : Spec.Walks D [d, ∑ s, n s, w] (fun Q X => logPsiA (m.onBatch n Q ions) X) walk)
    (clipping : Option (List XR → XR → List XR)) (nanSafe : Bool)
    (grad : (Params (S + 1) (m₀ + 1) d → Except String XR) → Params (S + 1) (m₀ + 1) d → G)
    (optimizer : G → Params (S + 1) (m₀ + 1) d → O → Params (S + 1) (m₀ + 1) d × O) (nepochs : ℕ)
    (Q₀ : Params (S + 1) (m₀ + 1) d) (o₀ : O) (start : PADataA M) (hX : start.position.shape = [d, ∑ s, n s, D * w])
    (hA : logPsiA (m.onBatch n Q₀ ions) start.position = .ok start.amplitude) (keys₀ : Fin D → κ) :
    let model := fun Q X => logPsiA (m.onBatch n Q ions) X
    let energy := fun Q => localEnergyA (model Q) (A2 ions) (A1 charges) eiSoft eeSoft
    ∃ (Q : ℕ → Params (S + 1) (m₀ + 1) d) (o : ℕ → O) (data : ℕ → Fin D → PADataA M) (keys : ℕ → Fin D → κ)
      (metrics : ℕ → TrainMetricsA) (acc : ℕ → XR) (walked : ℕ → Fin D → PADataA M × κ)
      (forward : ℕ → Fin D → Params (S + 1) (m₀ + 1) d → Except String XR),
      distributeDataA D start = .ok (List.ofFn (data 0)) ∧ Q 0 = Q₀ ∧ o 0 = o₀ ∧ keys 0 = keys₀ ∧
      trainLoopDevicesA (trainEpochDevicesA walk (updateParamDevicesA grad split energy model (D * w) clipping nanSafe optimizer)) nepochs
          (List.ofFn fun i => ⟨Q₀, data 0 i, o₀, keys₀ i⟩) =
        .ok (List.ofFn fun i => ⟨Q nepochs, data nepochs i, o nepochs, keys nepochs i⟩,
          List.ofFn fun e : Fin nepochs => metrics e) ∧
      ∀ e, walk (List.ofFn fun _ : Fin D => Q e) (List.ofFn fun i => (data e i, keys e i)) =
          .ok (acc e, List.ofFn (walked e)) ∧ (∀ i, (data e i).position.shape = [d, ∑ s, n s, w] ∧
          model (Q e) (data e i).position = .ok (data e i).amplitude ∧
          (data (e + 1) i).position = (walked e i).1.position ∧
          (data (e + 1) i).moveMetadata = (walked e i).1.moveMetadata ∧ keys (e + 1) i = (split (walked e i).2).1) ∧
        (metrics e).acceptRatio = acc e ∧
        (Q (e + 1), o (e + 1)) = optimizer ((D : ℝ)⁻¹ • ∑ i, grad (forward e i) (Q e)) (Q e) (o e) ∧
        Spec.DeviceEstimates c ions charges eiSoft eeSoft clipping ψ (Q e)
          (fun i (t : Fin w) => Spec.positionsOf (walked e i).1.position [t.val]) (metrics e) (forward e) := by
  intro model energy
  obtain ⟨parts, hp, hparts⟩ := distributed_data c ions charges dtype m hm hu hdet hn hc Q₀ hD hw start hX hA
  obtain ⟨Q, o, data, keys, metrics, acc, walked, forward, g1, g2, g3, g4, g5, g6⟩ := training_run_from_devices c ions
    charges dtype m hm hu hdet hn hc nonzero ψ hψ eiSoft eeSoft hR hD hw h2 split walk hwalk clipping nanSafe grad optimizer
    nepochs Q₀ o₀ parts (fun i => (hparts i).1) (fun i => (hparts i).2.1) keys₀
  subst g1
  exact ⟨Q, o, data, keys, metrics, acc, walked, forward, hp, g2, g3, g4, g5, g6⟩

/-- C126: in a walk with steps of fixed width every device walks with its own key as it would alone. -/
theorem fixed_walk_data (hw : 0 < w) (split : κ → κ × κ) (uniform normal : κ → List ℕ → Arr ℝ) (meanFn : Arr XR → XR)
    (getStd : PADataA M → ℝ) (logabs : Bool) (hun : ∀ k s, (uniform k s).shape = s)
    (hnorm : ∀ k s, (normal k s).shape = s) (nsteps : ℕ) (Q : Params (S + 1) (m₀ + 1) d)
    (data : Fin D → PADataA M × κ) (hX : ∀ i, (data i).1.position.shape = [d, ∑ s, n s, w])
    (hA : ∀ i, logPsiA (m.onBatch n Q ions) (data i).1.position = .ok (data i).1.amplitude) :
    let model := fun Q X => logPsiA (m.onBatch n Q ions) X
    let step := paStepA split uniform normal meanFn model getStd none logabs
    ∃ r : Fin D → XR × PADataA M × κ, (∀ i, walkDataA step nsteps Q (data i).1 (data i).2 = .ok (r i) ∧
        (r i).2.1.position.shape = [d, ∑ s, n s, w]) ∧
      walkFixedA step nsteps (List.ofFn fun _ : Fin D => Q) (List.ofFn data) =
        .ok (pmean (List.ofFn fun i => (r i).1), List.ofFn fun i => (r i).2) := by
  intro model step
  have hwalk : ∀ i, ∃ r, walkDataA step nsteps Q (data i).1
      (data i).2 = .ok r ∧ r.2.1.position.shape = [d, ∑ s, n s, w] := by
    intro i
    obtain ⟨D₀, D₁, r, h1, h2, h3, h4, -, -⟩ := walked_amplitudes_match c ions charges dtype m hm hu hdet hn hc Q split
      uniform normal meanFn getStd none logabs hun hnorm hw (data i).1.position (data i).1.amplitude
      (data i).1.moveMetadata (hX i) 0 nsteps (data i).2
    have hD0 : D₀ = (data i).1 := by
      have : updateDataA model ⟨(data i).1.position, (data i).1.amplitude, (data i).1.moveMetadata⟩ Q =
          .ok (data i).1 := by
        unfold updateDataA
        rw [show model Q (data i).1.position = .ok (data i).1.amplitude from hA i]
        rfl
      exact Except.ok.inj (h1.symm.trans this)
    have hD1 : D₁ = ((data i).1, (data i).2) := by
      rw [hD0] at h2
      exact (Except.ok.inj h2).symm
    rw [hD1] at h3
    exact ⟨r, h3, h4⟩
  choose r hr1 hr2 using hwalk
  refine ⟨r, fun i => ⟨hr1 i, hr2 i⟩, ?_⟩
  unfold walkFixedA
  rw [zip_devices, mapM_devices (x := fun i => (Q, data i)) (y := r) fun i => hr1 i, ok_bind, List.map_ofFn, List.map_ofFn]
  rfl

/-- C126: walks with steps of fixed width are such walks. -/
theorem fixed_walks (hw : 0 < w) (split : κ → κ × κ) (uniform normal : κ → List ℕ → Arr ℝ) (meanFn : Arr XR → XR)
    (getStd : PADataA M → ℝ) (logabs : Bool) (hun : ∀ k s, (uniform k s).shape = s)
    (hnorm : ∀ k s, (normal k s).shape = s) (nsteps : ℕ) :
    let model := fun Q X => logPsiA (m.onBatch n Q ions) X
    Spec.Walks D [d, ∑ s, n s, w] model
      (walkFixedA (paStepA split uniform normal meanFn model getStd none logabs) nsteps) := by
  intro model Q data hX hA
  obtain ⟨r, h1, h2⟩ := fixed_walk_data c ions charges dtype m hm hu hdet hn hc hw split uniform normal meanFn getStd
    logabs hun hnorm nsteps Q data hX hA
  exact ⟨_, _, h2, fun i => (h1 i).2⟩

/-- Walks with steps of adaptive width, walker by walker. -/
theorem adaptive_walk_data (hw : 0 < w) (split : κ → κ × κ) (uniform normal : κ → List ℕ → Arr ℝ) (meanFn : Arr XR → XR)
    (nmoves : ℕ) (adjust : ℝ → ℝ → ℝ) (logabs : Bool) (hun : ∀ k s, (uniform k s).shape = s)
    (hnorm : ∀ k s, (normal k s).shape = s) (nsteps : ℕ) (Q : Params (S + 1) (m₀ + 1) d)
    (data : Fin D → PADataA MoveMetadata × κ) (hX : ∀ i, (data i).1.position.shape = [d, ∑ s, n s, w])
    (hA : ∀ i, logPsiA (m.onBatch n Q ions) (data i).1.position = .ok (data i).1.amplitude) :
    let p : Fin D → PAData (Fin w) (Pos (∑ s, n s) d) MoveMetadata × κ := fun i =>
      (⟨fun t => Spec.positionsOf (data i).1.position [t.val], fun t =>
        logAmplitude m ions Q (Spec.positionsOf (data i).1.position [t.val] : Pos (∑ s, n s) d),
        (data i).1.moveMetadata⟩, (data i).2)
    ∃ a, walkDynamicDevicesA (dynamicStepDevicesA split uniform normal meanFn
        (fun Q X => logPsiA (m.onBatch n Q ions) X) nmoves adjust logabs) nsteps (List.ofFn fun _ : Fin D => Q)
        (List.ofFn data) = .ok (a, List.ofFn fun i =>
          (arraysOf ((devicesNext split uniform normal logabs (logAmplitude m ions Q) nmoves adjust)^[nsteps] p i).1,
            ((devicesNext split uniform normal logabs (logAmplitude m ions Q) nmoves adjust)^[nsteps] p i).2)) := by
  intro p
  have hmodel := fun pos : Fin w → Pos (∑ s, n s) d =>
    configured_walkers c ions charges dtype m hm hu hdet hn hc Q hw pos
  have hpp : ∀ i, data i = (arraysOf (p i).1, (p i).2) := by
    intro i
    have h5 : (data i).1.position = A3 (p i).1.position := eq_A3' (hX i)
    have h6 : (data i).1.amplitude = A1 (p i).1.amplitude := by
      have h7 := hmodel (p i).1.position
      rw [← h5] at h7
      exact Except.ok.inj ((hA i).symm.trans h7)
    refine Prod.ext ?_ rfl
    show (data i).1 = ⟨A3 (p i).1.position, A1 (p i).1.amplitude, (data i).1.moveMetadata⟩
    rw [← h5, ← h6]
  have h := adaptive_walk_on_devices split uniform normal meanFn (fun Q X => logPsiA (m.onBatch n Q ions) X) nmoves
    adjust logabs Q (logAmplitude m ions Q) hmodel hun hnorm p nsteps
  rw [show data = fun i => (arraysOf (p i).1, (p i).2) from funext hpp]
  exact ⟨_, h⟩

/-- C126: walks with steps of adaptive width are such walks. -/
theorem adaptive_walks (hw : 0 < w) (split : κ → κ × κ) (uniform normal : κ → List ℕ → Arr ℝ) (meanFn : Arr XR → XR)
    (nmoves : ℕ) (adjust : ℝ → ℝ → ℝ) (logabs : Bool) (hun : ∀ k s, (uniform k s).shape = s)
    (hnorm : ∀ k s, (normal k s).shape = s) (nsteps : ℕ) :
    let model := fun Q X => logPsiA (m.onBatch n Q ions) X
    Spec.Walks D [d, ∑ s, n s, w] model
      (walkDynamicDevicesA (dynamicStepDevicesA split uniform normal meanFn model nmoves adjust logabs) nsteps) := by
  intro model Q data hX hA
  obtain ⟨a, h⟩ := adaptive_walk_data c ions charges dtype m hm hu hdet hn hc hw split uniform normal meanFn nmoves adjust
    logabs hun hnorm nsteps Q data hX hA
  exact ⟨a, _, h, fun i => rfl⟩

/-- In training with steps of adaptive width all devices have the same metadata at the start of every epoch. -/
theorem adaptive_widths_stay_equal (hD : 0 < D) (hw : 0 < w) (split : κ → κ × κ)
    (uniform normal : κ → List ℕ → Arr ℝ) (meanFn : Arr XR → XR) (nmoves : ℕ) (adjust : ℝ → ℝ → ℝ) (logabs : Bool)
    (hun : ∀ k s, (uniform k s).shape = s) (hnorm : ∀ k s, (normal k s).shape = s) (nsteps : ℕ)
    (start : PADataA MoveMetadata) (hX₀ : start.position.shape = [d, ∑ s, n s, D * w])
    (Q : ℕ → Params (S + 1) (m₀ + 1) d) (hA₀ : logPsiA (m.onBatch n (Q 0) ions) start.position = .ok start.amplitude)
    (data walked : ℕ → Fin D → PADataA MoveMetadata) (keys keys' : ℕ → Fin D → κ)
    (acc : ℕ → XR) (h0 : distributeDataA D start = .ok (List.ofFn (data 0)))
    (hX : ∀ e i, (data e i).position.shape = [d, ∑ s, n s, w])
    (hA : ∀ e i, logPsiA (m.onBatch n (Q e) ions) (data e i).position = .ok (data e i).amplitude)
    (hwalk : ∀ e, walkDynamicDevicesA (dynamicStepDevicesA split uniform normal meanFn
        (fun Q X => logPsiA (m.onBatch n Q ions) X) nmoves adjust logabs) nsteps (List.ofFn fun _ : Fin D => Q e)
        (List.ofFn fun i => (data e i, keys e i)) = .ok (acc e, List.ofFn fun i => (walked e i, keys' e i)))
    (hmeta : ∀ e i, (data (e + 1) i).moveMetadata = (walked e i).moveMetadata) (e : ℕ) (i j : Fin D) :
    (data e i).moveMetadata = (data e j).moveMetadata := by
  induction e generalizing i j with
  | zero =>
    obtain ⟨parts, hp, hparts⟩ := distributed_data c ions charges dtype m hm hu hdet hn hc (Q 0) hD hw start hX₀ hA₀
    have : data 0 = parts := List.ofFn_injective (Except.ok.inj (h0.symm.trans hp))
    rw [this, (hparts i).2.2.1, (hparts j).2.2.1]
  | succ e ih =>
    obtain ⟨a, h⟩ := adaptive_walk_data c ions charges dtype m hm hu hdet hn hc hw split uniform normal meanFn nmoves
      adjust logabs hun hnorm nsteps (Q e) (fun i => (data e i, keys e i)) (hX e) (hA e)
    have h1 := List.ofFn_injective (congrArg Prod.snd (Except.ok.inj ((hwalk e).symm.trans h)))
    have h2 := fun i => congrArg (fun z => z.1.moveMetadata) (congrFun h1 i)
    simp only [] at h2
    rw [hmeta, hmeta, h2, h2]
    refine replicas_keep_metadata split uniform normal nmoves adjust logabs _ _ (fun i j => ih i j) nsteps i j

/-- C126: training on several devices with steps of adaptive width.  All devices have the same parameters, optimizer state
and width at the start of every epoch. -/
theorem adaptive_training_on_devices (nonzero : Params (S + 1) (m₀ + 1) d → Stream1 n d → Prop)
    (ψ : Params (S + 1) (m₀ + 1) d → Stream1 n d → ℝ)
    (hψ : ∀ Q q, Spec.ModelValue c Q ions charges q (nonzero Q q) (ψ Q q))
    (eiSoft eeSoft : ℝ) (hR : Distinct ions) (hD : 0 < D) (hw : 0 < w) (h2 : 2 ≤ D * w) (split : κ → κ × κ)
    (uniform normal : κ → List ℕ → Arr ℝ) (meanFn : Arr XR → XR) (nmoves : ℕ) (adjust : ℝ → ℝ → ℝ) (logabs : Bool)
    (hun : ∀ k s, (uniform k s).shape = s) (hnorm : ∀ k s, (normal k s).shape = s) (nsteps : ℕ)
    (clipping : Option (List XR → XR → List XR)) (nanSafe : Bool)
    (grad : (Params (S + 1) (m₀ + 1) d → Except String XR) → Params (S + 1) (m₀ + 1) d → G)
    (optimizer : G → Params (S + 1) (m₀ + 1) d → O → Params (S + 1) (m₀ + 1) d × O) (nepochs : ℕ)
    (Q₀ : Params (S + 1) (m₀ + 1) d) (o₀ : O) (start : PADataA MoveMetadata)
    (hX : start.position.shape = [d, ∑ s, n s, D * w])
    (hA : logPsiA (m.onBatch n Q₀ ions) start.position = .ok start.amplitude) (keys₀ : Fin D → κ) :
    let model := fun Q X => logPsiA (m.onBatch n Q ions) X
    let energy := fun Q => localEnergyA (model Q) (A2 ions) (A1 charges) eiSoft eeSoft
    let walk := walkDynamicDevicesA (dynamicStepDevicesA split uniform normal meanFn model nmoves adjust logabs) nsteps
    ∃ (Q : ℕ → Params (S + 1) (m₀ + 1) d) (o : ℕ → O) (data : ℕ → Fin D → PADataA MoveMetadata) (keys : ℕ → Fin D → κ)
      (metrics : ℕ → TrainMetricsA) (walked : ℕ → Fin D → PADataA MoveMetadata × κ)
      (forward : ℕ → Fin D → Params (S + 1) (m₀ + 1) d → Except String XR),
      distributeDataA D start = .ok (List.ofFn (data 0)) ∧ Q 0 = Q₀ ∧ o 0 = o₀ ∧ keys 0 = keys₀ ∧
      trainLoopDevicesA (trainEpochDevicesA walk (updateParamDevicesA grad split energy model (D * w) clipping nanSafe
          optimizer)) nepochs (List.ofFn fun i => ⟨Q₀, data 0 i, o₀, keys₀ i⟩) =
        .ok (List.ofFn fun i => ⟨Q nepochs, data nepochs i, o nepochs, keys nepochs i⟩,
          List.ofFn fun e : Fin nepochs => metrics e) ∧
      ∀ e, walk (List.ofFn fun _ : Fin D => Q e) (List.ofFn fun i => (data e i, keys e i)) =
          .ok ((metrics e).acceptRatio, List.ofFn (walked e)) ∧
        (∀ i j, (data e i).moveMetadata = (data e j).moveMetadata) ∧
        (∀ i, (data e i).position.shape = [d, ∑ s, n s, w] ∧
          model (Q e) (data e i).position = .ok (data e i).amplitude ∧
          (data (e + 1) i).position = (walked e i).1.position ∧
          (data (e + 1) i).moveMetadata = (walked e i).1.moveMetadata ∧ keys (e + 1) i = (split (walked e i).2).1) ∧
        (Q (e + 1), o (e + 1)) = optimizer ((D : ℝ)⁻¹ • ∑ i, grad (forward e i) (Q e)) (Q e) (o e) ∧
        Spec.DeviceEstimates c ions charges eiSoft eeSoft clipping ψ (Q e)
          (fun i (t : Fin w) => Spec.positionsOf (walked e i).1.position [t.val]) (metrics e) (forward e) := by
  intro model energy walk
  obtain ⟨Q, o, data, keys, metrics, acc, walked, forward, g1, g2, g3, g4, g5, g6⟩ := training_run_on_devices c ions
    charges dtype m hm hu hdet hn hc nonzero ψ hψ eiSoft eeSoft hR hD hw h2 split walk
    (adaptive_walks c ions charges dtype m hm hu hdet hn hc hw split uniform normal meanFn nmoves adjust logabs hun hnorm
      nsteps) clipping nanSafe grad optimizer nepochs Q₀ o₀ start hX hA keys₀
  refine ⟨Q, o, data, keys, metrics, walked, forward, g1, g2, g3, g4, g5, fun e => ⟨?_, ?_, (g6 e).2.1, (g6 e).2.2.2⟩⟩
  · rw [(g6 e).2.2.1]
    exact (g6 e).1
  · exact adaptive_widths_stay_equal c ions charges dtype m hm hu hdet hn hc hD hw split uniform normal meanFn nmoves adjust
      logabs hun hnorm nsteps start hX Q (by rw [g2]; exact hA) data (fun e i => (walked e i).1) keys
      (fun e i => (walked e i).2) acc g1 (fun e i => ((g6 e).2.1 i).1) (fun e i => ((g6 e).2.1 i).2.1)
      (fun e => (g6 e).1) (fun e i => ((g6 e).2.1 i).2.2.2.1) e

end configured

/-- Helium trained for two epochs on two devices with an optimizer which only makes the wave function larger, starting from
`6 exp (-|x₁| - |x₂|)`: both devices end with the same parameters and the amplitudes of these, and the second energy is the
mean over both devices of that of the wave function `9 exp (-|x₁| - |x₂|)`. -/
example (P : Params 2 1 3) (hw : 0 < w) (x : Fin (2 * w) → Pos 2 3)
    (uniform normal : ℕ → List ℕ → Arr ℝ) (hun : ∀ k s, (uniform k s).shape = s)
    (hnorm : ∀ k s, (normal k s).shape = s) (nsteps : ℕ) :
    ∃ m : Model 1, getModelFromConfig {} (counts fun _ : Fin 2 => 1)
        (fun (_ : Fin 1) (_ : Fin 3) => (0 : ℝ)) (fun _ => 2) 32 = .ok m ∧
      let model := fun Q X => logPsiA (m.onBatch (fun _ : Fin 2 => 1) Q fun _ _ => 0) X
      let split : ℕ → ℕ × ℕ := fun k => (2 * k, 2 * k + 1)
      let step := paStepA (M := Unit) split uniform normal (fun _ => .fin 0) model (fun _ => 1 / 4) none true
      let energy := fun Q => localEnergyA (model Q) (A2 fun (_ : Fin 1) (_ : Fin 3) => (0 : ℝ))
        (A1 fun (_ : Fin 1) => (2 : ℝ)) 0 0
      ∃ (A : Arr XR) (parts data : Fin 2 → PADataA Unit) (keys : Fin 2 → ℕ) (metrics : ℕ → TrainMetricsA),
        model (scaledHelium P 2) (A3 x) = .ok A ∧ distributeDataA 2 ⟨A3 x, A, ()⟩ = .ok [parts 0, parts 1] ∧
        trainLoopDevicesA (trainEpochDevicesA (walkFixedA step nsteps) (updateParamDevicesA (G := ℝ)
            (fun f Q => numberOf (f Q)) split energy model (2 * w) none false
            (fun _ _ t => (scaledHelium P (t + 1), t + 1)))) 2
          [⟨scaledHelium P 2, parts 0, (2 : ℝ), 7⟩, ⟨scaledHelium P 2, parts 1, 2, 8⟩] =
          .ok ([⟨scaledHelium P 4, data 0, 4, keys 0⟩, ⟨scaledHelium P 4, data 1, 4, keys 1⟩], [metrics 0, metrics 1]) ∧
        (∀ i, model (scaledHelium P 4) (data i).position = .ok (data i).amplitude) ∧
        ((∀ i, ∀ t < w, Distinct (Spec.positionsOf (data i).position [t] : Pos 2 3)) →
          (∀ i, ∀ t < w, Apart (Spec.positionsOf (data i).position [t] : Pos 2 3) fun (_ : Fin 1) _ => 0) →
          let E : Fin 2 → Fin w → ℝ := fun i t => localEnergyOf
            (fun q : Stream1 (fun _ : Fin 2 => 1) 3 => 3 * 3 * Real.exp (-∑ e, Real.sqrt (∑ b, q e b ^ 2)))
            (fun (_ : Fin 1) _ => 0) (fun _ => 2) 0 0 (Spec.positionsOf (data i).position [t.val])
          (metrics 1).energy = .fin ((∑ t, E 0 t + ∑ t, E 1 t) / (2 * w : ℕ))) := by
  let n : Fin 2 → ℕ := fun _ => 1
  obtain ⟨m, hm, -⟩ := helium_on_devices P
  have hex : ∀ (Q : Params 2 1 3) (q : Stream1 n 3), ∃ (nz : Prop) (r : ℝ),
      Spec.ModelValue {} Q (fun (_ : Fin 1) _ => 0) (fun _ => 2) q nz r := by
    intro Q q
    obtain ⟨v, hv⟩ := (configured_model_callable_iff {} (fun (_ : Fin 1) (_ : Fin 3) => (0 : ℝ)) (fun _ => 2) 32 m hm
      ⟨rfl, fun _ => rfl⟩ (fun _ => Nat.one_pos) Q q).mpr helium_callable
    obtain ⟨nz, r, h, -⟩ := configured_model_value {} _ _ _ m hm Q q v hv
    exact ⟨nz, r, h⟩
  choose nz ψ hψ using hex
  have hA := configured_walkers {} (fun (_ : Fin 1) (_ : Fin 3) => (0 : ℝ)) (fun _ => 2) 32 m hm ⟨rfl, fun _ => rfl⟩
    (by simp) (fun _ => Nat.one_pos) helium_callable (scaledHelium P 2) (W := 2 * w) (by omega) x
  obtain ⟨Q, o, data, keys, metrics, acc, walked, forward, h1, h2, h3, h4, h5, h6⟩ := training_run_on_devices (D := 2) (w := w)
    (M := Unit) (O := ℝ) (G := ℝ) {} (fun (_ : Fin 1) (_ : Fin 3) => (0 : ℝ)) (fun _ => 2) 32 m hm ⟨rfl, fun _ => rfl⟩
    (by simp) (fun _ => Nat.one_pos) helium_callable nz ψ hψ 0 0 (fun i j hij => absurd (Fin.ext (by omega)) hij)
    (by norm_num) hw (by omega) (fun k : ℕ => (2 * k, 2 * k + 1)) _
    (fixed_walks {} (fun (_ : Fin 1) (_ : Fin 3) => (0 : ℝ)) (fun _ => 2) 32 m hm ⟨rfl, fun _ => rfl⟩ (by simp)
      (fun _ => Nat.one_pos) helium_callable hw (fun k : ℕ => (2 * k, 2 * k + 1)) uniform normal (fun _ => .fin 0)
      (fun _ => 1 / 4) true hun hnorm nsteps) none false (fun f Q => numberOf (f Q)) (fun _ _ t => (scaledHelium P (t + 1), t + 1)) 2
    (scaledHelium P 2) 2 ⟨A3 x, _, ()⟩ rfl hA ![7, 8]
  have hp := fun e => Prod.ext_iff.mp (h6 e).2.2.2.1
  simp only [] at hp
  have ho1 : o 1 = 3 := by rw [(hp 0).2, h3]; norm_num
  have hp1 : Q 1 = scaledHelium P 3 := by rw [(hp 0).1, h3]; norm_num
  have hp2 : Q 2 = scaledHelium P 4 := by rw [(hp 1).1, ho1]; norm_num
  have ho2 : o 2 = 4 := by rw [(hp 1).2, ho1]; norm_num
  rw [hp2, ho2] at h5
  refine ⟨m, hm, _, data 0, data 2, keys 2, metrics, hA, h1, h5, fun i => hp2 ▸ ((h6 2).2.1 i).2.1, fun hx hx' => ?_⟩
  have hq : ψ (scaledHelium P 3) = fun q => 3 * 3 * Real.exp (-∑ e, Real.sqrt (∑ b, q e b ^ 2)) :=
    funext fun q => scaled_helium_value (hψ _ q)
  have hE := (h6 1).2.2.2.2
  rw [hp1] at hE
  simp only [← ((h6 1).2.1 _).2.2.1] at hE
  have := (hE (fun i t => by
      rw [hq]
      positivity)
    (fun i t => ⟨⟨fun e e' he => hx i t t.2 _ _ (finSigmaFinEquiv.injective.ne he), fun e j => hx' i t t.2 _ j⟩,
      fun h => by simp at h, fun _ _ _ _ _ => .inr (.inl rfl), fun h => by simp at h, fun h => by simp at h⟩)
    _ _ (fun _ _ => rfl) (fun _ => rfl) (fun f h => by cases h)).1
  rw [this, hq]
  simp only [Fin.sum_univ_two]
  rfl

/-- Helium trained on two devices with steps of adaptive width: after any number of epochs both devices have the same
parameters and the same width. -/
example (P : Params 2 1 3) (hw : 0 < w) (x : Fin (2 * w) → Pos 2 3)
    (uniform normal : ℕ → List ℕ → Arr ℝ) (hun : ∀ k s, (uniform k s).shape = s)
    (hnorm : ∀ k s, (normal k s).shape = s) (nsteps nepochs : ℕ) :
    ∃ m : Model 1, getModelFromConfig {} (counts fun _ : Fin 2 => 1)
        (fun (_ : Fin 1) (_ : Fin 3) => (0 : ℝ)) (fun _ => 2) 32 = .ok m ∧
      let model := fun Q X => logPsiA (m.onBatch (fun _ : Fin 2 => 1) Q fun _ _ => 0) X
      let split : ℕ → ℕ × ℕ := fun k => (2 * k, 2 * k + 1)
      let walk := walkDynamicDevicesA (dynamicStepDevicesA split uniform normal (fun _ => .fin 0) model 10
        (thresholdAdjust (1 / 2) 0 (1 / 10)) true) nsteps
      let energy := fun Q => localEnergyA (model Q) (A2 fun (_ : Fin 1) (_ : Fin 3) => (0 : ℝ))
        (A1 fun (_ : Fin 1) => (2 : ℝ)) 0 0
      ∃ (A : Arr XR) (parts data : Fin 2 → PADataA MoveMetadata) (Q : Params 2 1 3) (t : ℝ) (keys : Fin 2 → ℕ)
        (metrics : List TrainMetricsA),
        model (scaledHelium P 2) (A3 x) = .ok A ∧ distributeDataA 2 ⟨A3 x, A, ⟨1 / 4, 0, 0⟩⟩ = .ok [parts 0, parts 1] ∧
        trainLoopDevicesA (trainEpochDevicesA walk (updateParamDevicesA (G := ℝ)
            (fun f Q => numberOf (f Q)) split energy model (2 * w) none false
            (fun _ _ t => (scaledHelium P (t + 1), t + 1)))) nepochs
          [⟨scaledHelium P 2, parts 0, (2 : ℝ), 7⟩, ⟨scaledHelium P 2, parts 1, 2, 8⟩] =
          .ok ([⟨Q, data 0, t, keys 0⟩, ⟨Q, data 1, t, keys 1⟩], metrics) ∧ metrics.length = nepochs ∧
        (data 0).moveMetadata.stdMove = (data 1).moveMetadata.stdMove ∧
        ∀ i, model Q (data i).position = .ok (data i).amplitude := by
  let n : Fin 2 → ℕ := fun _ => 1
  obtain ⟨m, hm, -⟩ := helium_on_devices P
  have hex : ∀ (Q : Params 2 1 3) (q : Stream1 n 3), ∃ (nz : Prop) (r : ℝ),
      Spec.ModelValue {} Q (fun (_ : Fin 1) _ => 0) (fun _ => 2) q nz r := by
    intro Q q
    obtain ⟨v, hv⟩ := (configured_model_callable_iff {} (fun (_ : Fin 1) (_ : Fin 3) => (0 : ℝ)) (fun _ => 2) 32 m hm
      ⟨rfl, fun _ => rfl⟩ (fun _ => Nat.one_pos) Q q).mpr helium_callable
    obtain ⟨nz, r, h, -⟩ := configured_model_value {} _ _ _ m hm Q q v hv
    exact ⟨nz, r, h⟩
  choose nz ψ hψ using hex
  have hA := configured_walkers {} (fun (_ : Fin 1) (_ : Fin 3) => (0 : ℝ)) (fun _ => 2) 32 m hm ⟨rfl, fun _ => rfl⟩
    (by simp) (fun _ => Nat.one_pos) helium_callable (scaledHelium P 2) (W := 2 * w) (by omega) x
  obtain ⟨Q, o, data, keys, metrics, walked, forward, h1, -, -, -, h5, h6⟩ := adaptive_training_on_devices (D := 2)
    (w := w) (O := ℝ) (G := ℝ) {} (fun (_ : Fin 1) (_ : Fin 3) => (0 : ℝ)) (fun _ => 2) 32 m hm ⟨rfl, fun _ => rfl⟩
    (by simp) (fun _ => Nat.one_pos) helium_callable nz ψ hψ 0 0 (fun i j hij => absurd (Fin.ext (by omega)) hij)
    (by norm_num) hw (by omega) (fun k : ℕ => (2 * k, 2 * k + 1)) uniform normal (fun _ => .fin 0) 10
    (thresholdAdjust (1 / 2) 0 (1 / 10)) true hun hnorm nsteps none false (fun f Q => numberOf (f Q))
    (fun _ _ t => (scaledHelium P (t + 1), t + 1)) nepochs (scaledHelium P 2) 2 ⟨A3 x, _, ⟨1 / 4, 0, 0⟩⟩ rfl hA ![7, 8]
  exact ⟨m, hm, _, data 0, data nepochs, Q nepochs, o nepochs, keys nepochs, _, hA, h1, h5, List.length_ofFn,
    congrArg MoveMetadata.stdMove ((h6 nepochs).2.1 0 1), fun i => ((h6 nepochs).2.2.1 i).2.1⟩

end Verif.Props
