import Verif.Model.BatchedBurnedTraining
import Verif.Props.BatchedTrainingDevices

/-!
Burning and training with adaptive step width on several devices.
-/

namespace Verif.Spec
open Verif.MCMC Verif.Arrays Verif.Phys Verif.Net Verif.Construct Verif.Slog

/-- The walkers of all devices, with the amplitudes `psi`. -/
noncomputable def walkersOf {κ : Type} {D d N : ℕ} (w : ℕ) (psi : Pos N d → XR) (data : Fin D → PADataA MoveMetadata)
    (keys : Fin D → κ) : Fin D → PAData (Fin w) (Pos N d) MoveMetadata × κ := fun i =>
  (⟨fun t => positionsOf (data i).position [t.val], fun t => psi (positionsOf (data i).position [t.val]),
    (data i).moveMetadata⟩, keys i)

end Verif.Spec

namespace Verif.Props
open Verif.Arrays Verif.MCMC Verif.Phys Verif.Spec Verif.Construct Verif.Net Verif.Energy Verif.Slog

variable {κ O G : Type} [AddCommGroup G] [Module ℝ G] {D w d : ℕ}

/-- The metadata during moves follow the fractions of moving walkers. -/
theorem metadata_follow {N : ℕ} (split : κ → κ × κ) (uniform normal : κ → List ℕ → Arr ℝ) (nmoves : ℕ)
    (adjust : ℝ → ℝ → ℝ) (logabs : Bool) (psi : Pos N d → XR) (p : Fin D → PAData (Fin w) (Pos N d) MoveMetadata × κ)
    (μ : ℕ → MoveMetadata) (frac : ℕ → ℝ) (hμ : ∀ k, μ (k + 1) = updateMoveMetadata nmoves adjust (μ k) (frac k)) (K L : ℕ)
    (h0 : ∀ i, (p i).1.moveMetadata = μ K)
    (hf : ∀ k < L, frac (K + k) = fractionMoving split uniform normal logabs psi
      ((devicesNext split uniform normal logabs psi nmoves adjust)^[k] p)) (i : Fin D) :
    ((devicesNext split uniform normal logabs psi nmoves adjust)^[L] p i).1.moveMetadata = μ (K + L) := by
  induction L generalizing i with
  | zero => exact h0 i
  | succ L ih =>
    rw [Function.iterate_succ_apply', ← add_assoc, hμ, ← ih (fun k hk => hf k (by omega)) i, hf L (by omega)]
    rfl

section configured

variable {S m₀ : ℕ} {n : Fin (S + 1) → ℕ} (c : ModelCfg) (ions : Fin (m₀ + 1) → Fin d → ℝ)
  (charges : Fin (m₀ + 1) → ℝ) (dtype : ℕ) (m : Model (m₀ + 1))
  (hm : getModelFromConfig c (counts n) ions charges dtype = .ok m) (hu : Spec.UsesNorms c)
  (hdet : c.ndeterminants ≠ 0) (hn : ∀ s, 0 < n s) (hc : Spec.Callable c (S + 1))

include hm hu hdet hn hc

/-- Data whose amplitudes are those of the model are the arrays of their walkers. -/
theorem arrays_of_walkers (hw : 0 < w) (Q : Params (S + 1) (m₀ + 1) d) (data : Fin D → PADataA MoveMetadata)
    (keys : Fin D → κ) (hX : ∀ i, (data i).position.shape = [d, ∑ s, n s, w])
    (hA : ∀ i, logPsiA (m.onBatch n Q ions) (data i).position = .ok (data i).amplitude) (i : Fin D) :
    data i = arraysOf (walkersOf w (logAmplitude (n := n) m ions Q) data keys i).1 := by
  have h5 : (data i).position = A3 (walkersOf w (logAmplitude (n := n) m ions Q) data keys i).1.position := eq_A3' (hX i)
  have h6 : (data i).amplitude = A1 (walkersOf w (logAmplitude (n := n) m ions Q) data keys i).1.amplitude := by
    have h7 := configured_walkers c ions charges dtype m hm hu hdet hn hc Q hw
      (walkersOf w (logAmplitude (n := n) m ions Q) data keys i).1.position
    rw [← h5] at h7
    exact Except.ok.inj ((hA i).symm.trans h7)
  show data i = ⟨A3 _, A1 _, (data i).moveMetadata⟩
  rw [← h5, ← h6]

/-- C128: burning and training on several devices with steps of adaptive width.  All devices have the same parameters,
optimizer state and width at the start of every epoch, and the width is adapted after every `nmoves` moves, counted from the
first move of the burning, to the fraction of the walkers of all devices which moved in these moves, whichever parameters
they moved with. -/
theorem burned_adaptive_training_on_devices (nonzero : Params (S + 1) (m₀ + 1) d → Stream1 n d → Prop)
    (ψ : Params (S + 1) (m₀ + 1) d → Stream1 n d → ℝ)
    (hψ : ∀ Q q, Spec.ModelValue c Q ions charges q (nonzero Q q) (ψ Q q))
    (eiSoft eeSoft : ℝ) (hR : Distinct ions) (hD : 0 < D) (hw : 0 < w) (h2 : 2 ≤ D * w) (split : κ → κ × κ)
    (uniform normal : κ → List ℕ → Arr ℝ) (meanFn : Arr XR → XR) (nmoves : ℕ) (hmoves : 1 ≤ nmoves) (adjust : ℝ → ℝ → ℝ)
    (logabs : Bool) (hun : ∀ k s, (uniform k s).shape = s) (hnorm : ∀ k s, (normal k s).shape = s) (nburn nsteps : ℕ)
    (clipping : Option (List XR → XR → List XR)) (nanSafe : Bool)
    (grad : (Params (S + 1) (m₀ + 1) d → Except String XR) → Params (S + 1) (m₀ + 1) d → G)
    (optimizer : G → Params (S + 1) (m₀ + 1) d → O → Params (S + 1) (m₀ + 1) d × O) (nepochs : ℕ)
    (Q₀ : Params (S + 1) (m₀ + 1) d) (o₀ : O) (w0 : ℝ) (start : PADataA MoveMetadata)
    (hmeta : start.moveMetadata = ⟨w0, 0, 0⟩) (hX : start.position.shape = [d, ∑ s, n s, D * w])
    (hA : logPsiA (m.onBatch n Q₀ ions) start.position = .ok start.amplitude) (keys₀ : Fin D → κ) :
    let model := fun Q X => logPsiA (m.onBatch n Q ions) X
    let energy := fun Q => localEnergyA (model Q) (A2 ions) (A1 charges) eiSoft eeSoft
    let step := dynamicStepDevicesA split uniform normal meanFn model nmoves adjust logabs
    let walk := walkDynamicDevicesA step nsteps
    let after := fun (Q : Params (S + 1) (m₀ + 1) d) (data : Fin D → PADataA MoveMetadata) keys k =>
      (devicesNext split uniform normal logabs (logAmplitude (n := n) m ions Q) nmoves adjust)^[k]
        (walkersOf w (logAmplitude m ions Q) data keys)
    let fraction := fun Q p => fractionMoving split uniform normal logabs (logAmplitude (n := n) m ions Q) (D := D) (w := w) p
    ∃ (parts : Fin D → PADataA MoveMetadata) (Q : ℕ → Params (S + 1) (m₀ + 1) d) (o : ℕ → O)
      (data : ℕ → Fin D → PADataA MoveMetadata) (keys : ℕ → Fin D → κ)
      (metrics : ℕ → TrainMetricsA) (walked : ℕ → Fin D → PADataA MoveMetadata × κ)
      (forward : ℕ → Fin D → Params (S + 1) (m₀ + 1) d → Except String XR) (frac : ℕ → ℝ),
      distributeDataA D start = .ok (List.ofFn parts) ∧ Q 0 = Q₀ ∧ o 0 = o₀ ∧
      (∀ i, data 0 i = arraysOf (after Q₀ parts keys₀ nburn i).1 ∧ keys 0 i = (after Q₀ parts keys₀ nburn i).2) ∧
      burnAndTrainDevicesA step (trainEpochDevicesA walk (updateParamDevicesA grad split energy model (D * w) clipping
          nanSafe optimizer)) nburn nepochs (List.ofFn fun i => ⟨Q₀, parts i, o₀, keys₀ i⟩) =
        .ok (List.ofFn fun i => ⟨Q nepochs, data nepochs i, o nepochs, keys nepochs i⟩,
          List.ofFn fun e : Fin nepochs => metrics e) ∧
      (∀ k < nburn, frac k = fraction Q₀ (after Q₀ parts keys₀ k)) ∧
      ∀ e, (∀ k < nsteps, frac (nburn + e * nsteps + k) = fraction (Q e) (after (Q e) (data e) (keys e) k)) ∧
        walk (List.ofFn fun _ : Fin D => Q e) (List.ofFn fun i => (data e i, keys e i)) =
          .ok ((metrics e).acceptRatio, List.ofFn (walked e)) ∧
        (∀ i, (data e i).position.shape = [d, ∑ s, n s, w] ∧
          model (Q e) (data e i).position = .ok (data e i).amplitude ∧
          (data e i).moveMetadata.stdMove = widthAfter nmoves adjust frac w0 ((nburn + e * nsteps) / nmoves) ∧
          (data e i).moveMetadata.movesSinceUpdate = (nburn + e * nsteps) % nmoves ∧
          walked e i = (arraysOf (after (Q e) (data e) (keys e) nsteps i).1, (after (Q e) (data e) (keys e) nsteps i).2) ∧
          (data (e + 1) i).position = (walked e i).1.position ∧
          (data (e + 1) i).moveMetadata = (walked e i).1.moveMetadata ∧ keys (e + 1) i = (split (walked e i).2).1) ∧
        (Q (e + 1), o (e + 1)) = optimizer ((D : ℝ)⁻¹ • ∑ i, grad (forward e i) (Q e)) (Q e) (o e) ∧
        Spec.DeviceEstimates c ions charges eiSoft eeSoft clipping ψ (Q e)
          (fun i (t : Fin w) => Spec.positionsOf (walked e i).1.position [t.val]) (metrics e) (forward e) := by
  intro model energy step walk after fraction
  have hmodel : ∀ (Q : Params (S + 1) (m₀ + 1) d) (pos : Fin w → Pos (∑ s, n s) d),
      model Q (A3 pos) = .ok (A1 fun t => logAmplitude m ions Q (pos t)) := fun Q =>
    configured_walkers c ions charges dtype m hm hu hdet hn hc Q hw
  obtain ⟨parts, hp, hparts⟩ := distributed_data c ions charges dtype m hm hu hdet hn hc Q₀ hD hw start hX hA
  have hpp := arrays_of_walkers c ions charges dtype m hm hu hdet hn hc hw Q₀ parts keys₀ (fun i => (hparts i).1)
    fun i => (hparts i).2.1
  have hburn : ∀ (k : ℕ) (p : Fin D → PAData (Fin w) (Pos (∑ s, n s) d) MoveMetadata × κ),
      burnDevicesA step (List.ofFn fun _ : Fin D => Q₀) k (List.ofFn fun i => (arraysOf (p i).1, (p i).2)) =
      .ok (List.ofFn fun i =>
        (arraysOf ((devicesNext split uniform normal logabs (logAmplitude (n := n) m ions Q₀) nmoves adjust)^[k] p i).1,
        ((devicesNext split uniform normal logabs (logAmplitude (n := n) m ions Q₀) nmoves adjust)^[k] p i).2)) := by
    intro k
    induction k with
    | zero => exact fun p => rfl
    | succ k ih =>
      intro p
      have h1 : step (List.ofFn fun _ : Fin D => Q₀) (List.ofFn fun i => (arraysOf (p i).1, (p i).2)) = _ :=
        adaptive_step_on_devices split uniform normal meanFn model nmoves adjust logabs Q₀ (logAmplitude m ions Q₀)
          (hmodel Q₀) hun hnorm p
      unfold burnDevicesA
      rw [h1, ok_bind, List.map_ofFn]
      exact ih _
  obtain ⟨b, hb⟩ : ∃ b : Fin D → PADataA MoveMetadata × κ, b = fun i =>
    (arraysOf (after Q₀ parts keys₀ nburn i).1, (after Q₀ parts keys₀ nburn i).2) := ⟨_, rfl⟩
  obtain ⟨Q, o, data, keys, metrics, acc, walked, forward, g1, g2, g3, g4, g5, g6⟩ := training_run_from_devices c ions
    charges dtype m hm hu hdet hn hc nonzero ψ hψ eiSoft eeSoft hR hD hw h2 split walk
    (adaptive_walks c ions charges dtype m hm hu hdet hn hc hw split uniform normal meanFn nmoves adjust logabs hun hnorm
      nsteps) clipping nanSafe grad optimizer nepochs Q₀ o₀ (fun i => (b i).1) (fun i => by rw [hb]; rfl)
      (fun i => by
        rw [hb]
        refine (hmodel Q₀ _).trans (congrArg Except.ok (congrArg A1 (funext fun t => ?_)))
        exact (next_consistent split uniform normal nmoves adjust logabs (logAmplitude m ions Q₀) _ (fun _ _ => rfl) nburn
          i t).symm) (fun i => (b i).2)
  have hwalked : ∀ e i, walked e i =
      (arraysOf (after (Q e) (data e) (keys e) nsteps i).1, (after (Q e) (data e) (keys e) nsteps i).2) := by
    intro e i
    obtain ⟨a, h⟩ := adaptive_walk_data c ions charges dtype m hm hu hdet hn hc hw split uniform normal meanFn nmoves
      adjust logabs hun hnorm nsteps (Q e) (fun i => (data e i, keys e i)) (fun i => ((g6 e).2.1 i).1)
      (fun i => ((g6 e).2.1 i).2.1)
    exact congrFun (List.ofFn_injective (congrArg Prod.snd (Except.ok.inj ((g6 e).1.symm.trans h)))) i
  let frac : ℕ → ℝ := fun k => if k < nburn then fraction Q₀ (after Q₀ parts keys₀ k) else
    fraction (Q ((k - nburn) / nsteps)) (after (Q ((k - nburn) / nsteps)) (data ((k - nburn) / nsteps))
      (keys ((k - nburn) / nsteps)) ((k - nburn) % nsteps))
  have hf1 : ∀ k < nburn, frac k = fraction Q₀ (after Q₀ parts keys₀ k) := fun k hk => if_pos hk
  have hf2 : ∀ e, ∀ k < nsteps, frac (nburn + e * nsteps + k) = fraction (Q e) (after (Q e) (data e) (keys e) k) := by
    intro e k hk
    have h1 : nburn + e * nsteps + k - nburn = k + nsteps * e := by rw [mul_comm]; omega
    have h3 : (k + nsteps * e) / nsteps = e := by
      rw [Nat.add_mul_div_left _ _ (by omega), Nat.div_eq_of_lt hk, zero_add]
    have h4 : (k + nsteps * e) % nsteps = k := by rw [Nat.add_mul_mod_self_left, Nat.mod_eq_of_lt hk]
    show (if _ then _ else _) = _
    rw [if_neg (by omega), h1, h3, h4]
  let μ : ℕ → MoveMetadata := fun k => Nat.rec ⟨w0, 0, 0⟩ (fun k μ => updateMoveMetadata nmoves adjust μ (frac k)) k
  have hμ : ∀ k, μ (k + 1) = updateMoveMetadata nmoves adjust (μ k) (frac k) := fun k => rfl
  have hsched := adaptation_every_n_moves nmoves hmoves adjust frac w0 μ rfl hμ
  have hdata : ∀ e i, (data e i).moveMetadata = μ (nburn + e * nsteps) := by
    intro e
    induction e with
    | zero =>
      intro i
      rw [g1, hb, zero_mul, add_zero]
      have h := metadata_follow split uniform normal nmoves adjust logabs (logAmplitude (n := n) m ions Q₀)
        (walkersOf w (logAmplitude m ions Q₀) parts keys₀) μ frac hμ 0 nburn
        (fun i => (hparts i).2.2.1.trans hmeta) (fun k hk => by rw [zero_add]; exact hf1 k hk) i
      rw [zero_add] at h
      exact h
    | succ e ih =>
      intro i
      rw [((g6 e).2.1 i).2.2.2.1, hwalked, Nat.succ_mul, ← add_assoc]
      exact metadata_follow split uniform normal nmoves adjust logabs (logAmplitude (n := n) m ions (Q e))
        (walkersOf w (logAmplitude m ions (Q e)) (data e) (keys e)) μ frac hμ (nburn + e * nsteps) nsteps ih (hf2 e) i
  refine ⟨parts, Q, o, data, keys, metrics, walked, forward, frac, hp, g2, g3, fun i => ⟨?_, ?_⟩, ?_, hf1, fun e =>
    ⟨hf2 e, ?_, fun i => ⟨((g6 e).2.1 i).1, ((g6 e).2.1 i).2.1, ?_, ?_, hwalked e i, ((g6 e).2.1 i).2.2⟩, (g6 e).2.2.2⟩⟩
  · rw [g1, hb]
  · rw [g4, hb]
  · unfold burnAndTrainDevicesA
    have h1 : burnDevicesA step (List.ofFn fun _ : Fin D => Q₀) nburn (List.ofFn fun i => (parts i, keys₀ i)) =
        .ok (List.ofFn b) := by
      have h := hburn nburn (walkersOf w (logAmplitude m ions Q₀) parts keys₀)
      simp only [← hpp] at h
      rw [hb]
      exact h
    simp only [List.map_ofFn, Function.comp_def]
    rw [h1, ok_bind, zip_devices, List.map_ofFn]
    exact g5
  · rw [(g6 e).2.2.1]
    exact (g6 e).1
  · rw [hdata, hsched]
  · rw [hdata, hsched]

end configured

/-- Helium trained on two devices which adapt after every 10 moves: after 15 moves of burning and 3 epochs of 5 moves both
devices have the width adapted three times and the same parameters. -/
example (P : Params 2 1 3) (hw : 0 < w) (x : Fin (2 * w) → Pos 2 3)
    (uniform normal : ℕ → List ℕ → Arr ℝ) (hun : ∀ k s, (uniform k s).shape = s)
    (hnorm : ∀ k s, (normal k s).shape = s) :
    ∃ m : Model 1, getModelFromConfig {} (counts fun _ : Fin 2 => 1)
        (fun (_ : Fin 1) (_ : Fin 3) => (0 : ℝ)) (fun _ => 2) 32 = .ok m ∧
      let model := fun Q X => logPsiA (m.onBatch (fun _ : Fin 2 => 1) Q fun _ _ => 0) X
      let split : ℕ → ℕ × ℕ := fun k => (2 * k, 2 * k + 1)
      let adjust := thresholdAdjust (1 / 2) 0 (1 / 10)
      let step := dynamicStepDevicesA split uniform normal (fun _ => .fin 0) model 10 adjust true
      let energy := fun Q => localEnergyA (model Q) (A2 fun (_ : Fin 1) (_ : Fin 3) => (0 : ℝ))
        (A1 fun (_ : Fin 1) => (2 : ℝ)) 0 0
      ∃ (A : Arr XR) (parts data : Fin 2 → PADataA MoveMetadata) (keys : Fin 2 → ℕ)
        (metrics : List TrainMetricsA) (frac : ℕ → ℝ),
        model (scaledHelium P 2) (A3 x) = .ok A ∧ distributeDataA 2 ⟨A3 x, A, ⟨1 / 4, 0, 0⟩⟩ = .ok [parts 0, parts 1] ∧
        burnAndTrainDevicesA step (trainEpochDevicesA (walkDynamicDevicesA step 5) (updateParamDevicesA (G := ℝ)
            (fun f Q => numberOf (f Q)) split energy model (2 * w) none false
            (fun _ _ t => (scaledHelium P (t + 1), t + 1)))) 15 3
          [⟨scaledHelium P 2, parts 0, (2 : ℝ), 7⟩, ⟨scaledHelium P 2, parts 1, 2, 8⟩] =
          .ok ([⟨scaledHelium P 5, data 0, 5, keys 0⟩, ⟨scaledHelium P 5, data 1, 5, keys 1⟩], metrics) ∧
        ∀ i, model (scaledHelium P 5) (data i).position = .ok (data i).amplitude ∧
          (data i).moveMetadata.stdMove = adjust (adjust (adjust (1 / 4)
            ((∑ k ∈ Finset.range 10, frac k) / 10)) ((∑ k ∈ Finset.range 10, frac (10 + k)) / 10))
            ((∑ k ∈ Finset.range 10, frac (20 + k)) / 10) := by
  let n : Fin 2 → ℕ := fun _ => 1
  obtain ⟨m, hm, -⟩ := helium_on_devices P
  have hex : ∀ (Q : Params 2 1 3) (q : Stream1 n 3), ∃ (nz : Prop) (r : ℝ),
      Spec.ModelValue {} Q (fun (_ : Fin 1) _ => 0) (fun _ => 2) q nz r := by
    intro Q q
    obtain ⟨v, hv⟩ := (configured_model_callable_iff {} (fun (_ : Fin 1) (_ : Fin 3) => (0 : ℝ)) (fun _ => 2) 32 m hm
      ⟨rfl, fun _ => rfl⟩ (fun _ => Nat.one_pos) Q q).mpr helium_callable
    obtain ⟨nz, r, h, -⟩ := configured_model_value {} _ _ _ m hm Q q v hv
    exact ⟨nz, r, h⟩
  choose nz ψ hψ using hex
  have hA := configured_walkers {} (fun (_ : Fin 1) (_ : Fin 3) => (0 : ℝ)) (fun _ => 2) 32 m hm ⟨rfl, fun _ => rfl⟩
    (by simp) (fun _ => Nat.one_pos) helium_callable (scaledHelium P 2) (W := 2 * w) (by omega) x
  obtain ⟨parts, Q, o, data, keys, metrics, walked, forward, frac, h1, h2, h3, -, h5, -, h6⟩ :=
    burned_adaptive_training_on_devices (D := 2)
    (w := w) (O := ℝ) (G := ℝ) {} (fun (_ : Fin 1) (_ : Fin 3) => (0 : ℝ)) (fun _ => 2) 32 m hm ⟨rfl, fun _ => rfl⟩
    (by simp) (fun _ => Nat.one_pos) helium_callable nz ψ hψ 0 0 (fun i j hij => absurd (Fin.ext (by omega)) hij)
    (by norm_num) hw (by omega) (fun k : ℕ => (2 * k, 2 * k + 1)) uniform normal (fun _ => .fin 0) 10 (by norm_num)
    (thresholdAdjust (1 / 2) 0 (1 / 10)) true hun hnorm 15 5 none false (fun f Q => numberOf (f Q))
    (fun _ _ t => (scaledHelium P (t + 1), t + 1)) 3 (scaledHelium P 2) 2 (1 / 4) ⟨A3 x, _, ⟨1 / 4, 0, 0⟩⟩ rfl rfl hA
    ![7, 8]
  have hp := fun e => Prod.ext_iff.mp (h6 e).2.2.2.1
  simp only [] at hp
  have ho1 : o 1 = 3 := by rw [(hp 0).2, h3]; norm_num
  have ho2 : o 2 = 4 := by rw [(hp 1).2, ho1]; norm_num
  have ho3 : o 3 = 5 := by rw [(hp 2).2, ho2]; norm_num
  have hp3 : Q 3 = scaledHelium P 5 := by rw [(hp 2).1, ho2]; norm_num
  rw [hp3, ho3] at h5
  refine ⟨m, hm, _, parts, data 3, keys 3, _, frac, hA, h1, h5, fun i => ⟨hp3 ▸ ((h6 3).2.2.1 i).2.1,
    ((h6 3).2.2.1 i).2.2.1.trans ?_⟩⟩
  simp [widthAfter]

end Verif.Props
