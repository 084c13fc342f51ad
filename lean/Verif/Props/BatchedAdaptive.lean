import Verif.Model.BatchedAdaptive
import Verif.Props.BatchedDevices

/-!
Walks with adaptive step width on several devices.
-/

namespace Verif.Spec
open Verif.MCMC Verif.Arrays Verif.Phys

section

variable {κ P : Type} {D w d N : ℕ} (split : κ → κ × κ) (uniform : κ → List ℕ → Arr ℝ) (normal : κ → List ℕ → Arr ℝ)
  (logabs : Bool) (psi : Pos N d → XR)

/-- Where walker `t` of a device would move. -/
noncomputable def proposedPlace (p : PAData (Fin w) (Pos N d) MoveMetadata × κ) (t : Fin w) : Pos N d := fun i j =>
  p.1.position t i j + p.1.moveMetadata.stdMove * (normal (split (split p.2).1).2 [d, N, w]).get [j.val, i.val, t.val]

/-- Walker `t` of a device moves. -/
def Moves (p : PAData (Fin w) (Pos N d) MoveMetadata × κ) (t : Fin w) : Prop :=
  XR.lt (.fin ((uniform (split p.2).2 [w]).get [t.val]))
    (accept logabs (p.1.amplitude t) (psi (proposedPlace split normal p t)))

open Classical in
/-- The fraction of the walkers of all devices which move. -/
noncomputable def fractionMoving (p : Fin D → PAData (Fin w) (Pos N d) MoveMetadata × κ) : ℝ :=
  (∑ i, ∑ t, if Moves split uniform normal logabs psi (p i) t then (1 : ℝ) else 0) / (D * w : ℕ)

/-- The mean of the acceptance ratios of the walkers of a device. -/
noncomputable def acceptanceOf (meanFn : Arr XR → XR) (p : PAData (Fin w) (Pos N d) MoveMetadata × κ) : XR :=
  meanFn (A1 fun t => accept logabs (p.1.amplitude t) (psi (proposedPlace split normal p t)))

open Classical in
/-- A step of all devices: every walker moves or stays, and the devices adapt their widths to the fraction of all walkers
which move. -/
noncomputable def devicesNext (nmoves : ℕ) (adjust : ℝ → ℝ → ℝ)
    (p : Fin D → PAData (Fin w) (Pos N d) MoveMetadata × κ) : Fin D → PAData (Fin w) (Pos N d) MoveMetadata × κ :=
  fun i => (⟨fun t => if Moves split uniform normal logabs psi (p i) t then proposedPlace split normal (p i) t
      else (p i).1.position t,
    fun t => if Moves split uniform normal logabs psi (p i) t then psi (proposedPlace split normal (p i) t)
      else (p i).1.amplitude t,
    updateMoveMetadata nmoves adjust (p i).1.moveMetadata (fractionMoving split uniform normal logabs psi p)⟩,
    (split (split (p i).2).1).1)

end

end Verif.Spec

namespace Verif.Props
open Verif.Arrays Verif.MCMC Verif.Phys Verif.Spec Verif.Construct Verif.Net Verif.Energy Verif.Slog

variable {κ P : Type} {D w d N : ℕ}

section step

variable (split : κ → κ × κ) (uniform : κ → List ℕ → Arr ℝ) (normal : κ → List ℕ → Arr ℝ)
  (meanFn : Arr XR → XR) (modelApply : P → Arr ℝ → Except String (Arr XR)) (nmoves : ℕ) (adjust : ℝ → ℝ → ℝ)
  (logabs : Bool) (params : P) (psi : Pos N d → XR)
  (hmodel : ∀ pos : Fin w → Pos N d, modelApply params (A3 pos) = .ok (A1 fun t => psi (pos t)))
  (hu : ∀ k s, (uniform k s).shape = s) (hnorm : ∀ k s, (normal k s).shape = s)

include hmodel hu hnorm

theorem move_on_arrays (p : PAData (Fin w) (Pos N d) MoveMetadata × κ) :
    moveA split uniform normal modelApply (fun data => data.moveMetadata.stdMove) logabs params
      (arraysOf p.1) p.2 = .ok ⟨A1 fun t => accept logabs (p.1.amplitude t) (psi (proposedPlace split normal p t)), arraysOf ⟨proposedPlace split normal p, fun t => psi (proposedPlace split normal p t),
        p.1.moveMetadata⟩, A1 fun t => by classical exact decide (Moves split uniform normal logabs psi p t),
        (split (split p.2).1).1⟩ := by
  unfold moveA
  simp only []
  rw [proposal_on_arrays split normal modelApply _ params (fun _ _ => psi) hmodel hnorm, ok_bind]
  simp only []
  rw [show acceptanceA logabs (arraysOf p.1).amplitude (arraysOf (paProposal split
      (fun k w i j => (normal k [d, N, _]).get [j.val, i.val, w.val]) (fun _ _ => psi)
      (fun D _ => (arraysOf D).moveMetadata.stdMove) params p.1 (split p.2).1).1).amplitude =
    .ok (A1 fun t => accept logabs (p.1.amplitude t) (psi (proposedPlace split normal p t))) from zip_A1 _ _ _, ok_bind,
    mask_on_arrays uniform hu, ok_bind]
  rfl

/-- C125: one step. -/
theorem adaptive_step_on_devices (p : Fin D → PAData (Fin w) (Pos N d) MoveMetadata × κ) :
    dynamicStepDevicesA split uniform normal meanFn modelApply nmoves adjust logabs (List.ofFn fun _ : Fin D => params)
        (List.ofFn fun i => (arraysOf (p i).1, (p i).2)) =
      .ok (List.ofFn fun i => (acceptanceOf split normal logabs psi meanFn (p i),
        arraysOf (devicesNext split uniform normal logabs psi nmoves adjust p i).1,
        (devicesNext split uniform normal logabs psi nmoves adjust p i).2)) := by
  classical
  have hacc := fun i => move_on_arrays split uniform normal modelApply logabs params psi hmodel hu hnorm (p i)
  unfold dynamicStepDevicesA
  rw [zip_devices, mapM_devices (x := fun i => (params, arraysOf (p i).1, (p i).2)) fun i => hacc i, ok_bind]
  have havg : ((List.ofFn fun i => (⟨A1 fun t => accept logabs ((p i).1.amplitude t) (psi (proposedPlace split normal (p i) t)),
        arraysOf ⟨proposedPlace split normal (p i),
        fun t => psi (proposedPlace split normal (p i) t), (p i).1.moveMetadata⟩,
        A1 fun t => decide (Moves split uniform normal logabs psi (p i) t), (split (split (p i).2).1).1⟩ :
        Move MoveMetadata κ)).map fun mv => maskMeanA mv.mask).sum / (D : ℝ) =
      fractionMoving split uniform normal logabs psi p := by
    rw [List.map_ofFn, List.sum_ofFn]
    simp only [Function.comp]
    unfold fractionMoving
    rw [Finset.sum_congr rfl fun i _ => (mask_mean_A1 (Moves split uniform normal logabs psi (p i)))]
    unfold maskMean
    rw [← Finset.sum_div, Fintype.card_fin, div_div]
    push_cast
    rw [mul_comm (D : ℝ)]
  simp only [List.length_ofFn, havg]
  rw [zip_devices]
  refine mapM_devices fun i => ?_
  simp only []
  rw [update_on_arrays (some fun md _ => updateMoveMetadata nmoves adjust md
    (fractionMoving split uniform normal logabs psi p)) (p i).1, ok_bind]
  rfl

/-- C125: a walk of any number of steps. -/
theorem adaptive_walk_on_devices (p : Fin D → PAData (Fin w) (Pos N d) MoveMetadata × κ)
    (nsteps : ℕ) :
    walkDynamicDevicesA
        (dynamicStepDevicesA split uniform normal meanFn modelApply nmoves adjust logabs) nsteps
        (List.ofFn fun _ : Fin D => params)
        (List.ofFn fun i => (arraysOf (p i).1, (p i).2)) =
      .ok (pmean (List.ofFn fun i => (List.range nsteps).foldl (fun a k => a + acceptanceOf split normal logabs psi meanFn
          ((devicesNext split uniform normal logabs psi nmoves adjust)^[k] p i)) (.fin 0) / XR.ofNat nsteps), List.ofFn fun i =>
        (arraysOf ((devicesNext split uniform normal logabs psi nmoves adjust)^[nsteps] p i).1,
          ((devicesNext split uniform normal logabs psi nmoves adjust)^[nsteps] p i).2)) := by
  let next := devicesNext (D := D) (w := w) split uniform normal logabs psi nmoves adjust
  have hloop : ∀ (k : ℕ) (s : Fin D → XR) (p : Fin D → PAData (Fin w) (Pos N d) MoveMetadata × κ),
      walkLoopDevicesA
        (dynamicStepDevicesA split uniform normal meanFn modelApply nmoves adjust logabs) (List.ofFn fun _ : Fin D => params) k
        (List.ofFn fun i => (s i, arraysOf (p i).1, (p i).2)) =
      .ok (List.ofFn fun i => ((List.range k).foldl (fun a k => a + acceptanceOf split normal logabs psi meanFn
        (next^[k] p i)) (s i), arraysOf (next^[k] p i).1, (next^[k] p i).2)) := by
    intro k
    induction k with
    | zero => exact fun s p => rfl
    | succ k ih =>
      intro s p
      have h := adaptive_step_on_devices split uniform normal meanFn modelApply nmoves adjust logabs params psi
        hmodel hu hnorm p
      have h' := ih (fun i => s i + acceptanceOf split normal logabs psi meanFn (p i)) (next p)
      unfold walkLoopDevicesA
      rw [List.map_ofFn]
      simp only [Function.comp_def]
      rw [h, ok_bind, zip_devices, List.map_ofFn]
      refine Eq.trans h' ?_
      simp only [List.range_succ_eq_map, List.foldl_cons, List.foldl_map]
      rfl
  have h := hloop nsteps (fun _ => .fin 0) p
  unfold walkDynamicDevicesA
  rw [List.map_ofFn]
  simp only [Function.comp_def]
  rw [h, ok_bind, List.map_ofFn, List.map_ofFn]
  rfl

end step

section spec

variable (split : κ → κ × κ) (uniform : κ → List ℕ → Arr ℝ) (normal : κ → List ℕ → Arr ℝ)
  (nmoves : ℕ) (adjust : ℝ → ℝ → ℝ) (logabs : Bool) (psi : Pos N d → XR)

/-- C125: after any number of moves all devices have the same width, which has been adapted after every `nmoves` moves to
the mean, over exactly these moves, of the fraction of the walkers of all devices which moved. -/
theorem widths_on_devices (hn : 1 ≤ nmoves) (p : Fin D → PAData (Fin w) (Pos N d) MoveMetadata × κ) (w0 : ℝ)
    (h0 : ∀ i, (p i).1.moveMetadata = ⟨w0, 0, 0⟩) (k : ℕ) (i : Fin D) :
    let st := fun k => (devicesNext split uniform normal logabs psi nmoves adjust)^[k] p
    let frac := fun k => fractionMoving split uniform normal logabs psi (st k)
    (st k i).1.moveMetadata = ⟨widthAfter nmoves adjust frac w0 (k / nmoves),
      ∑ j ∈ Finset.range (k % nmoves), frac (k / nmoves * nmoves + j), k % nmoves⟩ := by
  intro st frac
  refine adaptation_every_n_moves nmoves hn adjust frac w0 (fun k => (st k i).1.moveMetadata) (h0 i) (fun t => ?_) k
  show ((devicesNext split uniform normal logabs psi nmoves adjust)^[t + 1] p i).1.moveMetadata = _
  rw [Function.iterate_succ_apply']
  rfl

/-- Fractions are between 0 and 1. -/
theorem fraction_moving_bounds (p : Fin D → PAData (Fin w) (Pos N d) MoveMetadata × κ) :
    0 ≤ fractionMoving split uniform normal logabs psi p ∧ fractionMoving split uniform normal logabs psi p ≤ 1 := by
  classical
  unfold fractionMoving
  constructor
  · exact div_nonneg (Finset.sum_nonneg fun i _ => Finset.sum_nonneg fun t _ => by split_ifs <;> norm_num)
      (Nat.cast_nonneg _)
  · refine div_le_one_of_le₀ ?_ (Nat.cast_nonneg _)
    calc _ ≤ ∑ _i : Fin D, ∑ _t : Fin w, (1 : ℝ) :=
          Finset.sum_le_sum fun i _ => Finset.sum_le_sum fun t _ => by split_ifs <;> norm_num
      _ = _ := by simp

theorem next_consistent (p : Fin D → PAData (Fin w) (Pos N d) MoveMetadata × κ)
    (h : ∀ i t, (p i).1.amplitude t = psi ((p i).1.position t)) (k : ℕ) (i : Fin D) (t : Fin w) :
    ((devicesNext split uniform normal logabs psi nmoves adjust)^[k] p i).1.amplitude t =
      psi (((devicesNext split uniform normal logabs psi nmoves adjust)^[k] p i).1.position t) := by
  induction k generalizing i t with
  | zero => exact h i t
  | succ k ih =>
    rw [Function.iterate_succ_apply']
    unfold devicesNext
    simp only []
    split_ifs with hm
    · rfl
    · exact ih i t

/-- C125: the width of every device stays positive. -/
theorem widths_on_devices_positive (target threshold adj : ℝ) (ht : 0 ≤ threshold) (h0 : 0 < adj) (h1 : adj < 1)
    (p : Fin D → PAData (Fin w) (Pos N d) MoveMetadata × κ) (hp : ∀ i, 0 < (p i).1.moveMetadata.stdMove) (k : ℕ)
    (i : Fin D) :
    0 < ((devicesNext split uniform normal logabs psi nmoves (thresholdAdjust target threshold adj))^[k]
      p i).1.moveMetadata.stdMove := by
  refine width_stays_positive nmoves target threshold adj ht h0 h1
    (fun k => fractionMoving split uniform normal logabs psi
      ((devicesNext split uniform normal logabs psi nmoves (thresholdAdjust target threshold adj))^[k] p))
    (fun k => ((devicesNext split uniform normal logabs psi nmoves
      (thresholdAdjust target threshold adj))^[k] p i).1.moveMetadata) (hp i) (fun t => ?_) k
  simp only [Function.iterate_succ_apply']
  rfl

end spec

section configured

variable {S m₀ : ℕ} {n : Fin (S + 1) → ℕ} (c : ModelCfg) (ions : Fin (m₀ + 1) → Fin d → ℝ)
  (charges : Fin (m₀ + 1) → ℝ) (dtype : ℕ) (m : Model (m₀ + 1))
  (hm : getModelFromConfig c (counts n) ions charges dtype = .ok m) (hu : Spec.UsesNorms c)
  (hdet : c.ndeterminants ≠ 0) (hn : ∀ s, 0 < n s) (hc : Spec.Callable c (S + 1))

include hm hu hdet hn hc

/-- C125: for a configured model and data distributed to the devices with fresh metadata, walking any number of steps
returns; walkers move or stay one by one, the amplitudes are those of the model at the positions, and all devices have the
same width, adapted to the fraction of the walkers of all devices which moved. -/
theorem configured_adaptive_walk (Q : Params (S + 1) (m₀ + 1) d) (split : κ → κ × κ)
    (uniform normal : κ → List ℕ → Arr ℝ) (meanFn : Arr XR → XR) (nmoves : ℕ) (hmoves : 1 ≤ nmoves)
    (adjust : ℝ → ℝ → ℝ) (logabs : Bool) (hun : ∀ k s, (uniform k s).shape = s) (hnorm : ∀ k s, (normal k s).shape = s)
    (hD : 0 < D) (hw : 0 < w) (w0 : ℝ) (data : PADataA MoveMetadata) (hmeta : data.moveMetadata = ⟨w0, 0, 0⟩)
    (hX : data.position.shape = [d, ∑ s, n s, D * w])
    (hA : logPsiA (m.onBatch n Q ions) data.position = .ok data.amplitude) (keys : Fin D → κ) (nsteps : ℕ) :
    let model := fun Q X => logPsiA (m.onBatch n Q ions) X
    ∃ (parts : Fin D → PADataA MoveMetadata) (st : ℕ → Fin D → PAData (Fin w) (Pos (∑ s, n s) d) MoveMetadata × κ),
      distributeDataA D data = .ok (List.ofFn parts) ∧
      (∀ i, (st 0 i).2 = keys i ∧ ∀ t : Fin w, (st 0 i).1.position t = Spec.positionsOf data.position [i.val * w + t.val]) ∧
      (∀ k, st (k + 1) = devicesNext split uniform normal logabs (logAmplitude m ions Q) nmoves adjust (st k)) ∧
      walkDynamicDevicesA (dynamicStepDevicesA split uniform normal meanFn model nmoves adjust logabs) nsteps
          (List.ofFn fun _ : Fin D => Q)
        (List.ofFn fun i => (parts i, keys i)) =
          .ok (pmean (List.ofFn fun i => (List.range nsteps).foldl (fun a k => a + acceptanceOf split normal logabs
            (logAmplitude m ions Q) meanFn (st k i)) (.fin 0) / XR.ofNat nsteps), List.ofFn fun i => (arraysOf (st nsteps i).1, (st nsteps i).2)) ∧
      (∀ i, model Q (arraysOf (st nsteps i).1).position = .ok (arraysOf (st nsteps i).1).amplitude) ∧
      ∀ i, (st nsteps i).1.moveMetadata.stdMove = widthAfter nmoves adjust (fun k =>
        fractionMoving split uniform normal logabs (logAmplitude m ions Q) (st k)) w0 (nsteps / nmoves) := by
  intro model
  have hmodel : ∀ pos : Fin w → Pos (∑ s, n s) d, model Q (A3 pos) = .ok (A1 fun t => logAmplitude m ions Q (pos t)) :=
    configured_walkers c ions charges dtype m hm hu hdet hn hc Q hw
  obtain ⟨parts, hp, hparts⟩ := distributed_data c ions charges dtype m hm hu hdet hn hc Q hD hw data hX hA
  let p : Fin D → PAData (Fin w) (Pos (∑ s, n s) d) MoveMetadata × κ := fun i =>
    (⟨fun t => Spec.positionsOf (parts i).position [t.val], fun t =>
      logAmplitude m ions Q (Spec.positionsOf (parts i).position [t.val] : Pos (∑ s, n s) d), ⟨w0, 0, 0⟩⟩, keys i)
  have hpp : ∀ i, parts i = arraysOf (p i).1 := by
    intro i
    obtain ⟨h1, h2, h3, h4⟩ := hparts i
    have h5 : (parts i).position = A3 (p i).1.position := eq_A3' h1
    have h6 : (parts i).amplitude = A1 (p i).1.amplitude := by
      have h7 := hmodel (p i).1.position
      rw [← h5] at h7
      exact Except.ok.inj (h2.symm.trans h7)
    have h8 : (parts i).moveMetadata = ⟨w0, 0, 0⟩ := h3.trans hmeta
    show parts i = ⟨A3 (p i).1.position, A1 (p i).1.amplitude, ⟨w0, 0, 0⟩⟩
    rw [← h5, ← h6, ← h8]
  have h := adaptive_walk_on_devices split uniform normal meanFn model nmoves adjust logabs Q
    (logAmplitude m ions Q) hmodel hun hnorm p nsteps
  refine ⟨parts, fun k => (devicesNext split uniform normal logabs (logAmplitude m ions Q) nmoves adjust)^[k] p, hp,
    fun i => ⟨rfl, fun t => (hparts i).2.2.2 t⟩, fun k => Function.iterate_succ_apply' _ _ _, ?_, fun i => ?_, fun i => ?_⟩
  · simp only [hpp]
    exact h
  · refine (hmodel _).trans (congrArg Except.ok (congrArg A1 (funext fun t => ?_)))
    exact (next_consistent split uniform normal nmoves adjust logabs (logAmplitude m ions Q) p (fun _ _ => rfl) nsteps i
      t).symm
  · exact congrArg MoveMetadata.stdMove (widths_on_devices split uniform normal nmoves adjust logabs
      (logAmplitude m ions Q) hmoves p w0 (fun _ => rfl) nsteps i)

end configured

/-- Helium with `w` walkers on each of two devices which adapt after every 10 moves: after 25 moves both devices have the
same width, adapted twice. -/
example (P : Params 2 1 3) (hw : 0 < w) (x : Fin (2 * w) → Pos 2 3)
    (uniform normal : ℕ → List ℕ → Arr ℝ) (hun : ∀ k s, (uniform k s).shape = s)
    (hnorm : ∀ k s, (normal k s).shape = s) :
    ∃ m : Model 1, getModelFromConfig {} (counts fun _ : Fin 2 => 1)
        (fun (_ : Fin 1) (_ : Fin 3) => (0 : ℝ)) (fun _ => 2) 32 = .ok m ∧
      let model := fun Q X => logPsiA (m.onBatch (fun _ : Fin 2 => 1) Q fun _ _ => 0) X
      let adjust := thresholdAdjust (1 / 2) 0 (1 / 10)
      ∃ (A : Arr XR) (parts walked : Fin 2 → PADataA MoveMetadata) (keys : Fin 2 → ℕ) (acc : XR) (frac : ℕ → ℝ),
        model (scaledHelium P 2) (A3 x) = .ok A ∧
        distributeDataA 2 ⟨A3 x, A, ⟨1 / 4, 0, 0⟩⟩ = .ok [parts 0, parts 1] ∧
        walkDynamicDevicesA (dynamicStepDevicesA (fun k : ℕ => (2 * k, 2 * k + 1)) uniform normal (fun _ => .fin 0) model
            10 adjust true) 25 [scaledHelium P 2, scaledHelium P 2] [(parts 0, 7), (parts 1, 8)] =
          .ok (acc, [(walked 0, keys 0), (walked 1, keys 1)]) ∧
        (∀ k, 0 ≤ frac k ∧ frac k ≤ 1) ∧
        ∀ i, model (scaledHelium P 2) (walked i).position = .ok (walked i).amplitude ∧
          (walked i).moveMetadata.stdMove = adjust (adjust (1 / 4) ((∑ k ∈ Finset.range 10, frac k) / 10))
            ((∑ k ∈ Finset.range 10, frac (10 + k)) / 10) := by
  obtain ⟨m, hm, -⟩ := helium_on_devices P
  have hA := configured_walkers {} (fun (_ : Fin 1) (_ : Fin 3) => (0 : ℝ)) (fun _ => 2) 32 m hm ⟨rfl, fun _ => rfl⟩
    (by simp) (fun _ => Nat.one_pos) helium_callable (scaledHelium P 2) (W := 2 * w) (by omega) x
  obtain ⟨parts, st, h1, -, -, h4, h5, h6⟩ := configured_adaptive_walk (D := 2) (w := w) {}
    (fun (_ : Fin 1) (_ : Fin 3) => (0 : ℝ)) (fun _ => 2) 32 m hm ⟨rfl, fun _ => rfl⟩ (by simp) (fun _ => Nat.one_pos)
    helium_callable (scaledHelium P 2) (fun k : ℕ => (2 * k, 2 * k + 1)) uniform normal (fun _ => .fin 0) 10 (by norm_num)
    (thresholdAdjust (1 / 2) 0 (1 / 10)) true hun hnorm (by norm_num) hw (1 / 4) ⟨A3 x, _, ⟨1 / 4, 0, 0⟩⟩ rfl rfl hA
    ![7, 8] 25
  refine ⟨m, hm, _, parts, fun i => arraysOf (st 25 i).1, fun i => (st 25 i).2, _,
    fun k => fractionMoving (fun k : ℕ => (2 * k, 2 * k + 1)) uniform normal true
      (logAmplitude m (fun _ _ => 0) (scaledHelium P 2)) (st k), hA, h1, h4,
    fun k => fraction_moving_bounds _ uniform normal true _ (st k), fun i => ⟨h5 i, (h6 i).trans ?_⟩⟩
  simp [widthAfter]

end Verif.Props
