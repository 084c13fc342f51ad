import Verif.Model.BatchedEvaluationDevices
import Verif.Props.BatchedTrainingDevices

/-!
Burning and evaluating with adaptive step width on several devices.
-/

namespace Verif.Props
open Verif.Arrays Verif.MCMC Verif.Phys Verif.Spec Verif.Construct Verif.Net Verif.Energy Verif.Slog

variable {κ : Type} {D w d : ℕ}

/-- Burning and evaluating along a sequence of states which steps and walks follow. -/
theorem evaluation_chain {P M : Type} {step : List P → List (PADataA M × κ) → Except String (List (XR × PADataA M × κ))}
    {walk : List P → List (PADataA M × κ) → Except String (XR × List (PADataA M × κ))}
    {energy : P → Arr ℝ → Except String (Arr XR)} {nchains : ℕ} {nanSafe : Bool} {params : List P} {nsteps : ℕ}
    {X : ℕ → List (PADataA M × κ)} {rs : ℕ → List (XR × PADataA M × κ)} {acc : ℕ → XR} {es : ℕ → List (Arr XR)}
    (hstep : ∀ j, step params (X j) = .ok (rs j) ∧ (rs j).map (·.2) = X (j + 1))
    (hwalk : ∀ j, walk params (X j) = .ok (acc j, X (j + nsteps)))
    (hen : ∀ j, ((params.zip (X j)).mapM fun pd => vmapA (energy pd.1) pd.2.1.position) = .ok (es j))
    (nburn nepochs : ℕ) :
    evaluateDevicesA step walk energy nchains nanSafe nburn nepochs params (X 0) =
      .ok (X (nburn + nepochs * nsteps), List.ofFn fun e : Fin nepochs =>
        (getStatistics ((es (nburn + (e + 1) * nsteps)).map entriesA) nchains nanSafe, acc (nburn + e * nsteps))) := by
  have hburn : ∀ k j, burnDevicesA step params k (X j) = .ok (X (j + k)) := by
    intro k
    induction k with
    | zero => exact fun j => rfl
    | succ k ih =>
      intro j
      unfold burnDevicesA
      rw [(hstep j).1, ok_bind, (hstep j).2, ih (j + 1), Nat.add_right_comm, add_assoc]
  have hepoch : ∀ j, evalEpochWalkA walk energy nchains nanSafe params (X j) =
      .ok (X (j + nsteps), getStatistics ((es (j + nsteps)).map entriesA) nchains nanSafe, acc j) := by
    intro j
    unfold evalEpochWalkA
    rw [hwalk, ok_bind, hen, ok_bind]
    rfl
  have hloop : ∀ k e, evalLoopDevicesA (evalEpochWalkA walk energy nchains nanSafe params) k (X (nburn + e * nsteps)) =
      .ok (X (nburn + (e + k) * nsteps), List.ofFn fun l : Fin k =>
        (getStatistics ((es (nburn + (e + l + 1) * nsteps)).map entriesA) nchains nanSafe,
          acc (nburn + (e + l) * nsteps))) := by
    intro k
    induction k with
    | zero => exact fun e => rfl
    | succ k ih =>
      intro e
      unfold evalLoopDevicesA
      rw [hepoch, ok_bind, show nburn + e * nsteps + nsteps = nburn + (e + 1) * nsteps by ring]
      simp only []
      rw [ih (e + 1), ok_bind, List.ofFn_succ]
      simp only [Fin.val_succ, Fin.val_zero, add_zero, show ∀ l, e + 1 + l = e + (l + 1) from fun l => by ring]
      rfl
  unfold evaluateDevicesA
  rw [hburn nburn 0, ok_bind, zero_add]
  have := hloop nepochs 0
  simp only [zero_mul, add_zero, zero_add] at this
  exact this

section configured

variable {S m₀ : ℕ} {n : Fin (S + 1) → ℕ} (c : ModelCfg) (ions : Fin (m₀ + 1) → Fin d → ℝ)
  (charges : Fin (m₀ + 1) → ℝ) (dtype : ℕ) (m : Model (m₀ + 1))
  (hm : getModelFromConfig c (counts n) ions charges dtype = .ok m) (hu : Spec.UsesNorms c)
  (hdet : c.ndeterminants ≠ 0) (hn : ∀ s, 0 < n s) (hc : Spec.Callable c (S + 1))

include hm hu hdet hn hc

/-- C127: burning and evaluating with steps of adaptive width on several devices is one chain of moves of the walkers of all
devices: the epoch with number `e` evaluates the walkers after `nburn + (e + 1) nsteps` moves, and the width is adapted after
every `nmoves` moves, counted from the first move of the burning.  All amplitudes are those of the model at the positions.  If
no walker is at a node or kink, the energy and variance of an epoch are those over the walkers of all devices. -/
theorem adaptive_evaluation_on_devices (Q : Params (S + 1) (m₀ + 1) d) (nonzero : Stream1 n d → Prop)
    (ψ : Stream1 n d → ℝ) (hψ : ∀ q, Spec.ModelValue c Q ions charges q (nonzero q) (ψ q))
    (eiSoft eeSoft : ℝ) (hR : Distinct ions) (hD : 0 < D) (hw : 0 < w) (h2 : 2 ≤ D * w) (split : κ → κ × κ)
    (uniform normal : κ → List ℕ → Arr ℝ) (meanFn : Arr XR → XR) (nmoves : ℕ) (hmoves : 1 ≤ nmoves)
    (adjust : ℝ → ℝ → ℝ) (logabs : Bool) (hun : ∀ k s, (uniform k s).shape = s) (hnorm : ∀ k s, (normal k s).shape = s)
    (nburn nsteps nepochs : ℕ) (nanSafe : Bool) (w0 : ℝ) (start : PADataA MoveMetadata)
    (hmeta : start.moveMetadata = ⟨w0, 0, 0⟩) (hX : start.position.shape = [d, ∑ s, n s, D * w])
    (hA : logPsiA (m.onBatch n Q ions) start.position = .ok start.amplitude) (keys : Fin D → κ) :
    let model := fun Q X => logPsiA (m.onBatch n Q ions) X
    let step := dynamicStepDevicesA split uniform normal meanFn model nmoves adjust logabs
    let energy := fun Q => localEnergyA (model Q) (A2 ions) (A1 charges) eiSoft eeSoft
    ∃ (parts : Fin D → PADataA MoveMetadata) (st : ℕ → Fin D → PAData (Fin w) (Pos (∑ s, n s) d) MoveMetadata × κ)
      (stats : ℕ → XR × XR),
      distributeDataA D start = .ok (List.ofFn parts) ∧
      (∀ i, (st 0 i).2 = keys i ∧ ∀ t : Fin w, (st 0 i).1.position t = Spec.positionsOf start.position [i.val * w + t.val]) ∧
      (∀ k, st (k + 1) = devicesNext split uniform normal logabs (logAmplitude m ions Q) nmoves adjust (st k)) ∧
      evaluateDevicesA step (walkDynamicDevicesA step nsteps) energy (D * w) nanSafe nburn nepochs
          (List.ofFn fun _ : Fin D => Q) (List.ofFn fun i => (parts i, keys i)) =
        .ok (List.ofFn fun i => (arraysOf (st (nburn + nepochs * nsteps) i).1, (st (nburn + nepochs * nsteps) i).2),
          List.ofFn fun e : Fin nepochs => (stats e, pmean (List.ofFn fun i => (List.range nsteps).foldl
            (fun a k => a + acceptanceOf split normal logabs (logAmplitude m ions Q) meanFn
              (st (nburn + e * nsteps + k) i)) (.fin 0) / XR.ofNat nsteps))) ∧
      (∀ k i, model Q (arraysOf (st k i).1).position = .ok (arraysOf (st k i).1).amplitude) ∧
      (∀ k i, (st k i).1.moveMetadata.stdMove = widthAfter nmoves adjust (fun k =>
        fractionMoving split uniform normal logabs (logAmplitude m ions Q) (st k)) w0 (k / nmoves)) ∧
      ∀ e, let x := fun i t => (st (nburn + (e + 1) * nsteps) i).1.position t
        (∀ i t, ψ (splitPositions (x i t)) ≠ 0) →
        (∀ i t, SmoothPlace c Q ions (splitPositions (x i t) : Stream1 n d)) →
        ∀ E : Fin D → Fin w → ℝ, (∀ i t, E i t = localEnergyOf ψ ions charges eiSoft eeSoft (x i t)) →
          stats e = (.fin ((∑ i, ∑ t, E i t) / (D * w : ℕ)),
            .fin ((∑ i, ∑ t, (E i t - (∑ j, ∑ u, E j u) / (D * w : ℕ)) ^ 2) / (((D * w : ℕ) : ℝ) - 1))) := by
  intro model step energy
  have hmodel : ∀ pos : Fin w → Pos (∑ s, n s) d, model Q (A3 pos) = .ok (A1 fun t => logAmplitude m ions Q (pos t)) :=
    configured_walkers c ions charges dtype m hm hu hdet hn hc Q hw
  obtain ⟨parts, hp, hparts⟩ := distributed_data c ions charges dtype m hm hu hdet hn hc Q hD hw start hX hA
  let p : Fin D → PAData (Fin w) (Pos (∑ s, n s) d) MoveMetadata × κ := fun i =>
    (⟨fun t => Spec.positionsOf (parts i).position [t.val], fun t =>
      logAmplitude m ions Q (Spec.positionsOf (parts i).position [t.val] : Pos (∑ s, n s) d), ⟨w0, 0, 0⟩⟩, keys i)
  have hpp : ∀ i, parts i = arraysOf (p i).1 := by
    intro i
    obtain ⟨h1, h2, h3, h4⟩ := hparts i
    have h5 : (parts i).position = A3 (p i).1.position := eq_A3' h1
    have h6 : (parts i).amplitude = A1 (p i).1.amplitude := by
      have h7 := hmodel (p i).1.position
      rw [← h5] at h7
      exact Except.ok.inj (h2.symm.trans h7)
    have h8 : (parts i).moveMetadata = ⟨w0, 0, 0⟩ := h3.trans hmeta
    show parts i = ⟨A3 (p i).1.position, A1 (p i).1.amplitude, ⟨w0, 0, 0⟩⟩
    rw [← h5, ← h6, ← h8]
  obtain ⟨st, hst⟩ : ∃ st : ℕ → Fin D → PAData (Fin w) (Pos (∑ s, n s) d) MoveMetadata × κ, st = fun k =>
    (devicesNext split uniform normal logabs (logAmplitude m ions Q) nmoves adjust)^[k] p := ⟨_, rfl⟩
  have hnext : ∀ k, st (k + 1) = devicesNext split uniform normal logabs (logAmplitude m ions Q) nmoves adjust (st k) := by
    intro k
    rw [hst]
    exact Function.iterate_succ_apply' _ _ _
  have hzero : st 0 = p := by rw [hst]; rfl
  have h0 : ∀ i, (st 0 i).2 = keys i ∧
      ∀ t : Fin w, (st 0 i).1.position t = Spec.positionsOf start.position [i.val * w + t.val] := by
    rw [hzero]
    exact fun i => ⟨rfl, fun t => (hparts i).2.2.2 t⟩
  have hiter : ∀ k j, (devicesNext split uniform normal logabs (logAmplitude m ions Q) nmoves adjust)^[k] (st j) =
      st (j + k) := by
    intro k
    induction k with
    | zero => exact fun j => rfl
    | succ k ih =>
      intro j
      rw [Function.iterate_succ_apply', ih, ← add_assoc, hnext]
  have hst0 : (List.ofFn fun i => (parts i, keys i)) = List.ofFn fun i => (arraysOf (st 0 i).1, (st 0 i).2) := by
    rw [hzero]
    simp only [hpp]
    rfl
  have hen : ∀ k i, ∃ Y, vmapA (energy Q) (arraysOf (st k i).1).position = .ok Y := by
    intro k i
    obtain ⟨Y, h7, -, -⟩ := vmapped_local_energies c ions charges dtype m hm hu hdet hn Q hc nonzero ψ hψ
      eiSoft eeSoft hR hw (X := A3 (st k i).1.position) rfl
    exact ⟨Y, h7⟩
  choose Y hY using hen
  let stats : ℕ → XR × XR := fun e =>
    getStatistics (List.ofFn fun i => entriesA (Y (nburn + (e + 1) * nsteps) i)) (D * w) nanSafe
  refine ⟨parts, st, stats, hp, h0, hnext, ?_, ?_, ?_, ?_⟩
  · rw [hst0]
    refine (evaluation_chain (X := fun k => List.ofFn fun i => (arraysOf (st k i).1, (st k i).2))
      (es := fun k => List.ofFn (Y k)) (nsteps := nsteps)
      (acc := fun j => pmean (List.ofFn fun i => (List.range nsteps).foldl
        (fun a k => a + acceptanceOf split normal logabs (logAmplitude m ions Q) meanFn (st (j + k) i)) (.fin 0) /
          XR.ofNat nsteps))
      (fun j => ⟨adaptive_step_on_devices split uniform normal meanFn model nmoves adjust
        logabs Q (logAmplitude m ions Q) hmodel hun hnorm (st j), ?_⟩) (fun j => ?_) (fun j => ?_) nburn nepochs).trans ?_
    · rw [List.map_ofFn, hnext]
      rfl
    · have h := adaptive_walk_on_devices split uniform normal meanFn model nmoves adjust logabs Q (logAmplitude m ions Q)
        hmodel hun hnorm (st j) nsteps
      simp only [hiter] at h
      exact h
    · rw [zip_devices]
      exact mapM_devices fun i => hY j i
    · simp only [List.map_ofFn]
      rfl
  · intro k i
    refine (hmodel _).trans (congrArg Except.ok (congrArg A1 (funext fun t => ?_)))
    rw [hst]
    exact (next_consistent split uniform normal nmoves adjust logabs (logAmplitude m ions Q) p (fun _ _ => rfl) k i
      t).symm
  · intro k i
    rw [hst]
    exact congrArg MoveMetadata.stdMove (widths_on_devices split uniform normal nmoves adjust logabs
      (logAmplitude m ions Q) hmoves p w0 (fun _ => rfl) k i)
  · intro e x hx hs E hE
    have h3 : (List.ofFn fun i => entriesA (Y (nburn + (e + 1) * nsteps) i)) =
        List.ofFn fun i => List.ofFn fun t => XR.fin (E i t) := by
      congr 1
      funext i
      have hpos : ∀ (t : ℕ) (ht : t < w), (Spec.positionsOf (A3 (x i)) [t] : Pos (∑ s, n s) d) = x i ⟨t, ht⟩ := by
        intro t ht
        funext e k
        exact A3_get (x i) ht e.2 k.2
      obtain ⟨Y', h4, h5, h6⟩ := local_energies_finite c ions charges dtype m hm hu hdet hn hc Q nonzero ψ hψ eiSoft
        eeSoft hR hw (X := A3 (x i)) rfl (fun t ht => by rw [hpos t ht]; exact hx i _)
        (fun t ht => by rw [hpos t ht]; exact hs i _)
      obtain rfl : Y' = Y (nburn + (e + 1) * nsteps) i := Except.ok.inj (h4.symm.trans (hY _ i))
      exact entries_of h5 fun t => by rw [h6, hE, hpos t t.2]
    show getStatistics _ _ _ = _
    rw [h3]
    exact device_statistics hD hw h2 E nanSafe

end configured

/-- Helium evaluated on two devices which adapt after every 10 moves, 15 moves of burning and 3 epochs of 5 moves: the last
epoch sees walkers after 30 moves, and its energy is the mean over the walkers of both devices. -/
example (P : Params 2 1 3) (hw : 0 < w) (x : Fin (2 * w) → Pos 2 3)
    (uniform normal : ℕ → List ℕ → Arr ℝ) (hun : ∀ k s, (uniform k s).shape = s)
    (hnorm : ∀ k s, (normal k s).shape = s) :
    ∃ m : Model 1, getModelFromConfig {} (counts fun _ : Fin 2 => 1)
        (fun (_ : Fin 1) (_ : Fin 3) => (0 : ℝ)) (fun _ => 2) 32 = .ok m ∧
      let model := fun Q X => logPsiA (m.onBatch (fun _ : Fin 2 => 1) Q fun _ _ => 0) X
      let adjust := thresholdAdjust (1 / 2) 0 (1 / 10)
      let step := dynamicStepDevicesA (fun k : ℕ => (2 * k, 2 * k + 1)) uniform normal (fun _ => .fin 0) model 10 adjust true
      let energy := fun Q => localEnergyA (model Q) (A2 fun (_ : Fin 1) (_ : Fin 3) => (0 : ℝ))
        (A1 fun (_ : Fin 1) => (2 : ℝ)) 0 0
      ∃ (A : Arr XR) (parts : Fin 2 → PADataA MoveMetadata)
        (last : Fin 2 → PAData (Fin w) (Pos 2 3) MoveMetadata × ℕ) (metrics : List ((XR × XR) × XR)) (frac : ℕ → ℝ),
        model (scaledHelium P 2) (A3 x) = .ok A ∧
        distributeDataA 2 ⟨A3 x, A, ⟨1 / 4, 0, 0⟩⟩ = .ok [parts 0, parts 1] ∧
        evaluateDevicesA step (walkDynamicDevicesA step 5) energy (2 * w) false 15 3 [scaledHelium P 2, scaledHelium P 2]
            [(parts 0, 7), (parts 1, 8)] =
          .ok ([(arraysOf (last 0).1, (last 0).2), (arraysOf (last 1).1, (last 1).2)], metrics) ∧
        (∀ i, (last i).1.moveMetadata.stdMove = adjust (adjust (adjust (1 / 4)
          ((∑ k ∈ Finset.range 10, frac k) / 10)) ((∑ k ∈ Finset.range 10, frac (10 + k)) / 10))
          ((∑ k ∈ Finset.range 10, frac (20 + k)) / 10)) ∧
        ((∀ i t e e', e ≠ e' → (last i).1.position t e ≠ (last i).1.position t e') →
          (∀ i t e, (last i).1.position t e ≠ fun _ => 0) →
          (metrics.map (·.1.1))[2]? = some (.fin ((∑ i, ∑ t, localEnergyOf
            (fun q : Stream1 (fun _ : Fin 2 => 1) 3 => 2 * 3 * Real.exp (-∑ e, Real.sqrt (∑ b, q e b ^ 2)))
            (fun (_ : Fin 1) _ => 0) (fun _ => 2) 0 0 ((last i).1.position t)) / (2 * w : ℕ)))) := by
  obtain ⟨m, hm, nz, ψ, hψ⟩ := helium_on_devices P
  have hA := configured_walkers {} (fun (_ : Fin 1) (_ : Fin 3) => (0 : ℝ)) (fun _ => 2) 32 m hm ⟨rfl, fun _ => rfl⟩
    (by simp) (fun _ => Nat.one_pos) helium_callable (scaledHelium P 2) (W := 2 * w) (by omega) x
  obtain ⟨parts, st, stats, h1, -, -, h4, -, h6, h7⟩ := adaptive_evaluation_on_devices (D := 2) (w := w) {}
    (fun (_ : Fin 1) (_ : Fin 3) => (0 : ℝ)) (fun _ => 2) 32 m hm ⟨rfl, fun _ => rfl⟩ (by simp) (fun _ => Nat.one_pos)
    helium_callable (scaledHelium P 2) (nz 2) (ψ 2) (hψ 2) 0 0 (fun i j hij => absurd (Fin.ext (by omega)) hij)
    (by norm_num) hw (by omega) (fun k : ℕ => (2 * k, 2 * k + 1)) uniform normal (fun _ => .fin 0) 10 (by norm_num)
    (thresholdAdjust (1 / 2) 0 (1 / 10)) true hun hnorm 15 5 3 false (1 / 4) ⟨A3 x, _, ⟨1 / 4, 0, 0⟩⟩ rfl rfl hA ![7, 8]
  refine ⟨m, hm, _, parts, st 30, _,
    fun k => fractionMoving (fun k : ℕ => (2 * k, 2 * k + 1)) uniform normal true
      (logAmplitude m (fun _ _ => 0) (scaledHelium P 2)) (st k), hA, h1, h4, fun i => (h6 30 i).trans ?_, fun hx hx' => ?_⟩
  · simp [widthAfter]
  · have hq : ψ 2 = fun q => 2 * 3 * Real.exp (-∑ e, Real.sqrt (∑ b, q e b ^ 2)) :=
      funext fun q => scaled_helium_value (hψ _ q)
    have h := h7 2 (fun i t => by
        rw [hq]
        positivity)
      (fun i t => ⟨⟨fun e e' he => hx i t _ _ (finSigmaFinEquiv.injective.ne he), fun e j => hx' i t _⟩,
        fun h => by simp at h, fun _ _ _ _ _ => .inr (.inl rfl), fun h => by simp at h, fun h => by simp at h⟩)
      _ (fun _ _ => rfl)
    show some (stats 2).1 = _
    rw [h, hq]

end Verif.Props
