import Verif.Model.BatchedSampling
import Verif.Props.BatchedEnergy
import Verif.Props.Metropolis

/-!
What the array code of the sampler does to each walker.
-/

namespace Verif.Spec
open Verif.Arrays Verif.MCMC Verif.Phys

/-- The arrays which hold the positions and amplitudes of `W` walkers, walkers along the first axis. -/
noncomputable def arraysOf {W N d : ℕ} {M : Type} (p : PAData (Fin W) (Pos N d) M) : PADataA M :=
  ⟨A3 p.position, A1 p.amplitude, p.moveMetadata⟩

end Verif.Spec

namespace Verif.Props
open Verif.Arrays Verif.MCMC Verif.Phys Verif.Spec Verif.Construct Verif.Net

variable {P κ M : Type} {W N d : ℕ}

theorem mask_first_A1 {α : Type} [Inhabited α] (b : Fin W → Bool) (x y : Fin W → α) :
    maskOnFirst (A1 b) (A1 x) (A1 y) = .ok (A1 fun w => if b w then y w else x w) := by
  have h1 : shapedMask (A1 x).shape.length (A1 b) = .ok (A1 b) := by
    refine congrArg Except.ok (eq_A1 rfl fun i => ?_)
    rw [of_get (by exact .cons i.2 .nil)]
    exact A1_get b i.2
  unfold maskOnFirst
  rw [h1, ok_bind]
  unfold whereA
  rw [zip_A1, ok_bind, zip_A1]

theorem mask_first_A3 (b : Fin W → Bool) (x y : Fin W → Fin N → Fin d → ℝ) :
    maskOnFirst (A1 b) (A3 x) (A3 y) = .ok (A3 fun w => if b w then y w else x w) := by
  have h1 : shapedMask (A3 x).shape.length (A1 b) = .ok (A3 fun w (_ _ : Fin 1) => b w) := by
    refine congrArg Except.ok (eq_A3 rfl fun i j k => ?_)
    rw [of_get (by exact ix3)]
    exact A1_get b i.2
  have h2 : (A3 fun w (_ _ : Fin 1) => b w).zip Prod.mk (A3 y) = .ok (A3 fun w i k => (b w, y w i k)) := by
    rw [zip_of_eq _ (s := [d, N, W]) (by
      rw [bshape_comm]
      exact bshape_stretch (.cons (.inr rfl) (.cons (.inr rfl) (.cons (.inl rfl) .nil))))]
    refine congrArg Except.ok (eq_A3 rfl fun w i k => ?_)
    rw [of_get (by exact ix3), A3_shape, A3_shape, proj_id ix3, A3_get y w.2 i.2 k.2]
    congr 1
    have hw : (if W = 1 then 0 else w.val) = w.val := proj_one w.2
    show (A3 fun w (_ _ : Fin 1) => b w).get [0, 0, if W = 1 then 0 else w.val] = _
    rw [hw]
    exact A3_get _ w.2 Nat.one_pos Nat.one_pos
  unfold maskOnFirst
  rw [h1, ok_bind]
  unfold whereA
  rw [h2, ok_bind, zip_A3]
  congr 2
  funext w i k
  split_ifs <;> rfl

theorem eq_A1' {α : Type} [Inhabited α] {X : Arr α} {a : ℕ} (h : X.shape = [a]) :
    X = A1 fun i : Fin a => X.get [i.val] := eq_A1 h fun _ => rfl

theorem eq_A3' {α : Type} [Inhabited α] {X : Arr α} {a b c : ℕ} (h : X.shape = [c, b, a]) :
    X = A3 fun (i : Fin a) (j : Fin b) (k : Fin c) => X.get [k.val, j.val, i.val] := eq_A3 h fun _ _ _ => rfl

section step

variable (split : κ → κ × κ) (uniform : κ → List ℕ → Arr ℝ) (normal : κ → List ℕ → Arr ℝ)
  (meanFn : Arr XR → XR) (modelApply : P → Arr ℝ → Except String (Arr XR)) (getStd : PADataA M → ℝ)
  (updateMeta : Option (M → Arr Bool → M)) (logabs : Bool) (params : P)
  (psi : P → Fin W → Pos N d → XR)

open Classical in
/-- The walker by walker step which belongs to the array code. -/
noncomputable def stepOf : P → PAData (Fin W) (Pos N d) M → κ → XR × PAData (Fin W) (Pos N d) M × κ :=
  paStep split (fun k w => (uniform k [W]).get [w.val])
    (fun k w i j => (normal k [d, N, W]).get [j.val, i.val, w.val]) (fun f => meanFn (A1 f)) psi
    (fun D _ => getStd (arraysOf D)) (updateMeta.map fun f md mask => f md (A1 fun w => decide (mask w))) logabs

theorem gaussian_on_arrays (hnorm : ∀ k s, (normal k s).shape = s) (x : Fin W → Pos N d) (std : ℝ) (k : κ) :
    gaussianProposalA split normal (A3 x) std k =
      .ok (A3 (gaussianProposal split (fun k w i j => (normal k [d, N, W]).get [j.val, i.val, w.val] :
        κ → Fin W → Pos N d) x (fun _ => std) k).1, (split k).1) := by
  unfold gaussianProposalA
  simp only [A3_shape]
  rw [eq_A3' (hnorm (split k).2 [d, N, W]), map_A3, zip_A3, ok_bind]
  rfl

theorem mask_on_arrays (hu : ∀ k s, (uniform k s).shape = s) (k : κ) (f : Fin W → XR) :
    maskA (uniform k (A1 f).shape) (A1 f) =
      .ok (A1 fun w => by classical exact decide (XR.lt (.fin ((uniform k [W]).get [w.val])) (f w))) := by
  unfold maskA
  rw [eq_A1' (hu k (A1 f).shape), zip_A1]
  rfl

theorem update_on_arrays (p q : PAData (Fin W) (Pos N d) M) (mask : Fin W → Prop) :
    paUpdateA updateMeta (arraysOf p) (arraysOf q) (A1 fun w => by classical exact decide (mask w)) =
      .ok (arraysOf (paUpdate (updateMeta.map fun f md mask => f md (A1 fun w => by
        classical exact decide (mask w))) p q mask)) := by
  unfold paUpdateA
  rw [show (arraysOf p).position = A3 p.position from rfl, show (arraysOf q).position = A3 q.position from rfl,
    mask_first_A3, ok_bind, show (arraysOf p).amplitude = A1 p.amplitude from rfl,
    show (arraysOf q).amplitude = A1 q.amplitude from rfl, mask_first_A1, ok_bind]
  have hd : ∀ {α : Type} (x y : Fin W → α),
      (fun w => if (by classical exact decide (mask w)) = true then y w else x w) =
        fun w => by classical exact if mask w then y w else x w := by
    intro α x y
    funext w
    by_cases h : mask w <;> simp [h]
  rw [hd, hd]
  cases updateMeta <;> rfl

variable (hmodel : ∀ pos : Fin W → Pos N d, modelApply params (A3 pos) = .ok (A1 fun w => psi params w (pos w)))
  (hu : ∀ k s, (uniform k s).shape = s) (hnorm : ∀ k s, (normal k s).shape = s)

include hmodel hnorm in
theorem proposal_on_arrays (p : PAData (Fin W) (Pos N d) M) (k : κ) :
    paProposalA split normal modelApply getStd params (arraysOf p) k =
      .ok (arraysOf (paProposal split (fun k w i j => (normal k [d, N, W]).get [j.val, i.val, w.val]) psi
        (fun D _ => getStd (arraysOf D)) params p k).1, (split k).1) := by
  unfold paProposalA
  rw [show (arraysOf p).position = A3 p.position from rfl, gaussian_on_arrays split normal hnorm, ok_bind]
  simp only []
  rw [hmodel, ok_bind]
  rfl

include hmodel hu hnorm

/-- C115: one step. -/
theorem step_on_arrays (p : PAData (Fin W) (Pos N d) M) (key : κ) :
    paStepA split uniform normal meanFn modelApply getStd updateMeta logabs params (arraysOf p) key =
      .ok ((stepOf split uniform normal meanFn getStd updateMeta logabs psi params p key).1,
        arraysOf (stepOf split uniform normal meanFn getStd updateMeta logabs psi params p key).2.1,
        (stepOf split uniform normal meanFn getStd updateMeta logabs psi params p key).2.2) := by
  unfold paStepA
  simp only []
  rw [proposal_on_arrays split normal modelApply getStd params psi hmodel hnorm, ok_bind]
  simp only []
  generalize hq : paProposal split (fun k w i j => (normal k [d, N, W]).get [j.val, i.val, w.val]) psi
        (fun D _ => getStd (arraysOf D)) params p (split key).1 = q
  have hacc : acceptanceA logabs (arraysOf p).amplitude (arraysOf q.1).amplitude =
      .ok (A1 (paAcceptance logabs params p q.1)) := zip_A1 _ _ _
  rw [hacc, ok_bind, mask_on_arrays uniform hu, ok_bind, update_on_arrays, ok_bind]
  subst hq
  rfl

/-- C115: each walker moves or stays according to its own random number and its own amplitudes. -/
theorem array_stays_or_moves (p : PAData (Fin W) (Pos N d) M) (key : κ) :
    ∃ r, paStepA split uniform normal meanFn modelApply getStd updateMeta logabs params (arraysOf p) key = .ok r ∧
      r.2.1.position.shape = [d, N, W] ∧ r.2.1.amplitude.shape = [W] ∧ r.2.2 = (split (split key).1).1 ∧
      ∀ w : Fin W, ∀ proposed : Pos N d, (∀ i j, proposed i j = p.position w i j +
          getStd (arraysOf p) * (normal (split (split key).1).2 [d, N, W]).get [j.val, i.val, w.val]) →
        (XR.lt (.fin ((uniform (split key).2 [W]).get [w.val]))
            (accept logabs (p.amplitude w) (psi params w proposed)) →
          (Spec.positionsOf r.2.1.position [w.val] : Pos N d) = proposed ∧
            r.2.1.amplitude.get [w.val] = psi params w proposed) ∧
        (¬ XR.lt (.fin ((uniform (split key).2 [W]).get [w.val]))
            (accept logabs (p.amplitude w) (psi params w proposed)) →
          (Spec.positionsOf r.2.1.position [w.val] : Pos N d) = p.position w ∧
            r.2.1.amplitude.get [w.val] = p.amplitude w) := by
  refine ⟨_, step_on_arrays split uniform normal meanFn modelApply getStd updateMeta logabs params psi hmodel hu
    hnorm p key, rfl, rfl, rfl, fun w proposed hp => ?_⟩
  have h := stays_or_moves split (fun k w => (uniform k [W]).get [w.val])
    (fun k w i j => (normal k [d, N, W]).get [j.val, i.val, w.val] : κ → Fin W → Pos N d) (fun f => meanFn (A1 f))
    psi (fun D _ => getStd (arraysOf D))
    (updateMeta.map fun f md mask => f md (A1 fun w => by classical exact decide (mask w))) logabs params p key w
  obtain rfl : proposed = p.position w + getStd (arraysOf p) • (fun i j =>
      (normal (split (split key).1).2 [d, N, W]).get [j.val, i.val, w.val] : Pos N d) := by
    funext i j
    exact hp i j
  have h3 : ∀ q : PAData (Fin W) (Pos N d) M, (Spec.positionsOf (arraysOf q).position [w.val] : Pos N d) =
      q.position w ∧ (arraysOf q).amplitude.get [w.val] = q.amplitude w := fun q =>
    ⟨by funext i k; exact A3_get _ w.2 i.2 k.2, A1_get _ w.2⟩
  have h4 := h3 (stepOf split uniform normal meanFn getStd updateMeta logabs psi params p key).2.1
  rw [h4.1, h4.2]
  exact h

/-- C115: a walk. -/
theorem walk_on_arrays (nsteps : ℕ) (p : PAData (Fin W) (Pos N d) M) (key : κ) :
    walkDataA (paStepA split uniform normal meanFn modelApply getStd updateMeta logabs) nsteps params
        (arraysOf p) key =
      .ok ((walkData nsteps params p key
          (stepOf split uniform normal meanFn getStd updateMeta logabs psi)).1,
        arraysOf (walkData nsteps params p key
          (stepOf split uniform normal meanFn getStd updateMeta logabs psi)).2.1,
        (walkData nsteps params p key
          (stepOf split uniform normal meanFn getStd updateMeta logabs psi)).2.2) := by
  have key' : ∀ (k : ℕ) (c : XR × PAData (Fin W) (Pos N d) M × κ),
      walkLoopA (paStepA split uniform normal meanFn modelApply getStd updateMeta logabs) params k
          (c.1, arraysOf c.2.1, c.2.2) =
        .ok (((walkBody (stepOf split uniform normal meanFn getStd updateMeta logabs psi) params)^[k] c).1,
          arraysOf ((walkBody (stepOf split uniform normal meanFn getStd updateMeta logabs psi)
            params)^[k] c).2.1,
          ((walkBody (stepOf split uniform normal meanFn getStd updateMeta logabs psi) params)^[k] c).2.2) := by
    intro k
    induction k with
    | zero => intro c; rfl
    | succ k ih =>
      intro c
      unfold walkLoopA
      simp only []
      rw [step_on_arrays split uniform normal meanFn modelApply getStd updateMeta logabs params psi hmodel hu
        hnorm, ok_bind]
      exact ih (walkBody (stepOf split uniform normal meanFn getStd updateMeta logabs psi) params c)
  unfold walkDataA
  rw [key' nsteps (.fin 0, p, key), ok_bind]
  rfl

/-- C115: burning. -/
theorem burn_on_arrays (nburn : ℕ) (p : PAData (Fin W) (Pos N d) M) (key : κ) :
    burnDataA (paStepA split uniform normal meanFn modelApply getStd updateMeta logabs) params nburn
        (arraysOf p, key) =
      .ok (arraysOf (burnData (burningStep
          (stepOf split uniform normal meanFn getStd updateMeta logabs psi)) nburn params p key).1,
        (burnData (burningStep
          (stepOf split uniform normal meanFn getStd updateMeta logabs psi)) nburn params p key).2) := by
  induction nburn generalizing p key with
  | zero => rfl
  | succ k ih =>
    unfold burnDataA
    simp only []
    rw [step_on_arrays split uniform normal meanFn modelApply getStd updateMeta logabs params psi hmodel hu
      hnorm, ok_bind]
    exact ih _ _

omit hu hnorm in
/-- C115: new amplitudes for the positions. -/
theorem update_data_on_arrays (p : PAData (Fin W) (Pos N d) M) :
    updateDataA modelApply (arraysOf p) params = .ok (arraysOf (updateData psi p params)) := by
  unfold updateDataA
  rw [show (arraysOf p).position = A3 p.position from rfl, hmodel, ok_bind]
  rfl

end step

theorem mask_mean_A1 (mask : Fin W → Prop) :
    maskMeanA (A1 fun w => by classical exact decide (mask w)) = maskMean mask := by
  classical
  unfold maskMeanA Arr.reduceFront maskMean
  rw [of_get (by exact .nil)]
  have h : ((List.range W).map fun t => (A1 fun w => decide (mask w)).get ([] ++ [t])) =
      List.ofFn fun w : Fin W => decide (mask w) := by
    rw [List.ofFn_eq_map, ← List.map_coe_finRange_eq_range, List.map_map]
    exact List.map_congr_left fun w _ => A1_get _ w.2
  show (List.map _ ((List.range W).map fun t => (A1 fun w => decide (mask w)).get ([] ++ [t]))).sum / _ = _
  rw [h, List.length_map, List.length_range, List.map_ofFn, List.sum_ofFn, Fintype.card_fin]
  congr 1
  refine Finset.sum_congr rfl fun w _ => ?_
  by_cases hm : mask w <;> simp [hm]

/-- C115: the step with adaptive width. -/
theorem dynamic_step_on_arrays (split : κ → κ × κ) (uniform : κ → List ℕ → Arr ℝ) (normal : κ → List ℕ → Arr ℝ)
    (meanFn : Arr XR → XR) (modelApply : P → Arr ℝ → Except String (Arr XR)) (nmoves : ℕ)
    (adjust : ℝ → ℝ → ℝ) (logabs : Bool) (params : P) (psi : P → Fin W → Pos N d → XR)
    (hmodel : ∀ pos : Fin W → Pos N d, modelApply params (A3 pos) = .ok (A1 fun w => psi params w (pos w)))
    (hu : ∀ k s, (uniform k s).shape = s) (hnorm : ∀ k s, (normal k s).shape = s)
    (p : PAData (Fin W) (Pos N d) MoveMetadata) (key : κ) :
    let r := dynamicStep split (fun k w => (uniform k [W]).get [w.val])
      (fun k w i j => (normal k [d, N, W]).get [j.val, i.val, w.val]) (fun f => meanFn (A1 f)) psi nmoves adjust
      logabs params p key
    dynamicStepA split uniform normal meanFn modelApply nmoves adjust logabs params (arraysOf p) key =
      .ok (r.1, arraysOf r.2.1, r.2.2) := by
  intro r
  have h := step_on_arrays split uniform normal meanFn modelApply (fun data => data.moveMetadata.stdMove)
    (some fun md mask => updateMoveMetadata nmoves adjust md (maskMeanA mask)) logabs params psi hmodel hu hnorm
    p key
  have hs : stepOf split uniform normal meanFn (fun data => data.moveMetadata.stdMove)
    (some fun md mask => updateMoveMetadata nmoves adjust md (maskMeanA mask)) logabs psi params p key = r := by
    unfold stepOf
    simp only [Option.map_some, mask_mean_A1]
    rfl
  rw [hs] at h
  exact h

section configured

variable {S m₀ : ℕ} {n : Fin (S + 1) → ℕ} (c : ModelCfg) (ions : Fin (m₀ + 1) → Fin d → ℝ)
  (charges : Fin (m₀ + 1) → ℝ) (dtype : ℕ) (m : Model (m₀ + 1))
  (hm : getModelFromConfig c (counts n) ions charges dtype = .ok m) (hu : Spec.UsesNorms c)
  (hdet : c.ndeterminants ≠ 0) (hn : ∀ s, 0 < n s) (hc : Spec.Callable c (S + 1))
  (Q : Params (S + 1) (m₀ + 1) d)

/-- The log amplitude of one walker. -/
noncomputable def logAmplitude (m : Model (m₀ + 1)) (ions : Fin (m₀ + 1) → Fin d → ℝ)
    (Q : Params (S + 1) (m₀ + 1) d) (x : Pos (∑ s, n s) d) : XR :=
  match m.apply Q ions (splitPositions x : Stream1 n d) with
  | .ok v => v.2
  | .error _ => .nan

include hm hu hdet hn hc in
/-- A configured model is a model which acts on each walker separately. -/
theorem configured_walkers (hW : 0 < W) (x : Fin W → Pos (∑ s, n s) d) :
    logPsiA (m.onBatch n Q ions) (A3 x) = .ok (A1 fun w => logAmplitude m ions Q (x w)) := by
  have h := configured_model_agrees c ions charges dtype m hm hu hdet hn Q [W] (A3 x) rfl
  obtain ⟨Z, hZ⟩ := (configured_batch_returns_iff c ions charges dtype m hm hu hdet hn Q (B := [W]) (X := A3 x)
    rfl (by simpa using Nat.ne_of_lt hW)).mpr hc
  have h1 : ∀ w : Fin W, Z.shape = [W] ∧ m.apply Q ions (splitPositions (x w) : Stream1 n d) = .ok (Z.get [w.val]) := by
    intro w
    have h2 := (h [w.val] (.cons w.2 .nil)).1 Z hZ
    rw [walker_split] at h2
    have h3 : Spec.positionsOf (A3 x) [w.val] = x w := by
      funext i k
      exact A3_get x w.2 i.2 k.2
    rw [h3] at h2
    exact h2
  unfold logPsiA
  rw [hZ]
  refine congrArg Except.ok (eq_A1 (h1 ⟨0, hW⟩).1 fun w => ?_)
  unfold Arr.map logAmplitude
  rw [of_get (by rw [(h1 w).1]; exact .cons w.2 .nil), (h1 w).2]

variable (split : κ → κ × κ) (uniform : κ → List ℕ → Arr ℝ) (normal : κ → List ℕ → Arr ℝ)
  (meanFn : Arr XR → XR) (getStd : PADataA M → ℝ) (updateMeta : Option (M → Arr Bool → M)) (logabs : Bool)
  (hun : ∀ k s, (uniform k s).shape = s) (hnorm : ∀ k s, (normal k s).shape = s)

include hm hu hdet hn hc hun hnorm in
/-- C115: the data which burning and walking return: for any arrays of positions of any number of walkers,
computing amplitudes, burning and walking return, positions and amplitudes keep their shapes, and calling the model
on the positions returned gives the amplitudes returned. -/
theorem walked_amplitudes_match (hW : 0 < W) (X : Arr ℝ) (A : Arr XR) (md : M)
    (hX : X.shape = [d, ∑ s, n s, W]) (nburn nsteps : ℕ) (key : κ) :
    let model := fun Q X => logPsiA (m.onBatch n Q ions) X
    let step := paStepA split uniform normal meanFn model getStd updateMeta logabs
    ∃ D₀ D₁ r, updateDataA model ⟨X, A, md⟩ Q = .ok D₀ ∧ burnDataA step Q nburn (D₀, key) = .ok D₁ ∧
      walkDataA step nsteps Q D₁.1 D₁.2 = .ok r ∧ r.2.1.position.shape = [d, ∑ s, n s, W] ∧
      r.2.1.amplitude.shape = [W] ∧ model Q r.2.1.position = .ok r.2.1.amplitude := by
  intro model step
  let psi : Params (S + 1) (m₀ + 1) d → Fin W → Pos (∑ s, n s) d → XR := fun Q _ x => logAmplitude m ions Q x
  have hmodel : ∀ pos : Fin W → Pos (∑ s, n s) d, model Q (A3 pos) = .ok (A1 fun w => psi Q w (pos w)) :=
    configured_walkers c ions charges dtype m hm hu hdet hn hc Q hW
  let x : Fin W → Pos (∑ s, n s) d := fun w => Spec.positionsOf X [w.val]
  have hx : X = A3 x := eq_A3' hX
  let p₀ : PAData (Fin W) (Pos (∑ s, n s) d) M := initialData psi x Q md
  have h0 : updateDataA model ⟨X, A, md⟩ Q = .ok (arraysOf p₀) := by
    unfold updateDataA
    simp only []
    rw [hx, hmodel, ok_bind]
    rfl
  have h1 := burn_on_arrays split uniform normal meanFn model getStd updateMeta logabs Q psi hmodel hun hnorm nburn
    p₀ key
  have h2 := walk_on_arrays split uniform normal meanFn model getStd updateMeta logabs Q psi hmodel hun hnorm nsteps
    (burnData (burningStep (stepOf split uniform normal meanFn getStd updateMeta logabs psi)) nburn Q p₀ key).1
    (burnData (burningStep (stepOf split uniform normal meanFn getStd updateMeta logabs psi)) nburn Q p₀ key).2
  refine ⟨_, _, _, h0, h1, h2, rfl, rfl, ?_⟩
  have hstep : ∀ (q : PAData (Fin W) (Pos (∑ s, n s) d) M) k, Consistent psi Q q →
      Consistent psi Q (stepOf split uniform normal meanFn getStd updateMeta logabs psi Q q k).2.1 :=
    fun q k => step_consistent _ _ _ _ _ _ _ _ _ _ _
  have hb : ∀ (j : ℕ) (q : PAData (Fin W) (Pos (∑ s, n s) d) M) k, Consistent psi Q q →
      Consistent psi Q (burnData (burningStep
        (stepOf split uniform normal meanFn getStd updateMeta logabs psi)) j Q q k).1 := by
    intro j
    induction j with
    | zero => intro q k h; exact h
    | succ j ih => intro q k h; exact ih _ _ (hstep q k h)
  have hw : ∀ (j : ℕ) (q : XR × PAData (Fin W) (Pos (∑ s, n s) d) M × κ), Consistent psi Q q.2.1 →
      Consistent psi Q ((walkBody (stepOf split uniform normal meanFn getStd updateMeta logabs psi)
        Q)^[j] q).2.1 := by
    intro j
    induction j with
    | zero => intro q h; exact h
    | succ j ih => intro q h; exact ih _ (hstep _ _ h)
  have hfin := hw nsteps (.fin 0, _, _) (hb nburn p₀ key fun _ => rfl)
  refine (hmodel _).trans (congrArg Except.ok (congrArg A1 (funext fun w => ?_)))
  exact (hfin w).symm

end configured

/-! ### Examples -/

/-- Two walkers of one electron on a line with log amplitude `-x²`, at -1 and 0, both proposed to move by 1 and both
with the random number 1/2: the first moves to 0, the second stays. -/
example : ∃ r, paStepA (P := Unit) (K := Unit) (fun k => (k, k)) (fun _ s => .of s fun _ => 1 / 2)
      (fun _ s => .of s fun _ => 1) (fun _ => .fin 0)
      (fun _ X => .ok (.of [X.shape.getLastD 0] fun i => .fin (-(X.get [0, 0, i.getLastD 0]) ^ 2)))
      (fun _ => 1) none true ()
      (arraysOf ⟨fun (w : Fin 2) (_ _ : Fin 1) => if w = 0 then -1 else 0,
        fun w => if w = 0 then .fin (-1) else .fin 0, ()⟩) () = .ok r ∧
    (Spec.positionsOf r.2.1.position [0] : Pos 1 1) = (fun _ _ => 0) ∧ r.2.1.amplitude.get [0] = .fin 0 ∧
    (Spec.positionsOf r.2.1.position [1] : Pos 1 1) = (fun _ _ => 0) ∧ r.2.1.amplitude.get [1] = .fin 0 := by
  obtain ⟨r, h1, -, -, -, h2⟩ := array_stays_or_moves (P := Unit) (κ := Unit) (N := 1) (d := 1) (W := 2)
    (fun k => (k, k)) (fun _ s => .of s fun _ => 1 / 2) (fun _ s => .of s fun _ => 1) (fun _ => .fin 0)
    (fun _ X => .ok (.of [X.shape.getLastD 0] fun i => .fin (-(X.get [0, 0, i.getLastD 0]) ^ 2)))
    (fun _ => 1) none true () (fun _ _ x => .fin (-(x 0 0) ^ 2))
    (fun pos => congrArg Except.ok (eq_A1 rfl fun w => by
      rw [of_get (by exact .cons w.2 .nil)]
      show XR.fin (-((A3 pos).get [0, 0, w.val]) ^ 2) = _
      rw [A3_get pos w.2 Nat.one_pos Nat.one_pos]
      rfl))
    (fun _ _ => rfl) (fun _ _ => rfl)
    ⟨fun (w : Fin 2) (_ _ : Fin 1) => if w = 0 then -1 else 0,
      fun w => if w = 0 then .fin (-1) else .fin 0, ()⟩ ()
  have hget : ∀ (w : Fin 2) (v : ℝ), (Arr.of [2] fun _ => v).get [w.val] = v := fun w v =>
    of_get (.cons w.2 .nil)
  have hget3 : ∀ (w : Fin 2) (i j : Fin 1) (v : ℝ), (Arr.of [1, 1, 2] fun _ => v).get [j.val, i.val, w.val] = v :=
    fun w i j v => of_get ix3
  have hexp : Real.exp (-2) < 1 / 2 := by
    have := Real.add_one_lt_exp (show (2 : ℝ) ≠ 0 by norm_num)
    rw [Real.exp_neg, inv_lt_comm₀ (Real.exp_pos _) (by norm_num)]
    linarith
  refine ⟨r, h1, ?_⟩
  have ha := (h2 0 (fun _ _ => 0) (fun i j => by
    rw [hget3]
    norm_num)).1 (by
      rw [hget]
      simp only [accept, acceptLog, if_true]
      rw [if_pos]
      · show (1 / 2 : ℝ) < 1
        norm_num
      · show (2 * -1 : ℝ) < 2 * -0 ^ 2
        norm_num)
  have hb := (h2 1 (fun _ _ => 1) (fun i j => by
    rw [hget3]
    norm_num)).2 (by
      rw [hget]
      simp only [accept, acceptLog, if_true]
      rw [if_neg]
      · show ¬ (1 / 2 : ℝ) < Real.exp (2 * -1 ^ 2 + -(2 * 0))
        norm_num
        linarith
      · show ¬ (2 * 0 : ℝ) < 2 * -1 ^ 2
        norm_num)
  refine ⟨ha.1, ?_, hb.1, ?_⟩
  · exact ha.2.trans (by norm_num)
  · exact hb.2.trans (by norm_num)

/-- Walking with the default FermiNet for helium: the amplitudes stored are those of the positions stored, however
long the walk and whatever the parameters and the random numbers are. -/
example (Q : Params 2 1 3) (hW : 0 < W) (X : Arr ℝ) (hX : X.shape = [3, 2, W])
    (uniform normal : ℕ → List ℕ → Arr ℝ) (hu : ∀ k s, (uniform k s).shape = s)
    (hnorm : ∀ k s, (normal k s).shape = s) (nburn nsteps : ℕ) :
    ∃ m : Model 1, getModelFromConfig {} (counts fun _ : Fin 2 => 1)
        (fun (_ : Fin 1) (_ : Fin 3) => (0 : ℝ)) (fun _ => 2) 32 = .ok m ∧
      let model := fun Q X => logPsiA (m.onBatch (fun _ : Fin 2 => 1) Q fun _ _ => 0) X
      let step := paStepA (K := ℕ) (M := Unit) (fun k => (2 * k, 2 * k + 1)) uniform normal (fun _ => .fin 0) model
        (fun _ => 1 / 4) none true
      ∃ D₀ D₁ r, updateDataA model ⟨X, .of [W] fun _ => .fin 0, ()⟩ Q = .ok D₀ ∧
        burnDataA step Q nburn (D₀, 7) = .ok D₁ ∧ walkDataA step nsteps Q D₁.1 D₁.2 = .ok r ∧
        r.2.1.position.shape = [3, 2, W] ∧ r.2.1.amplitude.shape = [W] ∧
        model Q r.2.1.position = .ok r.2.1.amplitude := by
  obtain ⟨m, hm⟩ := (model_config_accepted_iff {} (counts fun _ : Fin 2 => 1)
    (fun (_ : Fin 1) (_ : Fin 3) => (0 : ℝ)) (fun _ => 2) 32).mpr
    (by rw [counts_length]; exact default_acceptable "ferminet" (by simp))
  have hc : Spec.Callable ({} : ModelCfg) 2 := by
    left
    refine ⟨rfl, .inr (by simp), ?_⟩
    simp [Spec.PairsWithoutTwo]
  exact ⟨m, hm, walked_amplitudes_match {} _ _ _ m hm ⟨rfl, fun _ => rfl⟩ (by simp) (fun _ => Nat.one_pos) hc Q _ uniform
    normal _ _ none true hu hnorm hW X _ () hX nburn nsteps 7⟩

end Verif.Props
