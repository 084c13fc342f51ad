import Verif.Model.Optimizers
import Verif.Spec.Optimizers
import Verif.Props.Updates

/-! C68: the optimizer which the configuration names takes the documented steps. -/

namespace Verif.Props

open Verif.Updates Verif.Spec

/-! ### Directions -/

theorem discountedSum_zero (w : ℝ) (f : ℕ → ℝ) : discountedSum w f 0 = f 0 := by
  simp [discountedSum]

theorem discountedSum_succ (w : ℝ) (f : ℕ → ℝ) (s : ℕ) :
    discountedSum w f (s + 1) = f (s + 1) + w * discountedSum w f s := by
  unfold discountedSum
  rw [Finset.sum_range_succ _ (s + 1), Finset.mul_sum, add_comm]
  congr 1
  · simp
  · refine Finset.sum_congr rfl fun r hr => ?_
    have hr : r < s + 1 := Finset.mem_range.1 hr
    rw [show s + 1 - r = (s - r) + 1 by omega, pow_succ]
    ring

/-- `1 - w^(s+1)` is the sum of the weights, up to the factor which the moments carry. -/
theorem discountedSum_one (w : ℝ) (s : ℕ) :
    (1 - w) * discountedSum w (fun _ => 1) s = 1 - w ^ (s + 1) := by
  induction s with
  | zero => simp [discountedSum_zero]
  | succ s ih =>
    rw [discountedSum_succ, mul_add, mul_left_comm, ih]
    ring

/-! ### Trajectories -/

section Traj

variable {K : Type*} {D : ℕ} {S Dat Key Aux : Type*}

/-- Parameters and optimizer state after `t` updates, the data and keys at update `s` being
`steps s`. -/
noncomputable def trajectory
    (valGrad : (Fin D → K → ℝ) → (Fin D → Key) → (Fin D → Dat) → Fin D → Aux × (K → ℝ))
    (apply : OptimizerApply D K S Dat Aux) (steps : ℕ → (Fin D → Dat) × (Fin D → Key))
    (params : Fin D → K → ℝ) (opt : Fin D → S) (t : ℕ) : (Fin D → K → ℝ) × (Fin D → S) :=
  gradUpdates valGrad apply ((List.range t).map steps) params opt

/-- The energy gradient at update `s`, averaged over the devices. -/
noncomputable def gradientAt
    (valGrad : (Fin D → K → ℝ) → (Fin D → Key) → (Fin D → Dat) → Fin D → Aux × (K → ℝ))
    (apply : OptimizerApply D K S Dat Aux) (steps : ℕ → (Fin D → Dat) × (Fin D → Key))
    (params : Fin D → K → ℝ) (opt : Fin D → S) (s : ℕ) (k : K) : ℝ :=
  (∑ d, (valGrad (trajectory valGrad apply steps params opt s).1 (steps s).2 (steps s).1 d).2 k) / D

theorem gradUpdates_append
    (valGrad : (Fin D → K → ℝ) → (Fin D → Key) → (Fin D → Dat) → Fin D → Aux × (K → ℝ))
    (apply : OptimizerApply D K S Dat Aux) (l : List ((Fin D → Dat) × (Fin D → Key)))
    (s : (Fin D → Dat) × (Fin D → Key)) (params : Fin D → K → ℝ) (opt : Fin D → S) :
    gradUpdates valGrad apply (l ++ [s]) params opt =
      gradUpdate valGrad apply (gradUpdates valGrad apply l params opt).1
        (gradUpdates valGrad apply l params opt).2 s.1 s.2 := by
  induction l generalizing params opt with
  | nil => rfl
  | cons x l ih => exact ih _ _

theorem trajectory_succ
    (valGrad : (Fin D → K → ℝ) → (Fin D → Key) → (Fin D → Dat) → Fin D → Aux × (K → ℝ))
    (apply : OptimizerApply D K S Dat Aux) (steps : ℕ → (Fin D → Dat) × (Fin D → Key))
    (params : Fin D → K → ℝ) (opt : Fin D → S) (t : ℕ) :
    trajectory valGrad apply steps params opt (t + 1) =
      gradUpdate valGrad apply (trajectory valGrad apply steps params opt t).1
        (trajectory valGrad apply steps params opt t).2 (steps t).1 (steps t).2 := by
  unfold trajectory
  rw [List.range_succ, List.map_append]
  exact gradUpdates_append ..

end Traj

/-! ### SGD and Adam on any sequence of gradients -/

section Unroll

variable {K : Type*}

open Classical in
/-- SGD fed with the gradients `H 0, H 1, …`. -/
theorem sgd_unroll (schedule : ℕ → ℝ) (c : SgdConfig) (H θ : ℕ → K → ℝ) (st : ℕ → DescentState K)
    (h0 : st 0 = (sgdOptimizer schedule c).init)
    (hθ : ∀ s, θ (s + 1) = fun k => θ s k + ((sgdOptimizer schedule c).update (H s) (st s) (θ s)).1 k)
    (hst : ∀ s, st (s + 1) = ((sgdOptimizer schedule c).update (H s) (st s) (θ s)).2) (t : ℕ) :
    st t = .sgd ⟨if c.momentum ≠ 0 then
        some (match t with
          | 0 => fun _ => 0
          | s + 1 => fun k => discountedSum c.momentum (fun r => H r k) s) else none, t⟩ ∧
      ∀ k, θ t k = θ 0 k - ∑ s ∈ Finset.range t, schedule s *
          momentumDirection c.momentum c.nesterov (fun r => H r k) s := by
  induction t with
  | zero =>
    refine ⟨?_, fun k => by simp⟩
    rw [h0]
    show DescentState.sgd (sgdInit _) = _
    unfold sgdInit
    by_cases h : c.momentum ≠ 0
    · rw [if_pos h, if_pos h]; rfl
    · rw [if_neg h, if_neg h]; rfl
  | succ t ih =>
    obtain ⟨ih1, ih2⟩ := ih
    rw [hθ, hst, ih1]
    simp only [ih2]
    unfold sgdOptimizer Descent.update
    simp only
    by_cases h : c.momentum ≠ 0
    · simp only [if_pos h, sgdUpdate]
      have ht : ∀ k, H t k + c.momentum * (match (motive := ℕ → K → ℝ) t with
          | 0 => fun _ => 0
          | s + 1 => fun k => discountedSum c.momentum (fun r => H r k) s) k =
          discountedSum c.momentum (fun r => H r k) t := by
        intro k
        cases t with
        | zero => simp [discountedSum_zero]
        | succ s => rw [discountedSum_succ]
      refine ⟨by congr 3; funext k; exact ht k, fun k => ?_⟩
      rw [Finset.sum_range_succ]
      unfold momentumDirection
      by_cases hn : c.nesterov = true
      · simp only [hn, if_true, ht]; ring
      · simp only [Bool.not_eq_true] at hn
        simp only [hn, Bool.false_eq_true, if_false, ht]; ring
    · simp only [if_neg h, sgdUpdate]
      refine ⟨trivial, fun k => ?_⟩
      have h0 : c.momentum = 0 := not_not.1 h
      have hd : discountedSum 0 (fun r => H r k) t = H t k := by
        cases t with
        | zero => exact discountedSum_zero ..
        | succ s => rw [discountedSum_succ]; simp
      rw [Finset.sum_range_succ]
      unfold momentumDirection
      simp only [h0, hd]
      split <;> ring

/-- Adam fed with the gradients `H 0, H 1, …`. -/
theorem adam_unroll (schedule : ℕ → ℝ) (c : AdamConfig) (h1 : c.b1 ≠ 1) (h2 : c.b2 ≠ 1)
    (H θ : ℕ → K → ℝ) (st : ℕ → DescentState K)
    (h0 : st 0 = (adamOptimizer schedule c).init)
    (hθ : ∀ s, θ (s + 1) = fun k =>
      θ s k + ((adamOptimizer schedule c).update (H s) (st s) (θ s)).1 k)
    (hst : ∀ s, st (s + 1) = ((adamOptimizer schedule c).update (H s) (st s) (θ s)).2) (t : ℕ) :
    st t = .adam ⟨match t with
        | 0 => fun _ => 0
        | s + 1 => fun k => (1 - c.b1) * discountedSum c.b1 (fun r => H r k) s,
        match t with
        | 0 => fun _ => 0
        | s + 1 => fun k => (1 - c.b2) * discountedSum c.b2 (fun r => H r k ^ 2) s, t, t⟩ ∧
      ∀ k, θ t k = θ 0 k - ∑ s ∈ Finset.range t, schedule s *
          adamDirection c.b1 c.b2 c.eps c.epsRoot (fun r => H r k) s := by
  have hmom : ∀ (w : ℝ) (f : ℕ → K → ℝ) (t : ℕ) (k : K), (1 - w) * f t k +
      w * (match (motive := ℕ → K → ℝ) t with
          | 0 => fun _ => 0
          | s + 1 => fun k => (1 - w) * discountedSum w (fun r => f r k) s) k =
        (1 - w) * discountedSum w (fun r => f r k) t := by
    intro w f t k
    cases t with
    | zero => simp [discountedSum_zero]
    | succ s => rw [discountedSum_succ]; ring
  have hmean : ∀ (w : ℝ), w ≠ 1 → ∀ (f : ℕ → ℝ) (t : ℕ),
      (1 - w) * discountedSum w f t / (1 - w ^ (t + 1)) = discountedMean w f t := by
    intro w hw f t
    unfold discountedMean
    rw [← discountedSum_one, mul_div_mul_left]
    exact sub_ne_zero.2 (Ne.symm hw)
  induction t with
  | zero => exact ⟨h0, fun k => by simp⟩
  | succ t ih =>
    obtain ⟨ih1, ih2⟩ := ih
    rw [hθ, hst, ih1]
    simp only [ih2]
    unfold adamOptimizer Descent.update adamUpdate
    simp only
    have e1 := hmom c.b1 H t
    have e2 := hmom c.b2 (fun s k => H s k ^ 2) t
    simp only at e1 e2
    refine ⟨?_, fun k => ?_⟩
    · congr 2
      · funext k; exact e1 k
      · funext k; exact e2 k
    · rw [Finset.sum_range_succ]
      unfold adamDirection
      rw [e1 k, e2 k, hmean _ h1, hmean _ h2]
      ring

end Unroll

/-! ### The configured optimizers -/

section Configured

variable {K : Type*} {D n : ℕ} {Dat Key Aux : Type*}

/-- A plain descent follows its optax optimizer, fed with the gradients averaged over devices. -/
theorem plain_steps (descent : Descent)
    (valGrad : (Fin D → K → ℝ) → (Fin D → Key) → (Fin D → Dat) → Fin D → Aux × (K → ℝ))
    (steps : ℕ → (Fin D → Dat) × (Fin D → Key)) (params : Fin D → K → ℝ) (d : Fin D) :
    let apply : OptimizerApply D K (DescentState K) Dat Aux := plainRuleApply descent
    let T := trajectory valGrad apply steps params fun _ => descent.init
    let G := gradientAt valGrad apply steps params fun _ => descent.init
    (∀ s, (T (s + 1)).1 d = fun k => (T s).1 d k +
        (descent.update (G s) ((T s).2 d) ((T s).1 d)).1 k) ∧
      ∀ s, (T (s + 1)).2 d = (descent.update (G s) ((T s).2 d) ((T s).1 d)).2 := by
  intro apply T G
  constructor <;> intro s <;> simp only [T, trajectory_succ] <;> rfl

/-- C68, SGD: with `optimizer_type` "sgd", update number `s` moves the parameters by the learning
rate of the "sgd" section at step `s` times the (Nesterov) momentum direction of the gradients
averaged over the devices. -/
theorem configured_sgd (c : OptimizerConfig) (hc : c.optimizerType = "sgd") {rule : UpdateRule}
    (hr : getUpdateRule c = .ok rule) :
    ∃ descent schedule, rule = .plain descent ∧
      learningRateSchedule c.sgd.rate.scheduleType c.sgd.rate.learningRate
        c.sgd.rate.learningDecayRate = .ok schedule ∧
      ∀ (valGrad : (Fin D → K → ℝ) → (Fin D → Key) → (Fin D → Dat) → Fin D → Aux × (K → ℝ))
        (steps : ℕ → (Fin D → Dat) × (Fin D → Key)) (params : Fin D → K → ℝ) (t : ℕ) (d : Fin D)
        (k : K),
        (trajectory valGrad (plainRuleApply descent) steps params (fun _ => descent.init) t).1 d k =
          params d k - ∑ s ∈ Finset.range t, schedule s *
            momentumDirection c.sgd.momentum c.sgd.nesterov (fun r => gradientAt valGrad
              (plainRuleApply descent) steps params (fun _ => descent.init) r k) s := by
  unfold getUpdateRule OptimizerConfig.rateSection at hr
  rw [hc] at hr
  simp only [String.reduceEq, if_true, if_false] at hr
  cases hs : learningRateSchedule c.sgd.rate.scheduleType c.sgd.rate.learningRate
    c.sgd.rate.learningDecayRate with
  | error e =>
    simp only [bind, Except.bind, hs] at hr
    cases hr
  | ok schedule =>
    simp only [bind, Except.bind, hs] at hr
    injection hr with hr
    refine ⟨_, schedule, hr.symm, rfl, fun valGrad steps params t d k => ?_⟩
    obtain ⟨h1, h2⟩ := plain_steps (Aux := Aux) (sgdOptimizer schedule c.sgd) valGrad steps params d
    exact (sgd_unroll schedule c.sgd
      (gradientAt valGrad (plainRuleApply (sgdOptimizer schedule c.sgd)) steps params _)
      (fun s => (trajectory valGrad (plainRuleApply (sgdOptimizer schedule c.sgd)) steps params _
        s).1 d) (fun s => (trajectory valGrad (plainRuleApply (sgdOptimizer schedule c.sgd)) steps
        params _ s).2 d) rfl h1 h2 t).2 k

/-- C68, Adam: the same with the direction of Adam. -/
theorem configured_adam (c : OptimizerConfig) (hc : c.optimizerType = "adam") (h1 : c.adam.b1 ≠ 1)
    (h2 : c.adam.b2 ≠ 1) {rule : UpdateRule} (hr : getUpdateRule c = .ok rule) :
    ∃ descent schedule, rule = .plain descent ∧
      learningRateSchedule c.adam.rate.scheduleType c.adam.rate.learningRate
        c.adam.rate.learningDecayRate = .ok schedule ∧
      ∀ (valGrad : (Fin D → K → ℝ) → (Fin D → Key) → (Fin D → Dat) → Fin D → Aux × (K → ℝ))
        (steps : ℕ → (Fin D → Dat) × (Fin D → Key)) (params : Fin D → K → ℝ) (t : ℕ) (d : Fin D)
        (k : K),
        (trajectory valGrad (plainRuleApply descent) steps params (fun _ => descent.init) t).1 d k =
          params d k - ∑ s ∈ Finset.range t, schedule s *
            adamDirection c.adam.b1 c.adam.b2 c.adam.eps c.adam.epsRoot (fun r => gradientAt valGrad
              (plainRuleApply descent) steps params (fun _ => descent.init) r k) s := by
  unfold getUpdateRule OptimizerConfig.rateSection at hr
  rw [hc] at hr
  simp only [String.reduceEq, if_true, if_false] at hr
  cases hs : learningRateSchedule c.adam.rate.scheduleType c.adam.rate.learningRate
    c.adam.rate.learningDecayRate with
  | error e =>
    simp only [bind, Except.bind, hs] at hr
    cases hr
  | ok schedule =>
    simp only [bind, Except.bind, hs] at hr
    injection hr with hr
    refine ⟨_, schedule, hr.symm, rfl, fun valGrad steps params t d k => ?_⟩
    obtain ⟨e1, e2⟩ := plain_steps (Aux := Aux) (adamOptimizer schedule c.adam) valGrad steps
      params d
    exact (adam_unroll schedule c.adam h1 h2
      (gradientAt valGrad (plainRuleApply (adamOptimizer schedule c.adam)) steps params _)
      (fun s => (trajectory valGrad (plainRuleApply (adamOptimizer schedule c.adam)) steps params _
        s).1 d) (fun s => (trajectory valGrad (plainRuleApply (adamOptimizer schedule c.adam)) steps
        params _ s).2 d) rfl e1 e2 t).2 k

/-- The first step of Adam with the default `eps_root = 0` has at most the length of the learning
rate in every coordinate. -/
theorem adam_first_step_bounded (b1 b2 : ℝ) {eps : ℝ} (he : 0 < eps) (g : ℕ → ℝ) :
    |adamDirection b1 b2 eps 0 g 0| ≤ 1 := by
  unfold adamDirection discountedMean
  simp only [discountedSum_zero, div_one, add_zero, Real.sqrt_sq_eq_abs]
  rw [abs_div, abs_of_pos (add_pos_of_nonneg_of_pos (abs_nonneg _) he)]
  exact (div_le_one (add_pos_of_nonneg_of_pos (abs_nonneg _) he)).2 (by linarith)

/-- Every other name than the five is rejected. -/
theorem unknown_optimizer_rejected (c : OptimizerConfig)
    (h : c.optimizerType ∉ ["kfac", "adam", "sgd", "sr", "spring"]) :
    ∃ e, getUpdateRule c = .error e := by
  simp only [List.mem_cons, List.not_mem_nil, or_false, not_or] at h
  obtain ⟨h1, h2, h3, h4, h5⟩ := h
  refine ⟨"KeyError", ?_⟩
  unfold getUpdateRule OptimizerConfig.rateSection
  simp only [h1, h2, h3, h4, h5, if_false]
  rfl

/-- So is a learning-rate schedule which does not exist, in the section of the chosen optimizer. -/
theorem unknown_schedule_rejected (c : OptimizerConfig) {sec : ScheduleConfig}
    (hs : c.rateSection c.optimizerType = .ok sec) (h1 : sec.scheduleType ≠ "constant")
    (h2 : sec.scheduleType ≠ "inverse_time") : ∃ e, getUpdateRule c = .error e := by
  obtain ⟨e, he⟩ := schedule_rejects sec.scheduleType sec.learningRate sec.learningDecayRate h1 h2
  refine ⟨e, ?_⟩
  unfold getUpdateRule
  rw [hs]
  simp only [bind, Except.bind, he]

/-- Stochastic reconfiguration accepts only "adam" and "sgd" as descent type, and only "lazy" and
"debug" as mode. -/
theorem sr_options_rejected (c : OptimizerConfig) (hc : c.optimizerType = "sr")
    (h : c.sr.descentType ∉ ["adam", "sgd"] ∨ c.sr.mode.toUpper ∉ ["LAZY", "DEBUG"]) :
    ∃ e, getUpdateRule c = .error e := by
  unfold getUpdateRule OptimizerConfig.rateSection
  rw [hc]
  simp only [String.reduceEq, if_true, if_false]
  cases hs : learningRateSchedule c.sr.rate.scheduleType c.sr.rate.learningRate
    c.sr.rate.learningDecayRate with
  | error e => exact ⟨e, by simp only [bind, Except.bind, hs]⟩
  | ok schedule =>
    simp only [bind, Except.bind, hs]
    unfold srRule
    cases hsec : c.rateSection c.sr.descentType with
    | error e => exact ⟨e, by simp only [bind, Except.bind]⟩
    | ok sec =>
      cases hm : srModeOf c.sr.mode with
      | error e => exact ⟨e, by simp only [bind, Except.bind]⟩
      | ok mode =>
        rcases h with h | h
        · simp only [List.mem_cons, List.not_mem_nil, or_false, not_or] at h
          exact ⟨_, by simp only [bind, Except.bind, h.1, h.2, if_false]; rfl⟩
        · simp only [List.mem_cons, List.not_mem_nil, or_false, not_or] at h
          simp [srModeOf, h.1, h.2] at hm

/-- The step count read from the optimizer state is the number of updates done. -/
theorem stepCount_eq (descent : Descent) (H θ : ℕ → K → ℝ) (st : ℕ → DescentState K)
    (h0 : st 0 = descent.init) (hst : ∀ s, st (s + 1) = (descent.update (H s) (st s) (θ s)).2)
    (t : ℕ) : (st t).stepCount = t := by
  cases descent with
  | sgd sch m nest =>
    have : ∃ x, st t = .sgd x ∧ x.count = t := by
      induction t with
      | zero => exact ⟨_, h0, rfl⟩
      | succ t ih =>
        obtain ⟨x, hx, hc⟩ := ih
        refine ⟨(sgdUpdate sch m nest (H t) x (θ t)).2, by rw [hst, hx]; rfl, ?_⟩
        unfold sgdUpdate
        split <;> exact congrArg (· + 1) hc
    obtain ⟨x, hx, hc⟩ := this
    rw [hx]
    exact hc
  | adam sch b1 b2 e er =>
    have : ∃ x, st t = .adam x ∧ x.count = t := by
      induction t with
      | zero => exact ⟨_, h0, rfl⟩
      | succ t ih =>
        obtain ⟨x, hx, hc⟩ := ih
        exact ⟨(adamUpdate sch b1 b2 e er (H t) x (θ t)).2, by rw [hst, hx]; rfl,
          congrArg (· + 1) hc⟩
    obtain ⟨x, hx, hc⟩ := this
    rw [hx]
    exact hc

/-- Stochastic reconfiguration feeds its descent optimizer with a multiple `a s` of the
preconditioned gradient which respects the norm constraint at the learning rate of the same step. -/
theorem sr_steps [Fintype K] [DecidableEq K] (hD : 0 < D) (hn : 0 < n) (mode : SRMode)
    {damping : ℝ} (hdamp : 0 < damping) (maxiter : Option ℕ) {nc : ℝ} (hnc : 0 < nc)
    (schedule : ℕ → ℝ) (descent : Descent)
    (valGrad : (Fin D → K → ℝ) → (Fin D → Key) → (Fin D → Dat) → Fin D → Aux × (K → ℝ))
    (jac : (K → ℝ) → Dat → Fin n → K → ℝ)
    (steps : ℕ → (Fin D → Dat) × (Fin D → Key)) (params : Fin D → K → ℝ) :
    let apply := srRuleApply mode damping maxiter nc schedule descent jac
    let T := trajectory valGrad apply steps params fun _ => descent.init
    let G := gradientAt valGrad apply steps params fun _ => descent.init
    let pre := fun s => preconditionGrad mode damping maxiter
      (fun d => jac ((T s).1 d) ((steps s).1 d)) fun _ => G s
    ∃ a : ℕ → ℝ, (∀ s, 0 < a s ∧ a s ≤ 1 ∧
        schedule s ^ 2 * (a s ^ 2 * ∑ d, pre s d ⬝ᵥ G s) / D ≤ nc ∧
        (schedule s ^ 2 * (∑ d, pre s d ⬝ᵥ G s) / D ≤ nc → a s = 1) ∧
        (nc ≤ schedule s ^ 2 * (∑ d, pre s d ⬝ᵥ G s) / D →
          schedule s ^ 2 * (a s ^ 2 * ∑ d, pre s d ⬝ᵥ G s) / D = nc)) ∧
      ∀ s d, ((T (s + 1)).1 d = fun k => (T s).1 d k +
          (descent.update (fun k => a s * pre s d k) ((T s).2 d) ((T s).1 d)).1 k) ∧
        (T (s + 1)).2 d =
          (descent.update (fun k => a s * pre s d k) ((T s).2 d) ((T s).1 d)).2 := by
  intro apply T G pre
  set lr : ℕ → Fin D → ℝ := fun s d => schedule (DescentState.stepCount ((T s).2 d)) with hlr
  have key : ∀ s, ∃ a : ℝ, 0 < a ∧ a ≤ 1 ∧
      (∀ d k, constrainNorm (fun _ => G s) (pre s) (lr s) nc d k = .fin (a * pre s d k)) ∧
      (∑ d, lr s d ^ 2 * (a • pre s d) ⬝ᵥ (a • G s)) / D ≤ nc ∧
      ((∑ d, lr s d ^ 2 * pre s d ⬝ᵥ G s) / D ≤ nc → a = 1) ∧
      (nc ≤ (∑ d, lr s d ^ 2 * pre s d ⬝ᵥ G s) / D →
        (∑ d, lr s d ^ 2 * (a • pre s d) ⬝ᵥ (a • G s)) / D = nc) :=
    fun s => sr_norm_constraint mode hdamp maxiter hD hn
      (fun d => jac ((T s).1 d) ((steps s).1 d)) (G s) (lr s) hnc
  choose a ha0 ha1 ha2 ha3 ha4 ha5 using key
  have hrec : ∀ s d, ((T (s + 1)).1 d = fun k => (T s).1 d k +
        (descent.update (fun k => a s * pre s d k) ((T s).2 d) ((T s).1 d)).1 k) ∧
      (T (s + 1)).2 d =
        (descent.update (fun k => a s * pre s d k) ((T s).2 d) ((T s).1 d)).2 := by
    intro s d
    have : (fun k => a s * pre s d k) = fun k => toReal (constrainNorm (fun _ => G s) (pre s)
        (lr s) nc d k) := by
      funext k; rw [ha2]; rfl
    rw [this]
    simp only [T, trajectory_succ]
    exact ⟨rfl, rfl⟩
  have hcount : ∀ s d, DescentState.stepCount ((T s).2 d) = s := fun s d =>
    stepCount_eq descent (fun s k => a s * pre s d k) (fun s => (T s).1 d) (fun s => (T s).2 d) rfl
      (fun s => (hrec s d).2) s
  have e1 : ∀ s, schedule s ^ 2 * (a s ^ 2 * ∑ d, pre s d ⬝ᵥ G s) / D =
      (∑ d, lr s d ^ 2 * (a s • pre s d) ⬝ᵥ (a s • G s)) / D := by
    intro s
    rw [Finset.mul_sum, Finset.mul_sum]
    congr 1
    refine Finset.sum_congr rfl fun d _ => ?_
    simp only [hlr, hcount, smul_dotProduct, dotProduct_smul, smul_eq_mul]
    ring
  have e2 : ∀ s, schedule s ^ 2 * (∑ d, pre s d ⬝ᵥ G s) / D =
      (∑ d, lr s d ^ 2 * pre s d ⬝ᵥ G s) / D := by
    intro s
    rw [Finset.mul_sum]
    simp only [hlr, hcount]
  refine ⟨a, fun s => ⟨ha0 s, ha1 s, ?_, ?_, ?_⟩, hrec⟩
  · rw [e1]; exact ha3 s
  · rw [e2]; exact ha4 s
  · rw [e1, e2]; exact ha5 s

/-- What the options of the "sr" section select. -/
theorem sr_rule (c : OptimizerConfig) (hc : c.optimizerType = "sr") {rule : UpdateRule}
    (hr : getUpdateRule c = .ok rule) :
    ∃ mode schedule, learningRateSchedule c.sr.rate.scheduleType c.sr.rate.learningRate
        c.sr.rate.learningDecayRate = .ok schedule ∧
      ((c.sr.descentType = "sgd" ∧ rule = .sr mode c.sr.damping (srMaxiter c.sr.maxiter)
          c.sr.normConstraint schedule (sgdOptimizer schedule c.sgd)) ∨
        (c.sr.descentType = "adam" ∧ rule = .sr mode c.sr.damping (srMaxiter c.sr.maxiter)
          c.sr.normConstraint schedule (adamOptimizer schedule c.adam))) := by
  unfold getUpdateRule OptimizerConfig.rateSection at hr
  rw [hc] at hr
  simp only [String.reduceEq, if_true, if_false] at hr
  cases hs : learningRateSchedule c.sr.rate.scheduleType c.sr.rate.learningRate
    c.sr.rate.learningDecayRate with
  | error e =>
    simp only [bind, Except.bind, hs] at hr
    cases hr
  | ok schedule =>
    simp only [bind, Except.bind, hs] at hr
    unfold srRule at hr
    simp only [bind, Except.bind] at hr
    cases hsec : c.rateSection c.sr.descentType with
    | error e => rw [hsec] at hr; cases hr
    | ok sec =>
      rw [hsec] at hr
      cases hm : srModeOf c.sr.mode with
      | error e => rw [hm] at hr; cases hr
      | ok mode =>
        rw [hm] at hr
        simp only at hr
        refine ⟨mode, schedule, rfl, ?_⟩
        by_cases h1 : c.sr.descentType = "adam"
        · rw [if_pos h1] at hr
          injection hr with hr
          exact .inr ⟨h1, hr.symm⟩
        · rw [if_neg h1] at hr
          by_cases h2 : c.sr.descentType = "sgd"
          · rw [if_pos h2] at hr
            injection hr with hr
            exact .inl ⟨h2, hr.symm⟩
          · rw [if_neg h2] at hr
            cases hr

/-- C68, stochastic reconfiguration: the learning rate is the one of the "sr" section, the descent
parameters come from the section named by `descent_type`, and update `s` feeds the descent
optimizer with `a s` times the preconditioned gradient, `0 < a s ≤ 1`, where
`rate² * a² * preconditioned · gradient ≤ norm_constraint` with the rate of that same step, and
`a s = 1` if the gradient is within the constraint anyway; otherwise the constraint is attained. -/
theorem configured_sr [Fintype K] [DecidableEq K] (hD : 0 < D) (hn : 0 < n)
    (c : OptimizerConfig) (hc : c.optimizerType = "sr") (h1 : c.adam.b1 ≠ 1) (h2 : c.adam.b2 ≠ 1)
    (hdamp : 0 < c.sr.damping) (hnc : 0 < c.sr.normConstraint) {rule : UpdateRule}
    (hr : getUpdateRule c = .ok rule) :
    ∃ mode descent schedule,
      rule = .sr mode c.sr.damping (srMaxiter c.sr.maxiter) c.sr.normConstraint schedule descent ∧
      learningRateSchedule c.sr.rate.scheduleType c.sr.rate.learningRate
        c.sr.rate.learningDecayRate = .ok schedule ∧
      ∀ (valGrad : (Fin D → K → ℝ) → (Fin D → Key) → (Fin D → Dat) → Fin D → Aux × (K → ℝ))
        (jac : (K → ℝ) → Dat → Fin n → K → ℝ)
        (steps : ℕ → (Fin D → Dat) × (Fin D → Key)) (params : Fin D → K → ℝ),
        let apply := srRuleApply mode c.sr.damping (srMaxiter c.sr.maxiter) c.sr.normConstraint
          schedule descent jac
        let T := trajectory valGrad apply steps params fun _ => descent.init
        let G := gradientAt valGrad apply steps params fun _ => descent.init
        let pre := fun s => preconditionGrad mode c.sr.damping (srMaxiter c.sr.maxiter)
          (fun d => jac ((T s).1 d) ((steps s).1 d)) fun _ => G s
        ∃ a : ℕ → ℝ, (∀ s, 0 < a s ∧ a s ≤ 1 ∧
            schedule s ^ 2 * (a s ^ 2 * ∑ d, pre s d ⬝ᵥ G s) / D ≤ c.sr.normConstraint ∧
            (schedule s ^ 2 * (∑ d, pre s d ⬝ᵥ G s) / D ≤ c.sr.normConstraint → a s = 1) ∧
            (c.sr.normConstraint ≤ schedule s ^ 2 * (∑ d, pre s d ⬝ᵥ G s) / D →
              schedule s ^ 2 * (a s ^ 2 * ∑ d, pre s d ⬝ᵥ G s) / D = c.sr.normConstraint)) ∧
          ∀ t d k, (T t).1 d k = params d k - ∑ s ∈ Finset.range t, schedule s *
            if c.sr.descentType = "sgd" then
              momentumDirection c.sgd.momentum c.sgd.nesterov (fun r => a r * pre r d k) s
            else adamDirection c.adam.b1 c.adam.b2 c.adam.eps c.adam.epsRoot
              (fun r => a r * pre r d k) s := by
  obtain ⟨mode, schedule, hs, hcase⟩ := sr_rule c hc hr
  rcases hcase with ⟨hdt, hrule⟩ | ⟨hdt, hrule⟩
  · refine ⟨mode, _, schedule, hrule, hs, ?_⟩
    intro valGrad jac steps params apply T G pre
    obtain ⟨a, ha, hrec⟩ := sr_steps hD hn mode hdamp (srMaxiter c.sr.maxiter) hnc schedule
      (sgdOptimizer schedule c.sgd) valGrad jac steps params
    refine ⟨a, ha, fun t d k => ?_⟩
    simp only [if_pos hdt]
    exact (sgd_unroll schedule c.sgd (fun s k => a s * pre s d k) (fun s => (T s).1 d)
      (fun s => (T s).2 d) rfl (fun s => (hrec s d).1) (fun s => (hrec s d).2) t).2 k
  · refine ⟨mode, _, schedule, hrule, hs, ?_⟩
    intro valGrad jac steps params apply T G pre
    obtain ⟨a, ha, hrec⟩ := sr_steps hD hn mode hdamp (srMaxiter c.sr.maxiter) hnc schedule
      (adamOptimizer schedule c.adam) valGrad jac steps params
    refine ⟨a, ha, fun t d k => ?_⟩
    have hne : ¬ c.sr.descentType = "sgd" := by rw [hdt]; decide
    simp only [if_neg hne]
    exact (adam_unroll schedule c.adam h1 h2 (fun s k => a s * pre s d k) (fun s => (T s).1 d)
      (fun s => (T s).2 d) rfl (fun s => (hrec s d).1) (fun s => (hrec s d).2) t).2 k

/-- The move of SPRING, with or without norm constraint. -/
noncomputable def springMove [Fintype K] (nc : Option ℝ) (updates : Fin D → K → ℝ) (d : Fin D)
    (k : K) : ℝ :=
  match nc with
  | none => updates d k
  | some c => toReal (constrainNormSpring updates c d k)

theorem springApply_fst [Fintype K] (damping mu momentum : ℝ) (nc : Option ℝ) (schedule : ℕ → ℝ)
    (jac : (K → ℝ) → Dat → Fin n → K → ℝ) (grad params : Fin D → K → ℝ)
    (opt : Fin D → SpringState K) (data : Fin D → Dat) (aux : Fin D → Fin n → ℝ) (d : Fin D)
    (k : K) : (springApply damping mu momentum nc schedule jac grad params opt data aux d).1 k =
      params d k + springMove nc (fun d k => -(schedule (opt d).count) *
        springUpdate damping mu momentum (jac (params d) (data d)) (aux d) (opt d).trace k) d k := by
  cases nc <;> rfl

/-- C68, SPRING: update `s` moves the parameters of device `d` by `-rate s * a s` times the
direction `φ s d`, where the rate is the one of the "spring" section, `a s = 1` without norm
constraint, and with it `0 < a s ≤ 1` and the mean squared length of the moves is within the
constraint.  The direction mixes the minimizer `ψ s d` of the regularized least-squares problem
around the previous direction with the previous direction, which is 0 at first. -/
theorem configured_spring [Fintype K] (c : OptimizerConfig)
    (hc : c.optimizerType = "spring") (hdamp : 0 < c.spring.damping)
    (hnc : 0 < c.spring.normConstraint) {rule : UpdateRule} (hr : getUpdateRule c = .ok rule) :
    ∃ nc schedule,
      rule = .spring c.spring.damping c.spring.mu c.spring.momentum nc schedule ∧
      learningRateSchedule c.spring.rate.scheduleType c.spring.rate.learningRate
        c.spring.rate.learningDecayRate = .ok schedule ∧
      ∀ (valGrad : (Fin D → K → ℝ) → (Fin D → Key) → (Fin D → Dat) → Fin D →
          (Fin n → ℝ) × (K → ℝ)) (jac : (K → ℝ) → Dat → Fin n → K → ℝ)
        (steps : ℕ → (Fin D → Dat) × (Fin D → Key)) (params : Fin D → K → ℝ),
        let apply := springApply c.spring.damping c.spring.mu c.spring.momentum nc schedule jac
        let T := trajectory valGrad apply steps params fun _ => ⟨fun _ => 0, 0⟩
        ∃ (a : ℕ → ℝ) (φ ψ : ℕ → Fin D → K → ℝ),
          (∀ s d k, (T (s + 1)).1 d k = (T s).1 d k - schedule s * a s * φ s d k) ∧
          (∀ s, 0 < a s ∧ a s ≤ 1 ∧ (c.spring.constrainNorm = false → a s = 1) ∧
            (c.spring.constrainNorm = true →
              (∑ d, ∑ k, (schedule s * a s * φ s d k) ^ 2) / D ≤ c.spring.normConstraint)) ∧
          ∀ s d, let prev : K → ℝ := match s with
              | 0 => fun _ => 0
              | r + 1 => φ r d
            (∀ k, φ s d k = (1 - c.spring.momentum) * ψ s d k + c.spring.momentum * prev k) ∧
            ∀ x, x ≠ ψ s d →
              springObjective c.spring.damping c.spring.mu (jac ((T s).1 d) ((steps s).1 d))
                (valGrad (T s).1 (steps s).2 (steps s).1 d).1 prev (ψ s d) <
              springObjective c.spring.damping c.spring.mu (jac ((T s).1 d) ((steps s).1 d))
                (valGrad (T s).1 (steps s).2 (steps s).1 d).1 prev x := by
  unfold getUpdateRule OptimizerConfig.rateSection at hr
  rw [hc] at hr
  simp only [String.reduceEq, if_true, if_false] at hr
  cases hs : learningRateSchedule c.spring.rate.scheduleType c.spring.rate.learningRate
    c.spring.rate.learningDecayRate with
  | error e =>
    simp only [bind, Except.bind, hs] at hr
    cases hr
  | ok schedule =>
    simp only [bind, Except.bind, hs] at hr
    injection hr with hr
    refine ⟨_, schedule, hr.symm, rfl, ?_⟩
    intro valGrad jac steps params apply T
    set φ : ℕ → Fin D → K → ℝ := fun s d => springUpdate c.spring.damping c.spring.mu
      c.spring.momentum (jac ((T s).1 d) ((steps s).1 d))
      (valGrad (T s).1 (steps s).2 (steps s).1 d).1 ((T s).2 d).trace with hφ
    have htrace : ∀ s d, (T (s + 1)).2 d = ⟨φ s d, ((T s).2 d).count + 1⟩ := by
      intro s d
      simp only [T, trajectory_succ]
      rfl
    have hmove : ∀ s d k, (T (s + 1)).1 d k = (T s).1 d k + springMove
        (if c.spring.constrainNorm then some c.spring.normConstraint else none)
        (fun d k => -(schedule ((T s).2 d).count) * φ s d k) d k := by
      intro s d k
      have := springApply_fst c.spring.damping c.spring.mu c.spring.momentum
        (if c.spring.constrainNorm then some c.spring.normConstraint else none) schedule jac
        (fun _ k => pmean fun d => (valGrad (T s).1 (steps s).2 (steps s).1 d).2 k) (T s).1 (T s).2
        (steps s).1 (fun d => (valGrad (T s).1 (steps s).2 (steps s).1 d).1) d k
      rw [hφ, ← this]
      simp only [T, trajectory_succ]
      rfl
    have hcount : ∀ s d, ((T s).2 d).count = s := by
      intro s d
      induction s with
      | zero => rfl
      | succ s ih => rw [htrace, ih]
    have hprev : ∀ s d, ((T s).2 d).trace = match (motive := ℕ → K → ℝ) s with
        | 0 => fun _ => 0
        | r + 1 => φ r d := by
      intro s d
      cases s with
      | zero => rfl
      | succ r => rw [htrace]
    have hstep : ∀ s, ∃ a : ℝ, (∀ d k, (T (s + 1)).1 d k = (T s).1 d k - schedule s * a * φ s d k) ∧
        0 < a ∧ a ≤ 1 ∧ (c.spring.constrainNorm = false → a = 1) ∧
        (c.spring.constrainNorm = true →
          (∑ d, ∑ k, (schedule s * a * φ s d k) ^ 2) / D ≤ c.spring.normConstraint) := by
      intro s
      by_cases hcn : c.spring.constrainNorm = true
      · obtain ⟨a, h0, h1, h2, h3, -⟩ := spring_constraint
          (fun d k => -(schedule ((T s).2 d).count) * φ s d k) hnc
        refine ⟨a, fun d k => ?_, h0, h1, fun h => absurd (h.symm.trans hcn) (by decide),
          fun _ => ?_⟩
        · have : (T (s + 1)).1 d k = (T s).1 d k + toReal (constrainNormSpring
              (fun d k => -(schedule ((T s).2 d).count) * φ s d k) c.spring.normConstraint d k) := by
            rw [hmove, if_pos hcn]
            rfl
          rw [this, h2, hcount]
          simp only [toReal]
          ring
        · refine le_trans (le_of_eq ?_) h3
          simp only [hcount]
          congr 1
          refine Finset.sum_congr rfl fun d _ => Finset.sum_congr rfl fun k _ => by ring
      · refine ⟨1, fun d k => ?_, one_pos, le_refl _, fun _ => rfl, fun h => absurd h hcn⟩
        have : (T (s + 1)).1 d k = (T s).1 d k + -(schedule ((T s).2 d).count) * φ s d k := by
          rw [hmove, if_neg hcn]
          rfl
        rw [this, hcount]
        ring
    choose a ha1 ha2 ha3 ha4 ha5 using hstep
    refine ⟨a, φ, fun s d => springUpdate c.spring.damping c.spring.mu 0
      (jac ((T s).1 d) ((steps s).1 d)) (valGrad (T s).1 (steps s).2 (steps s).1 d).1
      ((T s).2 d).trace, ha1, fun s => ⟨ha2 s, ha3 s, ha4 s, ha5 s⟩, fun s d => ?_⟩
    intro prev
    have hp : prev = ((T s).2 d).trace := (hprev s d).symm
    rw [hp]
    exact ⟨fun k => spring_momentum .., fun x hx => spring_minimizes hdamp _ _ _ _ x hx⟩

/-! ### Examples -/

/-- The default configuration. train/default_config.py:313-366 -/
def exampleConfig (optimizerType : String) (momentum : ℝ) : OptimizerConfig :=
  let rate : ScheduleConfig := ⟨"inverse_time", 5e-2, 1e-4⟩
  { optimizerType, kfac := rate, adam := ⟨rate, 0.9, 0.999, 1e-8, 0⟩, sgd := ⟨rate, momentum, false⟩,
    sr := ⟨rate, 1, 10, "sgd", 0.001, "lazy"⟩, spring := ⟨rate, 0.99, 0, 0.001, true, 0.001⟩ }

/-- All five optimizers are accepted. -/
example (name : String) (h : name ∈ ["kfac", "adam", "sgd", "sr", "spring"]) :
    ∃ rule, getUpdateRule (exampleConfig name 0) = .ok rule := by
  simp only [List.mem_cons, List.not_mem_nil, or_false] at h
  rcases h with rfl | rfl | rfl | rfl | rfl
  · exact ⟨_, rfl⟩
  · exact ⟨_, rfl⟩
  · exact ⟨_, rfl⟩
  · have hm : srModeOf "lazy" = .ok .lazy := by
      unfold srModeOf
      rw [if_pos (by decide +kernel)]
    simp [getUpdateRule, exampleConfig, OptimizerConfig.rateSection, learningRateSchedule, srRule,
      hm, bind, Except.bind]
  · exact ⟨_, rfl⟩

example : ∃ e, getUpdateRule (exampleConfig "lamb" 0) = .error e :=
  unknown_optimizer_rejected _ (by decide)

example : ∃ e, getUpdateRule { exampleConfig "sr" 0 with
    sr := ⟨⟨"constant", 1, 0⟩, 1, 10, "spring", 0.001, "lazy"⟩ } = .error e :=
  sr_options_rejected _ rfl (.inl (by decide))

/-- Two updates with gradient 1, momentum 0.9 and a constant rate 0.1 move the parameter by
`0.1 * (1 + 1.9)`. -/
example : let rule := sgdOptimizer (fun _ => (0.1 : ℝ)) ⟨⟨"constant", 0.1, 0⟩, 0.9, false⟩
    (trajectory (D := 1) (K := Unit) (Key := Unit) (Dat := Unit) (Aux := Unit)
      (fun _ _ _ _ => ((), fun _ => 1)) (plainRuleApply rule) (fun _ => (fun _ => (), fun _ => ()))
      (fun _ _ => 0) (fun _ => rule.init) 2).1 0 () = -0.29 := by
  intro rule
  obtain ⟨descent, schedule, h1, h2, h3⟩ := configured_sgd (K := Unit) (D := 1) (Dat := Unit)
    (Key := Unit) (Aux := Unit)
    { exampleConfig "sgd" 0.9 with sgd := ⟨⟨"constant", 0.1, 0⟩, 0.9, false⟩ } rfl
    (rule := .plain rule) rfl
  injection h1 with h1
  subst h1
  have h2 : schedule = fun _ => 0.1 := by
    have : Except.ok (ε := String) (fun _ : ℕ => (0.1 : ℝ)) = .ok schedule := h2
    injection this with this
    exact this.symm
  rw [h3, h2]
  simp [Finset.sum_range_succ, momentumDirection, discountedSum, gradientAt]
  norm_num

/-- C69 for stochastic reconfiguration with momentum-free SGD: the move `u` of the parameters
respects the constraint on the natural norm, measured with the gradient as the code does, and
measured with the damped Fisher matrix itself where the solver found the exact solution.  Not with
momentum, see `sr_momentum_exceeds_constraint`. -/
theorem sr_move_within_constraint_partial [Fintype K] [DecidableEq K] (hD : 0 < D) (hn : 0 < n)
    (mode : SRMode) {damping : ℝ} (hdamp : 0 < damping) (maxiter : Option ℕ) {nc : ℝ} (hnc : 0 < nc)
    (schedule : ℕ → ℝ) (c : SgdConfig) (hm : c.momentum = 0)
    (valGrad : (Fin D → K → ℝ) → (Fin D → Key) → (Fin D → Dat) → Fin D → Aux × (K → ℝ))
    (jac : (K → ℝ) → Dat → Fin n → K → ℝ)
    (steps : ℕ → (Fin D → Dat) × (Fin D → Key)) (params : Fin D → K → ℝ) (s : ℕ) :
    let descent := sgdOptimizer schedule c
    let apply := srRuleApply mode damping maxiter nc schedule descent jac
    let T := trajectory valGrad apply steps params fun _ => descent.init
    let G := gradientAt valGrad apply steps params fun _ => descent.init
    let J := fun d => jac ((T s).1 d) ((steps s).1 d)
    let pre := preconditionGrad mode damping maxiter J fun _ => G s
    let u := fun d k => (T s).1 d k - (T (s + 1)).1 d k
    ∃ b : ℝ, (∀ d k, u d k = b * pre d k) ∧ |b| ≤ |schedule s| ∧
      (∑ d, u d ⬝ᵥ (b • G s)) / D ≤ nc ∧
      ((∀ d, (dampedFisher damping J).mulVec (pre d) = G s) →
        (∑ d, u d ⬝ᵥ (dampedFisher damping J).mulVec (u d)) / D ≤ nc) := by
  intro descent apply T G J pre u
  obtain ⟨a, ha, hrec⟩ := sr_steps hD hn mode hdamp maxiter hnc schedule descent valGrad jac steps
    params
  obtain ⟨h0, h1, h2, -, -⟩ := ha s
  have hu : ∀ d k, u d k = schedule s * a s * pre d k := by
    intro d k
    have hun := fun t => (sgd_unroll schedule c (fun s k => a s * preconditionGrad mode damping
      maxiter (fun d => jac ((T s).1 d) ((steps s).1 d)) (fun _ => G s) d k) (fun s => (T s).1 d)
      (fun s => (T s).2 d) rfl (fun s => (hrec s d).1) (fun s => (hrec s d).2) t).2 k
    show (T s).1 d k - (T (s + 1)).1 d k = _
    rw [hun s, hun (s + 1), Finset.sum_range_succ]
    have hz : ∀ f : ℕ → ℝ, momentumDirection c.momentum c.nesterov f s = f s := by
      intro f
      have : discountedSum 0 f s = f s := by
        cases s with
        | zero => exact discountedSum_zero ..
        | succ r => rw [discountedSum_succ]; simp
      unfold momentumDirection
      rw [hm, this]
      split <;> ring
    rw [hz]
    ring
  have hu' : ∀ d, u d = (schedule s * a s) • pre d := fun d => funext fun k => hu d k
  have hin : (∑ d, u d ⬝ᵥ ((schedule s * a s) • G s)) / D ≤ nc := by
    refine le_trans (le_of_eq ?_) h2
    congr 1
    simp only [hu', smul_dotProduct, dotProduct_smul, smul_eq_mul, Finset.mul_sum]
    exact Finset.sum_congr rfl fun d _ => by ring
  refine ⟨schedule s * a s, hu, ?_, hin, fun hx => ?_⟩
  · rw [abs_mul, abs_of_pos h0]
    exact mul_le_of_le_one_right (abs_nonneg _) h1
  · refine le_trans (le_of_eq ?_) hin
    congr 1
    refine Finset.sum_congr rfl fun d _ => ?_
    congr 1
    rw [hu', Matrix.mulVec_smul, hx]

/-- C69 fails with momentum: it defeats the norm constraint of stochastic reconfiguration, which acts on the gradient
before the descent optimizer: one parameter, vanishing Jacobian, damping 1, gradient 1, rate 1,
`norm_constraint = 1/4` and momentum 1/2.  The first move has squared length 1/4, the second 9/16. -/
theorem sr_momentum_exceeds_constraint :
    let rule := sgdOptimizer (fun _ => (1 : ℝ)) ⟨⟨"constant", 1, 0⟩, 1 / 2, false⟩
    let T := trajectory (D := 1) (K := Unit) (Key := Unit) (Dat := Unit) (Aux := Unit)
      (fun _ _ _ _ => ((), fun _ => 1))
      (srRuleApply (n := 1) .lazy 1 (some 10) (1 / 4) (fun _ => 1) rule fun _ _ _ _ => 0)
      (fun _ => (fun _ => (), fun _ => ())) (fun _ _ => 0) (fun _ => rule.init)
    ((T 1).1 0 () - (T 0).1 0 ()) ^ 2 = 1 / 4 ∧ ((T 2).1 0 () - (T 1).1 0 ()) ^ 2 = 9 / 16 := by
  intro rule T
  obtain ⟨a, ha, hrec⟩ := sr_steps (D := 1) (K := Unit) (n := 1) (Key := Unit) (Dat := Unit)
    (Aux := Unit) one_pos one_pos .lazy one_pos (some 10) (nc := 1 / 4) (by norm_num) (fun _ => 1)
    rule (fun _ _ _ _ => ((), fun _ => 1)) (fun _ _ _ _ => 0)
    (fun _ => (fun _ => (), fun _ => ())) (fun _ _ => 0)
  have hG : ∀ s, gradientAt (D := 1) (K := Unit) (Key := Unit) (Dat := Unit) (Aux := Unit)
      (fun _ _ _ _ => ((), fun _ => 1))
      (srRuleApply (n := 1) .lazy 1 (some 10) (1 / 4) (fun _ => 1) rule fun _ _ _ _ => 0)
      (fun _ => (fun _ => (), fun _ => ())) (fun _ _ => 0) (fun _ => rule.init) s = fun _ => 1 := by
    intro s
    funext k
    simp [gradientAt]
  have hpre : preconditionGrad (D := 1) (n := 1) (K := Unit) .lazy 1 (some 10) (fun _ _ _ => 0)
      (fun _ _ => 1) = fun _ _ => 1 := by
    funext d k
    simp [preconditionGrad, cg, cgLoop, cgInit, fisherLazy, meanFirst, pmean, treeInner, cgTol]
  simp only [hG, hpre] at ha hrec
  have ha2 : ∀ s, a s = 1 / 2 := by
    intro s
    obtain ⟨h0, -, -, -, h4⟩ := ha s
    simp [dotProduct] at h4
    have := h4 (by norm_num)
    nlinarith
  have hu := fun t => (sgd_unroll (fun _ => (1 : ℝ)) ⟨⟨"constant", 1, 0⟩, 1 / 2, false⟩
    (fun s _ => a s * 1) (fun s => (T s).1 0) (fun s => (T s).2 0) rfl (fun s => (hrec s 0).1)
    (fun s => (hrec s 0).2) t).2 ()
  have h0 : (T 0).1 0 () = 0 := rfl
  rw [hu 1, hu 2, h0]
  simp [Finset.sum_range_succ, momentumDirection, discountedSum, ha2]
  norm_num

end Configured

end Verif.Props
