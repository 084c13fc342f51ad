import Verif.Props.NaturalGradient
import Verif.Props.Spring
import Verif.Lemmas.Loop

/-! Learning-rate schedules (C54), evaluation (C55) and replicated parameters (C56). -/

namespace Verif.Props

open Verif.Updates Verif.Spec

/-! ### C54 -/

/-- The constant schedule. -/
theorem schedule_constant (lr decay : ℝ) :
    ∃ f, learningRateSchedule "constant" lr decay = .ok f ∧ ∀ t, f t = lr :=
  ⟨_, rfl, fun _ => rfl⟩

/-- The inverse-time schedule. -/
theorem schedule_inverse_time {lr decay : ℝ} (hlr : 0 < lr) (hd : 0 ≤ decay) :
    ∃ f, learningRateSchedule "inverse_time" lr decay = .ok f ∧ f 0 = lr ∧
      (∀ t, f t * (1 + decay * t) = lr) ∧ (∀ t, 0 < f t) ∧ ∀ s t, s ≤ t → f t ≤ f s := by
  have hpos : ∀ t : ℕ, 0 < 1 + decay * (t : ℝ) := fun t =>
    add_pos_of_pos_of_nonneg one_pos (mul_nonneg hd (Nat.cast_nonneg t))
  refine ⟨fun t => lr / (1 + decay * t), rfl, by simp, ?_, ?_, ?_⟩
  · exact fun t => div_mul_cancel₀ lr (hpos t).ne'
  · exact fun t => div_pos hlr (hpos t)
  · intro s t hst
    refine div_le_div_of_nonneg_left hlr.le (hpos s) ?_
    have : (s : ℝ) ≤ t := by exact_mod_cast hst
    nlinarith

/-- Every other name is rejected. -/
theorem schedule_rejects (name : String) (lr decay : ℝ) (h1 : name ≠ "constant")
    (h2 : name ≠ "inverse_time") : ∃ e, learningRateSchedule name lr decay = .error e := by
  refine ⟨"Learning rate schedule type not supported", ?_⟩
  unfold learningRateSchedule
  rw [if_neg h1, if_neg h2]

/-- The default schedule halves the rate after 10000 epochs. -/
example : ∃ f, learningRateSchedule "inverse_time" 0.05 1e-4 = .ok f ∧ f 10000 = 0.025 := by
  obtain ⟨f, h1, -, h3, -⟩ := schedule_inverse_time (lr := 0.05) (decay := 1e-4) (by norm_num)
    (by norm_num)
  refine ⟨f, h1, ?_⟩
  have := h3 10000
  norm_num at this ⊢
  linarith

/-! ### C55 -/

section Eval

variable {P Dat S M κ : Type*}

/-- Only moving the walkers, with fixed parameters. -/
def walkOnly (walker : P → Dat → Keys κ → Except String (Dat × Keys κ)) (params : P) :
    ℕ → Dat → Keys κ → Except String (Dat × Keys κ)
  | 0, data, key => .ok (data, key)
  | m + 1, data, key =>
    match walker params data key with
    | .error e => .error e
    | .ok (data, key) => walkOnly walker params m data key

/-- Evaluation, whatever the local energy: parameters and optimizer state are unchanged. -/
theorem eval_keeps_wavefunction (split : κ → ℕ → List κ) (usePRNGKey : Bool) (nbatch : Dat → ℕ)
    (stats : P → Dat → Option (List κ) → M)
    (walker : P → Dat → Keys κ → Except String (Dat × Keys κ)) (m : ℕ) (params : P) (data : Dat)
    (opt : S) (key : Keys κ) (r : P × Dat × S × Keys κ)
    (h : evalEpochs walker (evalUpdate split usePRNGKey nbatch stats) m params data opt key =
      .ok r) : r.1 = params ∧ r.2.2.1 = opt := by
  induction m generalizing data key with
  | zero =>
    cases h
    exact ⟨rfl, rfl⟩
  | succ m ih =>
    unfold evalEpochs at h
    cases hw : walker params data key with
    | error e => rw [hw] at h; cases h
    | ok dk =>
      obtain ⟨d, k⟩ := dk
      rw [hw] at h
      simp only at h
      cases hu : evalUpdate split usePRNGKey nbatch stats params d opt k with
      | error e => rw [hu] at h; cases h
      | ok u =>
        rw [hu] at h
        have : u.1 = params ∧ u.2.2.1 = opt := by
          unfold evalUpdate at hu
          cases usePRNGKey with
          | true =>
            simp only [if_true] at hu
            cases hs : k.split split (nbatch d) with
            | error e => rw [hs] at hu; cases hu
            | ok ks => rw [hs] at hu; cases hu; exact ⟨rfl, rfl⟩
          | false =>
            simp only [Bool.false_eq_true, if_false] at hu
            cases hu
            exact ⟨rfl, rfl⟩
        obtain ⟨p', d', o', m', k'⟩ := u
        obtain ⟨rfl, rfl⟩ := this
        exact ih _ _ h

/-- Evaluation with a deterministic local energy is moving the walkers and nothing else: the
positions come from the walker function, and so does the key of the next epoch. -/
theorem eval_threads_key_partial (split : κ → ℕ → List κ) (nbatch : Dat → ℕ)
    (stats : P → Dat → Option (List κ) → M)
    (walker : P → Dat → Keys κ → Except String (Dat × Keys κ)) (m : ℕ) (params : P) (data : Dat)
    (opt : S) (key : Keys κ) :
    evalEpochs walker (evalUpdate split false nbatch stats) m params data opt key =
      (walkOnly walker params m data key).map fun r => (params, r.1, opt, r.2) := by
  induction m generalizing data key with
  | zero => rfl
  | succ m ih =>
    unfold evalEpochs walkOnly
    cases hw : walker params data key with
    | error e => rfl
    | ok dk => exact ih _ _

/-- So a walker which keeps single keys single is always handed a single key. -/
theorem walkOnly_single (walker : P → Dat → Keys κ → Except String (Dat × Keys κ))
    (hw : ∀ p d k, ∃ d' k', walker p d (.single k) = .ok (d', .single k')) (m : ℕ) (params : P)
    (data : Dat) (k : κ) :
    ∃ d' k', walkOnly walker params m data (.single k) = .ok (d', .single k') := by
  induction m generalizing data k with
  | zero => exact ⟨data, k, rfl⟩
  | succ m ih =>
    obtain ⟨d', k', h⟩ := hw params data k
    obtain ⟨d'', k'', h'⟩ := ih d' k'
    refine ⟨d'', k'', ?_⟩
    unfold walkOnly
    rw [h]
    exact h'

/-- The key claim of C55 fails for the random-particle local energy.  After one epoch the key has
been replaced by one key per walker, and a walker function which splits its key raises in the
second epoch: every evaluation with at least two epochs fails. -/
theorem eval_random_particle_fails (split : κ → ℕ → List κ) (nbatch : Dat → ℕ)
    (stats : P → Dat → Option (List κ) → M)
    (walker : P → Dat → Keys κ → Except String (Dat × Keys κ))
    (hsingle : ∀ p d k, ∃ d' k', walker p d (.single k) = .ok (d', .single k'))
    (hbatch : ∀ p d ks, ∃ e, walker p d (.batch ks) = .error e)
    (m : ℕ) (params : P) (data : Dat) (opt : S) (k : κ) :
    (∃ d ks, evalEpochs walker (evalUpdate split true nbatch stats) 1 params data opt (.single k) =
      .ok (params, d, opt, .batch ks)) ∧
    ∃ e, evalEpochs walker (evalUpdate split true nbatch stats) (m + 2) params data opt
      (.single k) = .error e := by
  obtain ⟨d', k', h⟩ := hsingle params data k
  constructor
  · refine ⟨d', split k' (nbatch d'), ?_⟩
    unfold evalEpochs
    rw [h]
    rfl
  · obtain ⟨e, he⟩ := hbatch params d' (split k' (nbatch d'))
    refine ⟨e, ?_⟩
    unfold evalEpochs
    rw [h]
    show evalEpochs walker _ (m + 1) params d' opt (.batch (split k' (nbatch d'))) = _
    unfold evalEpochs
    rw [he]

/-- A walker function which splits its key, as the Metropolis walker does. -/
example : ∃ e, evalEpochs (P := Unit) (S := Unit)
    (fun _ (d : ℕ) key => match key.split (fun k n => List.range n |>.map (· + k)) 2 with
      | .ok ks => .ok (d + ks.getD 1 0, .single (ks.getD 0 0))
      | .error e => .error e)
    (evalUpdate (fun k n => List.range n |>.map (· + k)) true (fun _ => 3) fun _ _ _ => ())
    1000 () 5 () (.single 7) = .error e :=
  (eval_random_particle_fails _ _ _ _ (fun _ _ _ => ⟨_, _, rfl⟩) (fun _ _ _ => ⟨_, rfl⟩) 998 () 5
    () 7).2

end Eval

/-- The same through the full training loop with checkpointing and metrics: if the update function
keeps parameters and optimizer state, so does `vmc_loop`. -/
theorem vmcLoop_keeps_wavefunction {P D S K : Type} (cfg : LoopCfg P D) (fns : LoopFns P D S K)
    (hp : ∀ p d s k, (fns.update p d s k).1 = p) (hs : ∀ p d s k, (fns.update p d s k).2.2.1 = s)
    (start nepochs : ℕ) (c : Core P D S K) :
    (vmcLoop cfg fns start nepochs c).core.params = c.params ∧
      (vmcLoop cfg fns start nepochs c).core.opt = c.opt := by
  have hrun : ∀ (es : List ℕ) (st : LoopState P D S K),
      (runEpochs cfg fns es st).core.params = st.core.params ∧
        (runEpochs cfg fns es st).core.opt = st.core.opt := by
    intro es
    induction es with
    | nil => exact fun st => ⟨rfl, rfl⟩
    | cons e es ih =>
      intro st
      have hstep : (epochStep cfg fns e st).core.params = st.core.params ∧
          (epochStep cfg fns e st).core.opt = st.core.opt := by
        rw [epochStep_core]
        exact ⟨hp _ _ _ _, hs _ _ _ _⟩
      unfold runEpochs
      simp only
      split
      · exact hstep
      · obtain ⟨h1, h2⟩ := ih (epochStep cfg fns e st)
        exact ⟨h1.trans hstep.1, h2.trans hstep.2⟩
  unfold vmcLoop
  rw [finish_core]
  exact hrun _ _

/-- An evaluation update which reports one number. -/
example (cfg : LoopCfg ℝ ℕ) (m : ℝ → ℕ → Metrics) (walker : ℝ → ℕ → ℕ → XR × ℕ × ℕ)
    (c : Core ℝ ℕ Unit ℕ) :
    (vmcLoop cfg ⟨walker, fun p d s k => (p, d, s, some (m p d), k)⟩ 0 100 c).core.params =
      c.params :=
  (vmcLoop_keeps_wavefunction cfg _ (fun _ _ _ _ => rfl) (fun _ _ _ _ => rfl) 0 100 c).1

/-! ### C56 -/

section Replication

variable {K : Type*} [Fintype K] {D n : ℕ}

/-- An optimizer step which takes identical gradients, parameters and states on all devices to
identical parameters and states, whatever the data. -/
def KeepsReplicas {S Dat Aux : Type*} (apply : OptimizerApply D K S Dat Aux) : Prop :=
  ∀ grad params opt data aux, SameOnAllDevices grad → SameOnAllDevices params → SameOnAllDevices opt →
    SameOnAllDevices (apply grad params opt data aux)

omit [Fintype K] in
/-- Then replicas stay identical over any number of updates with any data, because gradients are
averaged over the devices. -/
theorem gradUpdates_replicated {S Dat Key Aux : Type*}
    (valGrad : (Fin D → K → ℝ) → (Fin D → Key) → (Fin D → Dat) → Fin D → Aux × (K → ℝ))
    (apply : OptimizerApply D K S Dat Aux) (ha : KeepsReplicas apply)
    (steps : List ((Fin D → Dat) × (Fin D → Key))) (params : Fin D → K → ℝ) (opt : Fin D → S)
    (hp : SameOnAllDevices params) (ho : SameOnAllDevices opt) :
    SameOnAllDevices (gradUpdates valGrad apply steps params opt).1 ∧
      SameOnAllDevices (gradUpdates valGrad apply steps params opt).2 := by
  induction steps generalizing params opt with
  | nil => exact ⟨hp, ho⟩
  | cons s rest ih =>
    obtain ⟨data, keys⟩ := s
    have h := ha (fun _ k => pmean fun d => (valGrad params keys data d).2 k) params opt data
      (fun d => (valGrad params keys data d).1) (fun _ _ => rfl) hp ho
    exact ih _ _ (fun d d' => congrArg Prod.fst (h d d')) fun d d' => congrArg Prod.snd (h d d')

omit [Fintype K] in
theorem optax_keeps_replicas {S Dat Aux : Type*}
    (update : (K → ℝ) → S → (K → ℝ) → (K → ℝ) × S) :
    KeepsReplicas (optaxApply (D := D) (Dat := Dat) (Aux := Aux) update) := by
  intro grad params opt data aux hg hp ho d d'
  unfold optaxApply
  rw [hg d d', hp d d', ho d d']

theorem sr_keeps_replicas [DecidableEq K] {S Dat Aux : Type*} (mode : SRMode) (damping : ℝ)
    (maxiter : Option ℕ) (normConstraint : ℝ) (schedule : ℕ → ℝ) (stepCount : S → ℕ) (hn : 0 < n)
    (jac : (K → ℝ) → Dat → Fin n → K → ℝ)
    (update : (K → XR) → S → (K → ℝ) → (K → ℝ) × S) :
    KeepsReplicas (srApply (D := D) (Dat := Dat) (Aux := Aux) mode damping maxiter normConstraint
      schedule stepCount jac update) := by
  intro grad params opt data aux hg hp ho d d'
  have hpre := cg_replicated mode damping maxiter hn (fun d => jac (params d) (data d)) grad hg d d'
  have hc : constrainNorm grad
      (preconditionGrad mode damping maxiter (fun d => jac (params d) (data d)) grad)
      (fun d => schedule (stepCount (opt d))) normConstraint d =
    constrainNorm grad
      (preconditionGrad mode damping maxiter (fun d => jac (params d) (data d)) grad)
      (fun d => schedule (stepCount (opt d))) normConstraint d' := by
    funext k
    unfold constrainNorm
    rw [hpre]
  unfold srApply
  simp only [hc, hp d d', ho d d']

/-- C56 for Adam, SGD and stochastic reconfiguration: parameters and optimizer states which are
identical on all devices stay identical over any number of updates.  Not for SPRING, see
`spring_replicas_diverge`; KFAC's step is a library call which is not modelled. -/
theorem updates_stay_replicated_partial [DecidableEq K] {S Dat Key Aux : Type*}
    (valGrad : (Fin D → K → ℝ) → (Fin D → Key) → (Fin D → Dat) → Fin D → Aux × (K → ℝ))
    (apply : OptimizerApply D K S Dat Aux)
    (ha : (∃ update, apply = optaxApply update) ∨
      ∃ (n : ℕ) (mode : SRMode) (damping : ℝ) (maxiter : Option ℕ) (c : ℝ) (schedule : ℕ → ℝ)
        (stepCount : S → ℕ) (jac : (K → ℝ) → Dat → Fin n → K → ℝ)
        (update : (K → XR) → S → (K → ℝ) → (K → ℝ) × S), 0 < n ∧
        apply = srApply mode damping maxiter c schedule stepCount jac update)
    (steps : List ((Fin D → Dat) × (Fin D → Key))) (params : Fin D → K → ℝ) (opt : Fin D → S)
    (hp : SameOnAllDevices params) (ho : SameOnAllDevices opt) :
    SameOnAllDevices (gradUpdates valGrad apply steps params opt).1 ∧
      SameOnAllDevices (gradUpdates valGrad apply steps params opt).2 := by
  refine gradUpdates_replicated valGrad apply ?_ steps params opt hp ho
  rcases ha with ⟨update, rfl⟩ | ⟨n, mode, damping, maxiter, c, schedule, stepCount, jac, update,
    hn, rfl⟩
  · exact optax_keeps_replicas update
  · exact sr_keeps_replicas mode damping maxiter c schedule stepCount hn jac update

/-- Plain gradient descent on two devices with different data. -/
example : SameOnAllDevices (gradUpdates (D := 2) (K := Fin 1) (Key := Unit) (Aux := Unit)
    (fun p _ data d => ((), fun k => data d * p d k)) (optaxApply fun g s _ =>
      (fun k => -(0.1 : ℝ) * g k, s)) [(![1, 2], fun _ => ()), (![3, 4], fun _ => ())]
    (fun _ _ => 1) (fun _ => ())).1 :=
  (gradUpdates_replicated _ _ (optax_keeps_replicas _) _ _ _ (fun _ _ => rfl) fun _ _ => rfl).1

/-- If the gradients were not averaged over the devices, one step would be enough to separate
them. -/
example : ¬ SameOnAllDevices (optaxApply (D := 2) (K := Fin 1) (Dat := Unit) (Aux := Unit)
    (fun g s _ => (fun k => -(0.1 : ℝ) * g k, s)) (fun d _ => ![1, 2] d) (fun _ _ => 1)
    (fun _ => ()) (fun _ => ()) fun _ => ()) := by
  intro h
  have := congrFun (congrArg Prod.fst (h 0 1)) 0
  simp [optaxApply] at this
  norm_num at this

/-- C56 fails for SPRING: every device solves its own least-squares problem and the results are
not averaged.  Two devices with two walkers each; the log-derivative is `±1` on the first device
and 0 on the second.  After one update the parameters differ, with and without norm
constraint. -/
theorem spring_replicas_diverge (mu lr : ℝ) (hlr : lr ≠ 0) (normConstraint : Option ℝ)
    (hc : ∀ c, normConstraint = some c → 0 < c) :
    let jac : (Fin 1 → ℝ) → ℝ → Fin 2 → Fin 1 → ℝ := fun _ a i _ => ![a, -a] i
    let r := gradUpdates (D := 2) (K := Fin 1) (Key := Unit)
      (fun _ _ _ _ => (![1, -1], fun _ => 0))
      (springApply 1 mu 0 normConstraint (fun _ => lr) jac) [(![1, 0], fun _ => ())]
      (fun _ _ => 0) (fun _ => ⟨fun _ => 0, 0⟩)
    ¬ SameOnAllDevices r.1 := by
  intro jac r hr
  have hdir : ∀ a : ℝ, (a ^ 2 + 1) * springUpdate (n := 2) (K := Fin 1) 1 mu 0
      (fun i _ => ![a, -a] i) ![1, -1] (fun _ => 0) 0 = a := by
    intro a
    have h := spring_normal (n := 2) (K := Fin 1) one_pos mu (fun i _ => ![a, -a] i) ![1, -1]
      (fun _ => 0) 0
    have h2 : (Real.sqrt 2) ^ 2 = 2 := Real.sq_sqrt (by norm_num)
    have hne : Real.sqrt 2 ≠ 0 := by positivity
    simp [springO_eq, Fin.sum_univ_two] at h
    field_simp at h
    rw [h2] at h
    linarith
  have h1 := hdir 1
  have h0 := hdir 0
  norm_num at h1 h0
  set g := fun d => springUpdate (n := 2) (K := Fin 1) 1 mu 0 (jac (fun _ => 0) (![1, 0] d))
    ![1, -1] (fun _ => 0) with hg
  have hg0 : g 0 0 = 1 / 2 := by
    have : g 0 0 = springUpdate (n := 2) (K := Fin 1) 1 mu 0 (fun i _ => ![(1 : ℝ), -1] i)
      ![1, -1] (fun _ => 0) 0 := rfl
    rw [this]
    linarith
  have hg1 : g 1 0 = 0 := by
    have : g 1 0 = springUpdate (n := 2) (K := Fin 1) 1 mu 0 (fun i _ => ![(0 : ℝ), -0] i)
      ![1, -1] (fun _ => 0) 0 := rfl
    rw [this, neg_zero]
    exact h0
  have hdd := congrFun (hr 0 1) 0
  cases normConstraint with
  | none =>
    have e0 : r.1 0 0 = 0 + -lr * g 0 0 := rfl
    have e1 : r.1 1 0 = 0 + -lr * g 1 0 := rfl
    rw [e0, e1, hg0, hg1] at hdd
    apply hlr
    linarith
  | some c =>
    obtain ⟨a, ha, -, hall, -, -⟩ := spring_constraint (fun d k => -lr * g d k) (hc c rfl)
    have e0 : r.1 0 0 = 0 + toReal (constrainNormSpring (fun d k => -lr * g d k) c 0 0) := rfl
    have e1 : r.1 1 0 = 0 + toReal (constrainNormSpring (fun d k => -lr * g d k) c 1 0) := rfl
    rw [e0, e1, hall, hall, hg0, hg1] at hdd
    simp only [toReal] at hdd
    apply hlr
    have : a * lr = 0 := by linarith
    exact (mul_eq_zero.1 this).resolve_left ha.ne'

end Replication

end Verif.Props
