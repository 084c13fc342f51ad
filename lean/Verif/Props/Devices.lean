import Verif.Model.Training
import Verif.Props.Gradient
import Verif.Props.Updates
import Verif.Props.Optimizers

/-! Training on several devices (C93). -/

namespace Verif.Props

open Verif.Updates Verif.Spec Verif.Energy

variable {K X : Type} [Fintype K] {D n : ℕ}

/-! ### C93 -/

/-- The walkers of one device distributed to `D` devices with `n` walkers each: consecutive walkers
stay together. -/
def distributed (x : Fin (D * n) → X) (d : Fin D) (i : Fin n) : X := x (finProdFinEquiv (d, i))

/-- All walkers on one device. -/
def together (x : Fin (D * n) → X) : Fin 1 → Fin (D * n) → X := fun _ => x

theorem ofFn_distributed (x : Fin (D * n) → X) :
    (List.ofFn fun d => List.ofFn fun i => distributed x d i).flatten = List.ofFn x := by
  rw [List.ofFn_mul]
  congr 2
  funext d
  congr 1
  funext i
  unfold distributed
  congr 1
  apply Fin.ext
  simp [finProdFinEquiv, mul_comm, add_comm]

/-- This is what `reshape_data_leaves_for_distribution` does. -/
theorem reshape_distributed (hD : 0 < D) (x : Fin (D * n) → X) :
    reshapeForDistribution D (List.ofFn x) =
      .ok (List.ofFn fun d => List.ofFn fun i => distributed x d i) := by
  unfold reshapeForDistribution
  rw [if_neg (by simp), List.length_ofFn, Nat.mul_div_cancel_left n hD]
  congr 1
  apply List.ext_getElem
  · simp
  · intro d h1 h2
    have hd : d < D := by simpa using h2
    simp only [List.getElem_map, List.getElem_range, List.getElem_ofFn]
    apply List.ext_getElem
    · have : (d + 1) * n ≤ D * n := Nat.mul_le_mul_right n hd
      rw [Nat.succ_mul] at this
      simp only [List.length_take, List.length_drop, List.length_ofFn]
      omega
    · intro i h3 h4
      simp only [List.getElem_take, List.getElem_drop, List.getElem_ofFn, distributed]
      congr 1
      apply Fin.ext
      simp [finProdFinEquiv, mul_comm, add_comm]

theorem add_fin {a b : XR} {v : ℝ} (h : a + b = .fin v) : ∃ x y, a = .fin x ∧ b = .fin y := by
  cases a <;> cases b <;> first | exact ⟨_, _, rfl, rfl⟩ | cases h

theorem sum_fin {l : List XR} {v : ℝ} (h : l.sum = .fin v) : ∃ r : List ℝ, l = r.map XR.fin := by
  induction l generalizing v with
  | nil => exact ⟨[], rfl⟩
  | cons a t ih =>
    rw [List.sum_cons] at h
    obtain ⟨x, y, rfl, hy⟩ := add_fin h
    obtain ⟨r, rfl⟩ := ih hy
    exact ⟨x :: r, rfl⟩

theorem div_ofNat_fin {a : XR} {m : ℕ} {v : ℝ} (h : a / XR.ofNat m = .fin v) :
    ∃ x, a = .fin x := by
  have hm' : (0 : ℝ) ≤ m := Nat.cast_nonneg m
  cases a with
  | fin x => exact ⟨x, rfl⟩
  | nan => simp at h
  | pinf =>
    change (if (0 : ℝ) ≤ m then XR.pinf else XR.ninf) = _ at h
    rw [if_pos hm'] at h
    cases h
  | ninf =>
    change (if (0 : ℝ) ≤ m then XR.ninf else XR.pinf) = _ at h
    rw [if_pos hm'] at h
    cases h

theorem pmean_toReal (l : List XR) (hl : l.length = D) (hD : 0 < D) {v : ℝ}
    (h : Energy.pmean l = .fin v) :
    Updates.pmean (fun d : Fin D => toReal (l.getD d .nan)) = v := by
  obtain ⟨x, hx⟩ := div_ofNat_fin h
  obtain ⟨r, rfl⟩ := sum_fin hx
  have hr : r.length = D := by simpa using hl
  have hm := mean_fin r (by intro h0; rw [h0] at hr; simp at hr; omega)
  have : avgL r = v := by
    have h2 : Energy.mean (r.map XR.fin) = .fin v := h
    rw [hm] at h2
    exact XR.fin_inj.1 h2
  rw [← this]
  unfold Updates.pmean avgL
  subst hr
  congr 1
  rw [← List.sum_ofFn]
  congr 1
  apply List.ext_getElem
  · simp
  · intro i h1 h2
    simp [List.getD_eq_getElem?_getD, toReal]

omit [Fintype K] in
/-- The gradient which the code should compute from a list of walkers: C33. -/
noncomputable def expectedGrad (t : EnergyType) (ws : List (RealWalker K)) (k : K) : ℝ :=
  match t with
  | .ibp => covGrad (ws.map fun w => (w.eloc, w.gradLogPsi k)) + avgL (ws.map fun w => w.gradEloc k)
  | _ => covGrad (ws.map fun w => (w.eloc, w.gradLogPsi k))

omit [Fintype K] in
theorem layout_of_data (w : X → RealWalker K) (hD : 0 < D) (hn : 0 < n)
    (data : Fin D → Fin n → X) :
    IsLayout ((List.ofFn fun d => List.ofFn fun i => data d i).flatten.map w)
      (List.ofFn fun d => List.ofFn fun i => w (data d i)) n := by
  refine ⟨?_, ?_, hn, ?_⟩
  · rw [List.map_flatten, List.map_ofFn]
    congr 2
    funext d
    simp [Function.comp, List.map_ofFn]
    rfl
  · intro h0
    have := congrArg List.length h0
    simp at this
    omega
  · intro r hr
    obtain ⟨d, rfl⟩ := (List.mem_ofFn' _ _).1 hr
    simp

omit [Fintype K] in
theorem length_of_data (w : X → RealWalker K) (data : Fin D → Fin n → X) :
    ((List.ofFn fun d => List.ofFn fun i => data d i).flatten.map w).length = D * n := by
  simp [List.length_flatten, List.map_ofFn, Function.comp_def]

omit [Fintype K] in
/-- The gradient handed to the optimizer, averaged over the devices. -/
theorem energyValGrad_pmean (c : TrainingConfig) (w : (K → ℝ) → X → RealWalker K) (hD : 0 < D)
    (p : K → ℝ) (keys : Fin D → Unit) (data : Fin D → Fin n → X) (k : K) {v : ℝ}
    (hval : meanGrad (valueAndGrad c.energyType
      ((List.ofFn fun d => List.ofFn fun i => data d i).flatten.map (w p)).length
      (getClippingFn c.clipThreshold c.clipCenter) c.nanSafe
      ((List.ofFn fun d => List.ofFn fun i => w p (data d i)).map fun l =>
        l.map RealWalker.toX)).2.2 k = .fin v) :
    (Updates.pmean fun d => (energyValGrad c (fun p x => (w p x).toX) (fun _ => p) keys data d).2 k)
      = v := by
  rw [length_of_data] at hval
  have hx : (List.ofFn fun d => List.ofFn fun i => (w p (data d i)).toX) =
      (List.ofFn fun d => List.ofFn fun i => w p (data d i)).map fun l =>
        l.map RealWalker.toX := by
    rw [List.map_ofFn]
    congr 1
    funext d
    simp [Function.comp, List.map_ofFn]
    rfl
  unfold energyValGrad
  simp only
  rw [hx]
  set devs : List (List (RealWalker K)) := List.ofFn fun d => List.ofFn fun i => w p (data d i)
    with hdevs
  set r := valueAndGrad c.energyType (D * n) (getClippingFn c.clipThreshold c.clipCenter)
    c.nanSafe (devs.map fun l => l.map RealWalker.toX) with hr
  have hlen2 : r.2.2.length = D := by
    have hd : devs.length = D := by simp [hdevs]
    rw [hr]
    cases c.energyType <;> cases getClippingFn c.clipThreshold c.clipCenter <;>
      simp [valueAndGrad, getClipped, hd]
  have := pmean_toReal (D := D) (r.2.2.map fun g : K → XR => g k) (by simpa using hlen2) hD hval
  rw [← this]
  congr 1
  funext d
  congr 1
  simp only [List.getD_eq_getElem?_getD, List.getElem?_map]
  cases r.2.2[(d : ℕ)]? <;> rfl

omit [Fintype K] in
theorem energyValGrad_mean (c : TrainingConfig)
    (hclip : c.energyType = .ibp ∨ c.clipThreshold ≤ 0) (w : (K → ℝ) → X → RealWalker K)
    (hD : 0 < D) (hn : 0 < n) (h2 : 2 ≤ D * n) (p : K → ℝ) (keys : Fin D → Unit)
    (data : Fin D → Fin n → X) (k : K) :
    (Updates.pmean fun d => (energyValGrad c (fun p x => (w p x).toX) (fun _ => p) keys data d).2 k) =
      expectedGrad c.energyType
        ((List.ofFn fun d => List.ofFn fun i => data d i).flatten.map (w p)) k := by
  have hlay := layout_of_data (w p) hD hn data
  have hlen := length_of_data (w p) data
  refine energyValGrad_pmean c w hD p keys data k ?_
  cases ht : c.energyType with
  | ibp => exact gradient_generic c.nanSafe _ _ _ n hlay (by omega) k
  | standard =>
    rw [ht] at hclip
    have : getClippingFn c.clipThreshold c.clipCenter = none := by
      unfold getClippingFn
      rw [if_neg (not_lt.2 (hclip.resolve_left (by simp)))]
    rw [this]
    exact gradient_is_covariance_partial .standard (by simp) c.nanSafe _ _ n hlay (by omega) k
  | randomParticle =>
    rw [ht] at hclip
    have : getClippingFn c.clipThreshold c.clipCenter = none := by
      unfold getClippingFn
      rw [if_neg (not_lt.2 (hclip.resolve_left (by simp)))]
    rw [this]
    exact gradient_is_covariance_partial .randomParticle (by simp) c.nanSafe _ _ n hlay
      (by omega) k

theorem walkerMean_distributed (f : Fin (D * n) → ℝ) :
    walkerMean (D := D) (n := n) (fun d i => distributed f d i) = walkerMean (together f) := by
  unfold walkerMean distributed together
  rw [Fin.sum_univ_one, ← Fintype.sum_prod_type', Equiv.sum_comp finProdFinEquiv f, one_mul]

omit [Fintype K] in
theorem dampedFisher_distributed [DecidableEq K] (damping : ℝ) (J : Fin (D * n) → K → ℝ) :
    dampedFisher (D := D) (n := n) damping (distributed J) = dampedFisher damping (together J) := by
  funext k l
  unfold dampedFisher fisher walkerCov
  have h : ∀ f : (K → ℝ) → ℝ, walkerMean (D := D) (n := n) (fun d i => f (distributed J d i)) =
      walkerMean (fun d i => f (together J d i)) := fun f =>
    walkerMean_distributed fun j => f (J j)
  have hk := h fun g => 2 * g k
  have hl := h fun g => 2 * g l
  rw [hk, hl]
  rw [h fun g => (2 * g k - walkerMean fun d i => 2 * together J d i k) *
    (2 * g l - walkerMean fun d i => 2 * together J d i l)]

theorem precondition_distributed (mode : SRMode) (damping : ℝ) (maxiter : Option ℕ)
    (hD : 0 < D) (hn : 0 < n) (J : Fin (D * n) → K → ℝ) (g : K → ℝ) (d : Fin D) :
    preconditionGrad mode damping maxiter (distributed J) (fun _ => g) d =
      preconditionGrad mode damping maxiter (together J) (fun _ => g) 0 := by
  classical
  obtain ⟨j, hj, h1, h2, h3⟩ := precondition_eq (damping := damping) mode maxiter hD hn
    (distributed J) g
  obtain ⟨i, hi, h4, h5, h6⟩ := precondition_eq (damping := damping) mode maxiter Nat.one_pos
    (Nat.mul_pos hD hn) (together J) g
  rw [dampedFisher_distributed] at h1 h2 h3
  have : j = i := by
    rcases lt_trichotomy j i with h | h | h
    · rcases h3 with h3 | h3
      · omega
      · exact absurd (h5 j h) (not_lt.2 h3)
    · exact h
    · rcases h6 with h6 | h6
      · omega
      · exact absurd (h2 i h) (not_lt.2 h6)
  rw [h1, h4, this]

/-- The same update on `D` devices with `n` walkers each and on one device with all walkers, when
gradients, parameters and optimizer states are the same everywhere. -/
def SameOnOneDevice {S Aux Aux' : Type} (applyD : OptimizerApply D K S (Fin n → X) Aux)
    (apply1 : OptimizerApply 1 K S (Fin (D * n) → X) Aux') : Prop :=
  ∀ g p s x aux aux' d, applyD (fun _ => g) (fun _ => p) (fun _ => s) (distributed x) aux d =
    apply1 (fun _ => g) (fun _ => p) (fun _ => s) (together x) aux' 0

omit [Fintype K] in
theorem gradUpdates_distributed {S : Type} (c : TrainingConfig)
    (hclip : c.energyType = .ibp ∨ c.clipThreshold ≤ 0) (w : (K → ℝ) → X → RealWalker K)
    (hD : 0 < D) (hn : 0 < n) (h2 : 2 ≤ D * n)
    (applyD : OptimizerApply D K S (Fin n → X) (Fin n → ℝ))
    (apply1 : OptimizerApply 1 K S (Fin (D * n) → X) (Fin (D * n) → ℝ))
    (h : SameOnOneDevice applyD apply1) (steps : List (Fin (D * n) → X)) (p : K → ℝ) (s : S) :
    ∃ p' : K → ℝ,
      (gradUpdates (energyValGrad c fun p x => (w p x).toX) applyD
        ((steps.map distributed).map fun x => (x, fun _ => ())) (fun _ => p) fun _ => s).1 =
        (fun _ => p') ∧
      (gradUpdates (energyValGrad c fun p x => (w p x).toX) apply1
        ((steps.map together).map fun x => (x, fun _ => ())) (fun _ => p) fun _ => s).1 =
        fun _ => p' := by
  induction steps generalizing p s with
  | nil => exact ⟨p, rfl, rfl⟩
  | cons x rest ih =>
    have hg : (fun (_ : Fin D) k => Updates.pmean fun d => (energyValGrad c
        (fun p x => (w p x).toX) (fun _ => p) (fun _ => ()) (distributed x) d).2 k) =
        fun _ => expectedGrad c.energyType ((List.ofFn x).map (w p)) := by
      funext _ k
      rw [energyValGrad_mean c hclip w hD hn h2, ofFn_distributed]
    have hg1 : (fun (_ : Fin 1) k => Updates.pmean fun d => (energyValGrad c
        (fun p x => (w p x).toX) (fun _ => p) (fun _ => ()) (together x) d).2 k) =
        fun _ => expectedGrad c.energyType ((List.ofFn x).map (w p)) := by
      funext _ k
      rw [energyValGrad_mean c hclip w Nat.one_pos (Nat.mul_pos hD hn) (by omega)]
      congr 2
      simp [together]
    simp only [List.map_cons, gradUpdates, gradUpdate]
    rw [hg, hg1]
    set g := expectedGrad c.energyType ((List.ofFn x).map (w p))
    set a1 := apply1 (fun _ => g) (fun _ => p) (fun _ => s) (together x) (fun d => (energyValGrad c
        (fun p x => (w p x).toX) (fun _ => p) (fun _ => ()) (together x) d).1) with ha1
    have hall : ∀ d, applyD (fun _ => g) (fun _ => p) (fun _ => s) (distributed x)
        (fun d => (energyValGrad c (fun p x => (w p x).toX) (fun _ => p) (fun _ => ())
          (distributed x) d).1) d = a1 0 := fun d => h _ _ _ _ _ _ d
    have h1 : ∀ d, a1 d = a1 0 := fun d => by rw [Subsingleton.elim d 0]
    simp only [hall, h1]
    exact ih (a1 0).1 (a1 0).2

omit [Fintype K] in
theorem plain_sameOnOneDevice (descent : Descent) :
    SameOnOneDevice (K := K) (X := X) (D := D) (n := n) (Aux := Fin n → ℝ)
      (Aux' := Fin (D * n) → ℝ) (plainRuleApply descent) (plainRuleApply descent) :=
  fun _ _ _ _ _ _ _ => rfl

theorem sr_sameOnOneDevice (hD : 0 < D) (hn : 0 < n) (mode : SRMode) (damping : ℝ)
    (maxiter : Option ℕ) (normConstraint : ℝ) (schedule : ℕ → ℝ) (descent : Descent)
    (walker : (K → ℝ) → X → Walker K) :
    SameOnOneDevice (X := X) (D := D) (n := n) (Aux := Fin n → ℝ) (Aux' := Fin (D * n) → ℝ)
      (srRuleApply mode damping maxiter normConstraint schedule descent (walkerJac walker))
      (srRuleApply mode damping maxiter normConstraint schedule descent (walkerJac walker)) := by
  intro g p s x aux aux' d
  have hpre : ∀ d, preconditionGrad mode damping maxiter
      (fun d => walkerJac walker p (distributed x d)) (fun _ => g) d =
      preconditionGrad mode damping maxiter (fun d => walkerJac walker p (together x d))
        (fun _ => g) 0 := fun d =>
    precondition_distributed mode damping maxiter hD hn
      (fun j => fun k => toReal ((walker p (x j)).gradLogPsi k)) g d
  have hc : constrainNorm (fun _ => g) (preconditionGrad mode damping maxiter
      (fun d => walkerJac walker p (distributed x d)) (fun _ => g))
      (fun _ => schedule s.stepCount) normConstraint d =
      constrainNorm (fun _ => g) (preconditionGrad mode damping maxiter
      (fun d => walkerJac walker p (together x d)) (fun _ => g))
      (fun _ => schedule s.stepCount) normConstraint 0 := by
    funext k
    unfold constrainNorm Updates.pmean
    simp only [hpre, Finset.sum_const, Finset.card_univ, Fintype.card_fin, nsmul_eq_mul,
      Fin.sum_univ_one, Nat.cast_one, div_one]
    rw [mul_div_cancel_left₀ _ (by exact_mod_cast hD.ne')]
  unfold srRuleApply srApply
  simp only [hc]

/-- C93 as stated: whatever the configuration (KFAC is not modelled), training on `D` devices
leaves the same parameters on every device as training on one device with the same walkers. -/
def TrainingDeviceIndependent (c : TrainingConfig) : Prop :=
  ∀ (K X : Type) [Fintype K] (w : (K → ℝ) → X → RealWalker K) (D n : ℕ), 0 < D → 0 < n →
    2 ≤ D * n → ∀ (steps : List (Fin (D * n) → X)) (p : K → ℝ), ∃ p' : K → ℝ,
      trainParams c (fun p x => (w p x).toX) (steps.map (distributed (D := D) (n := n))) p =
        .ok (fun _ => p') ∧
      trainParams c (fun p x => (w p x).toX) (steps.map together) p = .ok fun _ => p'

/-- C93 for Adam, SGD and stochastic reconfiguration without clipping, or with the
integration-by-parts estimator, which is never clipped.  Missing: clipping
(`clipped_training_depends_on_devices`) and SPRING (`spring_depends_on_devices`), where the claim
is false. -/
theorem training_device_independent_partial (c : TrainingConfig)
    (hr : ∃ rule, getUpdateRule c.optimizer = .ok rule)
    (hopt : c.optimizer.optimizerType ≠ "kfac" ∧ c.optimizer.optimizerType ≠ "spring")
    (hclip : c.energyType = .ibp ∨ c.clipThreshold ≤ 0) : TrainingDeviceIndependent c := by
  intro K X _ w D n hD hn h2 steps p
  obtain ⟨rule, hr⟩ := hr
  have hrule : (∃ descent, rule = .plain descent) ∨ ∃ mode damping maxiter nc schedule descent,
      rule = .sr mode damping maxiter nc schedule descent := by
    by_cases hsr : c.optimizer.optimizerType = "sr"
    · obtain ⟨mode, schedule, -, h⟩ := sr_rule c.optimizer hsr hr
      rcases h with ⟨-, rfl⟩ | ⟨-, rfl⟩ <;> exact .inr ⟨_, _, _, _, _, _, rfl⟩
    · refine .inl ?_
      unfold getUpdateRule at hr
      cases h1 : c.optimizer.rateSection c.optimizer.optimizerType with
      | error e => rw [h1] at hr; cases hr
      | ok sec =>
        cases h2 : learningRateSchedule sec.scheduleType sec.learningRate sec.learningDecayRate with
        | error e => simp only [h1, h2, bind, Except.bind] at hr; cases hr
        | ok schedule =>
          simp only [h1, h2, bind, Except.bind, if_neg hopt.1, if_neg hopt.2, if_neg hsr] at hr
          split_ifs at hr with h3 h4
          · injection hr with hr; exact ⟨_, hr.symm⟩
          · injection hr with hr; exact ⟨_, hr.symm⟩
  unfold trainParams
  rw [hr]
  rcases hrule with ⟨descent, rfl⟩ | ⟨mode, damping, maxiter, nc, schedule, descent, rfl⟩
  · obtain ⟨p', h1, h2⟩ := gradUpdates_distributed c hclip w hD hn h2 _ _
      (plain_sameOnOneDevice descent) steps p descent.init
    exact ⟨p', congrArg Except.ok h1, congrArg Except.ok h2⟩
  · obtain ⟨p', h1, h2⟩ := gradUpdates_distributed c hclip w hD hn h2 _ _
      (sr_sameOnOneDevice hD hn mode damping maxiter nc schedule descent
        (fun p x => (w p x).toX)) steps p descent.init
    exact ⟨p', congrArg Except.ok h1, congrArg Except.ok h2⟩

/-- Stochastic reconfiguration as configured, without clipping. -/
example (nanSafe : Bool) : TrainingDeviceIndependent
    ⟨exampleConfig "sr" 0, .randomParticle, 0, .mean, nanSafe⟩ :=
  training_device_independent_partial _ (by
    have hm : srModeOf "lazy" = .ok .lazy := by
      unfold srModeOf
      rw [if_pos (by decide +kernel)]
    simp [getUpdateRule, exampleConfig, OptimizerConfig.rateSection, learningRateSchedule, srRule,
      hm, bind, Except.bind]) (by simp [exampleConfig]) (.inr le_rfl)

/-- The walkers of the counterexample: energy 0, or energy 144 and log-derivative 1. -/
def outlierWalker (_ : Unit → ℝ) (x : Bool) : RealWalker Unit :=
  if x then ⟨144, 0, fun _ => 1, fun _ => 0⟩ else ⟨0, 0, fun _ => 0, fun _ => 0⟩

theorem sgd_first_step (t : EnergyType) (thr : ℝ) (center : Center) (nanSafe : Bool)
    (walker : (K → ℝ) → X → Walker K) (x : Fin D → Fin n → X) (p : K → ℝ) :
    trainParams ⟨exampleConfig "sgd" 0, t, thr, center, nanSafe⟩ walker [x] p =
      .ok fun _ k => p k + -(5e-2 : ℝ) * Updates.pmean fun d =>
        (energyValGrad ⟨exampleConfig "sgd" 0, t, thr, center, nanSafe⟩ walker (fun _ => p)
          (fun _ => ()) x d).2 k := by
  have hrule : getUpdateRule (exampleConfig "sgd" 0) =
      .ok (.plain (.sgd (fun t => 5e-2 / (1 + 1e-4 * t)) none false)) := by
    simp [getUpdateRule, exampleConfig, OptimizerConfig.rateSection, learningRateSchedule,
      sgdOptimizer, bind, Except.bind]
  unfold trainParams
  rw [hrule]
  refine congrArg Except.ok ?_
  funext d k
  simp only [List.map_cons, List.map_nil, gradUpdates, gradUpdate, plainRuleApply, optaxApply,
    Descent.init, Descent.update, sgdUpdate, sgdInit, Option.map_none]
  norm_num

/-- Clipping makes the result depend on the number of devices: SGD with the default clipping
(threshold 5 around the mean), twelve walkers of which one is an outlier, one update.  The window
is computed from the walkers of each device: on one device the outlier is clipped, with two devices
it is not. -/
theorem clipped_training_depends_on_devices (nanSafe : Bool) :
    ¬ TrainingDeviceIndependent ⟨exampleConfig "sgd" 0, .standard, 5, .mean, nanSafe⟩ := by
  intro h
  let x : Fin (2 * 6) → Bool := fun j => decide ((j : ℕ) = 11)
  obtain ⟨p', h1, h2⟩ := h Unit Bool outlierWalker 2 6 (by norm_num) (by norm_num) (by norm_num)
    [x] fun _ => 0
  rw [List.map_cons, List.map_nil, sgd_first_step] at h1 h2
  injection h1 with h1
  injection h2 with h2
  have e := (congrFun (congrFun h1 0) ()).trans (congrFun (congrFun h2 0) ()).symm
  have hc : getClippingFn 5 .mean = some (totalVariationClip 5 .mean) := by
    simp [getClippingFn]
  let a : RealWalker Unit := ⟨0, 0, fun _ => 0, fun _ => 0⟩
  let b : RealWalker Unit := ⟨144, 0, fun _ => 1, fun _ => 0⟩
  have hx : (List.ofFn x).map (outlierWalker fun _ => 0) = [a, a, a, a, a, a, a, a, a, a, a, b] :=
    rfl
  have hd : (List.ofFn fun d => List.ofFn fun i => outlierWalker (fun _ => 0)
      (distributed (D := 2) (n := 6) x d i)) = [[a, a, a, a, a, a], [a, a, a, a, a, b]] := rfl
  have ht : (List.ofFn fun d => List.ofFn fun i => outlierWalker (fun _ => 0)
      (together (D := 2) (n := 6) x d i)) = [[a, a, a, a, a, a, a, a, a, a, a, b]] := rfl
  have htx : (List.ofFn fun d => List.ofFn fun i => together (D := 2) (n := 6) x d i).flatten =
      List.ofFn x := by simp [together]
  have hmean : avgL ([a, a, a, a, a, a, a, a, a, a, a, b].map fun w => w.eloc) = 12 := by
    norm_num [avgL, a, b]
  have clipv : ∀ es : List ℝ, es ≠ [] → totalVariationClip 5 .mean (es.map XR.fin) (.fin 12) =
      (es.map fun e => min (12 + 5 * meanAbsDev es 12) (max (12 - 5 * meanAbsDev es 12) e)).map
        XR.fin := fun es hne => clip_value 5 .mean es 12 12 hne rfl
  rw [energyValGrad_pmean (v := 24) _ outlierWalker (by norm_num),
    energyValGrad_pmean (v := 61 / 3) _ outlierWalker (by norm_num)] at e
  · norm_num at e
  · rw [htx, hx, ht]
    simp only [hc]
    rw [gradient_clipped .standard (by simp) nanSafe _ [a, a, a, a, a, a, a, a, a, a, a, b]
      [[a, a, a, a, a, a, a, a, a, a, a, b]] 12 ⟨rfl, by simp, by norm_num, by simp⟩ (by simp)
      [[0, 0, 0, 0, 0, 0, 0, 0, 0, 0, 0, 122]]
      (by simp)]
    · norm_num [covGrad, avgL, a, b]
    · rw [hmean]
      have e1 := clipv [0, 0, 0, 0, 0, 0, 0, 0, 0, 0, 0, 144] (by simp)
      rw [show meanAbsDev [0, 0, 0, 0, 0, 0, 0, 0, 0, 0, 0, 144] 12 = 22 by
        norm_num [meanAbsDev, avgL]] at e1
      simp only [List.map_cons, List.map_nil] at e1 ⊢
      simp only [a, b]
      rw [e1]
      norm_num
  · rw [ofFn_distributed, hx, hd]
    simp only [hc]
    rw [gradient_clipped .standard (by simp) nanSafe _ [a, a, a, a, a, a, a, a, a, a, a, b]
      [[a, a, a, a, a, a], [a, a, a, a, a, b]] 6 ⟨rfl, by simp, by norm_num, by simp⟩ (by simp)
      [[0, 0, 0, 0, 0, 0], [0, 0, 0, 0, 0, 144]]
      (by simp)]
    · norm_num [covGrad, avgL, a, b]
    · rw [hmean]
      have e1 := clipv [0, 0, 0, 0, 0, 0] (by simp)
      rw [show meanAbsDev [0, 0, 0, 0, 0, 0] 12 = 12 by
        norm_num [meanAbsDev, avgL]] at e1
      have e2 := clipv [0, 0, 0, 0, 0, 144] (by simp)
      rw [show meanAbsDev [0, 0, 0, 0, 0, 144] 12 = 32 by
        norm_num [meanAbsDev, avgL]] at e2
      simp only [List.map_cons, List.map_nil] at e1 e2 ⊢
      simp only [a, b]
      rw [e1, e2]
      norm_num

/-- SPRING with the norm constraint on or off: configuration of the counterexample. -/
def springConfig (lr : ℝ) (constrain : Bool) : OptimizerConfig :=
  { exampleConfig "spring" 0 with spring := ⟨⟨"constant", lr, 0⟩, 0.99, 0, 1, constrain, 0.001⟩ }

/-- SPRING depends on the number of devices even without clipping: afterwards the devices do not
even agree. -/
theorem spring_depends_on_devices (lr : ℝ) (hlr : lr ≠ 0) (constrain nanSafe : Bool) :
    ¬ TrainingDeviceIndependent ⟨springConfig lr constrain, .standard, 0, .mean, nanSafe⟩ := by
  intro h
  let w : (Fin 1 → ℝ) → ℝ × ℝ → RealWalker (Fin 1) := fun _ x => ⟨x.1, 0, fun _ => x.2, fun _ => 0⟩
  let x : Fin (2 * 2) → ℝ × ℝ := ![(1, 1), (-1, -1), (1, 0), (-1, 0)]
  let c : TrainingConfig := ⟨springConfig lr constrain, .standard, 0, .mean, nanSafe⟩
  obtain ⟨p', h1, -⟩ := h (Fin 1) (ℝ × ℝ) w 2 2 (by norm_num) (by norm_num) (by norm_num)
    [x] fun _ => 0
  have hrule : getUpdateRule (springConfig lr constrain) =
      .ok (.spring 1 0.99 0 (if constrain then some 0.001 else none) fun _ => lr) := by
    simp [getUpdateRule, springConfig, exampleConfig, OptimizerConfig.rateSection,
      learningRateSchedule, bind, Except.bind]
    cases constrain <;> rfl
  have haux : ∀ d, (energyValGrad c (fun p x => (w p x).toX) (fun _ _ => 0) (fun _ => ())
      (distributed (D := 2) (n := 2) x) d).1 = ![1, -1] := by
    have hclip : getClippingFn 0 .mean = none := by simp [getClippingFn]
    have hst := (energy_statistics [1, -1, 1, -1] [[1, -1], [1, -1]] 2 nanSafe
      ⟨rfl, by simp, by norm_num, by simp⟩ (by simp))
    have havg : avgL [(1 : ℝ), -1, 1, -1] = 0 := by norm_num [avgL]
    simp only [List.map_cons, List.map_nil, List.length_cons, List.length_nil, havg] at hst
    have hd : (List.ofFn fun d => List.ofFn fun i => (w (fun _ => 0)
        (distributed (D := 2) (n := 2) x d i)).toX) =
        [[(w 0 (1, 1)).toX, (w 0 (-1, -1)).toX], [(w 0 (1, 0)).toX, (w 0 (-1, 0)).toX]] := rfl
    intro d
    funext i
    simp only [energyValGrad, c, hd, hclip, valueAndGrad, getClipped, List.map_cons, List.map_nil]
    simp only [w, RealWalker.toX]
    rw [hst]
    fin_cases d <;> fin_cases i <;> simp [toReal]
  have hjac : ∀ d, walkerJac (fun p x => (w p x).toX) (fun _ => 0)
      (distributed (D := 2) (n := 2) x d) = fun i _ => ![![1, 0] d, -(![1, 0] d)] i := by
    intro d
    fin_cases d <;> funext i k <;> fin_cases i <;> simp [walkerJac, distributed, x, w,
      RealWalker.toX, toReal, finProdFinEquiv]
  refine spring_replicas_diverge 0.99 lr hlr (if constrain then some 0.001 else none) (by
    cases constrain <;> simp; norm_num) fun d d' => ?_
  have e : ∀ d, (gradUpdates (D := 2) (K := Fin 1) (Key := Unit)
      (fun _ _ _ _ => (![1, -1], fun _ => 0))
      (springApply 1 0.99 0 (if constrain then some 0.001 else none) (fun _ => lr)
        fun _ a i _ => ![a, -a] i) [((![1, 0] : Fin 2 → ℝ), fun _ => ())]
      (fun _ _ => 0) (fun _ => ⟨fun _ => 0, 0⟩)).1 d = p' := by
    intro d
    rw [trainParams, hrule] at h1
    simp only [bind, Except.bind, Except.ok.injEq] at h1
    rw [← congrFun h1 d]
    simp only [gradUpdates, List.map_cons, List.map_nil, gradUpdate]
    have haux' : (fun d => (energyValGrad c (fun p x => (w p x).toX) (fun _ _ => 0) (fun _ => ())
      (distributed (D := 2) (n := 2) x) d).1) = fun _ => ![1, -1] := funext haux
    rw [haux']
    unfold springApply
    simp only [hjac]
  rw [e, e]

end Verif.Props
