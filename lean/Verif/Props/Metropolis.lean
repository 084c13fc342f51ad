import Verif.Lemmas.Metropolis
import Verif.Props.Loop

/-!
Property theorems about the Metropolis walk: C16-C18 (acceptance rule), C20-C22 (steps,
walking, burning), C23-C24 (adaptive step width).  C19 is in `Props/Invariance.lean`.
-/

namespace Verif.Props
open Spec MCMC

/-! ### C16 -/

/-- C16, plain amplitudes: always a probability (never nan), 1 for moves that do not lower
`|psi|`, and independent of the signs. -/
theorem accept_plain_is_probability (a b : ℝ) :
    IsProb (acceptPlain (.fin a) (.fin b)) ∧
    (|a| ≤ |b| → acceptPlain (.fin a) (.fin b) = .fin 1) ∧
    acceptPlain (.fin (-a)) (.fin b) = acceptPlain (.fin a) (.fin b) ∧
    acceptPlain (.fin a) (.fin (-b)) = acceptPlain (.fin a) (.fin b) := by
  refine ⟨⟨_, acceptPlain_fin a b, ?_⟩, ?_, ?_, ?_⟩
  · split_ifs with h
    · norm_num
    · push Not at h
      exact sq_div_le_one h.2 (not_lt.mpr h.1)
  · intro h
    rw [acceptPlain_fin]
    have h2 : a * a ≤ b * b := abs_le_abs_iff_mul_self_le.mp h
    congr 1
    split_ifs with h3
    · rfl
    · push Not at h3
      have : b * b = a * a := le_antisymm h3.1 h2
      rw [this, div_self h3.2]
  · simp [acceptPlain_fin]
  · simp [acceptPlain_fin]
where
  abs_le_abs_iff_mul_self_le {a b : ℝ} : |a| ≤ |b| ↔ a * a ≤ b * b := by
    rw [← sq_le_sq, sq, sq]

/-- C16, log amplitudes, any values: the acceptance is a probability or nan; it is nan
exactly when an input is nan or both are the same infinity; and unless nan it is 1 for moves
that do not lower `log|psi|`. -/
theorem accept_log_is_probability (a b : XR) :
    (acceptLog a b = .nan ∨ IsProb (acceptLog a b)) ∧
    (acceptLog a b = .nan ↔ a = .nan ∨ b = .nan ∨ (a = .ninf ∧ b = .ninf) ∨
      (a = .pinf ∧ b = .pinf)) ∧
    (acceptLog a b ≠ .nan → XR.le a b → acceptLog a b = .fin 1) := by
  have one : IsProb (.fin 1) := ⟨1, rfl, by norm_num, le_rfl⟩
  have zero : IsProb (.fin 0) := ⟨0, rfl, le_rfl, by norm_num⟩
  cases a with
  | nan => simp [acceptLog_nan_left]
  | ninf =>
    cases b with
    | nan => simp [acceptLog_nan_right]
    | ninf => simp [acceptLog_ninf_ninf]
    | fin b => simp [acceptLog_ninf_fin, one]
    | pinf => simp [acceptLog_ninf_pinf, one]
  | fin a =>
    cases b with
    | nan => simp [acceptLog_nan_right]
    | ninf => simp [acceptLog_fin_ninf, zero, XR.le]
    | fin b =>
      rw [acceptLog_fin]
      refine ⟨Or.inr ⟨_, rfl, ?_⟩, by simp, ?_⟩
      · split_ifs with h
        · norm_num
        · refine ⟨(Real.exp_pos _).le, ?_⟩
          rw [← Real.exp_zero]
          exact Real.exp_le_exp.mpr (by linarith [not_lt.mp h])
      · intro _ h
        rw [XR.fin_le] at h
        congr 1
        split_ifs with h2
        · rfl
        · rw [le_antisymm h (not_lt.mp h2)]; simp
    | pinf => simp [acceptLog_fin_pinf, one]
  | pinf =>
    cases b with
    | nan => simp [acceptLog_nan_right]
    | ninf => simp [acceptLog_pinf_ninf, zero, XR.le]
    | fin b => simp [acceptLog_pinf_fin, zero, XR.le]
    | pinf => simp [acceptLog_pinf_pinf]

/-- C16, finite log amplitudes: never nan. -/
theorem accept_log_finite (a b : ℝ) : IsProb (acceptLog (.fin a) (.fin b)) := by
  rcases (accept_log_is_probability (.fin a) (.fin b)).1 with h | h
  · have := (accept_log_is_probability (.fin a) (.fin b)).2.1.mp h
    simp at this
  · exact h

/-- A move from a node (psi = 0) and an ordinary downhill move. -/
example : acceptPlain (.fin 0) (.fin (-3)) = .fin 1 ∧
    acceptPlain (.fin (-2)) (.fin 1) = .fin (1 / 4) ∧ acceptLog .ninf (.fin 7) = .fin 1 := by
  refine ⟨by simp [acceptPlain_fin], ?_, acceptLog_ninf_fin 7⟩
  rw [acceptPlain_fin]; norm_num

/-! ### C17 -/

/-- C17, plain amplitudes. -/
theorem detailed_balance_plain (a b : ℝ) :
    XR.fin (a ^ 2) * acceptPlain (.fin a) (.fin b) =
      XR.fin (b ^ 2) * acceptPlain (.fin b) (.fin a) := by
  rw [acceptPlain_fin, acceptPlain_fin, XR.fin_mul, XR.fin_mul, XR.fin_inj]
  rcases lt_trichotomy (a * a) (b * b) with h | h | h
  · have hb : b * b ≠ 0 := by nlinarith [mul_self_nonneg a]
    rw [if_pos (Or.inl h), if_neg (by push Not; exact ⟨h.le, hb⟩)]
    have := mul_self_ne_zero.mp hb
    field_simp
  · rw [sq, sq, h]
  · have ha : a * a ≠ 0 := by nlinarith [mul_self_nonneg b]
    rw [if_neg (by push Not; exact ⟨h.le, ha⟩), if_pos (Or.inl h)]
    have := mul_self_ne_zero.mp ha
    field_simp

/-- C17, finite log amplitudes: `|psi|^2 = exp (2 log|psi|)`. -/
theorem detailed_balance_log (a b : ℝ) :
    XR.exp (.fin (2 * a)) * acceptLog (.fin a) (.fin b) =
      XR.exp (.fin (2 * b)) * acceptLog (.fin b) (.fin a) := by
  rw [acceptLog_fin, acceptLog_fin, XR.exp_fin, XR.exp_fin, XR.fin_mul, XR.fin_mul, XR.fin_inj]
  rcases lt_trichotomy a b with h | h | h
  · rw [if_pos h, if_neg (by linarith), ← Real.exp_add, mul_one]; congr 1; ring
  · rw [h]
  · rw [if_pos h, if_neg (by linarith), ← Real.exp_add, mul_one]; congr 1; ring

/-- C17, one side zero (`log|psi| = -inf`): a zero point is never entered from a non-zero
one, and both sides vanish. -/
theorem detailed_balance_log_zero (a : ℝ) :
    XR.exp (.fin (2 * a)) * acceptLog (.fin a) .ninf = .fin 0 ∧
    XR.exp .ninf * acceptLog .ninf (.fin a) = .fin 0 := by
  rw [acceptLog_fin_ninf, acceptLog_ninf_fin]
  constructor
  · simp
  · show XR.fin 0 * XR.fin 1 = _
    simp

example : acceptPlain (.fin 3) (.fin 2) ≠ acceptPlain (.fin 2) (.fin 3) := by
  rw [acceptPlain_fin, acceptPlain_fin]; norm_num

/-! ### C18 -/

/-- C18 as stated, for all pairs of wavefunction values. -/
def AcceptancesAgree : Prop := ∀ x y : ℝ,
  acceptPlain (.fin x) (.fin y) = acceptLog (XR.log (.fin |x|)) (XR.log (.fin |y|))

/-- C18 for every pair of values that are not both zero.
Missing: both values zero, where the log form gives nan (`acceptances_agree_fails`). -/
theorem acceptances_agree_partial (x y : ℝ) (h : x ≠ 0 ∨ y ≠ 0) :
    acceptPlain (.fin x) (.fin y) = acceptLog (XR.log (.fin |x|)) (XR.log (.fin |y|)) := by
  rw [acceptPlain_fin]
  by_cases hx : x = 0
  · subst hx
    have hy : y ≠ 0 := by tauto
    rw [abs_zero, XR.log_zero, XR.log_fin (abs_pos.mpr hy), acceptLog_ninf_fin]
    simp
  by_cases hy : y = 0
  · subst hy
    rw [abs_zero, XR.log_zero, XR.log_fin (abs_pos.mpr hx), acceptLog_fin_ninf]
    have : ¬ (x * x < 0) := not_lt.mpr (mul_self_nonneg x)
    simp [hx, this]
  rw [XR.log_fin (abs_pos.mpr hx), XR.log_fin (abs_pos.mpr hy), acceptLog_fin, XR.fin_inj]
  have hlt : Real.log |x| < Real.log |y| ↔ x * x < y * y := by
    rw [Real.log_lt_log_iff (abs_pos.mpr hx) (abs_pos.mpr hy), ← sq_lt_sq, sq, sq]
  by_cases h1 : x * x < y * y
  · rw [if_pos (Or.inl h1), if_pos (hlt.mpr h1)]
  · rw [if_neg (by push Not; exact ⟨not_lt.mp h1, mul_self_ne_zero.mpr hx⟩),
      if_neg (fun h2 => h1 (hlt.mp h2)), Real.exp_sub]
    have e : ∀ z : ℝ, z ≠ 0 → Real.exp (2 * Real.log |z|) = z * z := by
      intro z hz
      rw [mul_comm, ← Real.rpow_def_of_pos (abs_pos.mpr hz)]
      norm_num [sq]
    rw [e x hx, e y hy]

/-- C18 is false of the code when both values are zero: plain gives 1, log gives nan. -/
theorem acceptances_agree_fails : ¬ AcceptancesAgree := by
  intro h
  have := h 0 0
  rw [abs_zero, XR.log_zero, acceptLog_ninf_ninf, acceptPlain_fin] at this
  exact absurd this (by simp)

example : (3 : ℝ) ≠ 0 ∨ (0 : ℝ) ≠ 0 := Or.inl (by norm_num)

/-! ### C21 -/

section step
variable {P K W X M : Type} [AddCommGroup X] [Module ℝ X]

/-- C21.  In a step every walker `w` moves to its own proposal
`x_w + std * noise_w` (position and amplitude together) exactly when its own uniform draw is
below its own acceptance value, otherwise position and amplitude both stay. -/
theorem stays_or_moves (split : K → K × K) (uniform : K → W → ℝ) (normal : K → W → X)
    (meanFn : (W → XR) → XR) (psi : P → W → X → XR) (getStd : PAData W X M → W → ℝ)
    (updateMeta : Option (M → (W → Prop) → M)) (logabs : Bool) (params : P)
    (data : PAData W X M) (key : K) (w : W) :
    let new := (paStep split uniform normal meanFn psi getStd updateMeta logabs params data
      key).2.1
    let proposed := data.position w + getStd data w • normal (split (split key).1).2 w
    let u := uniform (split key).2 w
    let acc := accept logabs (data.amplitude w) (psi params w proposed)
    (XR.lt (.fin u) acc → new.position w = proposed ∧
      new.amplitude w = psi params w proposed) ∧
    (¬ XR.lt (.fin u) acc → new.position w = data.position w ∧
      new.amplitude w = data.amplitude w) := by
  intro new proposed u acc
  constructor
  · intro h
    constructor
    · exact if_pos h
    · exact if_pos h
  · intro h
    constructor
    · exact if_neg h
    · exact if_neg h

/-- C21, nan: a nan acceptance value never moves the walker. -/
theorem nan_acceptance_stays (split : K → K × K) (uniform : K → W → ℝ) (normal : K → W → X)
    (meanFn : (W → XR) → XR) (psi : P → W → X → XR) (getStd : PAData W X M → W → ℝ)
    (updateMeta : Option (M → (W → Prop) → M)) (logabs : Bool) (params : P)
    (data : PAData W X M) (key : K) (w : W)
    (hnan : accept logabs (data.amplitude w) (psi params w
      (data.position w + getStd data w • normal (split (split key).1).2 w)) = .nan) :
    let new := (paStep split uniform normal meanFn psi getStd updateMeta logabs params data
      key).2.1
    new.position w = data.position w ∧ new.amplitude w = data.amplitude w := by
  refine (stays_or_moves split uniform normal meanFn psi getStd updateMeta logabs params data
    key w).2 ?_
  rw [hnan]
  exact XR.not_lt_nan _

/-- A wavefunction value of nan at the proposal gives a nan acceptance. -/
example (a : XR) : accept true a .nan = .nan := acceptLog_nan_right a

/-! ### C20 -/

/-- C20, one step. -/
theorem step_consistent (split : K → K × K) (uniform : K → W → ℝ) (normal : K → W → X)
    (meanFn : (W → XR) → XR) (psi : P → W → X → XR) (getStd : PAData W X M → W → ℝ)
    (updateMeta : Option (M → (W → Prop) → M)) (logabs : Bool) (params : P)
    (data : PAData W X M) (key : K) (h : Consistent psi params data) :
    Consistent psi params (paStep split uniform normal meanFn psi getStd updateMeta logabs
      params data key).2.1 := by
  intro w
  have hs := stays_or_moves split uniform normal meanFn psi getStd updateMeta logabs params
    data key w
  by_cases hm : XR.lt (.fin (uniform (split key).2 w)) (accept logabs (data.amplitude w)
      (psi params w (data.position w + getStd data w • normal (split (split key).1).2 w)))
  · obtain ⟨h1, h2⟩ := hs.1 hm
    rw [h1, h2]
  · obtain ⟨h1, h2⟩ := hs.2 hm
    rw [h1, h2]
    exact h w

/-- C20.  Start from data made by the runner (amplitudes computed at the initial positions),
burn any number of steps, then train any number of epochs with any optimizer: at the start of
every epoch, after any number of walk steps inside it, and in every checkpoint written, each
stored amplitude is the wavefunction at the stored position with the current parameters. -/
theorem amplitudes_match_positions {S : Type} (split : K → K × K) (uniform : K → W → ℝ)
    (normal : K → W → X) (meanFn : (W → XR) → XR) (psi : P → W → X → XR)
    (getStd : PAData W X M → W → ℝ) (updateMeta : Option (M → (W → Prop) → M))
    (logabs : Bool) (initPos : W → X) (md : M) (p0 : P) (opt0 : S) (key0 : K)
    (nburn nsteps : ℕ) (optStep : P → PAData W X M → S → K → P × S × Metrics) :
    let step := paStep split uniform normal meanFn psi getStd updateMeta logabs
    let burned := burnData (burningStep step) nburn p0 (initialData psi initPos p0 md) key0
    let fns := trainFns nsteps step split optStep psi
    let c : Core P (PAData W X M) S K := ⟨p0, burned.1, opt0, burned.2⟩
    (∀ e j, Consistent psi (traj fns c e).params
      (iterSteps step (traj fns c e).params j ((traj fns c e).data, (traj fns c e).key)).1) ∧
    (∀ cfg start stop x, x ∈ (vmcLoop cfg fns start stop c).ckptQ →
      Consistent psi x.2.params x.2.data) := by
  intro step burned fns c
  have hstep : ∀ p d k, Consistent psi p d → Consistent psi p (step p d k).2.1 :=
    fun p d k h => step_consistent split uniform normal meanFn psi getStd updateMeta logabs
      p d k h
  have hinit : Consistent psi p0 (initialData psi initPos p0 md) := fun w => rfl
  have htraj : ∀ e, Consistent psi (traj fns c e).params (traj fns c e).data := by
    intro e
    induction e with
    | zero =>
      show Consistent psi p0 burned.1
      have : burned = iterSteps step p0 nburn (initialData psi initPos p0 md, key0) :=
        burn_iterSteps step p0 nburn _ key0
      rw [this]
      exact iterSteps_inv step p0 (Consistent psi p0) (hstep p0) nburn _ hinit
    | succ e _ => intro w; rfl
  refine ⟨?_, ?_⟩
  · intro e j
    exact iterSteps_inv step _ (Consistent psi _) (hstep _) j _ (htraj e)
  · intro cfg start stop x hx
    obtain ⟨i, -, h1, -⟩ := vmcLoop_ckpts cfg fns start stop c x hx
    rw [h1]
    exact htraj i

end step

/-- Data that is not consistent exists: the claim is not vacuous. -/
example : ¬ Consistent (P := Unit) (W := Unit) (X := ℝ) (M := Unit) (fun _ _ x => .fin x) ()
    ⟨fun _ => 1, fun _ => .fin 2, ()⟩ := by
  intro h
  have := h ()
  simp at this

/-! ### C22 -/

section walk
variable {P D K : Type}

/-- C22: walking returns data and key of `n` single steps and the mean of their acceptance
values. -/
theorem walk_is_n_steps (step : P → D → K → XR × D × K) (params : P) (n : ℕ) (hn : 1 ≤ n)
    (d : D) (k : K) (a : ℕ → ℝ)
    (ha : ∀ i < n, stepAccept step params (d, k) i = .fin (a i)) :
    walkData n params d k step =
      (.fin ((∑ i ∈ Finset.range n, a i) / n), iterSteps step params n (d, k)) := by
  have h1 := walkData_snd step params n d k
  have h2 := walk_sum step params n (d, k) a ha 0
  have h3 : (walkData n params d k step).1 = .fin ((∑ i ∈ Finset.range n, a i) / n) := by
    simp only [walkData]
    rw [h2, XR.ofNat, XR.fin_div (by positivity), zero_add]
  exact Prod.ext h3 h1

/-- C22: the mean acceptance lies in [0,1] if every acceptance does. -/
theorem walk_accept_is_probability (step : P → D → K → XR × D × K) (params : P) (n : ℕ)
    (hn : 1 ≤ n) (d : D) (k : K)
    (ha : ∀ i < n, IsProb (stepAccept step params (d, k) i)) :
    IsProb (walkData n params d k step).1 := by
  choose! a h1 h2 h3 using ha
  rw [walk_is_n_steps step params n hn d k a h1]
  refine ⟨_, rfl, div_nonneg (Finset.sum_nonneg fun i hi => h2 i (Finset.mem_range.mp hi))
    (by positivity), ?_⟩
  rw [div_le_one (by positivity)]
  calc ∑ i ∈ Finset.range n, a i ≤ ∑ i ∈ Finset.range n, (1 : ℝ) :=
        Finset.sum_le_sum fun i hi => h3 i (Finset.mem_range.mp hi)
    _ = n := by simp

/-- C22: walking `m` and then `n` steps gives the data and key of walking `m + n` steps. -/
theorem walk_append (step : P → D → K → XR × D × K) (params : P) (m n : ℕ) (d : D) (k : K) :
    (walkData (m + n) params d k step).2 =
      (walkData n params (walkData m params d k step).2.1
        (walkData m params d k step).2.2 step).2 := by
  rw [walkData_snd, walkData_snd, walkData_snd, iterSteps_add]

/-- C22: burning `n` steps gives the same data and key as walking `n` steps. -/
theorem burn_is_walk (step : P → D → K → XR × D × K) (params : P) (n : ℕ) (d : D) (k : K) :
    burnData (burningStep step) n params d k = (walkData n params d k step).2 := by
  rw [walkData_snd, burn_iterSteps]

/-- A step with acceptance 1/2 satisfies the hypotheses. -/
example : (walkData 3 () (0 : ℕ) (0 : ℕ) (fun _ d k => (.fin (1 / 2), d + k, k + 1))) =
    (.fin ((∑ _i ∈ Finset.range 3, (1 / 2 : ℝ)) / (3 : ℕ)), (3, 3)) := by
  rw [walk_is_n_steps (fun _ d k => (.fin (1 / 2), d + k, k + 1)) () 3 (by norm_num) 0 0
    (fun _ => 1 / 2) (fun i _ => rfl)]
  rfl

end walk

/-! ### C23 -/

/-- C23 on a sequence of metadata: after `t` moves the counter is `t mod n`, the running sum
is the sum of the acceptances since the last adjustment, and the width is the result of
`t / n` adjustments, each with the mean of its own block of `n` moves. -/
theorem adaptation_every_n_moves (n : ℕ) (hn : 1 ≤ n) (adjust : ℝ → ℝ → ℝ) (a : ℕ → ℝ)
    (w0 : ℝ) (md : ℕ → MoveMetadata) (h0 : md 0 = ⟨w0, 0, 0⟩)
    (hs : ∀ t, md (t + 1) = updateMoveMetadata n adjust (md t) (a t)) (t : ℕ) :
    md t = ⟨widthAfter n adjust a w0 (t / n),
      ∑ i ∈ Finset.range (t % n), a (t / n * n + i), t % n⟩ := by
  induction t with
  | zero => simp [h0, widthAfter]
  | succ t ih =>
    rw [hs, ih]
    have hlt : t % n < n := Nat.mod_lt t hn
    have hdm : n * (t / n) + t % n = t := Nat.div_add_mod t n
    by_cases h : t % n + 1 = n
    · have ht : t + 1 = (t / n + 1) * n := by
        calc t + 1 = n * (t / n) + (t % n + 1) := by omega
          _ = n * (t / n) + n := by rw [h]
          _ = (t / n + 1) * n := by ring
      have hdiv : (t + 1) / n = t / n + 1 := by rw [ht]; exact Nat.mul_div_cancel _ hn
      have hmod : (t + 1) % n = 0 := by rw [ht]; exact Nat.mul_mod_left _ _
      rw [hdiv, hmod]
      simp only [updateMoveMetadata, h, le_refl, if_true, widthAfter, Finset.sum_range_zero]
      congr 2
      congr 1
      · have hx : ∑ i ∈ Finset.range n, a (t / n * n + i) =
            ∑ i ∈ Finset.range (t % n + 1), a (t / n * n + i) := by rw [h]
        rw [hx, Finset.sum_range_succ]
        congr 2
        rw [mul_comm]; exact hdm.symm
    · have hlt2 : t % n + 1 < n := by omega
      have ht : t + 1 = (t % n + 1) + n * (t / n) := by omega
      have hdiv : (t + 1) / n = t / n := by
        rw [ht, Nat.add_mul_div_left _ _ (by omega), Nat.div_eq_of_lt hlt2, zero_add]
      have hmod : (t + 1) % n = t % n + 1 := by
        rw [ht, Nat.add_mul_mod_self_left, Nat.mod_eq_of_lt hlt2]
      rw [hdiv, hmod]
      simp only [updateMoveMetadata, if_neg (by omega : ¬ n ≤ t % n + 1),
        Finset.sum_range_succ]
      congr 3
      rw [mul_comm]; exact hdm.symm

section dyn
variable {P K X : Type} [AddCommGroup X] [Module ℝ X]

/-- Whether walker `w` accepts its move in a step of width `std w` from `data` with `key`
(spelled out as in C21). -/
def Accepts {W M : Type} (split : K → K × K) (uniform : K → W → ℝ) (normal : K → W → X)
    (psi : P → W → X → XR) (logabs : Bool) (params : P) (std : W → ℝ) (data : PAData W X M)
    (key : K) (w : W) : Prop :=
  XR.lt (.fin (uniform (split key).2 w)) (accept logabs (data.amplitude w)
    (psi params w (data.position w + std w • normal (split (split key).1).2 w)))

/-- C23 for the dynamic-width step on one device: along any walk from fresh metadata the
width changes only after moves `n, 2n, ...` and uses the average accepted fraction of exactly
the last `n` moves. -/
theorem dynamic_width_schedule {W : Type} [Fintype W] (split : K → K × K)
    (uniform : K → W → ℝ) (normal : K → W → X) (meanFn : (W → XR) → XR)
    (psi : P → W → X → XR) (n : ℕ) (hn : 1 ≤ n) (adjust : ℝ → ℝ → ℝ) (logabs : Bool)
    (params : P) (s : PAData W X MoveMetadata × K) (w0 : ℝ)
    (h0 : s.1.moveMetadata = ⟨w0, 0, 0⟩) (t : ℕ) :
    let step := dynamicStep split uniform normal meanFn psi n adjust logabs
    let st := fun i => iterSteps step params i s
    let frac := fun i => maskMean (Accepts split uniform normal psi logabs params
      (fun _ => (st i).1.moveMetadata.stdMove) (st i).1 (st i).2)
    (st t).1.moveMetadata = ⟨widthAfter n adjust frac w0 (t / n),
      ∑ i ∈ Finset.range (t % n), frac (t / n * n + i), t % n⟩ := by
  intro step st frac
  exact adaptation_every_n_moves n hn adjust frac w0 (fun t => (st t).1.moveMetadata) h0
    (fun t => rfl) t

/-- C23 under `pmap`: the same on every device, with the accepted fraction averaged over all
devices; in particular devices that start with the same width keep the same width. -/
theorem dynamic_width_schedule_pmap {C : Type} [Fintype C] {nd : ℕ} (split : K → K × K)
    (uniform : K → Fin nd × C → ℝ) (normal : K → Fin nd × C → X)
    (meanFn : (Fin nd × C → XR) → XR) (psi : P → Fin nd × C → X → XR) (n : ℕ) (hn : 1 ≤ n)
    (adjust : ℝ → ℝ → ℝ) (logabs : Bool) (params : P)
    (s : PAData (Fin nd × C) X (Fin nd → MoveMetadata) × K) (w0 : ℝ)
    (h0 : ∀ d, s.1.moveMetadata d = ⟨w0, 0, 0⟩) (t : ℕ) (dev : Fin nd) :
    let step := dynamicStepPmap split uniform normal meanFn psi n adjust logabs
    let st := fun i => iterSteps step params i s
    let frac := fun i => (∑ d : Fin nd, maskMean fun c : C =>
      Accepts split uniform normal psi logabs params
        (fun w => ((st i).1.moveMetadata w.1).stdMove) (st i).1 (st i).2 (d, c)) / nd
    (st t).1.moveMetadata dev = ⟨widthAfter n adjust frac w0 (t / n),
      ∑ i ∈ Finset.range (t % n), frac (t / n * n + i), t % n⟩ := by
  intro step st frac
  exact adaptation_every_n_moves n hn adjust frac w0 (fun t => (st t).1.moveMetadata dev)
    (h0 dev) (fun t => rfl) t

end dyn

/-- Two moves per update: after three moves one adjustment has been made with the mean of
the first two acceptances and the third is pending. -/
example (adjust : ℝ → ℝ → ℝ) (md : ℕ → MoveMetadata) (a : ℕ → ℝ) (h0 : md 0 = ⟨1, 0, 0⟩)
    (hs : ∀ t, md (t + 1) = updateMoveMetadata 2 adjust (md t) (a t)) :
    md 3 = ⟨adjust 1 ((a 0 + a 1) / 2), a 2, 1⟩ := by
  rw [adaptation_every_n_moves 2 (by norm_num) adjust a 1 md h0 hs 3]
  simp [widthAfter, Finset.sum_range_succ]

/-! ### C24 -/

/-- C24, one adjustment: the width grows exactly when the average exceeds
`target + threshold`, shrinks exactly when it is below `target - threshold`, changes by at
most the factor, and stays positive. -/
theorem adjustment_direction (target threshold adj : ℝ) (ht : 0 ≤ threshold) (h0 : 0 < adj)
    (h1 : adj < 1) (w avg : ℝ) (hw : 0 < w) :
    let w' := thresholdAdjust target threshold adj w avg
    (w < w' ↔ target + threshold < avg) ∧ (w' < w ↔ avg < target - threshold) ∧
    w * (1 - adj) ≤ w' ∧ w' ≤ w * (1 + adj) ∧ 0 < w' := by
  intro w'
  have hw' : w' = thresholdAdjust target threshold adj w avg := rfl
  have hp : 0 < w * adj := mul_pos hw h0
  have hq : w * adj < w := by nlinarith
  rw [hw', thresholdAdjust]
  by_cases hA : target + threshold < avg
  · have hB : ¬ avg < target - threshold := by linarith
    simp only [hA, hB, if_true, if_false]
    refine ⟨⟨fun _ => trivial, fun _ => by linarith⟩, ⟨fun h => by linarith, fun h => h.elim⟩,
      by linarith, le_rfl, by linarith⟩
  · by_cases hB : avg < target - threshold
    · simp only [hA, hB, if_true, if_false]
      refine ⟨⟨fun h => by linarith, fun h => h.elim⟩, ⟨fun _ => trivial, fun _ => by linarith⟩,
        le_rfl, by linarith, by linarith⟩
    · simp only [hA, hB, if_false]
      refine ⟨⟨fun h => by linarith, fun h => h.elim⟩, ⟨fun h => by linarith, fun h => h.elim⟩,
        by linarith, by linarith, hw⟩

/-- C24, for ever: along any sequence of moves a positive width stays positive. -/
theorem width_stays_positive (n : ℕ) (target threshold adj : ℝ) (ht : 0 ≤ threshold)
    (h0 : 0 < adj) (h1 : adj < 1) (a : ℕ → ℝ) (md : ℕ → MoveMetadata)
    (hpos : 0 < (md 0).stdMove)
    (hs : ∀ t, md (t + 1) =
      updateMoveMetadata n (thresholdAdjust target threshold adj) (md t) (a t)) (t : ℕ) :
    0 < (md t).stdMove := by
  induction t with
  | zero => exact hpos
  | succ t ih =>
    rw [hs, updateMoveMetadata]
    split_ifs
    · exact (adjustment_direction target threshold adj ht h0 h1 _ _ ih).2.2.2.2
    · exact ih

/-- C24 for the step used by the runner: `make_threshold_adjust_std_move(0.5, 0.05, 0.1)`,
vmcnet/train/runners.py:207-211. -/
theorem runner_width_stays_positive {P K X W : Type} [AddCommGroup X] [Module ℝ X] [Fintype W]
    (split : K → K × K) (uniform : K → W → ℝ) (normal : K → W → X) (meanFn : (W → XR) → XR)
    (psi : P → W → X → XR) (n : ℕ) (logabs : Bool) (params : P)
    (s : PAData W X MoveMetadata × K) (hpos : 0 < s.1.moveMetadata.stdMove) (t : ℕ) :
    0 < (iterSteps (dynamicStep split uniform normal meanFn psi n
      (thresholdAdjust 0.5 0.05 0.1) logabs) params t s).1.moveMetadata.stdMove :=
  width_stays_positive n 0.5 0.05 0.1 (by norm_num) (by norm_num) (by norm_num) _
    (fun t => (iterSteps (dynamicStep split uniform normal meanFn psi n
      (thresholdAdjust 0.5 0.05 0.1) logabs) params t s).1.moveMetadata) hpos
    (fun _ => rfl) t

/-- With the runner's numbers an acceptance of 0.7 grows the width by 10 percent. -/
example : thresholdAdjust 0.5 0.05 0.1 1 0.7 = 1.1 := by
  unfold thresholdAdjust; norm_num

end Verif.Props
