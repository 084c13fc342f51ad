import Verif.Lemmas.CGDescent
import Verif.Lemmas.Fisher

/-! Natural gradient (C51) and norm constraints (C52). -/

namespace Verif.Props

open Verif.Updates Verif.Spec

variable {K : Type*} [Fintype K] [DecidableEq K] {D n : ℕ}

/-! ### C51: Fisher-vector products -/

/-- Both Fisher-vector products multiply by `0.25 * F + damping * I`, where `F` is the covariance
of the scores over the walkers of all devices. -/
theorem fisher_product_is_damped_fisher (hD : 0 < D) (hn : 0 < n) (damping : ℝ)
    (J : Fin D → Fin n → K → ℝ) (x : K → ℝ) (d : Fin D) :
    fisherDense damping J (fun _ => x) d = (dampedFisher damping J).mulVec x ∧
      fisherLazy damping J (fun _ => x) d = (dampedFisher damping J).mulVec x :=
  ⟨congrFun (fisherDense_eq damping J x) d, congrFun (fisherLazy_eq hD hn damping J x) d⟩

/-- The matrix-free product and the explicit one give the same vector. -/
theorem fisher_lazy_eq_dense (hD : 0 < D) (hn : 0 < n) (damping : ℝ)
    (J : Fin D → Fin n → K → ℝ) (x : Fin D → K → ℝ) (hx : SameOnAllDevices x) :
    fisherLazy damping J x = fisherDense damping J x := by
  have h : x = fun _ => x ⟨0, hD⟩ := funext fun d => hx d ⟨0, hD⟩
  rw [h, fisherLazy_eq hD hn, fisherDense_eq]

example (J : Fin 2 → Fin 3 → Fin 2 → ℝ) :
    fisherLazy 0.1 J (fun _ => ![1, -2]) = fisherDense 0.1 J (fun _ => ![1, -2]) :=
  fisher_lazy_eq_dense (by norm_num) (by norm_num) _ _ _ fun _ _ => rfl

/-- The damped Fisher matrix is symmetric positive definite. -/
theorem damped_fisher_positive_definite {damping : ℝ} (hd : 0 < damping)
    (J : Fin D → Fin n → K → ℝ) : PositiveDefinite (dampedFisher damping J) :=
  ⟨dampedFisher_symm damping J, dampedFisher_pos hd J⟩

/-- Without damping it need not be: with one walker the Fisher matrix is zero. -/
example (J : Fin 1 → Fin 1 → Fin 1 → ℝ) : ¬ PositiveDefinite (dampedFisher 0 J) := by
  intro h
  have := h.2 ![1] (by
    intro h
    have := congrFun h 0
    simp at this)
  simp [Matrix.mulVec, dotProduct, dampedFisher, fisher, walkerCov, walkerMean] at this

/-- The natural-gradient equation has exactly one solution. -/
theorem natural_gradient_unique {damping : ℝ} (hd : 0 < damping) (J : Fin D → Fin n → K → ℝ)
    (g : K → ℝ) : ∃! x, (dampedFisher damping J).mulVec x = g := by
  have hinj : Function.Injective (Matrix.mulVecLin (dampedFisher damping J)) := by
    rw [← LinearMap.ker_eq_bot, LinearMap.ker_eq_bot']
    intro x hx
    by_contra hne
    have := dampedFisher_pos hd J x hne
    have hx' : (dampedFisher damping J).mulVec x = 0 := hx
    rw [hx'] at this
    simp [treeInner] at this
  obtain ⟨x, hx⟩ := LinearMap.injective_iff_surjective.1 hinj g
  exact ⟨x, hx, fun y hy => hinj ((show Matrix.mulVecLin _ y = g from hy).trans hx.symm)⟩

/-- The exact natural gradient is a descent direction. -/
theorem natural_gradient_descent {damping : ℝ} (hd : 0 < damping) (J : Fin D → Fin n → K → ℝ)
    {g x : K → ℝ} (hg : g ≠ 0) (hx : (dampedFisher damping J).mulVec x = g) : 0 < g ⬝ᵥ x := by
  have hne : x ≠ 0 := by
    rintro rfl
    exact hg (by rw [← hx, Matrix.mulVec_zero])
  have := dampedFisher_pos hd J x hne
  rw [hx, treeInner_comm] at this
  exact this

/-! ### The solver -/

/-- The initial state on every device. -/
noncomputable def startAt (A : Matrix K K ℝ) (g : K → ℝ) : CG K :=
  let r0 := fun k => g k - A.mulVec g k
  ⟨g, r0, treeInner r0 r0, r0⟩

omit [DecidableEq K] in
theorem startAt_start (A : Matrix K K ℝ) (g : K → ℝ) : Start A.mulVec g (startAt A g) :=
  ⟨rfl, rfl, rfl⟩

omit [DecidableEq K] in
theorem cgTol_nonneg (b : K → ℝ) : 0 ≤ cgTol b := le_max_right _ _

/-- What the preconditioner computes for identical gradients: some iterate of conjugate gradients
for the damped Fisher matrix. -/
theorem precondition_eq (mode : SRMode) {damping : ℝ} (maxiter : Option ℕ) (hD : 0 < D)
    (hn : 0 < n) (J : Fin D → Fin n → K → ℝ) (g : K → ℝ) :
    ∃ j ≤ maxiter.getD (10 * Fintype.card K),
      preconditionGrad mode damping maxiter J (fun _ => g) =
        (fun _ => (cgSeq (dampedFisher damping J).mulVec
          (startAt (dampedFisher damping J) g) j).x) ∧
      (∀ i < j, (cgSeq (dampedFisher damping J).mulVec
          (startAt (dampedFisher damping J) g) i).gamma > cgTol g) ∧
      (j = maxiter.getD (10 * Fintype.card K) ∨ (cgSeq (dampedFisher damping J).mulVec
          (startAt (dampedFisher damping J) g) j).gamma ≤ cgTol g) := by
  have key : ∀ A : (Fin D → K → ℝ) → Fin D → K → ℝ,
      (∀ x, A (fun _ => x) = fun _ => (dampedFisher damping J).mulVec x) →
      ∃ j ≤ maxiter.getD (10 * Fintype.card K),
      (fun d => (cg A (fun _ => g) (fun _ => g) maxiter d).x) =
        (fun _ => (cgSeq (dampedFisher damping J).mulVec
          (startAt (dampedFisher damping J) g) j).x) ∧
      (∀ i < j, (cgSeq (dampedFisher damping J).mulVec
          (startAt (dampedFisher damping J) g) i).gamma > cgTol g) ∧
      (j = maxiter.getD (10 * Fintype.card K) ∨ (cgSeq (dampedFisher damping J).mulVec
          (startAt (dampedFisher damping J) g) j).gamma ≤ cgTol g) := by
    intro A hA
    obtain ⟨j, hj, h1, h2, h3⟩ := cgLoop_eq_seq _ A hA (cgTol g) hD
      (maxiter.getD (10 * Fintype.card K)) (startAt (dampedFisher damping J) g)
    refine ⟨j, hj, ?_, h2, h3⟩
    have hinit : cgInit A (fun _ => g) (fun _ => g) =
        fun _ => startAt (dampedFisher damping J) g := by
      unfold cgInit startAt
      rw [hA]
    unfold cg
    rw [hinit, h1]
  cases mode with
  | lazy => exact key _ (fisherLazy_eq hD hn damping J)
  | debug => exact key _ (fisherDense_eq damping J)

omit [DecidableEq K] in
/-- The divisions in conjugate gradients are never by zero: whenever the loop goes on, the squared
residual and the curvature along the search direction are positive. -/
theorem cg_denominators_pos {A : Matrix K K ℝ} (hA : PositiveDefinite A) (g : K → ℝ) {tol : ℝ}
    (htol : 0 ≤ tol) {j : ℕ} (hrun : ∀ i ≤ j, (cgSeq A.mulVec (startAt A g) i).gamma > tol) :
    0 < (cgSeq A.mulVec (startAt A g) j).gamma ∧
      0 < (cgSeq A.mulVec (startAt A g) j).p ⬝ᵥ
        A.mulVec (cgSeq A.mulVec (startAt A g) j).p := by
  have hM := spd_of_matrix hA.1 hA.2
  have hpos : ∀ i ≤ j, 0 < (cgSeq A.mulVec (startAt A g) i).gamma := fun i hi =>
    htol.trans_lt (hrun i hi)
  exact ⟨hpos j le_rfl, (cgSeq_inv hM (startAt_start A g) j (fun i hi => hpos i hi.le) j
    le_rfl).pos hM (hpos j le_rfl)⟩

/-- Without an iteration limit (or with at least as many iterations as parameters) stochastic
reconfiguration solves its equation up to the tolerance of the solver, in both modes and on every
device. -/
theorem sr_solves (mode : SRMode) {damping : ℝ} (hd : 0 < damping) (maxiter : Option ℕ)
    (hmax : ∀ m, maxiter = some m → Fintype.card K ≤ m) (hD : 0 < D) (hn : 0 < n)
    (J : Fin D → Fin n → K → ℝ) (g : K → ℝ) (d : Fin D) :
    ∑ k, (g k - (dampedFisher damping J).mulVec
        (preconditionGrad mode damping maxiter J (fun _ => g) d) k) ^ 2 ≤
      (1e-5) ^ 2 * ∑ k, g k ^ 2 := by
  obtain ⟨j, hj, h1, h2, h3⟩ := precondition_eq (damping := damping) mode maxiter hD hn J g
  set A := dampedFisher damping J
  have hM : SPD A.mulVec := dampedFisher_spd hd J
  have hs := startAt_start A g
  have hcard : Fintype.card K ≤ maxiter.getD (10 * Fintype.card K) := by
    cases maxiter with
    | none => show _ ≤ 10 * _; omega
    | some m => exact hmax m rfl
  have hgam : (cgSeq A.mulVec (startAt A g) j).gamma ≤ cgTol g := by
    rcases h3 with h3 | h3
    · obtain ⟨i, hi, hle⟩ := cgSeq_terminates hM hs j (h3 ▸ hcard)
      rcases Nat.lt_or_ge i j with hlt | hge
      · exact absurd (h2 i hlt) (not_lt.2 (hle.trans (cgTol_nonneg g)))
      · obtain rfl : i = j := le_antisymm hi hge
        exact hle.trans (cgTol_nonneg g)
    · exact h3
  have htol : cgTol g = (1e-5) ^ 2 * ∑ k, g k ^ 2 := by
    have hnn : (0 : ℝ) ≤ (1e-5) ^ 2 * treeInner g g :=
      mul_nonneg (by positivity) (treeInner_self_nonneg g)
    unfold cgTol
    rw [max_eq_left hnn]
    unfold treeInner
    simp only [sq]
  rw [h1, ← htol]
  refine le_trans (le_of_eq ?_) hgam
  rw [cgSeq_gamma hs, cgSeq_residual hM hs]
  exact Finset.sum_congr rfl fun k _ => sq _

/-- The stopping point is a descent direction, in both modes and whatever the iteration limit. -/
theorem sr_descent (mode : SRMode) {damping : ℝ} (hd : 0 < damping) (maxiter : Option ℕ)
    (hD : 0 < D) (hn : 0 < n) (J : Fin D → Fin n → K → ℝ) {g : K → ℝ} (hg : g ≠ 0) (d : Fin D) :
    0 < g ⬝ᵥ preconditionGrad mode damping maxiter J (fun _ => g) d := by
  obtain ⟨j, -, h1, h2, -⟩ := precondition_eq (damping := damping) mode maxiter hD hn J g
  rw [h1]
  exact cgSeq_inner_pos (dampedFisher_spd hd J) hg (startAt_start _ g) rfl fun i hi =>
    (cgTol_nonneg g).trans_lt (h2 i hi)

/-- The quadratic model which the natural gradient minimizes is never larger than at the plain
gradient, where the solver starts, whatever the iteration limit. -/
theorem sr_decreases_model (mode : SRMode) {damping : ℝ} (hd : 0 < damping) (maxiter : Option ℕ)
    (hD : 0 < D) (hn : 0 < n) (J : Fin D → Fin n → K → ℝ) (g : K → ℝ) (d : Fin D) :
    let A := dampedFisher damping J
    let x := preconditionGrad mode damping maxiter J (fun _ => g) d
    x ⬝ᵥ A.mulVec x / 2 - g ⬝ᵥ x ≤ g ⬝ᵥ A.mulVec g / 2 - g ⬝ᵥ g := by
  obtain ⟨j, -, h1, h2, -⟩ := precondition_eq (damping := damping) mode maxiter hD hn J g
  simp only [h1]
  exact cgSeq_decreases (dampedFisher_spd hd J) (startAt_start _ g) j fun i hi =>
    (cgTol_nonneg g).trans_lt (h2 i hi)

/-- All devices stop together with the same vector. -/
theorem cg_replicated (mode : SRMode) (damping : ℝ) (maxiter : Option ℕ) (hn : 0 < n)
    (J : Fin D → Fin n → K → ℝ) (grad : Fin D → K → ℝ) (hg : SameOnAllDevices grad) :
    SameOnAllDevices (preconditionGrad mode damping maxiter J grad) := by
  intro d d'
  have hD : 0 < D := d.pos
  have h : grad = fun _ => grad d := funext fun i => hg i d
  obtain ⟨j, -, h1, -, -⟩ := precondition_eq (damping := damping) mode maxiter hD hn J (grad d)
  rw [h, h1]

/-- A zero gradient stays zero. -/
theorem sr_zero (mode : SRMode) {damping : ℝ} (maxiter : Option ℕ) (hD : 0 < D)
    (hn : 0 < n) (J : Fin D → Fin n → K → ℝ) (d : Fin D) :
    preconditionGrad mode damping maxiter J (fun _ => 0) d = 0 := by
  obtain ⟨j, -, h1, h2, -⟩ :=
    precondition_eq (damping := damping) mode maxiter hD hn J (0 : K → ℝ)
  have h1' := congrFun h1 d
  cases j with
  | zero => exact h1'
  | succ j =>
    have := h2 0 (Nat.succ_pos j)
    have h0 : (cgSeq (dampedFisher damping J).mulVec
        (startAt (dampedFisher damping J) 0) 0).gamma = 0 := by
      show treeInner _ _ = 0
      rw [treeInner_self_eq_zero]
      funext k
      simp [Matrix.mulVec_zero]
    rw [h0] at this
    exact absurd this (not_lt.2 (cgTol_nonneg _))

/-- Two walkers on one device with log-derivatives `1` and `-1`, damping 1: the damped Fisher
matrix is `2`, and the solver halves the gradient up to its tolerance. -/
example (mode : SRMode) :
    (4 - 2 * preconditionGrad mode 1 none (D := 1) (n := 2) (K := Fin 1)
      (fun _ i _ => ![1, -1] i) (fun _ => ![4]) 0 0) ^ 2 ≤ (1e-5) ^ 2 * 16 := by
  have h := sr_solves mode one_pos none (by simp) (by norm_num) (by norm_num)
    (D := 1) (n := 2) (K := Fin 1) (fun _ i _ => ![1, -1] i) ![4] 0
  have hm : ∀ x : Fin 1 → ℝ, (dampedFisher (D := 1) (n := 2) (K := Fin 1) 1
      (fun _ i _ => ![1, -1] i)).mulVec x 0 = 2 * x 0 := by
    intro x
    simp [Matrix.mulVec, dotProduct, dampedFisher, fisher, walkerCov, walkerMean,
      Fin.sum_univ_two]
    norm_num
  rw [Fin.sum_univ_one, Fin.sum_univ_one, hm] at h
  norm_num at h ⊢
  exact h

omit [DecidableEq K] in
/-- C51: the configured iteration limit.  Zero iterations give the gradient back unchanged. -/
theorem sr_no_iterations (mode : SRMode) (damping : ℝ) (J : Fin D → Fin n → K → ℝ)
    (grad : Fin D → K → ℝ) : preconditionGrad mode damping (srMaxiter 0) J grad = grad := by
  cases mode <;> rfl

/-- C51: with a negative limit, or a limit of at least the number of parameters, the solve reaches
the tolerance. -/
theorem sr_configured_solves (mode : SRMode) {damping : ℝ} (hd : 0 < damping) (maxiter : ℤ)
    (hmax : maxiter < 0 ∨ (Fintype.card K : ℤ) ≤ maxiter) (hD : 0 < D) (hn : 0 < n)
    (J : Fin D → Fin n → K → ℝ) (g : K → ℝ) (d : Fin D) :
    ∑ k, (g k - (dampedFisher damping J).mulVec
        (preconditionGrad mode damping (srMaxiter maxiter) J (fun _ => g) d) k) ^ 2 ≤
      (1e-5) ^ 2 * ∑ k, g k ^ 2 := by
  refine sr_solves mode hd _ ?_ hD hn J g d
  intro m hm
  unfold srMaxiter at hm
  split at hm
  · have : maxiter.toNat = m := by simpa using hm
    omega
  · cases hm

/-- Defaults of the configuration: at most 10 iterations, here for 3 parameters. -/
example (J : Fin 2 → Fin 4 → Fin 3 → ℝ) (g : Fin 3 → ℝ) :
    ∑ k, (g k - (dampedFisher 1e-4 J).mulVec
        (preconditionGrad .lazy 1e-4 (srMaxiter 10) J (fun _ => g) 1) k) ^ 2 ≤
      (1e-5) ^ 2 * ∑ k, g k ^ 2 :=
  sr_configured_solves .lazy (by norm_num) 10 (by simp) (by norm_num) (by norm_num) J g 1

/-! ### C52: norm constraints -/

theorem normCoefficient_spec {c s : ℝ} (hc : 0 < c) (hs : 0 ≤ s) :
    ∃ a : ℝ, normCoefficient c s = .fin a ∧ 0 < a ∧ a ≤ 1 ∧ a ^ 2 * s ≤ c ∧ (s ≤ c → a = 1) ∧
      (c ≤ s → a ^ 2 * s = c) := by
  unfold normCoefficient
  rcases hs.eq_or_lt with rfl | hs
  · refine ⟨1, ?_, one_pos, le_rfl, by simpa using hc.le, fun _ => rfl,
      fun h => absurd h (not_le.2 hc)⟩
    have : (XR.fin c / XR.fin 0 : XR) = .pinf := by
      show XR.div (.fin c) (.fin 0) = _
      simp [XR.div, XR.infMul, hc, hc.ne']
    rw [this]
    simp [XR.sqrt, XR.minimum, XR.isNan, XR.lt]
  · rw [XR.fin_div hs.ne', XR.sqrt_fin (div_pos hc hs).le, XR.minimum_fin]
    have hpos : 0 < Real.sqrt (c / s) := Real.sqrt_pos.2 (div_pos hc hs)
    refine ⟨_, rfl, lt_min hpos one_pos, min_le_right _ _, ?_, ?_, ?_⟩
    · have h1 : min (Real.sqrt (c / s)) 1 ^ 2 ≤ c / s := by
        calc _ ≤ Real.sqrt (c / s) ^ 2 :=
              pow_le_pow_left₀ (le_min hpos.le zero_le_one) (min_le_left _ _) 2
          _ = c / s := Real.sq_sqrt (div_pos hc hs).le
      calc _ ≤ c / s * s := mul_le_mul_of_nonneg_right h1 hs.le
        _ = c := div_mul_cancel₀ c hs.ne'
    · intro hsc
      apply min_eq_right
      rw [Real.one_le_sqrt, le_div_iff₀ hs, one_mul]
      exact hsc
    · intro hcs
      have h1 : Real.sqrt (c / s) ≤ 1 := by
        rw [Real.sqrt_le_one]
        exact (div_le_one hs).2 hcs
      rw [min_eq_left h1, Real.sq_sqrt (div_pos hc hs).le, div_mul_cancel₀ c hs.ne']

omit [DecidableEq K] in
/-- What the natural-gradient norm constraint does if the (learning-rate scaled) squared norm is
not negative. -/
theorem constrainNorm_spec (grads pre : Fin D → K → ℝ) (lr : Fin D → ℝ) {c : ℝ} (hc : 0 < c)
    (hs : 0 ≤ (∑ d, lr d ^ 2 * pre d ⬝ᵥ grads d) / D) :
    ∃ a : ℝ, 0 < a ∧ a ≤ 1 ∧ (∀ d k, constrainNorm grads pre lr c d k = .fin (a * pre d k)) ∧
      (∑ d, lr d ^ 2 * (a • pre d) ⬝ᵥ (a • grads d)) / D ≤ c ∧
      ((∑ d, lr d ^ 2 * pre d ⬝ᵥ grads d) / D ≤ c → a = 1) ∧
      (c ≤ (∑ d, lr d ^ 2 * pre d ⬝ᵥ grads d) / D →
        (∑ d, lr d ^ 2 * (a • pre d) ⬝ᵥ (a • grads d)) / D = c) := by
  have hsum : (pmean fun d => treeInner (pre d) (grads d) * lr d ^ 2) =
      (∑ d, lr d ^ 2 * pre d ⬝ᵥ grads d) / D := by
    unfold pmean
    congr 1
    exact Finset.sum_congr rfl fun d _ => mul_comm _ _
  obtain ⟨a, h1, h2, h3, h4, h5, h6⟩ := normCoefficient_spec hc hs
  have hsq : (∑ d, lr d ^ 2 * (a • pre d) ⬝ᵥ (a • grads d)) / D =
      a ^ 2 * ((∑ d, lr d ^ 2 * pre d ⬝ᵥ grads d) / D) := by
    rw [mul_div_assoc', Finset.mul_sum]
    congr 1
    refine Finset.sum_congr rfl fun d _ => ?_
    rw [smul_dotProduct, dotProduct_smul]
    simp only [smul_eq_mul]
    ring
  refine ⟨a, h2, h3, ?_, hsq.le.trans h4, h5, fun h => hsq.trans (h6 h)⟩
  intro d k
  unfold constrainNorm
  rw [hsum, h1]
  rfl

/-- The constrained update of stochastic reconfiguration: for every gradient (zero included), every
mode, every iteration limit and every learning rate it is a multiple `a` of the natural gradient
with `0 < a ≤ 1`, it respects the constraint, it is the natural gradient itself if that is within
the constraint, and otherwise it lies exactly on the constraint. -/
theorem sr_norm_constraint (mode : SRMode) {damping : ℝ} (hd : 0 < damping) (maxiter : Option ℕ)
    (hD : 0 < D) (hn : 0 < n) (J : Fin D → Fin n → K → ℝ) (g : K → ℝ) (lr : Fin D → ℝ) {c : ℝ}
    (hc : 0 < c) :
    let pre := preconditionGrad mode damping maxiter J fun _ => g
    ∃ a : ℝ, 0 < a ∧ a ≤ 1 ∧
      (∀ d k, constrainNorm (fun _ => g) pre lr c d k = .fin (a * pre d k)) ∧
      (∑ d, lr d ^ 2 * (a • pre d) ⬝ᵥ (a • g)) / D ≤ c ∧
      ((∑ d, lr d ^ 2 * pre d ⬝ᵥ g) / D ≤ c → a = 1) ∧
      (c ≤ (∑ d, lr d ^ 2 * pre d ⬝ᵥ g) / D →
        (∑ d, lr d ^ 2 * (a • pre d) ⬝ᵥ (a • g)) / D = c) := by
  intro pre
  apply constrainNorm_spec _ _ _ hc
  refine div_nonneg (Finset.sum_nonneg fun d _ => mul_nonneg (sq_nonneg _) ?_) (Nat.cast_nonneg D)
  by_cases hg : g = 0
  · rw [hg, dotProduct_zero]
  · rw [dotProduct_comm]
    exact (sr_descent mode hd maxiter hD hn J hg d).le

/-- One parameter, two walkers, gradient `-3`, a single solver iteration: the hypotheses hold. -/
example : ∃ a : ℝ, 0 < a ∧ a ≤ 1 ∧ ∀ d k, constrainNorm (K := Fin 1) (fun _ _ => -3)
    (preconditionGrad (D := 1) (n := 2) .lazy 0.1 (some 1) (fun _ i _ => ![1, -1] i) fun _ _ => -3)
    (fun _ => 0.1) 0.001 d k = .fin (a * preconditionGrad (D := 1) (n := 2) .lazy 0.1 (some 1)
      (fun _ i _ => ![1, -1] i) (fun _ _ => -3) d k) := by
  obtain ⟨a, h1, h2, h3, -⟩ := sr_norm_constraint (D := 1) (n := 2) (K := Fin 1) .lazy
    (damping := 0.1) (by norm_num) (some 1) (by norm_num) (by norm_num)
    (fun _ i _ => ![1, -1] i) (fun _ => -3) (fun _ => 0.1) (c := 0.001) (by norm_num)
  exact ⟨a, h1, h2, h3⟩

/-- With the exact natural gradient the constraint is on the natural norm: the constrained update
`u` has `lr² * uᵀ (0.25 F + damping I) u ≤ c`. -/
theorem sr_norm_constraint_exact {damping : ℝ} (hd : 0 < damping) (hD : 0 < D)
    (J : Fin D → Fin n → K → ℝ) {g x : K → ℝ} (hx : (dampedFisher damping J).mulVec x = g)
    (lr : ℝ) {c : ℝ} (hc : 0 < c) :
    ∃ u : K → ℝ, (∀ d k, constrainNorm (fun _ : Fin D => g) (fun _ => x) (fun _ => lr) c d k =
        .fin (u k)) ∧
      lr ^ 2 * (u ⬝ᵥ (dampedFisher damping J).mulVec u) ≤ c := by
  have hnn : 0 ≤ x ⬝ᵥ g := by
    by_cases hg : g = 0
    · rw [hg, dotProduct_zero]
    · rw [dotProduct_comm]
      exact (natural_gradient_descent hd J hg hx).le
  have hDr : (D : ℝ) ≠ 0 := by exact_mod_cast hD.ne'
  obtain ⟨a, -, -, h1, h2, -⟩ := constrainNorm_spec (fun _ : Fin D => g) (fun _ => x)
    (fun _ => lr) hc (by
      refine div_nonneg (Finset.sum_nonneg fun d _ => mul_nonneg (sq_nonneg _) hnn)
        (Nat.cast_nonneg D))
  refine ⟨a • x, h1, ?_⟩
  rw [Matrix.mulVec_smul, hx]
  refine le_trans (le_of_eq ?_) h2
  simp only [Finset.sum_const, Finset.card_univ, Fintype.card_fin, nsmul_eq_mul]
  field_simp

omit [DecidableEq K] in
/-- On arbitrary arguments `constrain_norm` has no such guarantee: if the inner product with the
gradient is negative, every entry of the result is nan.  (`sr_descent` shows that the optimizer
never calls it like that.) -/
theorem constrainNorm_negative (grads pre : Fin D → K → ℝ) (lr : Fin D → ℝ) {c : ℝ} (hc : 0 < c)
    (hs : (∑ d, lr d ^ 2 * pre d ⬝ᵥ grads d) / D < 0) (d : Fin D) (k : K) :
    constrainNorm grads pre lr c d k = .nan := by
  have hsum : (pmean fun d => treeInner (pre d) (grads d) * lr d ^ 2) =
      (∑ d, lr d ^ 2 * pre d ⬝ᵥ grads d) / D := by
    unfold pmean
    congr 1
    exact Finset.sum_congr rfl fun d _ => mul_comm _ _
  unfold constrainNorm normCoefficient
  rw [hsum, XR.fin_div hs.ne]
  have : XR.sqrt (.fin (c / ((∑ d, lr d ^ 2 * pre d ⬝ᵥ grads d) / D))) = .nan := by
    unfold XR.sqrt
    simp [div_neg_of_pos_of_neg hc hs]
  rw [this, XR.minimum_nan_left, XR.nan_mul]

example : constrainNorm (D := 1) (K := Fin 1) (fun _ _ => 1) (fun _ _ => -1) (fun _ => 1) 0.001
    0 0 = .nan := by
  refine constrainNorm_negative _ _ _ (by norm_num) ?_ 0 0
  simp [dotProduct]

omit [DecidableEq K] in
/-- The Euclidean constraint of SPRING: for every update (zero included) the result is a multiple
`a` of it with `0 < a ≤ 1` whose mean squared norm over the devices respects the constraint, and
the update itself if that is within the constraint; otherwise the constraint is attained. -/
theorem spring_constraint (grad : Fin D → K → ℝ) {c : ℝ} (hc : 0 < c) :
    ∃ a : ℝ, 0 < a ∧ a ≤ 1 ∧ (∀ d k, constrainNormSpring grad c d k = .fin (a * grad d k)) ∧
      (∑ d, ∑ k, (a * grad d k) ^ 2) / D ≤ c ∧
      ((∑ d, ∑ k, grad d k ^ 2) / D ≤ c → a = 1) ∧
      (c ≤ (∑ d, ∑ k, grad d k ^ 2) / D → (∑ d, ∑ k, (a * grad d k) ^ 2) / D = c) := by
  have hsum : (pmean fun d => treeInner (grad d) (grad d)) = (∑ d, ∑ k, grad d k ^ 2) / D := by
    unfold pmean treeInner
    simp only [sq]
  obtain ⟨a, h1, h2, h3, h4, h5, h6⟩ := normCoefficient_spec hc
    (show 0 ≤ (∑ d, ∑ k, grad d k ^ 2) / (D : ℝ) from
      div_nonneg (Finset.sum_nonneg fun d _ => Finset.sum_nonneg fun k _ => sq_nonneg _)
        (Nat.cast_nonneg D))
  have hsq : (∑ d, ∑ k, (a * grad d k) ^ 2) / D = a ^ 2 * ((∑ d, ∑ k, grad d k ^ 2) / D) := by
    rw [mul_div_assoc', Finset.mul_sum]
    congr 1
    refine Finset.sum_congr rfl fun d _ => ?_
    rw [Finset.mul_sum]
    exact Finset.sum_congr rfl fun k _ => by ring
  refine ⟨a, h2, h3, ?_, hsq.le.trans h4, h5, fun h => hsq.trans (h6 h)⟩
  intro d k
  unfold constrainNormSpring
  rw [hsum, h1]
  rfl

/-- An update of squared norm 4 under the constraint 1 is halved. -/
example : constrainNormSpring (D := 1) (K := Fin 1) (fun _ _ => 2) 1 0 0 = .fin 1 := by
  unfold constrainNormSpring normCoefficient pmean treeInner
  simp only [Finset.univ_unique, Fin.default_eq_zero, Finset.sum_singleton]
  rw [XR.fin_div (by norm_num), XR.sqrt_fin (by norm_num), XR.minimum_fin]
  have : Real.sqrt (1 / (2 * 2 / ((1 : ℕ) : ℝ))) = 1 / 2 := by
    rw [Real.sqrt_eq_iff_mul_self_eq_of_pos (by norm_num)]
    norm_num
  rw [this, min_eq_left (by norm_num), XR.fin_mul]
  norm_num

end Verif.Props
