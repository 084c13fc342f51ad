import Verif.Model.ResNet
import Verif.Props.Slog

/-! C70: the log-domain networks compute what the linear-domain networks compute. -/

namespace Verif.Props

open Verif.Net Verif.Slog Verif.Spec

/-- Entry by entry, `x` stands for the real vector `r`. -/
def RepresentsVec {d : ℕ} (x : Fin d → SL) (r : Fin d → ℝ) : Prop := ∀ i, Represents (x i) (r i)

/-- A log-domain activation which does to representations what `activation` does to numbers. -/
def RepresentsFn (slActivation : ∀ m, (Fin m → SL) → Fin m → SL)
    (activation : ∀ m, (Fin m → ℝ) → Fin m → ℝ) : Prop :=
  ∀ m (x : Fin m → SL) (r : Fin m → ℝ), RepresentsVec x r →
    RepresentsVec (slActivation m x) (activation m r)

/-- C70: a log-domain dense layer with bias computes the dense layer, for every input, zero
included. -/
theorem log_dense_with_bias {d d' : ℕ} (P : DenseParams d d') (x : Fin d → SL) (r : Fin d → ℝ)
    (hx : RepresentsVec x r) :
    RepresentsVec (logDense true P x) (dense true P.kernel P.bias r) := by
  intro j
  have h := slog_weighted_sum_represents (d := d + 1) (d' := d')
    (Fin.snoc (α := fun _ => SL) x (.fin 1, .fin 0)) (Fin.snoc (α := fun _ => ℝ) r 1)
    (fun i => by
      refine Fin.lastCases ?_ (fun i => ?_) i
      · simp only [Fin.snoc_last]
        exact .inl ⟨one_pos, by simp⟩
      · simp only [Fin.snoc_castSucc]
        exact hx i)
    ⟨Fin.last d, by simp⟩ (Fin.snoc (α := fun _ => Fin d' → ℝ) P.kernel P.bias) j
  rw [Fin.sum_univ_castSucc] at h
  simp only [Fin.snoc_castSucc, Fin.snoc_last, mul_one] at h
  have e1 : (fun i => (Fin.snoc (α := fun _ => SL) x (.fin 1, .fin 0) i : SL).1) =
      Fin.snoc (α := fun _ => XR) (fun i => (x i).1) (.fin 1) := by
    funext i
    refine Fin.lastCases ?_ (fun i => ?_) i <;> simp
  have e2 : (fun i => (Fin.snoc (α := fun _ => SL) x (.fin 1, .fin 0) i : SL).2) =
      Fin.snoc (α := fun _ => XR) (fun i => (x i).2) (.fin 0) := by
    funext i
    refine Fin.lastCases ?_ (fun i => ?_) i <;> simp
  have e3 : (fun i k => XR.fin ((Fin.snoc (α := fun _ => Fin d' → ℝ) P.kernel P.bias : Fin (d + 1) →
      Fin d' → ℝ) i k)) = Fin.snoc (α := fun _ => Fin d' → XR) (fun i j => .fin (P.kernel i j))
        fun j => .fin (P.bias j) := by
    funext i
    refine Fin.lastCases ?_ (fun i => ?_) i <;> simp
  rw [e1, e2, e3] at h
  unfold logDense dense
  simp only [if_true]
  refine Eq.mp ?_ h
  congr 2
  exact Finset.sum_congr rfl fun i _ => mul_comm _ _

/-- C70: without bias it does so for inputs which are not all zero. -/
theorem log_dense_without_bias {d d' : ℕ} (P : DenseParams d d') (x : Fin d → SL) (r : Fin d → ℝ)
    (hx : RepresentsVec x r) (hne : ∃ i, r i ≠ 0) :
    RepresentsVec (logDense false P x) (dense false P.kernel P.bias r) := by
  intro j
  have h := slog_weighted_sum_represents x r hx hne P.kernel j
  unfold logDense dense
  simp only [Bool.false_eq_true, if_false, add_zero]
  refine Eq.mp ?_ h
  congr 1
  exact Finset.sum_congr rfl fun i _ => mul_comm _ _

/-- The intermediate values at which the log-domain network is defined: layers without bias have a
non-zero input, and no skip connection adds two zeros. -/
def NonzeroSums (useBias : Bool) (activation : ∀ m, (Fin m → ℝ) → Fin m → ℝ) :
    {d e : ℕ} → InnerLayers d e → (Fin d → ℝ) → Prop
  | _, _, .nil, x => ∃ i, x i ≠ 0
  | d, _, @InnerLayers.cons _ d' _ layer rest, x =>
    let y := activation d' (dense useBias layer.kernel layer.bias x)
    (useBias = false → ∃ i, x i ≠ 0) ∧
      (∀ (h : d' = d) (j : Fin d'), y j ≠ 0 ∨ x (Fin.cast h j) ≠ 0) ∧
      NonzeroSums useBias activation rest (skipSum x y)

/-- The condition on the final input is part of `NonzeroSums`. -/
theorem nonzeroSums_final (useBias : Bool) (activation : ∀ m, (Fin m → ℝ) → Fin m → ℝ) {d e : ℕ}
    (inner : InnerLayers d e) (r : Fin d → ℝ) (h : NonzeroSums useBias activation inner r) :
    ∃ i, inner.run useBias activation r i ≠ 0 := by
  induction inner with
  | nil => exact h
  | cons layer rest ih => exact ih _ h.2.2

theorem run_log_represents (useBias : Bool) (slActivation : ∀ m, (Fin m → SL) → Fin m → SL)
    (activation : ∀ m, (Fin m → ℝ) → Fin m → ℝ) (hact : RepresentsFn slActivation activation)
    {d e : ℕ} (inner : InnerLayers d e) (x : Fin d → SL) (r : Fin d → ℝ) (hx : RepresentsVec x r)
    (hreg : NonzeroSums useBias activation inner r) :
    RepresentsVec (inner.runLog useBias slActivation x) (inner.run useBias activation r) := by
  induction inner with
  | nil => exact hx
  | @cons d d' e layer rest ih =>
    obtain ⟨h1, h2, h3⟩ := hreg
    refine ih _ _ ?_ h3
    have hd : RepresentsVec (logDense useBias layer x) (dense useBias layer.kernel layer.bias r) := by
      cases useBias with
      | true => exact log_dense_with_bias layer x r hx
      | false => exact log_dense_without_bias layer x r hx (h1 rfl)
    have ha := hact d' _ _ hd
    intro j
    unfold skipSlogSum skipSum
    by_cases h : d' = d
    · simp only [dif_pos h]
      exact slog_sum_represents (ha j) (hx _) (h2 h j)
    · simp only [dif_neg h]
      exact ha j

/-- C70: where no layer sums zeros only `LogDomainResNet` stands for `SimpleResNet` with the same parameters, for
any number of layers, widths and activations.  Missing: inputs where some layer sums zeros only,
see `log_resnet_zero_fails`. -/
theorem log_resnet_represents_partial (useBias : Bool)
    (slActivation : ∀ m, (Fin m → SL) → Fin m → SL)
    (activation : ∀ m, (Fin m → ℝ) → Fin m → ℝ) (hact : RepresentsFn slActivation activation)
    {d e o : ℕ} (inner : InnerLayers d e) (final : DenseParams e o) (x : Fin d → SL)
    (r : Fin d → ℝ) (hx : RepresentsVec x r) (hreg : NonzeroSums useBias activation inner r) :
    RepresentsVec (logResNet useBias slActivation inner final x)
      (simpleResNet useBias activation inner final r) :=
  log_dense_without_bias final _ _ (run_log_represents useBias slActivation activation hact inner x r
    hx hreg) (nonzeroSums_final useBias activation inner r hreg)

/-- C70 fails at zero: the final layer has no bias, so if its input is zero the output is nan
although `SimpleResNet` gives 0. -/
theorem log_resnet_zero_fails (useBias : Bool) (slActivation : ∀ m, (Fin m → SL) → Fin m → SL)
    (activation : ∀ m, (Fin m → ℝ) → Fin m → ℝ) {d o : ℕ} (hd : 0 < d) (final : DenseParams d o)
    (x : Fin d → SL) (hx : RepresentsVec x fun _ => 0) (j : Fin o) :
    simpleResNet useBias activation .nil final (fun _ => 0) j = 0 ∧
      logResNet useBias slActivation .nil final x j = (.nan, .nan) := by
  constructor
  · simp [simpleResNet, InnerLayers.run, dense]
  · have hx' : ∀ i, x i = (XR.fin 0, XR.ninf) := fun i => by
      rw [(represents_iff _ _).mp (hx i), sign_zero, lmag_zero]
    unfold logResNet logDense logLinearExp termsDividedByMax InnerLayers.runLog
    simp only [hx', axisMax_zero, Bool.false_eq_true, if_false]
    have h : (XR.fin 0 * XR.exp (XR.ninf - XR.ninf) : XR) = .nan := rfl
    simp only [h, XR.nan_mul]
    rw [XR.sum_nan Finset.univ (fun _ : Fin d => XR.nan) (Finset.mem_univ ⟨0, hd⟩) rfl]
    rfl

/-- The activation of the repository's test, `sign(x) x² / 10`, and its log-domain form
`(sign, 2 log - log 10)`.  tests/units/models/test_core.py:47-54 -/
example : RepresentsFn (fun _ x i => ((x i).1, XR.fin 2 * (x i).2 - XR.fin (Real.log 10)))
    (fun _ r i => (SignType.sign (r i) : ℝ) * r i ^ 2 / 10) := by
  intro m x r h i
  have hlog : ∀ t : ℝ, 0 < t → 2 * Real.log t - Real.log 10 = Real.log (t ^ 2 / 10) := fun t ht => by
    rw [Real.log_div (by positivity) (by norm_num), Real.log_pow]
    norm_num
  show Represents ((x i).1, XR.fin 2 * (x i).2 - XR.fin (Real.log 10))
    ((SignType.sign (r i) : ℝ) * r i ^ 2 / 10)
  rcases h i with ⟨hr, hx⟩ | ⟨hr, hx⟩ | ⟨hr, hx⟩
  · rw [hx, _root_.sign_pos hr]
    refine .inl ⟨?_, ?_⟩
    · simp; positivity
    · have := hlog _ hr
      simp only [SignType.coe_one, one_mul, ← this]
      rfl
  · rw [hx, _root_.sign_neg hr]
    have hr' : 0 < -r i := by linarith
    refine .inr (.inl ⟨?_, ?_⟩)
    · have : 0 < r i ^ 2 := by nlinarith
      simp
      linarith
    · have := hlog (-r i) hr'
      simp only [SignType.coe_neg_one]
      rw [show -(-1 * r i ^ 2 / 10) = (-r i) ^ 2 / 10 by ring, ← this]
      rfl
  · rw [hx, hr]
    refine .inr (.inr ⟨by simp, ?_⟩)
    have h2 : (XR.fin 2 * XR.ninf : XR) = .ninf := by
      show XR.infMul (-2) = _
      unfold XR.infMul
      norm_num
    rw [h2]
    rfl

/-- The identity activation in both domains; a network of two layers with bias on the input
`(0, 3)`. -/
example (P : DenseParams 2 4) (Q : DenseParams 4 1) (hP : P.bias 0 + 3 * P.kernel 1 0 ≠ 0) :
    RepresentsVec (logResNet true (fun _ x => x) (.cons P .nil) Q
        ![(.fin 0, .ninf), (.fin 1, .fin (Real.log 3))])
      (simpleResNet true (fun _ x => x) (.cons P .nil) Q ![0, 3]) := by
  refine log_resnet_represents_partial true _ _ (fun _ _ _ h => h) _ _ _ _ ?_ ?_
  · intro i
    fin_cases i
    · exact .inr (.inr ⟨rfl, rfl⟩)
    · exact .inl ⟨by norm_num, rfl⟩
  · refine ⟨fun h => absurd h (by decide), fun h => absurd h (by decide), 0, ?_⟩
    simp [skipSum, dense, Fin.sum_univ_two]
    intro h
    apply hP
    linarith

end Verif.Props
