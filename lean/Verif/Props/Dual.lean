import Verif.Model.Dual
import Mathlib.Analysis.SpecialFunctions.Sqrt
import Mathlib.Analysis.Calculus.Deriv.Pow
import Mathlib.Analysis.Calculus.Deriv.Mul
import Mathlib.Analysis.Calculus.Deriv.Add

/-!
C85: automatic differentiation of distances.
-/

namespace Verif.Props
open Verif.Net

/-- `a` is the value of `f` at 0 with its true derivative as tangent. -/
def Tracks (a : Dual.D) (f : ℝ → ℝ) : Prop :=
  ∃ f', a = ⟨.fin (f 0), .fin f'⟩ ∧ HasDerivAt f f' 0

theorem tracks_addConst {a : Dual.D} {f : ℝ → ℝ} (h : Tracks a f) (c : ℝ) :
    Tracks (Dual.addConst a c) fun s => f s + c := by
  obtain ⟨f', rfl, h⟩ := h
  exact ⟨f', by simp [Dual.addConst], h.add_const c⟩

theorem tracks_sub {a b : Dual.D} {f g : ℝ → ℝ} (h : Tracks a f) (h' : Tracks b g) :
    Tracks (Dual.sub a b) fun s => f s - g s := by
  obtain ⟨f', rfl, h⟩ := h
  obtain ⟨g', rfl, h'⟩ := h'
  exact ⟨f' - g', by simp [Dual.sub], HasDerivAt.fun_sub h h'⟩

theorem tracks_mulConst {a : Dual.D} {f : ℝ → ℝ} (h : Tracks a f) (c : ℝ) :
    Tracks (Dual.mulConst a c) fun s => f s * c := by
  obtain ⟨f', rfl, h⟩ := h
  exact ⟨f' * c, by simp [Dual.mulConst], HasDerivAt.mul_const h c⟩

theorem tracks_mul {a b : Dual.D} {f g : ℝ → ℝ} (h : Tracks a f) (h' : Tracks b g) :
    Tracks (Dual.mul a b) fun s => f s * g s := by
  obtain ⟨f', rfl, h⟩ := h
  obtain ⟨g', rfl, h'⟩ := h'
  exact ⟨f' * g 0 + f 0 * g', by simp [Dual.mul], HasDerivAt.fun_mul h h'⟩

theorem tracks_square {a : Dual.D} {f : ℝ → ℝ} (h : Tracks a f) :
    Tracks (Dual.square a) fun s => f s ^ 2 := by
  obtain ⟨f', rfl, h⟩ := h
  refine ⟨f' * (2 * f 0), by simp [Dual.square, sq], ?_⟩
  have := h.pow 2
  simp only [Nat.cast_ofNat, Nat.add_one_sub_one, pow_one] at this
  rw [mul_comm]
  exact this

theorem tracks_sqrt {a : Dual.D} {f : ℝ → ℝ} (h : Tracks a f) (hpos : 0 < f 0) :
    Tracks (Dual.sqrt a) fun s => Real.sqrt (f s) := by
  obtain ⟨f', rfl, h⟩ := h
  have hs : Real.sqrt (f 0) ≠ 0 := (Real.sqrt_pos.mpr hpos).ne'
  refine ⟨f' / (2 * Real.sqrt (f 0)), ?_, h.sqrt hpos.ne'⟩
  simp only [Dual.sqrt, XR.sqrt_fin hpos.le, XR.fin_div hs, XR.fin_mul]
  congr 2
  field_simp

theorem tracks_sum {d : ℕ} {a : Fin d → Dual.D} {f : Fin d → ℝ → ℝ} (h : ∀ k, Tracks (a k) (f k)) :
    Tracks (Dual.sum a) fun s => ∑ k, f k s := by
  choose f' ha hf using h
  refine ⟨∑ k, f' k, ?_, HasDerivAt.fun_sum fun k _ => hf k⟩
  simp only [Dual.sum, ha, XR.sum_fin]

theorem tracks_norm {d : ℕ} {a : Fin d → Dual.D} {f : Fin d → ℝ → ℝ} (h : ∀ k, Tracks (a k) (f k))
    (hne : ∃ k, f k 0 ≠ 0) : Tracks (Dual.norm a) fun s => norm2 fun k => f k s := by
  have := tracks_sqrt (tracks_sum fun k => tracks_mul (h k) (h k)) (by
    obtain ⟨k, hk⟩ := hne
    exact Finset.sum_pos' (fun _ _ => mul_self_nonneg _)
      ⟨k, Finset.mem_univ k, mul_self_pos.mpr hk⟩)
  unfold norm2
  simp only [sq]
  exact this

theorem tracks_softened {a : Dual.D} {f : ℝ → ℝ} (h : Tracks a f) (c : ℝ) (hne : f 0 ≠ 0) :
    Tracks (Dual.softened a c) fun s => softened (f s) c := by
  have := tracks_addConst (tracks_sqrt (tracks_addConst (tracks_square h) (c ^ 2)) (by positivity))
    (-c)
  unfold softened
  simp only [sub_eq_add_neg]
  exact this

theorem tracks_moving {α : Type*} {d : ℕ} (x u : α → Fin d → ℝ) (i : α) (k : Fin d) :
    Tracks (Dual.moving x u i k) fun s => x i k + s * u i k := by
  refine ⟨u i k, by simp [Dual.moving], ?_⟩
  simpa using (HasDerivAt.mul_const (hasDerivAt_id (0 : ℝ)) (u i k)).const_add (x i k)

/-- C85: automatic differentiation of the electron-electron distances gives their values and their
true derivatives in every direction, also on the diagonal, wherever no two electrons coincide. -/
theorem ee_norm_derivative {α : Type*} [DecidableEq α] {d : ℕ} (hd : 0 < d) (c : ℝ)
    (x u : α → Fin d → ℝ) (hx : ∀ i j, i ≠ j → x i ≠ x j) (i j : α) :
    Tracks (Dual.eeNormSafeDiag c (Dual.eeDisplacements (Dual.moving x u)) i j)
      fun s => eeNormSafeDiag c
        (displacements (fun i k => x i k + s * u i k) (fun i k => x i k + s * u i k)) i j := by
  have h1 : ∀ k, Tracks
      (Dual.addConst (Dual.eeDisplacements (Dual.moving x u) i j k) (if i = j then 1 else 0))
      fun s => (x i k + s * u i k) - (x j k + s * u j k) + if i = j then 1 else 0 := fun k =>
    tracks_addConst (tracks_sub (tracks_moving x u i k) (tracks_moving x u j k)) _
  have hne : ∃ k, (x i k + 0 * u i k) - (x j k + 0 * u j k) + (if i = j then (1 : ℝ) else 0) ≠ 0 := by
    by_cases h : i = j
    · subst h
      exact ⟨⟨0, hd⟩, by simp⟩
    · obtain ⟨k, hk⟩ := Function.ne_iff.mp (hx i j h)
      exact ⟨k, by simpa [h, sub_eq_zero] using hk⟩
  have hn := tracks_norm h1 hne
  have hn0 : norm2 (fun k => (x i k + 0 * u i k) - (x j k + 0 * u j k) +
      if i = j then (1 : ℝ) else 0) ≠ 0 := by
    obtain ⟨k, hk⟩ := hne
    refine (Real.sqrt_pos.mpr (Finset.sum_pos' (fun _ _ => sq_nonneg _)
      ⟨k, Finset.mem_univ k, ?_⟩)).ne'
    positivity
  exact tracks_mulConst (tracks_softened hn c hn0) _

/-- C85: the derivative on the diagonal is 0. -/
theorem ee_norm_derivative_diag {α : Type*} [DecidableEq α] {d : ℕ} (hd : 0 < d) (c : ℝ)
    (x u : α → Fin d → ℝ) (hx : ∀ i j, i ≠ j → x i ≠ x j) (i : α) :
    Dual.eeNormSafeDiag c (Dual.eeDisplacements (Dual.moving x u)) i i = ⟨.fin 0, .fin 0⟩ := by
  obtain ⟨f', h, hf⟩ := ee_norm_derivative hd c x u hx i i
  have h0 : (fun s : ℝ => eeNormSafeDiag c
      (displacements (fun i k => x i k + s * u i k) (fun i k => x i k + s * u i k)) i i) =
      fun _ => 0 := by
    funext s
    simp [eeNormSafeDiag]
  rw [h0] at h hf
  rw [h, hf.unique (hasDerivAt_const 0 0)]

theorem norm_zero_nan {d : ℕ} (a : Fin d → Dual.D) (u : Fin d → ℝ)
    (ha : ∀ k, a k = ⟨.fin 0, .fin (u k)⟩) : Dual.norm a = ⟨.fin 0, .nan⟩ := by
  unfold Dual.norm Dual.sum Dual.mul
  simp only [ha, XR.fin_mul, XR.fin_add, mul_zero, zero_mul, add_zero, XR.sum_fin,
    Finset.sum_const_zero, Dual.sqrt, XR.sqrt_fin le_rfl, Real.sqrt_zero]
  congr 1
  show XR.mul (.fin 0) (XR.div (.fin (1 / 2)) (.fin 0)) = .nan
  simp [XR.div, XR.infMul, XR.mul]

/-- C85: the plain norm of a vanishing displacement, as on the diagonal without the trick, has
derivative nan, whatever the velocities. -/
theorem plain_norm_derivative_nan {α : Type*} {d : ℕ} (x u : α → Fin d → ℝ) (i : α) :
    Dual.norm (Dual.eeDisplacements (Dual.moving x u) i i) = ⟨.fin 0, .nan⟩ :=
  norm_zero_nan _ (fun _ => 0) fun k => by simp [Dual.eeDisplacements, Dual.moving, Dual.sub]

/-- C85: automatic differentiation of the electron-ion distances gives their values and their true
derivatives in every direction for electrons which are at no ion. -/
theorem ei_norm_derivative_partial {α β : Type*} {d : ℕ} (c : ℝ) (x u : α → Fin d → ℝ)
    (R : β → Fin d → ℝ) (i : α) (j : β) (hx : x i ≠ R j) :
    Tracks (Dual.eiNorm c (Dual.eiDisplacements (Dual.moving x u) R i j))
      fun s => softened (norm2 (displacements (fun i k => x i k + s * u i k) R i j)) c := by
  have h1 : ∀ k, Tracks (Dual.eiDisplacements (Dual.moving x u) R i j k)
      fun s => x i k + s * u i k - R j k := fun k => by
    simp only [sub_eq_add_neg]
    exact tracks_addConst (tracks_moving x u i k) (-R j k)
  have hne : ∃ k, x i k + 0 * u i k - R j k ≠ 0 := by
    obtain ⟨k, hk⟩ := Function.ne_iff.mp hx
    exact ⟨k, by simpa [sub_eq_zero] using hk⟩
  refine tracks_softened (tracks_norm h1 hne) c ?_
  obtain ⟨k, hk⟩ := hne
  refine (Real.sqrt_pos.mpr (Finset.sum_pos' (fun _ _ => sq_nonneg _)
    ⟨k, Finset.mem_univ k, ?_⟩)).ne'
  positivity

/-- C85: at an ion the derivative is nan, also with softening. -/
theorem ei_norm_derivative_at_ion {α β : Type*} {d : ℕ} (c : ℝ) (x u : α → Fin d → ℝ)
    (R : β → Fin d → ℝ) (i : α) (j : β) (hx : x i = R j) :
    (Dual.eiNorm c (Dual.eiDisplacements (Dual.moving x u) R i j)).t = .nan := by
  unfold Dual.eiNorm
  rw [norm_zero_nan _ (u i) fun k => by simp [Dual.eiDisplacements, Dual.moving, Dual.addConst, hx]]
  simp [Dual.softened, Dual.addConst, Dual.sqrt, Dual.square]

/-- C85: although with softening the distance is differentiable there. -/
theorem softened_distance_differentiable {d : ℕ} (c : ℝ) (hc : 0 < c) (x u : Fin d → ℝ)
    (R : Fin d → ℝ) : DifferentiableAt ℝ (fun s : ℝ => softened (norm2 fun k => x k + s * u k - R k) c)
      0 := by
  unfold softened norm2
  have h : ∀ s : ℝ, Real.sqrt (∑ k, (x k + s * u k - R k) ^ 2) ^ 2 = ∑ k, (x k + s * u k - R k) ^ 2 :=
    fun s => Real.sq_sqrt (Finset.sum_nonneg fun _ _ => sq_nonneg _)
  simp only [h]
  refine DifferentiableAt.sub_const (DifferentiableAt.sqrt ?_ ?_) _
  · fun_prop
  · have := Finset.sum_nonneg fun k (_ : k ∈ (Finset.univ : Finset (Fin d))) =>
      sq_nonneg (x k + 0 * u k - R k)
    positivity

/-- C85: softened distances of electrons at ions are differentiable, but automatic differentiation
gives nan. -/
theorem softened_ei_derivative_fails : ¬ ∀ (c : ℝ) (x u : Fin 1 → Fin 3 → ℝ) (R : Fin 1 → Fin 3 → ℝ),
    DifferentiableAt ℝ (fun s : ℝ => softened
      (norm2 (displacements (fun i k => x i k + s * u i k) R 0 0)) c) 0 →
    Tracks (Dual.eiNorm c (Dual.eiDisplacements (Dual.moving x u) R 0 0))
      fun s => softened (norm2 (displacements (fun i k => x i k + s * u i k) R 0 0)) c := by
  intro h
  obtain ⟨f', h1, -⟩ := h 1 (fun _ _ => 0) (fun _ _ => 1) (fun _ _ => 0)
    (softened_distance_differentiable 1 one_pos (fun _ => 0) (fun _ => 1) (fun _ => 0))
  have h2 := ei_norm_derivative_at_ion 1 (fun (_ : Fin 1) (_ : Fin 3) => 0) (fun _ _ => 1)
    (fun (_ : Fin 1) _ => 0) 0 0 rfl
  rw [h1] at h2
  cases h2

/-- Two electrons at distance 1 on a line, the second moving away with speed 2. -/
example : Tracks (Dual.eeNormSafeDiag 0 (Dual.eeDisplacements
    (Dual.moving (fun (i : Fin 2) (_ : Fin 1) => (i.val : ℝ)) fun i _ => 2 * i.val)) 0 1)
    fun s => |1 + 2 * s| := by
  have h := ee_norm_derivative one_pos 0 (fun (i : Fin 2) (_ : Fin 1) => (i.val : ℝ))
    (fun i _ => 2 * i.val) (fun i j hij h => hij (Fin.ext (by exact_mod_cast congrFun h 0))) 0 1
  convert h using 2 with s
  simp [eeNormSafeDiag, softened, norm2, displacements, Real.sqrt_sq_eq_abs]
  rw [← abs_neg]
  ring_nf

end Verif.Props
