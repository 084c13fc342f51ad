import Mathlib.Data.Real.Basic
import Mathlib.Analysis.Real.Sqrt
import Mathlib.Analysis.SpecialFunctions.Log.Basic

/-!
Scalars used wherever nan / infinity / division by zero / log 0 decide behaviour.

`XR` is "floating point without rounding": exact reals plus the special values of IEEE
754 with the IEEE rules for them.  Simplifications: no rounding, no overflow, a single
(positive) zero, so `x / 0` has the sign of `x`.
-/

namespace Verif

/-- Model of a jnp/np floating scalar: exact reals plus nan and the two infinities. -/
inductive XR where
  | nan
  | ninf
  | fin (r : ℝ)
  | pinf

namespace XR

/-- IEEE addition on the idealised scalars. -/
noncomputable def add : XR → XR → XR
  | nan, _ => nan
  | _, nan => nan
  | fin a, fin b => fin (a + b)
  | fin _, pinf => pinf
  | fin _, ninf => ninf
  | pinf, fin _ => pinf
  | ninf, fin _ => ninf
  | pinf, pinf => pinf
  | ninf, ninf => ninf
  | pinf, ninf => nan
  | ninf, pinf => nan

/-- IEEE negation. -/
noncomputable def neg : XR → XR
  | nan => nan
  | fin a => fin (-a)
  | pinf => ninf
  | ninf => pinf

open Classical in
/-- Infinity times a real: nan at zero, otherwise an infinity of the right sign. -/
noncomputable def infMul (a : ℝ) : XR :=
  if a = 0 then nan else if 0 < a then pinf else ninf

/-- IEEE multiplication. -/
noncomputable def mul : XR → XR → XR
  | nan, _ => nan
  | _, nan => nan
  | fin a, fin b => fin (a * b)
  | fin a, pinf => infMul a
  | fin a, ninf => infMul (-a)
  | pinf, fin a => infMul a
  | ninf, fin a => infMul (-a)
  | pinf, pinf => pinf
  | ninf, ninf => pinf
  | pinf, ninf => ninf
  | ninf, pinf => ninf

open Classical in
/-- IEEE division (a single positive zero, so `x / 0` takes the sign of `x`). -/
noncomputable def div : XR → XR → XR
  | nan, _ => nan
  | _, nan => nan
  | fin a, fin b => if b = 0 then infMul a else fin (a / b)
  | fin _, pinf => fin 0
  | fin _, ninf => fin 0
  | pinf, fin a => if 0 ≤ a then pinf else ninf
  | ninf, fin a => if 0 ≤ a then ninf else pinf
  | pinf, pinf => nan
  | pinf, ninf => nan
  | ninf, pinf => nan
  | ninf, ninf => nan

noncomputable instance : Add XR := ⟨add⟩
noncomputable instance : Neg XR := ⟨neg⟩
noncomputable instance : Sub XR := ⟨fun a b => add a (neg b)⟩
noncomputable instance : Mul XR := ⟨mul⟩
noncomputable instance : Div XR := ⟨div⟩

/-- IEEE `<`: false whenever an argument is nan. -/
def lt : XR → XR → Prop
  | nan, _ => False
  | _, nan => False
  | fin a, fin b => a < b
  | fin _, pinf => True
  | fin _, ninf => False
  | pinf, _ => False
  | ninf, ninf => False
  | ninf, fin _ => True
  | ninf, pinf => True

/-- IEEE `<=`: false whenever an argument is nan. -/
def le : XR → XR → Prop
  | nan, _ => False
  | _, nan => False
  | fin a, fin b => a ≤ b
  | fin _, pinf => True
  | fin _, ninf => False
  | pinf, pinf => True
  | pinf, _ => False
  | ninf, _ => True

/-- `isnan`. -/
def isNan : XR → Prop
  | nan => True
  | _ => False

/-- `isfinite`. -/
def isFin : XR → Prop
  | fin _ => True
  | _ => False

open Classical in
/-- `jnp.minimum`: nan if either argument is nan. -/
noncomputable def minimum (a b : XR) : XR :=
  if a.isNan ∨ b.isNan then nan else if lt a b then a else b

open Classical in
/-- `jnp.maximum`: nan if either argument is nan. -/
noncomputable def maximum (a b : XR) : XR :=
  if a.isNan ∨ b.isNan then nan else if lt b a then a else b

open Classical in
/-- `jnp.sqrt`: nan on negative input. -/
noncomputable def sqrt : XR → XR
  | nan => nan
  | ninf => nan
  | fin a => if a < 0 then nan else fin (Real.sqrt a)
  | pinf => pinf

/-- `jnp.exp`. -/
noncomputable def exp : XR → XR
  | nan => nan
  | ninf => fin 0
  | fin a => fin (Real.exp a)
  | pinf => pinf

open Classical in
/-- `jnp.log`: `-inf` at zero, nan on negative input. -/
noncomputable def log : XR → XR
  | nan => nan
  | ninf => nan
  | fin a => if a < 0 then nan else if a = 0 then ninf else fin (Real.log a)
  | pinf => pinf

/-- `jnp.abs`. -/
noncomputable def abs : XR → XR
  | nan => nan
  | ninf => pinf
  | fin a => fin |a|
  | pinf => pinf

open Classical in
/-- `jnp.sign`. -/
noncomputable def sign : XR → XR
  | nan => nan
  | ninf => fin (-1)
  | fin a => if a < 0 then fin (-1) else if a = 0 then fin 0 else fin 1
  | pinf => fin 1

/-- A Python int used as a scalar. -/
noncomputable def ofNat (n : ℕ) : XR := fin (n : ℝ)

@[simp] theorem fin_add (a b : ℝ) : (fin a + fin b : XR) = fin (a + b) := rfl
@[simp] theorem fin_sub (a b : ℝ) : (fin a - fin b : XR) = fin (a - b) := by
  show add (fin a) (neg (fin b)) = _
  simp [add, neg, sub_eq_add_neg]
@[simp] theorem fin_neg (a : ℝ) : (-(fin a) : XR) = fin (-a) := rfl
@[simp] theorem fin_mul (a b : ℝ) : (fin a * fin b : XR) = fin (a * b) := rfl
theorem fin_div {a b : ℝ} (h : b ≠ 0) : (fin a / fin b : XR) = fin (a / b) := by
  show div (fin a) (fin b) = _
  simp [div, h]
@[simp] theorem nan_add (x : XR) : (nan + x : XR) = nan := by cases x <;> rfl
@[simp] theorem add_nan (x : XR) : (x + nan : XR) = nan := by cases x <;> rfl
@[simp] theorem nan_sub (x : XR) : (nan - x : XR) = nan := by cases x <;> rfl
@[simp] theorem sub_nan (x : XR) : (x - nan : XR) = nan := by cases x <;> rfl
@[simp] theorem nan_mul (x : XR) : (nan * x : XR) = nan := by cases x <;> rfl
@[simp] theorem mul_nan (x : XR) : (x * nan : XR) = nan := by cases x <;> rfl
@[simp] theorem nan_div (x : XR) : (nan / x : XR) = nan := by cases x <;> rfl
@[simp] theorem div_nan (x : XR) : (x / nan : XR) = nan := by cases x <;> rfl
@[simp] theorem fin_lt (a b : ℝ) : lt (fin a) (fin b) ↔ a < b := Iff.rfl
@[simp] theorem fin_le (a b : ℝ) : le (fin a) (fin b) ↔ a ≤ b := Iff.rfl
@[simp] theorem fin_lt_pinf (a : ℝ) : lt (fin a) pinf := trivial
@[simp] theorem not_nan_lt (x : XR) : ¬ lt nan x := by cases x <;> exact id
@[simp] theorem not_lt_nan (x : XR) : ¬ lt x nan := by cases x <;> exact id
theorem sqrt_fin {a : ℝ} (h : 0 ≤ a) : sqrt (fin a) = fin (Real.sqrt a) := by
  simp [sqrt, not_lt.mpr h]
theorem log_fin {a : ℝ} (h : 0 < a) : log (fin a) = fin (Real.log a) := by
  simp [log, not_lt.mpr h.le, h.ne']
@[simp] theorem log_zero : log (fin 0) = ninf := by simp [log]
@[simp] theorem exp_fin (a : ℝ) : exp (fin a) = fin (Real.exp a) := rfl
@[simp] theorem abs_fin (a : ℝ) : abs (fin a) = fin |a| := rfl
@[simp] theorem fin_inj {a b : ℝ} : fin a = fin b ↔ a = b := by
  constructor
  · intro h; cases h; rfl
  · rintro rfl; rfl
theorem minimum_fin (a b : ℝ) : minimum (fin a) (fin b) = fin (min a b) := by
  unfold minimum
  simp only [isNan, or_self, if_false, fin_lt]
  split_ifs with h
  · simp [min_eq_left h.le]
  · simp [min_eq_right (not_lt.mp h)]
theorem minimum_nan_left (x : XR) : minimum nan x = nan := by simp [minimum, isNan]
theorem minimum_nan_right (x : XR) : minimum x nan = nan := by simp [minimum, isNan]
theorem minimum_pinf_right (a : ℝ) : minimum (fin a) pinf = fin a := by
  simp [minimum, isNan]

end XR
end Verif
