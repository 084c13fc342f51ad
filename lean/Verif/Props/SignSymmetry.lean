import Verif.Model.SignSymmetry
import Verif.Props.Slog
import Mathlib.Tactic

/-! C46: sign symmetrization. -/

namespace Verif.Props
open Verif.Slog Verif.SignSym Verif.Spec

theorem signArray1d_eq (i s : ℕ) : signArray1d i s = if s.testBit i then -1 else 1 := by
  unfold signArray1d
  have h : (2 ^ i &&& s = 0) ↔ s.testBit i = false := by
    rw [Nat.two_pow_and]
    cases h : s.testBit i <;> simp
  by_cases hb : s.testBit i
  · rw [if_neg (by rw [h, hb]; simp), if_pos hb, pow_one]
  · rw [if_pos (by rw [h]; simpa using hb), if_neg hb, pow_zero]

theorem signArray1d_sq (i s : ℕ) : signArray1d i s * signArray1d i s = 1 := by
  rw [signArray1d_eq]; split_ifs <;> norm_num

/-- flipping bit `i` of the orbit index -/
def flipBit {N : ℕ} (i : Fin N) : Equiv.Perm (Fin (2 ^ N)) where
  toFun s := ⟨s.val ^^^ 2 ^ i.val, Nat.xor_lt_two_pow s.2 (Nat.pow_lt_pow_right (by norm_num) i.2)⟩
  invFun s := ⟨s.val ^^^ 2 ^ i.val, Nat.xor_lt_two_pow s.2 (Nat.pow_lt_pow_right (by norm_num) i.2)⟩
  left_inv s := Fin.ext (by simp)
  right_inv s := Fin.ext (by simp)

theorem sign_flip_self {N : ℕ} (i : Fin N) (s : Fin (2 ^ N)) :
    signArray1d i (flipBit i s) = -signArray1d i s := by
  rw [signArray1d_eq, signArray1d_eq]
  show (if (s.val ^^^ 2 ^ i.val).testBit i then (-1 : ℝ) else 1) = _
  rw [Nat.testBit_xor, Nat.testBit_two_pow_self]
  cases s.val.testBit i <;> simp

theorem sign_flip_other {N : ℕ} {i j : Fin N} (h : j ≠ i) (s : Fin (2 ^ N)) :
    signArray1d j (flipBit i s) = signArray1d j s := by
  rw [signArray1d_eq, signArray1d_eq]
  show (if (s.val ^^^ 2 ^ i.val).testBit j then (-1 : ℝ) else 1) = _
  rw [Nat.testBit_xor, Nat.testBit_two_pow_of_ne (fun hh => h (Fin.ext hh.symm)), Bool.xor_false]

theorem combined_flip {N : ℕ} (i : Fin N) (s : Fin (2 ^ N)) :
    combinedSigns N (flipBit i s) = -combinedSigns N s := by
  unfold combinedSigns
  rw [← Finset.mul_prod_erase _ _ (Finset.mem_univ i),
    ← Finset.mul_prod_erase (a := i) _ (fun j : Fin N => signArray1d j s) (Finset.mem_univ i),
    sign_flip_self, neg_mul]
  congr 2
  exact Finset.prod_congr rfl fun j hj => sign_flip_other (Finset.ne_of_mem_erase hj) s

variable {N : ℕ} {ι : Fin N → Type*} {o : Type*}

/-- negate array number `i` of the list -/
def negateAt [DecidableEq (Fin N)] (i : Fin N) (x : ∀ i, ι i → ℝ) : ∀ i, ι i → ℝ :=
  Function.update x i (fun a => -x i a)

theorem orbit_flip (i : Fin N) (x : ∀ i, ι i → ℝ) (s : Fin (2 ^ N)) :
    (fun j => orbitSingleArray (negateAt i x j) j s) =
      fun j => orbitSingleArray (x j) j (flipBit i s) := by
  funext j a
  unfold orbitSingleArray negateAt
  by_cases h : j = i
  · subst h
    rw [Function.update_self, sign_flip_self]
    ring
  · rw [Function.update_of_ne h, sign_flip_other h]

/-- C46: the covariant symmetrization of any function is odd in every input array. -/
theorem sign_covariant_odd (fn : (∀ i, ι i → ℝ) → o → ℝ) (x : ∀ i, ι i → ℝ) (i : Fin N) (c : o) :
    arrayListSignCovariant fn (negateAt i x) c = -arrayListSignCovariant fn x c := by
  unfold arrayListSignCovariant
  rw [← Finset.sum_neg_distrib]
  refine Fintype.sum_equiv (flipBit i) _ _ fun s => ?_
  rw [orbit_flip, combined_flip, neg_mul, neg_neg]

/-- C46: the invariant symmetrization of any function is even in every input array. -/
theorem sign_invariant_even (fn : (∀ i, ι i → ℝ) → o → ℝ) (x : ∀ i, ι i → ℝ) (i : Fin N) (c : o) :
    arrayListSignInvariant fn (negateAt i x) c = arrayListSignInvariant fn x c := by
  unfold arrayListSignInvariant
  exact Fintype.sum_equiv (flipBit i) _ _ fun s => by rw [orbit_flip]

/-- C46: a function which is already odd in every input is only multiplied by `2^N`, so the
symmetrization loses nothing. -/
theorem sign_covariant_of_odd (fn : (∀ i, ι i → ℝ) → o → ℝ)
    (hodd : ∀ (e : Fin N → ℝ), (∀ i, e i = 1 ∨ e i = -1) → ∀ x c,
      fn (fun i a => e i * x i a) c = (∏ i, e i) * fn x c) (x : ∀ i, ι i → ℝ) (c : o) :
    arrayListSignCovariant fn x c = 2 ^ N * fn x c := by
  unfold arrayListSignCovariant
  have : ∀ s : Fin (2 ^ N),
      combinedSigns N s * fn (fun i => orbitSingleArray (x i) i s) c = fn x c := by
    intro s
    have h := hodd (fun i => signArray1d i s) (fun i => by
      rw [signArray1d_eq]; split_ifs <;> simp) x c
    unfold orbitSingleArray
    rw [h]
    unfold combinedSigns
    rw [← mul_assoc, ← Finset.prod_mul_distrib]
    simp [signArray1d_sq]
  simp [this]

/-! The same for (sign, log) arrays -/

theorem maximum_comm (a b : XR) : XR.maximum a b = XR.maximum b a := by
  cases a <;> cases b <;> simp [XR.maximum, XR.isNan, XR.lt]
  rename_i r s
  rcases lt_trichotomy r s with h | h | h
  · simp [h, not_lt.mpr h.le]
  · simp [h]
  · simp [h, not_lt.mpr h.le]

theorem maximum_fin' (a b : ℝ) : XR.maximum (.fin a) (.fin b) = .fin (max a b) := by
  unfold XR.maximum
  simp only [XR.isNan, or_self, if_false, XR.fin_lt]
  split_ifs with h
  · simp [max_eq_left h.le]
  · simp [max_eq_right (not_lt.mp h)]

theorem maximum_assoc (a b c : XR) :
    XR.maximum (XR.maximum a b) c = XR.maximum a (XR.maximum b c) := by
  have n1 : ∀ x, XR.maximum .nan x = .nan := fun x => by simp [XR.maximum, XR.isNan]
  have n2 : ∀ x, XR.maximum x .nan = .nan := fun x => by simp [XR.maximum, XR.isNan]
  have i1 : ∀ r, XR.maximum .ninf (.fin r) = .fin r := fun r => by simp [XR.maximum, XR.isNan, XR.lt]
  have i2 : ∀ r, XR.maximum (.fin r) .ninf = .fin r := fun r => by simp [XR.maximum, XR.isNan, XR.lt]
  have i3 : XR.maximum .ninf .ninf = .ninf := by simp [XR.maximum, XR.isNan, XR.lt]
  have p1 : ∀ r, XR.maximum .pinf (.fin r) = .pinf := fun r => by simp [XR.maximum, XR.isNan, XR.lt]
  have p2 : ∀ r, XR.maximum (.fin r) .pinf = .pinf := fun r => by simp [XR.maximum, XR.isNan, XR.lt]
  have p3 : XR.maximum .pinf .pinf = .pinf := by simp [XR.maximum, XR.isNan, XR.lt]
  have p4 : XR.maximum .ninf .pinf = .pinf := by simp [XR.maximum, XR.isNan, XR.lt]
  have p5 : XR.maximum .pinf .ninf = .pinf := by simp [XR.maximum, XR.isNan, XR.lt]
  cases a <;> cases b <;> cases c <;>
    simp only [n1, n2, i1, i2, i3, p1, p2, p3, p4, p5, maximum_fin', max_assoc]

theorem axisMax_perm {d : ℕ} (e : Equiv.Perm (Fin d)) (v : Fin d → XR) :
    axisMax (fun s => v (e s)) = axisMax v := by
  unfold axisMax
  have hp : (List.ofFn fun s => v (e s)).Perm (List.ofFn v) := by
    exact Equiv.Perm.ofFn_comp_perm e v
  have : RightCommutative XR.maximum := ⟨fun a b c => by
    rw [maximum_assoc, maximum_comm b c, ← maximum_assoc]⟩
  exact hp.foldl_eq _

theorem neg_add' (a b : XR) : -(a + b) = -a + -b := by
  show XR.neg (XR.add a b) = XR.add (XR.neg a) (XR.neg b)
  cases a <;> cases b <;> simp [XR.add, XR.neg, add_comm]

theorem neg_sum' {κ : Type*} (s : Finset κ) (f : κ → XR) : -(∑ i ∈ s, f i) = ∑ i ∈ s, -f i := by
  classical
  induction s using Finset.induction_on with
  | empty =>
    show XR.neg (.fin 0) = .fin 0
    simp [XR.neg]
  | insert a s ha ih => rw [Finset.sum_insert ha, Finset.sum_insert ha, neg_add', ih]

theorem neg_mul' (a b : XR) : -a * b = -(a * b) := by
  show XR.mul (XR.neg a) b = XR.neg (XR.mul a b)
  have hinf : ∀ r : ℝ, XR.infMul (-r) = XR.neg (XR.infMul r) := by
    intro r
    unfold XR.infMul
    rcases lt_trichotomy r 0 with h | h | h
    · simp [h.ne, h, not_lt.mpr h.le, XR.neg]
    · simp [h, XR.neg]
    · simp [h.ne', h, not_lt.mpr h.le, XR.neg]
  have hinf2 : ∀ r : ℝ, XR.infMul r = XR.neg (XR.infMul (-r)) := by
    intro r
    have := hinf (-r)
    rw [neg_neg] at this
    rw [this]
  cases a <;> cases b <;>
    simp only [XR.mul, XR.neg, neg_mul] <;> first | exact hinf _ | exact hinf2 _

theorem slogSum_neg_perm {d : ℕ} (e : Equiv.Perm (Fin d)) (x y : Fin d → SL)
    (h : ∀ s, y s = (-(x (e s)).1, (x (e s)).2)) :
    slogSumOverAxis y = (-(slogSumOverAxis x).1, (slogSumOverAxis x).2) := by
  have hmax : axisMax (fun i => (y i).2) = axisMax (fun i => (x i).2) := by
    rw [← axisMax_perm e (fun i => (x i).2)]
    congr 1
    funext s
    rw [h s]
  have hsum : ∑ i, termsDividedByMax (fun i => (y i).1) (fun i => (y i).2) i =
      -∑ i, termsDividedByMax (fun i => (x i).1) (fun i => (x i).2) i := by
    rw [neg_sum']
    refine Fintype.sum_equiv e _ _ fun s => ?_
    unfold termsDividedByMax
    rw [hmax, ← neg_mul']
    show (y s).1 * ((y s).2 - _).exp = _
    rw [h s]
  unfold slogSumOverAxis logLinearExpSum
  rw [hsum, hmax]
  unfold finishLogLinear
  generalize (∑ i, termsDividedByMax (fun i => (x i).1) (fun i => (x i).2) i) = t
  have h1 : XR.sign (-t) = -XR.sign t := by
    show XR.sign (XR.neg t) = XR.neg (XR.sign t)
    cases t with
    | fin r =>
      simp only [XR.neg]
      rcases lt_trichotomy r 0 with h | h | h
      · rw [Slog.sign_neg h, Slog.sign_pos (by linarith)]; simp
      · subst h; rw [neg_zero, Slog.sign_zero]; simp
      · rw [Slog.sign_pos h, Slog.sign_neg (by linarith)]
    | _ => simp [XR.sign, XR.neg]
  have h2 : XR.abs (-t) = XR.abs t := by
    show XR.abs (XR.neg t) = XR.abs t
    cases t <;> simp [XR.abs, XR.neg]
  rw [h1, h2]

/-- negate SL array number `i` of the list -/
noncomputable def negateSlAt (i : Fin N) (x : ∀ i, ι i → SL) : ∀ i, ι i → SL :=
  Function.update x i (fun a => (-(x i a).1, (x i a).2))

theorem mul_comm' (a b : XR) : a * b = b * a := by
  show XR.mul a b = XR.mul b a
  cases a <;> cases b <;> simp [XR.mul, mul_comm]

/-- C46: the covariant symmetrization of a function of (sign, log) arrays flips the sign and
keeps the log, for any function and any inputs, including zeros, infinities and nans. -/
theorem sl_sign_covariant_odd (fn : (∀ i, ι i → SL) → o → SL) (x : ∀ i, ι i → SL) (i : Fin N)
    (c : o) :
    slArrayListSignCovariant fn (negateSlAt i x) c =
      (-(slArrayListSignCovariant fn x c).1, (slArrayListSignCovariant fn x c).2) := by
  unfold slArrayListSignCovariant
  refine slogSum_neg_perm (flipBit i) _ _ fun s => ?_
  have horb : (fun j => orbitSingleSlArray (negateSlAt i x j) j s) =
      fun j => orbitSingleSlArray (x j) j (flipBit i s) := by
    funext j a
    unfold orbitSingleSlArray negateSlAt slogMultiply
    by_cases h : j = i
    · subst h
      rw [Function.update_self, sign_flip_self]
      ext1
      · show -(x j a).1 * XR.fin (signArray1d j s) = (x j a).1 * XR.fin (-signArray1d j s)
        rw [← XR.fin_neg, neg_mul', mul_comm' _ (-XR.fin _), neg_mul', mul_comm' _ (x j a).1]
      · rfl
    · rw [Function.update_of_ne h, sign_flip_other h]
  simp only [horb, combined_flip]
  rw [← XR.fin_neg, neg_mul']
  ext1
  · show _ = - -_
    generalize XR.fin (combinedSigns N s) * _ = t
    show t = XR.neg (XR.neg t)
    cases t <;> simp [XR.neg]
  · rfl

/-- C46: the (sign, log) symmetrization represents the real one, when `fn` on representations
represents a real function `F` and not every term of the orbit is zero. -/
theorem sl_sign_covariant_represents (fn : (∀ i, ι i → SL) → o → SL)
    (F : (∀ i, ι i → ℝ) → o → ℝ)
    (hfn : ∀ p r, (∀ i a, Represents (p i a) (r i a)) → ∀ c, Represents (fn p c) (F r c))
    (p : ∀ i, ι i → SL) (r : ∀ i, ι i → ℝ) (hp : ∀ i a, Represents (p i a) (r i a)) (c : o)
    (hne : ∃ s : Fin (2 ^ N), F (fun i => orbitSingleArray (r i) i s) c ≠ 0) :
    Represents (slArrayListSignCovariant fn p c) (arrayListSignCovariant F r c) := by
  have hsign : ∀ i s, Represents (XR.fin (signArray1d i s), XR.fin 0) (signArray1d i s) := by
    intro i s
    rw [signArray1d_eq]
    split_ifs
    · right; left; norm_num
    · left; norm_num
  have hcomb : ∀ s : Fin (2 ^ N), combinedSigns N s = 1 ∨ combinedSigns N s = -1 := by
    intro s
    have : combinedSigns N s * combinedSigns N s = 1 := by
      unfold combinedSigns
      rw [← Finset.prod_mul_distrib]
      simp [signArray1d_sq]
    exact mul_self_eq_one_iff.mp this
  unfold slArrayListSignCovariant arrayListSignCovariant
  refine slog_sum_over_axis_represents _ _ (fun s => ?_) ?_
  · have hout := hfn (fun i => orbitSingleSlArray (p i) i s)
      (fun i => orbitSingleArray (r i) i s) (fun i a => by
        unfold orbitSingleSlArray orbitSingleArray
        rw [mul_comm]
        exact slog_multiply_represents (hp i a) (hsign i s)) c
    have hc : Represents (XR.fin (combinedSigns N s), XR.fin 0) (combinedSigns N s) := by
      rcases hcomb s with h | h <;> rw [h]
      · left; norm_num
      · right; left; norm_num
    have := slog_multiply_represents hc hout
    have e : slogMultiply (XR.fin (combinedSigns N s), XR.fin 0)
        (fn (fun i => orbitSingleSlArray (p i) i s) c) =
        (XR.fin (combinedSigns N s) * (fn (fun i => orbitSingleSlArray (p i) i s) c).1,
          (fn (fun i => orbitSingleSlArray (p i) i s) c).2) := by
      unfold slogMultiply
      ext1
      · rfl
      · show XR.fin 0 + _ = _
        exact zero_add (M := XR) _
    rw [e] at this
    exact this
  · obtain ⟨s, hs⟩ := hne
    refine ⟨s, mul_ne_zero ?_ hs⟩
    rcases hcomb s with h | h <;> rw [h] <;> norm_num

/-- Two inputs and the function `a + a b`: only the part odd in both survives, four times. -/
example (a b : ℝ) :
    arrayListSignCovariant (N := 2) (ι := fun _ => Unit) (o := Unit)
      (fun x _ => x 0 () + x 0 () * x 1 ()) (fun i _ => if i = 0 then a else b) () = 4 * (a * b) := by
  unfold arrayListSignCovariant
  show ∑ s : Fin 4, _ = _
  rw [Fin.sum_univ_four]
  simp [combinedSigns, orbitSingleArray, signArray1d_eq, Nat.testBit]
  ring

/-- C46 for `ProductsSignCovariance`: odd in each spin's array, with and without weights. -/
theorem products_covariance_odd {n₁ n₂ d features : ℕ}
    (kernel : Fin n₁ → Fin n₂ → Fin features → ℝ) (x : Fin n₁ → Fin d → ℝ)
    (y : Fin n₂ → Fin d → ℝ) (c : Fin features) :
    productsCovariance (fun i k => -x i k) y = -productsCovariance x y ∧
    productsCovariance x (fun j k => -y j k) = -productsCovariance x y ∧
    productsCovarianceWeighted kernel (fun i k => -x i k) y c =
      -productsCovarianceWeighted kernel x y c ∧
    productsCovarianceWeighted kernel x (fun j k => -y j k) c =
      -productsCovarianceWeighted kernel x y c := by
  refine ⟨?_, ?_, ?_, ?_⟩ <;>
    simp [productsCovariance, productsCovarianceWeighted, pairwiseDots, Finset.sum_neg_distrib]

end Verif.Props
