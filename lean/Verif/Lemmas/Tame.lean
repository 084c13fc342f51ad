import Verif.Spec.Decay
import Verif.Model.Physics
import Mathlib.Analysis.SpecialFunctions.Sqrt
import Mathlib.Analysis.SpecialFunctions.ExpDeriv
import Mathlib.Analysis.SpecialFunctions.Trigonometric.DerivHyp
import Mathlib.Analysis.Calculus.MeanValue
import Mathlib.Analysis.Calculus.Deriv.Pow
import Mathlib.LinearAlgebra.Matrix.Determinant.Basic

/-!
Functions of the positions of electrons whose first and second derivatives in the direction of one
coordinate are bounded by a weight times a polynomial, the second derivative up to
inverse distances.
-/

namespace Verif.Decay
open Verif.Spec Filter Topology

/-! ### Functions of one variable with polynomially bounded derivatives -/

/-- Bounded by a polynomial. -/
def Poly (φ : ℝ → ℝ) : Prop := ∃ C, ∃ p : ℕ, 0 ≤ C ∧ ∀ u, |φ u| ≤ C * (1 + |u|) ^ p

/-- Bounded by a polynomial, together with `n` derivatives. -/
def PolyC : ℕ → (ℝ → ℝ) → Prop
  | 0, φ => Poly φ
  | n + 1, φ => Poly φ ∧ ∃ φ', (∀ u, HasDerivAt φ (φ' u) u) ∧ PolyC n φ'

theorem PolyC.poly {n : ℕ} {φ : ℝ → ℝ} (h : PolyC n φ) : Poly φ := by
  cases n with
  | zero => exact h
  | succ n => exact h.1

theorem PolyC.weaken {n : ℕ} : ∀ {φ : ℝ → ℝ}, PolyC (n + 1) φ → PolyC n φ := by
  induction n with
  | zero => exact fun h => h.1
  | succ n ih =>
    rintro φ ⟨h, φ', h1, h2⟩
    exact ⟨h, φ', h1, ih h2⟩

theorem one_le_base (u : ℝ) : (1 : ℝ) ≤ 1 + |u| := by linarith [abs_nonneg u]

theorem Poly.add {φ ψ : ℝ → ℝ} : Poly φ → Poly ψ → Poly fun u => φ u + ψ u := by
  rintro ⟨C, p, hC, h⟩ ⟨C', p', hC', h'⟩
  refine ⟨C + C', p + p', by positivity, fun u => (abs_add_le _ _).trans ?_⟩
  have h1 := pow_le_pow_right₀ (one_le_base u) (Nat.le_add_right p p')
  have h2 := pow_le_pow_right₀ (one_le_base u) (Nat.le_add_left p' p)
  have := mul_le_mul_of_nonneg_left h1 hC
  have := mul_le_mul_of_nonneg_left h2 hC'
  linarith [h u, h' u]

theorem Poly.mul {φ ψ : ℝ → ℝ} : Poly φ → Poly ψ → Poly fun u => φ u * ψ u := by
  rintro ⟨C, p, hC, h⟩ ⟨C', p', hC', h'⟩
  refine ⟨C * C', p + p', by positivity, fun u => ?_⟩
  rw [abs_mul, pow_add]
  calc |φ u| * |ψ u| ≤ (C * (1 + |u|) ^ p) * (C' * (1 + |u|) ^ p') :=
        mul_le_mul (h u) (h' u) (abs_nonneg _) (by positivity)
    _ = _ := by ring

theorem Poly.comp {φ ψ : ℝ → ℝ} : Poly φ → Poly ψ → Poly fun u => φ (ψ u) := by
  rintro ⟨C, p, hC, h⟩ ⟨C', p', hC', h'⟩
  refine ⟨C * (1 + C') ^ p, p' * p, by positivity, fun u => (h _).trans ?_⟩
  rw [mul_assoc, pow_mul, ← mul_pow]
  refine mul_le_mul_of_nonneg_left (pow_le_pow_left₀ (by positivity) ?_ p) hC
  have h1 : (1 : ℝ) ≤ (1 + |u|) ^ p' := one_le_pow₀ (one_le_base u)
  nlinarith [h' u]

theorem Poly.const (c : ℝ) : Poly fun _ => c := ⟨|c|, 0, abs_nonneg c, fun u => by simp⟩

theorem Poly.id : Poly fun u => u := ⟨1, 1, zero_le_one, fun u => by simp⟩

theorem PolyC.add {n : ℕ} : ∀ {φ ψ : ℝ → ℝ}, PolyC n φ → PolyC n ψ → PolyC n fun u => φ u + ψ u := by
  induction n with
  | zero => exact fun h h' => Poly.add h h'
  | succ n ih =>
    rintro φ ψ ⟨h, φ', h1, h2⟩ ⟨h', ψ', h1', h2'⟩
    exact ⟨h.add h', _, fun u => (h1 u).add (h1' u), ih h2 h2'⟩

theorem PolyC.mul {n : ℕ} : ∀ {φ ψ : ℝ → ℝ}, PolyC n φ → PolyC n ψ → PolyC n fun u => φ u * ψ u := by
  induction n with
  | zero => exact fun h h' => Poly.mul h h'
  | succ n ih =>
    intro φ ψ h h'
    have hw := h.weaken
    have hw' := h'.weaken
    obtain ⟨h, φ', h1, h2⟩ := h
    obtain ⟨h', ψ', h1', h2'⟩ := h'
    exact ⟨h.mul h', _, fun u => (h1 u).mul (h1' u), (ih h2 hw').add (ih hw h2')⟩

theorem PolyC.comp {n : ℕ} : ∀ {φ ψ : ℝ → ℝ}, PolyC n φ → PolyC n ψ → PolyC n fun u => φ (ψ u) := by
  induction n with
  | zero => exact fun h h' => Poly.comp h h'
  | succ n ih =>
    intro φ ψ h h'
    have hw' := h'.weaken
    obtain ⟨h, φ', h1, h2⟩ := h
    obtain ⟨h', ψ', h1', h2'⟩ := h'
    exact ⟨h.comp h', _, fun u => (h1 (ψ u)).comp u (h1' u), (ih h2 hw').mul h2'⟩

theorem PolyC.const (n : ℕ) (c : ℝ) : PolyC n fun _ => c := by
  induction n generalizing c with
  | zero => exact Poly.const c
  | succ n ih => exact ⟨Poly.const c, _, fun u => hasDerivAt_const u c, ih 0⟩

theorem PolyC.id (n : ℕ) : PolyC n fun u => u := by
  cases n with
  | zero => exact Poly.id
  | succ n => exact ⟨Poly.id, _, fun u => hasDerivAt_id u, PolyC.const n 1⟩

theorem hasDerivAt_tanh (u : ℝ) : HasDerivAt Real.tanh (1 + -1 * (Real.tanh u * Real.tanh u)) u := by
  have h := (Real.hasDerivAt_sinh u).div (Real.hasDerivAt_cosh u) (Real.cosh_pos u).ne'
  have he : Real.tanh = fun x => Real.sinh x / Real.cosh x := funext Real.tanh_eq_sinh_div_cosh
  rw [he]
  refine h.congr_deriv ?_
  have := (Real.cosh_pos u).ne'
  field_simp
  ring

theorem PolyC.tanh (n : ℕ) : PolyC n Real.tanh := by
  have h0 : Poly Real.tanh := ⟨1, 0, zero_le_one, fun u => by
    rw [pow_zero, mul_one, abs_le]
    exact ⟨(Real.neg_one_lt_tanh u).le, (Real.tanh_lt_one u).le⟩⟩
  induction n with
  | zero => exact h0
  | succ n ih =>
    exact ⟨h0, _, hasDerivAt_tanh, (PolyC.const n 1).add ((PolyC.const n (-1)).mul (ih.mul ih))⟩

/-! ### Derivatives along a line -/

/-- `u` is twice differentiable at 0, with derivatives `v1` and `v2`. -/
def HasJet (u : ℝ → ℝ) (v1 v2 : ℝ) : Prop :=
  ∃ u' : ℝ → ℝ, (∀ᶠ t in 𝓝 0, HasDerivAt u (u' t) t) ∧ u' 0 = v1 ∧ HasDerivAt u' v2 0

theorem HasJet.of_forall {u u' : ℝ → ℝ} {v1 v2 : ℝ} (h : ∀ t, HasDerivAt u (u' t) t) (h0 : u' 0 = v1)
    (h2 : HasDerivAt u' v2 0) : HasJet u v1 v2 := ⟨u', .of_forall h, h0, h2⟩

theorem HasJet.congr {u : ℝ → ℝ} {v1 v2 w1 w2 : ℝ} (h : HasJet u v1 v2) (h1 : v1 = w1)
    (h2 : v2 = w2) : HasJet u w1 w2 := by subst h1 h2; exact h

theorem HasJet.const (c : ℝ) : HasJet (fun _ => c) 0 0 :=
  .of_forall (fun t => hasDerivAt_const t c) rfl (hasDerivAt_const 0 0)

theorem HasJet.linear (a b : ℝ) : HasJet (fun t => a + t * b) b 0 :=
  .of_forall (u' := fun _ => b) (fun t => by
    have := ((hasDerivAt_id t).mul_const b).const_add a
    exact this.congr_deriv (one_mul b)) rfl (hasDerivAt_const 0 b)

theorem HasJet.add {u v : ℝ → ℝ} {u1 u2 v1 v2 : ℝ} (hu : HasJet u u1 u2) (hv : HasJet v v1 v2) :
    HasJet (fun t => u t + v t) (u1 + v1) (u2 + v2) := by
  obtain ⟨u', h1, rfl, h3⟩ := hu
  obtain ⟨v', h1', rfl, h3'⟩ := hv
  exact ⟨fun t => u' t + v' t, (h1.and h1').mono fun t h => h.1.add h.2, rfl, h3.add h3'⟩

theorem HasJet.mul {u v : ℝ → ℝ} {u1 u2 v1 v2 : ℝ} (hu : HasJet u u1 u2) (hv : HasJet v v1 v2) :
    HasJet (fun t => u t * v t) (u1 * v 0 + u 0 * v1) (u2 * v 0 + 2 * (u1 * v1) + u 0 * v2) := by
  obtain ⟨u', h1, rfl, h3⟩ := hu
  obtain ⟨v', h1', rfl, h3'⟩ := hv
  refine ⟨fun t => u' t * v t + u t * v' t, (h1.and h1').mono fun t h => h.1.mul h.2, rfl, ?_⟩
  refine ((h3.mul h1'.self_of_nhds).add (h1.self_of_nhds.mul h3')).congr_deriv ?_
  ring

theorem HasJet.comp {u : ℝ → ℝ} {u1 u2 : ℝ} {φ φ' : ℝ → ℝ} {φ'' : ℝ} (hu : HasJet u u1 u2)
    (h : ∀ᶠ y in 𝓝 (u 0), HasDerivAt φ (φ' y) y) (h' : HasDerivAt φ' φ'' (u 0)) :
    HasJet (fun t => φ (u t)) (φ' (u 0) * u1) (φ'' * u1 ^ 2 + φ' (u 0) * u2) := by
  obtain ⟨u', h1, rfl, h3⟩ := hu
  have hc : ContinuousAt u 0 := h1.self_of_nhds.continuousAt
  refine ⟨fun t => φ' (u t) * u' t, ((hc.eventually h).and h1).mono fun t h => h.1.comp t h.2, rfl, ?_⟩
  refine ((h'.comp (0 : ℝ) h1.self_of_nhds).mul h3).congr_deriv ?_
  simp only [Function.comp_apply]
  ring

theorem HasJet.inv {u : ℝ → ℝ} {u1 u2 : ℝ} (hu : HasJet u u1 u2) (h0 : u 0 ≠ 0) :
    HasJet (fun t => (u t)⁻¹) (-u1 / u 0 ^ 2) (2 * u1 ^ 2 / u 0 ^ 3 - u2 / u 0 ^ 2) := by
  refine (hu.comp (φ := fun y => y⁻¹) (φ' := fun y => -(y ^ 2)⁻¹) (φ'' := 2 / u 0 ^ 3) ?_ ?_).congr
    ?_ ?_
  · exact (eventually_ne_nhds h0).mono fun y hy => hasDerivAt_inv hy
  · refine ((hasDerivAt_pow 2 (u 0)).inv (pow_ne_zero 2 h0)).neg.congr_deriv ?_
    field_simp
    norm_num
    ring
  · field_simp
  · field_simp
    ring

theorem HasJet.exp {u : ℝ → ℝ} {u1 u2 : ℝ} (hu : HasJet u u1 u2) :
    HasJet (fun t => Real.exp (u t)) (Real.exp (u 0) * u1)
      (Real.exp (u 0) * u1 ^ 2 + Real.exp (u 0) * u2) :=
  hu.comp (φ := Real.exp) (.of_forall Real.hasDerivAt_exp) (Real.hasDerivAt_exp _)

theorem HasJet.sqrt {u : ℝ → ℝ} {u1 u2 : ℝ} (hu : HasJet u u1 u2) (h0 : 0 < u 0) :
    HasJet (fun t => Real.sqrt (u t)) (u1 / (2 * Real.sqrt (u 0)))
      (u2 / (2 * Real.sqrt (u 0)) - u1 ^ 2 / (4 * Real.sqrt (u 0) ^ 3)) := by
  have hs : 0 < Real.sqrt (u 0) := Real.sqrt_pos.mpr h0
  refine (hu.comp (φ := Real.sqrt) (φ' := fun y => 1 / (2 * Real.sqrt y))
    (φ'' := -(1 / (4 * Real.sqrt (u 0) ^ 3))) ?_ ?_).congr ?_ ?_
  · exact (eventually_ne_nhds h0.ne').mono fun y hy => Real.hasDerivAt_sqrt hy
  · have h1 := (Real.hasDerivAt_sqrt h0.ne').const_mul 2
    have h2 := h1.inv (mul_pos two_pos hs).ne'
    refine (h2.congr_of_eventuallyEq (.of_forall fun y => one_div _)).congr_deriv ?_
    field_simp
    norm_num
  · ring
  · ring

theorem HasJet.sum {ι : Type*} {s : Finset ι} {u : ι → ℝ → ℝ} {u1 u2 : ι → ℝ}
    (h : ∀ a ∈ s, HasJet (u a) (u1 a) (u2 a)) :
    HasJet (fun t => ∑ a ∈ s, u a t) (∑ a ∈ s, u1 a) (∑ a ∈ s, u2 a) := by
  classical
  induction s using Finset.induction_on with
  | empty => simpa using HasJet.const 0
  | insert a s ha ih =>
    simp only [Finset.sum_insert ha]
    exact (h a (Finset.mem_insert_self a s)).add (ih fun b hb => h b (Finset.mem_insert_of_mem hb))

/-- The length of a vector which moves along a line. -/
theorem HasJet.length {D : ℕ} (c : ℝ) (a b : Fin D → ℝ) (h0 : 0 < c ^ 2 + ∑ l, a l ^ 2) :
    HasJet (fun t => Real.sqrt (c ^ 2 + ∑ l, (a l + t * b l) ^ 2))
      ((∑ l, a l * b l) / Real.sqrt (c ^ 2 + ∑ l, a l ^ 2))
      ((∑ l, b l ^ 2) / Real.sqrt (c ^ 2 + ∑ l, a l ^ 2) -
        (∑ l, a l * b l) ^ 2 / Real.sqrt (c ^ 2 + ∑ l, a l ^ 2) ^ 3) := by
  have hq : HasJet (fun t => c ^ 2 + ∑ l, (a l + t * b l) ^ 2) (2 * ∑ l, a l * b l)
      (2 * ∑ l, b l ^ 2) := by
    have := (HasJet.const (c ^ 2)).add (HasJet.sum (s := Finset.univ)
      (fun l _ => (HasJet.linear (a l) (b l)).mul (HasJet.linear (a l) (b l))))
    simp only [zero_mul, mul_zero, add_zero, zero_add] at this
    refine (show HasJet _ _ _ by simpa only [sq] using this).congr ?_ ?_
    · rw [Finset.mul_sum]
      exact Finset.sum_congr rfl fun l _ => by ring
    · rw [Finset.mul_sum]
      exact Finset.sum_congr rfl fun l _ => by ring
  have e0 : (c ^ 2 + ∑ l, (a l + 0 * b l) ^ 2) = c ^ 2 + ∑ l, a l ^ 2 := by simp
  have hj := hq.sqrt (by simpa only [e0] using h0)
  rw [e0] at hj
  set g := Real.sqrt (c ^ 2 + ∑ l, a l ^ 2) with hg
  have hgp : 0 < g := Real.sqrt_pos.mpr h0
  refine hj.congr ?_ ?_ <;> field_simp <;> ring

/-- The product of a vector with another is at most the product of their lengths. -/
theorem length_bound {D : ℕ} (c : ℝ) (a b : Fin D → ℝ) (h0 : 0 < c ^ 2 + ∑ l, a l ^ 2) :
    |(∑ l, a l * b l) / Real.sqrt (c ^ 2 + ∑ l, a l ^ 2)| ≤ ∑ l, |b l| := by
  set g := Real.sqrt (c ^ 2 + ∑ l, a l ^ 2) with hg
  have hgp : 0 < g := Real.sqrt_pos.mpr h0
  rw [abs_div, abs_of_pos hgp, div_le_iff₀ hgp, Finset.sum_mul]
  refine (Finset.abs_sum_le_sum_abs _ _).trans (Finset.sum_le_sum fun l _ => ?_)
  rw [abs_mul, mul_comm]
  refine mul_le_mul_of_nonneg_left (Real.abs_le_sqrt ?_) (abs_nonneg _)
  have := Finset.single_le_sum (f := fun l => a l ^ 2) (fun _ _ => sq_nonneg _) (Finset.mem_univ l)
  have := sq_nonneg c
  linarith

theorem length_bound₂ {D : ℕ} (c : ℝ) (a b : Fin D → ℝ) (h0 : 0 < c ^ 2 + ∑ l, a l ^ 2) :
    |(∑ l, b l ^ 2) / Real.sqrt (c ^ 2 + ∑ l, a l ^ 2) -
        (∑ l, a l * b l) ^ 2 / Real.sqrt (c ^ 2 + ∑ l, a l ^ 2) ^ 3| ≤
      (∑ l, b l ^ 2) * (1 / Real.sqrt (c ^ 2 + ∑ l, a l ^ 2)) := by
  set g := Real.sqrt (c ^ 2 + ∑ l, a l ^ 2) with hg
  have hgp : 0 < g := Real.sqrt_pos.mpr h0
  have hg2 : g ^ 2 = c ^ 2 + ∑ l, a l ^ 2 := Real.sq_sqrt h0.le
  have hb : 0 ≤ ∑ l, b l ^ 2 := Finset.sum_nonneg fun _ _ => sq_nonneg _
  have hcs : (∑ l, a l * b l) ^ 2 ≤ g ^ 2 * ∑ l, b l ^ 2 := by
    have h1 := Finset.sum_mul_sq_le_sq_mul_sq Finset.univ a b
    rw [hg2]
    nlinarith [sq_nonneg c]
  have h3 : (∑ l, a l * b l) ^ 2 / g ^ 3 ≤ (∑ l, b l ^ 2) / g := by
    rw [div_le_div_iff₀ (by positivity) hgp]
    nlinarith [mul_le_mul_of_nonneg_right hcs hgp.le]
  have h4 : 0 ≤ (∑ l, a l * b l) ^ 2 / g ^ 3 := by positivity
  have h5 : 0 ≤ (∑ l, b l ^ 2) / g := by positivity
  rw [mul_one_div, abs_le]
  constructor <;> linarith

theorem HasJet.unique {u : ℝ → ℝ} {v1 v2 w1 w2 : ℝ} (h : HasJet u v1 v2) (h' : HasJet u w1 w2) :
    v1 = w1 ∧ v2 = w2 := by
  obtain ⟨u', a, rfl, b⟩ := h
  obtain ⟨w', a', rfl, b'⟩ := h'
  have : u' =ᶠ[𝓝 0] w' := (a.and a').mono fun t ht => ht.1.unique ht.2
  exact ⟨this.eq_of_nhds, b.unique (b'.congr_of_eventuallyEq this)⟩

/-! ### Bounds -/

section bounds

variable {N m d : ℕ} (I : Set ℝ) (R : Fin m → Fin d → ℝ)

/-- A value of the parameter, and the positions of the electrons. -/
abbrev Pt (N d : ℕ) := ℝ × (Fin N → Fin d → ℝ)

/-- The parameter is in `I`, and particles are apart. -/
def Ok (q : Pt N d) : Prop := q.1 ∈ I ∧ Good R q.2

/-- `g` is at most a polynomial times the weight `w`. -/
def Big (w g : Pt N d → ℝ) : Prop :=
  ∃ C, ∃ p : ℕ, 0 ≤ C ∧ ∀ x, Ok I R x → |g x| ≤ C * (1 + ‖x.2‖) ^ p * w x

variable {I R} {w w' g g' : Pt N d → ℝ}

theorem one_le_scale (x : Pt N d) : (1 : ℝ) ≤ 1 + ‖x.2‖ := by linarith [norm_nonneg x.2]

theorem scale_nonneg (x : Pt N d) (p : ℕ) : 0 ≤ (1 + ‖x.2‖) ^ p :=
  pow_nonneg (by linarith [norm_nonneg x.2]) p

theorem Big.mono_abs (h : Big I R w g) (hg : ∀ x, Ok I R x → |g' x| ≤ |g x|) : Big I R w g' := by
  obtain ⟨C, p, hC, h⟩ := h
  exact ⟨C, p, hC, fun x hx => (hg x hx).trans (h x hx)⟩

theorem Big.congr (h : Big I R w g) (hg : ∀ x, Ok I R x → g' x = g x) : Big I R w g' :=
  h.mono_abs fun x hx => by rw [hg x hx]

theorem Big.abs (h : Big I R w g) : Big I R w fun x => |g x| := h.mono_abs fun x _ => by rw [abs_abs]

theorem Big.mono (h : Big I R w g) (hw : ∀ x, Ok I R x → w x ≤ w' x) : Big I R w' g := by
  obtain ⟨C, p, hC, h⟩ := h
  exact ⟨C, p, hC, fun x hx => (h x hx).trans
    (mul_le_mul_of_nonneg_left (hw x hx) (mul_nonneg hC (scale_nonneg x p)))⟩

theorem Big.scale (h : Big I R w g) (c : ℝ) (hc : 0 ≤ c) (hw : ∀ x, Ok I R x → w x ≤ c * w' x) :
    Big I R w' g := by
  obtain ⟨C, p, hC, h⟩ := h
  refine ⟨C * c, p, by positivity, fun x hx => (h x hx).trans ?_⟩
  have := mul_le_mul_of_nonneg_left (hw x hx) (mul_nonneg hC (scale_nonneg x p))
  calc _ ≤ _ := this
    _ = _ := by ring

theorem Big.const (c : ℝ) : Big (N := N) I R (fun _ => 1) fun _ => c :=
  ⟨|c|, 0, abs_nonneg c, fun x _ => by simp⟩

theorem Big.zero : Big I R w fun _ => 0 :=
  ⟨0, 0, le_rfl, fun x _ => by simp⟩

theorem Big.add (hw : ∀ x, Ok I R x → 0 ≤ w x) (h : Big I R w g) (h' : Big I R w g') :
    Big I R w fun x => g x + g' x := by
  obtain ⟨C, p, hC, h⟩ := h
  obtain ⟨C', p', hC', h'⟩ := h'
  refine ⟨C + C', p + p', by positivity, fun x hx => (abs_add_le _ _).trans ?_⟩
  have h1 := pow_le_pow_right₀ (one_le_scale x) (Nat.le_add_right p p')
  have h2 := pow_le_pow_right₀ (one_le_scale x) (Nat.le_add_left p' p)
  have h3 := mul_le_mul_of_nonneg_right (mul_le_mul_of_nonneg_left h1 hC) (hw x hx)
  have h4 := mul_le_mul_of_nonneg_right (mul_le_mul_of_nonneg_left h2 hC') (hw x hx)
  nlinarith [h x hx, h' x hx]

theorem Big.mul (h : Big I R w g) (h' : Big I R w' g') :
    Big I R (fun x => w x * w' x) fun x => g x * g' x := by
  obtain ⟨C, p, hC, h⟩ := h
  obtain ⟨C', p', hC', h'⟩ := h'
  refine ⟨C * C', p + p', by positivity, fun x hx => ?_⟩
  rw [abs_mul, pow_add]
  calc |g x| * |g' x| ≤ (C * (1 + ‖x.2‖) ^ p * w x) * (C' * (1 + ‖x.2‖) ^ p' * w' x) :=
        mul_le_mul (h x hx) (h' x hx) (abs_nonneg _) ((abs_nonneg _).trans (h x hx))
    _ = _ := by ring

theorem Big.sum {ι : Type*} {s : Finset ι} {g : ι → Pt N d → ℝ}
    (hw : ∀ x, Ok I R x → 0 ≤ w x) (h : ∀ a ∈ s, Big I R w (g a)) :
    Big I R w fun x => ∑ a ∈ s, g a x := by
  classical
  induction s using Finset.induction_on with
  | empty => simpa using Big.zero
  | insert a s ha ih =>
    simp only [Finset.sum_insert ha]
    exact (h a (Finset.mem_insert_self a s)).add hw (ih fun b hb => h b (Finset.mem_insert_of_mem hb))

theorem Big.comp {φ : ℝ → ℝ} (hφ : Poly φ) (h : Big I R (fun _ => 1) g) :
    Big I R (fun _ => 1) fun x => φ (g x) := by
  obtain ⟨C, p, hC, hφ⟩ := hφ
  obtain ⟨C', p', hC', h⟩ := h
  refine ⟨C * (1 + C') ^ p, p' * p, by positivity, fun x hx => (hφ _).trans ?_⟩
  rw [mul_one, mul_assoc, pow_mul, ← mul_pow]
  refine mul_le_mul_of_nonneg_left (pow_le_pow_left₀ (by positivity) ?_ p) hC
  have h1 : (1 : ℝ) ≤ (1 + ‖x.2‖) ^ p' := one_le_pow₀ (one_le_scale x)
  have h2 := h x hx
  simp only [mul_one] at h2
  nlinarith

/-- Differences of values of a function whose derivative is bounded by a polynomial. -/
theorem Big.comp_sub {φ : ℝ → ℝ} (hφ : PolyC 1 φ) {u v : Pt N d → ℝ}
    (hu : Big I R (fun _ => 1) u) (hv : Big I R (fun _ => 1) v) (h : Big I R w fun x => u x - v x) :
    Big I R w fun x => φ (u x) - φ (v x) := by
  obtain ⟨-, φ', hd, hb⟩ := hφ
  have hb : Poly φ' := hb
  obtain ⟨C, p, hC, hb⟩ := hb
  have hs : Big I R (fun _ => 1) fun x => C * (1 + (|u x| + |v x|)) ^ p := by
    have := Big.comp (φ := fun y => C * (1 + y) ^ p) ⟨C, p, hC, fun y => ?_⟩
      ((hu.abs).add (fun _ _ => zero_le_one) hv.abs)
    · exact this
    · rw [abs_mul, abs_of_nonneg hC, abs_pow]
      refine mul_le_mul_of_nonneg_left (pow_le_pow_left₀ (abs_nonneg _) ?_ p) hC
      exact (abs_add_le _ _).trans (by simp)
  refine ((hs.mul h).mono_abs (g' := fun x => φ (u x) - φ (v x)) fun x _ => ?_).mono
    fun x _ => by simp
  have hbd : ∀ y ∈ Set.uIcc (v x) (u x), ‖φ' y‖ ≤ C * (1 + (|u x| + |v x|)) ^ p := by
    intro y hy
    refine (hb y).trans (mul_le_mul_of_nonneg_left (pow_le_pow_left₀ (by positivity) ?_ p) hC)
    have : |y| ≤ |u x| + |v x| := by
      rcases Set.mem_uIcc.mp hy with ⟨h1, h2⟩ | ⟨h1, h2⟩ <;> rw [abs_le] <;>
        constructor <;> [have := neg_abs_le (v x); have := le_abs_self (u x);
          have := neg_abs_le (u x); have := le_abs_self (v x)] <;>
        linarith [abs_nonneg (u x), abs_nonneg (v x)]
    linarith
  have := (convex_uIcc (v x) (u x)).norm_image_sub_le_of_norm_hasDerivWithin_le
    (f := φ) (f' := φ') (fun y _ => (hd y).hasDerivWithinAt) hbd Set.left_mem_uIcc Set.right_mem_uIcc
  rw [Real.norm_eq_abs, Real.norm_eq_abs] at this
  refine this.trans ?_
  rw [abs_mul, abs_of_nonneg (a := C * _)
    (mul_nonneg hC (pow_nonneg (by linarith [abs_nonneg (u x), abs_nonneg (v x)]) p))]

protected theorem Big.mul_one (h : Big I R w g) (h' : Big I R (fun _ => 1) g') :
    Big I R w fun x => g x * g' x :=
  (h.mul h').mono fun x _ => by rw [_root_.mul_one]

protected theorem Big.one_mul (h : Big I R (fun _ => 1) g) (h' : Big I R w g') :
    Big I R w fun x => g x * g' x :=
  (h.mul h').mono fun x _ => by rw [_root_.one_mul]

theorem Ok.of_interior {x : Pt N d} (hx : Ok (interior I) R x) : Ok I R x :=
  ⟨interior_subset hx.1, hx.2⟩

theorem Big.interior (h : Big I R w g) : Big (interior I) R w g := by
  obtain ⟨C, p, hC, h⟩ := h
  exact ⟨C, p, hC, fun x hx => h x hx.of_interior⟩

end bounds

/-! ### Tame functions -/

section tame

variable {N m d : ℕ} (I : Set ℝ) (R : Fin m → Fin d → ℝ)

theorem one_div_softDist_nonneg (s : ℝ) (a b : Fin d → ℝ) : 0 ≤ 1 / softDist s a b :=
  div_nonneg zero_le_one (Real.sqrt_nonneg _)

theorem one_le_sing (x : Fin N → Fin d → ℝ) : 1 ≤ sing R x := by
  unfold sing
  have h1 : 0 ≤ ∑ i, ∑ j, 1 / softDist 0 (x i) (R j) :=
    Finset.sum_nonneg fun _ _ => Finset.sum_nonneg fun _ _ => one_div_softDist_nonneg _ _ _
  have h2 : 0 ≤ ∑ i, ∑ j, 1 / softDist 0 (x i) (x j) :=
    Finset.sum_nonneg fun _ _ => Finset.sum_nonneg fun _ _ => one_div_softDist_nonneg _ _ _
  linarith

theorem ion_le_sing (x : Fin N → Fin d → ℝ) (i : Fin N) (j : Fin m) :
    1 / softDist 0 (x i) (R j) ≤ sing R x := by
  unfold sing
  have h1 : 1 / softDist 0 (x i) (R j) ≤ ∑ i, ∑ j, 1 / softDist 0 (x i) (R j) :=
    (Finset.single_le_sum (f := fun j => 1 / softDist 0 (x i) (R j))
      (fun _ _ => one_div_softDist_nonneg _ _ _) (Finset.mem_univ j)).trans
    (Finset.single_le_sum (f := fun i => ∑ j, 1 / softDist 0 (x i) (R j))
      (fun _ _ => Finset.sum_nonneg fun _ _ => one_div_softDist_nonneg _ _ _) (Finset.mem_univ i))
  have h2 : 0 ≤ ∑ i, ∑ j, 1 / softDist 0 (x i) (x j) :=
    Finset.sum_nonneg fun _ _ => Finset.sum_nonneg fun _ _ => one_div_softDist_nonneg _ _ _
  linarith

theorem pair_le_sing (x : Fin N → Fin d → ℝ) (i j : Fin N) :
    1 / softDist 0 (x i) (x j) ≤ sing R x := by
  unfold sing
  have h1 : 1 / softDist 0 (x i) (x j) ≤ ∑ i, ∑ j, 1 / softDist 0 (x i) (x j) :=
    (Finset.single_le_sum (f := fun j => 1 / softDist 0 (x i) (x j))
      (fun _ _ => one_div_softDist_nonneg _ _ _) (Finset.mem_univ j)).trans
    (Finset.single_le_sum (f := fun i => ∑ j, 1 / softDist 0 (x i) (x j))
      (fun _ _ => Finset.sum_nonneg fun _ _ => one_div_softDist_nonneg _ _ _) (Finset.mem_univ i))
  have h2 : 0 ≤ ∑ i, ∑ j, 1 / softDist 0 (x i) (R j) :=
    Finset.sum_nonneg fun _ _ => Finset.sum_nonneg fun _ _ => one_div_softDist_nonneg _ _ _
  linarith

/-- Continuous as a function of the parameter. -/
def Along (f : Pt N d → ℝ) : Prop := ∀ x, Good R x → ContinuousOn (fun τ => f (τ, x)) I

/-- `f1` and `f2` have derivatives with respect to the parameter inside of `I`, bounded by a polynomial
times the weight `w`, for `f2` times inverse distances. -/
def Mixed (w f1 f2 : Pt N d → ℝ) : Prop :=
  ∃ f1' f2' : Pt N d → ℝ,
    (∀ x, Ok (interior I) R x → HasDerivAt (fun τ => f1 (τ, x.2)) (f1' x) x.1) ∧
    (∀ x, Ok (interior I) R x → HasDerivAt (fun τ => f2 (τ, x.2)) (f2' x) x.1) ∧
    Big (interior I) R w f1' ∧ Big (interior I) R (fun x => w x * sing R x.2) f2'

variable (i : Fin N) (k : Fin d)

/-- `f` has two derivatives along coordinate `(i, k)` wherever particles are apart, continuous in the
parameter, and one derivative with respect to the parameter; `f` and the first derivatives are bounded
by a polynomial times the weight `w`, and the second by this times inverse distances, all uniformly
for parameters in `I`. The two derivatives along the coordinate have a derivative with respect to the
parameter in turn, with the same bounds. -/
def Tame (w f : Pt N d → ℝ) : Prop :=
  ∃ f1 f2 f' : Pt N d → ℝ,
    (∀ x, Ok I R x → HasJet (fun t => f (x.1, shift x.2 i k t)) (f1 x) (f2 x)) ∧
    (∀ x, Ok I R x → HasDerivAt (fun τ => f (τ, x.2)) (f' x) x.1) ∧
    Along I R f1 ∧ Along I R f2 ∧
    Big I R w f ∧ Big I R w f1 ∧ Big I R w f' ∧ Big I R (fun x => w x * sing R x.2) f2 ∧
    Mixed I R w f1 f2

variable {I R i k} {w w' f g : Pt N d → ℝ}

theorem shift_zero (x : Fin N → Fin d → ℝ) (i : Fin N) (k : Fin d) : shift x i k 0 = x := by
  unfold shift
  simp

theorem Along.add (hf : Along I R f) (hg : Along I R g) : Along I R fun x => f x + g x :=
  fun x hx => (hf x hx).add (hg x hx)

theorem Along.sub (hf : Along I R f) (hg : Along I R g) : Along I R fun x => f x - g x :=
  fun x hx => (hf x hx).sub (hg x hx)

theorem Along.mul (hf : Along I R f) (hg : Along I R g) : Along I R fun x => f x * g x :=
  fun x hx => (hf x hx).mul (hg x hx)

theorem Along.pow (hf : Along I R f) (n : ℕ) : Along I R fun x => f x ^ n :=
  fun x hx => (hf x hx).pow n

theorem Along.neg (hf : Along I R f) : Along I R fun x => -f x := fun x hx => (hf x hx).neg

theorem Along.div (hf : Along I R f) (hg : Along I R g) (h0 : ∀ x, Ok I R x → g x ≠ 0) :
    Along I R fun x => f x / g x :=
  fun x hx => (hf x hx).div (hg x hx) fun τ hτ => h0 (τ, x) ⟨hτ, hx⟩

theorem Along.const (c : ℝ) : Along (N := N) I R fun _ => c := fun _ _ => continuousOn_const

theorem Along.comp {φ : ℝ → ℝ} (hφ : Continuous φ) (hf : Along I R f) : Along I R fun x => φ (f x) :=
  fun x hx => hφ.comp_continuousOn (hf x hx)

theorem Along.sum {ι : Type*} {s : Finset ι} {g : ι → Pt N d → ℝ} (h : ∀ a ∈ s, Along I R (g a)) :
    Along I R fun x => ∑ a ∈ s, g a x :=
  fun x hx => continuousOn_finsetSum s fun a ha => h a ha x hx

theorem Along.congr (h : Along I R f) (hg : ∀ x, Ok I R x → g x = f x) : Along I R g :=
  fun x hx => (h x hx).congr fun τ hτ => hg (τ, x) ⟨hτ, hx⟩

theorem Along.of_deriv {f' : Pt N d → ℝ}
    (h : ∀ x, Ok I R x → HasDerivAt (fun τ => f (τ, x.2)) (f' x) x.1) : Along I R f :=
  fun x hx τ hτ => (h (τ, x) ⟨hτ, hx⟩).continuousAt.continuousWithinAt

theorem Tame.along (h : Tame I R i k w f) : Along I R f := by
  obtain ⟨f1, f2, f', -, hd, -⟩ := h
  exact .of_deriv hd

theorem Big.to_sing (hw : ∀ x, Ok I R x → 0 ≤ w x) (h : Big I R w g) :
    Big I R (fun x => w x * sing R x.2) g :=
  h.mono fun x hx => le_mul_of_one_le_right (hw x hx) (one_le_sing R x.2)

theorem sing_nonneg (hw : ∀ x, Ok I R x → 0 ≤ w x) (x : Pt N d) (hx : Ok I R x) :
    0 ≤ w x * sing R x.2 := mul_nonneg (hw x hx) (zero_le_one.trans (one_le_sing R x.2))

theorem Mixed.mono {f1 f2 : Pt N d → ℝ} (h : Mixed I R w f1 f2) (hw : ∀ x, Ok I R x → w x ≤ w' x) :
    Mixed I R w' f1 f2 := by
  obtain ⟨f1', f2', d1, d2, b1, b2⟩ := h
  exact ⟨f1', f2', d1, d2, b1.mono fun x hx => hw x hx.of_interior, b2.mono fun x hx =>
    mul_le_mul_of_nonneg_right (hw x hx.of_interior) (zero_le_one.trans (one_le_sing R x.2))⟩

theorem Mixed.const (c c' : ℝ) : Mixed I R w (fun _ => c) fun _ => c' :=
  ⟨fun _ => 0, fun _ => 0, fun _ _ => hasDerivAt_const _ _, fun _ _ => hasDerivAt_const _ _, Big.zero,
    Big.zero⟩

/-- Derivatives with respect to the parameter are determined by the values in `I`. -/
theorem deriv_eq {a b : Pt N d → ℝ} {a' b' : ℝ} (h : ∀ x, Ok I R x → a x = b x) {x : Pt N d}
    (hx : Ok (interior I) R x) (ha : HasDerivAt (fun τ => a (τ, x.2)) a' x.1)
    (hb : HasDerivAt (fun τ => b (τ, x.2)) b' x.1) : a' = b' :=
  ha.unique (hb.congr_of_eventuallyEq (Filter.mem_of_superset (isOpen_interior.mem_nhds hx.1)
    fun τ hτ => h (τ, x.2) ⟨interior_subset hτ, hx.2⟩))

theorem Tame.mono (h : Tame I R i k w f) (hw : ∀ x, Ok I R x → w x ≤ w' x) : Tame I R i k w' f := by
  obtain ⟨f1, f2, f', hj, hd, c1, c2, h0, h1, h', h2, m⟩ := h
  exact ⟨f1, f2, f', hj, hd, c1, c2, h0.mono hw, h1.mono hw, h'.mono hw, h2.mono fun x hx =>
    mul_le_mul_of_nonneg_right (hw x hx) (zero_le_one.trans (one_le_sing R x.2)), m.mono hw⟩

/-- Differentiable in `I`, with bounded values and derivatives. -/
def Par (I : Set ℝ) (p : ℝ → ℝ) : Prop :=
  ∃ p' : ℝ → ℝ, (∀ θ ∈ I, HasDerivAt p (p' θ) θ) ∧ ∃ C, ∀ θ ∈ I, |p θ| ≤ C ∧ |p' θ| ≤ C

theorem Par.const (c : ℝ) : Par I fun _ => c :=
  ⟨fun _ => 0, fun θ _ => hasDerivAt_const θ c, |c|, fun _ _ => ⟨le_rfl, by simp⟩⟩

theorem Par.of_smooth (hI : IsCompact I) {p : ℝ → ℝ} (h : ContDiff ℝ 1 p) : Par I p := by
  obtain ⟨C, hC⟩ := hI.exists_bound_of_continuousOn (f := p) h.continuous.continuousOn
  obtain ⟨C', hC'⟩ := hI.exists_bound_of_continuousOn (f := deriv p)
    (h.continuous_deriv le_rfl).continuousOn
  exact ⟨deriv p, fun θ _ => (h.differentiable one_ne_zero θ).hasDerivAt, max C C', fun θ hθ =>
    ⟨(hC θ hθ).trans (le_max_left _ _), (hC' θ hθ).trans (le_max_right _ _)⟩⟩

theorem Par.continuousOn {p : ℝ → ℝ} (h : Par I p) : ContinuousOn p I := by
  obtain ⟨p', hd, -⟩ := h
  exact fun θ hθ => (hd θ hθ).continuousAt.continuousWithinAt

theorem Par.bound {p : ℝ → ℝ} (h : Par I p) : ∃ C, 0 ≤ C ∧ ∀ θ ∈ I, |p θ| ≤ C := by
  obtain ⟨p', -, C, hC⟩ := h
  exact ⟨max C 0, le_max_right _ _, fun θ hθ => (hC θ hθ).1.trans (le_max_left _ _)⟩

theorem Par.mul {p r : ℝ → ℝ} (hp : Par I p) (hr : Par I r) : Par I fun θ => p θ * r θ := by
  obtain ⟨p', hp, C, hC⟩ := hp
  obtain ⟨r', hr, D, hD⟩ := hr
  refine ⟨_, fun θ hθ => (hp θ hθ).mul (hr θ hθ), C * D + C * D, fun θ hθ => ?_⟩
  have h1 := hC θ hθ
  have h2 := hD θ hθ
  have hC0 : 0 ≤ C := (abs_nonneg _).trans h1.1
  have e1 : |p θ * r θ| ≤ C * D := by
    rw [abs_mul]
    exact mul_le_mul h1.1 h2.1 (abs_nonneg _) hC0
  have e2 : |p' θ * r θ| ≤ C * D := by
    rw [abs_mul]
    exact mul_le_mul h1.2 h2.1 (abs_nonneg _) hC0
  have e3 : |p θ * r' θ| ≤ C * D := by
    rw [abs_mul]
    exact mul_le_mul h1.1 h2.2 (abs_nonneg _) hC0
  exact ⟨by linarith [(abs_nonneg _).trans e1], (abs_add_le _ _).trans (add_le_add e2 e3)⟩

theorem Par.add {p r : ℝ → ℝ} (hp : Par I p) (hr : Par I r) : Par I fun θ => p θ + r θ := by
  obtain ⟨p', hp, C, hC⟩ := hp
  obtain ⟨r', hr, D, hD⟩ := hr
  exact ⟨_, fun θ hθ => (hp θ hθ).add (hr θ hθ), C + D, fun θ hθ =>
    ⟨(abs_add_le _ _).trans (add_le_add (hC θ hθ).1 (hD θ hθ).1),
      (abs_add_le _ _).trans (add_le_add (hC θ hθ).2 (hD θ hθ).2)⟩⟩

theorem Par.sum {ι : Type*} {s : Finset ι} {p : ι → ℝ → ℝ} (h : ∀ a ∈ s, Par I (p a)) :
    Par I fun θ => ∑ a ∈ s, p a θ := by
  classical
  induction s using Finset.induction_on with
  | empty => simpa using Par.const 0
  | insert a s ha ih =>
    simp only [Finset.sum_insert ha]
    exact (h a (Finset.mem_insert_self a s)).add (ih fun b hb => h b (Finset.mem_insert_of_mem hb))

theorem Tame.par {p : ℝ → ℝ} (h : Par I p) : Tame (N := N) I R i k (fun _ => 1) fun x => p x.1 := by
  obtain ⟨p', hd, C, hC⟩ := h
  have hb : ∀ r : ℝ → ℝ, (∀ θ ∈ I, |r θ| ≤ C) → Big (N := N) I R (fun _ => 1) fun x => r x.1 :=
    fun r hr => (Big.const C).mono_abs fun x hx => (hr _ hx.1).trans (le_abs_self C)
  exact ⟨fun _ => 0, fun _ => 0, fun x => p' x.1, fun x _ => HasJet.const (p x.1),
    fun x hx => hd _ hx.1,
    Along.const 0, Along.const 0, hb p fun θ hθ => (hC θ hθ).1, Big.const 0,
    hb p' fun θ hθ => (hC θ hθ).2, Big.zero, Mixed.const 0 0⟩

theorem Tame.const (c : ℝ) : Tame (N := N) I R i k (fun _ => 1) fun _ => c :=
  Tame.par (Par.const c)

theorem Tame.zero : Tame I R i k w fun _ => 0 :=
  ⟨fun _ => 0, fun _ => 0, fun _ => 0, fun _ _ => HasJet.const 0, fun _ _ => hasDerivAt_const _ _,
    Along.const 0, Along.const 0, Big.zero, Big.zero, Big.zero, Big.zero, Mixed.const 0 0⟩

theorem Tame.add (hw : ∀ x, Ok I R x → 0 ≤ w x) (hf : Tame I R i k w f) (hg : Tame I R i k w g) :
    Tame I R i k w fun x => f x + g x := by
  obtain ⟨f1, f2, f', hj, hd, c1, c2, h0, h1, h', h2, f1', f2', m1, m2, m1b, m2b⟩ := hf
  obtain ⟨g1, g2, g', gj, gd, e1, e2, g0, g1b, gb', g2b, g1', g2', n1, n2, n1b, n2b⟩ := hg
  have hwi : ∀ x, Ok (interior I) R x → 0 ≤ w x := fun x hx => hw x hx.of_interior
  exact ⟨_, _, _, fun x hx => (hj x hx).add (gj x hx), fun x hx => (hd x hx).add (gd x hx),
    c1.add e1, c2.add e2, h0.add hw g0, h1.add hw g1b, h'.add hw gb', h2.add (sing_nonneg hw) g2b,
    _, _, fun x hx => (m1 x hx).add (n1 x hx), fun x hx => (m2 x hx).add (n2 x hx),
    m1b.add hwi n1b, m2b.add (sing_nonneg hwi) n2b⟩

theorem Tame.mul (hw : ∀ x, Ok I R x → 0 ≤ w x) (hw' : ∀ x, Ok I R x → 0 ≤ w' x)
    (hf : Tame I R i k w f) (hg : Tame I R i k w' g) :
    Tame I R i k (fun x => w x * w' x) fun x => f x * g x := by
  have cf := hf.along
  have cg := hg.along
  obtain ⟨f1, f2, f', hj, hd, c1, c2, h0, h1, h', h2, f1', f2', m1, m2, m1b, m2b⟩ := hf
  obtain ⟨g1, g2, g', gj, gd, e1, e2, g0, g1b, gb', g2b, g1', g2', n1, n2, n1b, n2b⟩ := hg
  have hww : ∀ x, Ok I R x → 0 ≤ w x * w' x := fun x hx => mul_nonneg (hw x hx) (hw' x hx)
  refine ⟨fun x => f1 x * g x + f x * g1 x, fun x => f2 x * g x + 2 * (f1 x * g1 x) + f x * g2 x,
    fun x => f' x * g x + f x * g' x, fun x hx => ?_, fun x hx => (hd x hx).mul (gd x hx),
    (c1.mul cg).add (cf.mul e1), ((c2.mul cg).add ((Along.const 2).mul (c1.mul e1))).add (cf.mul e2),
    h0.mul g0, (h1.mul g0).add hww (h0.mul g1b), (h'.mul g0).add hww (h0.mul gb'), ?_,
    fun x => f1' x * g x + f1 x * g' x + (f' x * g1 x + f x * g1' x),
    fun x => (f2' x * g x + f2 x * g' x) + 2 * (f1' x * g1 x + f1 x * g1' x) +
      (f' x * g2 x + f x * g2' x),
    fun x hx => ((m1 x hx).mul (gd x hx.of_interior)).add ((hd x hx.of_interior).mul (n1 x hx)),
    fun x hx => (((m2 x hx).mul (gd x hx.of_interior)).add
      (((m1 x hx).mul (n1 x hx)).const_mul 2)).add ((hd x hx.of_interior).mul (n2 x hx)), ?_, ?_⟩
  · have := (hj x hx).mul (gj x hx)
    simpa only [shift_zero] using this
  · have ha : Big I R (fun x => w x * w' x * sing R x.2) fun x => f2 x * g x :=
      (h2.mul g0).mono fun x _ => (by ring : _ = w x * w' x * sing R x.2).le
    have hb : Big I R (fun x => w x * w' x * sing R x.2) fun x => 2 * (f1 x * g1 x) :=
      (((Big.const 2).mul (h1.mul g1b)).mono fun x _ => by rw [one_mul]).to_sing hww
    have hc : Big I R (fun x => w x * w' x * sing R x.2) fun x => f x * g2 x :=
      (h0.mul g2b).mono fun x _ => (by ring : _ = w x * w' x * sing R x.2).le
    exact (ha.add (sing_nonneg hww) hb).add (sing_nonneg hww) hc
  · have hwi : ∀ x, Ok (interior I) R x → 0 ≤ w x * w' x := fun x hx => hww x hx.of_interior
    exact ((m1b.mul g0.interior).add hwi (h1.mul gb').interior).add hwi
      ((h'.mul g1b).interior.add hwi (h0.interior.mul n1b))
  · have hwi : ∀ x, Ok (interior I) R x → 0 ≤ w x * w' x := fun x hx => hww x hx.of_interior
    have hs := sing_nonneg hwi
    have a : ∀ {u v : Pt N d → ℝ}, Big (interior I) R (fun x => w x * sing R x.2) u →
        Big (interior I) R w' v → Big (interior I) R (fun x => w x * w' x * sing R x.2) fun x =>
          u x * v x := fun hu hv =>
      (hu.mul hv).mono fun x _ => (by ring : _ = w x * w' x * sing R x.2).le
    have b : ∀ {u v : Pt N d → ℝ}, Big (interior I) R w u →
        Big (interior I) R (fun x => w' x * sing R x.2) v →
        Big (interior I) R (fun x => w x * w' x * sing R x.2) fun x => u x * v x := fun hu hv =>
      (hu.mul hv).mono fun x _ => (by ring : _ = w x * w' x * sing R x.2).le
    have c : Big (interior I) R (fun x => w x * w' x * sing R x.2) fun x =>
        2 * (f1' x * g1 x + f1 x * g1' x) :=
      ((Big.const 2).one_mul ((m1b.mul g1b.interior).add hwi (h1.interior.mul n1b))).to_sing hwi
    exact (((a m2b g0.interior).add hs (a h2.interior gb'.interior)).add hs c).add hs
      ((b h'.interior g2b.interior).add hs (b h0.interior n2b))

theorem Tame.mul_one (hw : ∀ x, Ok I R x → 0 ≤ w x) (hf : Tame I R i k w f)
    (hg : Tame I R i k (fun _ => 1) g) : Tame I R i k w fun x => f x * g x :=
  (hf.mul hw (fun _ _ => zero_le_one) hg).mono fun x _ => by rw [_root_.mul_one]

theorem Tame.one_mul (hw : ∀ x, Ok I R x → 0 ≤ w x) (hf : Tame I R i k (fun _ => 1) f)
    (hg : Tame I R i k w g) : Tame I R i k w fun x => f x * g x :=
  (hf.mul (fun _ _ => zero_le_one) hw hg).mono fun x _ => by rw [_root_.one_mul]

theorem Tame.par_mul (hw : ∀ x, Ok I R x → 0 ≤ w x) {p : ℝ → ℝ} (hp : Par I p)
    (hg : Tame I R i k w g) : Tame I R i k w fun x => p x.1 * g x := (Tame.par hp).one_mul hw hg

theorem Tame.mul_par (hw : ∀ x, Ok I R x → 0 ≤ w x) {p : ℝ → ℝ} (hg : Tame I R i k w g)
    (hp : Par I p) : Tame I R i k w fun x => g x * p x.1 := hg.mul_one hw (Tame.par hp)

theorem Tame.const_mul (hw : ∀ x, Ok I R x → 0 ≤ w x) (c : ℝ) (hg : Tame I R i k w g) :
    Tame I R i k w fun x => c * g x := (Tame.const c).one_mul hw hg

theorem Tame.neg (hw : ∀ x, Ok I R x → 0 ≤ w x) (hg : Tame I R i k w g) :
    Tame I R i k w fun x => -g x := by
  simpa only [neg_one_mul] using hg.const_mul hw (-1)

theorem Tame.sub (hw : ∀ x, Ok I R x → 0 ≤ w x) (hf : Tame I R i k w f) (hg : Tame I R i k w g) :
    Tame I R i k w fun x => f x - g x := by
  simpa only [sub_eq_add_neg] using hf.add hw (hg.neg hw)

theorem Tame.div_const (hw : ∀ x, Ok I R x → 0 ≤ w x) (hg : Tame I R i k w g) (c : ℝ) :
    Tame I R i k w fun x => g x / c := by
  simpa only [div_eq_inv_mul] using hg.const_mul hw c⁻¹

theorem Tame.sum {ι : Type*} {s : Finset ι} {g : ι → Pt N d → ℝ}
    (hw : ∀ x, Ok I R x → 0 ≤ w x) (h : ∀ a ∈ s, Tame I R i k w (g a)) :
    Tame I R i k w fun x => ∑ a ∈ s, g a x := by
  classical
  induction s using Finset.induction_on with
  | empty => simpa using Tame.zero
  | insert a s ha ih =>
    simp only [Finset.sum_insert ha]
    exact (h a (Finset.mem_insert_self a s)).add hw (ih fun b hb => h b (Finset.mem_insert_of_mem hb))

theorem Tame.prod {ι : Type*} {s : Finset ι} {w g : ι → Pt N d → ℝ}
    (hw : ∀ a x, Ok I R x → 0 ≤ w a x) (h : ∀ a ∈ s, Tame I R i k (w a) (g a)) :
    Tame I R i k (fun x => ∏ a ∈ s, w a x) fun x => ∏ a ∈ s, g a x := by
  classical
  induction s using Finset.induction_on with
  | empty => simpa using Tame.const 1
  | insert a s ha ih =>
    simp only [Finset.prod_insert ha]
    exact (h a (Finset.mem_insert_self a s)).mul (hw a)
      (fun x hx => Finset.prod_nonneg fun b _ => hw b x hx)
      (ih fun b hb => h b (Finset.mem_insert_of_mem hb))

theorem continuous_of_deriv {φ φ' : ℝ → ℝ} (h : ∀ u, HasDerivAt φ (φ' u) u) : Continuous φ :=
  continuous_iff_continuousAt.mpr fun u => (h u).continuousAt

theorem Tame.comp {φ : ℝ → ℝ} (hφ : PolyC 4 φ) (hf : Tame I R i k (fun _ => 1) f) :
    Tame I R i k (fun _ => 1) fun x => φ (f x) := by
  have cf := hf.along
  obtain ⟨b0, φ', d1, b1, φ'', d2, b2, φ₃, d3, b3⟩ := hφ
  obtain ⟨f1, f2, f', hj, hd, c1, c2, h0, h1, h', h2, f1', f2', m1, m2, m1b, m2b⟩ := hf
  have hw : ∀ x : Pt N d, Ok I R x → (0 : ℝ) ≤ 1 := fun _ _ => zero_le_one
  have k1 : Along I R fun x => φ' (f x) := cf.comp (continuous_of_deriv d2)
  have k2 : Along I R fun x => φ'' (f x) := cf.comp (continuous_of_deriv d3)
  refine ⟨fun x => φ' (f x) * f1 x, fun x => φ'' (f x) * f1 x ^ 2 + φ' (f x) * f2 x,
    fun x => φ' (f x) * f' x, fun x hx => ?_, fun x hx => (d1 _).comp x.1 (hd x hx),
    k1.mul c1, (k2.mul (c1.pow 2)).add (k1.mul c2), h0.comp b0,
    ((h0.comp b1).mul h1).mono fun x _ => by rw [_root_.mul_one],
    ((h0.comp b1).mul h').mono fun x _ => by rw [_root_.mul_one], ?_,
    fun x => φ'' (f x) * f' x * f1 x + φ' (f x) * f1' x,
    fun x => (φ₃ (f x) * f' x * f1 x ^ 2 + φ'' (f x) * (2 * (f1 x * f1' x))) +
      (φ'' (f x) * f' x * f2 x + φ' (f x) * f2' x),
    fun x hx => ((d2 _).comp x.1 (hd x hx.of_interior)).mul (m1 x hx), fun x hx => ?_, ?_, ?_⟩
  · have := (hj x hx).comp (.of_forall d1) (d2 _)
    simpa only [shift_zero] using this
  · have ha : Big I R (fun x => 1 * sing R x.2) fun x => φ'' (f x) * f1 x ^ 2 := by
      refine Big.to_sing hw (((h0.comp b2).mul (h1.mul h1)).congr (g' := fun x =>
        φ'' (f x) * f1 x ^ 2) (fun x _ => by rw [sq]) |>.mono fun x _ => by norm_num)
    have hb : Big I R (fun x => 1 * sing R x.2) fun x => φ' (f x) * f2 x :=
      ((h0.comp b1).mul h2).mono fun x _ => by rw [_root_.one_mul]
    exact ha.add (sing_nonneg hw) hb
  · refine ((((d3 _).comp x.1 (hd x hx.of_interior)).mul ((m1 x hx).fun_pow 2)).add
      (((d2 _).comp x.1 (hd x hx.of_interior)).mul (m2 x hx))).congr_deriv ?_
    simp only [Function.comp_apply, Nat.cast_ofNat, pow_one, Nat.add_one_sub_one]
    ring
  · exact ((((h0.comp b2).mul_one h').mul_one h1).interior.add (fun _ _ => zero_le_one)
      ((h0.comp b1).interior.mul_one m1b))
  · have hwi : ∀ x : Pt N d, Ok (interior I) R x → (0 : ℝ) ≤ 1 := fun _ _ => zero_le_one
    have hs := sing_nonneg hwi
    have ha : Big (interior I) R (fun x => 1 * sing R x.2) fun x => φ₃ (f x) * f' x * f1 x ^ 2 :=
      (((((h0.comp b3.poly).mul_one h').mul_one (h1.mul_one h1)).congr fun x _ => by
        rw [sq]).interior).to_sing hwi
    have hb : Big (interior I) R (fun x => 1 * sing R x.2) fun x =>
        φ'' (f x) * (2 * (f1 x * f1' x)) :=
      ((h0.comp b2).interior.mul_one ((Big.const 2).mul_one (h1.interior.mul_one m1b))).to_sing hwi
    exact (ha.add hs hb).add hs
      (((((h0.comp b2).mul_one h').one_mul h2).interior).add hs ((h0.comp b1).interior.one_mul m2b))

/-- Bounded by the weight `v`, and the difference by the weight `w` times `v`. -/
def Close (I : Set ℝ) (R : Fin m → Fin d → ℝ) (w v a b : Pt N d → ℝ) : Prop :=
  Big I R v a ∧ Big I R v b ∧ Big I R (fun x => w x * v x) fun x => a x - b x

theorem Close.add {v a b a' b' : Pt N d → ℝ} (hw : ∀ x, Ok I R x → 0 ≤ w x)
    (hv : ∀ x, Ok I R x → 0 ≤ v x) (h : Close I R w v a b) (h' : Close I R w v a' b') :
    Close I R w v (fun x => a x + a' x) fun x => b x + b' x :=
  ⟨h.1.add hv h'.1, h.2.1.add hv h'.2.1,
    (h.2.2.add (fun x hx => mul_nonneg (hw x hx) (hv x hx)) h'.2.2).congr fun x _ => by ring⟩

theorem Close.mul {v a b a' b' : Pt N d → ℝ} (hw : ∀ x, Ok I R x → 0 ≤ w x)
    (hv : ∀ x, Ok I R x → 0 ≤ v x) (h : Close I R w (fun _ => 1) a b) (h' : Close I R w v a' b') :
    Close I R w v (fun x => a x * a' x) fun x => b x * b' x :=
  ⟨h.1.one_mul h'.1, h.2.1.one_mul h'.2.1,
    (((h.2.2.mul h'.1).mono (w' := fun x => w x * v x) fun x _ => by rw [_root_.mul_one]).add
      (fun x hx => mul_nonneg (hw x hx) (hv x hx)) (h.2.1.one_mul h'.2.2)).congr fun x _ => by ring⟩

theorem Close.sing {a b : Pt N d → ℝ} (hw : ∀ x, Ok I R x → 0 ≤ w x)
    (h : Close I R w (fun _ => 1) a b) : Close I R w (fun x => 1 * sing R x.2) a b :=
  ⟨h.1.to_sing fun _ _ => zero_le_one, h.2.1.to_sing fun _ _ => zero_le_one,
    h.2.2.mono fun x hx => mul_le_mul_of_nonneg_left
      (by simpa using one_le_sing R x.2) (hw x hx)⟩

theorem Close.comp {φ : ℝ → ℝ} (hφ : PolyC 1 φ) {a b : Pt N d → ℝ}
    (h : Close I R w (fun _ => 1) a b) : Close I R w (fun _ => 1) (fun x => φ (a x)) fun x => φ (b x) :=
  ⟨h.1.comp hφ.poly, h.2.1.comp hφ.poly,
    Big.comp_sub hφ h.1 h.2.1 h.2.2⟩

theorem Close.const (c : ℝ) : Close I R w (fun _ => 1) (fun _ => c) fun _ => c :=
  ⟨Big.const c, Big.const c, Big.zero.congr fun _ _ => sub_self _⟩

theorem Close.interior {v a b : Pt N d → ℝ} (h : Close I R w v a b) : Close (interior I) R w v a b :=
  ⟨h.1.interior, h.2.1.interior, h.2.2.interior⟩

/-- Close functions stay close. -/
theorem Tame.comp_sub {φ : ℝ → ℝ} (hφ : PolyC 4 φ) (hw : ∀ x, Ok I R x → 0 ≤ w x)
    (hf : Tame I R i k (fun _ => 1) f) (hg : Tame I R i k (fun _ => 1) g)
    (h : Tame I R i k w fun x => f x - g x) : Tame I R i k w fun x => φ (f x) - φ (g x) := by
  have tf := hf.comp hφ
  have tg := hg.comp hφ
  have hφ1 : PolyC 1 φ := hφ.weaken.weaken.weaken
  obtain ⟨-, φ', d1, hφ'⟩ := hφ
  have hφ'1 : PolyC 1 φ' := hφ'.weaken.weaken
  obtain ⟨-, φ'', d2, hφ''⟩ := hφ'
  have hφ''1 : PolyC 1 φ'' := hφ''.weaken
  obtain ⟨-, φ₃, d3, hφ₃⟩ := hφ''
  have tfg : Tame I R i k (fun _ => 1) fun x => φ (f x) - φ (g x) := by
    have e : ∀ x, φ (f x) - φ (g x) = φ (f x) + (-1) * φ (g x) := fun x => by ring
    simp only [e]
    exact tf.add (fun _ _ => zero_le_one) (((Tame.const (-1)).mul (fun _ _ => zero_le_one)
      (fun _ _ => zero_le_one) tg).mono fun x _ => by simp)
  obtain ⟨p1, p2, p', pj, pd, pc1, pc2, -, -, -, -, p1', p2', pm1, pm2, -, -⟩ := tfg
  obtain ⟨f1, f2, f', fj, fd, fc1, fc2, f0, f1b, fb', f2b, f1', f2', fm1, fm2, fm1b, fm2b⟩ := hf
  obtain ⟨g1, g2, g', gj, gd, gc1, gc2, g0, g1b, gb', g2b, g1', g2', gm1, gm2, gm1b, gm2b⟩ := hg
  obtain ⟨u1, u2, u', uj, ud, uc1, uc2, u0, u1b, ub', u2b, u1', u2', um1, um2, um1b, um2b⟩ := h
  have hu : ∀ x, Ok I R x → f1 x - g1 x = u1 x ∧ f2 x - g2 x = u2 x := by
    intro x hx
    have := ((fj x hx).add ((HasJet.const (-1)).mul (gj x hx)))
    have h' : HasJet (fun t => f (x.1, shift x.2 i k t) - g (x.1, shift x.2 i k t)) (f1 x - g1 x)
        (f2 x - g2 x) := by
      simp only [sub_eq_add_neg, ← neg_one_mul (g _), ← neg_one_mul (g1 _), ← neg_one_mul (g2 _)]
      simpa using this
    exact h'.unique (uj x hx)
  have o : ∀ x : Pt N d, Ok I R x → (0 : ℝ) ≤ 1 := fun _ _ => zero_le_one
  have os : ∀ x : Pt N d, Ok I R x → (0 : ℝ) ≤ 1 * sing R x.2 := sing_nonneg o
  have z0 : Close I R w (fun _ => 1) f g := ⟨f0, g0, u0.mono fun x _ => by rw [_root_.mul_one]⟩
  have z1 : Close I R w (fun _ => 1) f1 g1 := ⟨f1b, g1b,
    (u1b.congr fun x hx => (hu x hx).1).mono fun x _ => by rw [_root_.mul_one]⟩
  have z' : Close I R w (fun _ => 1) f' g' := ⟨fb', gb',
    (ub'.congr fun x hx => ((fd x hx).sub (gd x hx)).unique (ud x hx)).mono fun x _ => by
      rw [_root_.mul_one]⟩
  have z2 : Close I R w (fun x => 1 * sing R x.2) f2 g2 := ⟨f2b, g2b,
    (u2b.congr fun x hx => (hu x hx).2).mono fun x _ => by simp⟩
  have y1 : Close (interior I) R w (fun _ => 1) f1' g1' := ⟨fm1b, gm1b,
    (um1b.congr fun x hx => deriv_eq (a := fun x => f1 x - g1 x) (b := u1)
      (fun x hx => (hu x hx).1) hx ((fm1 x hx).sub (gm1 x hx)) (um1 x hx)).mono fun x _ => by rw [_root_.mul_one]⟩
  have y2 : Close (interior I) R w (fun x => 1 * sing R x.2) f2' g2' := ⟨fm2b, gm2b,
    (um2b.congr fun x hx => deriv_eq (a := fun x => f2 x - g2 x) (b := u2)
      (fun x hx => (hu x hx).2) hx ((fm2 x hx).sub (gm2 x hx)) (um2 x hx)).mono fun x _ => by simp⟩
  have hwi : ∀ x, Ok (interior I) R x → 0 ≤ w x := fun x hx => hw x hx.of_interior
  have oi : ∀ x : Pt N d, Ok (interior I) R x → (0 : ℝ) ≤ 1 := fun _ _ => zero_le_one
  have osi : ∀ x : Pt N d, Ok (interior I) R x → (0 : ℝ) ≤ 1 * sing R x.2 := sing_nonneg oi
  -- the derivatives of the difference
  have ej : ∀ x, Ok I R x →
      p1 x = φ' (f x) * f1 x - φ' (g x) * g1 x ∧
      p2 x = (φ'' (f x) * f1 x ^ 2 + φ' (f x) * f2 x) - (φ'' (g x) * g1 x ^ 2 + φ' (g x) * g2 x) := by
    intro x hx
    have := ((fj x hx).comp (.of_forall d1) (d2 _)).add
      ((HasJet.const (-1)).mul ((gj x hx).comp (.of_forall d1) (d2 _)))
    have e : ∀ x, φ (f x) - φ (g x) = φ (f x) + (-1) * φ (g x) := fun x => by ring
    have hp := pj x hx
    simp only [e] at hp
    have hu := hp.unique this
    simp only [shift_zero] at hu
    exact ⟨hu.1.trans (by ring), hu.2.trans (by ring)⟩
  have w1 : ∀ {a : Pt N d → ℝ}, Big I R (fun x => w x * 1) a → Big I R w a := fun h =>
    h.mono fun x _ => by rw [_root_.mul_one]
  have ws : ∀ {J : Set ℝ} {a : Pt N d → ℝ}, Big J R (fun x => w x * (1 * sing R x.2)) a →
      Big J R (fun x => w x * sing R x.2) a := fun h => h.mono fun x _ => by rw [_root_.one_mul]
  have k1 := z0.comp hφ'1
  have k2 := z0.comp hφ''1
  have k3 := z0.comp hφ₃
  refine ⟨p1, p2, p', pj, pd, pc1, pc2, Big.comp_sub hφ1 f0 g0 u0,
    w1 ((k1.mul hw o z1).2.2.congr fun x hx => (ej x hx).1),
    w1 ((k1.mul hw o z').2.2.congr fun x hx => (pd x hx).unique
      (((d1 _).comp x.1 (fd x hx)).sub ((d1 _).comp x.1 (gd x hx)))), ?_,
    p1', p2', pm1, pm2, ?_, ?_⟩
  · refine ws (((((k2.mul hw o (z1.mul hw o z1)).sing hw)).add hw os (k1.mul hw os z2)).2.2.congr
      fun x hx => ?_)
    rw [(ej x hx).2, sq, sq]
  · have hc := ((k2.mul hw o (z'.mul hw o z1)).interior).add hwi oi (k1.interior.mul hwi oi y1)
    refine (hc.2.2.congr fun x hx => deriv_eq (b := fun x => φ' (f x) * f1 x - φ' (g x) * g1 x)
      (fun x hx => (ej x hx).1) hx (pm1 x hx) ?_).mono
      fun x _ => by rw [_root_.mul_one]
    refine ((((d2 _).comp x.1 (fd x hx.of_interior)).mul (fm1 x hx)).sub
      (((d2 _).comp x.1 (gd x hx.of_interior)).mul (gm1 x hx))).congr_deriv ?_
    simp only [Function.comp_apply]
    ring
  · have hc := ((((k3.mul hw o (z'.mul hw o (z1.mul hw o z1))).sing hw).interior).add hwi osi
      ((k2.interior.mul hwi oi ((Close.const 2).mul hwi oi (z1.interior.mul hwi oi y1))).sing hwi)).add
      hwi osi (((k2.mul hw os (z'.mul hw os z2)).interior).add hwi osi (k1.interior.mul hwi osi y2))
    refine ws (hc.2.2.congr fun x hx => deriv_eq (b := fun x =>
      (φ'' (f x) * f1 x ^ 2 + φ' (f x) * f2 x) - (φ'' (g x) * g1 x ^ 2 + φ' (g x) * g2 x))
      (fun x hx => (ej x hx).2) hx (pm2 x hx) ?_)
    have hF := (((d3 _).comp x.1 (fd x hx.of_interior)).mul ((fm1 x hx).fun_pow 2)).add
      (((d2 _).comp x.1 (fd x hx.of_interior)).mul (fm2 x hx))
    have hG := (((d3 _).comp x.1 (gd x hx.of_interior)).mul ((gm1 x hx).fun_pow 2)).add
      (((d2 _).comp x.1 (gd x hx.of_interior)).mul (gm2 x hx))
    refine (hF.sub hG).congr_deriv ?_
    simp only [Function.comp_apply, Nat.cast_ofNat, pow_one, Nat.add_one_sub_one]
    ring

/-- The inverse of a sum of exponentials one of which is 1. -/
theorem Tame.inv_sum_exp {ι : Type*} [Fintype ι] {v : ι → Pt N d → ℝ} (j : ι)
    (hj : ∀ x, v j x = 0) (h : ∀ l, Tame I R i k (fun _ => 1) (v l)) :
    Tame I R i k (fun _ => 1) fun x => (∑ l, Real.exp (v l x))⁻¹ := by
  have cv : ∀ l, Along I R (v l) := fun l => (h l).along
  choose v1 v2 v' hv hd c1 c2 b0 b1 b' b2 v1' v2' m1 m2 m1b m2b using h
  have hw : ∀ {J : Set ℝ} (x : Pt N d), Ok J R x → (0 : ℝ) ≤ 1 := fun _ _ => zero_le_one
  have h1 : ∀ x, 1 ≤ ∑ l, Real.exp (v l x) := fun x => by
    have := Finset.single_le_sum (f := fun l => Real.exp (v l x)) (fun _ _ => (Real.exp_pos _).le)
      (Finset.mem_univ j)
    simpa [hj] using this
  have cE : ∀ l, Along I R fun x => Real.exp (v l x) := fun l => (cv l).comp Real.continuous_exp
  have cH : Along I R fun x => ∑ l, Real.exp (v l x) := Along.sum fun l _ => cE l
  have hH0 : ∀ x, ∑ l, Real.exp (v l x) ≠ 0 := fun x => by have := h1 x; positivity
  -- means with weights given by the exponentials
  have key : ∀ {J : Set ℝ} {y : Pt N d → ℝ} (u : ι → Pt N d → ℝ), (∀ x, Ok J R x → 0 ≤ y x) →
      (∀ l, Big J R y (u l)) →
      Big J R y fun x => (∑ l, Real.exp (v l x) * u l x) / ∑ l, Real.exp (v l x) := by
    intro J y u hy hu
    refine (Big.sum (s := Finset.univ) hy fun l _ => (hu l).abs).mono_abs fun x _ => ?_
    set H := ∑ l, Real.exp (v l x) with hH
    have hH1 : 1 ≤ H := h1 x
    have hle : |∑ l, Real.exp (v l x) * u l x| ≤ H * ∑ l, |u l x| := by
      refine (Finset.abs_sum_le_sum_abs _ _).trans ?_
      rw [Finset.mul_sum]
      refine Finset.sum_le_sum fun l _ => ?_
      rw [abs_mul, abs_of_pos (Real.exp_pos _)]
      exact mul_le_mul_of_nonneg_right (Finset.single_le_sum (f := fun l => Real.exp (v l x))
        (fun _ _ => (Real.exp_pos _).le) (Finset.mem_univ l)) (abs_nonneg _)
    have hm : 0 ≤ ∑ l, |u l x| := Finset.sum_nonneg fun _ _ => abs_nonneg _
    rw [abs_of_nonneg hm, abs_div, abs_of_nonneg (zero_le_one.trans hH1), div_le_iff₀ (by positivity)]
    linarith
  have hV : Big I R (fun _ => 1) fun x => (∑ l, Real.exp (v l x))⁻¹ := by
    refine (Big.const 1).mono_abs fun x _ => ?_
    rw [abs_one, abs_of_nonneg (by have := h1 x; positivity)]
    exact inv_le_one_of_one_le₀ (h1 x)
  -- first and second derivatives of the sum, over the sum
  have k1 := key v1 hw b1
  have k' := key v' hw b'
  have s2 : ∀ l, Big I R (fun x => 1 * sing R x.2) fun x => v1 l x ^ 2 + v2 l x := fun l =>
    ((((b1 l).mul_one (b1 l)).congr fun x _ => by rw [sq]).to_sing hw).add (sing_nonneg hw) (b2 l)
  have k2 := key (fun l x => v1 l x ^ 2 + v2 l x) (sing_nonneg hw) s2
  have k1' := key (fun l x => v' l x * v1 l x + v1' l x) hw fun l =>
    ((b' l).mul_one (b1 l)).interior.add hw (m1b l)
  have k2' := key (fun l x => v' l x * (v1 l x ^ 2 + v2 l x) + (2 * (v1 l x * v1' l x) + v2' l x))
    (sing_nonneg hw) fun l => ((b' l).one_mul (s2 l)).interior.add (sing_nonneg hw)
      ((((Big.const 2).mul_one ((b1 l).interior.mul_one (m1b l))).to_sing hw).add (sing_nonneg hw)
        (m2b l))
  have dE : ∀ l x, Ok I R x → HasDerivAt (fun τ => Real.exp (v l (τ, x.2)))
      (Real.exp (v l x) * v' l x) x.1 := fun l x hx => (hd l x hx).exp
  have dH : ∀ x, Ok I R x → HasDerivAt (fun τ => ∑ l, Real.exp (v l (τ, x.2)))
      (∑ l, Real.exp (v l x) * v' l x) x.1 := fun x hx => HasDerivAt.fun_sum fun l _ => dE l x hx
  have dH1 : ∀ x, Ok (interior I) R x →
      HasDerivAt (fun τ => ∑ l, Real.exp (v l (τ, x.2)) * v1 l (τ, x.2))
      (∑ l, Real.exp (v l x) * (v' l x * v1 l x + v1' l x)) x.1 := fun x hx =>
    HasDerivAt.fun_sum fun l _ => ((dE l x hx.of_interior).mul (m1 l x hx)).congr_deriv (by ring)
  have dH2 : ∀ x, Ok (interior I) R x →
      HasDerivAt (fun τ => ∑ l, (Real.exp (v l (τ, x.2)) * v1 l (τ, x.2) ^ 2 +
        Real.exp (v l (τ, x.2)) * v2 l (τ, x.2)))
      (∑ l, Real.exp (v l x) * (v' l x * (v1 l x ^ 2 + v2 l x) +
        (2 * (v1 l x * v1' l x) + v2' l x))) x.1 := fun x hx =>
    HasDerivAt.fun_sum fun l _ => (((dE l x hx.of_interior).mul ((m1 l x hx).fun_pow 2)).add
      ((dE l x hx.of_interior).mul (m2 l x hx))).congr_deriv (by
        simp only [Nat.cast_ofNat, pow_one, Nat.add_one_sub_one]
        ring)
  refine ⟨fun x => -(∑ l, Real.exp (v l x) * v1 l x) / (∑ l, Real.exp (v l x)) ^ 2,
    fun x => 2 * (∑ l, Real.exp (v l x) * v1 l x) ^ 2 / (∑ l, Real.exp (v l x)) ^ 3 -
      (∑ l, (Real.exp (v l x) * v1 l x ^ 2 + Real.exp (v l x) * v2 l x)) /
        (∑ l, Real.exp (v l x)) ^ 2,
    fun x => -(∑ l, Real.exp (v l x) * v' l x) / (∑ l, Real.exp (v l x)) ^ 2,
    fun x hx => ?_, fun x hx => (dH x hx).fun_inv (hH0 x), ?_, ?_, hV,
    ((Big.const (-1)).one_mul (hV.one_mul k1)).congr fun x _ => ?_,
    ((Big.const (-1)).one_mul (hV.one_mul k')).congr fun x _ => ?_,
    ((((Big.const 2).one_mul (hV.one_mul (k1.mul_one k1))).to_sing hw).add (sing_nonneg hw)
      ((Big.const (-1)).one_mul (hV.one_mul k2))).congr fun x _ => ?_, _, _,
    fun x hx => (dH1 x hx).fun_neg.fun_div ((dH x hx.of_interior).fun_pow 2) (pow_ne_zero 2 (hH0 x)),
    fun x hx => ((((dH1 x hx).fun_pow 2).const_mul 2).fun_div ((dH x hx.of_interior).fun_pow 3)
      (pow_ne_zero 3 (hH0 x))).fun_sub
      ((dH2 x hx).fun_div ((dH x hx.of_interior).fun_pow 2) (pow_ne_zero 2 (hH0 x))),
    (((Big.const 2).one_mul (hV.one_mul (k1.mul_one k'))).interior.add hw
      ((Big.const (-1)).one_mul (hV.interior.one_mul k1'))).congr fun x _ => ?_,
    ((((Big.const (-6)).one_mul (hV.one_mul ((k1.mul_one k1).mul_one k'))).interior.to_sing hw).add
      (sing_nonneg hw) ((((Big.const 4).one_mul (hV.interior.one_mul (k1.interior.mul_one k1'))).to_sing
        hw).add (sing_nonneg hw)
      ((((Big.const 2).one_mul (hV.one_mul (k'.one_mul k2))).interior).add (sing_nonneg hw)
        ((Big.const (-1)).one_mul (hV.interior.one_mul k2'))))).congr fun x _ => ?_⟩
  · have := (HasJet.sum fun l (_ : l ∈ Finset.univ) => (hv l x hx).exp).inv
      (hH0 (x.1, shift x.2 i k 0))
    simpa only [shift_zero] using this
  · exact ((Along.sum fun l _ => (cE l).mul (c1 l)).neg).div (cH.pow 2) fun x _ => pow_ne_zero 2 (hH0 x)
  · exact (((Along.const 2).mul ((Along.sum fun l _ => (cE l).mul (c1 l)).pow 2)).div (cH.pow 3)
      fun x _ => pow_ne_zero 3 (hH0 x)).sub
      ((Along.sum fun l _ => ((cE l).mul ((c1 l).pow 2)).add ((cE l).mul (c2 l))).div (cH.pow 2)
        fun x _ => pow_ne_zero 2 (hH0 x))
  · have := hH0 x
    field_simp
  · have := hH0 x
    field_simp
  · have := hH0 x
    simp only [mul_add, Finset.sum_add_distrib]
    field_simp
    ring
  · have := hH0 x
    simp only [Prod.mk.eta, Nat.cast_ofNat, pow_one, Nat.add_one_sub_one]
    generalize ∑ l, Real.exp (v l x) = H at *
    field_simp
    ring
  · have := hH0 x
    simp only [Prod.mk.eta, Nat.cast_ofNat, pow_one, Nat.add_one_sub_one, ← mul_add]
    generalize ∑ l, Real.exp (v l x) = H at *
    field_simp
    ring

end tame

/-! ### Positions and distances -/

section positions

variable {N m d : ℕ} {I : Set ℝ} {R : Fin m → Fin d → ℝ} {i : Fin N} {k : Fin d}
  {w w' f g : Pt N d → ℝ}

theorem shift_entry (x : Fin N → Fin d → ℝ) (i : Fin N) (k : Fin d) (t : ℝ) (e : Fin N) (a : Fin d) :
    shift x i k t e a = x e a + t * if e = i ∧ a = k then 1 else 0 := by
  unfold shift
  by_cases he : e = i
  · subst he
    by_cases ha : a = k
    · subst ha; simp
    · simp [ha]
  · simp [he]

theorem Tame.coord (e : Fin N) (a : Fin d) : Tame I R i k (fun _ => 1) fun x => x.2 e a := by
  refine ⟨fun _ => if e = i ∧ a = k then 1 else 0, fun _ => 0, fun _ => 0, fun x _ => ?_,
    fun x _ => hasDerivAt_const _ _, Along.const _, Along.const _, ⟨1, 1, zero_le_one,
    fun x _ => ?_⟩, Big.const _, Big.zero, Big.zero, Mixed.const _ _⟩
  · simp only [shift_entry]
    exact HasJet.linear _ _
  · have h1 := norm_le_pi_norm x.2 e
    have h2 := norm_le_pi_norm (x.2 e) a
    rw [Real.norm_eq_abs] at h2
    simp only [pow_one, _root_.one_mul, _root_.mul_one]
    linarith

/-- Softened lengths of vectors which depend linearly on the positions. -/
theorem Tame.length {D : ℕ} (c B C : ℝ) (hB : 0 ≤ B) {δ : Pt N d → Fin D → ℝ}
    {b : ℝ → Fin D → ℝ} (hδ : ∀ θ x t l, δ (θ, shift x i k t) l = δ (θ, x) l + t * b θ l)
    (hb : ∀ l, Par I fun θ => b θ l)
    (h : ∀ l, Tame I R i k (fun _ => 1) fun x => δ x l)
    (h0 : ∀ x, Ok I R x → 0 < c ^ 2 + ∑ l, δ x l ^ 2)
    (h1 : ∀ x, Ok I R x → 1 / Real.sqrt (c ^ 2 + ∑ l, δ x l ^ 2) ≤ B * sing R x.2)
    (h2 : ∀ x, Ok I R x → ∀ l v, HasDerivAt (fun τ => δ (τ, x.2) l) v x.1 →
      |v| ≤ C * Real.sqrt (c ^ 2 + ∑ l, δ x l ^ 2)) :
    Tame I R i k (fun _ => 1) fun x => Real.sqrt (c ^ 2 + ∑ l, δ x l ^ 2) := by
  have hw : ∀ {J : Set ℝ} (x : Pt N d), Ok J R x → (0 : ℝ) ≤ 1 := fun _ _ => zero_le_one
  have hq : Tame I R i k (fun _ => 1) fun x => c ^ 2 + ∑ l, δ x l * δ x l :=
    (Tame.const _).add hw (Tame.sum hw fun l _ => (h l).mul_one hw (h l))
  have hg0 : ∀ x, Ok I R x → Real.sqrt (c ^ 2 + ∑ l, δ x l ^ 2) ≠ 0 := fun x hx =>
    (Real.sqrt_pos.mpr (h0 x hx)).ne'
  have cδ : ∀ l, Along I R fun x => δ x l := fun l => (h l).along
  choose b' db Cb hCb using hb
  have cb : ∀ l, Along I R fun x : Pt N d => b x.1 l := fun l =>
    .of_deriv (f' := fun x => b' l x.1) fun x hx => db l x.1 hx.1
  have cs : Along I R fun x => ∑ l, δ x l * b x.1 l := Along.sum fun l _ => (cδ l).mul (cb l)
  have cg : Along I R fun x => Real.sqrt (c ^ 2 + ∑ l, δ x l ^ 2) :=
    Along.comp Real.continuous_sqrt ((Along.const _).add (Along.sum fun l _ => (cδ l).pow 2))
  have bb : ∀ l, Big (N := N) I R (fun _ => 1) fun x => b x.1 l := fun l =>
    (Big.const (Cb l)).mono_abs fun x hx => (hCb l _ hx.1).1.trans (le_abs_self _)
  have bb' : ∀ l, Big (N := N) I R (fun _ => 1) fun x => b' l x.1 := fun l =>
    (Big.const (Cb l)).mono_abs fun x hx => (hCb l _ hx.1).2.trans (le_abs_self _)
  choose δ1 δ2 δ' j d' e1 e2 g0 g1 g' g2 _ using h
  have key : ∀ a : Fin D → Pt N d → ℝ, (∀ l, Big I R (fun _ => 1) (a l)) → Big I R (fun _ => 1)
      fun x => (∑ l, δ x l * a l x) / Real.sqrt (c ^ 2 + ∑ l, δ x l ^ 2) := by
    intro a ha
    refine (Big.sum (s := Finset.univ) hw fun l _ => (ha l).abs).mono_abs fun x hx => ?_
    rw [abs_of_nonneg (a := ∑ l, |a l x|) (Finset.sum_nonneg fun _ _ => abs_nonneg _)]
    exact length_bound c (δ x) (fun l => a l x) (h0 x hx)
  -- the derivative of the vector is at most of the size of its length
  have hs : ∀ l, Big I R (fun _ => 1) fun x => δ' l x / Real.sqrt (c ^ 2 + ∑ l, δ x l ^ 2) :=
    fun l => (Big.const C).mono_abs fun x hx => by
      have hp := Real.sqrt_pos.mpr (h0 x hx)
      rw [abs_div, abs_of_pos hp, div_le_iff₀ hp]
      exact (h2 x hx l _ (d' l x hx)).trans (mul_le_mul_of_nonneg_right (le_abs_self C) hp.le)
  have kA := key (fun l x => b x.1 l) bb
  have kB := key (fun l x => b' l x.1) bb'
  have kT := key (fun l x => δ' l x / Real.sqrt (c ^ 2 + ∑ l, δ x l ^ 2)) hs
  have kS := Big.sum (s := Finset.univ) hw fun l _ => (hs l).mul_one (bb l)
  have kN := Big.sum (s := Finset.univ) hw fun l _ => (bb l).mul_one (bb l)
  have kM := Big.sum (s := Finset.univ) hw fun l _ => (bb l).mul_one (bb' l)
  have kV : Big I R (fun x => 1 * sing R x.2) fun x => 1 / Real.sqrt (c ^ 2 + ∑ l, δ x l ^ 2) :=
    ⟨B, 0, hB, fun x hx => by
      rw [abs_of_nonneg (by positivity)]
      simpa using h1 x hx⟩
  have dg : ∀ x, Ok I R x → HasDerivAt (fun τ => Real.sqrt (c ^ 2 + ∑ l, δ (τ, x.2) l ^ 2))
      ((∑ l, δ x l * δ' l x) / Real.sqrt (c ^ 2 + ∑ l, δ x l ^ 2)) x.1 := by
    intro x hx
    have := ((HasDerivAt.fun_sum fun l (_ : l ∈ Finset.univ) => (d' l x hx).fun_pow 2).const_add
      (c ^ 2)).sqrt (h0 x hx).ne'
    refine this.congr_deriv ?_
    have hs := hg0 x hx
    rw [show ∑ l, ((2 : ℕ) : ℝ) * δ (x.1, x.2) l ^ (2 - 1) * δ' l x = 2 * ∑ l, δ x l * δ' l x by
      rw [Finset.mul_sum]
      refine Finset.sum_congr rfl fun l _ => ?_
      simp only [Prod.mk.eta]
      push_cast
      ring]
    rw [mul_div_mul_left _ _ two_ne_zero]
  have dS : ∀ x, Ok I R x → HasDerivAt (fun τ => ∑ l, δ (τ, x.2) l * b τ l)
      ((∑ l, δ' l x * b x.1 l) + ∑ l, δ x l * b' l x.1) x.1 := fun x hx =>
    (HasDerivAt.fun_sum fun l (_ : l ∈ Finset.univ) => (d' l x hx).fun_mul (db l x.1 hx.1)).congr_deriv
      Finset.sum_add_distrib
  have dN : ∀ x : Pt N d, Ok I R x → HasDerivAt (fun τ => ∑ l, b τ l ^ 2)
      (2 * ∑ l, b x.1 l * b' l x.1) x.1 := fun x hx =>
    (HasDerivAt.fun_sum fun l (_ : l ∈ Finset.univ) => (db l x.1 hx.1).fun_pow 2).congr_deriv (by
      rw [Finset.mul_sum]
      exact Finset.sum_congr rfl fun l _ => by push_cast; ring)
  have sumdiv : ∀ (x : Pt N d) (p r : Fin D → ℝ) (g : ℝ), ∑ l, p l * (r l / g) = (∑ l, p l * r l) / g :=
    fun x p r g => by
      rw [Finset.sum_div]
      exact Finset.sum_congr rfl fun l _ => by ring
  have sumdiv' : ∀ (x : Pt N d) (p r : Fin D → ℝ) (g : ℝ), ∑ l, p l / g * r l = (∑ l, p l * r l) / g :=
    fun x p r g => by
      rw [Finset.sum_div]
      exact Finset.sum_congr rfl fun l _ => by ring
  refine ⟨fun x => (∑ l, δ x l * b x.1 l) / Real.sqrt (c ^ 2 + ∑ l, δ x l ^ 2),
    fun x => (∑ l, b x.1 l ^ 2) / Real.sqrt (c ^ 2 + ∑ l, δ x l ^ 2) -
      (∑ l, δ x l * b x.1 l) ^ 2 / Real.sqrt (c ^ 2 + ∑ l, δ x l ^ 2) ^ 3,
    fun x => (∑ l, δ x l * δ' l x) / Real.sqrt (c ^ 2 + ∑ l, δ x l ^ 2),
    fun x hx => ?_, dg, cs.div cg hg0,
    ((Along.sum fun l _ => (cb l).pow 2).div cg hg0).sub
      ((cs.pow 2).div (cg.pow 3) fun x hx => pow_ne_zero 3 (hg0 x hx)),
    ?_, kA, key _ g',
    ((kN.add hw ((Big.const (-1)).one_mul (kA.mul_one kA))).one_mul kV).congr fun x hx => ?_, _, _,
    fun x hx => (dS x hx.of_interior).fun_div (dg x hx.of_interior) (hg0 x hx.of_interior),
    fun x hx => ((dN x hx.of_interior).fun_div (dg x hx.of_interior) (hg0 x hx.of_interior)).fun_sub
      (((dS x hx.of_interior).fun_pow 2).fun_div ((dg x hx.of_interior).fun_pow 3)
        (pow_ne_zero 3 (hg0 x hx.of_interior))),
    ((kS.add hw kB).add hw ((Big.const (-1)).one_mul (kA.mul_one kT))).interior.congr
      fun x hx => ?_,
    (((((Big.const 2).one_mul kM).add hw ((Big.const (-1)).one_mul (kN.mul_one kT))).add hw
      (((Big.const (-2)).one_mul (kA.mul_one (kS.add hw kB))).add hw
        ((Big.const 3).one_mul ((kA.mul_one kA).mul_one kT)))).one_mul kV).interior.congr
      fun x hx => ?_⟩
  · have := HasJet.length c (δ x) (b x.1) (h0 x hx)
    simpa only [hδ] using this
  · obtain ⟨-, -, -, -, -, -, -, hq, -⟩ := hq
    refine (hq.add hw (Big.const 1)).mono_abs fun x hx => ?_
    have hs := h0 x hx
    simp only [← sq]
    rw [abs_of_nonneg (Real.sqrt_nonneg _), abs_of_nonneg (by linarith), Real.sqrt_le_iff]
    constructor
    · linarith
    · nlinarith
  · have := hg0 x hx
    simp only [← sq]
    generalize Real.sqrt (c ^ 2 + ∑ l, δ x l ^ 2) = G at *
    field_simp
    ring
  · have := hg0 x hx.of_interior
    simp only [Prod.mk.eta, sumdiv x, sumdiv' x]
    generalize Real.sqrt (c ^ 2 + ∑ l, δ x l ^ 2) = G at *
    field_simp
    ring
  · have := hg0 x hx.of_interior
    simp only [Prod.mk.eta, sumdiv x, sumdiv' x, Nat.cast_ofNat, pow_one, Nat.add_one_sub_one, ← sq]
    generalize Real.sqrt (c ^ 2 + ∑ l, δ x l ^ 2) = G at *
    field_simp
    ring

/-- Exponentials below the weight. -/
theorem Tame.exp (C : ℝ) (hC : 0 ≤ C) (hv : Tame I R i k (fun _ => 1) f)
    (h : ∀ x, Ok I R x → Real.exp (f x) ≤ C * w x) : Tame I R i k w fun x => Real.exp (f x) := by
  have hw : ∀ x : Pt N d, Ok I R x → (0 : ℝ) ≤ 1 := fun _ _ => zero_le_one
  have hE : Big I R w fun x => Real.exp (f x) := ⟨C, 0, hC, fun x hx => by
    rw [abs_of_pos (Real.exp_pos _), pow_zero, _root_.mul_one]
    exact h x hx⟩
  have cE : Along I R fun x => Real.exp (f x) := hv.along.comp Real.continuous_exp
  obtain ⟨f1, f2, f', hj, hd, c1, c2, b0, b1, b', b2, f1', f2', m1, m2, m1b, m2b⟩ := hv
  refine ⟨fun x => Real.exp (f x) * f1 x, fun x => Real.exp (f x) * f1 x ^ 2 + Real.exp (f x) * f2 x,
    fun x => Real.exp (f x) * f' x, fun x hx => ?_, fun x hx => (hd x hx).exp, cE.mul c1,
    (cE.mul (c1.pow 2)).add (cE.mul c2), hE, (hE.mul b1).mono fun x _ => by rw [_root_.mul_one],
    (hE.mul b').mono fun x _ => by rw [_root_.mul_one], ?_, _, _,
    fun x hx => (hd x hx.of_interior).exp.fun_mul (m1 x hx),
    fun x hx => ((hd x hx.of_interior).exp.fun_mul ((m1 x hx).fun_pow 2)).fun_add
      ((hd x hx.of_interior).exp.fun_mul (m2 x hx)),
    (hE.interior.mul_one (((b'.mul_one b1).interior).add (fun _ _ => zero_le_one) m1b)).congr
      fun x _ => ?_, ?_⟩
  · have := (hj x hx).exp
    simpa only [shift_zero] using this
  · have h1 : Big I R (fun x => 1 * sing R x.2) fun x => f1 x ^ 2 + f2 x :=
      ((((b1.mul b1).mono fun x _ => by rw [_root_.mul_one]).to_sing hw).add (sing_nonneg hw)
        b2).congr fun x _ => by rw [sq]
    refine ((hE.mul h1).congr fun x _ => ?_).mono fun x _ => by rw [_root_.one_mul]
    ring
  · simp only [Prod.mk.eta]
    ring
  · have hwi : ∀ x : Pt N d, Ok (interior I) R x → (0 : ℝ) ≤ 1 := fun _ _ => zero_le_one
    have h1 : Big (interior I) R (fun x => 1 * sing R x.2) fun x =>
        f' x * f1 x ^ 2 + f' x * f2 x + (2 * (f1 x * f1' x) + f2' x) :=
      ((((b'.mul_one (b1.mul_one b1)).congr fun x _ => by rw [sq]).interior.to_sing hwi).add
        (sing_nonneg hwi) (b'.one_mul b2).interior).add (sing_nonneg hwi)
        ((((Big.const 2).one_mul (b1.interior.mul_one m1b)).to_sing hwi).add (sing_nonneg hwi) m2b)
    refine ((hE.interior.mul h1).congr fun x _ => ?_).mono fun x _ => by rw [_root_.one_mul]
    simp only [Prod.mk.eta, Nat.cast_ofNat, pow_one, Nat.add_one_sub_one]
    ring

theorem one_nonneg : ∀ x : Pt N d, Ok I R x → (0 : ℝ) ≤ 1 := fun _ _ => zero_le_one

theorem softDist_eq (a b : Fin d → ℝ) :
    softDist 0 a b = Real.sqrt ((0 : ℝ) ^ 2 + ∑ l, (a l - b l) ^ 2) := by
  unfold softDist
  congr 1
  ring

theorem sum_sq_pos {D : ℕ} {a b : Fin D → ℝ} (h : a ≠ b) : 0 < ∑ l, (a l - b l) ^ 2 := by
  obtain ⟨l, hl⟩ := Function.ne_iff.mp h
  exact Finset.sum_pos' (fun _ _ => sq_nonneg _)
    ⟨l, Finset.mem_univ l, by have := sub_ne_zero.mpr hl; positivity⟩

theorem Tame.ion_distance (e : Fin N) (j : Fin m) :
    Tame I R i k (fun _ => 1) fun x => softDist 0 (x.2 e) (R j) := by
  simp only [softDist_eq]
  refine Tame.length 0 1 0 zero_le_one (b := fun _ l => if e = i ∧ l = k then 1 else 0)
    (fun θ x t l => ?_) (fun l => Par.const _) (fun l => (Tame.coord e l).sub one_nonneg (Tame.const _)) (fun x hx => ?_)
    (fun x hx => ?_) fun x hx l v hv => ?_
  · simp only [shift_entry]
    ring
  · have := sum_sq_pos (hx.2.2 e j)
    positivity
  · rw [← softDist_eq, _root_.one_mul]
    exact ion_le_sing R x.2 e j
  · rw [hv.unique (hasDerivAt_const x.1 (x.2 e l - R j l))]
    simp

theorem Tame.pair_distance (e e' : Fin N) :
    Tame I R i k (fun _ => 1) fun x => softDist 0 (x.2 e) (x.2 e') := by
  by_cases he : e = e'
  · subst he
    simp only [softDist, sub_self]
    exact Tame.const _
  simp only [softDist_eq]
  refine Tame.length 0 1 0 zero_le_one
    (b := fun _ l => (if e = i ∧ l = k then 1 else 0) - if e' = i ∧ l = k then 1 else 0)
    (fun θ x t l => ?_) (fun l => Par.const _) (fun l => (Tame.coord e l).sub one_nonneg (Tame.coord e' l)) (fun x hx => ?_)
    (fun x hx => ?_) fun x hx l v hv => ?_
  · simp only [shift_entry]
    ring
  · have := sum_sq_pos (hx.2.1 e e' he)
    positivity
  · rw [← softDist_eq, _root_.one_mul]
    exact pair_le_sing R x.2 e e'
  · rw [hv.unique (hasDerivAt_const x.1 (x.2 e l - x.2 e' l))]
    simp

end positions

/-! ### Determinants -/

section dets

variable {N m d : ℕ} {I : Set ℝ} {R : Fin m → Fin d → ℝ} {i : Fin N} {k : Fin d}

theorem Tame.det {L : ℕ} {w : Fin L → Pt N d → ℝ}
    {M : Pt N d → Matrix (Fin L) (Fin L) ℝ} (hw : ∀ a x, Ok I R x → 0 ≤ w a x)
    (h : ∀ a o, Tame I R i k (w a) fun x => M x a o) :
    Tame I R i k (fun x => ∏ a, w a x) fun x => (M x).det := by
  simp only [Matrix.det_apply']
  have hw' : ∀ x, Ok I R x → 0 ≤ ∏ a, w a x := fun x hx => Finset.prod_nonneg fun a _ => hw a x hx
  refine Tame.sum hw' fun σ _ => Tame.const_mul hw' _ ?_
  refine (Tame.prod (s := Finset.univ) (w := fun a => w (σ a)) (fun a => hw (σ a)) fun a _ =>
    h (σ a) a).mono fun x _ => ?_
  exact (Equiv.prod_comp σ fun a => w a x).le

/-- A function with several weights is bounded by every function which is nowhere smaller than
all of them. -/
theorem Tame.least {ι : Type*} [Fintype ι] {w : ι → Pt N d → ℝ}
    {v f : Pt N d → ℝ} (hv : ∀ x, Ok I R x → 0 ≤ v x)
    (h : ∀ a, Tame I R i k (w a) f) (hle : ∀ x, Ok I R x → ∃ a, w a x ≤ v x) : Tame I R i k v f := by
  have key : ∀ {I : Set ℝ} (u : ι → Pt N d → ℝ) (v' g : Pt N d → ℝ),
      (∀ x, Ok I R x → 0 ≤ v' x) → (∀ a, Big I R (u a) g) → (∀ x, Ok I R x → ∃ a, u a x ≤ v' x) →
      Big I R v' g := by
    intro I u v' g hv' hb hle
    choose C p hC hb using hb
    refine ⟨∑ a, C a, ∑ a, p a, Finset.sum_nonneg fun a _ => hC a, fun x hx => ?_⟩
    obtain ⟨a, ha⟩ := hle x hx
    refine (hb a x hx).trans ?_
    have h1 : C a ≤ ∑ a, C a := Finset.single_le_sum (fun a _ => hC a) (Finset.mem_univ a)
    have h2 : (1 + ‖x.2‖) ^ p a ≤ (1 + ‖x.2‖) ^ ∑ a, p a := pow_le_pow_right₀ (one_le_scale x)
      (Finset.single_le_sum (fun a _ => Nat.zero_le _) (Finset.mem_univ a))
    have h3 := mul_le_mul h1 h2 (scale_nonneg x _) ((hC a).trans h1)
    refine (mul_le_mul_of_nonneg_left ha (mul_nonneg (hC a) (scale_nonneg x _))).trans ?_
    exact mul_le_mul_of_nonneg_right h3 (hv' x hx)
  by_cases hι : Nonempty ι
  · obtain ⟨a₀⟩ := hι
    have hs : ∀ x : Pt N d, 0 ≤ sing R x.2 := fun x => zero_le_one.trans (one_le_sing R x.2)
    choose f1 f2 f' hj hd c1 c2 b0 b1 b' b2 f1' f2' m1 m2 m1b m2b using h
    have e1 : ∀ a x, Ok I R x → f1 a₀ x = f1 a x ∧ f2 a₀ x = f2 a x := fun a x hx =>
      (hj a₀ x hx).unique (hj a x hx)
    refine ⟨f1 a₀, f2 a₀, f' a₀, hj a₀, hd a₀, c1 a₀, c2 a₀, key w v _ hv b0 hle,
      key w v _ hv (fun a => (b1 a).congr fun x hx => (e1 a x hx).1) hle,
      key w v _ hv (fun a => (b' a).congr fun x hx => (hd a₀ x hx).unique (hd a x hx)) hle,
      key (fun a x => w a x * sing R x.2) _ _ (sing_nonneg hv)
        (fun a => (b2 a).congr fun x hx => (e1 a x hx).2) fun x hx => ?_,
      f1' a₀, f2' a₀, m1 a₀, m2 a₀,
      key w v _ (fun x hx => hv x hx.of_interior) (fun a => (m1b a).congr fun x hx =>
        deriv_eq (fun x hx => (e1 a x hx).1) hx (m1 a₀ x hx) (m1 a x hx)) fun x hx =>
          hle x hx.of_interior,
      key (fun a x => w a x * sing R x.2) _ _ (sing_nonneg fun x hx => hv x hx.of_interior)
        (fun a => (m2b a).congr fun x hx => deriv_eq (fun x hx => (e1 a x hx).2) hx (m2 a₀ x hx)
          (m2 a x hx)) fun x hx => ?_⟩
    · obtain ⟨a, ha⟩ := hle x hx
      exact ⟨a, mul_le_mul_of_nonneg_right ha (hs x)⟩
    · obtain ⟨a, ha⟩ := hle x hx.of_interior
      exact ⟨a, mul_le_mul_of_nonneg_right ha (hs x)⟩
  · have hno : ∀ x : Pt N d, ¬Ok I R x := fun x hx => hι ⟨(hle x hx).choose⟩
    exact ⟨0, 0, 0, fun x hx => absurd hx (hno x), fun x hx => absurd hx (hno x), Along.const 0,
      Along.const 0, ⟨0, 0, le_rfl, fun x hx => absurd hx (hno x)⟩, ⟨0, 0, le_rfl, fun x hx => absurd hx (hno x)⟩,
      ⟨0, 0, le_rfl, fun x hx => absurd hx (hno x)⟩, ⟨0, 0, le_rfl, fun x hx => absurd hx (hno x)⟩,
      Mixed.const 0 0⟩

end dets

end Verif.Decay
