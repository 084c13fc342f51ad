import Verif.Props.LocalEnergy
import Verif.Props.Unbiased
import Verif.Lemmas.Quantum
import Mathlib.MeasureTheory.Integral.Pi
import Mathlib.Analysis.SpecialFunctions.Gaussian.GaussianIntegral

/-! C72: the integrated-by-parts local energy has the same expectation as the standard one. -/

namespace Verif.Props
open MeasureTheory Verif.Spec Verif.Phys Verif.Ibp

variable {n m d : ℕ} {ψ : Pos n d → ℝ} {ψ1 ψ2 : Fin n → Fin d → Pos n d → ℝ}

theorem norm_ne_zero (h : WaveFunction ψ ψ1 ψ2) : (∫ x, ψ x ^ 2) ≠ 0 := by
  intro h0
  have := (integral_eq_zero_iff_of_nonneg (fun x => sq_nonneg (ψ x)) h.normalisable).1 h0
  have hf : ∀ᵐ x : Pos n d, False := by
    filter_upwards [this, h.ne_zero] with x h1 h2
    exact h2 (pow_eq_zero_iff two_ne_zero |>.1 h1)
  have hz : (volume : Measure (Pos n d)) = 0 := by
    rw [← ae_eq_bot]
    exact Filter.eventually_false_iff_eq_bot.1 hf
  exact (NeZero.ne (volume : Measure (Pos n d))) hz

theorem expect_eq (h : WaveFunction ψ ψ1 ψ2) (e : Pos n d → ℝ) :
    expect ψ e = (∫ x, ψ x ^ 2 * e x) / ∫ x, ψ x ^ 2 := by
  unfold expect expectedEnergy
  exact integral_born₀ h.measurable.aemeasurable e

/-- Finite expectation. -/
def FiniteExpect (ψ e : Pos n d → ℝ) : Prop := Integrable e (born volume ψ)

theorem finiteExpect_iff (h : WaveFunction ψ ψ1 ψ2) (e : Pos n d → ℝ) :
    FiniteExpect ψ e ↔ Integrable fun x => ψ x ^ 2 * e x :=
  integrable_born₀ h.measurable.aemeasurable (norm_ne_zero h)

theorem expect_add {e e' : Pos n d → ℝ} (h : FiniteExpect ψ e) (h' : FiniteExpect ψ e') :
    expect ψ (fun x => e x + e' x) = expect ψ e + expect ψ e' := integral_add h h'

theorem expect_add4 {a b c e : Pos n d → ℝ} (ha : FiniteExpect ψ a) (hb : FiniteExpect ψ b)
    (hc : FiniteExpect ψ c) (he : FiniteExpect ψ e) :
    expect ψ (fun x => a x + b x + c x + e x) =
      expect ψ a + expect ψ b + expect ψ c + expect ψ e := by
  have hab : FiniteExpect ψ fun x => a x + b x := ha.add hb
  have habc : FiniteExpect ψ fun x => a x + b x + c x := hab.add hc
  rw [expect_add habc he, expect_add hab hc, expect_add ha hb]

/-- C72, kinetic energy: `½|∇ log ψ|²` and `-½ ∇²ψ/ψ` have the same finite expectation. -/
theorem ibp_kinetic_expectation (h : WaveFunction ψ ψ1 ψ2) :
    FiniteExpect ψ (kineticGradient (logAbs ψ)) ∧ FiniteExpect ψ (kineticLaplacian (logAbs ψ)) ∧
      expect ψ (kineticGradient (logAbs ψ)) = expect ψ (kineticLaplacian (logAbs ψ)) := by
  have e1 : (fun x => ψ x ^ 2 * kineticGradient (logAbs ψ) x) =ᵐ[volume]
      fun x => 1 / 2 * ∑ i, ∑ k, ψ1 i k x ^ 2 := by
    filter_upwards [ae_partials h] with x hx
    unfold kineticGradient
    simp only [(hx.2 _ _).1]
    rw [mul_left_comm, Finset.mul_sum]
    simp only [Finset.mul_sum]
    have := hx.1
    refine Finset.sum_congr rfl fun i _ => Finset.sum_congr rfl fun k _ => ?_
    field_simp
  have e2 : (fun x => ψ x ^ 2 * kineticLaplacian (logAbs ψ) x) =ᵐ[volume]
      fun x => -(1 / 2) * ∑ i, ∑ k, ψ x * ψ2 i k x := by
    filter_upwards [ae_partials h] with x hx
    unfold kineticLaplacian
    simp only [(hx.2 _ _).2]
    rw [mul_left_comm, Finset.mul_sum]
    simp only [Finset.mul_sum]
    have := hx.1
    refine Finset.sum_congr rfl fun i _ => Finset.sum_congr rfl fun k _ => ?_
    field_simp
  have j1 : ∀ i, Integrable fun x => ∑ k, ψ1 i k x ^ 2 := fun i =>
    integrable_finsetSum _ fun k _ => h.gradient_sq i k
  have j2 : ∀ i, Integrable fun x => ∑ k, ψ x * ψ2 i k x := fun i =>
    integrable_finsetSum _ fun k _ => h.laplacian i k
  refine ⟨?_, ?_, ?_⟩
  · rw [finiteExpect_iff h, integrable_congr e1]
    exact (integrable_finsetSum _ fun i _ => j1 i).const_mul _
  · rw [finiteExpect_iff h, integrable_congr e2]
    exact (integrable_finsetSum _ fun i _ => j2 i).const_mul _
  · rw [expect_eq h, expect_eq h, integral_congr_ae e1, integral_congr_ae e2, integral_const_mul,
      integral_const_mul, integral_finsetSum _ fun i _ => j1 i, integral_finsetSum _ fun i _ => j2 i]
    congr 1
    rw [neg_mul, ← mul_neg, ← Finset.sum_neg_distrib]
    congr 1
    refine Finset.sum_congr rfl fun i _ => ?_
    rw [integral_finsetSum _ fun k _ => h.gradient_sq i k, integral_finsetSum _ fun k _ =>
      h.laplacian i k, ← Finset.sum_neg_distrib]
    exact Finset.sum_congr rfl fun k _ => kinetic_ibp h i k

/-- What softening adds to the electron-ion energy in integrated-by-parts form. -/
noncomputable def softeningEI (s : ℝ) (R : Pos m d) (Z : Fin m → ℝ) (x : Pos n d) : ℝ :=
  ∑ p : Fin n × Fin m, Z p.2 * (s ^ 2 / (2 * softDist s (x p.1) (R p.2) ^ 3))

/-- What softening adds to the electron-electron energy in integrated-by-parts form. -/
noncomputable def softeningEE (s : ℝ) (x : Pos n d) : ℝ :=
  ∑ p ∈ pairs n, s ^ 2 / (2 * softDist s (x p.1) (x p.2) ^ 3)

theorem softDist_sub (s : ℝ) (a b : Fin d → ℝ) : softDist s (fun k => a k - b k) 0 = softDist s a b := by
  unfold softDist
  simp

theorem softDist_disp (s : ℝ) (x : Pos n d) (y : Pos m d) (i : Fin n) (j : Fin m) :
    softDist s (computeDisplacements x y i j) 0 = softDist s (x i) (y j) := softDist_sub s _ _

theorem follows_ei (i : Fin n) (r : Fin d → ℝ) : Follows i 1 (fun (x : Pos n d) k => x i k - r k) := by
  refine ⟨by fun_prop, fun x k t k' => ?_⟩
  rw [shift_apply]
  simp only [unitStep, true_and]
  ring

theorem follows_ee1 {i j : Fin n} (hij : i ≠ j) :
    Follows i 1 (fun (x : Pos n d) k => x i k - x j k) := by
  refine ⟨by fun_prop, fun x k t k' => ?_⟩
  rw [shift_apply, shift_apply]
  simp only [unitStep, true_and, hij.symm, false_and, if_false]
  ring

theorem follows_ee2 {i j : Fin n} (hij : i ≠ j) :
    Follows j (-1) (fun (x : Pos n d) k => x i k - x j k) := by
  refine ⟨by fun_prop, fun x k t k' => ?_⟩
  rw [shift_apply, shift_apply]
  simp only [unitStep, true_and, hij, false_and, if_false]
  split_ifs <;> ring

theorem exists_ne_component (hd : 2 ≤ d) (k : Fin d) : ∃ k', k' ≠ k := by
  have : Nontrivial (Fin d) := Fin.nontrivial_iff_two_le.2 hd
  exact exists_ne k

theorem softNormBwd_eq (v : Fin d → ℝ) (s : ℝ) (k : Fin d) :
    softNormBwd v s k = v k / softDist s v 0 := by
  have e : computeSoftNorm v s = softDist s v 0 := by
    unfold computeSoftNorm softDist
    simp
  unfold softNormBwd
  rw [e]
  split_ifs with h
  · simp [h]
  · rfl

/-- The pieces of one pair: everything is integrable and the two forms are related. -/
theorem pair_pieces (h : WaveFunction ψ ψ1 ψ2) {s σ : ℝ} {δ : Pos n d → Fin d → ℝ} {i : Fin n}
    (hδ : Follows i σ δ) (hσ : σ ^ 2 = 1)
    (hne : s ≠ 0 ∨ ∀ k, ∀ᵐ x, ∃ k', k' ≠ k ∧ δ x k' ≠ 0)
    (hi : Integrable fun x => ψ x ^ 2 / softDist s (δ x) 0) :
    Integrable (fun x => ∑ k, ψ x * ψ1 i k x * (δ x k / softDist s (δ x) 0)) ∧
    Integrable (fun x => ψ x ^ 2 * (s ^ 2 / (2 * softDist s (δ x) 0 ^ 3))) ∧
    σ * ∫ x, ∑ k, ψ x * ψ1 i k x * (δ x k / softDist s (δ x) 0) =
      -(((d : ℝ) - 1) / 2 * (∫ x, ψ x ^ 2 / softDist s (δ x) 0) +
        ∫ x, ψ x ^ 2 * (s ^ 2 / (2 * softDist s (δ x) 0 ^ 3))) := by
  have hk := fun k => (pair_ibp h hδ hσ k (hne.imp_right fun h => h k) hi).1
  obtain ⟨i1, e1⟩ := pair_ibp_sum h hδ hσ hne hi
  have i2 : Integrable (fun x => ψ x ^ 2 * (s ^ 2 / (2 * softDist s (δ x) 0 ^ 3))) := by
    have := (i1.sub (hi.const_mul ((d : ℝ) - 1))).const_mul (1 / 2)
    refine this.congr (.of_forall fun x => ?_)
    simp only [Pi.sub_apply]
    rcases eq_or_ne (softDist s (δ x) 0) 0 with h0 | h0
    · simp [h0]
    · field_simp
      ring
  refine ⟨integrable_finsetSum _ fun k _ => hk k, i2, ?_⟩
  rw [integral_finsetSum _ fun k _ => hk k]
  have e2 : ∫ x, ψ x ^ 2 * (((d : ℝ) - 1) / softDist s (δ x) 0 + s ^ 2 / softDist s (δ x) 0 ^ 3) =
      ((d : ℝ) - 1) * (∫ x, ψ x ^ 2 / softDist s (δ x) 0) +
        2 * ∫ x, ψ x ^ 2 * (s ^ 2 / (2 * softDist s (δ x) 0 ^ 3)) := by
    rw [← integral_const_mul, ← integral_const_mul, ← integral_add (hi.const_mul _) (i2.const_mul _)]
    refine integral_congr_ae (.of_forall fun x => ?_)
    simp only
    rcases eq_or_ne (softDist s (δ x) 0) 0 with h0 | h0
    · simp [h0]
    · field_simp
  rw [e2] at e1
  linarith

/-- C72, electron-ion energy, in any dimension `d ≥ 2` (or softened): the integrated-by-parts form
has the expectation of a Coulomb attraction of strength `(d - 1) / 2`, minus the softening term. -/
theorem ibp_ei_expectation (h : WaveFunction ψ ψ1 ψ2) (s : ℝ) (hs : s ≠ 0 ∨ 2 ≤ d) (R : Pos m d)
    (Z : Fin m → ℝ) (hc : FiniteEI ψ s R) :
    FiniteExpect ψ (ibpForm (logAbs ψ) (coneEI s R Z)) ∧
    FiniteExpect ψ (coulombEI (((d : ℝ) - 1) / 2) s R Z) ∧ FiniteExpect ψ (softeningEI s R Z) ∧
      expect ψ (ibpForm (logAbs ψ) (coneEI s R Z)) =
        expect ψ (coulombEI (((d : ℝ) - 1) / 2) s R Z) - expect ψ (softeningEI s R Z) := by
  have hne : ∀ (i : Fin n) (I : Fin m), s ≠ 0 ∨ ∀ k, ∀ᵐ x : Pos n d, ∃ k', k' ≠ k ∧ x i k' - R I k' ≠ 0 :=
    fun i I => hs.imp_right fun hd k => by
      obtain ⟨k', hk'⟩ := exists_ne_component hd k
      exact (ae_coord_ne i k' (R I k')).mono fun x hx => ⟨k', hk', sub_ne_zero.2 hx⟩
  have hp := fun (p : Fin n × Fin m) => pair_pieces h (s := s) (follows_ei p.1 (R p.2)) (by norm_num)
    (hne p.1 p.2) (by simpa only [softDist_sub] using hc p.1 p.2)
  simp only [softDist_sub] at hp
  have hreg : ∀ᵐ x : Pos n d, s ≠ 0 ∨ Apart x R := by
    rcases hs with h | h
    · exact .of_forall fun x => .inl h
    · exact (ae_apart (by omega) R).mono fun x hx => .inr hx
  have e1 : (fun x => ψ x ^ 2 * ibpForm (logAbs ψ) (coneEI s R Z) x) =ᵐ[volume]
      fun x => ∑ p : Fin n × Fin m, Z p.2 * ∑ k, ψ x * ψ1 p.1 k x *
        ((x p.1 k - R p.2 k) / softDist s (x p.1) (R p.2)) := by
    filter_upwards [ae_partials h, hreg] with x hx hr
    unfold ibpForm
    simp only [(hx.2 _ _).1, ← gradUei_eq s R Z x hr, gradUei, softNormBwd_eq, softDist_disp,
      Fintype.sum_prod_type, Finset.mul_sum, computeDisplacements]
    refine Finset.sum_congr rfl fun i _ => ?_
    rw [Finset.sum_comm]
    refine Finset.sum_congr rfl fun I _ => Finset.sum_congr rfl fun k _ => ?_
    have h0 := hx.1
    have e : ∀ q : ℝ, ψ x ^ 2 * (-2 * (ψ1 i k x / ψ x * (-(Z I / 2) * q))) =
        Z I * (ψ x * ψ1 i k x * q) := fun q => by
      field_simp
    exact e _
  have e2 : (fun x => ψ x ^ 2 * coulombEI (((d : ℝ) - 1) / 2) s R Z x) = fun x =>
      ∑ p : Fin n × Fin m, (-(((d : ℝ) - 1) / 2) * Z p.2) *
        (ψ x ^ 2 / softDist s (x p.1) (R p.2)) := by
    funext x
    unfold coulombEI
    rw [← Finset.sum_neg_distrib, Finset.mul_sum]
    exact Finset.sum_congr rfl fun p _ => by ring
  have e3 : (fun x => ψ x ^ 2 * softeningEI s R Z x) = fun x =>
      ∑ p : Fin n × Fin m, Z p.2 * (ψ x ^ 2 * (s ^ 2 / (2 * softDist s (x p.1) (R p.2) ^ 3))) := by
    funext x
    unfold softeningEI
    rw [Finset.mul_sum]
    exact Finset.sum_congr rfl fun p _ => by ring
  have j1 := fun p : Fin n × Fin m => ((hp p).1.const_mul (Z p.2))
  have j2 := fun p : Fin n × Fin m => (hc p.1 p.2).const_mul (-(((d : ℝ) - 1) / 2) * Z p.2)
  have j3 := fun p : Fin n × Fin m => ((hp p).2.1.const_mul (Z p.2))
  refine ⟨?_, ?_, ?_, ?_⟩
  · rw [finiteExpect_iff h, integrable_congr e1]
    exact integrable_finsetSum _ fun p _ => j1 p
  · rw [finiteExpect_iff h, e2]
    exact integrable_finsetSum _ fun p _ => j2 p
  · rw [finiteExpect_iff h, e3]
    exact integrable_finsetSum _ fun p _ => j3 p
  · rw [expect_eq h, expect_eq h, expect_eq h, integral_congr_ae e1, e2, e3,
      integral_finsetSum _ fun p _ => j1 p, integral_finsetSum _ fun p _ => j2 p,
      integral_finsetSum _ fun p _ => j3 p, ← sub_div, ← Finset.sum_sub_distrib]
    congr 1
    refine Finset.sum_congr rfl fun p _ => ?_
    have := (hp p).2.2
    rw [integral_const_mul, integral_const_mul, integral_const_mul]
    rw [one_mul] at this
    rw [this]
    ring

/-- C72, electron-electron energy, in any dimension `d ≥ 2` (or softened): the integrated-by-parts
form has the expectation of a Coulomb repulsion of strength `(d - 1) / 2`, plus the softening
term. -/
theorem ibp_ee_expectation (h : WaveFunction ψ ψ1 ψ2) (s : ℝ) (hs : s ≠ 0 ∨ 2 ≤ d)
    (hc : FiniteEE ψ s) :
    FiniteExpect ψ (ibpForm (logAbs ψ) (coneEE s)) ∧
    FiniteExpect ψ (coulombEE (((d : ℝ) - 1) / 2) s) ∧ FiniteExpect ψ (softeningEE s) ∧
      expect ψ (ibpForm (logAbs ψ) (coneEE s)) =
        expect ψ (coulombEE (((d : ℝ) - 1) / 2) s) + expect ψ (softeningEE s) := by
  have hlt : ∀ {p : Fin n × Fin n}, p ∈ pairs n → p.1 < p.2 := fun hp => by
    simpa [pairs] using hp
  have hne : ∀ {i j : Fin n}, i ≠ j → s ≠ 0 ∨ ∀ k, ∀ᵐ x : Pos n d, ∃ k', k' ≠ k ∧ x i k' - x j k' ≠ 0 :=
    fun {i j} hij => hs.imp_right fun hd k => by
      obtain ⟨k', hk'⟩ := exists_ne_component hd k
      exact (ae_coord_sub_ne hij k').mono fun x hx => ⟨k', hk', sub_ne_zero.2 hx⟩
  have hp1 := fun (p : Fin n × Fin n) (hp : p ∈ pairs n) => pair_pieces h (s := s)
    (follows_ee1 (hlt hp).ne) (by norm_num) (hne (hlt hp).ne)
    (by simpa only [softDist_sub] using hc p.1 p.2 (hlt hp))
  have hp2 := fun (p : Fin n × Fin n) (hp : p ∈ pairs n) => pair_pieces h (s := s)
    (follows_ee2 (hlt hp).ne) (by norm_num) (hne (hlt hp).ne)
    (by simpa only [softDist_sub] using hc p.1 p.2 (hlt hp))
  simp only [softDist_sub] at hp1 hp2
  have hreg : ∀ᵐ x : Pos n d, s ≠ 0 ∨ Distinct x := by
    rcases hs with h | h
    · exact .of_forall fun x => .inl h
    · exact (ae_distinct (by omega)).mono fun x hx => .inr hx
  have e1 : (fun x => ψ x ^ 2 * ibpForm (logAbs ψ) (coneEE s) x) =ᵐ[volume]
      fun x => ∑ p ∈ pairs n, ((-(1 / 2)) * (∑ k, ψ x * ψ1 p.1 k x *
        ((x p.1 k - x p.2 k) / softDist s (x p.1) (x p.2))) +
        1 / 2 * ∑ k, ψ x * ψ1 p.2 k x *
        ((x p.1 k - x p.2 k) / softDist s (x p.1) (x p.2))) := by
    filter_upwards [ae_partials h, hreg] with x hx hr
    have hg : ∀ a k, partial1 (coneEE s) a k x = ∑ p ∈ pairs n, 1 / 4 *
        ((x p.1 k - x p.2 k) / softDist s (x p.1) (x p.2)) *
          ((if p.1 = a then 1 else 0) - if p.2 = a then 1 else 0) := by
      intro a k
      rw [← gradUee_eq s x hr]
      unfold gradUee pairs
      rw [Finset.sum_filter, Fintype.sum_prod_type]
      refine Finset.sum_congr rfl fun i _ => Finset.sum_congr rfl fun j _ => ?_
      simp only [softNormBwd_eq, softDist_disp, computeDisplacements, triu1, Fin.lt_def,
        Nat.succ_le_iff]
      split_ifs <;> simp
    unfold ibpForm
    simp only [(hx.2 _ _).1, hg]
    simp only [Finset.mul_sum]
    have h0 := hx.1
    have hs : ∀ (p : Fin n × Fin n), (∑ a, ∑ k, ψ x ^ 2 * (-2 * (ψ1 a k x / ψ x * (1 / 4 *
          ((x p.1 k - x p.2 k) / softDist s (x p.1) (x p.2)) *
          ((if p.1 = a then 1 else 0) - if p.2 = a then 1 else 0))))) =
        ∑ k, (-(1 / 2)) * (ψ x * ψ1 p.1 k x *
          ((x p.1 k - x p.2 k) / softDist s (x p.1) (x p.2))) +
        ∑ k, 1 / 2 * (ψ x * ψ1 p.2 k x *
          ((x p.1 k - x p.2 k) / softDist s (x p.1) (x p.2))) := by
      intro p
      rw [Finset.sum_comm, ← Finset.sum_add_distrib]
      refine Finset.sum_congr rfl fun k _ => ?_
      generalize (x p.1 k - x p.2 k) / softDist s (x p.1) (x p.2) = q
      have : ∀ a, ψ x ^ 2 * (-2 * (ψ1 a k x / ψ x * (1 / 4 * q *
          ((if p.1 = a then 1 else 0) - if p.2 = a then 1 else 0)))) =
          (if p.1 = a then -(1 / 2) * (ψ x * ψ1 a k x * q) else 0) +
          (if p.2 = a then 1 / 2 * (ψ x * ψ1 a k x * q) else 0) := by
        intro a
        split_ifs <;> field_simp <;> ring
      simp only [this, Finset.sum_add_distrib, Finset.sum_ite_eq, Finset.mem_univ, if_true]
    simp only [← hs]
    rw [Finset.sum_comm' (s := pairs n) (t := fun _ => Finset.univ) (t' := Finset.univ)
      (s' := fun _ => pairs n) (by simp)]
    refine Finset.sum_congr rfl fun a _ => ?_
    rw [Finset.sum_comm]
  have e2 : (fun x => ψ x ^ 2 * coulombEE (((d : ℝ) - 1) / 2) s x) = fun x =>
      ∑ p ∈ pairs n, (((d : ℝ) - 1) / 2) * (ψ x ^ 2 / softDist s (x p.1) (x p.2)) := by
    funext x
    unfold coulombEE
    rw [Finset.mul_sum]
    exact Finset.sum_congr rfl fun p _ => by ring
  have e3 : (fun x => ψ x ^ 2 * softeningEE s x) = fun x =>
      ∑ p ∈ pairs n, (ψ x ^ 2 * (s ^ 2 / (2 * softDist s (x p.1) (x p.2) ^ 3))) := by
    funext x
    unfold softeningEE
    rw [Finset.mul_sum]
  have j1 : ∀ p ∈ pairs n, Integrable fun x => ((-(1 / 2)) * (∑ k, ψ x * ψ1 p.1 k x *
        ((x p.1 k - x p.2 k) / softDist s (x p.1) (x p.2))) +
        1 / 2 * ∑ k, ψ x * ψ1 p.2 k x *
        ((x p.1 k - x p.2 k) / softDist s (x p.1) (x p.2))) := fun p hp =>
    ((hp1 p hp).1.const_mul (-(1 / 2))).add ((hp2 p hp).1.const_mul (1 / 2))
  have j2 := fun (p : Fin n × Fin n) (hp : p ∈ pairs n) =>
    (hc p.1 p.2 (hlt hp)).const_mul (((d : ℝ) - 1) / 2)
  have j3 := fun (p : Fin n × Fin n) (hp : p ∈ pairs n) => (hp1 p hp).2.1
  refine ⟨?_, ?_, ?_, ?_⟩
  · rw [finiteExpect_iff h, integrable_congr e1]
    exact integrable_finsetSum _ j1
  · rw [finiteExpect_iff h, e2]
    exact integrable_finsetSum _ j2
  · rw [finiteExpect_iff h, e3]
    exact integrable_finsetSum _ j3
  · rw [expect_eq h, expect_eq h, expect_eq h, integral_congr_ae e1, e2, e3,
      integral_finsetSum _ j1, integral_finsetSum _ j2,
      integral_finsetSum _ j3, ← add_div, ← Finset.sum_add_distrib]
    congr 1
    refine Finset.sum_congr rfl fun p hp => ?_
    have h1 := (hp1 p hp).2.2
    have h2 := (hp2 p hp).2.2
    rw [integral_add ((hp1 p hp).1.const_mul _) ((hp2 p hp).1.const_mul _), integral_const_mul,
      integral_const_mul, integral_const_mul]
    linarith

/-- The integrated-by-parts form of each part is exact in expectation up to softening, so in three
dimensions the bias of the whole local energy is what softening adds. -/
theorem ibp_energy_bias {K : Type} (permutation : K → Equiv.Perm (Fin n)) {ψ : Pos n 3 → ℝ}
    {ψ1 ψ2 : Fin n → Fin 3 → Pos n 3 → ℝ} (h : WaveFunction ψ ψ1 ψ2) (parts sampleParts : List String)
    (k : ℕ) (R : Pos m 3) (hR : Distinct R) (Z : Fin m → ℝ) (eiSoft eeSoft : ℝ)
    (hei : FiniteEI ψ eiSoft R) (hee : FiniteEE ψ eeSoft) :
    ∃ E E₀ : LocalEnergy n 3 K, ∃ e e₀ : Pos n 3 → ℝ,
      assembleMolLocalEnergy permutation "ibp" parts k sampleParts R Z eiSoft eeSoft (logAbs ψ)
        = some E ∧
      assembleMolLocalEnergy permutation "standard" parts k sampleParts R Z eiSoft eeSoft (logAbs ψ)
        = some E₀ ∧
      (∀ᵐ x, ∀ key, E x key = .fin (e x) ∧ E₀ x key = .fin (e₀ x)) ∧
      FiniteExpect ψ e ∧ FiniteExpect ψ e₀ ∧
      expect ψ e = expect ψ e₀ - (if "ei" ∈ parts then expect ψ (softeningEI eiSoft R Z) else 0) +
        if "ee" ∈ parts then expect ψ (softeningEE eeSoft) else 0 := by
  let e : Pos n 3 → ℝ := fun x =>
    (if "kinetic" ∈ parts then kineticGradient (logAbs ψ) x else kineticLaplacian (logAbs ψ) x) +
    (if "ei" ∈ parts then ibpForm (logAbs ψ) (coneEI eiSoft R Z) x else coulombEI 1 eiSoft R Z x) +
    (if "ee" ∈ parts then ibpForm (logAbs ψ) (coneEE eeSoft) x else coulombEE 1 eeSoft x) +
    coulombII R Z
  let e₀ : Pos n 3 → ℝ := fun x => kineticLaplacian (logAbs ψ) x + coulombEI 1 eiSoft R Z x +
    coulombEE 1 eeSoft x + coulombII R Z
  have hprob := isProbabilityMeasure_born h.normalisable (norm_ne_zero h)
  have hval := fun x hx key => ibp_energy_terms permutation parts sampleParts k R Z eiSoft eeSoft
    (logAbs ψ) x key hx
  have hval₀ := fun x hx key => standard_energy_terms permutation parts sampleParts k R Z eiSoft
    eeSoft (logAbs ψ) x key hx
  obtain ⟨k1, k2, k3⟩ := ibp_kinetic_expectation h
  obtain ⟨a1, a2, a3, a4⟩ := ibp_ei_expectation h eiSoft (.inr (by norm_num)) R Z hei
  obtain ⟨b1, b2, b3, b4⟩ := ibp_ee_expectation h eeSoft (.inr (by norm_num)) hee
  have e3 : (((3 : ℕ) : ℝ) - 1) / 2 = 1 := by norm_num
  rw [e3] at a2 a4 b2 b4
  have c1 : FiniteExpect ψ fun x => if "kinetic" ∈ parts then kineticGradient (logAbs ψ) x
      else kineticLaplacian (logAbs ψ) x := by split_ifs <;> assumption
  have c2 : FiniteExpect ψ fun x => if "ei" ∈ parts then ibpForm (logAbs ψ) (coneEI eiSoft R Z) x
      else coulombEI 1 eiSoft R Z x := by split_ifs <;> assumption
  have c3 : FiniteExpect ψ fun x => if "ee" ∈ parts then ibpForm (logAbs ψ) (coneEE eeSoft) x
      else coulombEE 1 eeSoft x := by split_ifs <;> assumption
  have c4 : FiniteExpect ψ fun _ => coulombII R Z := integrable_const _
  have hreg : ∀ᵐ x : Pos n 3, Regular eiSoft eeSoft R x := by
    filter_upwards [ae_apart (by norm_num) R, ae_distinct (by norm_num)] with x h1 h2
    exact ⟨.inr h1, .inr h2, hR⟩
  refine ⟨_, _, e, e₀, by unfold assembleMolLocalEnergy; rw [if_neg (by decide), if_pos rfl],
    by unfold assembleMolLocalEnergy; rw [if_pos rfl], ?_, ((c1.add c2).add c3).add c4,
    ((k2.add a2).add b2).add c4, ?_⟩
  · filter_upwards [hreg] with x hx key
    obtain ⟨E, hE, h1⟩ := hval x hx key
    obtain ⟨E₀, hE₀, h2⟩ := hval₀ x hx key
    unfold assembleMolLocalEnergy at hE hE₀
    rw [if_neg (by decide), if_pos rfl] at hE
    rw [if_pos rfl] at hE₀
    obtain rfl := Option.some.inj hE
    obtain rfl := Option.some.inj hE₀
    exact ⟨h1, h2⟩
  · rw [expect_add4 c1 c2 c3 c4, expect_add4 k2 a2 b2 c4]
    split_ifs <;> linarith

/-- C72: without softening, in three dimensions, every choice of parts gives a local energy with
the expectation of the standard one.  Missing for the full claim: softening, for which the claim is
false (`ibp_softened_biased`). -/
theorem ibp_energy_unbiased_partial {K : Type} (permutation : K → Equiv.Perm (Fin n))
    {ψ : Pos n 3 → ℝ} {ψ1 ψ2 : Fin n → Fin 3 → Pos n 3 → ℝ} (h : WaveFunction ψ ψ1 ψ2)
    (parts sampleParts : List String) (k : ℕ) (R : Pos m 3) (hR : Distinct R) (Z : Fin m → ℝ)
    (hei : FiniteEI ψ 0 R) (hee : FiniteEE ψ 0) :
    ∃ E E₀ : LocalEnergy n 3 K, ∃ e e₀ : Pos n 3 → ℝ,
      assembleMolLocalEnergy permutation "ibp" parts k sampleParts R Z 0 0 (logAbs ψ) = some E ∧
      assembleMolLocalEnergy permutation "standard" parts k sampleParts R Z 0 0 (logAbs ψ)
        = some E₀ ∧
      (∀ᵐ x, ∀ key, E x key = .fin (e x) ∧ E₀ x key = .fin (e₀ x)) ∧
      FiniteExpect ψ e ∧ FiniteExpect ψ e₀ ∧ expect ψ e = expect ψ e₀ := by
  obtain ⟨E, E₀, e, e₀, h1, h2, h3, h4, h5, h6⟩ :=
    ibp_energy_bias permutation h parts sampleParts k R hR Z 0 0 hei hee
  refine ⟨E, E₀, e, e₀, h1, h2, h3, h4, h5, ?_⟩
  have z1 : softeningEI (n := n) 0 R Z = fun _ => 0 := by
    funext x
    simp [softeningEI]
  have z2 : softeningEE (n := n) (d := 3) 0 = fun _ => 0 := by
    funext x
    simp [softeningEE]
  rw [h6, z1, z2]
  simp [expect, expectedEnergy]

theorem expect_pos (h : WaveFunction ψ ψ1 ψ2) {e : Pos n d → ℝ} (hf : FiniteExpect ψ e)
    (he : ∀ x, 0 < e x) : 0 < expect ψ e := by
  have hprob := isProbabilityMeasure_born h.normalisable (norm_ne_zero h)
  refine lt_of_le_of_ne (integral_nonneg fun x => (he x).le) fun h0 => ?_
  have := (integral_eq_zero_iff_of_nonneg (fun x => (he x).le) hf).1 h0.symm
  have hf : ∀ᵐ x ∂(born volume ψ), False := this.mono fun x hx => (he x).ne' hx
  have hz : born volume ψ = 0 := by
    rw [← ae_eq_bot]
    exact Filter.eventually_false_iff_eq_bot.1 hf
  exact (NeZero.ne (born volume ψ)) hz

/-- C72 (negation): with softening of the attraction the integrated-by-parts energy is too low in
expectation, for every wave function of at least one electron and every set of at least one
positive charge. -/
theorem ibp_softened_biased {K : Type} (permutation : K → Equiv.Perm (Fin n)) [NeZero n] [NeZero m]
    {ψ : Pos n 3 → ℝ} {ψ1 ψ2 : Fin n → Fin 3 → Pos n 3 → ℝ} (h : WaveFunction ψ ψ1 ψ2)
    (k : ℕ) (sampleParts : List String) (R : Pos m 3) (hR : Distinct R) (Z : Fin m → ℝ)
    (hZ : ∀ I, 0 < Z I) (eiSoft eeSoft : ℝ) (hs : eiSoft ≠ 0) (hei : FiniteEI ψ eiSoft R)
    (hee : FiniteEE ψ eeSoft) :
    ∃ E E₀ : LocalEnergy n 3 K, ∃ e e₀ : Pos n 3 → ℝ,
      assembleMolLocalEnergy permutation "ibp" ["ei"] k sampleParts R Z eiSoft eeSoft (logAbs ψ)
        = some E ∧
      assembleMolLocalEnergy permutation "standard" ["ei"] k sampleParts R Z eiSoft eeSoft (logAbs ψ)
        = some E₀ ∧
      (∀ᵐ x, ∀ key, E x key = .fin (e x) ∧ E₀ x key = .fin (e₀ x)) ∧
      FiniteExpect ψ e ∧ FiniteExpect ψ e₀ ∧ expect ψ e < expect ψ e₀ := by
  obtain ⟨E, E₀, e, e₀, h1, h2, h3, h4, h5, h6⟩ :=
    ibp_energy_bias permutation h ["ei"] sampleParts k R hR Z eiSoft eeSoft hei hee
  refine ⟨E, E₀, e, e₀, h1, h2, h3, h4, h5, ?_⟩
  have hp : 0 < expect ψ (softeningEI eiSoft R Z) := by
    refine expect_pos h (ibp_ei_expectation h eiSoft (.inl hs) R Z hei).2.2.1 fun x => ?_
    refine Finset.sum_pos (fun p _ => ?_) Finset.univ_nonempty
    have := softDist_pos (a := x p.1) (b := R p.2) (.inl hs)
    have := hZ p.2
    positivity
  rw [h6]
  simp
  exact hp

/-! ### example: an unsoftened p orbital, with a node and a nucleus at the origin -/

section Orbital

def rsq (x : Pos 1 3) : ℝ := ∑ k, x 0 k ^ 2

noncomputable def pOrbital (x : Pos 1 3) : ℝ := x 0 0 * Real.exp (-(rsq x) / 2)

noncomputable def pOrbital1 (_ : Fin 1) (k : Fin 3) (x : Pos 1 3) : ℝ :=
  ((if k = 0 then 1 else 0) - x 0 0 * x 0 k) * Real.exp (-(rsq x) / 2)

noncomputable def pOrbital2 (_ : Fin 1) (k : Fin 3) (x : Pos 1 3) : ℝ :=
  (-2 * (if k = 0 then 1 else 0) * x 0 k - x 0 0 + x 0 0 * x 0 k ^ 2) * Real.exp (-(rsq x) / 2)

theorem integrable_gauss : Integrable fun x : Pos 1 3 => Real.exp (-(rsq x) / 2) := by
  have h1 : Integrable fun y : Fin 3 → ℝ => ∏ k, Real.exp (-(1 / 2) * y k ^ 2) :=
    Integrable.fintype_prod (f := fun _ t => Real.exp (-(1 / 2) * t ^ 2)) fun _ =>
      integrable_exp_neg_mul_sq (by norm_num)
  have h2 : Integrable fun x : Pos 1 3 => ∏ i, ∏ k, Real.exp (-(1 / 2) * x i k ^ 2) :=
    Integrable.fintype_prod (f := fun (_ : Fin 1) (y : Fin 3 → ℝ) =>
      ∏ k, Real.exp (-(1 / 2) * y k ^ 2)) fun _ => h1
  refine h2.congr (.of_forall fun x => ?_)
  simp only [Finset.univ_unique, Finset.prod_singleton, Fin.default_eq_zero, rsq]
  rw [← Real.exp_sum, ← Finset.mul_sum]
  congr 1
  ring

theorem exp_bounds {y : ℝ} (hy : 0 ≤ y) :
    1 ≤ Real.exp (y / 2) ∧ y ≤ 2 * Real.exp (y / 2) ∧ y ^ 2 ≤ 8 * Real.exp (y / 2) := by
  have := Real.quadratic_le_exp_of_nonneg (x := y / 2) (by positivity)
  refine ⟨?_, ?_, ?_⟩ <;> nlinarith [sq_nonneg y]

theorem rsq_nonneg (x : Pos 1 3) : 0 ≤ rsq x := Finset.sum_nonneg fun _ _ => sq_nonneg _

theorem coord_sq_le (x : Pos 1 3) (k : Fin 3) : x 0 k ^ 2 ≤ rsq x :=
  Finset.single_le_sum (f := fun k => x 0 k ^ 2) (fun _ _ => sq_nonneg _) (Finset.mem_univ k)

/-- polynomial times `exp (-r²)` -/
theorem integrable_of_poly {p : Pos 1 3 → ℝ} (hm : Measurable p)
    (hp : ∀ x, |p x| ≤ 10 * (1 + rsq x + rsq x ^ 2)) :
    Integrable fun x => p x * Real.exp (-(rsq x) / 2) ^ 2 := by
  have hr : Measurable rsq := by unfold rsq; fun_prop
  refine (integrable_gauss.const_mul 200).mono' (by fun_prop) (.of_forall fun x => ?_)
  obtain ⟨h1, h2, h3⟩ := exp_bounds (rsq_nonneg x)
  have he : Real.exp (-(rsq x) / 2) * Real.exp (rsq x / 2) = 1 := by
    rw [← Real.exp_add]
    simp
    ring
  have h0 := Real.exp_pos (-(rsq x) / 2)
  rw [norm_mul, Real.norm_eq_abs, Real.norm_eq_abs, abs_of_nonneg (sq_nonneg (Real.exp _))]
  have hb : |p x| ≤ 200 * Real.exp (rsq x / 2) := by linarith [hp x]
  calc |p x| * Real.exp (-(rsq x) / 2) ^ 2
      ≤ 200 * Real.exp (rsq x / 2) * Real.exp (-(rsq x) / 2) ^ 2 :=
        mul_le_mul_of_nonneg_right hb (sq_nonneg _)
    _ = 200 * Real.exp (-(rsq x) / 2) * (Real.exp (-(rsq x) / 2) * Real.exp (rsq x / 2)) := by ring
    _ = _ := by rw [he, mul_one]

theorem shift_coord (x : Pos 1 3) (i : Fin 1) (k : Fin 3) (t : ℝ) (k' : Fin 3) :
    shift x i k t 0 k' = x 0 k' + t * if k' = k then 1 else 0 := by
  rw [shift_apply]
  have : i = 0 := Subsingleton.elim _ _
  simp [unitStep, this]

theorem hasDerivAt_coord (x : Pos 1 3) (i : Fin 1) (k k' : Fin 3) (t : ℝ) :
    HasDerivAt (fun t => shift x i k t 0 k') (if k' = k then 1 else 0) t := by
  simp only [shift_coord]
  have := ((hasDerivAt_id t).mul_const (if k' = k then (1 : ℝ) else 0)).const_add (x 0 k')
  simpa using this

theorem hasDerivAt_gauss (x : Pos 1 3) (i : Fin 1) (k : Fin 3) (t : ℝ) :
    HasDerivAt (fun t => Real.exp (-(rsq (shift x i k t)) / 2))
      (-(shift x i k t 0 k) * Real.exp (-(rsq (shift x i k t)) / 2)) t := by
  have h1 : HasDerivAt (fun t => rsq (shift x i k t)) (2 * shift x i k t 0 k) t := by
    unfold rsq
    have := HasDerivAt.fun_sum (u := Finset.univ)
      (fun k' (_ : k' ∈ Finset.univ) => (hasDerivAt_coord x i k k' t).fun_pow 2)
    refine this.congr_deriv ?_
    simp
  have := (h1.fun_neg.div_const 2).exp
  refine this.congr_deriv ?_
  ring

theorem pOrbital_waveFunction : WaveFunction pOrbital pOrbital1 pOrbital2 := by
  have hr : Measurable rsq := by unfold rsq; fun_prop
  refine ⟨by unfold pOrbital; fun_prop, fun i k => ?_, ?_, fun i k => .of_forall fun x t => ?_,
    fun i k => .of_forall fun x t => ?_, ?_, fun i k => ?_, fun i k => ?_⟩
  · unfold pOrbital1
    exact Measurable.aestronglyMeasurable (by fun_prop)
  · filter_upwards [ae_coord_ne (n := 1) (d := 3) 0 0 0] with x hx
    exact mul_ne_zero hx (Real.exp_pos _).ne'
  · have := (hasDerivAt_coord x i k 0 t).fun_mul (hasDerivAt_gauss x i k t)
    unfold pOrbital pOrbital1
    refine this.congr_deriv ?_
    simp only [eq_comm (a := k)]
    ring
  · have := ((hasDerivAt_const t (if k = 0 then (1 : ℝ) else 0)).fun_sub
      ((hasDerivAt_coord x i k 0 t).fun_mul (hasDerivAt_coord x i k k t))).fun_mul
      (hasDerivAt_gauss x i k t)
    unfold pOrbital1 pOrbital2
    refine this.congr_deriv ?_
    simp only [eq_comm (a := k), if_true]
    split_ifs with h
    · subst h
      ring
    · ring
  · have := integrable_of_poly (p := fun x => x 0 0 ^ 2) (by fun_prop) (fun x => by
      have := coord_sq_le x 0
      have := rsq_nonneg x
      rw [abs_of_nonneg (sq_nonneg _)]
      nlinarith)
    refine this.congr (.of_forall fun x => ?_)
    simp only [pOrbital]
    ring
  · have := integrable_of_poly (p := fun x => ((if k = 0 then 1 else 0) - x 0 0 * x 0 k) ^ 2)
      (by fun_prop) (fun x => by
        have h0 := coord_sq_le x 0
        have hk := coord_sq_le x k
        have hn := rsq_nonneg x
        rw [abs_of_nonneg (sq_nonneg _)]
        have hm : (x 0 0 * x 0 k) ^ 2 ≤ rsq x ^ 2 := by
          rw [mul_pow, sq (rsq x)]
          exact mul_le_mul h0 hk (sq_nonneg _) hn
        split_ifs <;> nlinarith [sq_nonneg (1 + x 0 0 * x 0 k)])
    refine this.congr (.of_forall fun x => ?_)
    simp only [pOrbital1]
    ring
  · have := integrable_of_poly (p := fun x => x 0 0 *
      (-2 * (if k = 0 then 1 else 0) * x 0 k - x 0 0 + x 0 0 * x 0 k ^ 2)) (by fun_prop) (fun x => by
        have h0 := coord_sq_le x 0
        have hk := coord_sq_le x k
        have hn := rsq_nonneg x
        have hm : x 0 0 ^ 2 * x 0 k ^ 2 ≤ rsq x ^ 2 := by
          rw [sq (rsq x)]
          exact mul_le_mul h0 hk (sq_nonneg _) hn
        have hm0 : 0 ≤ x 0 0 ^ 2 * x 0 k ^ 2 := by positivity
        rw [abs_le]
        split_ifs <;> constructor <;> nlinarith [sq_nonneg (x 0 0 + x 0 k), sq_nonneg (x 0 0 - x 0 k)])
    refine this.congr (.of_forall fun x => ?_)
    simp only [pOrbital, pOrbital2]
    ring

theorem pOrbital_finiteEI (s : ℝ) : FiniteEI (m := 1) pOrbital s (fun _ _ => 0) := by
  intro i I
  have : i = 0 := Subsingleton.elim _ _
  subst this
  have hr : Measurable rsq := by unfold rsq; fun_prop
  have hD : Measurable fun x : Pos 1 3 => softDist s (x 0) (fun _ => 0) := by
    unfold softDist
    fun_prop
  have := integrable_of_poly (p := fun x => x 0 0 * (x 0 0 / softDist s (x 0) (fun _ => 0)))
    (by fun_prop) (fun x => by
      have h1 := abs_div_softDist_le s (x 0) 0
      rw [abs_mul]
      have h0 := coord_sq_le x 0
      have hn := rsq_nonneg x
      have h2 : |x 0 0| ≤ 1 + rsq x := by
        rw [abs_le]
        constructor <;> nlinarith [sq_nonneg (x 0 0 + 1 / 2), sq_nonneg (x 0 0 - 1 / 2)]
      have h3 : |x 0 0| * |x 0 0 / softDist s (x 0) fun _ => 0| ≤ |x 0 0| :=
        mul_le_of_le_one_right (abs_nonneg _) h1
      nlinarith)
  refine this.congr (.of_forall fun x => ?_)
  simp only [pOrbital]
  ring

theorem finiteEE_one (ψ : Pos 1 3 → ℝ) (s : ℝ) : FiniteEE ψ s := fun i j hij =>
  absurd hij (by simp [Subsingleton.elim i j])

/-- The hypotheses of `ibp_energy_unbiased_partial` hold for a p orbital around a nucleus. -/
example (K : Type) (permutation : K → Equiv.Perm (Fin 1)) :
    ∃ E E₀ : LocalEnergy 1 3 K, ∃ e e₀ : Pos 1 3 → ℝ,
      assembleMolLocalEnergy permutation "ibp" ["kinetic", "ei", "ee"] 1 [] (fun _ _ => 0)
        (fun _ : Fin 1 => 2) 0 0 (logAbs pOrbital) = some E ∧
      assembleMolLocalEnergy permutation "standard" ["kinetic", "ei", "ee"] 1 [] (fun _ _ => 0)
        (fun _ : Fin 1 => 2) 0 0 (logAbs pOrbital) = some E₀ ∧
      (∀ᵐ x, ∀ key, E x key = .fin (e x) ∧ E₀ x key = .fin (e₀ x)) ∧
      FiniteExpect pOrbital e ∧ FiniteExpect pOrbital e₀ ∧ expect pOrbital e = expect pOrbital e₀ :=
  ibp_energy_unbiased_partial permutation pOrbital_waveFunction _ _ _ _
    (fun i j hij => absurd (Subsingleton.elim i j) hij) _ (pOrbital_finiteEI 0) (finiteEE_one _ 0)

/-- ... and those of `ibp_softened_biased` with softening 1. -/
example (K : Type) (permutation : K → Equiv.Perm (Fin 1)) :
    ∃ E E₀ : LocalEnergy 1 3 K, ∃ e e₀ : Pos 1 3 → ℝ,
      assembleMolLocalEnergy permutation "ibp" ["ei"] 1 [] (fun _ _ => 0)
        (fun _ : Fin 1 => 2) 1 0 (logAbs pOrbital) = some E ∧
      assembleMolLocalEnergy permutation "standard" ["ei"] 1 [] (fun _ _ => 0)
        (fun _ : Fin 1 => 2) 1 0 (logAbs pOrbital) = some E₀ ∧
      (∀ᵐ x, ∀ key, E x key = .fin (e x) ∧ E₀ x key = .fin (e₀ x)) ∧
      FiniteExpect pOrbital e ∧ FiniteExpect pOrbital e₀ ∧ expect pOrbital e < expect pOrbital e₀ :=
  ibp_softened_biased permutation pOrbital_waveFunction _ _ _
    (fun i j hij => absurd (Subsingleton.elim i j) hij) _ (fun _ => by norm_num) 1 0 one_ne_zero
    (pOrbital_finiteEI 1) (finiteEE_one _ 0)

end Orbital

end Verif.Props
