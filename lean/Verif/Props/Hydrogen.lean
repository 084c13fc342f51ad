import Verif.Lemmas.Cone
import Verif.Props.LocalEnergy
import Verif.Model.Examples

/-!
C38 (the hydrogen-like ground state has constant local energy) and C60 (the Laplacian of the
cone potentials used for integration by parts).
-/

namespace Verif.Props
open Verif.Phys Verif.Spec Verif.Examples

variable {n m d : ℕ}

theorem shift_one (x : Pos 1 d) (k : Fin d) (t : ℝ) :
    shift x 0 k t 0 = fun k' => x 0 k' + t * if k' = k then 1 else 0 := by
  rw [shift_apply]
  funext k'
  simp [unitStep]

theorem hydrogen_eq (decay : ℝ) (x : Pos 1 d) :
    hydrogenLogPsi decay x = -decay * softDist 0 (x 0) (fun _ => 0) := by
  unfold hydrogenLogPsi softDist
  simp [mul_comm]

/-- C38: for decay rate `2 Z / (d - 1)` (written without division) in any dimension the local energy of the
hydrogen-like state is `-decay² / 2` at every position other than the nucleus. -/
theorem hydrogen_local_energy_constant {K : Type} (Z decay : ℝ)
    (hdecay : decay * ((d : ℝ) - 1) = 2 * Z) (x : Pos 1 d) (hx : x 0 ≠ 0) (key : K) :
    hydrogenLocalEnergy (hydrogenLogPsi decay) Z x key = .fin (-(decay ^ 2) / 2) := by
  have hr := softDist_pos (s := 0) (a := x 0) (b := fun _ => 0) (Or.inr hx)
  have hsq : softDist 0 (x 0) (fun _ => 0) ^ 2 = ∑ k, x 0 k ^ 2 := by
    unfold softDist
    rw [Real.sq_sqrt]
    · simp
    · have : 0 ≤ ∑ k, x 0 k ^ 2 := Finset.sum_nonneg fun _ _ => sq_nonneg _
      simpa using this
  unfold hydrogenLocalEnergy combineTerms
  simp only [List.foldl_cons, List.foldl_nil]
  rw [laplacian_kinetic_eq, electron_ion_is_pair_sum _ _ _ _ _
    (Or.inr (fun i I => by rw [Subsingleton.elim i 0]; exact hx)), XR.fin_add]
  congr 1
  have hline : ∀ k : Fin d, (fun t => hydrogenLogPsi decay (shift x 0 k t))
      = fun t => -decay * softDist 0 (fun k' => x 0 k' + t * if k' = k then 1 else 0)
        (fun _ => 0) := by
    intro k; funext t
    rw [hydrogen_eq, shift_one]
  have h1 : ∀ k : Fin d, partial1 (hydrogenLogPsi decay) 0 k x
      = -decay * (x 0 k / softDist 0 (x 0) (fun _ => 0)) := by
    intro k
    unfold partial1
    rw [hline k]
    have := hasDerivAt_softDist 0 (x 0) (fun _ => 0) (fun k' => if k' = k then 1 else 0) (Or.inr hx)
    rw [(this.const_mul (-decay)).deriv]
    simp
  have h2 : ∑ k, partial2 (hydrogenLogPsi decay) 0 k x
      = -decay * (((d : ℝ) - 1) / softDist 0 (x 0) (fun _ => 0)) := by
    rw [← laplacian_softDist_zero (x 0) (fun _ => 0) hx, Finset.mul_sum]
    refine Finset.sum_congr rfl fun k _ => ?_
    unfold partial2
    rw [hline k]
    have : deriv (fun t : ℝ => -decay * softDist 0
        (fun k' => x 0 k' + t * if k' = k then 1 else 0) (fun _ => 0))
          = fun t => -decay * deriv (fun t : ℝ => softDist 0
            (fun k' => x 0 k' + t * if k' = k then 1 else 0) (fun _ => 0)) t := by
      funext t
      exact deriv_const_mul_field _
    rw [this]
    exact deriv_const_mul_field _
  unfold kineticLaplacian coordLaplacian coulombEI
  simp only [Finset.univ_unique, Finset.sum_singleton, Fin.default_eq_zero, Fintype.sum_prod_type,
    Finset.sum_add_distrib, h1, h2, Fin.isValue]
  have h3 : ∑ k, (-decay * (x 0 k / softDist 0 (x 0) (fun _ => 0))) ^ 2 = decay ^ 2 := by
    have : ∀ k, (-decay * (x 0 k / softDist 0 (x 0) (fun _ => 0))) ^ 2
        = decay ^ 2 / softDist 0 (x 0) (fun _ => 0) ^ 2 * x 0 k ^ 2 := by
      intro k; field_simp
    simp only [this, ← Finset.mul_sum, ← hsq]
    field_simp
  rw [h3]
  field_simp
  nlinarith [hdecay]

/-- Three dimensions, charge 2 (He⁺): decay rate 2, local energy -2 at the point (3, 0, 4). -/
example : hydrogenLocalEnergy (d := 3) (K := Unit) (hydrogenLogPsi 2) 2 (fun _ => ![3, 0, 4]) ()
    = .fin (-2) := by
  rw [hydrogen_local_energy_constant 2 2 (by norm_num) _
    (fun h => by have := congrFun h 0; norm_num at this)]
  norm_num

/-- For a decay rate other than the exact one the local energy is not constant: the theorem's
hypothesis on the decay rate is needed (three dimensions). -/
theorem hydrogen_wrong_decay_not_constant (Z decay : ℝ) (h : decay ≠ Z) :
    ∃ x y : Pos 1 3, x 0 ≠ 0 ∧ y 0 ≠ 0 ∧
      kineticLaplacian (hydrogenLogPsi decay) x + coulombEI 1 0 (fun (_ : Fin 1) _ => 0)
        (fun _ => Z) x ≠
      kineticLaplacian (hydrogenLogPsi decay) y + coulombEI 1 0 (fun (_ : Fin 1) _ => 0)
        (fun _ => Z) y := by
  have key : ∀ c : ℝ, 0 < c → kineticLaplacian (hydrogenLogPsi decay) (fun _ : Fin 1 => ![c, 0, 0])
      + coulombEI 1 0 (fun (_ : Fin 1) _ => 0) (fun _ => Z) (fun _ : Fin 1 => ![c, 0, 0])
        = -(decay ^ 2) / 2 + (decay - Z) / c := by
    intro c hc
    have hx : (![c, 0, 0] : Fin 3 → ℝ) ≠ 0 := fun h => by
      have := congrFun h 0; simp at this; exact hc.ne' this
    have hcst := hydrogen_local_energy_constant (K := Unit) (d := 3) decay decay
      (by push_cast; ring) (fun _ => ![c, 0, 0]) hx ()
    unfold hydrogenLocalEnergy combineTerms at hcst
    simp only [List.foldl_cons, List.foldl_nil] at hcst
    rw [laplacian_kinetic_eq, electron_ion_is_pair_sum _ _
      (fun (_ : Fin 1) (_ : Fin 3) => (0 : ℝ)) _ _ (Or.inr (fun i I => hx)), XR.fin_add,
      XR.fin_inj] at hcst
    have hdist : softDist 0 (![c, 0, 0] : Fin 3 → ℝ) (fun _ => 0) = c := by
      unfold softDist
      simp [Fin.sum_univ_three, Real.sqrt_sq hc.le]
    have hei : ∀ W : ℝ, coulombEI 1 0 (fun (_ : Fin 1) (_ : Fin 3) => 0) (fun _ => W)
        (fun _ : Fin 1 => ![c, 0, 0]) = -(W / c) := by
      intro W
      unfold coulombEI
      simp [hdist]
    rw [hei] at hcst ⊢
    have : kineticLaplacian (hydrogenLogPsi decay) (fun _ : Fin 1 => ![c, 0, 0])
        = -(decay ^ 2) / 2 + decay / c := by linarith
    rw [this]; ring
  refine ⟨fun _ => ![1, 0, 0], fun _ => ![2, 0, 0], ?_, ?_, ?_⟩
  · intro h; have := congrFun h 0; norm_num at this
  · intro h; have := congrFun h 0; norm_num at this
  · rw [key 1 one_pos, key 2 two_pos]
    intro hc
    apply h
    linarith

/-! ### C60 -/

theorem partial2_coneEI (R : Pos m d) (Z : Fin m → ℝ) (x : Pos n d) (hx : Apart x R)
    (i : Fin n) (k : Fin d) :
    partial2 (coneEI 0 R Z) i k x = -∑ I, Z I / 2 * deriv (deriv (fun t : ℝ => softDist 0
      (fun k' => x i k' + t * if k' = k then 1 else 0) (R I))) 0 := by
  unfold partial2
  have hcont : ∀ I, ContinuousAt (fun t : ℝ => softDist 0
      (fun k' => x i k' + t * if k' = k then 1 else 0) (R I)) 0 :=
    fun I => (continuous_softDist_line 0 (x i) (R I) _).continuousAt
  have hline : (fun t => coneEI 0 R Z (shift x i k t)) = fun t : ℝ =>
      -∑ j, ∑ I, Z I / 2 * softDist 0
        (fun k' => x j k' + t * (if j = i then 1 else 0) * if k' = k then 1 else 0) (R I) := by
    funext t
    unfold coneEI
    rw [Fintype.sum_prod_type]
    simp only [shift_apply]
    congr 1
    refine Finset.sum_congr rfl fun j _ => Finset.sum_congr rfl fun I _ => ?_
    congr 2
    funext k'
    unfold unitStep
    by_cases h1 : j = i <;> by_cases h2 : k' = k <;> simp [h1, h2]
  have hsplit : (fun t => coneEI 0 R Z (shift x i k t)) = fun t : ℝ =>
      (-∑ I, Z I / 2 * softDist 0 (fun k' => x i k' + t * if k' = k then 1 else 0) (R I)) +
        -∑ j ∈ Finset.univ.erase i, ∑ I, Z I / 2 * softDist 0 (x j) (R I) := by
    rw [hline]
    funext t
    rw [← Finset.add_sum_erase _ _ (Finset.mem_univ i), neg_add]
    congr 1
    · simp
    · congr 1
      refine Finset.sum_congr rfl fun j hj => Finset.sum_congr rfl fun I _ => ?_
      simp [(Finset.mem_erase.mp hj).1]
  rw [hsplit]
  have hpos : ∀ I, ∀ᶠ t in nhds (0 : ℝ), 0 < softDist 0
      (fun k' => x i k' + t * if k' = k then 1 else 0) (R I) := by
    intro I
    refine (hcont I).eventually (lt_mem_nhds ?_)
    have := softDist_pos (s := 0) (Or.inr (hx i I))
    simpa using this
  have hdiff : ∀ I (t : ℝ), 0 < softDist 0
      (fun k' => x i k' + t * if k' = k then 1 else 0) (R I) →
      DifferentiableAt ℝ (fun t : ℝ => softDist 0
        (fun k' => x i k' + t * if k' = k then 1 else 0) (R I)) t := by
    intro I t ht
    exact (hasDerivAt_softDist_line 0 (x i) (R I) _ t ht).differentiableAt
  have hev : deriv (fun t : ℝ =>
      (-∑ I, Z I / 2 * softDist 0 (fun k' => x i k' + t * if k' = k then 1 else 0) (R I)) +
        -∑ j ∈ Finset.univ.erase i, ∑ I, Z I / 2 * softDist 0 (x j) (R I)) =ᶠ[nhds 0]
      fun t => -∑ I, Z I / 2 * deriv (fun t : ℝ => softDist 0
        (fun k' => x i k' + t * if k' = k then 1 else 0) (R I)) t := by
    have hall : ∀ᶠ t in nhds (0 : ℝ), ∀ I, 0 < softDist 0
        (fun k' => x i k' + t * if k' = k then 1 else 0) (R I) :=
      Filter.eventually_all.mpr hpos
    refine hall.mono fun t ht => ?_
    have : HasDerivAt (fun t : ℝ =>
      (-∑ I, Z I / 2 * softDist 0 (fun k' => x i k' + t * if k' = k then 1 else 0) (R I)) +
        -∑ j ∈ Finset.univ.erase i, ∑ I, Z I / 2 * softDist 0 (x j) (R I))
        (-∑ I, Z I / 2 * deriv (fun t : ℝ => softDist 0
        (fun k' => x i k' + t * if k' = k then 1 else 0) (R I)) t) t :=
      ((HasDerivAt.fun_sum fun I _ => ((hdiff I t (ht I)).hasDerivAt.const_mul _)).neg).add_const _
    exact this.deriv
  rw [hev.deriv_eq]
  have hdiff2 : ∀ I, DifferentiableAt ℝ (deriv (fun t : ℝ => softDist 0
        (fun k' => x i k' + t * if k' = k then 1 else 0) (R I))) 0 := by
    intro I
    have hevI : deriv (fun t : ℝ => softDist 0
        (fun k' => x i k' + t * if k' = k then 1 else 0) (R I)) =ᶠ[nhds 0]
        fun t => (∑ k', (x i k' + t * (if k' = k then 1 else 0) - R I k') *
          (if k' = k then 1 else 0)) / softDist 0
            (fun k' => x i k' + t * if k' = k then 1 else 0) (R I) :=
      (hpos I).mono fun t ht => deriv_softDist_line 0 (x i) (R I) _ t ht
    rw [hevI.differentiableAt_iff]
    refine DifferentiableAt.fun_div ?_ (hdiff I 0 (hpos I).self_of_nhds)
      (hpos I).self_of_nhds.ne'
    fun_prop
  have := (HasDerivAt.fun_sum (u := Finset.univ) fun I _ =>
    ((hdiff2 I).hasDerivAt.const_mul (Z I / 2))).neg
  exact this.deriv

/-- C60, electron-ion part: in dimension `d` the Laplacian of the cone potential is `(d-1)/2`
times the electron-ion Coulomb energy; exactly the Coulomb energy in three dimensions. -/
theorem cone_ei_laplacian (R : Pos m d) (Z : Fin m → ℝ) (x : Pos n d) (hx : Apart x R) :
    ∑ i, ∑ k, partial2 (coneEI 0 R Z) i k x = ((d : ℝ) - 1) / 2 * coulombEI 1 0 R Z x := by
  simp only [partial2_coneEI R Z x hx, Finset.sum_neg_distrib]
  unfold coulombEI
  rw [Fintype.sum_prod_type, mul_neg, Finset.mul_sum]
  congr 1
  refine Finset.sum_congr rfl fun i _ => ?_
  rw [Finset.sum_comm, Finset.mul_sum]
  refine Finset.sum_congr rfl fun I _ => ?_
  rw [← Finset.mul_sum, laplacian_softDist_zero (x i) (R I) (hx i I)]
  ring

theorem deriv2_sum {ι : Type*} (s : Finset ι) (F : ι → ℝ → ℝ)
    (h1 : ∀ p ∈ s, ∀ᶠ t in nhds (0 : ℝ), DifferentiableAt ℝ (F p) t)
    (h2 : ∀ p ∈ s, DifferentiableAt ℝ (deriv (F p)) 0) :
    deriv (deriv (fun t => ∑ p ∈ s, F p t)) 0 = ∑ p ∈ s, deriv (deriv (F p)) 0 := by
  have hev : deriv (fun t => ∑ p ∈ s, F p t) =ᶠ[nhds 0] fun t => ∑ p ∈ s, deriv (F p) t := by
    have hall : ∀ᶠ t in nhds (0 : ℝ), ∀ p ∈ s, DifferentiableAt ℝ (F p) t :=
      (Filter.eventually_all_finset s).mpr h1
    exact hall.mono fun t ht =>
      (HasDerivAt.fun_sum fun p hp => (ht p hp).hasDerivAt).deriv
  rw [hev.deriv_eq]
  exact (HasDerivAt.fun_sum fun p hp => (h2 p hp).hasDerivAt).deriv

/-- C60, electron-electron part: in dimension `d` the Laplacian of the cone potential is
`(d-1)/2` times the electron-electron Coulomb energy; exactly the Coulomb energy in three
dimensions. -/
theorem cone_ee_laplacian (x : Pos n d) (hx : Distinct x) :
    ∑ i, ∑ k, partial2 (coneEE 0) i k x = ((d : ℝ) - 1) / 2 * coulombEE 1 0 x := by
  have hone : ∀ (i : Fin n) (k : Fin d), partial2 (coneEE 0) i k x = ∑ p ∈ pairs n,
      ((if p.1 = i then 1 else 0) + if p.2 = i then 1 else 0) *
        (1 / softDist 0 (x p.1) (x p.2) -
          (x p.1 k - x p.2 k) ^ 2 / softDist 0 (x p.1) (x p.2) ^ 3) / 4 := by
    intro i k
    unfold partial2
    let v : Fin n × Fin n → Fin d → ℝ := fun p k' =>
      unitStep (n := n) i k p.1 k' - unitStep (n := n) i k p.2 k'
    have hline : (fun t => coneEE 0 (shift x i k t)) = fun t : ℝ =>
        ∑ p ∈ pairs n, softDist 0 (fun k' => x p.1 k' + t * v p k') (x p.2) / 4 := by
      funext t
      unfold coneEE
      refine Finset.sum_congr rfl fun p _ => ?_
      congr 1
      simp only [shift_apply]
      unfold softDist
      congr 2
      exact Finset.sum_congr rfl fun k' _ => by simp only [v]; ring
    have hne : ∀ p ∈ pairs n, p.1 ≠ p.2 := by
      intro p hp
      unfold pairs at hp
      simp only [Finset.mem_filter, Finset.mem_univ, true_and] at hp
      exact hp.ne
    have hpos : ∀ p ∈ pairs n, ∀ᶠ t in nhds (0 : ℝ), 0 < softDist 0
        (fun k' => x p.1 k' + t * v p k') (x p.2) := by
      intro p hp
      refine (continuous_softDist_line 0 (x p.1) (x p.2) (v p)).continuousAt.eventually
        (lt_mem_nhds ?_)
      have := softDist_pos (s := 0) (Or.inr (hx _ _ (hne p hp)))
      simpa using this
    have hderiv : ∀ p, deriv (fun t : ℝ => softDist 0 (fun k' => x p.1 k' + t * v p k') (x p.2) / 4)
        = fun t => deriv (fun t : ℝ => softDist 0 (fun k' => x p.1 k' + t * v p k') (x p.2)) t / 4 := by
      intro p; funext t; exact deriv_div_const _
    rw [hline, deriv2_sum]
    · refine Finset.sum_congr rfl fun p hp => ?_
      rw [hderiv p, deriv_div_const,
        deriv2_softDist 0 (x p.1) (x p.2) (v p) (Or.inr (hx _ _ (hne p hp)))]
      have e1 : ∑ k', v p k' ^ 2 = (if p.1 = i then 1 else 0) + if p.2 = i then 1 else 0 := by
        have hv : ∀ k', v p k' = if k' = k then
            ((if p.1 = i then 1 else 0) - if p.2 = i then 1 else 0) else 0 := by
          intro k'
          simp only [v, unitStep]
          by_cases h1 : p.1 = i <;> by_cases h2 : p.2 = i <;> by_cases h3 : k' = k <;>
            simp [h1, h2, h3]
        have hn := hne p hp
        simp only [hv, ite_pow, ne_eq, OfNat.ofNat_ne_zero, not_false_eq_true, zero_pow,
          Finset.sum_ite_eq', Finset.mem_univ, if_true]
        by_cases h1 : p.1 = i <;> by_cases h2 : p.2 = i
        · exact absurd (h1.trans h2.symm) hn
        · simp [h1, h2]
        · simp [h1, h2]
        · simp [h1, h2]
      have e2 : (∑ k', (x p.1 k' - x p.2 k') * v p k') ^ 2 = (x p.1 k - x p.2 k) ^ 2 *
          ((if p.1 = i then 1 else 0) + if p.2 = i then 1 else 0) := by
        have hn := hne p hp
        have := sum_unitStep (n := n) i k p.1 (fun k' => x p.1 k' - x p.2 k')
        have h3 := sum_unitStep (n := n) i k p.2 (fun k' => x p.1 k' - x p.2 k')
        simp only [v, mul_sub, Finset.sum_sub_distrib] at this h3 ⊢
        rw [this, h3]
        by_cases h1 : p.1 = i <;> by_cases h2 : p.2 = i
        · exact absurd (h1.trans h2.symm) hn
        · simp only [if_pos h1, if_neg h2]; ring
        · simp only [if_neg h1, if_pos h2]; ring
        · simp only [if_neg h1, if_neg h2]; ring
      rw [e1, e2]
      ring
    · intro p hp
      refine (hpos p hp).mono fun t ht => ?_
      exact (hasDerivAt_softDist_line 0 (x p.1) (x p.2) (v p) t ht).differentiableAt.div_const 4
    · intro p hp
      rw [hderiv p]
      refine DifferentiableAt.div_const ?_ 4
      have hevI := (hpos p hp).mono fun t ht => deriv_softDist_line 0 (x p.1) (x p.2) (v p) t ht
      rw [Filter.EventuallyEq.differentiableAt_iff hevI]
      refine DifferentiableAt.fun_div ?_
        (hasDerivAt_softDist_line 0 (x p.1) (x p.2) (v p) 0
          (hpos p hp).self_of_nhds).differentiableAt (hpos p hp).self_of_nhds.ne'
      fun_prop
  simp only [hone]
  unfold coulombEE
  have hswap : ∑ i, ∑ k, ∑ p ∈ pairs n,
      ((if p.1 = i then (1 : ℝ) else 0) + if p.2 = i then 1 else 0) *
        (1 / softDist 0 (x p.1) (x p.2) -
          (x p.1 k - x p.2 k) ^ 2 / softDist 0 (x p.1) (x p.2) ^ 3) / 4
      = ∑ p ∈ pairs n, ∑ k : Fin d, ∑ i : Fin n,
      ((if p.1 = i then (1 : ℝ) else 0) + if p.2 = i then 1 else 0) *
        (1 / softDist 0 (x p.1) (x p.2) -
          (x p.1 k - x p.2 k) ^ 2 / softDist 0 (x p.1) (x p.2) ^ 3) / 4 := by
    rw [Finset.sum_congr rfl fun i _ => Finset.sum_comm, Finset.sum_comm]
    exact Finset.sum_congr rfl fun p _ => Finset.sum_comm
  rw [hswap, Finset.mul_sum]
  refine Finset.sum_congr rfl fun p hp => ?_
  have hn : p.1 ≠ p.2 := by
    unfold pairs at hp
    simp only [Finset.mem_filter, Finset.mem_univ, true_and] at hp
    exact hp.ne
  have hr := softDist_pos (s := 0) (Or.inr (hx _ _ hn))
  have hsq : softDist 0 (x p.1) (x p.2) ^ 2 = ∑ k, (x p.1 k - x p.2 k) ^ 2 := by
    unfold softDist
    rw [Real.sq_sqrt]
    · simp
    · have : 0 ≤ ∑ k, (x p.1 k - x p.2 k) ^ 2 := Finset.sum_nonneg fun _ _ => sq_nonneg _
      simpa using this
  have hi : ∀ k : Fin d, ∑ i : Fin n,
      ((if p.1 = i then (1 : ℝ) else 0) + if p.2 = i then 1 else 0) *
        (1 / softDist 0 (x p.1) (x p.2) -
          (x p.1 k - x p.2 k) ^ 2 / softDist 0 (x p.1) (x p.2) ^ 3) / 4
      = 1 / 2 * (1 / softDist 0 (x p.1) (x p.2) -
          (x p.1 k - x p.2 k) ^ 2 / softDist 0 (x p.1) (x p.2) ^ 3) := by
    intro k
    rw [← Finset.sum_div, ← Finset.sum_mul, Finset.sum_add_distrib]
    simp
    ring
  simp only [hi, ← Finset.mul_sum, Finset.sum_sub_distrib, Finset.sum_const, Finset.card_univ,
    Fintype.card_fin, nsmul_eq_mul, ← Finset.sum_div, ← hsq]
  field_simp

/-- C60 in three dimensions: the Laplacian of each cone is the Coulomb energy it replaces. -/
theorem cone_laplacian_is_coulomb (R : Pos m 3) (Z : Fin m → ℝ) (x : Pos n 3)
    (ha : Apart x R) (hd : Distinct x) :
    ∑ i, ∑ k, partial2 (coneEI 0 R Z) i k x = coulombEI 1 0 R Z x ∧
      ∑ i, ∑ k, partial2 (coneEE 0) i k x = coulombEE 1 0 x := by
  rw [cone_ei_laplacian R Z x ha, cone_ee_laplacian x hd]
  norm_num

/-- Two electrons and one nucleus of charge 2, all at different places. -/
example : ∑ i, ∑ k, partial2 (coneEI (m := 1) 0 (fun _ _ => 0) (fun _ => 2)) i k
      (fun (i : Fin 2) (_ : Fin 3) => (i : ℝ) + 1)
    = coulombEI (m := 1) 1 0 (fun _ _ => 0) (fun _ => 2) (fun (i : Fin 2) (_ : Fin 3) => (i : ℝ) + 1) := by
  refine (cone_laplacian_is_coulomb _ _ _ ?_ ?_).1
  · intro i I h
    have := congrFun h 0
    fin_cases i <;> simp_all
  · intro i j hij h
    have := congrFun h 0
    fin_cases i <;> fin_cases j <;> simp_all

/-- C60 (limits): in one dimension the cone of a distance has zero Laplacian away from
coincidences, so there the integrated-by-parts electron terms have nothing to do with the
Coulomb energy; two electrons at distance one have Coulomb energy 1. -/
theorem cone_laplacian_other_dim_fails :
    ∃ x : Pos 2 1, Distinct x ∧
      ∑ i, ∑ k, partial2 (coneEE 0) i k x ≠ coulombEE 1 0 x := by
  have hd : Distinct (n := 2) (d := 1) (fun i _ => (i : ℝ)) := by
    intro i j hij h
    have := congrFun h 0
    fin_cases i <;> fin_cases j <;> simp_all
  refine ⟨fun i _ => (i : ℝ), hd, ?_⟩
  rw [cone_ee_laplacian _ hd]
  have hp : pairs 2 = {(0, 1)} := by decide
  unfold coulombEE
  rw [hp]
  simp [softDist]

end Verif.Props
