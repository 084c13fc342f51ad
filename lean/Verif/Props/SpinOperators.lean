import Verif.Spec.SpinOperators
import Verif.Props.SpinExpectation

/-!
The spin-square estimator measures `Sx² + Sy² + Sz²` of the antisymmetrized state.
-/

namespace Verif.Props
open Verif.Spec MeasureTheory Verif.Phys

variable {N : ℕ}

theorem sum_over_pairs {M : Type*} [AddCommGroup M] (g : Fin N → Fin N → M) (hg : ∀ i j, g i j = g j i) :
    ∑ i, ∑ j, g i j = 2 • ∑ p ∈ Finset.univ.filter (fun p : Fin N × Fin N => p.1 < p.2), g p.1 p.2 + ∑ i, g i i := by
  classical
  rw [← Fintype.sum_prod_type', ← Finset.sum_filter_add_sum_filter_not Finset.univ (fun p : Fin N × Fin N => p.1 < p.2),
    ← Finset.sum_filter_add_sum_filter_not (Finset.univ.filter fun p : Fin N × Fin N => ¬ p.1 < p.2)
      (fun p => p.2 < p.1), two_nsmul, ← add_assoc]
  congr 1
  · congr 1
    refine Finset.sum_bij' (fun p _ => (p.2, p.1)) (fun p _ => (p.2, p.1)) ?_ ?_ ?_ ?_ ?_
    · intro p hp
      simp only [Finset.mem_filter, Finset.mem_univ, true_and] at hp ⊢
      exact hp.2
    · intro p hp
      simp only [Finset.mem_filter, Finset.mem_univ, true_and] at hp ⊢
      exact ⟨by omega, hp⟩
    · intro p _; rfl
    · intro p _; rfl
    · intro p _; exact hg _ _
  · refine Finset.sum_bij' (fun p _ => p.1) (fun i _ => (i, i)) ?_ ?_ ?_ ?_ ?_
    · intro p _; exact Finset.mem_univ _
    · intro i _; simp
    · intro p hp
      simp only [Finset.mem_filter, Finset.mem_univ, true_and] at hp
      exact Prod.ext rfl (by show p.1 = p.2; omega)
    · intro i _; rfl
    · intro p hp
      simp only [Finset.mem_filter, Finset.mem_univ, true_and] at hp
      have : p.1 = p.2 := by omega
      rw [this]

theorem flip_flip (i : Fin N) (s : Fin N → Bool) : flipSpin i (flipSpin i s) = s := by
  funext k
  by_cases h : k = i
  · subst h; simp [flipSpin]
  · simp [flipSpin, Function.update_of_ne h]

theorem flip_pair {i j : Fin N} (hij : i ≠ j) (s : Fin N → Bool) (hs : s i ≠ s j) :
    flipSpin j (flipSpin i s) = s ∘ Equiv.swap i j := by
  have hn : (!s i) = s j := by cases h : s i <;> cases h' : s j <;> simp_all
  have hn' : (!s j) = s i := by cases h : s i <;> cases h' : s j <;> simp_all
  funext k
  unfold flipSpin
  by_cases h : k = j
  · subst h
    simp [Function.update_of_ne hij.symm, hn']
  · rw [Function.update_of_ne h]
    by_cases h' : k = i
    · subst h'
      simp [hn]
    · rw [Function.update_of_ne h', Function.comp, Equiv.swap_apply_of_ne_of_ne h' h]

theorem swap_same {i j : Fin N} (s : Fin N → Bool) (hs : s i = s j) : s ∘ Equiv.swap i j = s := by
  funext k
  rw [Function.comp, Equiv.swap_apply_def]
  split_ifs with h h'
  · rw [h, hs]
  · rw [h', hs]
  · rfl

/-- C122: Dirac's identity, from the Pauli matrices. -/
theorem dirac_identity (χ : (Fin N → Bool) → ℂ) (s : Fin N → Bool) :
    totalSpinSquare χ s = (N : ℂ) * (4 - N) / 4 * χ s +
      ∑ p ∈ Finset.univ.filter (fun p : Fin N × Fin N => p.1 < p.2), χ (s ∘ Equiv.swap p.1 p.2) := by
  have hT : ∀ i j : Fin N,
      1 / 2 * (1 / 2 * χ (flipSpin j (flipSpin i s))) +
        (if s i then -Complex.I / 2 else Complex.I / 2) *
          ((if flipSpin i s j then -Complex.I / 2 else Complex.I / 2) * χ (flipSpin j (flipSpin i s))) +
        (if s i then 1 / 2 else -1 / 2) * ((if s j then 1 / 2 else -1 / 2) * χ s) =
      1 / 2 * χ (s ∘ Equiv.swap i j) - 1 / 4 * χ s + if i = j then 1 / 2 * χ s else 0 := by
    intro i j
    have hI := Complex.I_mul_I
    by_cases h : i = j
    · subst h
      rw [flip_flip, Equiv.swap_self]
      cases h : s i
      · simp [flipSpin, h]
        linear_combination (-1 / 4 * χ s) * hI
      · simp [flipSpin, h]
        linear_combination (-1 / 4 * χ s) * hI
    · rw [if_neg h]
      have hj : flipSpin i s j = s j := Function.update_of_ne (Ne.symm h) _ _
      rw [hj]
      by_cases hs : s i = s j
      · rw [swap_same s hs, hs]
        cases s j
        · simp
          linear_combination (1 / 4 * χ (flipSpin j (flipSpin i s))) * hI
        · simp
          linear_combination (1 / 4 * χ (flipSpin j (flipSpin i s))) * hI
      · rw [flip_pair h s hs]
        cases h1 : s i <;> cases h2 : s j
        · exact absurd (h1.trans h2.symm) hs
        · simp
          linear_combination (-1 / 4 * χ (s ∘ Equiv.swap i j)) * hI
        · simp
          linear_combination (-1 / 4 * χ (s ∘ Equiv.swap i j)) * hI
        · exact absurd (h1.trans h2.symm) hs
  have hsum : totalSpinSquare χ s = ∑ i, ∑ j, (1 / 2 * χ (s ∘ Equiv.swap i j) - 1 / 4 * χ s +
      if i = j then 1 / 2 * χ s else 0) := by
    unfold totalSpinSquare spinX spinY spinZ
    simp only [← hT, Finset.sum_add_distrib, ← Finset.mul_sum]
  rw [hsum]
  simp only [Finset.sum_add_distrib, Finset.sum_sub_distrib, ← Finset.mul_sum, Finset.sum_ite_eq, Finset.mem_univ,
    if_true, Finset.sum_const, Finset.card_univ, Fintype.card_fin, nsmul_eq_mul]
  rw [sum_over_pairs (fun i j => χ (s ∘ Equiv.swap i j)) fun i j => by rw [Equiv.swap_comm]]
  simp only [Equiv.swap_self, nsmul_eq_mul, Finset.sum_const, Finset.card_univ, Fintype.card_fin]
  have : s ∘ (Equiv.refl (Fin N)) = s := rfl
  rw [this]
  push_cast
  ring

/-! ### The state made by antisymmetrization -/

theorem flip_comp (τ : Equiv.Perm (Fin N)) (i : Fin N) (s : Fin N → Bool) :
    flipSpin (τ i) s ∘ τ = flipSpin i (s ∘ τ) := by
  funext k
  unfold flipSpin
  by_cases h : k = i
  · subst h; simp
  · rw [Function.comp, Function.update_of_ne (fun h' => h (τ.injective h')), Function.update_of_ne h]
    rfl

/-- S² does not depend on the numbering of the particles. -/
theorem totalSpinSquare_comp (χ : (Fin N → Bool) → ℂ) (τ : Equiv.Perm (Fin N)) (s : Fin N → Bool) :
    totalSpinSquare (fun s => χ (s ∘ τ)) s = totalSpinSquare χ (s ∘ τ) := by
  have hx : ∀ χ : (Fin N → Bool) → ℂ, spinX (fun s => χ (s ∘ τ)) = fun s => spinX χ (s ∘ τ) := fun χ => funext fun s => by
    unfold spinX
    rw [← Equiv.sum_comp τ]
    simp only [flip_comp]
  have hy : ∀ χ : (Fin N → Bool) → ℂ, spinY (fun s => χ (s ∘ τ)) = fun s => spinY χ (s ∘ τ) := fun χ => funext fun s => by
    unfold spinY
    rw [← Equiv.sum_comp τ]
    simp only [flip_comp]
    rfl
  have hz : ∀ χ : (Fin N → Bool) → ℂ, spinZ (fun s => χ (s ∘ τ)) = fun s => spinZ χ (s ∘ τ) := fun χ => funext fun s => by
    unfold spinZ
    rw [← Equiv.sum_comp τ]
    rfl
  unfold totalSpinSquare
  rw [hx, hx, hy, hy, hz, hz]

theorem totalSpinSquare_smul (a : ℂ) (χ : (Fin N → Bool) → ℂ) (s : Fin N → Bool) :
    totalSpinSquare (fun s => a * χ s) s = a * totalSpinSquare χ s := by
  rw [dirac_identity, dirac_identity, ← Finset.mul_sum]
  ring

section state

variable {α : Type*} {nUp : ℕ} {F : (Fin N → α) → ℝ}

theorem spinState_comp (F : (Fin N → α) → ℝ) (x : Fin N → α) (s : Fin N → Bool) (σ : Equiv.Perm (Fin N)) :
    spinState nUp F (x ∘ σ) (s ∘ σ) = ((Equiv.Perm.sign σ : ℤ) : ℂ) * spinState nUp F x s := by
  unfold spinState
  rw [Finset.mul_sum]
  refine Fintype.sum_equiv (Equiv.mulLeft σ) _ _ fun π => ?_
  simp only [Equiv.coe_mulLeft, Equiv.Perm.coe_mul, Equiv.Perm.sign_mul, Function.comp_assoc]
  split_ifs
  · have : ((Equiv.Perm.sign σ : ℤ) : ℂ) * ((Equiv.Perm.sign σ : ℤ) : ℂ) = 1 := by
      rcases Int.units_eq_one_or (Equiv.Perm.sign σ) with h | h <;> rw [h] <;> simp
    push_cast
    linear_combination (-(((Equiv.Perm.sign π : ℤ) : ℂ) * (F (x ∘ σ ∘ π) : ℂ))) * this
  · simp

/-- All arrangements of the positions `x` are places at which the function changes sign under exchanges of equal
spins. -/
def AntisymmetricAt (nUp : ℕ) (F : (Fin N → α) → ℝ) (x : Fin N → α) : Prop :=
  ∀ σ : Equiv.Perm (Fin N), ∀ i j, i ≠ j → (IsUp nUp i ↔ IsUp nUp j) → F (exchange i j (x ∘ σ)) = -F (x ∘ σ)

theorem AntisymmetricAt.comp {x : Fin N → α} (h : AntisymmetricAt nUp F x) (τ : Equiv.Perm (Fin N)) :
    AntisymmetricAt nUp F (x ∘ τ) := fun σ => h (τ * σ)

/-- Permutations within the species are made of exchanges. -/
theorem antisymmetric_permutation {x : Fin N → α} (h : AntisymmetricAt nUp F x) (π : Equiv.Perm (Fin N))
    (hπ : (upFirst nUp : Fin N → Bool) ∘ π = upFirst nUp) :
    F (x ∘ π) = ((Equiv.Perm.sign π : ℤ) : ℝ) * F x := by
  induction hk : π.support.card using Nat.strong_induction_on generalizing π x with
  | _ k ih =>
    by_cases h1 : π = 1
    · subst h1
      simp
    · obtain ⟨a, ha⟩ : ∃ a, π a ≠ a := by
        by_contra hc
        push Not at hc
        exact h1 (Equiv.ext hc)
      have hs : (upFirst nUp : Fin N → Bool) (π a) = upFirst nUp a := congrFun hπ a
      have hup : IsUp nUp a ↔ IsUp nUp (π a) := by
        unfold upFirst at hs
        exact (decide_eq_decide.mp hs).symm
      have hsw : (upFirst nUp : Fin N → Bool) ∘ Equiv.swap a (π a) = upFirst nUp := swap_same _ hs.symm
      have hlt := Equiv.Perm.card_support_swap_mul ha
      have hx' : ((x ∘ Equiv.swap a (π a)) ∘ (Equiv.swap a (π a) * π : Equiv.Perm (Fin N)) : Fin N → α) = x ∘ π := by
        funext k
        simp
      rw [← hx', ih _ (hk ▸ hlt) (h.comp _) _ (by
        rw [Equiv.Perm.coe_mul, ← Function.comp_assoc, hsw, hπ]) rfl, Equiv.Perm.sign_mul,
        Equiv.Perm.sign_swap (Ne.symm ha)]
      have := h 1 a (π a) (Ne.symm ha) hup
      rw [show F (x ∘ Equiv.swap a (π a)) = -F x from this]
      push_cast
      ring

/-- the number of permutations within the species -/
noncomputable def orderWithin (N nUp : ℕ) : ℕ :=
  (Finset.univ.filter fun π : Equiv.Perm (Fin N) => (upFirst nUp : Fin N → Bool) ∘ π = upFirst nUp).card

theorem orderWithin_pos : 0 < orderWithin N nUp := by
  unfold orderWithin
  exact Finset.card_pos.mpr ⟨1, by simp⟩

theorem spinState_upFirst {x : Fin N → α} (h : AntisymmetricAt nUp F x) :
    spinState nUp F x (upFirst nUp) = (orderWithin N nUp : ℂ) * (F x : ℂ) := by
  unfold spinState orderWithin
  rw [← Finset.sum_filter, Finset.sum_congr rfl (g := fun _ => (F x : ℂ)), Finset.sum_const, nsmul_eq_mul]
  intro π hπ
  simp only [Finset.mem_filter, Finset.mem_univ, true_and] at hπ
  rw [antisymmetric_permutation h π hπ]
  rcases Int.units_eq_one_or (Equiv.Perm.sign π) with h | h <;> rw [h] <;> simp

/-- C122: `S²` of the antisymmetrized state is Dirac's exchange form of its spatial function. -/
theorem spin_square_of_state {x : Fin N → α} (h : AntisymmetricAt nUp F x) :
    totalSpinSquare (spinState nUp F x) (upFirst nUp) = (orderWithin N nUp : ℂ) * (diracSpinSquare F x : ℂ) := by
  rw [dirac_identity, spinState_upFirst h]
  unfold diracSpinSquare
  have hp : ∀ p ∈ Finset.univ.filter (fun p : Fin N × Fin N => p.1 < p.2),
      spinState nUp F x (upFirst nUp ∘ Equiv.swap p.1 p.2) =
        -((orderWithin N nUp : ℂ) * (F (exchange p.1 p.2 x) : ℂ)) := by
    intro p hp
    simp only [Finset.mem_filter, Finset.mem_univ, true_and] at hp
    have h1 := spinState_comp (nUp := nUp) F (x ∘ Equiv.swap p.1 p.2) (upFirst nUp) (Equiv.swap p.1 p.2)
    have h2 : (x ∘ Equiv.swap p.1 p.2) ∘ Equiv.swap p.1 p.2 = x := by funext k; simp
    rw [h2, Equiv.Perm.sign_swap hp.ne, spinState_upFirst (h.comp _)] at h1
    rw [h1]
    push_cast
    rw [neg_one_mul]
    rfl
  rw [Finset.sum_congr rfl hp, Finset.sum_neg_distrib, ← Finset.mul_sum]
  push_cast
  ring

/-- the state and S² of it for another assignment of the spins -/
theorem state_of_arrangement {x : Fin N → α} (h : AntisymmetricAt nUp F x) (τ : Equiv.Perm (Fin N)) :
    spinState nUp F x (upFirst nUp ∘ τ) =
        ((Equiv.Perm.sign τ : ℤ) : ℂ) * ((orderWithin N nUp : ℂ) * (F (x ∘ τ.symm) : ℂ)) ∧
      totalSpinSquare (spinState nUp F x) (upFirst nUp ∘ τ) =
        ((Equiv.Perm.sign τ : ℤ) : ℂ) * ((orderWithin N nUp : ℂ) * (diracSpinSquare F (x ∘ τ.symm) : ℂ)) := by
  have h2 : (x ∘ τ.symm) ∘ τ = x := by funext k; simp
  have h1 : ∀ s, spinState nUp F x (s ∘ τ) = ((Equiv.Perm.sign τ : ℤ) : ℂ) * spinState nUp F (x ∘ τ.symm) s := fun s => by
    have := spinState_comp (nUp := nUp) F (x ∘ τ.symm) s τ
    rwa [h2] at this
  constructor
  · rw [h1, spinState_upFirst (h.comp _)]
  · rw [← totalSpinSquare_comp, funext h1, totalSpinSquare_smul, spin_square_of_state (h.comp _)]

theorem state_outside (x : Fin N → α) {s : Fin N → Bool}
    (hs : ¬ ∃ τ : Equiv.Perm (Fin N), s = upFirst nUp ∘ τ) : spinState nUp F x s = 0 := by
  unfold spinState
  refine Finset.sum_eq_zero fun π _ => if_neg fun h => hs ⟨π.symm, ?_⟩
  rw [← h]
  funext k
  simp

end state

/-! ### Expectations -/

section expectation

variable {d nUp nDown : ℕ} {F : Pos N d → ℝ}

theorem permuted_preserving (τ : Equiv.Perm (Fin N)) :
    ∃ e : Pos N d ≃ᵐ Pos N d, MeasurePreserving e volume volume ∧ ∀ x, e x = x ∘ τ.symm := by
  refine ⟨_, volume_measurePreserving_piCongrLeft (fun _ : Fin N => Fin d → ℝ) τ, fun x => ?_⟩
  funext k
  have := Equiv.piCongrLeft_apply_apply (fun _ : Fin N => Fin d → ℝ) τ x (τ.symm k)
  rw [Equiv.apply_symm_apply] at this
  exact this

theorem ae_antisymmetricAt
    (hF : ∀ i j, i ≠ j → (IsUp nUp i ↔ IsUp nUp j) → ∀ᵐ x, F (exchange i j x) = -F x) :
    ∀ᵐ x, AntisymmetricAt nUp F x := by
  unfold AntisymmetricAt
  simp only [ae_all_iff]
  intro σ i j hij hs
  obtain ⟨e, he, hx⟩ := permuted_preserving (d := d) σ.symm
  have := he.quasiMeasurePreserving.ae (hF i j hij hs)
  simpa only [hx, Equiv.symm_symm] using this

theorem state_integral (hF : ∀ᵐ x, AntisymmetricAt nUp F x) (G : Pos N d → ℝ)
    (A : ((Fin N → Bool) → ℂ) → (Fin N → Bool) → ℂ)
    (hA : ∀ x, AntisymmetricAt nUp F x → ∀ τ : Equiv.Perm (Fin N), A (spinState nUp F x) (upFirst nUp ∘ τ) =
      ((Equiv.Perm.sign τ : ℤ) : ℂ) * ((orderWithin N nUp : ℂ) * (G (x ∘ τ.symm) : ℂ))) (s : Fin N → Bool) :
    ∫ x, starRingEnd ℂ (spinState nUp F x s) * A (spinState nUp F x) s =
      open Classical in
      (if ∃ τ : Equiv.Perm (Fin N), s = upFirst nUp ∘ τ then (1 : ℂ) else 0) *
        ((orderWithin N nUp : ℂ) ^ 2 * ((∫ x, F x * G x : ℝ) : ℂ)) := by
  split_ifs with hs
  · obtain ⟨τ, rfl⟩ := hs
    obtain ⟨e, he, hx⟩ := permuted_preserving (d := d) τ
    have h1 : (fun x => starRingEnd ℂ (spinState nUp F x (upFirst nUp ∘ τ)) * A (spinState nUp F x) (upFirst nUp ∘ τ))
        =ᵐ[volume] fun x => (orderWithin N nUp : ℂ) ^ 2 * ((F (e x) * G (e x) : ℝ) : ℂ) := by
      filter_upwards [hF] with x h
      rw [hA x h, (state_of_arrangement h τ).1, hx]
      rcases Int.units_eq_one_or (Equiv.Perm.sign τ) with h | h <;> rw [h] <;> simp <;> ring
    rw [integral_congr_ae h1, integral_const_mul, one_mul, integral_complex_ofReal,
      he.integral_comp' (fun x => F x * G x)]
  · simp [state_outside _ hs]

/-- C122: for a function which changes sign under exchanges of equal spins, the expectation of S² in the
antisymmetrized state is given by Dirac's exchange form. -/
theorem spin_expectation_of_state
    (hF : ∀ i j, i ≠ j → (IsUp nUp i ↔ IsUp nUp j) → ∀ᵐ x, F (exchange i j x) = -F x) :
    spinExpectation totalSpinSquare (spinState nUp F) =
      (((∫ x, F x * diracSpinSquare F x) / ∫ x, F x ^ 2 : ℝ) : ℂ) := by
  classical
  have h := ae_antisymmetricAt hF
  unfold spinExpectation
  have hn := state_integral h F (fun χ => χ) (fun x hx τ => (state_of_arrangement hx τ).1)
  rw [Finset.sum_congr rfl fun s _ => state_integral h (diracSpinSquare F) totalSpinSquare
      (fun x hx τ => (state_of_arrangement hx τ).2) s, Finset.sum_congr rfl fun s _ => hn s,
    ← Finset.sum_mul, ← Finset.sum_mul, ← mul_assoc, ← mul_assoc, mul_div_mul_left]
  · push_cast
    simp only [pow_two]
  · refine mul_ne_zero ?_ (pow_ne_zero _ (Nat.cast_ne_zero.mpr orderWithin_pos.ne'))
    rw [Finset.sum_boole]
    refine Nat.cast_ne_zero.mpr (Finset.card_pos.mpr ⟨upFirst nUp, ?_⟩).ne'
    simp only [Finset.mem_filter, Finset.mem_univ, true_and]
    exact ⟨1, rfl⟩

/-- C122: the mean over `|F|²` of the estimator's local value is the expectation of S² in the antisymmetrized state. -/
theorem estimator_measures_total_spin (hN : N = nUp + nDown) (hu : 0 < nUp) (hd : 0 < nDown)
    (hF : ∀ i j, i ≠ j → (IsUp nUp i ↔ IsUp nUp j) → ∀ᵐ x, F (exchange i j x) = -F x)
    (hm : AEStronglyMeasurable F) (h2 : Integrable fun x => F x ^ 2) (hnz : ∀ᵐ x, F x ≠ 0) :
    (((∫ x, F x ^ 2 * (((nUp : ℝ) - nDown) ^ 2 / 4 + ((nUp : ℝ) + nDown) / 2 -
        nUp * nDown * (F (exchange ⟨0, by omega⟩ ⟨nUp, by omega⟩ x) / F x))) / ∫ x, F x ^ 2 : ℝ) : ℂ) =
      spinExpectation totalSpinSquare (spinState nUp F) := by
  rw [spin_expectation_of_state hF, (spin_square_integral hN hu hd hF hm h2 hnz).2]

end expectation

section configured

open Verif.Arrays Verif.Construct Verif.Net Verif.Energy Verif.Slog

variable {d m₀ : ℕ} {n : Fin 2 → ℕ} {c : ModelCfg} {ions : Fin (m₀ + 1) → Fin d → ℝ}
  {charges : Fin (m₀ + 1) → ℝ} {dtype : ℕ} {m : Model (m₀ + 1)}

/-- C122: for a configured model of two species which decays, almost every array of walkers gives the mean of a local
value `e`, whose mean over walkers distributed as `|ψ|²` is the expectation of `Sx² + Sy² + Sz²` in the state made from
`ψ` by antisymmetrization. -/
theorem configured_total_spin (hd : 2 ≤ d)
    (hm : getModelFromConfig c (counts n) ions charges dtype = .ok m) (hu : Spec.UsesNorms c)
    (hdet : c.ndeterminants ≠ 0) (hn : ∀ s, 0 < n s) (hc : Spec.Callable c 2)
    (hw : ¬ Spec.WeightedProducts c) (Q : Params 2 (m₀ + 1) d) (hdec : Decays c Q charges n)
    (nonzero : Stream1 n d → Prop) (ψ : Stream1 n d → ℝ)
    (hψ : ∀ q, Spec.ModelValue c Q ions charges q (nonzero q) (ψ q))
    {q : Pos (∑ s, n s) d} (hq : Good ions q) (h0 : ψ (splitPositions q) ≠ 0) :
    ∃ e : Pos (∑ s, n s) d → ℝ,
      FiniteExpect (fun y => ψ (splitPositions y)) e ∧
      ((expect (fun y => ψ (splitPositions y)) e : ℝ) : ℂ) =
        spinExpectation totalSpinSquare (spinState (n 0) fun y => ψ (splitPositions y)) ∧
      ∀ (W : ℕ) (nanSafe : Bool), 0 < W → ∀ᵐ x : Fin W → Pos (∑ s, n s) d,
        spinSquareA (m.onBatch n Q ions) (n 0) (n 1) nanSafe (A3 x) = .ok (.fin ((∑ t, e (x t)) / W)) := by
  obtain ⟨e, h1, h2, h3⟩ := configured_spin_expectation hd hm hu hdet hn hc hw Q hdec nonzero ψ hψ hq h0
  obtain ⟨hwave, -, -⟩ := configured_wave_function hd hdec hψ hq h0
  refine ⟨e, h1, ?_, h3⟩
  rw [h2, spin_expectation_of_state (configured_antisymmetric_ae hm hu hn hc hw Q nonzero ψ hψ hwave.ne_zero)]

end configured

/-! ### Examples -/

/-- Two particles: the symmetric combination of up-down and down-up has `S² = 2`, the antisymmetric one `S² = 0`. -/
example (a : ℂ) (s : Fin 2 → Bool) (hs : s 0 ≠ s 1) :
    totalSpinSquare (fun s => if s 0 = s 1 then 0 else 1) s = 2 ∧
      totalSpinSquare (fun s => if s 0 = s 1 then 0 else if s 0 then a else -a) s = 0 := by
  rw [dirac_identity, dirac_identity, show Finset.univ.filter (fun p : Fin 2 × Fin 2 => p.1 < p.2) = {(0, 1)} by decide]
  cases h0 : s 0 <;> cases h1 : s 1
  · exact absurd (h0.trans h1.symm) hs
  · simp [h0, h1]; norm_num
  · simp [h0, h1]; norm_num
  · exact absurd (h0.trans h1.symm) hs

/-- Helium: the mean of the estimates is the expectation of S² in the state made from `ψ`. -/
example (P : Construct.Params 2 1 3) : ∃ m : Construct.Model 1, Construct.getModelFromConfig {} (Construct.counts fun _ : Fin 2 => 1)
      (fun (_ : Fin 1) (_ : Fin 3) => (0 : ℝ)) (fun _ => 2) 32 = .ok m ∧ ∃ e,
      ((expect (heliumWave 1) e : ℝ) : ℂ) = spinExpectation totalSpinSquare (spinState 1 (heliumWave 1)) ∧
      ∀ᵐ x : Fin 5 → Pos (∑ _ : Fin 2, 1) 3,
        Arrays.spinSquareA (m.onBatch (fun _ : Fin 2 => 1) (heliumParams P 1) fun _ _ => 0) 1 1 true (Arrays.A3 x) =
          .ok (.fin ((∑ t, e (x t)) / 5)) := by
  obtain ⟨m, hm, nz, ψ, hψ, hval, hpos, -⟩ := helium_model P 1
  have hc : Spec.Callable ({} : Construct.ModelCfg) 2 := by
    left
    refine ⟨rfl, .inr (by simp), ?_⟩
    simp [Spec.PairsWithoutTwo]
  obtain ⟨e, -, h1, h2⟩ := configured_total_spin (by norm_num) hm ⟨rfl, fun _ => rfl⟩ (by simp)
    (fun _ => Nat.one_pos) hc (by simp [Spec.WeightedProducts]) (heliumParams P 1)
    (helium_decays P one_ne_zero) nz ψ hψ helium_good (hpos _).ne'
  rw [funext hval] at h1
  exact ⟨m, hm, e, h1, h2 5 true (by norm_num)⟩

end Verif.Props
