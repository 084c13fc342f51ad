import Verif.Model.Spin
import Verif.Spec.Spin
import Verif.Lemmas.Slog
import Verif.Lemmas.Energy
import Mathlib.Tactic

/-! C39, C61: the spin-exchange estimator and the S² estimate. -/

namespace Verif.Props
open Verif.Spec Verif.Slog Verif.Energy Verif.Spin

variable {α : Type*} {nUp nDown : ℕ}

/-- first spin-up label -/
def firstUp (hu : 0 < nUp) : Fin (nUp + nDown) := ⟨0, by omega⟩
/-- first spin-down label -/
def firstDown (hd : 0 < nDown) : Fin (nUp + nDown) := ⟨nUp, by omega⟩

theorem swappedIndices_eq {n : ℕ} (z a : Fin n) : swappedIndices z a = Equiv.swap z a := by
  funext k
  unfold swappedIndices
  by_cases h1 : k = a
  · subst h1; simp
  · by_cases h2 : k = z
    · subst h2; simp [h1]
    · simp [h1, h2, Equiv.swap_apply_of_ne_of_ne]

/-- exp of a difference of log magnitudes times the product of signs is the quotient -/
theorem slog_quotient {p q : XR × XR} {a b : ℝ} (hp : Represents p a) (hq : Represents q b)
    (ha : a ≠ 0) (c : ℝ) :
    XR.fin c * (p.1 * q.1) * XR.exp (q.2 - p.2) = .fin (c * (b / a)) := by
  rw [represents_iff] at hp hq
  subst hp hq
  obtain ⟨s, hs, hsa⟩ := sign_eq_fin a
  obtain ⟨t, ht, htb⟩ := sign_eq_fin b
  have hss : s * s = 1 := by
    have h1 : s ^ 2 * |a| ^ 2 = a ^ 2 := by rw [← mul_pow, hsa]
    rw [sq_abs] at h1
    have h2 : a ^ 2 ≠ 0 := pow_ne_zero _ ha
    have : s ^ 2 = 1 := by
      have := mul_right_cancel₀ h2 (h1.trans (one_mul _).symm)
      exact this
    nlinarith
  simp only [hs, ht, lmag_ne ha]
  by_cases hb : b = 0
  · subst hb
    rw [lmag_zero]
    have : (XR.ninf - XR.fin (Real.log |a|)) = XR.ninf := rfl
    rw [this]
    show XR.fin c * (XR.fin s * XR.fin t) * XR.fin 0 = _
    simp
  · rw [lmag_ne hb, XR.fin_sub, XR.exp_fin, XR.fin_mul, XR.fin_mul, XR.fin_mul, Real.exp_sub,
      Real.exp_log (abs_pos.mpr hb), Real.exp_log (abs_pos.mpr ha)]
    congr 1
    have ha' : |a| ≠ 0 := abs_ne_zero.mpr ha
    have hq : b / a = s * t * (|b| / |a|) := by
      have hmul : b * |a| = s * t * |b| * a := by
        calc b * |a| = (t * |b|) * |a| := by rw [htb]
          _ = (s * s) * (t * |b|) * |a| := by rw [hss]; ring
          _ = s * t * |b| * (s * |a|) := by ring
          _ = _ := by rw [hsa]
      field_simp
      linarith
    rw [hq]; ring

/-- C39: the local exchange value is `-n_up * n_down * psi(swapped) / psi`, where the first
spin-up and the first spin-down electron are exchanged. -/
theorem spin_exchange_is_amplitude_ratio (hu : 0 < nUp) (hd : 0 < nDown)
    (psi : (Fin (nUp + nDown) → α) → ℝ) (slogPsi : (Fin (nUp + nDown) → α) → XR × XR)
    (hslog : ∀ x, Represents (slogPsi x) (psi x)) (x : Fin (nUp + nDown) → α) (hx : psi x ≠ 0) :
    localSpinExchange slogPsi x =
      .fin (-(nUp * nDown : ℝ) * psi (exchange (firstUp hu) (firstDown hd) x) / psi x) := by
  unfold localSpinExchange
  rw [dif_neg (by omega)]
  simp only [swappedIndices_eq]
  have he : (fun i => x (Equiv.swap (⟨0, by omega⟩ : Fin (nUp + nDown)) ⟨nUp, by omega⟩ i)) =
      exchange (firstUp hu) (firstDown hd) x := rfl
  rw [he]
  have hc : -XR.ofNat nUp * XR.ofNat nDown = XR.fin (-(nUp : ℝ) * nDown) := rfl
  rw [hc, slog_quotient (hslog x) (hslog _) hx]
  congr 1
  ring

/-- C39: the exchange value is 0 when one species is absent. -/
theorem spin_exchange_one_species (h : nUp = 0 ∨ nDown = 0)
    (slogPsi : (Fin (nUp + nDown) → α) → XR × XR) (x : Fin (nUp + nDown) → α) :
    localSpinExchange slogPsi x = .fin 0 := by
  unfold localSpinExchange
  rw [dif_pos h]

theorem spin_square_of_constant (b : Bool) (slogPsi : (Fin (nUp + nDown) → α) → XR × XR) (c : ℝ)
    {walkers : List (List (Fin (nUp + nDown) → α))} {m : ℕ} (hm : 0 < m) (hne : walkers ≠ [])
    (hlen : ∀ r ∈ walkers, r.length = m)
    (hc : ∀ dev ∈ walkers, ∀ x ∈ dev, localSpinExchange slogPsi x = .fin c) :
    spinSquareExpectation b (localSpinExchange slogPsi) walkers =
      .fin (((nUp : ℝ) - nDown) ^ 2 / 4 + ((nUp : ℝ) + nDown) / 2 + c) := by
  unfold spinSquareExpectation
  have hrow : (walkers.map fun dev => dev.map (localSpinExchange slogPsi)) =
      (walkers.map fun dev => dev.map fun _ => c).map fun r => r.map XR.fin := by
    rw [List.map_map]
    refine List.map_congr_left fun dev hdev => ?_
    simp only [Function.comp_apply, List.map_map]
    exact List.map_congr_left fun x hx => hc dev hdev x hx
  have hlen' : ∀ r ∈ (walkers.map fun dev => dev.map fun _ => c), r.length = m := by
    intro r hr
    obtain ⟨dev, hdev, rfl⟩ := List.mem_map.mp hr
    simpa using hlen dev hdev
  rw [hrow, allreduce_fin b hm (by simpa using hne) hlen']
  have havg : avgL (walkers.map fun dev => dev.map fun _ => c).flatten = c := by
    unfold avgL
    have hrep : (walkers.map fun dev => dev.map fun _ => c).flatten =
        List.replicate (walkers.length * m) c := by
      rw [List.eq_replicate_iff]
      refine ⟨?_, ?_⟩
      · rw [length_flatten_uniform hlen', List.length_map]
      · intro y hy
        simp only [List.mem_flatten, List.mem_map] at hy
        obtain ⟨l, ⟨dev, _, rfl⟩, hy⟩ := hy
        obtain ⟨_, _, rfl⟩ := List.mem_map.mp hy
        rfl
    rw [hrep, List.sum_replicate, List.length_replicate, nsmul_eq_mul]
    have hpos : 0 < walkers.length := List.length_pos_of_ne_nil hne
    have : ((walkers.length * m : ℕ) : ℝ) ≠ 0 := by
      have := Nat.mul_pos hpos hm
      exact_mod_cast this.ne'
    field_simp
  rw [havg, XR.fin_add, XR.fin_add]
  congr 1
  norm_num
  ring

/-- C39: for a wavefunction which is multiplied by `e` (`1` symmetric, `-1` antisymmetric) when
the first up and the first down electron are exchanged, the S² estimate from any walkers with
non-zero amplitude, on any number of devices, is the closed form. -/
theorem spin_square_closed_form (b : Bool) (hu : 0 < nUp) (hd : 0 < nDown)
    (psi : (Fin (nUp + nDown) → α) → ℝ) (slogPsi : (Fin (nUp + nDown) → α) → XR × XR)
    (hslog : ∀ x, Represents (slogPsi x) (psi x)) (e : ℝ)
    (hsym : ∀ x, psi (exchange (firstUp hu) (firstDown hd) x) = e * psi x)
    {walkers : List (List (Fin (nUp + nDown) → α))} {m : ℕ} (hm : 0 < m) (hne : walkers ≠ [])
    (hlen : ∀ r ∈ walkers, r.length = m) (hnz : ∀ dev ∈ walkers, ∀ x ∈ dev, psi x ≠ 0) :
    spinSquareExpectation b (localSpinExchange slogPsi) walkers =
      .fin (((nUp : ℝ) - nDown) ^ 2 / 4 + ((nUp : ℝ) + nDown) / 2 - e * nUp * nDown) := by
  rw [spin_square_of_constant b slogPsi (-(e * nUp * nDown)) hm hne hlen]
  · rw [← sub_eq_add_neg]
  · intro dev hdev x hx
    rw [spin_exchange_is_amplitude_ratio hu hd psi slogPsi hslog x (hnz dev hdev x hx), hsym]
    congr 1
    have := hnz dev hdev x hx
    field_simp

/-- C39: two electrons of opposite spin in a spatially symmetric state: S² = 0 (singlet). -/
theorem two_electron_singlet (b : Bool) (psi : (Fin (1 + 1) → α) → ℝ)
    (slogPsi : (Fin (1 + 1) → α) → XR × XR) (hslog : ∀ x, Represents (slogPsi x) (psi x))
    (hsym : ∀ x, psi (exchange 0 1 x) = psi x)
    {walkers : List (List (Fin (1 + 1) → α))} {m : ℕ} (hm : 0 < m) (hne : walkers ≠ [])
    (hlen : ∀ r ∈ walkers, r.length = m) (hnz : ∀ dev ∈ walkers, ∀ x ∈ dev, psi x ≠ 0) :
    spinSquareExpectation b (localSpinExchange slogPsi) walkers = .fin 0 := by
  rw [spin_square_closed_form b one_pos one_pos psi slogPsi hslog 1
    (fun x => by rw [one_mul]; exact hsym x) hm hne hlen hnz]
  norm_num

/-- C39: two electrons of opposite spin in a spatially antisymmetric state: S² = 2 (triplet). -/
theorem two_electron_triplet (b : Bool) (psi : (Fin (1 + 1) → α) → ℝ)
    (slogPsi : (Fin (1 + 1) → α) → XR × XR) (hslog : ∀ x, Represents (slogPsi x) (psi x))
    (hsym : ∀ x, psi (exchange 0 1 x) = -psi x)
    {walkers : List (List (Fin (1 + 1) → α))} {m : ℕ} (hm : 0 < m) (hne : walkers ≠ [])
    (hlen : ∀ r ∈ walkers, r.length = m) (hnz : ∀ dev ∈ walkers, ∀ x ∈ dev, psi x ≠ 0) :
    spinSquareExpectation b (localSpinExchange slogPsi) walkers = .fin 2 := by
  rw [spin_square_closed_form b one_pos one_pos psi slogPsi hslog (-1)
    (fun x => by rw [neg_one_mul]; exact hsym x) hm hne hlen hnz]
  norm_num

/-- C39: a fully polarised state has S² = s (s + 1) with s = n / 2. -/
theorem polarised_spin_square (b : Bool) (h : nUp = 0 ∨ nDown = 0)
    (slogPsi : (Fin (nUp + nDown) → α) → XR × XR)
    {walkers : List (List (Fin (nUp + nDown) → α))} {m : ℕ} (hm : 0 < m) (hne : walkers ≠ [])
    (hlen : ∀ r ∈ walkers, r.length = m) :
    spinSquareExpectation b (localSpinExchange slogPsi) walkers =
      .fin (((nUp + nDown : ℕ) : ℝ) / 2 * (((nUp + nDown : ℕ) : ℝ) / 2 + 1)) := by
  rw [spin_square_of_constant b slogPsi 0 hm hne hlen
    (fun _ _ x _ => spin_exchange_one_species h slogPsi x)]
  congr 1
  rcases h with rfl | rfl <;> push_cast <;> ring

/-- C39: a spatial function which is antisymmetric under the up/down exchange has the maximal
spin: S² = s (s + 1) with s = n / 2. -/
theorem antisymmetric_is_maximal_spin (b : Bool) (hu : 0 < nUp) (hd : 0 < nDown)
    (psi : (Fin (nUp + nDown) → α) → ℝ) (slogPsi : (Fin (nUp + nDown) → α) → XR × XR)
    (hslog : ∀ x, Represents (slogPsi x) (psi x))
    (hsym : ∀ x, psi (exchange (firstUp hu) (firstDown hd) x) = -psi x)
    {walkers : List (List (Fin (nUp + nDown) → α))} {m : ℕ} (hm : 0 < m) (hne : walkers ≠ [])
    (hlen : ∀ r ∈ walkers, r.length = m) (hnz : ∀ dev ∈ walkers, ∀ x ∈ dev, psi x ≠ 0) :
    spinSquareExpectation b (localSpinExchange slogPsi) walkers =
      .fin (((nUp + nDown : ℕ) : ℝ) / 2 * (((nUp + nDown : ℕ) : ℝ) / 2 + 1)) := by
  rw [spin_square_closed_form b hu hd psi slogPsi hslog (-1)
    (fun x => by rw [neg_one_mul]; exact hsym x) hm hne hlen hnz]
  congr 1
  push_cast
  ring

/-! ### The estimator measures S² -/

theorem exchange_exchange {n : ℕ} (i j : Fin n) (x : Fin n → α) :
    exchange i j (exchange i j x) = x := by
  funext k; simp [exchange]

theorem sq_of_antisym {n : ℕ} {F : (Fin n → α) → ℝ} (hF : SpinAntisymmetric nUp F) {i j : Fin n}
    (hs : IsUp nUp i ↔ IsUp nUp j) : ∃ e : ℝ, e * e = 1 ∧ ∀ x, F (exchange i j x) = e * F x := by
  by_cases h : i = j
  · subst h
    refine ⟨1, by norm_num, fun x => ?_⟩
    rw [one_mul]
    congr 1
    funext k; simp [exchange]
  · exact ⟨-1, by norm_num, fun x => by rw [hF i j h hs x]; ring⟩

/-- Exchanging `z` and `a` after the relabelling `z ↔ i`, `a ↔ j` is exchanging `i` and `j` before. -/
theorem exchange_conj {n : ℕ} {z a i j : Fin n} (hz : IsUp nUp z ↔ IsUp nUp i)
    (ha : IsUp nUp a ↔ IsUp nUp j) (hza : ¬ (IsUp nUp z ↔ IsUp nUp a)) (x : Fin n → α) :
    exchange z a (exchange a j (exchange z i x)) =
      exchange a j (exchange z i (exchange i j x)) := by
  have hne : z ≠ a := by rintro rfl; exact hza Iff.rfl
  have h1 : z ≠ j := by rintro rfl; exact hza ha.symm
  have h2 : i ≠ a := by rintro rfl; exact hza hz
  have h3 : i ≠ j := by rintro rfl; exact hza (hz.trans ha.symm)
  funext k
  simp only [exchange]
  congr 1
  have key : Equiv.swap z i * Equiv.swap a j * Equiv.swap z a =
      Equiv.swap i j * (Equiv.swap z i * Equiv.swap a j) := by
    have hz' : (Equiv.swap z i * Equiv.swap a j) z = i := by
      simp [Equiv.Perm.mul_apply, Equiv.swap_apply_of_ne_of_ne hne h1]
    have ha' : (Equiv.swap z i * Equiv.swap a j) a = j := by
      simp [Equiv.Perm.mul_apply, Equiv.swap_apply_of_ne_of_ne h1.symm h3.symm]
    have := Equiv.mul_swap_eq_swap_mul (Equiv.swap z i * Equiv.swap a j) z a
    rw [hz', ha'] at this
    exact this
  exact congrArg (fun p : Equiv.Perm (Fin n) => p k) key

/-- For weights invariant under exchanges of equal spins, all up/down pairs contribute the same
average. -/
theorem pair_average {n : ℕ} {F : (Fin n → α) → ℝ} (hF : SpinAntisymmetric nUp F)
    (S : Finset (Fin n → α))
    (hS : ∀ i j, (IsUp nUp i ↔ IsUp nUp j) → ∀ x ∈ S, exchange i j x ∈ S)
    {z a i j : Fin n} (hz : IsUp nUp z ↔ IsUp nUp i) (ha : IsUp nUp a ↔ IsUp nUp j)
    (hza : ¬ (IsUp nUp z ↔ IsUp nUp a)) :
    ∑ x ∈ S, F x * F (exchange i j x) = ∑ x ∈ S, F x * F (exchange z a x) := by
  obtain ⟨e, he, hFe⟩ := sq_of_antisym hF hz
  obtain ⟨f, hf, hFf⟩ := sq_of_antisym hF ha
  refine Finset.sum_bij' (fun x _ => exchange a j (exchange z i x))
    (fun x _ => exchange z i (exchange a j x))
    (fun x hx => hS _ _ ha _ (hS _ _ hz _ hx)) (fun x hx => hS _ _ hz _ (hS _ _ ha _ hx))
    (fun x _ => by rw [exchange_exchange, exchange_exchange])
    (fun x _ => by rw [exchange_exchange, exchange_exchange]) ?_
  intro x _
  rw [exchange_conj hz ha hza]
  simp only [hFe, hFf]
  calc F x * F (exchange i j x) = (e * e) * (f * f) * (F x * F (exchange i j x)) := by
        rw [he, hf]; ring
    _ = _ := by ring

/-- number of pairs with both labels satisfying `p` -/
theorem up_pairs_card (a b : ℕ) :
    ((Finset.univ.filter (fun p : Fin (a + b) × Fin (a + b) =>
        p.1 < p.2 ∧ ¬ (IsUp a p.1 ↔ IsUp a p.2))).card = a * b) := by
  have : (Finset.univ.filter (fun p : Fin (a + b) × Fin (a + b) =>
      p.1 < p.2 ∧ ¬ (IsUp a p.1 ↔ IsUp a p.2))) =
      (Finset.univ : Finset (Fin a × Fin b)).map
        ⟨fun q => (Fin.castAdd b q.1, Fin.natAdd a q.2), fun q r h => by
          simp only [Prod.mk.injEq, Fin.ext_iff, Fin.val_castAdd, Fin.val_natAdd] at h
          ext <;> omega⟩ := by
    ext ⟨p, q⟩
    rw [Finset.mem_filter, Finset.mem_map]
    constructor
    · rintro ⟨-, h1, h2⟩
      simp only [IsUp, Fin.lt_def] at h1 h2
      refine ⟨(⟨p, by omega⟩, ⟨q - a, by omega⟩), Finset.mem_univ _, ?_⟩
      show (_, _) = _
      ext <;> simp
      omega
    · rintro ⟨⟨i, j⟩, -, h⟩
      have h' : (Fin.castAdd b i, Fin.natAdd a j) = (p, q) := h
      simp only [Prod.mk.injEq] at h'
      obtain ⟨rfl, rfl⟩ := h'
      simp [IsUp, Fin.lt_def]
      omega
  rw [this, Finset.card_map]
  simp

theorem all_pairs_card (n : ℕ) :
    2 * ((Finset.univ.filter (fun p : Fin n × Fin n => p.1 < p.2)).card : ℝ) = n * (n - 1) := by
  have h : (Finset.univ.filter (fun p : Fin n × Fin n => p.1 < p.2)).card = n.choose 2 := by
    have h1 : (Finset.univ.filter (fun p : Fin n × Fin n => p.1 < p.2)).card =
        ∑ j : Fin n, (j : ℕ) := by
      rw [Finset.card_filter, Fintype.sum_prod_type_right]
      refine Finset.sum_congr rfl fun j _ => ?_
      rw [← Finset.card_filter, show (Finset.univ.filter fun x => x < j) = Finset.Iio j by
        ext; simp, Fin.card_Iio]
    rw [h1, Fin.sum_univ_eq_sum_range (fun i => i), Finset.sum_range_id, Nat.choose_two_right]
  rw [h, Nat.cast_choose_two]
  ring

/-- Dirac's form where the function changes sign under exchanges of equal spins: only the pairs of unequal spins
remain. -/
theorem dirac_pairs (F : (Fin (nUp + nDown) → α) → ℝ) (x : Fin (nUp + nDown) → α)
    (hF : ∀ i j, i ≠ j → (IsUp nUp i ↔ IsUp nUp j) → F (exchange i j x) = -F x) :
    diracSpinSquare F x = (((nUp : ℝ) - nDown) ^ 2 / 4 + ((nUp : ℝ) + nDown) / 2) * F x -
      ∑ p ∈ Finset.univ.filter (fun p : Fin (nUp + nDown) × Fin (nUp + nDown) =>
        p.1 < p.2 ∧ ¬ (IsUp nUp p.1 ↔ IsUp nUp p.2)), F (exchange p.1 p.2 x) := by
  classical
  set P := Finset.univ.filter (fun p : Fin (nUp + nDown) × Fin (nUp + nDown) => p.1 < p.2) with hP
  set same := P.filter (fun p => IsUp nUp p.1 ↔ IsUp nUp p.2) with hsame
  have hdiff : P.filter (fun p => ¬ (IsUp nUp p.1 ↔ IsUp nUp p.2)) =
      Finset.univ.filter (fun p : Fin (nUp + nDown) × Fin (nUp + nDown) =>
        p.1 < p.2 ∧ ¬ (IsUp nUp p.1 ↔ IsUp nUp p.2)) := by
    rw [hP, Finset.filter_filter]
  have hcards : (same.card : ℝ) + (nUp * nDown : ℕ) = P.card := by
    rw [← up_pairs_card nUp nDown, ← hdiff, ← Nat.cast_add]
    exact_mod_cast Finset.card_filter_add_card_filter_not (s := P) _
  have hPcard := all_pairs_card (nUp + nDown)
  rw [← hP] at hPcard
  push_cast at hPcard hcards
  have hs : ∑ p ∈ same, F (exchange p.1 p.2 x) = -(same.card : ℝ) * F x := by
    rw [Finset.sum_congr rfl (g := fun _ => -F x)]
    · rw [Finset.sum_const, nsmul_eq_mul]; ring
    · intro p hp
      simp only [hsame, Finset.mem_filter, hP, Finset.mem_univ, true_and] at hp
      exact hF _ _ hp.1.ne hp.2
  have hc : (same.card : ℝ) = ((nUp : ℝ) + nDown) * (nUp + nDown - 1) / 2 - nUp * nDown := by
    linarith
  unfold diracSpinSquare
  rw [← hP, ← Finset.sum_filter_add_sum_filter_not P (fun p => IsUp nUp p.1 ↔ IsUp nUp p.2), ← hsame, hs, hc, hdiff]
  push_cast
  ring

/-- C61: averaged over any finite set of configurations closed under exchanges of equal spins
with weights `|F|²`, the estimator's local value reproduces the quadratic form of Dirac's
exchange form of the operator S². -/
theorem estimator_measures_spin_square (hu : 0 < nUp) (hd : 0 < nDown)
    (F : (Fin (nUp + nDown) → α) → ℝ) (hF : SpinAntisymmetric nUp F)
    (slogF : (Fin (nUp + nDown) → α) → XR × XR) (hslog : ∀ x, Represents (slogF x) (F x))
    (S : Finset (Fin (nUp + nDown) → α)) (hnz : ∀ x ∈ S, F x ≠ 0)
    (hS : ∀ i j, (IsUp nUp i ↔ IsUp nUp j) → ∀ x ∈ S, exchange i j x ∈ S) :
    ∃ loc : (Fin (nUp + nDown) → α) → ℝ,
      (∀ x ∈ S, localSpinExchange slogF x = .fin (loc x)) ∧
      ∑ x ∈ S, F x ^ 2 * (((nUp : ℝ) - nDown) ^ 2 / 4 + ((nUp : ℝ) + nDown) / 2 + loc x) =
        ∑ x ∈ S, F x * diracSpinSquare F x := by
  refine ⟨fun x => -(nUp * nDown : ℝ) * F (exchange (firstUp hu) (firstDown hd) x) / F x,
    fun x hx => spin_exchange_is_amplitude_ratio hu hd F slogF hslog x (hnz x hx), ?_⟩
  have hpair : ∀ p ∈ Finset.univ.filter (fun p : Fin (nUp + nDown) × Fin (nUp + nDown) =>
        p.1 < p.2 ∧ ¬ (IsUp nUp p.1 ↔ IsUp nUp p.2)), ∑ x ∈ S, F x * F (exchange p.1 p.2 x) =
      ∑ x ∈ S, F x * F (exchange (firstUp hu) (firstDown hd) x) := by
    intro p hp
    simp only [Finset.mem_filter, Finset.mem_univ, true_and, IsUp, Fin.lt_def] at hp
    refine pair_average hF S hS ?_ ?_ ?_ <;> simp only [IsUp, firstUp, firstDown] <;> omega
  simp only [fun x => dirac_pairs F x fun i j h h' => hF i j h h' x, mul_sub, Finset.mul_sum]
  rw [Finset.sum_sub_distrib, Finset.sum_comm, Finset.sum_congr rfl hpair, Finset.sum_const, nsmul_eq_mul,
    up_pairs_card, Finset.mul_sum, ← Finset.sum_sub_distrib]
  refine Finset.sum_congr rfl fun x hx => ?_
  have := hnz x hx
  push_cast
  field_simp
  ring

/-! ### Examples -/

/-- sign/log of a real function, as any model would report it -/
noncomputable def slogOf (f : (Fin (1 + 1) → ℝ) → ℝ) : (Fin (1 + 1) → ℝ) → XR × XR :=
  fun x => arrayToSlog (.fin (f x))

theorem slogOf_represents (f : (Fin (1 + 1) → ℝ) → ℝ) (x) : Represents (slogOf f x) (f x) :=
  (represents_iff _ _).mpr rfl

/-- Singlet `x₀ + x₁ = 4` and triplet `x₀ - x₁ = -2` at the walker `(1, 3)`. -/
example : spinSquareExpectation true (localSpinExchange (slogOf fun x => x 0 + x 1))
      [[fun i => 2 * i.val + 1]] = .fin 0 ∧
    spinSquareExpectation true (localSpinExchange (slogOf fun x => x 0 - x 1))
      [[fun i => 2 * i.val + 1]] = .fin 2 := by
  constructor
  · refine two_electron_singlet (m := 1) true _ _ (slogOf_represents _) ?_ one_pos (by simp)
      (by simp) ?_
    · intro x; simp [exchange]; ring
    · intro dev hdev x hx
      simp only [List.mem_singleton] at hdev
      subst hdev
      simp only [List.mem_singleton] at hx
      subst hx
      norm_num
  · refine two_electron_triplet (m := 1) true _ _ (slogOf_represents _) ?_ one_pos (by simp)
      (by simp) ?_
    · intro x; simp [exchange]
    · intro dev hdev x hx
      simp only [List.mem_singleton] at hdev
      subst hdev
      simp only [List.mem_singleton] at hx
      subst hx
      norm_num

/-- A neither symmetric nor antisymmetric function of one up and one down electron. -/
example (x : Fin (1 + 1) → ℝ) (hx : x 0 + 2 * x 1 ≠ 0) :
    localSpinExchange (slogOf fun x => x 0 + 2 * x 1) x =
      .fin (-(x 1 + 2 * x 0) / (x 0 + 2 * x 1)) := by
  rw [spin_exchange_is_amplitude_ratio one_pos one_pos _ _ (slogOf_represents _) x hx]
  simp [exchange, firstUp, firstDown]

/-- Two spin-up electrons and one spin-down electron on three sites. -/
example : ∃ F : (Fin (2 + 1) → Fin 3) → ℝ, ∃ S : Finset (Fin (2 + 1) → Fin 3),
    S.Nonempty ∧ SpinAntisymmetric 2 F ∧ (∀ x ∈ S, F x ≠ 0) ∧
      ∀ i j : Fin (2 + 1), (IsUp 2 i ↔ IsUp 2 j) → ∀ x ∈ S, exchange i j x ∈ S := by
  classical
  let F : (Fin (2 + 1) → Fin 3) → ℝ := fun x =>
    (((x 0).val : ℝ) - (x 1).val) * (1 + (x 2).val)
  have hF : SpinAntisymmetric 2 F := by
    intro i j hij hs x
    fin_cases i <;> fin_cases j <;> simp [IsUp] at hs hij
    · simp only [F, exchange]
      have h1 : Equiv.swap (0 : Fin (2 + 1)) 1 2 = 2 := by decide
      simp [h1]; ring
    · simp only [F, exchange]
      have h1 : Equiv.swap (1 : Fin (2 + 1)) 0 2 = 2 := by decide
      simp [h1]; ring
  refine ⟨F, Finset.univ.filter fun x => F x ≠ 0, ⟨![0, 1, 2], ?_⟩, hF, ?_, ?_⟩
  · simp [F]
    norm_num
  · intro x hx
    exact (Finset.mem_filter.mp hx).2
  · intro i j hs x hx
    obtain ⟨e, he, h⟩ := sq_of_antisym hF hs
    refine Finset.mem_filter.mpr ⟨Finset.mem_univ _, ?_⟩
    rw [h]
    have he0 : e ≠ 0 := by rintro rfl; simp at he
    exact mul_ne_zero he0 (Finset.mem_filter.mp hx).2

end Verif.Props
