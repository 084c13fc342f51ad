import Verif.Props.BatchedSpin
import Verif.Props.Normalisable

/-!
The mean of the spin-square estimator over walkers distributed as `|ψ|²`.
-/

namespace Verif.Props
open Verif.Arrays Verif.Phys Verif.Spec Verif.Construct Verif.Net Verif.Energy Verif.Slog MeasureTheory

variable {N d : ℕ}

theorem exchange_preserving (i j : Fin N) :
    MeasurePreserving (fun x : Pos N d => exchange i j x) volume volume := by
  have h := volume_measurePreserving_piCongrLeft (fun _ : Fin N => Fin d → ℝ) (Equiv.swap i j)
  have h' : (MeasurableEquiv.piCongrLeft (fun _ : Fin N => Fin d → ℝ) (Equiv.swap i j) :
      Pos N d → Pos N d) = fun x => exchange i j x := by
    funext x k
    have := Equiv.piCongrLeft_apply_apply (fun _ : Fin N => Fin d → ℝ) (Equiv.swap i j) x (Equiv.swap i j k)
    rw [Equiv.swap_apply_self] at this
    exact this
  rwa [h'] at h

section average

variable {nUp nDown : ℕ} {F : Pos N d → ℝ}

/-- the sign of an exchange of equal spins, almost everywhere -/
theorem ae_sign (hF : ∀ i j, i ≠ j → (IsUp nUp i ↔ IsUp nUp j) → ∀ᵐ x, F (exchange i j x) = -F x)
    {i j : Fin N} (hs : IsUp nUp i ↔ IsUp nUp j) :
    ∃ e : ℝ, e * e = 1 ∧ ∀ᵐ x, F (exchange i j x) = e * F x := by
  by_cases h : i = j
  · subst h
    refine ⟨1, by norm_num, .of_forall fun x => ?_⟩
    rw [one_mul]
    congr 1
    funext k; simp [exchange]
  · exact ⟨-1, by norm_num, by simpa using hF i j h hs⟩

theorem pair_integral (hF : ∀ i j, i ≠ j → (IsUp nUp i ↔ IsUp nUp j) → ∀ᵐ x, F (exchange i j x) = -F x)
    {z a i j : Fin N} (hz : IsUp nUp z ↔ IsUp nUp i) (ha : IsUp nUp a ↔ IsUp nUp j)
    (hza : ¬ (IsUp nUp z ↔ IsUp nUp a)) (hm : AEStronglyMeasurable F) :
    ∫ x, F x * F (exchange i j x) = ∫ x, F x * F (exchange z a x) := by
  obtain ⟨e, he, hFe⟩ := ae_sign hF hz
  obtain ⟨f, hf, hFf⟩ := ae_sign hF ha
  have hT := (exchange_preserving (d := d) a j).comp (exchange_preserving z i)
  have hG : AEStronglyMeasurable (fun x => F x * F (exchange z a x)) :=
    hm.mul (hm.comp_measurePreserving (exchange_preserving z a))
  have h1 := integral_map (f := fun x => F x * F (exchange z a x)) hT.measurable.aemeasurable
    (by rw [hT.map_eq]; exact hG)
  rw [hT.map_eq] at h1
  rw [h1]
  refine integral_congr_ae ?_
  have hFf' := (exchange_preserving (d := d) z i).quasiMeasurePreserving.ae hFf
  filter_upwards [hFe, hFf', (exchange_preserving (d := d) i j).quasiMeasurePreserving.ae hFe,
    (exchange_preserving (d := d) i j).quasiMeasurePreserving.ae hFf'] with x h1 h2 h3 h4
  simp only [Function.comp]
  rw [exchange_conj hz ha hza, h2, h1, h4, h3]
  calc F x * F (exchange i j x) = (e * e) * (f * f) * (F x * F (exchange i j x)) := by
        rw [he, hf]; ring
    _ = _ := by ring

theorem exchange_integrable (hm : AEStronglyMeasurable F) (h2 : Integrable fun x => F x ^ 2) (i j : Fin N) :
    Integrable fun x => F x * F (exchange i j x) := by
  have hF : MemLp F 2 := (memLp_two_iff_integrable_sq hm).mpr h2
  exact hF.integrable_mul (hF.comp_measurePreserving (exchange_preserving i j))

/-- C121: for a square-integrable function which changes sign under exchanges of equal spins, the integral of the
estimator's local value with weight `F²` is the quadratic form of S². -/
theorem spin_square_integral (hN : N = nUp + nDown) (hu : 0 < nUp) (hd : 0 < nDown)
    (hF : ∀ i j, i ≠ j → (IsUp nUp i ↔ IsUp nUp j) → ∀ᵐ x, F (exchange i j x) = -F x)
    (hm : AEStronglyMeasurable F) (h2 : Integrable fun x => F x ^ 2) (hnz : ∀ᵐ x, F x ≠ 0) :
    Integrable (fun x => F x ^ 2 * (((nUp : ℝ) - nDown) ^ 2 / 4 + ((nUp : ℝ) + nDown) / 2 -
        nUp * nDown * (F (exchange ⟨0, by omega⟩ ⟨nUp, by omega⟩ x) / F x))) ∧
    ∫ x, F x ^ 2 * (((nUp : ℝ) - nDown) ^ 2 / 4 + ((nUp : ℝ) + nDown) / 2 -
        nUp * nDown * (F (exchange ⟨0, by omega⟩ ⟨nUp, by omega⟩ x) / F x)) =
      ∫ x, F x * diracSpinSquare F x := by
  subst hN
  set z : Fin (nUp + nDown) := ⟨0, by omega⟩ with hz
  set a : Fin (nUp + nDown) := ⟨nUp, by omega⟩ with ha
  set D := Finset.univ.filter (fun p : Fin (nUp + nDown) × Fin (nUp + nDown) =>
        p.1 < p.2 ∧ ¬ (IsUp nUp p.1 ↔ IsUp nUp p.2)) with hD
  have hpair : ∀ p ∈ D, ∫ x, F x * F (exchange p.1 p.2 x) = ∫ x, F x * F (exchange z a x) := by
    intro p hp
    simp only [hD, Finset.mem_filter, Finset.mem_univ, true_and, IsUp, Fin.lt_def] at hp
    refine pair_integral hF ?_ ?_ ?_ hm <;> simp only [IsUp, hz, ha] <;> omega
  have hL : (fun x => F x ^ 2 * (((nUp : ℝ) - nDown) ^ 2 / 4 + ((nUp : ℝ) + nDown) / 2 -
        nUp * nDown * (F (exchange z a x) / F x))) =ᵐ[volume]
      fun x => (((nUp : ℝ) - nDown) ^ 2 / 4 + ((nUp : ℝ) + nDown) / 2) * F x ^ 2 -
        nUp * nDown * (F x * F (exchange z a x)) := by
    filter_upwards [hnz] with x hx
    field_simp
  have hR : (fun x => F x * diracSpinSquare F x) =ᵐ[volume]
      fun x => (((nUp : ℝ) - nDown) ^ 2 / 4 + ((nUp : ℝ) + nDown) / 2) * F x ^ 2 -
        ∑ p ∈ D, F x * F (exchange p.1 p.2 x) := by
    have hall : ∀ᵐ x, ∀ i j, i ≠ j → (IsUp nUp i ↔ IsUp nUp j) → F (exchange i j x) = -F x := by
      simp only [ae_all_iff]
      exact hF
    filter_upwards [hall] with x hx
    rw [dirac_pairs F x hx, ← hD, mul_sub, Finset.mul_sum]
    ring
  have hi := exchange_integrable hm h2
  refine ⟨((h2.const_mul _).sub ((hi z a).const_mul _)).congr hL.symm, ?_⟩
  rw [integral_congr_ae hL, integral_congr_ae hR,
    integral_sub (h2.const_mul _) ((hi z a).const_mul _),
    integral_sub (h2.const_mul _) (integrable_finsetSum _ fun p _ => hi p.1 p.2),
    integral_finsetSum _ fun p _ => hi p.1 p.2, Finset.sum_congr rfl hpair, Finset.sum_const, nsmul_eq_mul,
    hD, up_pairs_card, integral_const_mul, integral_const_mul]
  push_cast
  ring

end average

/-! ### Configured models -/

section configured

variable {m₀ : ℕ} {n : Fin 2 → ℕ} {c : ModelCfg} {ions : Fin (m₀ + 1) → Fin d → ℝ}
  {charges : Fin (m₀ + 1) → ℝ} {dtype : ℕ} {m : Model (m₀ + 1)}

theorem up_iff (s : Fin 2) (a : Fin (n s)) : IsUp (n 0) (finSigmaFinEquiv ⟨s, a⟩) ↔ s = 0 := by
  unfold IsUp
  rw [finSigmaFinEquiv_apply]
  match s, a with
  | 0, a => simp
  | 1, a => simp

/-- Exchanging two electrons of one species is a permutation of parity -1. -/
theorem exchange_is_permutation {i j : Fin (∑ s, n s)} (hij : i ≠ j) (hs : IsUp (n 0) i ↔ IsUp (n 0) j) :
    ∃ π : ∀ s, Equiv.Perm (Fin (n s)), totalParity π = -1 ∧ ∀ x : Pos (∑ s, n s) d,
      (splitPositions (exchange i j x) : Stream1 n d) = permute1 π (splitPositions x) := by
  obtain ⟨⟨s, a⟩, rfl⟩ := (finSigmaFinEquiv (n := n)).surjective i
  obtain ⟨⟨t, b⟩, rfl⟩ := (finSigmaFinEquiv (n := n)).surjective j
  rw [up_iff, up_iff] at hs
  obtain rfl : s = t := by
    match s, t with
    | 0, 0 => rfl
    | 0, 1 => exact absurd (hs.mp rfl) (by decide)
    | 1, 0 => exact absurd (hs.mpr rfl) (by decide)
    | 1, 1 => rfl
  have hab : a ≠ b := fun h => hij (by rw [h])
  refine ⟨Function.update (fun _ => 1) s (Equiv.swap a b), ?_, fun x => ?_⟩
  · unfold totalParity
    rw [Finset.prod_eq_single s]
    · rw [Function.update_self]
      unfold parity
      rw [Equiv.Perm.sign_swap hab]
      simp
    · intro t _ ht
      rw [Function.update_of_ne ht]
      simp [parity]
    · exact fun h => absurd (Finset.mem_univ s) h
  · funext e
    unfold splitPositions permute1 exchange
    dsimp only
    rw [← Function.Injective.map_swap finSigmaFinEquiv.injective]
    congr 2
    obtain ⟨t, e⟩ := e
    rw [permE_apply]
    by_cases ht : t = s
    · subst ht
      rw [Function.update_self]
      exact (Function.Injective.map_swap (f := fun a : Fin (n t) => (⟨t, a⟩ : Elec n))
        (fun _ _ h => eq_of_heq (Sigma.mk.inj h).2) a b e).symm
    · rw [Function.update_of_ne ht]
      exact Equiv.swap_apply_of_ne_of_ne (fun h => ht (congrArg Sigma.fst h))
        fun h => ht (congrArg Sigma.fst h)

theorem represents_opposite {p : SL} {r s : ℝ} (hr : Represents p r) (hs : Represents (signTimes (-1) p) s) :
    s = -r := by
  refine slog_unique hs ?_
  rw [signTimes_neg_one]
  rcases hr with ⟨h, rfl⟩ | ⟨h, rfl⟩ | ⟨h, rfl⟩
  · exact .inr (.inl ⟨by linarith, by simp [XR.fin_neg]⟩)
  · exact .inl ⟨by linarith, by simp [XR.fin_neg]⟩
  · exact .inr (.inr ⟨by linarith, by simp [XR.fin_neg]⟩)

/-- A property of almost all walkers holds for all walkers of almost all arrays. -/
theorem ae_walkers {W : ℕ} {p : Pos N d → Prop} (h : ∀ᵐ x, p x) :
    ∀ᵐ x : Fin W → Pos N d, ∀ t, p (x t) :=
  ae_all_iff.mpr fun t => (Measure.quasiMeasurePreserving_eval (fun _ : Fin W => (volume : Measure (Pos N d))) t).ae h

/-- A configured model which is zero almost nowhere changes sign almost everywhere under exchanges of equal spins. -/
theorem configured_antisymmetric_ae
    (hm : getModelFromConfig c (counts n) ions charges dtype = .ok m) (hu : Spec.UsesNorms c)
    (hn : ∀ s, 0 < n s) (hc : Spec.Callable c 2) (hw : ¬ Spec.WeightedProducts c) (Q : Params 2 (m₀ + 1) d)
    (nonzero : Stream1 n d → Prop) (ψ : Stream1 n d → ℝ)
    (hψ : ∀ q, Spec.ModelValue c Q ions charges q (nonzero q) (ψ q))
    (hne : ∀ᵐ x : Pos (∑ s, n s) d, ψ (splitPositions x) ≠ 0) (i j : Fin (∑ s, n s)) (hij : i ≠ j)
    (hs : IsUp (n 0) i ↔ IsUp (n 0) j) : ∀ᵐ x : Pos (∑ s, n s) d,
      ψ (splitPositions (exchange i j x)) = -ψ (splitPositions x) := by
  obtain ⟨π, hπ, hp⟩ := exchange_is_permutation (d := d) hij hs
  filter_upwards [hne, (exchange_preserving i j).quasiMeasurePreserving.ae hne] with x hx hx'
  obtain ⟨v, hv⟩ := (configured_model_callable_iff c ions charges dtype m hm hu hn Q
    (splitPositions x : Stream1 n d)).mpr hc
  have hv' := (configured_model_antisymmetric_partial c ions charges dtype m hm hw Q π (splitPositions x)).1
  rw [hv, hπ, ← hp] at hv'
  exact represents_opposite
    (configured_model_computes_partial c ions charges dtype m hm Q _ _ hv _ _ (hψ _)
      (model_value_nonzero (hψ _) hx))
    (configured_model_computes_partial c ions charges dtype m hm Q _ _ hv' _ _ (hψ _)
      (model_value_nonzero (hψ _) hx'))

/-- C121: for a configured model of two species which decays, almost every array of walkers gives the mean of a local
value `e`, whose mean over walkers distributed as `|ψ|²` is `⟨ψ|S²|ψ⟩ / ⟨ψ|ψ⟩`. -/
theorem configured_spin_expectation (hd : 2 ≤ d)
    (hm : getModelFromConfig c (counts n) ions charges dtype = .ok m) (hu : Spec.UsesNorms c)
    (hdet : c.ndeterminants ≠ 0) (hn : ∀ s, 0 < n s) (hc : Spec.Callable c 2)
    (hw : ¬ Spec.WeightedProducts c) (Q : Params 2 (m₀ + 1) d) (hdec : Decays c Q charges n)
    (nonzero : Stream1 n d → Prop) (ψ : Stream1 n d → ℝ)
    (hψ : ∀ q, Spec.ModelValue c Q ions charges q (nonzero q) (ψ q))
    {q : Pos (∑ s, n s) d} (hq : Good ions q) (h0 : ψ (splitPositions q) ≠ 0) :
    ∃ e : Pos (∑ s, n s) d → ℝ,
      FiniteExpect (fun y => ψ (splitPositions y)) e ∧
      expect (fun y => ψ (splitPositions y)) e =
        (∫ y, ψ (splitPositions y) * diracSpinSquare (fun y => ψ (splitPositions y)) y) /
          ∫ y, ψ (splitPositions y) ^ 2 ∧
      ∀ (W : ℕ) (nanSafe : Bool), 0 < W → ∀ᵐ x : Fin W → Pos (∑ s, n s) d,
        spinSquareA (m.onBatch n Q ions) (n 0) (n 1) nanSafe (A3 x) = .ok (.fin ((∑ t, e (x t)) / W)) := by
  have hN : ∑ s, n s = n 0 + n 1 := Fin.sum_univ_two n
  have h1 := hn 0
  have h2 := hn 1
  have hz : 0 < ∑ s, n s := by omega
  have hp : n 0 < ∑ s, n s := by omega
  obtain ⟨hwave, -, -⟩ := configured_wave_function hd hdec hψ hq h0
  have hanti := configured_antisymmetric_ae hm hu hn hc hw Q nonzero ψ hψ hwave.ne_zero
  obtain ⟨h3, h4⟩ := spin_square_integral hN h1 h2 hanti hwave.measurable hwave.normalisable hwave.ne_zero
  refine ⟨fun x => ((n 0 : ℝ) - n 1) ^ 2 / 4 + ((n 0 : ℝ) + n 1) / 2 - n 0 * n 1 *
    (ψ (splitPositions (exchange ⟨0, by omega⟩ ⟨n 0, by omega⟩ x)) / ψ (splitPositions x)), ?_, ?_, ?_⟩
  · exact (finiteExpect_iff hwave _).mpr h3
  · rw [expect_eq hwave, ← h4]
  · intro W nanSafe hW
    filter_upwards [ae_walkers hwave.ne_zero, ae_walkers ((exchange_preserving ⟨0, hz⟩
      ⟨n 0, hp⟩).quasiMeasurePreserving.ae hwave.ne_zero)] with x hx hx'
    rw [configured_spin_square c ions charges dtype m hm hu hdet hn hc Q nonzero ψ hψ hW (by omega) (X := A3 x) rfl
      x _ (fun t => funext fun i => funext fun k => (A3_get x t.2 i.2 k.2).symm) (fun _ => rfl) hx
      (fun t => model_value_nonzero (hψ _) (hx' t)) nanSafe]
    congr 2
    have hW' : (W : ℝ) ≠ 0 := by positivity
    rw [Finset.sum_sub_distrib, ← Finset.mul_sum, Finset.sum_const, Finset.card_univ, Fintype.card_fin,
      nsmul_eq_mul]
    field_simp

end configured

/-- Helium: the mean of the estimates is `⟨ψ|S²|ψ⟩ / ⟨ψ|ψ⟩`. -/
example (P : Params 2 1 3) : ∃ m : Model 1, getModelFromConfig {} (counts fun _ : Fin 2 => 1)
      (fun (_ : Fin 1) (_ : Fin 3) => (0 : ℝ)) (fun _ => 2) 32 = .ok m ∧ ∃ e,
      expect (heliumWave 1) e = (∫ y, heliumWave 1 y * diracSpinSquare (heliumWave 1) y) / (∫ y, heliumWave 1 y ^ 2) ∧
      ∀ᵐ x : Fin 5 → Pos (∑ _ : Fin 2, 1) 3,
        spinSquareA (m.onBatch (fun _ : Fin 2 => 1) (heliumParams P 1) fun _ _ => 0) 1 1 true (A3 x) =
          .ok (.fin ((∑ t, e (x t)) / 5)) := by
  obtain ⟨m, hm, nz, ψ, hψ, hval, hpos, -⟩ := helium_model P 1
  have hc : Spec.Callable ({} : ModelCfg) 2 := by
    left
    refine ⟨rfl, .inr (by simp), ?_⟩
    simp [Spec.PairsWithoutTwo]
  obtain ⟨e, -, h1, h2⟩ := configured_spin_expectation (by norm_num) hm ⟨rfl, fun _ => rfl⟩ (by simp)
    (fun _ => Nat.one_pos) hc (by simp [Spec.WeightedProducts]) (heliumParams P 1)
    (helium_decays P one_ne_zero) nz ψ hψ helium_good (hpos _).ne'
  simp only [hval] at h1
  exact ⟨m, hm, e, h1, h2 5 true (by norm_num)⟩

end Verif.Props
