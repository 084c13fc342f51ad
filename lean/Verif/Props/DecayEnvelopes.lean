import Verif.Props.DecayLayers

/-!
For C88: orbitals decay exponentially.
-/

namespace Verif.Props
open Verif.Construct Verif.Net Verif.Spec Verif.Slog Verif.Decay

variable {K nion d : ℕ} {n : Fin (K + 1) → ℕ} {I : Set ℝ} {R : Fin nion → Fin d → ℝ} {i : Fin (∑ s, n s)}
  {l : Fin d}

/-! ### Envelopes -/

theorem norm_le_length {D : ℕ} (v : Fin D → ℝ) : ‖v‖ ≤ Real.sqrt (∑ l, v l ^ 2) := by
  rw [pi_norm_le_iff_of_nonneg (Real.sqrt_nonneg _)]
  intro l
  rw [Real.norm_eq_abs]
  refine Real.abs_le_sqrt ?_
  exact Finset.single_le_sum (f := fun l => v l ^ 2) (fun _ _ => sq_nonneg _) (Finset.mem_univ l)

theorem length_le_norm {D : ℕ} (v : Fin D → ℝ) : Real.sqrt (∑ l, v l ^ 2) ≤ (D + 1 : ℝ) * ‖v‖ := by
  have h : ∑ l, v l ^ 2 ≤ D * ‖v‖ ^ 2 := by
    calc ∑ l, v l ^ 2 ≤ ∑ _l : Fin D, ‖v‖ ^ 2 := Finset.sum_le_sum fun l _ => by
          have := norm_le_pi_norm v l
          rw [Real.norm_eq_abs] at this
          rw [← sq_abs]
          exact pow_le_pow_left₀ (abs_nonneg _) this 2
      _ = _ := by simp
  rw [Real.sqrt_le_iff]
  refine ⟨by positivity, h.trans ?_⟩
  rw [mul_pow]
  refine mul_le_mul_of_nonneg_right ?_ (sq_nonneg _)
  have : (0 : ℝ) ≤ D := Nat.cast_nonneg D
  nlinarith

/-- The displacement as an envelope scales it. -/
def scaledBy (isotropic : Bool) (isoK : ℝ) (A : Fin d → Fin d → ℝ) (v : Fin d → ℝ) (l' : Fin d) : ℝ :=
  if isotropic = true then isoK * v l' else ∑ l, v l * A l l'

theorem scaled_add (isotropic : Bool) (isoK : ℝ) (A : Fin d → Fin d → ℝ) (v u : Fin d → ℝ) (t : ℝ)
    (l' : Fin d) : scaledBy isotropic isoK A (fun l => v l + t * u l) l' =
      scaledBy isotropic isoK A v l' + t * scaledBy isotropic isoK A u l' := by
  unfold scaledBy
  split
  · ring
  · rw [Finset.mul_sum, ← Finset.sum_add_distrib]
    exact Finset.sum_congr rfl fun l _ => by ring

theorem scaled_smul (isotropic : Bool) (isoK : ℝ) (A : Fin d → Fin d → ℝ) (u : Fin d → ℝ) (t : ℝ)
    (l' : Fin d) : scaledBy isotropic isoK A (t • u) l' = t * scaledBy isotropic isoK A u l' := by
  have := scaled_add isotropic isoK A 0 u t l'
  have h0 : scaledBy isotropic isoK A 0 l' = 0 := by unfold scaledBy; simp
  rw [h0, zero_add] at this
  simp only [Pi.zero_apply, zero_add] at this
  exact this

theorem scaled_lower (hI : IsCompact I) (isotropic : Bool) {isoK : ℝ → ℝ}
    {A : ℝ → Fin d → Fin d → ℝ} (hK : ContinuousOn isoK I)
    (hA : ∀ l l', ContinuousOn (fun θ => A θ l l') I)
    (h : ∀ θ ∈ I, if isotropic = true then isoK θ ≠ 0
      else ∀ v : Fin d → ℝ, (∀ l', ∑ l, v l * A θ l l' = 0) → v = 0) :
    ∃ c, 0 < c ∧ ∀ θ ∈ I, ∀ v : Fin d → ℝ, c * Real.sqrt (∑ l, v l ^ 2) ≤
      Real.sqrt (∑ l', scaledBy isotropic (isoK θ) (A θ) v l' ^ 2) := by
  let F : ℝ × (Fin d → ℝ) → ℝ := fun p =>
    Real.sqrt (∑ l', scaledBy isotropic (isoK p.1) (A p.1) p.2 l' ^ 2)
  have hF : ContinuousOn F (I ×ˢ Metric.sphere 0 1) := by
    have h1 : Set.MapsTo Prod.fst (I ×ˢ Metric.sphere (0 : Fin d → ℝ) 1) I := fun p hp => hp.1
    refine Real.continuous_sqrt.comp_continuousOn (continuousOn_finsetSum _ fun l' _ => .pow ?_ 2)
    unfold scaledBy
    split
    · exact (hK.comp continuousOn_fst h1).mul (by fun_prop)
    · exact continuousOn_finsetSum _ fun l _ => ContinuousOn.mul (by fun_prop)
        ((hA l l').comp continuousOn_fst h1)
  have hpos : ∀ p ∈ I ×ˢ Metric.sphere (0 : Fin d → ℝ) 1, 0 < F p := by
    intro p hp
    refine Real.sqrt_pos.mpr (lt_of_le_of_ne (Finset.sum_nonneg fun _ _ => sq_nonneg _) fun h0 => ?_)
    have hz : ∀ l', scaledBy isotropic (isoK p.1) (A p.1) p.2 l' = 0 := fun l' => by
      have := (Finset.sum_eq_zero_iff_of_nonneg fun l' _ => sq_nonneg _).mp h0.symm l'
        (Finset.mem_univ l')
      exact pow_eq_zero_iff two_ne_zero |>.mp this
    have hv : p.2 = 0 := by
      have := h p.1 hp.1
      unfold scaledBy at hz
      split at this
      · rename_i hi
        simp only [if_pos hi] at hz
        exact funext fun l' => (mul_eq_zero.mp (hz l')).resolve_left this
      · rename_i hi
        simp only [if_neg hi] at hz
        exact this _ hz
    have := hp.2
    rw [hv, mem_sphere_zero_iff_norm, norm_zero] at this
    exact zero_ne_one this
  obtain ⟨b, hb, hmin⟩ : ∃ b, 0 < b ∧ ∀ p ∈ I ×ˢ Metric.sphere (0 : Fin d → ℝ) 1, b ≤ F p := by
    by_cases hne : (I ×ˢ Metric.sphere (0 : Fin d → ℝ) 1).Nonempty
    · obtain ⟨p, hp, hm⟩ := (hI.prod (isCompact_sphere 0 1)).exists_isMinOn hne hF
      exact ⟨F p, hpos p hp, fun p' hp' => hm hp'⟩
    · exact ⟨1, one_pos, fun p hp => absurd ⟨p, hp⟩ hne⟩
  refine ⟨b / (d + 1 : ℝ), by positivity, fun θ hθ v => ?_⟩
  by_cases hv : v = 0
  · subst hv
    simp
  have hv' : 0 < ‖v‖ := norm_pos_iff.mpr hv
  have h1 := hmin (θ, ‖v‖⁻¹ • v) ⟨hθ, by
    rw [mem_sphere_zero_iff_norm, norm_smul, norm_inv, norm_norm, inv_mul_cancel₀ hv'.ne']⟩
  have h2 : F (θ, ‖v‖⁻¹ • v) = ‖v‖⁻¹ *
      Real.sqrt (∑ l', scaledBy isotropic (isoK θ) (A θ) v l' ^ 2) := by
    simp only [F, scaled_smul, mul_pow, ← Finset.mul_sum]
    rw [Real.sqrt_mul (by positivity), Real.sqrt_sq (by positivity)]
  rw [h2, ← div_eq_inv_mul, le_div_iff₀ hv'] at h1
  calc b / (d + 1 : ℝ) * Real.sqrt (∑ l, v l ^ 2) ≤ b / (d + 1 : ℝ) * ((d + 1 : ℝ) * ‖v‖) :=
        mul_le_mul_of_nonneg_left (length_le_norm v) (by positivity)
    _ = b * ‖v‖ := by field_simp
    _ ≤ _ := h1

/-- Derivatives of scaled displacements with respect to the parameter. -/
theorem scaled_deriv (isotropic : Bool) {isoK : ℝ → ℝ} {A : ℝ → Fin d → Fin d → ℝ} (pK : Par I isoK)
    (pA : ∀ l l', Par I fun θ => A θ l l') :
    ∃ C, 0 ≤ C ∧ ∀ θ ∈ I, ∀ (u : Fin d → ℝ) (l' : Fin d) (v : ℝ),
      HasDerivAt (fun τ => scaledBy isotropic (isoK τ) (A τ) u l') v θ →
      |v| ≤ C * Real.sqrt (∑ l, u l ^ 2) := by
  obtain ⟨k', hk, Ck, hCk⟩ := pK
  choose a' ha Ca hCa using pA
  have hs : 0 ≤ ∑ l, ∑ l', |Ca l l'| :=
    Finset.sum_nonneg fun l _ => Finset.sum_nonneg fun l' _ => abs_nonneg _
  have hu : ∀ (u : Fin d → ℝ) l, |u l| ≤ Real.sqrt (∑ l, u l ^ 2) := fun u l =>
    Real.abs_le_sqrt (Finset.single_le_sum (f := fun l => u l ^ 2) (fun _ _ => sq_nonneg _)
      (Finset.mem_univ l))
  refine ⟨|Ck| + ∑ l, ∑ l', |Ca l l'|, by positivity, fun θ hθ u l' v hv => ?_⟩
  have hr : 0 ≤ Real.sqrt (∑ l, u l ^ 2) := Real.sqrt_nonneg _
  unfold scaledBy at hv
  split at hv
  · rw [hv.unique ((hk θ hθ).mul_const _), abs_mul]
    exact mul_le_mul (((hCk θ hθ).2.trans (le_abs_self _)).trans (by linarith)) (hu u l')
      (abs_nonneg _) (by positivity)
  · rw [hv.unique (HasDerivAt.fun_sum fun l _ => (ha l l' θ hθ).const_mul (u l))]
    refine (Finset.abs_sum_le_sum_abs _ _).trans ?_
    have h1 : ∑ l, |u l * a' l l' θ| ≤ ∑ l, |Ca l l'| * Real.sqrt (∑ l, u l ^ 2) :=
      Finset.sum_le_sum fun l _ => by
        rw [abs_mul, mul_comm]
        exact mul_le_mul ((hCa l l' θ hθ).2.trans (le_abs_self _)) (hu u l) (abs_nonneg _)
          (abs_nonneg _)
    refine h1.trans ?_
    rw [← Finset.sum_mul]
    refine mul_le_mul_of_nonneg_right ?_ hr
    have h2 : ∑ l, |Ca l l'| ≤ ∑ l, ∑ l', |Ca l l'| := Finset.sum_le_sum fun l _ =>
      Finset.single_le_sum (f := fun l' => |Ca l l'|) (fun _ _ => abs_nonneg _) (Finset.mem_univ l')
    linarith [abs_nonneg Ck]

/-- The weight of one electron. -/
noncomputable def electronWeight {N : ℕ} (α : ℝ) (e : Fin N) (x : Pt N d) : ℝ :=
  Real.exp (-(α * ‖x.2 e‖))

theorem electronWeight_nonneg {N : ℕ} (α : ℝ) (e : Fin N) :
    ∀ x : Pt N d, Ok I R x → 0 ≤ electronWeight α e x := fun _ _ => (Real.exp_pos _).le

theorem electronWeight_mono {N : ℕ} {α β : ℝ} (h : β ≤ α) (e : Fin N) (x : Pt N d) :
    electronWeight α e x ≤ electronWeight β e x :=
  Real.exp_le_exp.mpr (neg_le_neg (mul_le_mul_of_nonneg_right h (norm_nonneg _)))

/-- Finitely many positive rates have a positive lower bound. -/
theorem exists_common {ι : Type*} [Finite ι] (α : ι → ℝ) (h : ∀ a, 0 < α a) :
    ∃ β, 0 < β ∧ ∀ a, β ≤ α a := by
  cases isEmpty_or_nonempty ι with
  | inl h' => exact ⟨1, one_pos, fun a => h'.elim a⟩
  | inr h' =>
    obtain ⟨a, ha⟩ := Finite.exists_min α
    exact ⟨α a, h a, ha⟩

theorem envelope_tame (hI : IsCompact I) (isotropic : Bool) (softening : ℝ) {isoK : ℝ → ℝ}
    {anisoK : ℝ → Fin nion → Fin d → Fin d → ℝ} {ionK : ℝ → Fin nion → ℝ} (pK : Par I isoK)
    (pA : ∀ j l l', Par I fun θ => anisoK θ j l l') (pion : ∀ j, Par I fun θ => ionK θ j)
    (h : ∀ θ ∈ I, EnvelopeDecays isotropic (isoK θ) (anisoK θ)) :
    ∃ α, 0 < α ∧ ∀ (i : Fin (∑ s, n s)) l (e : Elec n),
      Tame I R i l (electronWeight α (finSigmaFinEquiv e)) fun q =>
        envelopeValue isotropic softening (isoK q.1) (anisoK q.1) (ionK q.1) R
          (splitPositions q.2 e) := by
  have hlow : ∀ j, ∃ c, 0 < c ∧ ∀ θ ∈ I, ∀ v : Fin d → ℝ, c * Real.sqrt (∑ l, v l ^ 2) ≤
      Real.sqrt (∑ l', scaledBy isotropic (isoK θ) (anisoK θ j) v l' ^ 2) := fun j =>
    scaled_lower hI isotropic pK.continuousOn (fun l l' => (pA j l l').continuousOn) fun θ hθ => by
      have h := h θ hθ
      unfold EnvelopeDecays at h
      split at h
      · rwa [if_pos (by assumption)]
      · rw [if_neg (by assumption)]
        exact h j
  choose c hc hlow using hlow
  obtain ⟨α, hα, hle⟩ := exists_common c hc
  refine ⟨α, hα, fun i l e => ?_⟩
  have hw := electronWeight_nonneg (I := I) (R := R) α (finSigmaFinEquiv e)
  unfold envelopeValue
  refine Tame.sum hw fun j _ => Tame.par_mul hw (pion j) ?_
  have hsc : ∀ (q : Pt (∑ s, n s) d) (l' : Fin d),
      (if isotropic = true then isoK q.1 * (splitPositions q.2 e l' - R j l')
        else ∑ l, (splitPositions q.2 e l - R j l) * anisoK q.1 j l l') =
      scaledBy isotropic (isoK q.1) (anisoK q.1 j)
        (fun l => splitPositions (n := n) q.2 e l - R j l) l' :=
    fun q l' => rfl
  simp only [hsc]
  -- lengths from below
  have hlen : ∀ q : Pt (∑ s, n s) d, Ok I R q →
      c j * softDist 0 (q.2 (finSigmaFinEquiv e)) (R j) ≤
      Real.sqrt (softening ^ 2 + ∑ l', scaledBy isotropic (isoK q.1) (anisoK q.1 j)
        (fun l => splitPositions (n := n) q.2 e l - R j l) l' ^ 2) := by
    intro q hq
    refine (le_of_eq ?_).trans ((hlow j q.1 hq.1 fun l => splitPositions (n := n) q.2 e l - R j l).trans
      (Real.sqrt_le_sqrt (by nlinarith [sq_nonneg softening])))
    rw [softDist_eq]
    simp [splitPositions]
  have hpos : ∀ q : Pt (∑ s, n s) d, Ok I R q →
      0 < softDist 0 (q.2 (finSigmaFinEquiv e)) (R j) := fun q hq => by
    rw [softDist_eq]
    have := sum_sq_pos (hq.2.2 (finSigmaFinEquiv e) j)
    exact Real.sqrt_pos.mpr (by positivity)
  have htame : Tame I R i l (fun _ => 1) fun q => Real.sqrt (softening ^ 2 + ∑ l',
      scaledBy isotropic (isoK q.1) (anisoK q.1 j)
        (fun l => splitPositions (n := n) q.2 e l - R j l) l' ^ 2) := by
    let ind : Fin d → ℝ := fun l' => if finSigmaFinEquiv e = i ∧ l' = l then 1 else 0
    have hpar : ∀ l', Par I fun θ => scaledBy isotropic (isoK θ) (anisoK θ j) ind l' := fun l' => by
      unfold scaledBy
      split
      · exact pK.mul (.const _)
      · exact Par.sum fun l'' _ => (Par.const _).mul (pA j l'' l')
    obtain ⟨C, hC, hd⟩ := scaled_deriv isotropic pK (pA j)
    refine Tame.length softening (1 / c j) (C / c j) (one_div_nonneg.mpr (hc j).le)
      (b := fun θ => scaledBy isotropic (isoK θ) (anisoK θ j) ind) (fun θ q t l' => ?_)
      hpar (fun l' => ?_) (fun q hq => ?_) (fun q hq => ?_) fun q hq l' v hv => ?_
    · rw [← scaled_add]
      congr 1
      funext l''
      simp only [splitPositions, shift_entry, ind]
      ring
    · unfold scaledBy
      split
      · exact ((split_coord_tame e l').sub one_nonneg (Tame.const _)).par_mul one_nonneg pK
      · exact Tame.sum one_nonneg fun l'' _ => ((split_coord_tame e l'').sub one_nonneg
          (Tame.const _)).mul_par one_nonneg (pA j l'' l')
    · have h1 := hlen q hq
      have h2 := mul_pos (hc j) (hpos q hq)
      exact Real.sqrt_pos.mp (h2.trans_le h1)
    · have h1 := hlen q hq
      have h2 := mul_pos (hc j) (hpos q hq)
      refine (one_div_le_one_div_of_le h2 h1).trans ?_
      rw [← one_div_mul_one_div_rev, mul_comm]
      exact mul_le_mul_of_nonneg_left (ion_le_sing R q.2 (finSigmaFinEquiv e) j)
        (one_div_nonneg.mpr (hc j).le)
    · have h1 := hlen q hq
      refine (hd q.1 hq.1 (fun l => splitPositions (n := n) q.2 e l - R j l) l' v hv).trans ?_
      have h2 : Real.sqrt (∑ l, (splitPositions (n := n) q.2 e l - R j l) ^ 2) =
          softDist 0 (q.2 (finSigmaFinEquiv e)) (R j) := by
        rw [softDist_eq]
        simp [splitPositions]
      rw [h2, div_mul_eq_mul_div, le_div_iff₀ (hc j)]
      nlinarith [mul_le_mul_of_nonneg_left h1 hC]
  refine Tame.exp (Real.exp (softening + α * ‖R j‖)) (Real.exp_pos _).le
    ((Tame.const softening).sub one_nonneg htame) fun q hq => ?_
  unfold electronWeight
  rw [← Real.exp_add, Real.exp_le_exp]
  have h1 := hlen q hq
  have h2 : ‖q.2 (finSigmaFinEquiv e)‖ - ‖R j‖ ≤ softDist 0 (q.2 (finSigmaFinEquiv e)) (R j) := by
    refine (norm_sub_norm_le _ _).trans ?_
    have := norm_le_length (q.2 (finSigmaFinEquiv e) - R j)
    rw [softDist_eq]
    simpa using this
  have h3 := mul_le_mul_of_nonneg_right (hle j) (hpos q hq).le
  have h4 := mul_le_mul_of_nonneg_left h2 hα.le
  rw [mul_sub] at h4
  linarith

/-! ### Orbitals and determinants -/

theorem orbital_tame (hI : IsCompact I) {m : ℕ} {norb : Fin (K + 1) → ℕ} (useBias : Bool)
    {isotropic : Bool} (softening : ℝ) {L : ℝ → OrbitalLayer (K + 1) m nion d norb}
    (hL : OrbitalEntries (Par I) L) (hr : ∀ θ ∈ I, LayerDecays isotropic (L θ))
    {z : Pt (∑ s, n s) d → Stream1 n m}
    (hz : ∀ i l e a, Tame I R i l (fun _ => 1) fun q => z q e a) :
    ∃ α, 0 < α ∧ ∀ i l s (b : Fin (n s)) (o : Fin (norb s)),
      Tame I R i l (electronWeight α (finSigmaFinEquiv ⟨s, b⟩)) fun q =>
        orbitalValue useBias isotropic softening (L q.1) R (splitPositions q.2) (z q) s b o := by
  choose α hα h using fun so : Σ s, Fin (norb s) => envelope_tame (n := n) (R := R) hI isotropic
    softening (hL.isoKernel so.1 so.2) (fun j l l' => hL.anisoKernel so.1 j l l' so.2)
    (hL.ionKernel so.1 so.2) fun θ hθ => hr θ hθ so.1 so.2
  obtain ⟨β, hβ, hle⟩ := exists_common α hα
  refine ⟨β, hβ, fun i l s b o => ?_⟩
  unfold orbitalValue
  refine Tame.one_mul (electronWeight_nonneg _ _) ?_ ((h ⟨s, o⟩ i l ⟨s, b⟩).mono fun x _ =>
    electronWeight_mono (hle _) _ x)
  refine (Tame.sum one_nonneg fun a _ => (hz i l _ a).par_mul one_nonneg (hL.kernel s a o)).add
    one_nonneg ?_
  split
  · exact Tame.par (hL.bias s o)
  · exact Tame.const 0

/-- The weight of all electrons of a species. -/
noncomputable def speciesWeight (α : ℝ) (s : Fin (K + 1)) (x : Pt (∑ s, n s) d) : ℝ :=
  ∏ b : Fin (n s), electronWeight α (finSigmaFinEquiv ⟨s, b⟩) x

/-- The weight of all electrons. -/
noncomputable def totalWeight {N : ℕ} (α : ℝ) (x : Pt N d) : ℝ :=
  Real.exp (-(α * ∑ e, ‖x.2 e‖))

theorem totalWeight_eq {N : ℕ} (α : ℝ) (x : Pt N d) :
    totalWeight α x = ∏ e, electronWeight α e x := by
  unfold totalWeight electronWeight
  rw [← Real.exp_sum, Finset.sum_neg_distrib, Finset.mul_sum]

theorem prod_speciesWeight (α : ℝ) (x : Pt (∑ s, n s) d) :
    ∏ s, speciesWeight α s x = totalWeight α x := by
  rw [totalWeight_eq, ← finSigmaFinEquiv.prod_comp, Fintype.prod_sigma]
  rfl

theorem speciesWeight_pos (α : ℝ) (s : Fin (K + 1)) (x : Pt (∑ s, n s) d) :
    0 < speciesWeight α s x := Finset.prod_pos fun _ _ => Real.exp_pos _

theorem speciesWeight_nonneg (α : ℝ) (s : Fin (K + 1)) :
    ∀ x : Pt (∑ s, n s) d, Ok I R x → 0 ≤ speciesWeight α s x :=
  fun x _ => (speciesWeight_pos α s x).le

theorem totalWeight_nonneg {N : ℕ} (α : ℝ) :
    ∀ x : Pt N d, Ok I R x → 0 ≤ totalWeight α x := fun _ _ => (Real.exp_pos _).le

theorem totalWeight_le_one {N : ℕ} {α : ℝ} (h : 0 ≤ α) (x : Pt N d) : totalWeight α x ≤ 1 := by
  unfold totalWeight
  rw [Real.exp_le_one_iff, neg_nonpos]
  exact mul_nonneg h (Finset.sum_nonneg fun _ _ => norm_nonneg _)

theorem speciesWeight_le_one {α : ℝ} (h : 0 ≤ α) (s : Fin (K + 1))
    (x : Pt (∑ s, n s) d) : speciesWeight α s x ≤ 1 :=
  Finset.prod_le_one (fun _ _ => (Real.exp_pos _).le) fun b _ => by
    unfold electronWeight
    rw [Real.exp_le_one_iff, neg_nonpos]
    exact mul_nonneg h (norm_nonneg _)

theorem totalWeight_mono {N : ℕ} {α β : ℝ} (h : β ≤ α) (x : Pt N d) :
    totalWeight α x ≤ totalWeight β x :=
  Real.exp_le_exp.mpr (neg_le_neg (mul_le_mul_of_nonneg_right h
    (Finset.sum_nonneg fun _ _ => norm_nonneg _)))

end Verif.Props
