import Verif.Props.DecayDets
import Verif.Lemmas.Bounds
import Mathlib.Analysis.Calculus.Deriv.Abs

/-!
C88: configured wave functions decay exponentially, together with their derivatives.
-/

namespace Verif.Props
open Verif.Construct Verif.Net Verif.Spec Verif.Slog Verif.Decay

variable {K nion d : ℕ} {n : Fin (K + 1) → ℕ} {I : Set ℝ} {R : Fin nion → Fin d → ℝ}

/-! ### Hidden fermions -/

theorem invariant_tame {N : ℕ} {i : Fin N} {l : Fin d} {m : ℕ} {rows cols : Fin (K + 1) → ℕ}
    (useBias : Bool) {J : ℝ → InvariantDense (K + 1) m rows cols}
    (hJ : InvariantEntries (Par I) J)
    {z : Pt N d → Stream1 n m} (hz : ∀ e a, Tame I R i l (fun _ => 1) fun q => z q e a)
    (s : Fin (K + 1)) (a : Fin (rows s)) (b : Fin (cols s)) :
    Tame I R i l (fun _ => 1) fun q => invariantValue useBias (J q.1) (z q) s a b :=
  (Tame.sum one_nonneg fun a' _ => (mean_tame one_nonneg hz _ _).par_mul one_nonneg
    (hJ.kernel s a' (blockEntry a b))).add one_nonneg (by
      split
      · exact Tame.par (hJ.bias s (blockEntry a b))
      · exact Tame.const 0)

theorem row_features_family_tame {c : ModelCfg} {P : ℝ → Params (K + 1) nion d} (hP : Entries (Par I) P)
    {Q : Pt (∑ s, n s) d → ∀ m m', Stream1 n m → Stream1 n m' → Prop}
    (hQ : ∀ q, ∃ m m', ∃ z : Stream1 n m, ∃ y : Stream1 n m',
      Features c.inputStreams c.backflow (P q.1).backflow R (splitPositions q.2) z ∧
      RowFeatures c (P q.1) R (splitPositions q.2) z y ∧ Q q m m' z y) :
    ∃ m m', ∃ z : Pt (∑ s, n s) d → Stream1 n m,
      ∃ y : Pt (∑ s, n s) d → Stream1 n m',
      (∀ i l e a, Tame I R i l (fun _ => 1) fun q => z q e a) ∧
      (∀ i l e a, Tame I R i l (fun _ => 1) fun q => y q e a) ∧ ∀ q, Q q m m' (z q) (y q) := by
  cases hs : c.useSeparateInvarianceBackflow with
  | true =>
    obtain ⟨m, z, -, hz, hQ⟩ := features_family_tame hP.backflow (Q := fun q m z => ∃ m', ∃ y : Stream1 n m',
      Features c.inputStreams c.invariance.backflow (P q.1).invBackflow R (splitPositions q.2) y ∧
        Q q m m' z y)
      fun q => by
        obtain ⟨m, m', z, y, h1, h2, h3⟩ := hQ q
        rw [RowFeatures, if_pos hs] at h2
        exact ⟨m, z, h1, m', y, h2, h3⟩
    obtain ⟨m', y, -, hy, hQ⟩ := features_family_tame hP.invBackflow hQ
    exact ⟨m, m', z, y, hz, hy, hQ⟩
  | false =>
    obtain ⟨m, z, -, hz, hQ⟩ := features_family_tame hP.backflow (Q := fun q m z => Q q m m z z) fun q => by
      obtain ⟨m, m', z, y, h1, h2, h3⟩ := hQ q
      rw [RowFeatures, if_neg (by simp [hs])] at h2
      obtain ⟨rfl, h2⟩ := h2
      obtain rfl : y = z := funext fun e => funext fun j => h2 e j
      exact ⟨_, _, h1, h3⟩
    exact ⟨m, m, z, z, hz, hz, hQ⟩

/-- The weight of a row of an extended matrix: that of the electron, or 1 for a hidden row. -/
noncomputable def rowWeight {h : Fin (K + 1) → ℕ} (α : ℝ) (s : Fin (K + 1)) (b : Fin (n s + h s))
    (x : Pt (∑ s, n s) d) : ℝ :=
  if hb : b.val < n s then electronWeight α (finSigmaFinEquiv ⟨s, ⟨b, hb⟩⟩) x else 1

theorem rowWeight_nonneg {h : Fin (K + 1) → ℕ} (α : ℝ) (s : Fin (K + 1)) (b : Fin (n s + h s))
    (x : Pt (∑ s, n s) d) (_ : Ok I R x) : 0 ≤ rowWeight α s b x := by
  unfold rowWeight
  split
  · exact (Real.exp_pos _).le
  · exact zero_le_one

theorem prod_rowWeight {h : Fin (K + 1) → ℕ} (α : ℝ) (s : Fin (K + 1))
    (x : Pt (∑ s, n s) d) :
    ∏ b : Fin (n s + h s), rowWeight α s b x = speciesWeight α s x := by
  rw [Fin.prod_univ_add]
  simp [rowWeight, speciesWeight]

theorem extended_rows_tame (hI : IsCompact I) {c : ModelCfg} {P : ℝ → Params (K + 1) nion d}
    (hP : Entries (Par I) P) {m m' : ℕ}
    {z : Pt (∑ s, n s) d → Stream1 n m}
    {y : Pt (∑ s, n s) d → Stream1 n m'} {norb : Fin (K + 1) → ℕ}
    (hr : ∀ θ ∈ I, LayerDecays c.isotropicDecay ((P θ).orbitals m fun s => c.ndeterminants * norb s))
    (hz : ∀ i l e a, Tame I R i l (fun _ => 1) fun q => z q e a)
    (hy : ∀ i l e a, Tame I R i l (fun _ => 1) fun q => y q e a) :
    ∃ α, 0 < α ∧ ∀ (o : Fin c.ndeterminants) (s : Fin (K + 1))
      (Q : Pt (∑ s, n s) d → Fin (n s + hiddenCount K c s) → Fin (norb s) → ℝ),
      (∀ q, ExtendedRows c (P q.1) R (splitPositions q.2) (z q) (y q) norb o s (Q q)) →
      ∀ i l b a, Tame I R i l (rowWeight α s b) fun q => Q q b a := by
  obtain ⟨α, hα, ho⟩ := orbital_tame hI c.orbitalsUseBias c.envelopeSoftening
    (hP.orbitals m fun s => c.ndeterminants * norb s) hr hz
  refine ⟨α, hα, fun o s Q hQ i l b a => ?_⟩
  obtain ⟨a', ha⟩ | ⟨a', ha⟩ := visible_or_hidden b
  · simp only [fun q => (hQ q).visible a' b ha a]
    have hb : b.val < n s := by have := a'.2; omega
    have e : rowWeight α s b = electronWeight (d := d) α (finSigmaFinEquiv ⟨s, a'⟩) := by
      funext x
      unfold rowWeight
      rw [dif_pos hb]
      congr 3
      exact Fin.ext ha
    rw [e]
    exact ho i l s a' _
  · simp only [fun q => (hQ q).hidden a' b ha a]
    have e : rowWeight (h := hiddenCount K c) α s b = fun _ : Pt (∑ s, n s) d => 1 := by
      funext x
      unfold rowWeight
      rw [dif_neg (by omega)]
    rw [e]
    exact invariant_tame _ (hP.invariance m' (hiddenCount K c) fun s => c.ndeterminants * norb s)
      (hy i l) s a' _

theorem extended_dets_tame (hI : IsCompact I) {c : ModelCfg} {P : ℝ → Params (K + 1) nion d}
    (hP : Entries (Par I) P)
    (hr : ∀ θ ∈ I, ∀ m norb, LayerDecays c.isotropicDecay ((P θ).orbitals m norb)) {N : ℕ}
    {D : Pt (∑ s, n s) d → Fin (N + 1) → Fin c.ndeterminants → ℝ}
    (hD : ∀ q, ExtendedDets c (P q.1) R (splitPositions q.2) (D q)) :
    ∃ α, 0 < α ∧ ∃ w : Fin (N + 1) → Pt (∑ s, n s) d → ℝ,
      (∀ s x, 0 < w s x) ∧ (∀ s x, w s x ≤ 1) ∧ (∀ x, ∏ s, w s x ≤ totalWeight α x) ∧
      ∀ i l s o, Tame I R i l (w s) fun q => D q s o := by
  cases hf : c.fullDet with
  | false =>
    obtain ⟨m, m', z, y, hz, hy, hM⟩ := row_features_family_tame hP fun q => by
      obtain ⟨-, m, m', z, y, h1, h2, h3⟩ | ⟨h, -⟩ := extended_dets_inv (hD q)
      · exact ⟨m, m', z, y, h1, h2, h3⟩
      · rw [hf] at h; cases h
    choose M hM hDM using hM
    obtain rfl : N = K := congrArg Sigma.fst (hDM 0)
    have : ∀ q, D q = _ := fun q => eq_of_heq (Sigma.mk.inj (hDM q)).2
    obtain ⟨α, hα, ho⟩ := extended_rows_tame (norb := fun s => n s + hiddenCount _ c s) hI hP
      (fun θ hθ => hr θ hθ m _) hz hy
    refine ⟨α, hα, speciesWeight α, speciesWeight_pos α, speciesWeight_le_one hα.le,
      fun x => (prod_speciesWeight α x).le, fun i l s o => ?_⟩
    simp only [this]
    exact (Tame.det (rowWeight_nonneg α s) fun a b => ho o s _ (fun q => hM q o s) i l a b).mono
      fun x _ => (prod_rowWeight α s x).le
  | true =>
    obtain ⟨m, m', z, y, hz, hy, hM⟩ := row_features_family_tame hP fun q => by
      obtain ⟨h, -⟩ | ⟨-, m, m', z, y, h1, h2, h3⟩ := extended_dets_inv (hD q)
      · rw [hf] at h; cases h
      · exact ⟨m, m', z, y, h1, h2, h3⟩
    choose Q M hQ hM hDM using hM
    obtain rfl : N = 0 := congrArg Sigma.fst (hDM 0)
    have : ∀ q, D q = _ := fun q => eq_of_heq (Sigma.mk.inj (hDM q)).2
    obtain ⟨α, hα, ho⟩ := extended_rows_tame (norb := fun _ => ∑ s, (n s + hiddenCount K c s)) hI hP
      (fun θ hθ => hr θ hθ m _) hz hy
    refine ⟨α, hα, fun _ => totalWeight α, fun _ _ => Real.exp_pos _,
      fun _ => totalWeight_le_one hα.le, fun x => by simp, fun i l s o => ?_⟩
    simp only [this]
    let W : (Σ s, Fin (n s + hiddenCount K c s)) → Pt (∑ s, n s) d → ℝ :=
      fun p => rowWeight α p.1 p.2
    refine (Tame.det (w := fun a => W (finSigmaFinEquiv.symm a))
      (fun a => rowWeight_nonneg α _ _) fun a b => ?_).mono fun x _ => ?_
    · obtain ⟨⟨s', a'⟩, hb⟩ := finSigmaFinEquiv.surjective a
      have ha : ∀ q, M q o a = _ := fun q => hM q o s' a' a (by
        rw [← hb, finSigmaFinEquiv_apply]
        rfl)
      simp only [ha]
      rw [← hb, Equiv.symm_apply_apply]
      exact ho o s' _ (fun q => hQ q o s') i l a' b
    · rw [Equiv.prod_comp finSigmaFinEquiv.symm fun p => W p x, Fintype.prod_sigma,
        ← prod_speciesWeight]
      exact (Finset.prod_congr rfl fun s _ => prod_rowWeight α s x).le

theorem extended_tame (hI : IsCompact I) {c : ModelCfg} {P : ℝ → Params (K + 1) nion d}
    (hP : Entries (Par I) P)
    (hr : ∀ θ ∈ I, ∀ m norb, LayerDecays c.isotropicDecay ((P θ).orbitals m norb))
    {Q : ℝ → ResNetParams} (hQ : ResNetEntries (Par I) Q)
    {r : Pt (∑ s, n s) d → ℝ}
    (hD : ∀ q, ∃ N, ∃ D : Fin (N + 1) → Fin c.ndeterminants → ℝ,
      ExtendedDets c (P q.1) R (splitPositions q.2) D ∧ Combined c (Q q.1) D (r q)) :
    ∃ β, 0 < β ∧ ∀ i l, Tame I R i l (totalWeight β) r := by
  have : ∀ q, ∃ D : Fin ((if c.fullDet = true then 0 else K) + 1) → Fin c.ndeterminants → ℝ,
      ExtendedDets c (P q.1) R (splitPositions q.2) D ∧ Combined c (Q q.1) D (r q) := by
    intro q
    obtain ⟨N, D, h1, h2⟩ := hD q
    obtain rfl := extended_dets_size h1
    exact ⟨D, h1, h2⟩
  choose D h1 h2 using this
  obtain ⟨α, hα, w, hw, hw1, hp, hT⟩ := extended_dets_tame hI hP hr h1
  exact combined_tame hQ h2 hα hw hw1 hp hT

/-! ### Antiequivariance networks -/

theorem anti_value_tame (hI : IsCompact I) {c : ModelCfg} {P : ℝ → Params (K + 1) nion d}
    (hP : Entries (Par I) P) (hr : ∀ θ ∈ I, AntiDecays c (P θ) n) {m : ℕ}
    {z : Pt (∑ s, n s) d → Stream1 n m}
    (hz : ∀ i l e a, Tame I R i l (fun _ => 1) fun q => z q e a) :
    ∃ α, 0 < α ∧ ∀ i l s b, Tame I R i l (speciesWeight α s) fun q =>
      antiValue c (P q.1) R (splitPositions q.2) (z q) s b := by
  unfold antiValue
  unfold AntiDecays at hr
  split
  · rename_i ht
    simp only [if_pos ht] at hr
    have hD := hP.doubly m n
    choose α hα h using fun so : Σ s, Fin (n s) => envelope_tame (n := n) (R := R) hI
      c.isotropicDecay 0 (hD.envelopes.isoKernel so.1 so.2)
      (fun j l l' => hD.envelopes.anisoKernel so.1 j l l' so.2) (hD.envelopes.ionKernel so.1 so.2)
      fun θ hθ => hr θ hθ m so.1 so.2
    obtain ⟨β, hβ, hle⟩ := exists_common α hα
    refine ⟨β, hβ, fun i l s b => Tame.det (fun a => electronWeight_nonneg _ _) fun a o => ?_⟩
    refine Tame.one_mul (electronWeight_nonneg _ _) ?_ ((h ⟨s, o⟩ i l ⟨s, a⟩).mono fun x _ =>
      electronWeight_mono (hle _) _ x)
    refine ((Tame.sum one_nonneg fun a' _ => (hz i l _ _).par_mul one_nonneg
      (hD.kernel s (.inl a') o)).add one_nonneg (Tame.sum one_nonneg fun a' _ =>
        (hz i l _ _).par_mul one_nonneg (hD.kernel s (.inr a') o))).add one_nonneg ?_
    split
    · exact Tame.par (hD.bias s o)
    · exact Tame.const 0
  · rename_i ht
    simp only [if_neg ht] at hr
    obtain ⟨α, hα, ho⟩ := orbital_tame hI c.isotropicDecay
      (if c.orbitalsUseBias = true then 1 else 0) (hP.orbitals m n) (fun θ hθ => hr θ hθ m) hz
    refine ⟨α, hα, fun i l s b => Tame.det (fun a => electronWeight_nonneg _ _) fun a o => ?_⟩
    simp only [Matrix.of_apply]
    split
    · exact Tame.zero
    · exact ho i l s a o

theorem paired_tame {c : ModelCfg} {P : ℝ → Params (K + 1) nion d} (hP : Entries (Par I) P) {m : ℕ}
    {a : Pt (∑ s, n s) d → Stream1 n m} {r : Pt (∑ s, n s) d → ℝ}
    (h : ∀ q, Paired c (P q.1) (a q) (r q))
    (hc : c.useProductsCovariance = false → c.invarianceBackflow.useTransformer = false) {α : ℝ}
    (hα : 0 < α) (ha : ∀ i l e j, Tame I R i l (speciesWeight α e.1) fun q => a q e j) :
    ∃ β, 0 < β ∧ ∀ i l, Tame I R i l (totalWeight β) r := by
  have hw := fun s => speciesWeight_nonneg (I := I) (R := R) (n := n) α s
  have ht : ∀ hK : K = 1, ∀ x : Pt (∑ s, n s) d,
      speciesWeight α ⟨0, by omega⟩ x * speciesWeight α ⟨1, by omega⟩ x ≤ totalWeight α x := by
    intro hK x
    subst hK
    rw [← prod_speciesWeight, Fin.prod_univ_two]
    exact le_rfl
  cases hu : c.useProductsCovariance with
  | true =>
    cases hwt : c.productsUseWeights with
    | false =>
      obtain ⟨hK, -, -, -⟩ | ⟨-, -, h, -⟩ | ⟨h, -⟩ := paired_inv (h 0)
      · have : r = fun q => ∑ i, ∑ j, ∑ k, a q ⟨⟨0, by omega⟩, i⟩ k * a q ⟨⟨1, by omega⟩, j⟩ k :=
          funext fun q => by
            obtain ⟨_, -, -, h⟩ | ⟨-, -, h, -⟩ | ⟨h, -⟩ := paired_inv (h q)
            · exact h
            · rw [hwt] at h; cases h
            · rw [hu] at h; cases h
        rw [this]
        have hT := totalWeight_nonneg (I := I) (R := R) (N := ∑ s, n s) α
        exact ⟨α, hα, fun i l => Tame.sum hT fun b _ => Tame.sum hT fun b' _ => Tame.sum hT fun j _ =>
          ((ha i l _ j).mul (hw _) (hw _) (ha i l _ j)).mono fun x _ => ht hK x⟩
      · rw [hwt] at h; cases h
      · rw [hu] at h; cases h
    | true =>
      obtain ⟨-, -, h, -⟩ | ⟨hK, -, -, -⟩ | ⟨h, -⟩ := paired_inv (h 0)
      · rw [hwt] at h; cases h
      · have : r = fun q => ∑ i : Fin (n ⟨0, by omega⟩), ∑ j : Fin (n ⟨1, by omega⟩),
            (∑ k, a q ⟨⟨0, by omega⟩, i⟩ k * a q ⟨⟨1, by omega⟩, j⟩ k) *
            (P q.1).productsKernel i.val j.val := funext fun q => by
          obtain ⟨-, -, h, -⟩ | ⟨_, -, -, h⟩ | ⟨h, -⟩ := paired_inv (h q)
          · rw [hwt] at h; cases h
          · exact h
          · rw [hu] at h; cases h
        rw [this]
        have hT := totalWeight_nonneg (I := I) (R := R) (N := ∑ s, n s) α
        exact ⟨α, hα, fun i l => Tame.sum hT fun b _ => Tame.sum hT fun b' _ => Tame.mul_one hT
          (Tame.sum hT fun j _ => ((ha i l _ j).mul (hw _) (hw _) (ha i l _ j)).mono
            fun x _ => ht hK x) (Tame.par (hP.productsKernel b.val b'.val))⟩
      · rw [hu] at h; cases h
  | false =>
    have : ∀ q, ∃ B : (Fin (K + 1) → ℝ) →
        Stream1 n (featureWidth c.invarianceBackflow.ndenseList m),
        (∀ e, BackflowValue c.invarianceBackflow (P q.1).covBackflow 0 c.invarianceBackflow.ndenseList
          (fun i k => e i.1 * a q i k) (none : Option (Stream2 n 0)) (B e)) ∧
        r q = sumOverSigns (K + 1) fun e => (∏ s, e s) * ∑ i, ∑ k, B e i k := by
      intro q
      obtain ⟨-, h, -, -⟩ | ⟨-, h, -, -⟩ | ⟨-, m', B, h1, h2⟩ := paired_inv (h q)
      · rw [hu] at h; cases h
      · rw [hu] at h; cases h
      · obtain rfl := backflow_width (h1 0)
        exact ⟨B, h1, h2⟩
    choose B hB hr using this
    rw [funext hr]
    refine ⟨α / (K + 1 : ℕ), by positivity, fun i l => Tame.least (w := speciesWeight α)
      (totalWeight_nonneg _) (fun s => odd_sum_tame (hw s) s
        (F := fun e q => ∑ i, ∑ k, B q e i k) fun e => ?_)
      fun x _ => exists_weight_le (fun x => (prod_speciesWeight α x).le) x⟩
    have ha1 : ∀ e j, Tame I R i l (fun _ => 1) fun q => a q e j := fun e j =>
      (ha i l e j).mono fun x _ => speciesWeight_le_one hα.le _ x
    refine Near.sum (hw s) fun b _ => Near.sum (hw s) fun j _ => backflow_near (hw s)
      c.invarianceBackflow (hc hu) hP.covBackflow c.invarianceBackflow.ndenseList (b := 0) _ _ _ _
      (fun q => hB q (signsOf e)) (fun q => hB q (signsOf (flipAt s e))) (fun b' j' => ?_) b j
    refine ⟨(ha1 _ _).const_mul one_nonneg _, (ha1 _ _).const_mul one_nonneg _, ?_⟩
    simp only [signs_flip]
    by_cases hb : b'.1 = s
    · simp only [if_pos hb]
      have := (ha i l b' j').const_mul (hw _) (2 * signsOf e b'.1)
      rw [hb] at this ⊢
      convert this using 2
      ring
    · simp only [if_neg hb, sub_self]
      exact Tame.zero

theorem antiequivariance_tame (hI : IsCompact I) {c : ModelCfg} {P : ℝ → Params (K + 1) nion d}
    (hP : Entries (Par I) P) (hr : ∀ θ ∈ I, AntiDecays c (P θ) n)
    (hc : c.useProductsCovariance = false → c.invarianceBackflow.useTransformer = false)
    {r : Pt (∑ s, n s) d → ℝ}
    (hQ : ∀ q, ∃ m m', ∃ z : Stream1 n m, ∃ a : Stream1 n m',
      Features c.inputStreams c.backflow (P q.1).backflow R (splitPositions q.2) z ∧
      AntiFeatures c z (antiValue c (P q.1) R (splitPositions q.2) z) a ∧ Paired c (P q.1) a (r q)) :
    ∃ β, 0 < β ∧ ∀ i l, Tame I R i l (totalWeight β) r := by
  obtain ⟨m, z, -, hz, hQ⟩ := features_family_tame hP.backflow (Q := fun q m z => ∃ m', ∃ a : Stream1 n m',
    AntiFeatures c z (antiValue c (P q.1) R (splitPositions q.2) z) a ∧ Paired c (P q.1) a (r q)) fun q => by
      obtain ⟨m, m', z, a, h1, h2⟩ := hQ q
      exact ⟨m, z, h1, m', a, h2⟩
  obtain ⟨α, hα, hv⟩ := anti_value_tame hI hP hr hz
  cases hm : c.multiplyByEqFeatures with
  | true =>
    refine paired_tame (c := c) hP
      (a := fun q e j => antiValue c (P q.1) R (splitPositions q.2) (z q) e.1 e.2 * z q e j)
      (fun q => ?_) hc hα fun i l e j => (hv i l _ _).mul_one (speciesWeight_nonneg α _) (hz i l _ _)
    obtain ⟨m', a, h1, h2⟩ := hQ q
    have h1 := anti_features_inv h1
    rw [if_pos hm] at h1
    cases h1
    exact h2
  | false =>
    refine paired_tame (c := c) hP
      (a := fun q e (_ : Fin 1) => antiValue c (P q.1) R (splitPositions q.2) (z q) e.1 e.2)
      (fun q => ?_) hc hα fun i l e j => hv i l _ _
    obtain ⟨m', a, h1, h2⟩ := hQ q
    have h1 := anti_features_inv h1
    rw [if_neg (by simp [hm])] at h1
    cases h1
    exact h2

/-! ### Explicit antisymmetrization -/

section explicit

variable {N : ℕ} {i : Fin N} {l : Fin d}

/-- A list of functions with bounded derivatives. -/
def TameList (I : Set ℝ) (R : Fin nion → Fin d → ℝ) (i : Fin N) (l : Fin d) (L : Pt N d → List ℝ) :
    Prop :=
  ∃ G : List (Pt N d → ℝ), (∀ g ∈ G, Tame I R i l (fun _ => 1) g) ∧
    ∀ q, L q = G.map fun g => g q

theorem tameList_flatten {M : ℕ} {L : Fin M → Pt N d → List ℝ}
    (h : ∀ b, TameList I R i l (L b)) : TameList I R i l fun q => (List.ofFn fun b => L b q).flatten := by
  choose G h1 h2 using h
  refine ⟨(List.ofFn G).flatten, ?_, fun q => ?_⟩
  · intro g hg
    obtain ⟨L', hL', hg⟩ := List.mem_flatten.mp hg
    obtain ⟨b, rfl⟩ := (List.mem_ofFn' _ _).mp hL'
    exact h1 b g hg
  · rw [List.map_flatten, List.map_ofFn]
    exact congrArg List.flatten (congrArg List.ofFn (funext fun b => h2 b q))

theorem reordered_tame {m : ℕ} {z : Pt N d → Stream1 n m}
    (hz : ∀ e a, Tame I R i l (fun _ => 1) fun q => z q e a) (s : Fin (K + 1))
    (σ : Equiv.Perm (Fin (n s))) : TameList I R i l fun q => reordered (z q) s σ := by
  refine tameList_flatten fun b => ⟨List.ofFn fun a q => z q ⟨s, σ b⟩ a, ?_, fun q => ?_⟩
  · intro g hg
    obtain ⟨a, rfl⟩ := (List.mem_ofFn' _ _).mp hg
    exact hz _ a
  · rw [List.map_ofFn]
    rfl

theorem antisym_resnet_tame (c : ModelCfg) {P : ℝ → Params (K + 1) nion d} (hP : Entries (Par I) P) (s r : ℕ)
    {L : Pt N d → List ℝ} (hL : TameList I R i l L) :
    Tame I R i l (fun _ => 1) fun q => antisymResnet c (P q.1) s r (L q) := by
  obtain ⟨G, h1, h2⟩ := hL
  unfold antisymResnet
  have : ∀ q, resnetValue c.activationFnResnet c.resnetUseBias c.ndenseResnet c.nlayersResnet
      ((P q.1).resnets s r) 1 (L q).get = resnetValue c.activationFnResnet c.resnetUseBias c.ndenseResnet
      c.nlayersResnet ((P q.1).resnets s r) 1 fun a : Fin G.length => G.get a q := fun q =>
    resnet_cast _ _ _ _ _ _ (by rw [h2]; simp) _ _ fun a => by
      have := h2 q
      simp only [List.get_eq_getElem, this, List.getElem_map]
      rfl
  simp only [this]
  exact resnet_tame _ _ _ _ (hP.resnets s r) _ (fun a => h1 _ (List.get_mem G a)) 0

theorem antisymmetrized_tame {c : ModelCfg} {P : ℝ → Params (K + 1) nion d} (hP : Entries (Par I) P)
    {m : ℕ}
    {z : Pt N d → Stream1 n m} (hz : ∀ e a, Tame I R i l (fun _ => 1) fun q => z q e a)
    {r : Pt N d → ℝ}
    (h : ∀ q, ∃ N, ∃ t : Fin N → ℝ, Antisymmetrized c (P q.1) (z q) t ∧ r q = ∑ i, t i) :
    Tame I R i l (fun _ => 1) r := by
  choose N' t h1 h2 using h
  have h' := fun q => antisymmetrized_inv (h1 q)
  rcases h' 0 with ⟨ht, -⟩ | ⟨ht, -⟩
  · rw [funext fun q => (h2 q).trans ((h' q).resolve_right fun h => by simp [ht] at h).2]
    refine Tame.sum one_nonneg fun r _ => ?_
    have := fun s : Fin (K + 1) => Tame.sum (s := Finset.univ) (w := fun _ => 1) one_nonneg
      fun (σ : Equiv.Perm (Fin (n s))) _ =>
        (antisym_resnet_tame c hP s.val r.val (reordered_tame hz s σ)).const_mul one_nonneg (sign σ)
    exact (Tame.prod (w := fun _ _ => 1) (fun _ => one_nonneg) fun s _ => this s).mono
      fun x _ => by simp
  · rw [funext fun q => (h2 q).trans ((h' q).resolve_left fun h => by simp [ht] at h).2]
    exact Tame.sum one_nonneg fun σ _ => (antisym_resnet_tame c hP 0 0
      (tameList_flatten fun s => reordered_tame hz s (σ s))).const_mul one_nonneg _

end explicit

theorem norm_sub_le_distance (a b : Fin d → ℝ) : ‖a - b‖ ≤ distance a b := by
  have := norm_le_length (a - b)
  simpa [distance] using this

theorem distance_le_norm (a b : Fin d → ℝ) : distance a b ≤ (d + 1 : ℝ) * ‖a - b‖ := by
  have := length_le_norm (a - b)
  simpa [distance] using this

/-! ### Jastrow factors which decay -/

theorem distance_eq_norm (a b : Fin d → ℝ) :
    distance a b = ‖WithLp.toLp 2 a - WithLp.toLp 2 b‖ := by
  rw [EuclideanSpace.norm_eq]
  simp [distance, sq_abs]

theorem norm_le_distance_zero (a : Fin d → ℝ) : ‖a‖ ≤ distance a 0 := by
  simpa [distance] using norm_le_length a

theorem one_body_bound (κ : ℝ) (h : 0 < nion) (x : Stream1 n d) :
    -(|κ| * ∑ e, ∑ j, distance (x e) (R j)) ≤
      -(|κ| * ∑ e, distance (x e) 0) + |κ| * ∑ _e : Elec n, distance (R ⟨0, h⟩) 0 := by
  have : ∑ e, distance (x e) 0 ≤ (∑ e, ∑ j, distance (x e) (R j)) +
      ∑ _e : Elec n, distance (R ⟨0, h⟩) 0 := by
    rw [← Finset.sum_add_distrib]
    refine Finset.sum_le_sum fun e _ => ?_
    have h1 := Finset.single_le_sum (f := fun j => distance (x e) (R j))
      (fun j _ => by rw [distance_eq_norm]; exact norm_nonneg _) (Finset.mem_univ ⟨0, h⟩)
    have h2 : distance (x e) 0 ≤ distance (x e) (R ⟨0, h⟩) + distance (R ⟨0, h⟩) 0 := by
      simp only [distance_eq_norm]
      exact norm_sub_le_norm_sub_add_norm_sub _ _ _
    linarith
  nlinarith [abs_nonneg κ]

theorem sum_pairs (N : ℕ) (f : Fin N → ℝ) :
    ∑ e, ∑ e', (if e = e' then 0 else f e + f e') = 2 * ((N - 1) * ∑ e, f e) := by
  have : ∀ e e' : Fin N, (if e = e' then 0 else f e + f e') =
      f e + f e' - if e = e' then 2 * f e else 0 := by
    intro e e'
    split
    · rename_i h
      subst h
      ring
    · ring
  simp only [this, Finset.sum_sub_distrib, Finset.sum_add_distrib, Finset.sum_const,
    Finset.card_univ, Fintype.card_fin, nsmul_eq_mul, Finset.sum_ite_eq, Finset.mem_univ, if_true,
    ← Finset.mul_sum]
  ring

theorem two_body_bound (z : Fin nion → ℝ) (q : ℝ) (charges : Fin nion → ℝ) (x : Stream1 n d) :
    twoBodyValue z q R charges x ≤
      -(((∑ j, z j) - max q 0 * ((∑ s, n s : ℕ) - 1)) * ∑ e, distance (x e) 0) +
        ((∑ _e : Elec n, ∑ j, |z j| * distance (R j) 0) +
          (∑ I, ∑ J, charges I * charges J * distance (R I) (R J)) / 2) := by
  have hn : ∀ a b : Fin d → ℝ, 0 ≤ distance a b := fun a b => by
    rw [distance_eq_norm]; exact norm_nonneg _
  have h1 : (∑ e, ∑ e', distance (x e) (x e')) ≤
      2 * (((∑ s, n s : ℕ) - 1) * ∑ e, distance (x e) 0) := by
    have e1 := sum_pairs (∑ s, n s) fun e => distance (x (finSigmaFinEquiv.symm e)) 0
    rw [Equiv.sum_comp finSigmaFinEquiv.symm fun e => distance (x e) 0] at e1
    rw [← e1, ← Equiv.sum_comp finSigmaFinEquiv.symm fun e => ∑ e', distance (x e) (x e')]
    refine Finset.sum_le_sum fun e _ => ?_
    rw [← Equiv.sum_comp finSigmaFinEquiv.symm fun e' => distance (x _) (x e')]
    refine Finset.sum_le_sum fun e' _ => ?_
    split
    · rename_i h
      subst h
      simp [distance]
    · simp only [distance_eq_norm]
      rw [norm_sub_rev (WithLp.toLp 2 (x (finSigmaFinEquiv.symm e'))) (WithLp.toLp 2 0)]
      exact norm_sub_le_norm_sub_add_norm_sub _ _ _
  have h2 : (∑ j, z j) * (∑ e, distance (x e) 0) ≤ (∑ e, ∑ j, z j * distance (x e) (R j)) +
      ∑ _e : Elec n, ∑ j, |z j| * distance (R j) 0 := by
    rw [← Finset.sum_add_distrib, Finset.mul_sum]
    refine Finset.sum_le_sum fun e _ => ?_
    rw [← Finset.sum_add_distrib, Finset.sum_mul]
    refine Finset.sum_le_sum fun j _ => ?_
    have h3 : |distance (x e) 0 - distance (x e) (R j)| ≤ distance (R j) 0 := by
      simp only [distance_eq_norm]
      refine (abs_norm_sub_norm_le _ _).trans (le_of_eq ?_)
      congr 1
      abel
    have h4 : z j * (distance (x e) 0 - distance (x e) (R j)) ≤ |z j| * distance (R j) 0 := by
      refine (le_abs_self _).trans ?_
      rw [abs_mul]
      exact mul_le_mul_of_nonneg_left h3 (abs_nonneg _)
    linarith
  have h5 : q * ((∑ e, ∑ e', distance (x e) (x e')) / 2) ≤
      max q 0 * (((∑ s, n s : ℕ) - 1) * ∑ e, distance (x e) 0) := by
    have h0 : 0 ≤ ∑ e, ∑ e', distance (x e) (x e') :=
      Finset.sum_nonneg fun e _ => Finset.sum_nonneg fun e' _ => hn _ _
    calc q * ((∑ e, ∑ e', distance (x e) (x e')) / 2)
        ≤ max q 0 * ((∑ e, ∑ e', distance (x e) (x e')) / 2) :=
          mul_le_mul_of_nonneg_right (le_max_left _ _) (by positivity)
      _ ≤ _ := mul_le_mul_of_nonneg_left (by linarith) (le_max_right _ _)
  unfold twoBodyValue
  linarith

/-- The size of a parameter which is never zero. -/
theorem par_abs {p : ℝ → ℝ} (hp : Par I p) (h0 : ∀ θ ∈ I, p θ ≠ 0) : Par I fun θ => |p θ| := by
  obtain ⟨p', hd, C, hC⟩ := hp
  refine ⟨fun θ => SignType.sign (p θ) * p' θ, fun θ hθ => (hasDerivAt_abs (h0 θ hθ)).comp θ (hd θ hθ),
    C, fun θ hθ => ⟨by rw [abs_abs]; exact (hC θ hθ).1, ?_⟩⟩
  rw [abs_mul]
  rcases lt_trichotomy (p θ) 0 with h | h | h
  · simpa [_root_.sign_neg h] using (hC θ hθ).2
  · exact absurd h (h0 θ hθ)
  · simpa [_root_.sign_pos h] using (hC θ hθ).2

/-- A positive continuous function on a compact set has a positive lower bound. -/
theorem exists_pos_lower (hI : IsCompact I) (hI0 : I.Nonempty) {p : ℝ → ℝ} (hp : ContinuousOn p I)
    (h0 : ∀ θ ∈ I, 0 < p θ) : ∃ b, 0 < b ∧ ∀ θ ∈ I, b ≤ p θ := by
  obtain ⟨θ, hθ, hm⟩ := hI.exists_isMinOn hI0 hp
  exact ⟨p θ, h0 θ hθ, fun θ' h' => hm h'⟩

theorem exponent_tame (hI : IsCompact I) (hI0 : I.Nonempty) {c : ModelCfg}
    {P : ℝ → Params (K + 1) nion d} (hP : Entries (Par I) P) {charges : Fin nion → ℝ}
    (h : ∀ θ ∈ I, JastrowDecays c (P θ) charges n) {m : ℕ}
    {z : Pt (∑ s, n s) d → Stream1 n m} {r : Pt (∑ s, n s) d → ℝ}
    (hr : ∀ q, Exponent c (P q.1) R charges (splitPositions q.2) (z q) (r q)) :
    ∃ β, 0 < β ∧ ∀ i l, Tame I R i l (totalWeight β) fun q => Real.exp (r q) := by
  have key : ∀ α C, 0 < α → (∀ q, Ok I R q →
        r q ≤ -(α * ∑ e : Elec n, distance (splitPositions q.2 e) 0) + C) →
      (∀ i l, Tame I R i l (fun _ => 1) r) →
      ∃ β, 0 < β ∧ ∀ i l, Tame I R i l (totalWeight β) fun q => Real.exp (r q) := by
    intro α C hα hb ht
    refine ⟨α, hα, fun i l => Tame.exp (Real.exp C) (Real.exp_pos _).le (ht i l) fun q hq => ?_⟩
    unfold totalWeight
    rw [← Real.exp_add]
    refine Real.exp_le_exp.mpr ?_
    have : ∑ e, ‖q.2 e‖ ≤ ∑ e : Elec n, distance (splitPositions q.2 e) 0 := by
      rw [← Equiv.sum_comp finSigmaFinEquiv fun e => ‖q.2 e‖]
      exact Finset.sum_le_sum fun e _ => norm_le_distance_zero _
    nlinarith [hb q hq]
  have hdist : ∀ q : Pt (∑ s, n s) d, 0 ≤ ∑ e : Elec n, distance (splitPositions q.2 e) 0 :=
    fun q => Finset.sum_nonneg fun e _ => by rw [distance_eq_norm]; exact norm_nonneg _
  unfold Exponent at hr
  obtain ⟨θ₀, hθ₀⟩ := hI0
  rcases h θ₀ hθ₀ with ⟨ht, -, hion⟩ | ⟨ht, -⟩
  · simp only [ht, String.reduceEq, false_and, or_false, true_and] at hr
    have hκ : ∀ θ ∈ I, (P θ).oneBodyKernel 0 ≠ 0 := fun θ hθ => by
      rcases h θ hθ with ⟨-, h, -⟩ | ⟨h, -⟩
      · exact h
      · simp [ht] at h
    have hpar := par_abs (hP.oneBodyKernel 0) hκ
    obtain ⟨α, hα, hle⟩ := exists_pos_lower hI ⟨θ₀, hθ₀⟩ hpar.continuousOn fun θ hθ =>
      abs_pos.mpr (hκ θ hθ)
    obtain ⟨B, hB0, hB⟩ := hpar.bound
    have hS : 0 ≤ ∑ _e : Elec n, distance (R ⟨0, hion⟩) 0 := Finset.sum_nonneg fun _ _ => by
      rw [distance_eq_norm]; exact norm_nonneg _
    refine key α (B * ∑ _e : Elec n, distance (R ⟨0, hion⟩) 0) hα (fun q hq => ?_) fun i l => ?_
    · have h1 := one_body_bound (n := n) (R := R) ((P q.1).oneBodyKernel 0) hion (splitPositions q.2)
      have h2 := mul_le_mul_of_nonneg_right (hle q.1 hq.1) (hdist q)
      have h3 := mul_le_mul_of_nonneg_right ((le_abs_self _).trans (hB q.1 hq.1)) hS
      rw [hr q]
      linarith
    · rw [funext hr]
      exact ((Tame.sum one_nonneg fun e _ => Tame.sum one_nonneg fun j _ =>
        split_ion_tame e j).par_mul one_nonneg hpar).neg one_nonneg
  · simp only [ht, String.reduceEq, false_and, or_false, false_or, true_and] at hr
    set Z : ℝ → Fin nion → ℝ := fun θ => if c.jastrow.trainable = true then (P θ).eiStrength else charges
      with hZ
    set Y : ℝ → ℝ := fun θ =>
      if c.jastrow.trainable = true then (P θ).eeStrength else c.jastrow.initEeStrength with hY
    have pZ : ∀ j, Par I fun θ => Z θ j := fun j => by
      simp only [hZ]
      split
      · exact hP.eiStrength j
      · exact Par.const _
    have pY : Par I Y := by
      simp only [hY]
      split
      · exact hP.eeStrength
      · exact Par.const _
    have hz : ∀ θ ∈ I, 0 < (∑ j, Z θ j) - max (Y θ) 0 * ((∑ s, n s : ℕ) - 1) := fun θ hθ => by
      rcases h θ hθ with ⟨h, -⟩ | ⟨-, h⟩
      · simp [ht] at h
      · exact sub_pos.mpr h
    obtain ⟨α, hα, hle⟩ := exists_pos_lower (p := fun θ =>
      (∑ j, Z θ j) - max (Y θ) 0 * ((∑ s, n s : ℕ) - 1)) hI ⟨θ₀, hθ₀⟩ ((Par.sum fun j _ => pZ j).continuousOn.sub
      ((pY.continuousOn.sup continuousOn_const).mul continuousOn_const)) hz
    choose B hB0 hB using fun j => (pZ j).bound
    refine key α ((∑ _e : Elec n, ∑ j, B j * distance (R j) 0) +
      (∑ I, ∑ J, charges I * charges J * distance (R I) (R J)) / 2) hα (fun q hq => ?_) fun i l => ?_
    · have h1 := two_body_bound (n := n) (R := R) (Z q.1) (Y q.1) charges (splitPositions q.2)
      have h2 := mul_le_mul_of_nonneg_right (hle q.1 hq.1) (hdist q)
      have h3 : ∑ _e : Elec n, ∑ j, |Z q.1 j| * distance (R j) 0 ≤
          ∑ _e : Elec n, ∑ j, B j * distance (R j) 0 :=
        Finset.sum_le_sum fun _ _ => Finset.sum_le_sum fun j _ =>
          mul_le_mul_of_nonneg_right (hB j q.1 hq.1) (by rw [distance_eq_norm]; exact norm_nonneg _)
      refine (hr q).le.trans ?_
      refine h1.trans ?_
      linarith
    · rw [funext hr]
      unfold twoBodyValue
      exact ((((Tame.sum one_nonneg fun e _ => Tame.sum one_nonneg fun e' _ =>
        split_pair_tame e e').div_const one_nonneg _).par_mul one_nonneg pY).sub one_nonneg
        (Tame.sum one_nonneg fun e _ => Tame.sum one_nonneg fun j _ =>
          (split_ion_tame e j).par_mul one_nonneg (pZ j))).add one_nonneg (Tame.const _)

/-! ### Models -/

theorem configured_value_tame (hI : IsCompact I) (hI0 : I.Nonempty) {c : ModelCfg}
    {P : ℝ → Params (K + 1) nion d} (hP : Entries (Par I) P) {charges : Fin nion → ℝ}
    (hc : ∀ θ ∈ I, Decays c (P θ) charges n) {nonzero : Pt (∑ s, n s) d → Prop}
    {ψ : Pt (∑ s, n s) d → ℝ}
    (hψ : ∀ q, ModelValue c (P q.1) R charges (splitPositions q.2) (nonzero q) (ψ q)) :
    ∃ β, 0 < β ∧ ∀ i l, Tame I R i l (totalWeight β) ψ := by
  have hinv := fun q => model_value_inv (hψ q)
  obtain ⟨θ₀, hθ₀⟩ := hI0
  rcases hc θ₀ hθ₀ with ⟨ht | ht, -⟩ | ⟨ht, -, hb⟩ | ⟨ht, -⟩
  · simp only [ht, String.reduceEq, false_and, or_false, true_and] at hinv
    refine fermi_tame hI hP (fun θ hθ => ?_) hP.detFn hinv
    simpa [Decays, ht] using hc θ hθ
  · simp only [ht, String.reduceEq, false_and, or_false, true_and, false_or] at hinv
    refine extended_tame hI hP (fun θ hθ => ?_) hP.detFn hinv
    simpa [Decays, ht] using hc θ hθ
  · have hinv : ∀ q, _ := fun q => (((((hinv q).resolve_left fun h => by simp [h.1] at ht)
      ).resolve_left fun h => by simp [h.1] at ht).resolve_left fun h => by simp [h.1] at ht
      ).resolve_right fun h => by simp [h.1] at ht
    refine antiequivariance_tame hI hP (fun θ hθ => ?_) hb fun q => (hinv q).2
    rcases hc θ hθ with ⟨ht' | ht', -⟩ | ⟨-, h, -⟩ | ⟨ht', -⟩
    · simp [ht'] at ht
    · simp [ht'] at ht
    · exact h
    · simp [ht'] at ht
  · simp only [ht, String.reduceEq, false_and, true_and, false_or] at hinv
    obtain ⟨m, z, -, hz', h2⟩ := features_family_tame hP.backflow hinv
    choose j hj t ht' hψ using h2
    obtain ⟨β, hβ, he⟩ := exponent_tame hI ⟨θ₀, hθ₀⟩ hP
      (fun θ hθ => by simpa [Decays, ht] using hc θ hθ) hj
    refine ⟨β, hβ, fun i l => ?_⟩
    rw [funext hψ]
    exact (he i l).mul_one (totalWeight_nonneg β) (antisymmetrized_tame hP (hz' i l) ht')

/-! ### Decay -/

theorem layer_regular_of_decays {isotropic : Bool} (softening : ℝ) {S m : ℕ} {norb : Fin S → ℕ}
    {L : OrbitalLayer S m nion d norb} (h : LayerDecays isotropic L) :
    LayerRegular softening isotropic L := fun s o => by
  have := h s o
  unfold EnvelopeDecays at this
  split at this
  · exact .inr (.inl ‹_›)
  · exact .inr (.inr this)

/-- Where particles are apart, wave functions which decay have no kink. -/
theorem smooth_place_of_decays {c : ModelCfg} {P : Params (K + 1) nion d} {charges : Fin nion → ℝ}
    (hc : Decays c P charges n) {x : Fin (∑ s, n s) → Fin d → ℝ} (hx : Good R x) :
    SmoothPlace c P R (splitPositions x) := by
  refine ⟨⟨fun e e' he => hx.1 _ _ (finSigmaFinEquiv.injective.ne he), fun e j => hx.2 _ j⟩,
    fun h => ?_, fun h m norb => ?_, fun h => ?_, fun h h' => ?_⟩
  · rcases hc with ⟨ht | ht, -⟩ | ⟨ht | ht, -⟩ | ⟨ht, -⟩ <;> simp [ht] at h
  · rcases hc with ⟨-, hl⟩ | ⟨ht | ht, -⟩ | ⟨ht, -⟩
    · exact layer_regular_of_decays _ (hl m norb)
    all_goals simp [ht] at h
  · rcases hc with ⟨ht | ht, -⟩ | ⟨-, ha, -⟩ | ⟨ht, -⟩
    · simp [ht] at h
    · simp [ht] at h
    · unfold AntiDecays at ha
      unfold AntiRegular
      split
      · rename_i ht
        rw [if_pos ht] at ha
        intro m s o
        have := ha m s o
        unfold EnvelopeDecays at this
        split at this
        · exact .inr (.inl ‹_›)
        · exact .inr (.inr this)
      · rename_i ht
        rw [if_neg ht] at ha
        exact fun m => layer_regular_of_decays _ (ha m)
    · simp [ht] at h
  · rcases hc with ⟨ht | ht, -⟩ | ⟨ht | ht, -⟩ | ⟨-, ⟨ht, -⟩ | ⟨ht, -⟩⟩
    on_goal 5 => simp [ht] at h'
    on_goal 5 => simp [ht] at h'
    all_goals simp [ht] at h

/-- C88: the wave function of a configuration and its first derivatives decay exponentially, and so
do its second derivatives up to Coulomb singularities, if envelopes or Jastrow factors decay. -/
theorem configured_decay {c : ModelCfg} {P : Params (K + 1) nion d} {charges : Fin nion → ℝ}
    (hc : Decays c P charges n) {nonzero : Stream1 n d → Prop} {ψ : Stream1 n d → ℝ}
    (hψ : ∀ q, ModelValue c P R charges q (nonzero q) (ψ q)) :
    ∃ β C, 0 < β ∧ 0 ≤ C ∧ Bounded R (fun y => ψ (splitPositions y)) β C := by
  obtain ⟨β, hβ, hT⟩ := configured_value_tame (I := {0}) (P := fun _ => P)
    (ψ := fun q => ψ (splitPositions q.2)) isCompact_singleton (Set.singleton_nonempty 0)
    (Entries.const (fun c => Par.const c) P) (fun _ _ => hc) fun q => hψ (splitPositions q.2)
  by_cases h : 0 < ∑ s, n s ∧ 0 < d
  · obtain ⟨C, hC, hb, -⟩ := bounded_of_tame hβ h.1 h.2 hT
    exact ⟨β / 2, C, by positivity, hC, hb 0 rfl⟩
  · have h0 : ∀ (i : Fin (∑ s, n s)) (k : Fin d), False := fun i k =>
      h ⟨i.pos, k.pos⟩
    refine ⟨1, |ψ (splitPositions 0)|, one_pos, abs_nonneg _, fun x _ => ?_,
      fun i k => (h0 i k).elim, fun i k => (h0 i k).elim⟩
    have hx : x = 0 := funext fun i => funext fun k => (h0 i k).elim
    subst hx
    simp

/-- Two-body Jastrow factors with the default strength decay for neutral molecules and for positive
ions. -/
theorem neutral_jastrow_decays {c : ModelCfg} (P : Params (K + 1) nion d) {charges : Fin nion → ℝ}
    (ht : c.jastrow.type = "two_body_decay") (htr : c.jastrow.trainable = false)
    (hs : c.jastrow.initEeStrength = 1) (hn : ((∑ s, n s : ℕ) : ℝ) ≤ ∑ j, charges j) :
    JastrowDecays c P charges n := by
  refine .inr ⟨ht, ?_⟩
  simp only [htr, hs, Bool.false_eq_true, if_false]
  rw [max_eq_left zero_le_one, one_mul]
  linarith

/-- Explicit antisymmetrization for a helium atom. -/
example (P : Params 2 1 3) : Decays
    { type := "explicit_antisym", jastrow := { type := "two_body_decay", trainable := false } } P
    (fun _ => 2) fun _ : Fin 2 => 1 :=
  .inr (.inr ⟨rfl, neutral_jastrow_decays P rfl rfl rfl (by simp)⟩)

end Verif.Props
