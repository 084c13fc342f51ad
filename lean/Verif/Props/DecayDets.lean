import Verif.Props.DecayEnvelopes

/-!
For C88: determinants of orbitals and what is made of them decay exponentially.
-/

namespace Verif.Props
open Verif.Construct Verif.Net Verif.Spec Verif.Slog Verif.Decay

variable {K nion d : ℕ} {n : Fin (K + 1) → ℕ} {I : Set ℝ} {R : Fin nion → Fin d → ℝ}

/-! ### Networks of close inputs -/

section close

variable {N : ℕ} {i : Fin N} {l : Fin d} {w : Pt N d → ℝ}

/-- Two functions with bounded derivatives whose difference has the weight `w`. -/
structure Near (I : Set ℝ) (R : Fin nion → Fin d → ℝ) (i : Fin N) (l : Fin d) (w f g : Pt N d → ℝ) :
    Prop where
  left : Tame I R i l (fun _ => 1) f
  right : Tame I R i l (fun _ => 1) g
  diff : Tame I R i l w fun q => f q - g q

theorem Near.const (c : ℝ) : Near (N := N) I R i l w (fun _ => c) fun _ => c :=
  ⟨Tame.const c, Tame.const c, by simpa only [sub_self] using Tame.zero⟩

theorem Near.add (hw : ∀ x, Ok I R x → 0 ≤ w x) {f g f' g' : Pt N d → ℝ}
    (h : Near I R i l w f g) (h' : Near I R i l w f' g') :
    Near I R i l w (fun q => f q + f' q) fun q => g q + g' q :=
  ⟨h.left.add one_nonneg h'.left, h.right.add one_nonneg h'.right, by
    simpa only [add_sub_add_comm] using h.diff.add hw h'.diff⟩

theorem Near.const_mul (hw : ∀ x, Ok I R x → 0 ≤ w x) {f g : Pt N d → ℝ} (c : ℝ)
    (h : Near I R i l w f g) : Near I R i l w (fun q => c * f q) fun q => c * g q :=
  ⟨h.left.const_mul one_nonneg c, h.right.const_mul one_nonneg c, by
    simpa only [mul_sub] using h.diff.const_mul hw c⟩

theorem Near.mul_const (hw : ∀ x, Ok I R x → 0 ≤ w x) {f g : Pt N d → ℝ} (c : ℝ)
    (h : Near I R i l w f g) : Near I R i l w (fun q => f q * c) fun q => g q * c := by
  simpa only [mul_comm _ c] using h.const_mul hw c

theorem Near.par {p : ℝ → ℝ} (hp : Par I p) : Near (N := N) I R i l w (fun q => p q.1) fun q => p q.1 :=
  ⟨Tame.par hp, Tame.par hp, by simpa only [sub_self] using Tame.zero⟩

theorem Near.par_mul (hw : ∀ x, Ok I R x → 0 ≤ w x) {f g : Pt N d → ℝ} {p : ℝ → ℝ} (hp : Par I p)
    (h : Near I R i l w f g) : Near I R i l w (fun q => p q.1 * f q) fun q => p q.1 * g q :=
  ⟨h.left.par_mul one_nonneg hp, h.right.par_mul one_nonneg hp, by
    simpa only [mul_sub] using h.diff.par_mul hw hp⟩

theorem Near.mul_par (hw : ∀ x, Ok I R x → 0 ≤ w x) {f g : Pt N d → ℝ} {p : ℝ → ℝ}
    (h : Near I R i l w f g) (hp : Par I p) :
    Near I R i l w (fun q => f q * p q.1) fun q => g q * p q.1 := by
  simpa only [mul_comm _ (p _)] using h.par_mul hw hp

theorem Near.sum (hw : ∀ x, Ok I R x → 0 ≤ w x) {ι : Type*} {s : Finset ι}
    {f g : ι → Pt N d → ℝ} (h : ∀ a ∈ s, Near I R i l w (f a) (g a)) :
    Near I R i l w (fun q => ∑ a ∈ s, f a q) fun q => ∑ a ∈ s, g a q :=
  ⟨Tame.sum one_nonneg fun a ha => (h a ha).left, Tame.sum one_nonneg fun a ha => (h a ha).right, by
    simpa only [Finset.sum_sub_distrib] using Tame.sum hw fun a ha => (h a ha).diff⟩

theorem activation_near (hw : ∀ x, Ok I R x → 0 ≤ w x) (name : String)
    {f g : Pt N d → ℝ} (h : Near I R i l w f g) :
    Near I R i l w (fun q => activationValue name (f q)) fun q => activationValue name (g q) :=
  ⟨activation_tame name h.left, activation_tame name h.right,
    Tame.comp_sub (activation_polyC name 4) hw h.left h.right h.diff⟩

theorem skipped_near (hw : ∀ x, Ok I R x → 0 ≤ w x) {m m' : ℕ} (wanted : Bool) (scale : ℝ)
    {x x' : Pt N d → Fin m → ℝ} {y y' : Pt N d → Fin m' → ℝ}
    (hx : ∀ a, Near I R i l w (fun q => x q a) fun q => x' q a)
    (hy : ∀ a, Near I R i l w (fun q => y q a) fun q => y' q a) (j : Fin m') :
    Near I R i l w (fun q => skipped wanted scale (x q) (y q) j) fun q =>
      skipped wanted scale (x' q) (y' q) j := by
  unfold skipped
  split
  · exact ((hy _).add hw (hx _)).const_mul hw _
  · exact hy j

theorem affine_near (hw : ∀ x, Ok I R x → 0 ≤ w x) {m m' : ℕ} (useBias : Bool) {P : ℝ → DenseParams m m'}
    (hP : DenseEntries (Par I) P)
    {x x' : Pt N d → Fin m → ℝ}
    (hx : ∀ a, Near I R i l w (fun q => x q a) fun q => x' q a) (j : Fin m') :
    Near I R i l w (fun q => affine useBias (P q.1) (x q) j) fun q => affine useBias (P q.1) (x' q) j := by
  unfold affine
  refine (Near.sum hw fun a _ => (hx a).par_mul hw (hP.kernel a j)).add hw ?_
  split
  · exact Near.par (hP.bias j)
  · exact Near.const 0

theorem hidden_near (hw : ∀ x, Ok I R x → 0 ≤ w x) (name : String) (useBias : Bool)
    {P : ℝ → ResNetParams} (hP : ResNetEntries (Par I) P) (m : ℕ) {m₀ : ℕ} {x x' : Pt N d → Fin m₀ → ℝ}
    (hx : ∀ a, Near I R i l w (fun q => x q a) fun q => x' q a) (b : ℕ) (j : Fin m) :
    Near I R i l w (fun q => hiddenLayer name useBias (P q.1) m (x q) b j) fun q =>
      hiddenLayer name useBias (P q.1) m (x' q) b j := by
  induction b generalizing j with
  | zero =>
    exact skipped_near hw true 1 hx
      (fun a => activation_near hw name (affine_near hw _ (hP.inner 0 _ m) hx a)) j
  | succ b ih => exact (activation_near hw name (affine_near hw _ (hP.inner (b + 1) m m) ih j)).add hw (ih j)

theorem resnet_near (hw : ∀ x, Ok I R x → 0 ≤ w x) (name : String) (useBias : Bool) (m layers : ℕ)
    {P : ℝ → ResNetParams} (hP : ResNetEntries (Par I) P) (out : ℕ) {m₀ : ℕ} {x x' : Pt N d → Fin m₀ → ℝ}
    (hx : ∀ a, Near I R i l w (fun q => x q a) fun q => x' q a) (j : Fin out) :
    Near I R i l w (fun q => resnetValue name useBias m layers (P q.1) out (x q) j) fun q =>
      resnetValue name useBias m layers (P q.1) out (x' q) j := by
  unfold resnetValue
  split
  · exact Near.sum hw fun a _ => (hx a).par_mul hw ((hP.final m₀ out).kernel a j)
  · exact Near.sum hw fun a _ =>
      (hidden_near hw name useBias hP m hx _ a).par_mul hw ((hP.final m out).kernel a j)

theorem mean_near (hw : ∀ x, Ok I R x → 0 ≤ w x) {m : ℕ}
    {x x' : Pt N d → Elec n → Fin m → ℝ}
    (hx : ∀ e a, Near I R i l w (fun q => x q e a) fun q => x' q e a) (s : Fin (K + 1)) (a : Fin m) :
    Near I R i l w (fun q => speciesMean (x q) s a) fun q => speciesMean (x' q) s a := by
  unfold speciesMean
  simp only [div_eq_mul_inv]
  exact (Near.sum hw fun _ _ => hx _ _).mul_const hw _

theorem one_near (hw : ∀ x, Ok I R x → 0 ≤ w x) {m₁ m₂ m H : ℕ} (c : BackflowCfg)
    (hc : c.useTransformer = false) {P : ℝ → OneParams (K + 1) m₁ m₂ m H} (hP : OneEntries (Par I) P)
    {x x' : Pt N d → Stream1 n m₁}
    (hx : ∀ e a, Near I R i l w (fun q => x q e a) fun q => x' q e a) (e : Elec n) (j : Fin m) :
    Near I R i l w (fun q => oneValue c (P q.1) (x q) none e j) fun q => oneValue c (P q.1) (x' q) none e j := by
  unfold oneValue
  simp only [hc, Bool.false_eq_true, if_false]
  refine skipped_near hw _ _ (hx e) (fun j => activation_near hw _ (((?_ : Near I R i l w _ _).add hw
    (?_ : Near I R i l w _ _)).add hw (?_ : Near I R i l w _ _))) j
  · refine (Near.sum hw fun a _ => (hx e a).mul_par hw (hP.unmixedKernel a j)).add hw ?_
    split
    · exact Near.par (hP.bias j)
    · exact Near.const 0
  · exact Near.sum hw fun p _ => Near.sum hw fun a _ =>
      (mean_near hw hx _ _).mul_par hw (hP.mixedKernel (p, a) j)
  · exact Near.const _

theorem backflow_near (hw : ∀ x, Ok I R x → 0 ≤ w x) (c : BackflowCfg)
    (hc : c.useTransformer = false) {P : ℝ → BackflowParams (K + 1)}
    (hP : BackflowEntries (Par I) P) (ws : List (List ℕ)) :
    ∀ {b m₁ m₂ m : ℕ} (x x' : Pt N d → Stream1 n m₁)
      (z z' : Pt N d → Stream1 n m),
      (∀ q, BackflowValue c (P q.1) b ws (x q) (none : Option (Stream2 n m₂)) (z q)) →
      (∀ q, BackflowValue c (P q.1) b ws (x' q) (none : Option (Stream2 n m₂)) (z' q)) →
      (∀ e a, Near I R i l w (fun q => x q e a) fun q => x' q e a) →
      ∀ e a, Near I R i l w (fun q => z q e a) fun q => z' q e a := by
  induction ws with
  | nil =>
    intro b m₁ m₂ m x x' z z' h h' hx e a
    obtain rfl : m = m₁ := congrArg Sigma.fst (backflow_inv_nil (h 0))
    have e1 : z = x := funext fun q => eq_of_heq (Sigma.mk.inj (backflow_inv_nil (h q))).2
    have e2 : z' = x' := funext fun q => eq_of_heq (Sigma.mk.inj (backflow_inv_nil (h' q))).2
    rw [e1, e2]
    exact hx e a
  | cons t ws ih =>
    intro b m₁ m₂ m x x' z z' h h' hx
    match t, h, h' with
    | [], h, _ => cases h 0
    | [u], h, h' =>
      exact ih _ _ z z' (fun q => backflow_inv_one (h q)) (fun q => backflow_inv_one (h' q))
        (one_near hw c hc (hP.one b m₁ m₂ u c.numHeads) hx)
    | u :: v :: rest, h, h' =>
      exact ih (b := b + 1) (m₂ := v) _ _ z z' (fun q => backflow_inv_two (h q))
        (fun q => backflow_inv_two (h' q)) (one_near hw c hc (hP.one b m₁ m₂ u c.numHeads) hx)

end close

/-! ### Sums over signs -/

/-- The signs of a choice. -/
def signsOf {N : ℕ} (e : Fin N → Bool) (s : Fin N) : ℝ := if e s = true then -1 else 1

/-- The other choice for one of the signs. -/
def flipAt {N : ℕ} (s : Fin N) : (Fin N → Bool) ≃ (Fin N → Bool) where
  toFun e := Function.update e s (!e s)
  invFun e := Function.update e s (!e s)
  left_inv e := by simp
  right_inv e := by simp

theorem signs_flip {N : ℕ} (s : Fin N) (e : Fin N → Bool) (t : Fin N) :
    signsOf (flipAt s e) t = if t = s then -signsOf e t else signsOf e t := by
  unfold signsOf flipAt
  by_cases h : t = s
  · subst h
    cases he : e t <;> simp [he]
  · simp [h]

theorem prod_signs_flip {N : ℕ} (s : Fin N) (e : Fin N → Bool) :
    ∏ t, signsOf (flipAt s e) t = -∏ t, signsOf e t := by
  simp only [signs_flip]
  rw [← Finset.mul_prod_erase _ _ (Finset.mem_univ s), ← Finset.mul_prod_erase Finset.univ
    (fun t => signsOf e t) (Finset.mem_univ s), if_pos rfl, neg_mul]
  congr 2
  exact Finset.prod_congr rfl fun t ht => if_neg (Finset.ne_of_mem_erase ht)

/-- Sums which are odd in all signs have the weight of every species. -/
theorem odd_sum_tame {N N' : ℕ} {i : Fin N'} {l : Fin d} {w : Pt N' d → ℝ}
    (hw : ∀ x, Ok I R x → 0 ≤ w x) (s : Fin N) {F : (Fin N → ℝ) → Pt N' d → ℝ}
    (h : ∀ e : Fin N → Bool, Near I R i l w (F (signsOf e)) (F (signsOf (flipAt s e)))) :
    Tame I R i l w fun q => sumOverSigns N fun e => (∏ s, e s) * F e q := by
  have he : ∀ q, (sumOverSigns N fun e => (∏ s, e s) * F e q) =
      ∑ e : Fin N → Bool, (1 / 2 * ∏ t, signsOf e t) *
        (F (signsOf e) q - F (signsOf (flipAt s e)) q) := by
    intro q
    have h1 : (sumOverSigns N fun e => (∏ s, e s) * F e q) =
        ∑ e : Fin N → Bool, (∏ t, signsOf e t) * F (signsOf e) q := rfl
    have h2 := (flipAt s).sum_comp fun e : Fin N → Bool => (∏ t, signsOf e t) * F (signsOf e) q
    simp only [prod_signs_flip] at h2
    rw [h1]
    have h3 : ∑ e : Fin N → Bool, (∏ t, signsOf e t) * F (signsOf e) q =
        ∑ e : Fin N → Bool, (1 / 2 * ((∏ t, signsOf e t) * F (signsOf e) q) +
          1 / 2 * (-(∏ t, signsOf e t) * F (signsOf (flipAt s e)) q)) := by
      rw [Finset.sum_add_distrib, ← Finset.mul_sum, ← Finset.mul_sum, h2]
      ring
    rw [h3]
    exact Finset.sum_congr rfl fun e _ => by ring
  simp only [he]
  exact Tame.sum hw fun e _ => (h e).diff.const_mul hw _

/-! ### Determinants -/

theorem fermi_dets_tame (hI : IsCompact I) {c : ModelCfg} {P : ℝ → Params (K + 1) nion d}
    (hP : Entries (Par I) P)
    (hr : ∀ θ ∈ I, ∀ m norb, LayerDecays c.isotropicDecay ((P θ).orbitals m norb)) {N : ℕ}
    {D : Pt (∑ s, n s) d → Fin (N + 1) → Fin c.ndeterminants → ℝ}
    (hD : ∀ q, FermiDets c (P q.1) R (splitPositions q.2) (D q)) :
    ∃ α, 0 < α ∧ ∃ w : Fin (N + 1) → Pt (∑ s, n s) d → ℝ,
      (∀ s x, 0 < w s x) ∧ (∀ s x, w s x ≤ 1) ∧ (∀ x, ∏ s, w s x ≤ totalWeight α x) ∧
      ∀ i l s o, Tame I R i l (w s) fun q => D q s o := by
  cases hf : c.fullDet with
  | false =>
    obtain ⟨m, z, -, hz', hz⟩ := features_family_tame hP.backflow fun q => by
      obtain ⟨-, m, z, h1, h2⟩ | ⟨h, -⟩ := fermi_dets_inv (hD q)
      · exact ⟨m, z, h1, h2⟩
      · rw [hf] at h; cases h
    obtain rfl : N = K := congrArg Sigma.fst (hz 0)
    have : ∀ q, D q = _ := fun q => eq_of_heq (Sigma.mk.inj (hz q)).2
    obtain ⟨α, hα, ho⟩ := orbital_tame hI c.orbitalsUseBias c.envelopeSoftening
      (hP.orbitals m fun s => c.ndeterminants * n s) (fun θ hθ => hr θ hθ m _) hz'
    refine ⟨α, hα, speciesWeight α, speciesWeight_pos α, speciesWeight_le_one hα.le,
      fun x => (prod_speciesWeight α x).le, fun i l s o => ?_⟩
    simp only [this]
    exact Tame.det (fun a => electronWeight_nonneg _ _) fun a b => ho i l s a _
  | true =>
    obtain ⟨m, z, -, hz', hz⟩ := features_family_tame hP.backflow (Q := fun q m z =>
      ∃ M : Fin c.ndeterminants → Matrix (Fin (∑ s, n s)) (Fin (∑ s, n s)) ℝ,
        (∀ i, Stacked (fun s a o => orbitalValue c.orbitalsUseBias c.isotropicDecay
          c.envelopeSoftening ((P q.1).orbitals m fun _ => c.ndeterminants * ∑ s, n s) R
          (splitPositions q.2) z s a (blockEntry i o)) (M i)) ∧
        (⟨N, D q⟩ : Σ N, Fin (N + 1) → Fin c.ndeterminants → ℝ) = ⟨0, fun _ i => (M i).det⟩)
      fun q => by
        obtain ⟨h, -⟩ | ⟨-, m, z, h1, h2⟩ := fermi_dets_inv (hD q)
        · rw [hf] at h; cases h
        · exact ⟨m, z, h1, h2⟩
    choose M hM hDM using hz
    obtain rfl : N = 0 := congrArg Sigma.fst (hDM 0)
    have : ∀ q, D q = _ := fun q => eq_of_heq (Sigma.mk.inj (hDM q)).2
    obtain ⟨α, hα, ho⟩ := orbital_tame hI c.orbitalsUseBias c.envelopeSoftening
      (hP.orbitals m fun _ => c.ndeterminants * ∑ s, n s) (fun θ hθ => hr θ hθ m _) hz'
    refine ⟨α, hα, fun _ => totalWeight α, fun _ _ => Real.exp_pos _,
      fun _ => totalWeight_le_one hα.le, fun x => by simp, fun i l s o => ?_⟩
    simp only [this]
    refine (Tame.det (w := electronWeight α) (fun a => electronWeight_nonneg _ _) fun a b => ?_).mono
      fun x _ => (totalWeight_eq α x).ge
    obtain ⟨⟨s', a'⟩, hb⟩ := finSigmaFinEquiv.surjective a
    have ha : ∀ q, M q o a = _ := fun q => hM q o s' a' a (by
      rw [← hb, finSigmaFinEquiv_apply]
      rfl)
    simp only [ha]
    rw [← hb]
    exact ho i l s' a' _

theorem det_resnet_tame {N N' : ℕ} {N₀ : ℕ} {i : Fin N₀} {l : Fin d} (c : DetResnetCfg)
    {P : ℝ → ResNetParams} (hP : ResNetEntries (Par I) P) (out : ℕ) {D : Pt N₀ d → Fin N → Fin N' → ℝ}
    (hD : ∀ s o, Tame I R i l (fun _ => 1) fun q => D q s o) (e : Fin N → ℝ) (j : Fin out) :
    Tame I R i l (fun _ => 1) fun q => detResnetValue c (P q.1) out (D q) e j :=
  resnet_tame _ _ _ _ hP _ (fun _ => (hD _ _).const_mul one_nonneg _) j

/-- One of several factors is at most their geometric mean. -/
theorem exists_weight_le {N N₀ : ℕ} {α : ℝ} {w : Fin (N + 1) → Pt N₀ d → ℝ}
    (hp : ∀ x, ∏ s, w s x ≤ totalWeight α x) (x : Pt N₀ d) :
    ∃ s, w s x ≤ totalWeight (α / (N + 1 : ℕ)) x := by
  by_contra hc
  push Not at hc
  have h1 : ∏ _s : Fin (N + 1), totalWeight (α / (N + 1 : ℕ)) x < ∏ s, w s x :=
    Finset.prod_lt_prod_of_nonempty (fun _ _ => Real.exp_pos _) (fun s _ => hc s)
      Finset.univ_nonempty
  have h1 := h1.trans_le (hp x)
  rw [Finset.prod_const, Finset.card_univ, Fintype.card_fin] at h1
  unfold totalWeight at h1
  rw [← Real.exp_nat_mul] at h1
  have : ((N + 1 : ℕ) : ℝ) ≠ 0 := Nat.cast_ne_zero.mpr (Nat.succ_ne_zero N)
  have e : ((N + 1 : ℕ) : ℝ) * -(α / (N + 1 : ℕ) * ∑ e, ‖x.2 e‖) = -(α * ∑ e, ‖x.2 e‖) := by
    field_simp
  rw [e] at h1
  exact lt_irrefl _ h1

theorem combined_tame {c : ModelCfg} {P : ℝ → ResNetParams} (hP : ResNetEntries (Par I) P) {N N₀ : ℕ}
    {D : Pt N₀ d → Fin (N + 1) → Fin c.ndeterminants → ℝ}
    {r : Pt N₀ d → ℝ} (h : ∀ q, Combined c (P q.1) (D q) (r q)) {α : ℝ} (hα : 0 < α)
    {w : Fin (N + 1) → Pt N₀ d → ℝ} (hw : ∀ s x, 0 < w s x) (hw1 : ∀ s x, w s x ≤ 1)
    (hp : ∀ x, ∏ s, w s x ≤ totalWeight α x)
    (hD : ∀ i l s o, Tame I R i l (w s) fun q => D q s o) :
    ∃ β, 0 < β ∧ ∀ i l, Tame I R i l (totalWeight β) r := by
  have hw0 : ∀ s x, Ok I R x → 0 ≤ w s x := fun s x _ => (hw s x).le
  have hD1 : ∀ i l s o, Tame I R i l (fun _ => 1) fun q => D q s o := fun i l s o =>
    (hD i l s o).mono fun x _ => hw1 s x
  have hpr : ∀ i l o, Tame I R i l (totalWeight α) fun q => ∏ s, D q s o := fun i l o =>
    (Tame.prod (s := Finset.univ) hw0 fun s _ => hD i l s o).mono fun x _ => hp x
  cases hu : c.useDetResnet with
  | false =>
    have : r = fun q => ∑ i, ∏ s, D q s i := funext fun q => by
      rcases combined_inv (h q) with ⟨-, h⟩ | ⟨h, -⟩ | ⟨h, -⟩ | ⟨h, -⟩
      · exact h
      all_goals rw [hu] at h; cases h
    rw [this]
    exact ⟨α, hα, fun i l => Tame.sum (totalWeight_nonneg α) fun o _ => hpr i l o⟩
  | true =>
    rcases combined_inv (h 0) with ⟨h0, -⟩ | ⟨-, hm, -⟩ | ⟨-, hm, -⟩ | ⟨-, hm, D', hN, -⟩
    · rw [hu] at h0; cases h0
    · have : r = fun q => sumOverSigns (N + 1) fun e =>
          (∏ s, e s) * detResnetValue c.detResnet (P q.1) 1 (D q) e 0 := funext fun q => by
        rcases combined_inv (h q) with ⟨h, -⟩ | ⟨-, -, h⟩ | ⟨-, h, -⟩ | ⟨-, h, -⟩
        · rw [hu] at h; cases h
        · exact h
        all_goals rw [hm] at h; simp at h
      rw [this]
      refine ⟨α / (N + 1 : ℕ), by positivity, fun i l => Tame.least (w := w) (totalWeight_nonneg _)
        (fun s => odd_sum_tame (hw0 s) s
          (F := fun e q => detResnetValue c.detResnet (P q.1) 1 (D q) e 0) fun e => ?_)
        fun x _ => exists_weight_le hp x⟩
      refine resnet_near (hw0 s) _ _ _ _ hP _ (fun a => ?_) 0
      refine ⟨(hD1 i l _ _).const_mul one_nonneg _, (hD1 i l _ _).const_mul one_nonneg _, ?_⟩
      simp only [signs_flip]
      by_cases ha : a.divNat = s
      · simp only [if_pos ha]
        have := (hD i l a.divNat a.modNat).const_mul (hw0 _) (2 * signsOf e a.divNat)
        rw [ha] at this ⊢
        convert this using 2
        ring
      · simp only [if_neg ha, sub_self]
        exact Tame.zero
    · have : r = fun q => ∑ i, (∏ s, D q s i) * sumOverSigns (N + 1) fun e =>
          detResnetValue c.detResnet (P q.1) c.ndeterminants (D q) e i := funext fun q => by
        rcases combined_inv (h q) with ⟨h, -⟩ | ⟨-, h, -⟩ | ⟨-, -, h⟩ | ⟨-, h, -⟩
        · rw [hu] at h; cases h
        · rw [hm] at h; simp at h
        · exact h
        · rw [hm] at h; simp at h
      rw [this]
      exact ⟨α, hα, fun i l => Tame.sum (totalWeight_nonneg α) fun o _ =>
        (hpr i l o).mul_one (totalWeight_nonneg α)
          (Tame.sum one_nonneg fun e _ => det_resnet_tame _ hP _ (hD1 i l) _ _)⟩
    · obtain rfl : N = 1 := congrArg Sigma.fst hN
      have : r = fun q => ∑ i, ∑ j, D q 0 i * D q 1 j * sumOverSigns 2 fun e =>
          detResnetValue c.detResnet (P q.1) (c.ndeterminants * c.ndeterminants) (D q) e
            (blockEntry i j) := funext fun q => by
        rcases combined_inv (h q) with ⟨h, -⟩ | ⟨-, h, -⟩ | ⟨-, h, -⟩ | ⟨-, -, D', hD', h⟩
        · rw [hu] at h; cases h
        · rw [hm] at h; simp at h
        · rw [hm] at h; simp at h
        · obtain rfl : D q = D' := eq_of_heq (Sigma.mk.inj hD').2
          exact h
      rw [this]
      refine ⟨α, hα, fun i l => Tame.sum (totalWeight_nonneg α) fun o _ =>
        Tame.sum (totalWeight_nonneg α) fun o' _ => Tame.mul_one (totalWeight_nonneg α) ?_
          (Tame.sum one_nonneg fun e _ => det_resnet_tame _ hP _ (hD1 i l) _ _)⟩
      refine ((hD i l 0 o).mul (hw0 0) (hw0 1) (hD i l 1 o')).mono fun x _ => ?_
      have := hp x
      rwa [Fin.prod_univ_two] at this

theorem fermi_tame (hI : IsCompact I) {c : ModelCfg} {P : ℝ → Params (K + 1) nion d}
    (hP : Entries (Par I) P)
    (hr : ∀ θ ∈ I, ∀ m norb, LayerDecays c.isotropicDecay ((P θ).orbitals m norb))
    {Q : ℝ → ResNetParams} (hQ : ResNetEntries (Par I) Q)
    {r : Pt (∑ s, n s) d → ℝ}
    (hD : ∀ q, ∃ N, ∃ D : Fin (N + 1) → Fin c.ndeterminants → ℝ,
      FermiDets c (P q.1) R (splitPositions q.2) D ∧ Combined c (Q q.1) D (r q)) :
    ∃ β, 0 < β ∧ ∀ i l, Tame I R i l (totalWeight β) r := by
  have : ∀ q, ∃ D : Fin ((if c.fullDet = true then 0 else K) + 1) → Fin c.ndeterminants → ℝ,
      FermiDets c (P q.1) R (splitPositions q.2) D ∧ Combined c (Q q.1) D (r q) := by
    intro q
    obtain ⟨N, D, h1, h2⟩ := hD q
    obtain rfl := fermi_dets_size h1
    exact ⟨D, h1, h2⟩
  choose D h1 h2 using this
  obtain ⟨α, hα, w, hw, hw1, hp, hT⟩ := fermi_dets_tame hI hP hr h1
  exact combined_tame hQ h2 hα hw hw1 hp hT

end Verif.Props
