import Verif.Props.Smooth
import Verif.Lemmas.Tame
import Verif.Lemmas.ParamPath
import Mathlib.Topology.Algebra.Module.FiniteDimension
import Mathlib.Analysis.InnerProductSpace.PiL2

/-!
For C88: the layers and features of configured models grow at most polynomially, uniformly for
parameters in a compact set.
-/

namespace Verif.Props
open Verif.Construct Verif.Net Verif.Spec Verif.Slog Verif.Decay

variable {K nion d : ℕ} {n : Fin (K + 1) → ℕ} {I : Set ℝ} {R : Fin nion → Fin d → ℝ} {N : ℕ} {i : Fin N}
  {l : Fin d}

local notation "Tame₁" => Tame I R i l (fun _ => 1)

/-! ### Layers -/

theorem activation_polyC (name : String) (k : ℕ) : PolyC k (activationValue name) := by
  unfold activationValue
  split
  · exact PolyC.tanh k
  · have h3 : PolyC k fun z => z ^ 3 := by
      have := (PolyC.id k).mul ((PolyC.id k).mul (PolyC.id k))
      simpa only [pow_succ, pow_zero, one_mul, mul_assoc] using this
    have ht := (PolyC.tanh k).comp ((PolyC.const k (Real.sqrt (2 / Real.pi))).mul
      ((PolyC.id k).add ((PolyC.const k 0.044715).mul h3)))
    have := ((PolyC.id k).mul (PolyC.const k (1 / 2))).mul ((PolyC.const k 1).add ht)
    simpa only [mul_one_div] using this

theorem activation_tame (name : String) {f : Pt N d → ℝ} (h : Tame₁ f) :
    Tame₁ fun q => activationValue name (f q) := h.comp (activation_polyC name 4)

theorem skipped_tame {w : Pt N d → ℝ} (hw : ∀ x, Ok I R x → 0 ≤ w x) {m m' : ℕ}
    (wanted : Bool) (scale : ℝ) {x : Pt N d → Fin m → ℝ}
    {y : Pt N d → Fin m' → ℝ} (hx : ∀ a, Tame I R i l w fun q => x q a)
    (hy : ∀ a, Tame I R i l w fun q => y q a) (j : Fin m') :
    Tame I R i l w fun q => skipped wanted scale (x q) (y q) j := by
  unfold skipped
  split
  · exact ((hy _).add hw (hx _)).const_mul hw _
  · exact hy j

theorem affine_tame {m m' : ℕ} (useBias : Bool) {P : ℝ → DenseParams m m'} (hP : DenseEntries (Par I) P)
    {x : Pt N d → Fin m → ℝ} (hx : ∀ a, Tame₁ fun q => x q a) (j : Fin m') :
    Tame₁ fun q => affine useBias (P q.1) (x q) j := by
  unfold affine
  refine (Tame.sum one_nonneg fun a _ => (hx a).par_mul one_nonneg (hP.kernel a j)).add one_nonneg ?_
  split
  · exact Tame.par (hP.bias j)
  · exact Tame.const 0

theorem hidden_tame (name : String) (useBias : Bool) {P : ℝ → ResNetParams}
    (hP : ResNetEntries (Par I) P) (m : ℕ) {m₀ : ℕ}
    {x : Pt N d → Fin m₀ → ℝ} (hx : ∀ a, Tame₁ fun q => x q a) (b : ℕ) (j : Fin m) :
    Tame₁ fun q => hiddenLayer name useBias (P q.1) m (x q) b j := by
  induction b generalizing j with
  | zero =>
    exact skipped_tame one_nonneg true 1 hx (fun a => activation_tame name (affine_tame _ (hP.inner 0 _ m) hx a)) j
  | succ b ih => exact (activation_tame name (affine_tame _ (hP.inner (b + 1) m m) ih j)).add one_nonneg (ih j)

theorem resnet_tame (name : String) (useBias : Bool) (m layers : ℕ) {P : ℝ → ResNetParams}
    (hP : ResNetEntries (Par I) P) (out : ℕ) {m₀ : ℕ} {x : Pt N d → Fin m₀ → ℝ} (hx : ∀ a, Tame₁ fun q => x q a)
    (j : Fin out) : Tame₁ fun q => resnetValue name useBias m layers (P q.1) out (x q) j := by
  unfold resnetValue
  split
  · exact Tame.sum one_nonneg fun a _ => (hx a).par_mul one_nonneg ((hP.final m₀ out).kernel a j)
  · exact Tame.sum one_nonneg fun a _ =>
      (hidden_tame name useBias hP m hx _ a).par_mul one_nonneg ((hP.final m out).kernel a j)

theorem attention_tame {m H m' L : ℕ} {A : ℝ → Attention m H m'} (hA : AttentionEntries (Par I) A)
    {x : Pt N d → Fin L → Fin m → ℝ} (hx : ∀ b a, Tame₁ fun q => x q b a) (b : Fin L)
    (c : Fin m') : Tame₁ fun q => attentionValue (A q.1) (x q) b c := by
  have hproj : ∀ (W : ℝ → Fin m → Fin H → Fin m' → ℝ) (b : ℝ → Fin H → Fin m' → ℝ)
      (_ : ∀ k h a, Par I fun θ => W θ k h a) (_ : ∀ h a, Par I fun θ => b θ h a) (j : Fin L)
      (h : Fin H) (a : Fin m'), Tame₁ fun q => (∑ k, x q j k * W q.1 k h a) + b q.1 h a :=
    fun W b hW hb j h a => (Tame.sum one_nonneg fun k _ => (hx j k).mul_par one_nonneg (hW k h a)).add
      one_nonneg (Tame.par (hb h a))
  unfold attentionValue
  have hw : ∀ h j, Tame₁ fun q => (∑ a,
      ((∑ k, x q b k * (A q.1).qKernel k h a) + (A q.1).qBias h a) *
        ((∑ k, x q j k * (A q.1).kKernel k h a) + (A q.1).kBias h a)) / Real.sqrt m' := fun h j =>
    (Tame.sum one_nonneg fun a _ =>
      (hproj _ _ hA.qKernel hA.qBias b h a).mul_one one_nonneg
        (hproj _ _ hA.kKernel hA.kBias j h a)).div_const one_nonneg _
  refine (Tame.par (hA.oBias c)).add one_nonneg (Tame.sum one_nonneg fun h _ =>
    Tame.sum one_nonneg fun a _ => Tame.par_mul one_nonneg (hA.oKernel h a c) ?_)
  have e : ∀ (s v : Fin L → ℝ), (∑ j, Real.exp (s j) * v j) / ∑ j, Real.exp (s j) =
      ∑ j, (∑ j', Real.exp (s j' - s j))⁻¹ * v j := by
    intro s v
    rw [Finset.sum_div]
    refine Finset.sum_congr rfl fun j _ => ?_
    simp only [Real.exp_sub, ← Finset.sum_div]
    rw [inv_div]
    ring
  simp only [e]
  exact Tame.sum one_nonneg fun j _ => (Tame.inv_sum_exp j (fun q => sub_self _) fun j' =>
    (hw h j').sub one_nonneg (hw h j)).mul_one one_nonneg (hproj _ _ hA.vKernel hA.vBias j h a)

theorem mean_tame {w : Pt N d → ℝ} (hw : ∀ x, Ok I R x → 0 ≤ w x) {m : ℕ}
    {x : Pt N d → Elec n → Fin m → ℝ}
    (hx : ∀ e a, Tame I R i l w fun q => x q e a) (s : Fin (K + 1)) (a : Fin m) :
    Tame I R i l w fun q => speciesMean (x q) s a :=
  (Tame.sum hw fun _ _ => hx _ _).div_const hw _

theorem one_tame {m₁ m₂ m H : ℕ} (c : BackflowCfg) {P : ℝ → OneParams (K + 1) m₁ m₂ m H}
    (hP : OneEntries (Par I) P)
    {x : Pt N d → Stream1 n m₁} {y : Option (Pt N d → Stream2 n m₂)}
    (hx : ∀ e a, Tame₁ fun q => x q e a)
    (hy : ∀ f, y = some f → ∀ e e' a, Tame₁ fun q => f q e e' a) (e : Elec n)
    (j : Fin m) : Tame₁ fun q => oneValue c (P q.1) (x q) (y.map fun f => f q) e j := by
  unfold oneValue
  refine skipped_tame one_nonneg _ _ (hx e) (fun j => activation_tame _ (((?_ : Tame₁ _).add one_nonneg
    (?_ : Tame₁ _)).add one_nonneg (?_ : Tame₁ _))) j
  · refine (Tame.sum one_nonneg fun a _ => (hx e a).mul_par one_nonneg (hP.unmixedKernel a j)).add
      one_nonneg ?_
    split
    · exact Tame.par (hP.bias j)
    · exact Tame.const 0
  · split
    · exact attention_tame hP.attention (fun i a => hx ⟨e.1, i⟩ a) e.2 j
    · exact Tame.sum one_nonneg fun p _ => Tame.sum one_nonneg fun a _ =>
        (mean_tame one_nonneg hx _ _).mul_par one_nonneg (hP.mixedKernel (p, a) j)
  · cases y with
    | none => exact Tame.const _
    | some f =>
      exact Tame.sum one_nonneg fun p _ => Tame.sum one_nonneg fun a _ =>
        (mean_tame one_nonneg (x := fun q => f q e) (fun e' a => hy f rfl e e' a) _ _).mul_par
          one_nonneg (hP.kernel2e (p, a) j)

theorem two_tame {m₂ m : ℕ} (c : BackflowCfg) {P : ℝ → DenseParams m₂ m} (hP : DenseEntries (Par I) P)
    {y : Pt N d → Stream2 n m₂} (hy : ∀ e e' a, Tame₁ fun q => y q e e' a)
    (e e' : Elec n) (j : Fin m) : Tame₁ fun q => twoValue c (P q.1) (y q) e e' j :=
  skipped_tame one_nonneg _ _ (hy e e')
    (fun j => activation_tame _ (affine_tame _ hP (hy e e') j)) j

theorem backflow_tame (c : BackflowCfg) {P : ℝ → BackflowParams (K + 1)}
    (hP : BackflowEntries (Par I) P) (ws : List (List ℕ)) :
    ∀ {b m₁ m₂ m : ℕ} (x : Pt N d → Stream1 n m₁)
      (y : Option (Pt N d → Stream2 n m₂)) (z : Pt N d → Stream1 n m),
      (∀ q, BackflowValue c (P q.1) b ws (x q) (y.map fun f => f q) (z q)) →
      (∀ e a, Tame₁ fun q => x q e a) →
      (∀ f, y = some f → ∀ e e' a, Tame₁ fun q => f q e e' a) →
      ∀ e a, Tame₁ fun q => z q e a := by
  induction ws with
  | nil =>
    intro b m₁ m₂ m x y z h hx _ e a
    obtain rfl : m = m₁ := congrArg Sigma.fst (backflow_inv_nil (h 0))
    have : z = x := funext fun q => eq_of_heq (Sigma.mk.inj (backflow_inv_nil (h q))).2
    rw [this]
    exact hx e a
  | cons t ws ih =>
    intro b m₁ m₂ m x y z h hx hy
    match t, h with
    | [], h => cases h 0
    | [u], h =>
      exact ih _ y z (fun q => backflow_inv_one (h q)) (one_tame c (hP.one b m₁ m₂ u c.numHeads) hx hy) hy
    | u :: v :: rest, h =>
      have h1 := one_tame c (hP.one b m₁ m₂ u c.numHeads) hx hy
      cases y with
      | none =>
        refine ih (b := b + 1) (m₂ := v) _ none z (fun q => ?_) h1 (fun _ h => by cases h)
        exact backflow_inv_two (h q)
      | some g =>
        refine ih (b := b + 1) (m₂ := v) _ (some fun q => twoValue c ((P q.1).two b m₂ v) (g q)) z
          (fun q => ?_) h1 ?_
        · exact backflow_inv_two (h q)
        · intro f hf
          obtain rfl := Option.some.inj hf
          exact two_tame c (hP.two b m₂ v) (hy g rfl)

/-! ### Inputs -/

theorem distance_eq_softDist (a b : Fin d → ℝ) : distance a b = softDist 0 a b := by
  unfold distance softDist
  congr 1
  ring

section inputs

variable {i : Fin (∑ s, n s)}

local notation "Tame₁'" => Tame I R i l (fun _ => 1)

theorem split_coord_tame (e : Elec n) (a : Fin d) :
    Tame₁' fun q => splitPositions (n := n) q.2 e a := Tame.coord _ a

theorem split_ion_tame (e : Elec n) (j : Fin nion) :
    Tame₁' fun q => distance (splitPositions (n := n) q.2 e) (R j) := by
  simp only [distance_eq_softDist]
  exact Tame.ion_distance (finSigmaFinEquiv e) j

theorem split_pair_tame (e e' : Elec n) :
    Tame₁' fun q => distance (splitPositions (n := n) q.2 e) (splitPositions q.2 e') := by
  simp only [distance_eq_softDist]
  exact Tame.pair_distance (finSigmaFinEquiv e) (finSigmaFinEquiv e')

theorem one_input_tame {x : Pt (∑ s, n s) d → Stream1 n (nion * (d + 1))}
    (hx : ∀ q, OneInput R (splitPositions q.2) (x q)) (e : Elec n) (a : Fin (nion * (d + 1))) :
    Tame₁' fun q => x q e a := by
  have ha : a.val = a.divNat.val * (d + 1) + a.modNat.val := by
    simp only [Fin.coe_divNat, Fin.coe_modNat]
    exact (Nat.div_add_mod' _ _).symm
  by_cases hk : a.modNat.val = d
  · simp only [fun q => (hx q).distance e a.divNat a (by omega)]
    exact split_ion_tame e _
  · have hk' : a.modNat.val < d := by have := a.modNat.2; omega
    simp only [fun q => (hx q).displacement e a.divNat ⟨a.modNat, hk'⟩ a ha]
    exact (split_coord_tame e _).sub one_nonneg (Tame.const _)

theorem two_input_tame {c : StreamsCfg}
    {y : Pt (∑ s, n s) d → Option (Stream2 n (if c.includeEeNorm = true then d + 1 else d))}
    (hy : ∀ q, TwoInput c (splitPositions q.2) (y q)) :
    ∃ y' : Option (Pt (∑ s, n s) d → Stream2 n (if c.includeEeNorm = true then d + 1 else d)),
      (∀ q, y q = y'.map fun f => f q) ∧
      ∀ f, y' = some f → ∀ e e' a, Tame₁' fun q => f q e e' a := by
  cases hc : c.include2eStream with
  | false => exact ⟨none, fun q => (hy q).none hc, fun _ h => by cases h⟩
  | true =>
    choose z hz h1 h2 using fun q => (hy q).some hc
    refine ⟨some z, hz, fun f hf => ?_⟩
    obtain rfl := Option.some.inj hf
    intro e e' a
    by_cases ha : a.val = d
    · simp only [fun q => h2 q e e' a ha]
      exact split_pair_tame e e'
    · have ha' : a.val < d := by
        have := a.2
        split at this <;> omega
      simp only [fun q => h1 q e e' ⟨a, ha'⟩ a rfl]
      exact (split_coord_tame e _).sub one_nonneg (split_coord_tame e' _)

theorem features_tame {s : StreamsCfg} {c : BackflowCfg}
    {P : ℝ → BackflowParams (K + 1)} (hP : BackflowEntries (Par I) P) {m : ℕ} {z : Pt (∑ s, n s) d → Stream1 n m}
    (hz : ∀ q, Features s c (P q.1) R (splitPositions q.2) (z q)) (e : Elec n) (a : Fin m) :
    Tame₁' fun q => z q e a := by
  choose x y hx hy hz using hz
  obtain ⟨y', h1, h2⟩ := two_input_tame (I := I) (R := R) (i := i) (l := l) hy
  refine backflow_tame c hP c.ndenseList (b := 0) x y' z (fun q => ?_) (one_input_tame hx) h2 e a
  rw [← h1]
  exact hz q

end inputs

/-- The features of a family of positions, with one width. -/
theorem features_family_tame {s : StreamsCfg} {c : BackflowCfg}
    {P : ℝ → BackflowParams (K + 1)} (hP : BackflowEntries (Par I) P) {Q : Pt (∑ s, n s) d → ∀ m, Stream1 n m → Prop}
    (hQ : ∀ q, ∃ m z, Features s c (P q.1) R (splitPositions q.2) z ∧ Q q m z) :
    ∃ m, ∃ z : Pt (∑ s, n s) d → Stream1 n m,
      (∀ q, Features s c (P q.1) R (splitPositions q.2) (z q)) ∧
      (∀ i l e a, Tame I R i l (fun _ => 1) fun q => z q e a) ∧ ∀ q, Q q m (z q) := by
  have : ∀ q, ∃ z : Stream1 n (featureWidth c.ndenseList (nion * (d + 1))),
      Features s c (P q.1) R (splitPositions q.2) z ∧ Q q _ z := by
    intro q
    obtain ⟨m, z, h1, h2⟩ := hQ q
    obtain rfl := features_width h1
    exact ⟨z, h1, h2⟩
  choose z hz using this
  exact ⟨_, z, fun q => (hz q).1, fun i l => features_tame hP fun q => (hz q).1, fun q => (hz q).2⟩

end Verif.Props
