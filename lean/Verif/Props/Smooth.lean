import Verif.Props.ConstructUnique
import Verif.Props.LocalEnergy
import Verif.Spec.Quantum
import Mathlib.Analysis.SpecialFunctions.Sqrt
import Mathlib.Analysis.SpecialFunctions.ExpDeriv
import Mathlib.Analysis.SpecialFunctions.Log.Deriv
import Mathlib.Analysis.SpecialFunctions.Trigonometric.DerivHyp
import Mathlib.Analysis.Calculus.ContDiff.Operations

/-!
C86: configured FermiNets are smooth functions of the positions wherever particles are apart, and
there the local kinetic energy is `-½ ∇²ψ/ψ`.
-/

namespace Verif.Props
open Verif.Construct Verif.Net Verif.Spec Verif.Slog

variable {K nion d : ℕ} {n : Fin (K + 1) → ℕ}
variable {E : Type*} [NormedAddCommGroup E] [NormedSpace ℝ E] {k : WithTop ℕ∞} {p : E}

/-! ### Layers -/

theorem tanh_contDiff : ContDiff ℝ k Real.tanh := by
  have : Real.tanh = fun x => Real.sinh x / Real.cosh x := funext Real.tanh_eq_sinh_div_cosh
  rw [this]
  exact Real.contDiff_sinh.div Real.contDiff_cosh fun x => (Real.cosh_pos x).ne'

theorem activation_smooth (name : String) {f : E → ℝ} (h : ContDiffAt ℝ k f p) :
    ContDiffAt ℝ k (fun q => activationValue name (f q)) p := by
  unfold activationValue
  split
  · exact tanh_contDiff.contDiffAt.comp p h
  · refine (h.div_const 2).mul (contDiffAt_const.add (tanh_contDiff.contDiffAt.comp p ?_))
    exact contDiffAt_const.mul (h.add (contDiffAt_const.mul (h.pow 3)))

theorem skipped_smooth {m m' : ℕ} (wanted : Bool) (scale : ℝ) {x : E → Fin m → ℝ}
    {y : E → Fin m' → ℝ} (hx : ∀ a, ContDiffAt ℝ k (fun q => x q a) p)
    (hy : ∀ a, ContDiffAt ℝ k (fun q => y q a) p) (j : Fin m') :
    ContDiffAt ℝ k (fun q => skipped wanted scale (x q) (y q) j) p := by
  unfold skipped
  split
  · exact contDiffAt_const.mul ((hy _).add (hx _))
  · exact hy j

theorem affine_smooth {m m' : ℕ} (useBias : Bool) (P : DenseParams m m') {x : E → Fin m → ℝ}
    (hx : ∀ a, ContDiffAt ℝ k (fun q => x q a) p) (j : Fin m') :
    ContDiffAt ℝ k (fun q => affine useBias P (x q) j) p := by
  unfold affine
  exact (ContDiffAt.sum fun a _ => contDiffAt_const.mul (hx a)).add contDiffAt_const

theorem hidden_smooth (name : String) (useBias : Bool) (P : ResNetParams) (m : ℕ) {m₀ : ℕ}
    {x : E → Fin m₀ → ℝ} (hx : ∀ a, ContDiffAt ℝ k (fun q => x q a) p) (l : ℕ) (j : Fin m) :
    ContDiffAt ℝ k (fun q => hiddenLayer name useBias P m (x q) l j) p := by
  induction l generalizing j with
  | zero =>
    exact skipped_smooth true 1 hx (fun a => activation_smooth name (affine_smooth _ _ hx a)) j
  | succ l ih => exact (activation_smooth name (affine_smooth _ _ ih j)).add (ih j)

theorem resnet_smooth (name : String) (useBias : Bool) (m layers : ℕ) (P : ResNetParams) (out : ℕ)
    {m₀ : ℕ} {x : E → Fin m₀ → ℝ} (hx : ∀ a, ContDiffAt ℝ k (fun q => x q a) p) (j : Fin out) :
    ContDiffAt ℝ k (fun q => resnetValue name useBias m layers P out (x q) j) p := by
  unfold resnetValue
  split
  · exact ContDiffAt.sum fun a _ => contDiffAt_const.mul (hx a)
  · exact ContDiffAt.sum fun a _ => contDiffAt_const.mul (hidden_smooth name useBias P m hx _ a)

theorem attention_smooth {m H m' N : ℕ} (A : Attention m H m') {x : E → Fin N → Fin m → ℝ}
    (hx : ∀ i a, ContDiffAt ℝ k (fun q => x q i a) p) (i : Fin N) (c : Fin m') :
    ContDiffAt ℝ k (fun q => attentionValue A (x q) i c) p := by
  have hproj : ∀ (W : Fin m → Fin H → Fin m' → ℝ) (b : Fin H → Fin m' → ℝ) (j : Fin N) (h : Fin H)
      (a : Fin m'), ContDiffAt ℝ k (fun q => (∑ k, x q j k * W k h a) + b h a) p := fun W b j h a =>
    (ContDiffAt.sum fun l _ => (hx j l).mul contDiffAt_const).add contDiffAt_const
  unfold attentionValue
  have hw : ∀ h j, ContDiffAt ℝ k (fun q => Real.exp ((∑ a,
      ((∑ k, x q i k * A.qKernel k h a) + A.qBias h a) *
        ((∑ k, x q j k * A.kKernel k h a) + A.kBias h a)) / Real.sqrt m')) p := fun h j =>
    ((ContDiffAt.sum fun a _ => (hproj _ _ i h a).mul (hproj _ _ j h a)).div_const _).exp
  refine contDiffAt_const.add (ContDiffAt.sum fun h _ => ContDiffAt.sum fun a _ =>
    contDiffAt_const.mul (ContDiffAt.div (ContDiffAt.sum fun j _ => (hw h j).mul (hproj _ _ j h a))
      (ContDiffAt.sum fun j _ => hw h j) ?_))
  exact (Finset.sum_pos (fun _ _ => Real.exp_pos _) ⟨i, Finset.mem_univ i⟩).ne'

theorem mean_smooth {m : ℕ} {x : E → Elec n → Fin m → ℝ}
    (hx : ∀ e a, ContDiffAt ℝ k (fun q => x q e a) p) (s : Fin (K + 1)) (a : Fin m) :
    ContDiffAt ℝ k (fun q => speciesMean (x q) s a) p :=
  (ContDiffAt.sum fun _ _ => hx _ _).div_const _

theorem one_smooth {m₁ m₂ m H : ℕ} (c : BackflowCfg) (P : OneParams (K + 1) m₁ m₂ m H)
    {x : E → Stream1 n m₁} {y : Option (E → Stream2 n m₂)}
    (hx : ∀ e a, ContDiffAt ℝ k (fun q => x q e a) p)
    (hy : ∀ f, y = some f → ∀ e e' a, ContDiffAt ℝ k (fun q => f q e e' a) p) (e : Elec n)
    (j : Fin m) : ContDiffAt ℝ k (fun q => oneValue c P (x q) (y.map fun f => f q) e j) p := by
  unfold oneValue
  refine skipped_smooth _ _ (hx e) (fun j => activation_smooth _ (((?_ : ContDiffAt ℝ k _ p).add
    (?_ : ContDiffAt ℝ k _ p)).add (?_ : ContDiffAt ℝ k _ p))) j
  · exact (ContDiffAt.sum fun a _ => (hx e a).mul contDiffAt_const).add contDiffAt_const
  · split
    · exact attention_smooth _ (fun i a => hx ⟨e.1, i⟩ a) e.2 j
    · exact ContDiffAt.sum fun _ _ => ContDiffAt.sum fun _ _ =>
        (mean_smooth hx _ _).mul contDiffAt_const
  · cases y with
    | none => exact contDiffAt_const
    | some f =>
      exact ContDiffAt.sum fun _ _ => ContDiffAt.sum fun _ _ =>
        (mean_smooth (x := fun q => f q e) (fun e' a => hy f rfl e e' a) _ _).mul contDiffAt_const

theorem two_smooth {m₂ m : ℕ} (c : BackflowCfg) (P : DenseParams m₂ m) {y : E → Stream2 n m₂}
    (hy : ∀ e e' a, ContDiffAt ℝ k (fun q => y q e e' a) p) (e e' : Elec n) (j : Fin m) :
    ContDiffAt ℝ k (fun q => twoValue c P (y q) e e' j) p :=
  skipped_smooth _ _ (hy e e') (fun j => activation_smooth _ (affine_smooth _ _ (hy e e') j)) j

/-! ### Backflows -/

theorem backflow_inv_nil {c : BackflowCfg} {P : BackflowParams (K + 1)} {i m₁ m₂ m : ℕ}
    {x : Stream1 n m₁} {y : Option (Stream2 n m₂)} {z : Stream1 n m}
    (h : BackflowValue c P i [] x y z) : (⟨m, z⟩ : Σ m, Stream1 n m) = ⟨m₁, x⟩ := by
  cases h
  rfl

theorem backflow_inv_one {c : BackflowCfg} {P : BackflowParams (K + 1)} {i m₁ m₂ m u : ℕ}
    {ws : List (List ℕ)} {x : Stream1 n m₁} {y : Option (Stream2 n m₂)} {z : Stream1 n m}
    (h : BackflowValue c P i ([u] :: ws) x y z) :
    BackflowValue c P (i + 1) ws (oneValue c (P.one i m₁ m₂ u c.numHeads) x y) y z := by
  cases h with
  | one _ _ _ h => exact h

theorem backflow_inv_two {c : BackflowCfg} {P : BackflowParams (K + 1)} {i m₁ m₂ m u v : ℕ}
    {rest : List ℕ} {ws : List (List ℕ)} {x : Stream1 n m₁} {y : Option (Stream2 n m₂)}
    {z : Stream1 n m} (h : BackflowValue c P i ((u :: v :: rest) :: ws) x y z) :
    BackflowValue c P (i + 1) ws (oneValue c (P.one i m₁ m₂ u c.numHeads) x y)
      (y.map (twoValue c (P.two i m₂ v))) z := by
  cases h with
  | two _ _ _ h => exact h

theorem backflow_smooth (c : BackflowCfg) (P : BackflowParams (K + 1)) (ws : List (List ℕ)) :
    ∀ {i m₁ m₂ m : ℕ} (x : E → Stream1 n m₁) (y : Option (E → Stream2 n m₂)) (z : E → Stream1 n m),
      (∀ q, BackflowValue c P i ws (x q) (y.map fun f => f q) (z q)) →
      (∀ e a, ContDiffAt ℝ k (fun q => x q e a) p) →
      (∀ f, y = some f → ∀ e e' a, ContDiffAt ℝ k (fun q => f q e e' a) p) →
      ∀ e a, ContDiffAt ℝ k (fun q => z q e a) p := by
  induction ws with
  | nil =>
    intro i m₁ m₂ m x y z h hx _ e a
    obtain rfl : m = m₁ := congrArg Sigma.fst (backflow_inv_nil (h p))
    have : z = x := funext fun q => eq_of_heq (Sigma.mk.inj (backflow_inv_nil (h q))).2
    rw [this]
    exact hx e a
  | cons t ws ih =>
    intro i m₁ m₂ m x y z h hx hy
    match t, h with
    | [], h => cases h p
    | [u], h =>
      exact ih _ y z (fun q => backflow_inv_one (h q)) (one_smooth c _ hx hy) hy
    | u :: v :: rest, h =>
      have h1 := one_smooth c (P.one i m₁ m₂ u c.numHeads) hx hy
      cases y with
      | none =>
        refine ih (i := i + 1) (m₂ := v) _ none z (fun q => ?_) h1 (fun _ h => by cases h)
        exact backflow_inv_two (h q)
      | some g =>
        refine ih (i := i + 1) (m₂ := v) _ (some fun q => twoValue c (P.two i m₂ v) (g q)) z
          (fun q => ?_) h1 ?_
        · exact backflow_inv_two (h q)
        · intro f hf
          obtain rfl := Option.some.inj hf
          exact two_smooth c _ (hy g rfl)

/-- The width of the features. -/
def featureWidth : List (List ℕ) → ℕ → ℕ
  | [], m => m
  | t :: ws, m => featureWidth ws (t.headD m)

theorem backflow_width {c : BackflowCfg} {P : BackflowParams (K + 1)} {i : ℕ} {ws : List (List ℕ)}
    {m₁ m₂ m : ℕ} {x : Stream1 n m₁} {y : Option (Stream2 n m₂)} {z : Stream1 n m}
    (h : BackflowValue c P i ws x y z) : m = featureWidth ws m₁ := by
  induction h with
  | done => rfl
  | one _ _ _ _ ih => exact ih
  | two _ _ _ _ ih => exact ih

/-! ### Inputs -/

/-- Electrons at different places, none of them at an ion. -/
structure ParticlesApart (ions : Fin nion → Fin d → ℝ) (pos : Stream1 n d) : Prop where
  electrons : ∀ e e', e ≠ e' → pos e ≠ pos e'
  ions : ∀ e j, pos e ≠ ions j

variable {ions : Fin nion → Fin d → ℝ} {pos : E → Stream1 n d}

theorem sum_sq_ne_zero {m : ℕ} {x y : Fin m → ℝ} (h : x ≠ y) : ∑ k, (x k - y k) ^ 2 ≠ 0 := by
  obtain ⟨k, hk⟩ := Function.ne_iff.mp h
  refine (Finset.sum_pos' (fun _ _ => sq_nonneg _) ⟨k, Finset.mem_univ k, ?_⟩).ne'
  have := sub_ne_zero.mpr hk
  positivity

theorem ion_distance_smooth (h : ParticlesApart ions (pos p))
    (hp : ∀ e a, ContDiffAt ℝ k (fun q => pos q e a) p) (e : Elec n) (j : Fin nion) :
    ContDiffAt ℝ k (fun q => distance (pos q e) (ions j)) p := by
  unfold distance
  exact ContDiffAt.sqrt (ContDiffAt.sum fun l _ => ((hp e l).sub contDiffAt_const).pow 2)
    (sum_sq_ne_zero (h.ions e _))

theorem pair_distance_smooth (h : ParticlesApart ions (pos p))
    (hp : ∀ e a, ContDiffAt ℝ k (fun q => pos q e a) p) (e e' : Elec n) :
    ContDiffAt ℝ k (fun q => distance (pos q e) (pos q e')) p := by
  unfold distance
  by_cases he : e = e'
  · subst he
    simp only [sub_self]
    exact contDiffAt_const
  · exact ContDiffAt.sqrt (ContDiffAt.sum fun l _ => ((hp e l).sub (hp e' l)).pow 2)
      (sum_sq_ne_zero (h.electrons e e' he))

theorem one_input_smooth (h : ParticlesApart ions (pos p))
    (hp : ∀ e a, ContDiffAt ℝ k (fun q => pos q e a) p) {x : E → Stream1 n (nion * (d + 1))}
    (hx : ∀ q, OneInput ions (pos q) (x q)) (e : Elec n) (a : Fin (nion * (d + 1))) :
    ContDiffAt ℝ k (fun q => x q e a) p := by
  have ha : a.val = a.divNat.val * (d + 1) + a.modNat.val := by
    simp only [Fin.coe_divNat, Fin.coe_modNat]
    exact (Nat.div_add_mod' _ _).symm
  by_cases hk : a.modNat.val = d
  · simp only [fun q => (hx q).distance e a.divNat a (by omega)]
    exact ion_distance_smooth h hp e _
  · have hk' : a.modNat.val < d := by have := a.modNat.2; omega
    simp only [fun q => (hx q).displacement e a.divNat ⟨_, hk'⟩ a ha]
    exact (hp e _).sub contDiffAt_const

theorem two_input_smooth (h : ParticlesApart ions (pos p))
    (hp : ∀ e a, ContDiffAt ℝ k (fun q => pos q e a) p) {c : StreamsCfg}
    {y : E → Option (Stream2 n (if c.includeEeNorm = true then d + 1 else d))}
    (hy : ∀ q, TwoInput c (pos q) (y q)) :
    ∃ y' : Option (E → Stream2 n (if c.includeEeNorm = true then d + 1 else d)),
      (∀ q, y q = y'.map fun f => f q) ∧
      ∀ f, y' = some f → ∀ e e' a, ContDiffAt ℝ k (fun q => f q e e' a) p := by
  cases hc : c.include2eStream with
  | false => exact ⟨none, fun q => (hy q).none hc, fun _ h => by cases h⟩
  | true =>
    choose z hz h1 h2 using fun q => (hy q).some hc
    refine ⟨some z, hz, fun f hf e e' a => ?_⟩
    cases hf
    by_cases hk : a.val = d
    · simp only [fun q => h2 q e e' a hk]
      exact pair_distance_smooth h hp e e'
    · have hk' : a.val < d := by
        have := a.2
        split at this <;> omega
      simp only [fun q => h1 q e e' ⟨_, hk'⟩ a rfl]
      exact (hp e _).sub (hp e' _)

theorem features_smooth (h : ParticlesApart ions (pos p))
    (hp : ∀ e a, ContDiffAt ℝ k (fun q => pos q e a) p) {s : StreamsCfg} {c : BackflowCfg}
    {P : BackflowParams (K + 1)} {m : ℕ} {z : E → Stream1 n m}
    (hz : ∀ q, Features s c P ions (pos q) (z q)) (e : Elec n) (a : Fin m) :
    ContDiffAt ℝ k (fun q => z q e a) p := by
  choose x y hx hy hz using hz
  obtain ⟨y', h1, h2⟩ := two_input_smooth (k := k) h hp hy
  refine backflow_smooth c P c.ndenseList (i := 0) x y' z (fun q => ?_)
    (one_input_smooth h hp hx) h2 e a
  rw [← h1]
  exact hz q

theorem features_width {s : StreamsCfg} {c : BackflowCfg} {P : BackflowParams (K + 1)} {m : ℕ}
    {x : Stream1 n d} {z : Stream1 n m} (hz : Features s c P ions x z) :
    m = featureWidth c.ndenseList (nion * (d + 1)) := by
  obtain ⟨x, y, -, -, h⟩ := hz
  exact backflow_width h

/-- The features of a family of positions, with one width. -/
theorem features_family (h : ParticlesApart ions (pos p))
    (hp : ∀ e a, ContDiffAt ℝ k (fun q => pos q e a) p) {s : StreamsCfg} {c : BackflowCfg}
    {P : BackflowParams (K + 1)} {Q : E → ∀ m, Stream1 n m → Prop}
    (hQ : ∀ q, ∃ m z, Features s c P ions (pos q) z ∧ Q q m z) :
    ∃ m, ∃ z : E → Stream1 n m, (∀ q, Features s c P ions (pos q) (z q)) ∧
      (∀ e a, ContDiffAt ℝ k (fun q => z q e a) p) ∧ ∀ q, Q q m (z q) := by
  have : ∀ q, ∃ z : Stream1 n (featureWidth c.ndenseList (nion * (d + 1))),
      Features s c P ions (pos q) z ∧ Q q _ z := by
    intro q
    obtain ⟨m, z, h1, h2⟩ := hQ q
    obtain rfl := features_width h1
    exact ⟨z, h1, h2⟩
  choose z hz using this
  exact ⟨_, z, fun q => (hz q).1, features_smooth h hp fun q => (hz q).1, fun q => (hz q).2⟩

/-! ### Orbitals and determinants -/

/-- An envelope without kink away from the ions: its lengths are softened, or its decay is
isotropic, or the matrices which scale displacements are invertible. -/
def EnvelopeRegular (softening : ℝ) (isotropic : Bool) (anisoK : Fin nion → Fin d → Fin d → ℝ) :
    Prop :=
  softening ≠ 0 ∨ isotropic = true ∨
    ∀ j (v : Fin d → ℝ), (∀ l', ∑ l, v l * anisoK j l l' = 0) → v = 0

theorem envelope_smooth (h : ParticlesApart ions (pos p))
    (hp : ∀ e a, ContDiffAt ℝ k (fun q => pos q e a) p) (isotropic : Bool) (softening isoK : ℝ)
    (anisoK : Fin nion → Fin d → Fin d → ℝ) (ionK : Fin nion → ℝ)
    (hr : EnvelopeRegular softening isotropic anisoK) (e : Elec n) :
    ContDiffAt ℝ k (fun q =>
      envelopeValue isotropic softening isoK anisoK ionK ions (pos q e)) p := by
  unfold envelopeValue
  refine ContDiffAt.sum fun j _ => contDiffAt_const.mul (contDiffAt_const.sub ?_).exp
  have hs : ContDiffAt ℝ k (fun q => softening ^ 2 + ∑ l',
      (if isotropic = true then isoK * (pos q e l' - ions j l')
        else ∑ l, (pos q e l - ions j l) * anisoK j l l') ^ 2) p := by
    refine contDiffAt_const.add (ContDiffAt.sum fun l' _ => ContDiffAt.pow ?_ 2)
    split
    · exact contDiffAt_const.mul ((hp e l').sub contDiffAt_const)
    · exact ContDiffAt.sum fun l _ => ((hp e l).sub contDiffAt_const).mul contDiffAt_const
  have hpos : ∀ f : Fin d → ℝ, (softening ≠ 0 ∨ ∃ l', f l' ≠ 0) →
      softening ^ 2 + ∑ l', f l' ^ 2 ≠ 0 := by
    intro f hf
    have h0 : 0 ≤ ∑ l', f l' ^ 2 := Finset.sum_nonneg fun _ _ => sq_nonneg _
    rcases hf with hf | ⟨l', hl⟩
    · positivity
    · have : 0 < ∑ l', f l' ^ 2 :=
        Finset.sum_pos' (fun _ _ => sq_nonneg _) ⟨l', Finset.mem_univ l', by positivity⟩
      positivity
  obtain ⟨l₀, hl₀⟩ := Function.ne_iff.mp (h.ions e j)
  by_cases hk : isotropic = true ∧ isoK = 0 ∧ softening = 0
  · obtain ⟨rfl, rfl, rfl⟩ := hk
    simp only [if_true, zero_mul]
    exact contDiffAt_const
  refine hs.sqrt (hpos _ ?_)
  by_cases h0 : softening = 0
  · right
    cases isotropic with
    | true =>
      refine ⟨l₀, ?_⟩
      simp only [if_true]
      exact mul_ne_zero (fun hk' => hk ⟨rfl, hk', h0⟩) (sub_ne_zero.mpr hl₀)
    | false =>
      have hinj := hr.resolve_left (fun h => h h0) |>.resolve_left (by simp)
      by_contra hc
      push Not at hc
      have : (fun l => pos p e l - ions j l) = 0 := hinj j _ fun l' => by
        have := hc l'
        simpa using this
      exact hl₀ (sub_eq_zero.mp (congrFun this l₀))
  · exact .inl h0

/-- All envelopes of a layer of orbitals are regular. -/
def LayerRegular (softening : ℝ) (isotropic : Bool) {S m : ℕ} {norb : Fin S → ℕ}
    (L : OrbitalLayer S m nion d norb) : Prop :=
  ∀ s o, EnvelopeRegular softening isotropic fun j l l' => L.anisoKernel s j l l' o

theorem orbital_smooth (h : ParticlesApart ions (pos p))
    (hp : ∀ e a, ContDiffAt ℝ k (fun q => pos q e a) p) {m : ℕ} {norb : Fin (K + 1) → ℕ}
    {useBias isotropic : Bool} {softening : ℝ} {L : OrbitalLayer (K + 1) m nion d norb}
    (hr : LayerRegular softening isotropic L) {z : E → Stream1 n m}
    (hz : ∀ e a, ContDiffAt ℝ k (fun q => z q e a) p) (s : Fin (K + 1)) (i : Fin (n s))
    (o : Fin (norb s)) :
    ContDiffAt ℝ k (fun q => orbitalValue useBias isotropic softening L ions (pos q) (z q) s i o)
      p := by
  unfold orbitalValue
  exact ((ContDiffAt.sum fun a _ => contDiffAt_const.mul (hz _ a)).add contDiffAt_const).mul
    (envelope_smooth h hp _ _ _ _ _ (hr s o) ⟨s, i⟩)

theorem det_smooth {N : ℕ} {M : E → Matrix (Fin N) (Fin N) ℝ}
    (h : ∀ a o, ContDiffAt ℝ k (fun q => M q a o) p) : ContDiffAt ℝ k (fun q => (M q).det) p := by
  simp only [Matrix.det_apply']
  exact ContDiffAt.sum fun σ _ => contDiffAt_const.mul (contDiffAt_prod fun a _ => h _ _)

theorem stacked_smooth {m : ℕ} {rows : E → ∀ s, Fin (n s) → Fin m → ℝ}
    {M : E → Matrix (Fin (∑ s, n s)) (Fin m) ℝ} (hM : ∀ q, Stacked (rows q) (M q))
    (h : ∀ s i o, ContDiffAt ℝ k (fun q => rows q s i o) p) (a : Fin (∑ s, n s)) (o : Fin m) :
    ContDiffAt ℝ k (fun q => M q a o) p := by
  obtain ⟨⟨s, b⟩, hb⟩ := finSigmaFinEquiv.surjective a
  have ha : ∀ q, M q a = rows q s b := fun q => hM q s b a (by
    rw [← hb, finSigmaFinEquiv_apply]
    rfl)
  simp only [ha]
  exact h s b o

theorem fermi_dets_inv {c : ModelCfg} {P : Params (K + 1) nion d} {N : ℕ}
    {D : Fin (N + 1) → Fin c.ndeterminants → ℝ} {pos : Stream1 n d}
    (h : FermiDets c P ions pos D) :
    (c.fullDet = false ∧ ∃ m, ∃ z : Stream1 n m,
      Features c.inputStreams c.backflow P.backflow ions pos z ∧
      (⟨N, D⟩ : Σ N, Fin (N + 1) → Fin c.ndeterminants → ℝ) =
        ⟨K, fun s i => Matrix.det (Matrix.of fun a o => orbitalValue c.orbitalsUseBias
          c.isotropicDecay c.envelopeSoftening (P.orbitals m fun s => c.ndeterminants * n s) ions pos
          z s a (blockEntry i o))⟩) ∨
    (c.fullDet = true ∧ ∃ m, ∃ z : Stream1 n m,
      Features c.inputStreams c.backflow P.backflow ions pos z ∧
      ∃ M : Fin c.ndeterminants → Matrix (Fin (∑ s, n s)) (Fin (∑ s, n s)) ℝ,
        (∀ i, Stacked (fun s a o => orbitalValue c.orbitalsUseBias c.isotropicDecay
          c.envelopeSoftening (P.orbitals m fun _ => c.ndeterminants * ∑ s, n s) ions pos z s a
          (blockEntry i o)) (M i)) ∧
        (⟨N, D⟩ : Σ N, Fin (N + 1) → Fin c.ndeterminants → ℝ) = ⟨0, fun _ i => (M i).det⟩) := by
  cases h with
  | split z D hf hz hD =>
    refine .inl ⟨hf, _, z, hz, ?_⟩
    congr 1
    funext s i
    exact hD s i
  | full z D M hf hz hM hD =>
    refine .inr ⟨hf, _, z, hz, M, hM, ?_⟩
    congr 1
    funext s i
    exact hD s i

theorem fermi_dets_smooth {c : ModelCfg} {P : Params (K + 1) nion d}
    (h : ParticlesApart ions (pos p)) (hp : ∀ e a, ContDiffAt ℝ k (fun q => pos q e a) p)
    (hr : ∀ m norb, LayerRegular c.envelopeSoftening c.isotropicDecay (P.orbitals m norb)) {N : ℕ}
    {D : E → Fin (N + 1) → Fin c.ndeterminants → ℝ}
    (hD : ∀ q, FermiDets c P ions (pos q) (D q)) (s : Fin (N + 1)) (i : Fin c.ndeterminants) :
    ContDiffAt ℝ k (fun q => D q s i) p := by
  cases hf : c.fullDet with
  | false =>
    obtain ⟨m, z, -, hz', hz⟩ := features_family h hp fun q => by
      obtain ⟨-, m, z, h1, h2⟩ | ⟨h, -⟩ := fermi_dets_inv (hD q)
      · exact ⟨m, z, h1, h2⟩
      · rw [hf] at h; cases h
    obtain rfl : N = K := congrArg Sigma.fst (hz p)
    have : ∀ q, D q = _ := fun q => eq_of_heq (Sigma.mk.inj (hz q)).2
    simp only [this]
    exact det_smooth fun a o => orbital_smooth h hp (hr _ _) hz' s a _
  | true =>
    obtain ⟨m, z, -, hz', hz⟩ := features_family h hp (Q := fun q m z =>
      ∃ M : Fin c.ndeterminants → Matrix (Fin (∑ s, n s)) (Fin (∑ s, n s)) ℝ,
        (∀ i, Stacked (fun s a o => orbitalValue c.orbitalsUseBias c.isotropicDecay
          c.envelopeSoftening (P.orbitals m fun _ => c.ndeterminants * ∑ s, n s) ions (pos q) z s a
          (blockEntry i o)) (M i)) ∧
        (⟨N, D q⟩ : Σ N, Fin (N + 1) → Fin c.ndeterminants → ℝ) = ⟨0, fun _ i => (M i).det⟩)
      fun q => by
        obtain ⟨h, -⟩ | ⟨-, m, z, h1, h2⟩ := fermi_dets_inv (hD q)
        · rw [hf] at h; cases h
        · exact ⟨m, z, h1, h2⟩
    choose M hM hDM using hz
    obtain rfl : N = 0 := congrArg Sigma.fst (hDM p)
    have : ∀ q, D q = _ := fun q => eq_of_heq (Sigma.mk.inj (hDM q)).2
    simp only [this]
    exact det_smooth (stacked_smooth (fun q => hM q i) fun s' b o =>
      orbital_smooth h hp (hr _ _) hz' s' b _)

theorem combined_inv {c : ModelCfg} {P : ResNetParams} {N : ℕ}
    {D : Fin (N + 1) → Fin c.ndeterminants → ℝ} {r : ℝ} (h : Combined c P D r) :
    (c.useDetResnet = false ∧ r = ∑ i, ∏ s, D s i) ∨
    (c.useDetResnet = true ∧ c.detResnet.mode.toUpper = "SIGN_COVARIANCE" ∧
      r = sumOverSigns (N + 1) fun e => (∏ s, e s) * detResnetValue c.detResnet P 1 D e 0) ∨
    (c.useDetResnet = true ∧ c.detResnet.mode.toUpper = "PARALLEL_EVEN" ∧
      r = ∑ i, (∏ s, D s i) * sumOverSigns (N + 1) fun e =>
        detResnetValue c.detResnet P c.ndeterminants D e i) ∨
    (c.useDetResnet = true ∧ c.detResnet.mode.toUpper = "PAIRWISE_EVEN" ∧
      ∃ D' : Fin 2 → Fin c.ndeterminants → ℝ,
        (⟨N, D⟩ : Σ N, Fin (N + 1) → Fin c.ndeterminants → ℝ) = ⟨1, D'⟩ ∧
        r = ∑ i, ∑ j, D' 0 i * D' 1 j * sumOverSigns 2 fun e =>
          detResnetValue c.detResnet P (c.ndeterminants * c.ndeterminants) D' e (blockEntry i j)) := by
  cases h with
  | plain D h => exact .inl ⟨h, rfl⟩
  | covariance D h h' => exact .inr (.inl ⟨h, h', rfl⟩)
  | parallel D h h' => exact .inr (.inr (.inl ⟨h, h', rfl⟩))
  | pairwise D h h' => exact .inr (.inr (.inr ⟨h, h', D, rfl, rfl⟩))

theorem det_resnet_smooth {N N' : ℕ} (c : DetResnetCfg) (P : ResNetParams) (out : ℕ)
    {D : E → Fin N → Fin N' → ℝ} (hD : ∀ s i, ContDiffAt ℝ k (fun q => D q s i) p) (e : Fin N → ℝ)
    (j : Fin out) : ContDiffAt ℝ k (fun q => detResnetValue c P out (D q) e j) p :=
  resnet_smooth _ _ _ _ _ _ (fun _ => contDiffAt_const.mul (hD _ _)) j

theorem combined_smooth {c : ModelCfg} {P : ResNetParams} {N : ℕ}
    {D : E → Fin (N + 1) → Fin c.ndeterminants → ℝ} {r : E → ℝ} (h : ∀ q, Combined c P (D q) (r q))
    (hD : ∀ s i, ContDiffAt ℝ k (fun q => D q s i) p) : ContDiffAt ℝ k r p := by
  cases hu : c.useDetResnet with
  | false =>
    have : r = fun q => ∑ i, ∏ s, D q s i := funext fun q => by
      rcases combined_inv (h q) with ⟨-, h⟩ | ⟨h, -⟩ | ⟨h, -⟩ | ⟨h, -⟩
      · exact h
      all_goals rw [hu] at h; cases h
    rw [this]
    exact ContDiffAt.sum fun i _ => contDiffAt_prod fun s _ => hD s i
  | true =>
    rcases combined_inv (h p) with ⟨h0, -⟩ | ⟨-, hm, -⟩ | ⟨-, hm, -⟩ | ⟨-, hm, D', hN, -⟩
    · rw [hu] at h0; cases h0
    · have : r = fun q => sumOverSigns (N + 1) fun e =>
          (∏ s, e s) * detResnetValue c.detResnet P 1 (D q) e 0 := funext fun q => by
        rcases combined_inv (h q) with ⟨h, -⟩ | ⟨-, -, h⟩ | ⟨-, h, -⟩ | ⟨-, h, -⟩
        · rw [hu] at h; cases h
        · exact h
        all_goals rw [hm] at h; simp at h
      rw [this]
      exact ContDiffAt.sum fun e _ => contDiffAt_const.mul (det_resnet_smooth _ _ _ hD _ _)
    · have : r = fun q => ∑ i, (∏ s, D q s i) * sumOverSigns (N + 1) fun e =>
          detResnetValue c.detResnet P c.ndeterminants (D q) e i := funext fun q => by
        rcases combined_inv (h q) with ⟨h, -⟩ | ⟨-, h, -⟩ | ⟨-, -, h⟩ | ⟨-, h, -⟩
        · rw [hu] at h; cases h
        · rw [hm] at h; simp at h
        · exact h
        · rw [hm] at h; simp at h
      rw [this]
      exact ContDiffAt.sum fun i _ => (contDiffAt_prod fun s _ => hD s i).mul
        (ContDiffAt.sum fun e _ => det_resnet_smooth _ _ _ hD _ _)
    · obtain rfl : N = 1 := congrArg Sigma.fst hN
      have : r = fun q => ∑ i, ∑ j, D q 0 i * D q 1 j * sumOverSigns 2 fun e =>
          detResnetValue c.detResnet P (c.ndeterminants * c.ndeterminants) (D q) e
            (blockEntry i j) := funext fun q => by
        rcases combined_inv (h q) with ⟨h, -⟩ | ⟨-, h, -⟩ | ⟨-, h, -⟩ | ⟨-, -, D', hD', h⟩
        · rw [hu] at h; cases h
        · rw [hm] at h; simp at h
        · rw [hm] at h; simp at h
        · obtain rfl : D q = D' := eq_of_heq (Sigma.mk.inj hD').2
          exact h
      rw [this]
      exact ContDiffAt.sum fun i _ => ContDiffAt.sum fun j _ => ((hD 0 i).mul (hD 1 j)).mul
        (ContDiffAt.sum fun e _ => det_resnet_smooth _ _ _ hD _ _)

/-- Determinants of a family of positions, with one number of matrices. -/
theorem fermi_dets_size {c : ModelCfg} {P : Params (K + 1) nion d} {pos : Stream1 n d} {N : ℕ}
    {D : Fin (N + 1) → Fin c.ndeterminants → ℝ} (h : FermiDets c P ions pos D) :
    N = if c.fullDet = true then 0 else K := by
  obtain ⟨hf, _, _, -, h⟩ | ⟨hf, _, _, -, _, -, h⟩ := fermi_dets_inv h
  · rw [hf]
    exact congrArg Sigma.fst h
  · rw [hf]
    exact congrArg Sigma.fst h

theorem fermi_smooth {c : ModelCfg} {P : Params (K + 1) nion d}
    (h : ParticlesApart ions (pos p)) (hp : ∀ e a, ContDiffAt ℝ k (fun q => pos q e a) p)
    (hr : ∀ m norb, LayerRegular c.envelopeSoftening c.isotropicDecay (P.orbitals m norb))
    {R : ResNetParams} {r : E → ℝ} (hD : ∀ q, ∃ N, ∃ D : Fin (N + 1) → Fin c.ndeterminants → ℝ,
      FermiDets c P ions (pos q) D ∧ Combined c R D (r q)) : ContDiffAt ℝ k r p := by
  have : ∀ q, ∃ D : Fin ((if c.fullDet = true then 0 else K) + 1) → Fin c.ndeterminants → ℝ,
      FermiDets c P ions (pos q) D ∧ Combined c R D (r q) := by
    intro q
    obtain ⟨N, D, h1, h2⟩ := hD q
    obtain rfl := fermi_dets_size h1
    exact ⟨D, h1, h2⟩
  choose D h1 h2 using this
  exact combined_smooth h2 (fermi_dets_smooth h hp hr h1)

/-! ### Hidden fermions -/

theorem invariant_smooth {m : ℕ} {rows cols : Fin (K + 1) → ℕ} (useBias : Bool)
    (I : InvariantDense (K + 1) m rows cols) {z : E → Stream1 n m}
    (hz : ∀ e a, ContDiffAt ℝ k (fun q => z q e a) p) (s : Fin (K + 1)) (a : Fin (rows s))
    (b : Fin (cols s)) : ContDiffAt ℝ k (fun q => invariantValue useBias I (z q) s a b) p :=
  (ContDiffAt.sum fun _ _ => contDiffAt_const.mul (mean_smooth hz _ _)).add contDiffAt_const

/-- An entry of a row of visible particles followed by hidden ones. -/
theorem visible_or_hidden {m h : ℕ} (a : Fin (m + h)) :
    (∃ i : Fin m, a.val = i.val) ∨ ∃ i : Fin h, a.val = m + i.val := by
  rcases lt_or_ge a.val m with ha | ha
  · exact .inl ⟨⟨a, ha⟩, rfl⟩
  · exact .inr ⟨⟨a - m, by have := a.2; omega⟩, by simp only; omega⟩

theorem hidden_positions_smooth {c : ModelCfg} {P : Params (K + 1) nion d}
    (h : ParticlesApart ions (pos p)) (hp : ∀ e a, ContDiffAt ℝ k (fun q => pos q e a) p)
    {x : E → Stream1 (fun s => n s + hiddenCount K c s) d}
    (hx : ∀ q, HiddenPositions c P ions (pos q) (x q))
    (e : Elec fun s => n s + hiddenCount K c s) (a : Fin d) :
    ContDiffAt ℝ k (fun q => x q e a) p := by
  obtain ⟨m, z, -, hz', hz⟩ := features_family h hp hx
  obtain ⟨s, b⟩ := e
  obtain ⟨i, hi⟩ | ⟨i, hi⟩ := visible_or_hidden b
  · simp only [fun q => (hz q).visible s i b hi]
    exact hp _ a
  · simp only [fun q => (hz q).hidden s i b hi]
    exact invariant_smooth (cols := fun _ => d) _ _ hz' s i a

/-- The features of orbitals and additional rows of a family of positions. -/
theorem row_features_family {c : ModelCfg} {P : Params (K + 1) nion d}
    (h : ParticlesApart ions (pos p)) (hp : ∀ e a, ContDiffAt ℝ k (fun q => pos q e a) p)
    {Q : E → ∀ m m', Stream1 n m → Stream1 n m' → Prop}
    (hQ : ∀ q, ∃ m m', ∃ z : Stream1 n m, ∃ y : Stream1 n m',
      Features c.inputStreams c.backflow P.backflow ions (pos q) z ∧
      RowFeatures c P ions (pos q) z y ∧ Q q m m' z y) :
    ∃ m m', ∃ z : E → Stream1 n m, ∃ y : E → Stream1 n m',
      (∀ e a, ContDiffAt ℝ k (fun q => z q e a) p) ∧
      (∀ e a, ContDiffAt ℝ k (fun q => y q e a) p) ∧ ∀ q, Q q m m' (z q) (y q) := by
  cases hs : c.useSeparateInvarianceBackflow with
  | true =>
    obtain ⟨m, z, -, hz, hQ⟩ := features_family h hp (Q := fun q m z => ∃ m', ∃ y : Stream1 n m',
      Features c.inputStreams c.invariance.backflow P.invBackflow ions (pos q) y ∧ Q q m m' z y)
      fun q => by
        obtain ⟨m, m', z, y, h1, h2, h3⟩ := hQ q
        rw [RowFeatures, if_pos hs] at h2
        exact ⟨m, z, h1, m', y, h2, h3⟩
    obtain ⟨m', y, -, hy, hQ⟩ := features_family h hp hQ
    exact ⟨m, m', z, y, hz, hy, hQ⟩
  | false =>
    obtain ⟨m, z, -, hz, hQ⟩ := features_family h hp (Q := fun q m z => Q q m m z z) fun q => by
      obtain ⟨m, m', z, y, h1, h2, h3⟩ := hQ q
      rw [RowFeatures, if_neg (by simp [hs])] at h2
      obtain ⟨rfl, h2⟩ := h2
      obtain rfl : y = z := funext fun e => funext fun j => h2 e j
      exact ⟨_, _, h1, h3⟩
    exact ⟨m, m, z, z, hz, hz, hQ⟩

theorem extended_rows_smooth {c : ModelCfg} {P : Params (K + 1) nion d}
    (h : ParticlesApart ions (pos p)) (hp : ∀ e a, ContDiffAt ℝ k (fun q => pos q e a) p)
    (hr : ∀ m norb, LayerRegular c.envelopeSoftening c.isotropicDecay (P.orbitals m norb))
    {m m' : ℕ} {z : E → Stream1 n m} {y : E → Stream1 n m'} {norb : Fin (K + 1) → ℕ}
    {i : Fin c.ndeterminants} {s : Fin (K + 1)}
    {R : E → Fin (n s + hiddenCount K c s) → Fin (norb s) → ℝ}
    (hz : ∀ e a, ContDiffAt ℝ k (fun q => z q e a) p)
    (hy : ∀ e a, ContDiffAt ℝ k (fun q => y q e a) p)
    (hR : ∀ q, ExtendedRows c P ions (pos q) (z q) (y q) norb i s (R q))
    (b : Fin (n s + hiddenCount K c s)) (o : Fin (norb s)) :
    ContDiffAt ℝ k (fun q => R q b o) p := by
  obtain ⟨a, ha⟩ | ⟨a, ha⟩ := visible_or_hidden b
  · simp only [fun q => (hR q).visible a b ha o]
    exact orbital_smooth h hp (hr _ _) hz s a _
  · simp only [fun q => (hR q).hidden a b ha o]
    exact invariant_smooth _ _ hy s a _

theorem extended_dets_inv {c : ModelCfg} {P : Params (K + 1) nion d} {pos : Stream1 n d} {N : ℕ}
    {D : Fin (N + 1) → Fin c.ndeterminants → ℝ} (h : ExtendedDets c P ions pos D) :
    (c.fullDet = false ∧ ∃ m m', ∃ z : Stream1 n m, ∃ y : Stream1 n m',
      Features c.inputStreams c.backflow P.backflow ions pos z ∧ RowFeatures c P ions pos z y ∧
      ∃ M : ∀ (_ : Fin c.ndeterminants) s,
        Matrix (Fin (n s + hiddenCount K c s)) (Fin (n s + hiddenCount K c s)) ℝ,
        (∀ i s, ExtendedRows c P ions pos z y (fun s => n s + hiddenCount K c s) i s (M i s)) ∧
        (⟨N, D⟩ : Σ N, Fin (N + 1) → Fin c.ndeterminants → ℝ) = ⟨K, fun s i => (M i s).det⟩) ∨
    (c.fullDet = true ∧ ∃ m m', ∃ z : Stream1 n m, ∃ y : Stream1 n m',
      Features c.inputStreams c.backflow P.backflow ions pos z ∧ RowFeatures c P ions pos z y ∧
      ∃ R : Fin c.ndeterminants → ∀ s, Fin (n s + hiddenCount K c s) →
        Fin (∑ s, (n s + hiddenCount K c s)) → ℝ,
      ∃ M : Fin c.ndeterminants → Matrix (Fin (∑ s, (n s + hiddenCount K c s)))
        (Fin (∑ s, (n s + hiddenCount K c s))) ℝ,
        (∀ i s, ExtendedRows c P ions pos z y (fun _ => ∑ s, (n s + hiddenCount K c s)) i s
          (R i s)) ∧
        (∀ i, Stacked (n := fun s => n s + hiddenCount K c s) (R i) (M i)) ∧
        (⟨N, D⟩ : Σ N, Fin (N + 1) → Fin c.ndeterminants → ℝ) = ⟨0, fun _ i => (M i).det⟩) := by
  cases h with
  | split z y D M hf hz hy hM hD =>
    refine .inl ⟨hf, _, _, z, y, hz, hy, M, hM, ?_⟩
    congr 1
    funext s i
    exact hD s i
  | full z y D R M hf hz hy hR hM hD =>
    refine .inr ⟨hf, _, _, z, y, hz, hy, R, M, hR, hM, ?_⟩
    congr 1
    funext s i
    exact hD s i

theorem extended_dets_size {c : ModelCfg} {P : Params (K + 1) nion d} {pos : Stream1 n d} {N : ℕ}
    {D : Fin (N + 1) → Fin c.ndeterminants → ℝ} (h : ExtendedDets c P ions pos D) :
    N = if c.fullDet = true then 0 else K := by
  obtain ⟨hf, _, _, _, _, -, -, _, -, h⟩ | ⟨hf, _, _, _, _, -, -, _, _, -, -, h⟩ :=
    extended_dets_inv h
  · rw [hf]
    exact congrArg Sigma.fst h
  · rw [hf]
    exact congrArg Sigma.fst h

theorem extended_dets_smooth {c : ModelCfg} {P : Params (K + 1) nion d}
    (h : ParticlesApart ions (pos p)) (hp : ∀ e a, ContDiffAt ℝ k (fun q => pos q e a) p)
    (hr : ∀ m norb, LayerRegular c.envelopeSoftening c.isotropicDecay (P.orbitals m norb)) {N : ℕ}
    {D : E → Fin (N + 1) → Fin c.ndeterminants → ℝ}
    (hD : ∀ q, ExtendedDets c P ions (pos q) (D q)) (s : Fin (N + 1)) (i : Fin c.ndeterminants) :
    ContDiffAt ℝ k (fun q => D q s i) p := by
  cases hf : c.fullDet with
  | false =>
    obtain ⟨m, m', z, y, hz, hy, hM⟩ := row_features_family h hp fun q => by
      obtain ⟨-, m, m', z, y, h1, h2, h3⟩ | ⟨h, -⟩ := extended_dets_inv (hD q)
      · exact ⟨m, m', z, y, h1, h2, h3⟩
      · rw [hf] at h; cases h
    choose M hM hDM using hM
    obtain rfl : N = K := congrArg Sigma.fst (hDM p)
    have : ∀ q, D q = _ := fun q => eq_of_heq (Sigma.mk.inj (hDM q)).2
    simp only [this]
    exact det_smooth (extended_rows_smooth (norb := fun s => n s + hiddenCount _ c s) h hp hr hz hy
      fun q => hM q i s)
  | true =>
    obtain ⟨m, m', z, y, hz, hy, hM⟩ := row_features_family h hp fun q => by
      obtain ⟨h, -⟩ | ⟨-, m, m', z, y, h1, h2, h3⟩ := extended_dets_inv (hD q)
      · rw [hf] at h; cases h
      · exact ⟨m, m', z, y, h1, h2, h3⟩
    choose R M hR hM hDM using hM
    obtain rfl : N = 0 := congrArg Sigma.fst (hDM p)
    have : ∀ q, D q = _ := fun q => eq_of_heq (Sigma.mk.inj (hDM q)).2
    simp only [this]
    exact det_smooth (stacked_smooth (n := fun s => n s + hiddenCount K c s) (fun q => hM q i)
      fun s => extended_rows_smooth (norb := fun _ => ∑ s, (n s + hiddenCount K c s)) h hp hr hz hy
        fun q => hR q i s)

theorem extended_smooth {c : ModelCfg} {P : Params (K + 1) nion d}
    (h : ParticlesApart ions (pos p)) (hp : ∀ e a, ContDiffAt ℝ k (fun q => pos q e a) p)
    (hr : ∀ m norb, LayerRegular c.envelopeSoftening c.isotropicDecay (P.orbitals m norb))
    {R : ResNetParams} {r : E → ℝ} (hD : ∀ q, ∃ N, ∃ D : Fin (N + 1) → Fin c.ndeterminants → ℝ,
      ExtendedDets c P ions (pos q) D ∧ Combined c R D (r q)) : ContDiffAt ℝ k r p := by
  have : ∀ q, ∃ D : Fin ((if c.fullDet = true then 0 else K) + 1) → Fin c.ndeterminants → ℝ,
      ExtendedDets c P ions (pos q) D ∧ Combined c R D (r q) := by
    intro q
    obtain ⟨N, D, h1, h2⟩ := hD q
    obtain rfl := extended_dets_size h1
    exact ⟨D, h1, h2⟩
  choose D h1 h2 using this
  exact combined_smooth h2 (extended_dets_smooth h hp hr h1)

/-! ### Antiequivariance networks -/

/-- All envelopes which matter for antiequivariant values are regular; cofactors get the options
of C50. -/
def AntiRegular (c : ModelCfg) (P : Params (K + 1) nion d) (n : Fin (K + 1) → ℕ) : Prop :=
  if c.type = "per_particle_dets_net" then
    ∀ m s o, EnvelopeRegular 0 c.isotropicDecay fun j l l' =>
      (P.doubly m n).envelopes.anisoKernel s j l l' o
  else ∀ m, LayerRegular (if c.orbitalsUseBias = true then 1 else 0) false (P.orbitals m n)

theorem anti_value_smooth {c : ModelCfg} {P : Params (K + 1) nion d}
    (h : ParticlesApart ions (pos p)) (hp : ∀ e a, ContDiffAt ℝ k (fun q => pos q e a) p)
    (hr : AntiRegular c P n) {m : ℕ} {z : E → Stream1 n m}
    (hz : ∀ e a, ContDiffAt ℝ k (fun q => z q e a) p) (s : Fin (K + 1)) (i : Fin (n s)) :
    ContDiffAt ℝ k (fun q => antiValue c P ions (pos q) (z q) s i) p := by
  unfold antiValue
  unfold AntiRegular at hr
  split
  · rename_i ht
    rw [if_pos ht] at hr
    refine det_smooth fun a o => ContDiffAt.mul (((ContDiffAt.sum fun _ _ =>
      contDiffAt_const.mul (hz _ _)).add (ContDiffAt.sum fun _ _ =>
      contDiffAt_const.mul (hz _ _))).add contDiffAt_const) ?_
    exact envelope_smooth h hp _ _ _ _ _ (hr m s o) ⟨s, a⟩
  · rename_i ht
    rw [if_neg ht] at hr
    refine det_smooth fun a o => ?_
    simp only [Matrix.of_apply]
    split
    · exact contDiffAt_const
    · exact orbital_smooth h hp (hr m) hz s a o

theorem anti_features_inv {m m' : ℕ} {c : ModelCfg} {z : Stream1 n m} {v : ∀ s, Fin (n s) → ℝ}
    {a : Stream1 n m'} (h : AntiFeatures c z v a) :
    (⟨m', a⟩ : Σ m, Stream1 n m) = if c.multiplyByEqFeatures = true
      then ⟨m, fun e j => v e.1 e.2 * z e j⟩ else ⟨1, fun e _ => v e.1 e.2⟩ := by
  cases h with
  | own a hc ha =>
    rw [if_neg (by simp [hc])]
    congr 1
    exact funext fun e => funext fun j => ha e.1 e.2 j
  | multiplied a hc ha =>
    rw [if_pos hc]
    congr 1
    exact funext fun e => funext fun j => ha e.1 e.2 j

theorem paired_inv {c : ModelCfg} {P : Params (K + 1) nion d} {m : ℕ} {a : Stream1 n m} {r : ℝ}
    (h : Paired c P a r) :
    (∃ h : K = 1, c.useProductsCovariance = true ∧ c.productsUseWeights = false ∧
      r = ∑ i, ∑ j, ∑ k, a ⟨⟨0, by omega⟩, i⟩ k * a ⟨⟨1, by omega⟩, j⟩ k) ∨
    (∃ h : K = 1, c.useProductsCovariance = true ∧ c.productsUseWeights = true ∧
      r = ∑ i : Fin (n ⟨0, by omega⟩), ∑ j : Fin (n ⟨1, by omega⟩),
        (∑ k, a ⟨⟨0, by omega⟩, i⟩ k * a ⟨⟨1, by omega⟩, j⟩ k) * P.productsKernel i.val j.val) ∨
    (c.useProductsCovariance = false ∧ ∃ m', ∃ B : (Fin (K + 1) → ℝ) → Stream1 n m',
      (∀ e, BackflowValue c.invarianceBackflow P.covBackflow 0 c.invarianceBackflow.ndenseList
        (fun i k => e i.1 * a i k) (none : Option (Stream2 n 0)) (B e)) ∧
      r = sumOverSigns (K + 1) fun e => (∏ s, e s) * ∑ i, ∑ k, B e i k) := by
  cases h with
  | products h h1 h2 => exact .inl ⟨h, h1, h2, rfl⟩
  | weighted h h1 h2 => exact .inr (.inl ⟨h, h1, h2, rfl⟩)
  | backflow B h1 hB => exact .inr (.inr ⟨h1, _, B, hB, rfl⟩)

theorem paired_smooth {c : ModelCfg} {P : Params (K + 1) nion d} {m : ℕ} {a : E → Stream1 n m}
    {r : E → ℝ} (h : ∀ q, Paired c P (a q) (r q))
    (ha : ∀ e j, ContDiffAt ℝ k (fun q => a q e j) p) : ContDiffAt ℝ k r p := by
  cases hc : c.useProductsCovariance with
  | true =>
    cases hw : c.productsUseWeights with
    | false =>
      obtain ⟨hK, -, -, -⟩ | ⟨-, -, h, -⟩ | ⟨h, -⟩ := paired_inv (h p)
      · have : r = fun q => ∑ i, ∑ j, ∑ k, a q ⟨⟨0, by omega⟩, i⟩ k * a q ⟨⟨1, by omega⟩, j⟩ k :=
          funext fun q => by
            obtain ⟨_, -, -, h⟩ | ⟨-, -, h, -⟩ | ⟨h, -⟩ := paired_inv (h q)
            · exact h
            · rw [hw] at h; cases h
            · rw [hc] at h; cases h
        rw [this]
        exact ContDiffAt.sum fun i _ => ContDiffAt.sum fun j _ => ContDiffAt.sum fun l _ =>
          (ha _ _).mul (ha _ _)
      · rw [hw] at h; cases h
      · rw [hc] at h; cases h
    | true =>
      obtain ⟨-, -, h, -⟩ | ⟨hK, -, -, -⟩ | ⟨h, -⟩ := paired_inv (h p)
      · rw [hw] at h; cases h
      · have : r = fun q => ∑ i : Fin (n ⟨0, by omega⟩), ∑ j : Fin (n ⟨1, by omega⟩),
            (∑ k, a q ⟨⟨0, by omega⟩, i⟩ k * a q ⟨⟨1, by omega⟩, j⟩ k) *
            P.productsKernel i.val j.val := funext fun q => by
          obtain ⟨-, -, h, -⟩ | ⟨_, -, -, h⟩ | ⟨h, -⟩ := paired_inv (h q)
          · rw [hw] at h; cases h
          · exact h
          · rw [hc] at h; cases h
        rw [this]
        exact ContDiffAt.sum fun i _ => ContDiffAt.sum fun j _ => (ContDiffAt.sum fun l _ =>
          (ha _ _).mul (ha _ _)).mul contDiffAt_const
      · rw [hc] at h; cases h
  | false =>
    have : ∀ q, ∃ B : (Fin (K + 1) → ℝ) →
        Stream1 n (featureWidth c.invarianceBackflow.ndenseList m),
        (∀ e, BackflowValue c.invarianceBackflow P.covBackflow 0 c.invarianceBackflow.ndenseList
          (fun i k => e i.1 * a q i k) (none : Option (Stream2 n 0)) (B e)) ∧
        r q = sumOverSigns (K + 1) fun e => (∏ s, e s) * ∑ i, ∑ k, B e i k := by
      intro q
      obtain ⟨-, h, -, -⟩ | ⟨-, h, -, -⟩ | ⟨-, m', B, h1, h2⟩ := paired_inv (h q)
      · rw [hc] at h; cases h
      · rw [hc] at h; cases h
      · obtain rfl := backflow_width (h1 0)
        exact ⟨B, h1, h2⟩
    choose B hB hr using this
    rw [funext hr]
    refine ContDiffAt.sum fun e _ => contDiffAt_const.mul (ContDiffAt.sum fun i _ =>
      ContDiffAt.sum fun l _ => ?_)
    exact backflow_smooth c.invarianceBackflow P.covBackflow c.invarianceBackflow.ndenseList (i := 0)
      _ none (fun q => B q _) (fun q => hB q _) (fun _ _ => contDiffAt_const.mul (ha _ _))
      (fun _ h => by cases h) i l

theorem antiequivariance_smooth {c : ModelCfg} {P : Params (K + 1) nion d}
    (h : ParticlesApart ions (pos p)) (hp : ∀ e a, ContDiffAt ℝ k (fun q => pos q e a) p)
    (hr : AntiRegular c P n) {r : E → ℝ}
    (hQ : ∀ q, ∃ m m', ∃ z : Stream1 n m, ∃ a : Stream1 n m',
      Features c.inputStreams c.backflow P.backflow ions (pos q) z ∧
      AntiFeatures c z (antiValue c P ions (pos q) z) a ∧ Paired c P a (r q)) :
    ContDiffAt ℝ k r p := by
  obtain ⟨m, z, -, hz, hQ⟩ := features_family h hp (Q := fun q m z => ∃ m', ∃ a : Stream1 n m',
    AntiFeatures c z (antiValue c P ions (pos q) z) a ∧ Paired c P a (r q)) fun q => by
      obtain ⟨m, m', z, a, h1, h2⟩ := hQ q
      exact ⟨m, z, h1, m', a, h2⟩
  have hv := anti_value_smooth h hp hr hz
  cases hc : c.multiplyByEqFeatures with
  | true =>
    refine paired_smooth (c := c) (P := P) (a := fun q e j => antiValue c P ions (pos q) (z q) e.1 e.2 * z q e j)
      (fun q => ?_) fun e j => (hv _ _).mul (hz _ _)
    obtain ⟨m', a, h1, h2⟩ := hQ q
    have h1 := anti_features_inv h1
    rw [if_pos hc] at h1
    cases h1
    exact h2
  | false =>
    refine paired_smooth (c := c) (P := P) (a := fun q e (_ : Fin 1) => antiValue c P ions (pos q) (z q) e.1 e.2)
      (fun q => ?_) fun e j => hv _ _
    obtain ⟨m', a, h1, h2⟩ := hQ q
    have h1 := anti_features_inv h1
    rw [if_neg (by simp [hc])] at h1
    cases h1
    exact h2

/-! ### Explicit antisymmetrization -/

/-- A list of smooth functions. -/
def SmoothList (k : WithTop ℕ∞) (p : E) (l : E → List ℝ) : Prop :=
  ∃ L : List (E → ℝ), (∀ g ∈ L, ContDiffAt ℝ k g p) ∧ ∀ q, l q = L.map fun g => g q

theorem smoothList_flatten {N : ℕ} {l : Fin N → E → List ℝ} (h : ∀ i, SmoothList k p (l i)) :
    SmoothList k p fun q => (List.ofFn fun i => l i q).flatten := by
  choose L h1 h2 using h
  refine ⟨(List.ofFn L).flatten, ?_, fun q => ?_⟩
  · intro g hg
    obtain ⟨L', hL', hg⟩ := List.mem_flatten.mp hg
    obtain ⟨i, rfl⟩ := (List.mem_ofFn' _ _).mp hL'
    exact h1 i g hg
  · rw [List.map_flatten, List.map_ofFn]
    exact congrArg List.flatten (congrArg List.ofFn (funext fun i => h2 i q))

theorem reordered_smooth {m : ℕ} {z : E → Stream1 n m}
    (hz : ∀ e a, ContDiffAt ℝ k (fun q => z q e a) p) (s : Fin (K + 1))
    (σ : Equiv.Perm (Fin (n s))) : SmoothList k p fun q => reordered (z q) s σ := by
  refine smoothList_flatten fun i => ⟨List.ofFn fun a q => z q ⟨s, σ i⟩ a, ?_, fun q => ?_⟩
  · intro g hg
    obtain ⟨a, rfl⟩ := (List.mem_ofFn' _ _).mp hg
    exact hz _ a
  · rw [List.map_ofFn]
    rfl

theorem resnet_cast (name : String) (useBias : Bool) (m layers : ℕ) (P : ResNetParams) (out : ℕ)
    {m₀ m₁ : ℕ} (h : m₁ = m₀) (x : Fin m₀ → ℝ) (y : Fin m₁ → ℝ)
    (hy : ∀ a, y a = x (Fin.cast h a)) :
    resnetValue name useBias m layers P out y = resnetValue name useBias m layers P out x := by
  subst h
  rw [show y = x from funext hy]

theorem antisym_resnet_smooth (c : ModelCfg) (P : Params (K + 1) nion d) (s r : ℕ)
    {l : E → List ℝ} (hl : SmoothList k p l) :
    ContDiffAt ℝ k (fun q => antisymResnet c P s r (l q)) p := by
  obtain ⟨L, h1, h2⟩ := hl
  unfold antisymResnet
  have : ∀ q, resnetValue c.activationFnResnet c.resnetUseBias c.ndenseResnet c.nlayersResnet
      (P.resnets s r) 1 (l q).get = resnetValue c.activationFnResnet c.resnetUseBias c.ndenseResnet
      c.nlayersResnet (P.resnets s r) 1 fun a : Fin L.length => L.get a q := fun q =>
    resnet_cast _ _ _ _ _ _ (by rw [h2]; simp) _ _ fun a => by
      have := h2 q
      simp only [List.get_eq_getElem, this, List.getElem_map]
      rfl
  simp only [this]
  exact resnet_smooth _ _ _ _ _ _ (fun a => h1 _ (List.get_mem L a)) 0

theorem antisymmetrized_inv {c : ModelCfg} {P : Params (K + 1) nion d} {m N : ℕ} {z : Stream1 n m}
    {t : Fin N → ℝ} (h : Antisymmetrized c P z t) :
    (c.antisymType = "factorized" ∧ ∑ i, t i = ∑ r : Fin c.rank,
      ∏ s, ∑ σ : Equiv.Perm (Fin (n s)), sign σ * antisymResnet c P s r (reordered z s σ)) ∨
    (c.antisymType = "generic" ∧ ∑ i, t i = ∑ σ : ∀ s, Equiv.Perm (Fin (n s)),
      (∏ s, sign (σ s)) *
        antisymResnet c P 0 0 (List.ofFn fun s => reordered z s (σ s)).flatten) := by
  cases h with
  | factorized t ht h => exact .inl ⟨ht, Finset.sum_congr rfl fun r _ => h r⟩
  | generic t ht h => exact .inr ⟨ht, by rw [Fin.sum_univ_one, h]⟩

theorem antisymmetrized_smooth {c : ModelCfg} {P : Params (K + 1) nion d} {m : ℕ}
    {z : E → Stream1 n m} (hz : ∀ e a, ContDiffAt ℝ k (fun q => z q e a) p) {r : E → ℝ}
    (h : ∀ q, ∃ N, ∃ t : Fin N → ℝ, Antisymmetrized c P (z q) t ∧ r q = ∑ i, t i) :
    ContDiffAt ℝ k r p := by
  choose N t h1 h2 using h
  have h' := fun q => antisymmetrized_inv (h1 q)
  rcases h' p with ⟨ht, -⟩ | ⟨ht, -⟩
  · rw [funext fun q => (h2 q).trans ((h' q).resolve_right fun h => by simp [ht] at h).2]
    exact ContDiffAt.sum fun r _ => contDiffAt_prod fun s _ => ContDiffAt.sum fun σ _ =>
      contDiffAt_const.mul (antisym_resnet_smooth c P s r (reordered_smooth hz s σ))
  · rw [funext fun q => (h2 q).trans ((h' q).resolve_left fun h => by simp [ht] at h).2]
    exact ContDiffAt.sum fun σ _ => contDiffAt_const.mul (antisym_resnet_smooth c P 0 0
      (smoothList_flatten fun s => reordered_smooth hz s (σ s)))

theorem length_smooth {m : ℕ} {z : E → Stream1 n m}
    (hz : ∀ e a, ContDiffAt ℝ k (fun q => z q e a) p) (h0 : ∀ e, z p e ≠ 0) :
    ContDiffAt ℝ k (fun q => lengthValue (z q)) p := by
  unfold lengthValue
  refine ContDiffAt.neg (ContDiffAt.div_const (ContDiffAt.sum fun e _ =>
    ContDiffAt.sqrt (ContDiffAt.sum fun l _ => (hz e l).pow 2) ?_) _)
  have := sum_sq_ne_zero (h0 e)
  simpa using this

/-- The features whose lengths appear in the exponent do not vanish. -/
def LengthsRegular (c : ModelCfg) (P : Params (K + 1) nion d) (ions : Fin nion → Fin d → ℝ)
    (pos : Stream1 n d) : Prop :=
  if c.jastrow.useSeparateJastrowBackflow = true then ∀ (m : ℕ) (y : Stream1 n m),
    Features c.inputStreams c.jastrow.backflow P.jastrowBackflow ions pos y → ∀ e, y e ≠ 0
  else ∀ (m : ℕ) (z : Stream1 n m),
    Features c.inputStreams c.backflow P.backflow ions pos z → ∀ e, z e ≠ 0

theorem backflow_exponent_smooth {c : ModelCfg} {P : Params (K + 1) nion d}
    (h : ParticlesApart ions (pos p)) (hp : ∀ e a, ContDiffAt ℝ k (fun q => pos q e a) p)
    (hl : LengthsRegular c P ions (pos p)) {m : ℕ} {z : E → Stream1 n m}
    (hz : ∀ q, Features c.inputStreams c.backflow P.backflow ions (pos q) (z q)) {r : E → ℝ}
    (hr : ∀ q, BackflowExponent c P ions (pos q) (z q) (r q)) : ContDiffAt ℝ k r p := by
  unfold LengthsRegular at hl
  unfold BackflowExponent at hr
  split at hl
  · rename_i hc
    simp only [if_pos hc] at hr
    obtain ⟨m', y, hy, hy', hr⟩ := features_family h hp (Q := fun q m y => r q = lengthValue y) hr
    rw [funext hr]
    exact length_smooth hy' (hl m' _ (hy p))
  · rename_i hc
    simp only [if_neg hc] at hr
    rw [funext hr]
    exact length_smooth (features_smooth h hp hz) (hl m _ (hz p))

theorem two_body_smooth (w : Fin nion → ℝ) (g : ℝ) (charges : Fin nion → ℝ)
    (h : ParticlesApart ions (pos p)) (hp : ∀ e a, ContDiffAt ℝ k (fun q => pos q e a) p) :
    ContDiffAt ℝ k (fun q => twoBodyValue w g ions charges (pos q)) p := by
  unfold twoBodyValue
  exact ((contDiffAt_const.mul (ContDiffAt.div_const (ContDiffAt.sum fun e _ =>
    ContDiffAt.sum fun e' _ => pair_distance_smooth h hp e e') _)).sub
    (ContDiffAt.sum fun e _ => ContDiffAt.sum fun j _ =>
      contDiffAt_const.mul (ion_distance_smooth h hp e j))).add contDiffAt_const

theorem exponent_smooth {c : ModelCfg} {P : Params (K + 1) nion d} {charges : Fin nion → ℝ}
    (h : ParticlesApart ions (pos p)) (hp : ∀ e a, ContDiffAt ℝ k (fun q => pos q e a) p)
    (hl : c.jastrow.type = "backflow_based" ∨ c.jastrow.type = "two_body_decay_and_backflow_based" →
      LengthsRegular c P ions (pos p)) {m : ℕ} {z : E → Stream1 n m}
    (hz : ∀ q, Features c.inputStreams c.backflow P.backflow ions (pos q) (z q)) {r : E → ℝ}
    (hr : ∀ q, Exponent c P ions charges (pos q) (z q) (r q)) : ContDiffAt ℝ k r p := by
  have hr' := hr p
  unfold Exponent at hr hr'
  rcases hr' with ⟨ht, -⟩ | ⟨ht, -⟩ | ⟨ht, -⟩ | ⟨ht, -⟩
  · simp only [ht, String.reduceEq, false_and, or_false, true_and] at hr
    rw [funext hr]
    exact (contDiffAt_const.mul (ContDiffAt.sum fun e _ => ContDiffAt.sum fun j _ =>
      ion_distance_smooth h hp e j)).neg
  · simp only [ht, String.reduceEq, false_and, or_false, false_or, true_and] at hr
    rw [funext hr]
    exact two_body_smooth _ _ _ h hp
  · simp only [ht, String.reduceEq, false_and, or_false, false_or, true_and] at hr
    exact backflow_exponent_smooth h hp (hl (.inl ht)) hz hr
  · simp only [ht, String.reduceEq, false_and, false_or, true_and] at hr
    choose b hb hr using hr
    rw [funext hr]
    exact (two_body_smooth _ _ _ h hp).add (backflow_exponent_smooth h hp (hl (.inr ht)) hz hb)

/-! ### Models -/

/-- Positions at which the wave function of a configuration has no kink: particles are apart,
also hidden ones; envelopes are regular; and features whose lengths are used do not vanish. -/
structure SmoothPlace (c : ModelCfg) (P : Params (K + 1) nion d) (ions : Fin nion → Fin d → ℝ)
    (pos : Stream1 n d) : Prop where
  apart : ParticlesApart ions pos
  hidden : c.type = "embedded_particle_ferminet" →
    ∀ x, HiddenPositions c P ions pos x → ParticlesApart ions x
  envelopes : c.type = "ferminet" ∨ c.type = "embedded_particle_ferminet" ∨
    c.type = "extended_orbital_matrix_ferminet" →
    ∀ m norb, LayerRegular c.envelopeSoftening c.isotropicDecay (P.orbitals m norb)
  anti : c.type = "orbital_cofactor_net" ∨ c.type = "per_particle_dets_net" → AntiRegular c P n
  lengths : c.type = "explicit_antisym" → c.jastrow.type = "backflow_based" ∨
    c.jastrow.type = "two_body_decay_and_backflow_based" → LengthsRegular c P ions pos

theorem model_value_inv {c : ModelCfg} {P : Params (K + 1) nion d} {charges : Fin nion → ℝ}
    {x : Stream1 n d} {nonzero : Prop} {r : ℝ} (h : ModelValue c P ions charges x nonzero r) :
    (c.type = "ferminet" ∧ ∃ N, ∃ D : Fin (N + 1) → Fin c.ndeterminants → ℝ,
      FermiDets c P ions x D ∧ Combined c P.detFn D r) ∨
    (c.type = "embedded_particle_ferminet" ∧ ∃ y, HiddenPositions c P ions x y ∧
      ∃ N, ∃ D : Fin (N + 1) → Fin c.ndeterminants → ℝ,
        FermiDets c P ions y D ∧ Combined c P.detFn D r) ∨
    (c.type = "extended_orbital_matrix_ferminet" ∧
      ∃ N, ∃ D : Fin (N + 1) → Fin c.ndeterminants → ℝ,
        ExtendedDets c P ions x D ∧ Combined c P.detFn D r) ∨
    ((c.type = "orbital_cofactor_net" ∨ c.type = "per_particle_dets_net") ∧
      ∃ m m', ∃ z : Stream1 n m, ∃ a : Stream1 n m',
        Features c.inputStreams c.backflow P.backflow ions x z ∧
        AntiFeatures c z (antiValue c P ions x z) a ∧ Paired c P a r) ∨
    (c.type = "explicit_antisym" ∧ ∃ m, ∃ z : Stream1 n m,
      Features c.inputStreams c.backflow P.backflow ions x z ∧
      ∃ j, Exponent c P ions charges x z j ∧ ∃ t, (∃ N, ∃ t' : Fin N → ℝ,
        Antisymmetrized c P z t' ∧ t = ∑ i, t' i) ∧ r = Real.exp j * t) := by
  cases h with
  | fermiNet D r ht h1 h2 => exact .inl ⟨ht, _, D, h1, h2⟩
  | embedded y D r ht h0 h1 h2 => exact .inr (.inl ⟨ht, y, h0, _, D, h1, h2⟩)
  | extended D r ht h1 h2 => exact .inr (.inr (.inl ⟨ht, _, D, h1, h2⟩))
  | antiequivariance z a r ht h1 h2 h3 =>
    exact .inr (.inr (.inr (.inl ⟨ht, _, _, z, a, h1, h2, h3⟩)))
  | explicit z t j ht h1 h2 h3 =>
    exact .inr (.inr (.inr (.inr ⟨ht, _, z, h1, j, h2, _, ⟨_, t, h3, rfl⟩, rfl⟩)))

/-- C86: the wave function of a configuration is smooth, and even analytic (`k = ω`), at all
positions at which no kink is built in. -/
theorem configured_value_smooth {c : ModelCfg} {P : Params (K + 1) nion d}
    {charges : Fin nion → ℝ} {nonzero : Stream1 n d → Prop} {ψ : Stream1 n d → ℝ}
    (hψ : ∀ q, ModelValue c P ions charges q (nonzero q) (ψ q)) {x : Stream1 n d}
    (h : SmoothPlace c P ions x) : ContDiffAt ℝ k ψ x := by
  have hp : ∀ e a, ContDiffAt ℝ k (fun q : Stream1 n d => q e a) x := fun e a =>
    (contDiff_apply_apply ℝ ℝ e a).contDiffAt
  have hinv := fun q => model_value_inv (hψ q)
  rcases hinv x with ⟨ht, -⟩ | ⟨ht, -⟩ | ⟨ht, -⟩ | ⟨ht, -⟩ | ⟨ht, -⟩
  · simp only [ht, String.reduceEq, false_and, or_false, true_and] at hinv
    exact fermi_smooth h.apart hp (h.envelopes (.inl ht)) hinv
  · simp only [ht, String.reduceEq, false_and, or_false, true_and, false_or] at hinv
    choose y hy hD using hinv
    exact fermi_smooth (pos := y) (h.hidden ht _ (hy x)) (hidden_positions_smooth h.apart hp hy)
      (h.envelopes (.inr (.inl ht))) hD
  · simp only [ht, String.reduceEq, false_and, or_false, true_and, false_or] at hinv
    exact extended_smooth h.apart hp (h.envelopes (.inr (.inr ht))) hinv
  · have hinv : ∀ q, _ := fun q => (((((hinv q).resolve_left fun h => by simp [h.1] at ht)
      ).resolve_left fun h => by simp [h.1] at ht).resolve_left fun h => by simp [h.1] at ht
      ).resolve_right fun h => by simp [h.1] at ht
    exact antiequivariance_smooth h.apart hp (h.anti ht) fun q => (hinv q).2
  · simp only [ht, String.reduceEq, false_and, or_false, true_and, false_or] at hinv
    obtain ⟨m, z, hz, hz', h2⟩ := features_family h.apart hp hinv
    choose j hj t ht' hψ using h2
    rw [funext hψ]
    exact (exponent_smooth h.apart hp (h.lengths ht) hz hj).exp.mul (antisymmetrized_smooth hz' ht')

/-! ### The kinetic energy -/

open Verif.Phys in
/-- Along a coordinate, `f'' + f' ^ 2 = ψ'' / ψ` if `f` is the logarithm of `|ψ|` nearby. -/
theorem log_coordinate {N : ℕ} {f ψ : Pos N d → ℝ} {x : Pos N d} (hψ : ContDiffAt ℝ 2 ψ x)
    (h0 : ψ x ≠ 0) (hf : ∀ᶠ y in nhds x, f y = Real.log |ψ y|) (i : Fin N) (l : Fin d) :
    partial1 f i l x = partial1 ψ i l x / ψ x ∧
    coordLaplacian f x i l = partial2 ψ i l x / ψ x := by
  have e0 : shift x i l 0 = x := by
    rw [← add_unitStep]
    simp
  have hs : ContDiff ℝ 2 fun t : ℝ => shift x i l t := by
    simp only [← add_unitStep]
    exact contDiff_const.add (contDiff_id.smul contDiff_const)
  have hg : ContDiffAt ℝ 2 (fun t => ψ (shift x i l t)) 0 := by
    rw [← e0] at hψ
    exact hψ.comp 0 hs.contDiffAt
  generalize hg' : (fun t => ψ (shift x i l t)) = g at hg
  have g0 : g 0 = ψ x := by simp only [← hg', e0]
  have hc : ∀ᶠ t in nhds (0 : ℝ), g t ≠ 0 :=
    hg.continuousAt.eventually_ne (by rwa [g0])
  have hcs : Filter.Tendsto (fun t : ℝ => shift x i l t) (nhds 0) (nhds x) := by
    have := hs.continuous.tendsto (0 : ℝ)
    rwa [e0] at this
  have hlog : (fun t => f (shift x i l t)) =ᶠ[nhds 0] fun t => Real.log (g t) :=
    (hcs.eventually hf).mono fun t ht => by
      rw [← hg']
      exact ht.trans (Real.log_abs _)
  have hd : ∀ᶠ t in nhds (0 : ℝ), DifferentiableAt ℝ g t :=
    (hg.eventually (by simp)).mono fun t ht => ht.differentiableAt (by simp)
  have hd1 : deriv (fun t => f (shift x i l t)) =ᶠ[nhds 0] fun t => deriv g t / g t :=
    hlog.deriv.trans ((hc.and hd).mono fun t ht => ht.2.hasDerivAt.log ht.1 |>.deriv)
  have hd2 : DifferentiableAt ℝ (deriv g) 0 := by
    have := (hg.fderiv_right (m := 1) (by norm_num)).differentiableAt (by simp)
    have h' : deriv g = fun t => fderiv ℝ g t 1 := funext fun t => rfl
    rw [h']
    exact this.clm_apply (differentiableAt_const _)
  have hp1 : partial1 f i l x = deriv g 0 / g 0 := hd1.eq_of_nhds
  have hp2 : partial2 f i l x = _ :=
    hd1.deriv_eq.trans (hd2.hasDerivAt.fun_div hd.self_of_nhds.hasDerivAt (by rwa [g0])).deriv
  unfold coordLaplacian
  rw [hp1, hp2]
  unfold partial1 partial2
  rw [hg', ← g0]
  have : g 0 ≠ 0 := by rwa [g0]
  refine ⟨rfl, ?_⟩
  field_simp
  ring

/-- The positions of all electrons in one array, species by species. -/
def splitPositions (y : Fin (∑ s, n s) → Fin d → ℝ) : Stream1 n d := fun e => y (finSigmaFinEquiv e)

/-- A sum which is not zero has a term which is not zero. -/
theorem model_value_nonzero {c : ModelCfg} {P : Params (K + 1) nion d} {charges : Fin nion → ℝ}
    {x : Stream1 n d} {nonzero : Prop} {r : ℝ} (h : ModelValue c P ions charges x nonzero r)
    (hr : r ≠ 0) : nonzero := by
  have hdet : ∀ {N : ℕ} (D : Fin (N + 1) → Fin c.ndeterminants → ℝ), Combined c P.detFn D r →
      c.useDetResnet = false → ∃ i, ∏ s, D s i ≠ 0 := by
    intro N D hD hu
    rcases combined_inv hD with ⟨-, h⟩ | ⟨h, -⟩ | ⟨h, -⟩ | ⟨h, -⟩
    · by_contra hc
      push Not at hc
      exact hr (h.trans (Finset.sum_eq_zero fun i _ => hc i))
    all_goals rw [hu] at h; cases h
  cases h with
  | fermiNet D r _ _ h => exact hdet D h
  | embedded _ D r _ _ _ h => exact hdet D h
  | extended D r _ _ h => exact hdet D h
  | antiequivariance => trivial
  | explicit z t j _ _ _ _ =>
    intro _
    by_contra hc
    push Not at hc
    exact hr (by rw [Finset.sum_eq_zero fun i _ => hc i, mul_zero])

section energy

open Verif.Phys

variable (c : ModelCfg) (ions : Fin nion → Fin d → ℝ) (charges : Fin nion → ℝ) (dtype : ℕ)
  (m : Model nion) (hm : getModelFromConfig c (counts n) ions charges dtype = .ok m)
  (P : Params (K + 1) nion d) (v : Stream1 n d → SL) (hv : ∀ q, m.apply P ions q = .ok (v q))
  (nonzero : Stream1 n d → Prop) (ψ : Stream1 n d → ℝ)
  (hψ : ∀ q, ModelValue c P ions charges q (nonzero q) (ψ q))
  (f : Pos (∑ s, n s) d → ℝ)
  (hf : ∀ y, (v (splitPositions y)).2.isFin → (v (splitPositions y)).2 = .fin (f y))
  (x : Pos (∑ s, n s) d) (h0 : ψ (splitPositions x) ≠ 0)
  (hx : SmoothPlace c P ions (splitPositions x))

include hm hv hψ hf h0 hx

theorem configured_kinetic_eq : kineticLaplacian f x = -(1 / 2) *
    ((∑ i, ∑ l, partial2 (fun y => ψ (splitPositions y)) i l x) / ψ (splitPositions x)) := by
  have hs : ContDiff ℝ 2 (splitPositions : Pos (∑ s, n s) d → Stream1 n d) := by
    unfold splitPositions
    exact contDiff_pi.mpr fun e => contDiff_apply ℝ _ _
  have hsm : ContDiffAt ℝ 2 (fun y => ψ (splitPositions y)) x :=
    (configured_value_smooth (k := 2) hψ hx).comp x hs.contDiffAt
  have hlog : ∀ᶠ y in nhds x, f y = Real.log |ψ (splitPositions y)| := by
    refine (hsm.continuousAt.eventually_ne h0).mono fun y hy => ?_
    have hr := configured_model_computes_partial c ions charges dtype m hm P _ _
      (hv (splitPositions y)) _ _ (hψ _) (model_value_nonzero (hψ _) hy)
    have hf := hf y
    rcases hr with ⟨h, h'⟩ | ⟨h, h'⟩ | ⟨h, -⟩
    · rw [h'] at hf
      rw [abs_of_pos h]
      exact (XR.fin_inj.mp (hf trivial)).symm
    · rw [h'] at hf
      rw [abs_of_neg h]
      exact (XR.fin_inj.mp (hf trivial)).symm
    · exact absurd h hy
  unfold kineticLaplacian
  congr 1
  rw [Finset.sum_div]
  refine Finset.sum_congr rfl fun i _ => ?_
  rw [Finset.sum_div]
  exact Finset.sum_congr rfl fun l _ => (log_coordinate hsm h0 hlog i l).2

/-- C86: the local kinetic energy of a model built from a configuration is `-½ ∇²ψ / ψ` with the
wave function `ψ` of the configuration, wherever `ψ` does not vanish and has no kink.  Here `f` is
the logarithm which the model returns. -/
theorem configured_kinetic_energy : laplacianKinetic f x = .fin (-(1 / 2) *
    ((∑ i, ∑ l, partial2 (fun y => ψ (splitPositions y)) i l x) / ψ (splitPositions x))) := by
  rw [laplacian_kinetic_eq, configured_kinetic_eq c ions charges dtype m hm P v hv nonzero ψ hψ f hf
    x h0 hx]

/-- C86: the standard local energy of a model built from a configuration is the Hamiltonian applied
to the wave function `ψ` of the configuration, divided by `ψ`. -/
theorem configured_local_energy {κ : Type} (permutation : κ → Equiv.Perm (Fin (∑ s, n s)))
    (ibpParts sampleParts : List String) (b : ℕ) (eiSoft eeSoft : ℝ) (hR : Distinct ions)
    (key : κ) :
    ∃ E, assembleMolLocalEnergy permutation "standard" ibpParts b sampleParts ions charges eiSoft
        eeSoft f = some E ∧
      E x key = .fin ((-(1 / 2) * (∑ i, ∑ l, partial2 (fun y => ψ (splitPositions y)) i l x) +
        (coulombEI 1 eiSoft ions charges x + coulombEE 1 eeSoft x + coulombII ions charges) *
          ψ (splitPositions x)) / ψ (splitPositions x)) := by
  have hreg : Regular eiSoft eeSoft ions x := by
    have hsp : ∀ i, x i = splitPositions (n := n) x (finSigmaFinEquiv.symm i) := fun i => by
      simp [splitPositions]
    refine ⟨.inr fun i I h => ?_, .inr fun i j hij h => ?_, hR⟩
    · rw [hsp] at h
      exact hx.apart.ions _ I h
    · rw [hsp, hsp j] at h
      exact hx.apart.electrons _ _ (finSigmaFinEquiv.symm.injective.ne hij) h
  obtain ⟨E, h1, h2⟩ := standard_energy_terms permutation ibpParts sampleParts b ions charges eiSoft
    eeSoft f x key hreg
  refine ⟨E, h1, ?_⟩
  rw [h2, configured_kinetic_eq c ions charges dtype m hm P v hv nonzero ψ hψ f hf x h0 hx]
  congr 1
  field_simp
  ring

end energy

/-- The default FermiNet for a nucleus of charge 2 with one electron of each kind, orbitals with
kernels 0 and biases 2 and 3 and decay 1: its kinetic energy is that of `6 exp (-|r₁| - |r₂|)`
wherever electrons and nucleus are apart. -/
example (P : Params 2 1 3) (x : Fin (∑ _ : Fin 2, 1) → Fin 3 → ℝ) (hx : Distinct x)
    (hx' : Apart x fun (_ : Fin 1) _ => 0) :
    ∃ m : Model 1, getModelFromConfig {} (counts fun _ : Fin 2 => 1)
        (fun (_ : Fin 1) (_ : Fin 3) => (0 : ℝ)) (fun _ => 2) 32 = .ok m ∧
      ∃ f : (Fin (∑ _ : Fin 2, 1) → Fin 3 → ℝ) → ℝ,
        (∀ y, ∃ s, m.apply { P with orbitals := fun _ _ =>
          ⟨fun _ _ _ => 0, fun s _ => s.val + 2, fun _ _ => 1, fun _ _ _ _ _ => 0, fun _ _ _ => 1,
            0, true, true⟩ } (fun _ _ => 0) (splitPositions (n := fun _ : Fin 2 => 1) y) =
          .ok (s, .fin (f y))) ∧
        Phys.laplacianKinetic f x = .fin (-(1 / 2) * ((∑ i, ∑ l, partial2 (fun y =>
          6 * Real.exp (-∑ e, Real.sqrt (∑ a, y e a ^ 2))) i l x) /
          (6 * Real.exp (-∑ e, Real.sqrt (∑ a, x e a ^ 2))))) := by
  let n : Fin 2 → ℕ := fun _ => 1
  obtain ⟨m, hm⟩ := (model_config_accepted_iff {} (counts n)
    (fun (_ : Fin 1) (_ : Fin 3) => (0 : ℝ)) (fun _ => 2) 32).mpr
    (by rw [counts_length]; exact default_acceptable "ferminet" (by simp))
  let P' : Params 2 1 3 := { P with orbitals := fun _ _ =>
          ⟨fun _ _ _ => 0, fun s _ => s.val + 2, fun _ _ => 1, fun _ _ _ _ _ => 0, fun _ _ _ => 1,
            0, true, true⟩ }
  have hcall : ∀ pos : Stream1 n 3, ∃ v, m.apply P' (fun _ _ => 0) pos = .ok v := fun pos =>
    (configured_model_callable_iff {} _ _ _ m hm ⟨rfl, fun _ => rfl⟩
    (fun _ => Nat.one_pos) P' pos).mpr (by
      left
      refine ⟨rfl, .inr (by simp), ?_⟩
      simp [Spec.PairsWithoutTwo])
  choose v hv using hcall
  choose nz ψ hψ hrep using fun pos => configured_model_value {} _ _ _ m hm P' pos (v pos) (hv pos)
  have hval : ∀ pos, ψ pos = 6 * Real.exp (-∑ e, Real.sqrt (∑ a, pos e a ^ 2)) := by
    intro pos
    rcases model_value_inv (hψ pos) with ⟨-, N, D, hD, hr⟩ | ⟨h, -⟩ | ⟨h, -⟩ | ⟨h, -⟩ | ⟨h, -⟩
    · rcases fermi_dets_inv hD with ⟨-, _, z, -, hD⟩ | ⟨h, -⟩
      · obtain rfl : N = 1 := congrArg Sigma.fst hD
        obtain rfl := eq_of_heq (Sigma.mk.inj hD).2
        rcases combined_inv hr with ⟨-, h⟩ | ⟨h, -⟩ | ⟨h, -⟩ | ⟨h, -⟩
        · rw [h]
          rw [Fintype.sum_sigma]
          simp [orbitalValue, envelopeValue, P', Fin.prod_univ_succ, Fin.sum_univ_succ, n]
          rw [Real.exp_add]
          ring
        all_goals cases h
      · cases h
    all_goals simp at h
  have hpos : ∀ pos, 0 < ψ pos := fun pos => by
    rw [hval]
    positivity
  have hs : ∀ y, ψ (splitPositions y) = 6 * Real.exp (-∑ e, Real.sqrt (∑ a, y e a ^ 2)) := by
    intro y
    rw [hval, ← finSigmaFinEquiv.sum_comp]
    rfl
  have hlog : ∀ pos, v pos = (.fin 1, .fin (Real.log (ψ pos))) := fun pos => by
    rcases hrep pos (model_value_nonzero (hψ _) (hpos _).ne') with ⟨-, h⟩ | ⟨h, -⟩ | ⟨h, -⟩
    · exact h
    · exact absurd h (hpos _).not_gt
    · exact absurd h (hpos _).ne'
  refine ⟨m, hm, fun y => Real.log (ψ (splitPositions y)), fun y => ⟨.fin 1, ?_⟩, ?_⟩
  · rw [← hlog]
    exact hv _
  · have := configured_kinetic_energy {} _ _ _ m hm P' v hv nz ψ hψ
      (fun y => Real.log (ψ (splitPositions y))) (fun y _ => by rw [hlog]) x (hpos _).ne' ?_
    · rw [this]
      simp only [hs]
      rfl
    · refine ⟨⟨fun e e' he => hx _ _ (finSigmaFinEquiv.injective.ne he), fun e j => hx' _ j⟩,
        fun h => by simp at h, fun _ _ _ _ _ => .inr (.inl rfl), fun h => by simp at h,
        fun h => by simp at h⟩

end Verif.Props
