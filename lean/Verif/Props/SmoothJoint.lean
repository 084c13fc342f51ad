import Verif.Props.Smooth
import Verif.Spec.Decay
import Verif.Spec.ParamPath

/-!
C103: the wave function of a configuration is a smooth function of positions and parameters
together.
-/

namespace Verif.Joint
open Verif.Construct Verif.Net Verif.Spec Verif.Slog Verif.Props

variable {K nion d : ℕ} {n : Fin (K + 1) → ℕ}
variable {E : Type*} [NormedAddCommGroup E] [NormedSpace ℝ E] {k : WithTop ℕ∞} {p : E}

/-- Smooth at `p`. -/
def At (k : WithTop ℕ∞) (p : E) (f : E → ℝ) : Prop := ContDiffAt ℝ k f p

/-! ### Layers -/

theorem affine_smooth {m m' : ℕ} (useBias : Bool) {P : E → DenseParams m m'}
    (hP : DenseEntries (At k p) P) {x : E → Fin m → ℝ}
    (hx : ∀ a, ContDiffAt ℝ k (fun q => x q a) p) (j : Fin m') :
    ContDiffAt ℝ k (fun q => affine useBias (P q) (x q) j) p := by
  unfold affine
  refine (ContDiffAt.sum fun a _ => (hP.kernel a j).mul (hx a)).add ?_
  split
  · exact hP.bias j
  · exact contDiffAt_const

theorem hidden_smooth (name : String) (useBias : Bool) {P : E → ResNetParams}
    (hP : ResNetEntries (At k p) P) (m : ℕ) {m₀ : ℕ}
    {x : E → Fin m₀ → ℝ} (hx : ∀ a, ContDiffAt ℝ k (fun q => x q a) p) (l : ℕ) (j : Fin m) :
    ContDiffAt ℝ k (fun q => hiddenLayer name useBias (P q) m (x q) l j) p := by
  induction l generalizing j with
  | zero =>
    exact skipped_smooth true 1 hx
      (fun a => activation_smooth name (affine_smooth _ (hP.inner _ _ _) hx a)) j
  | succ l ih =>
    exact (activation_smooth name (affine_smooth _ (hP.inner _ _ _) ih j)).add (ih j)

theorem resnet_smooth (name : String) (useBias : Bool) (m layers : ℕ) {P : E → ResNetParams}
    (hP : ResNetEntries (At k p) P) (out : ℕ)
    {m₀ : ℕ} {x : E → Fin m₀ → ℝ} (hx : ∀ a, ContDiffAt ℝ k (fun q => x q a) p) (j : Fin out) :
    ContDiffAt ℝ k (fun q => resnetValue name useBias m layers (P q) out (x q) j) p := by
  unfold resnetValue
  split
  · exact ContDiffAt.sum fun a _ => ((hP.final _ _).kernel _ _).mul (hx a)
  · exact ContDiffAt.sum fun a _ =>
      ((hP.final _ _).kernel _ _).mul (hidden_smooth name useBias hP m hx _ a)

theorem attention_smooth {m H m' N : ℕ} {A : E → Attention m H m'}
    (hA : AttentionEntries (At k p) A) {x : E → Fin N → Fin m → ℝ}
    (hx : ∀ i a, ContDiffAt ℝ k (fun q => x q i a) p) (i : Fin N) (c : Fin m') :
    ContDiffAt ℝ k (fun q => attentionValue (A q) (x q) i c) p := by
  have hproj : ∀ (W : E → Fin m → Fin H → Fin m' → ℝ) (b : E → Fin H → Fin m' → ℝ),
      (∀ l h a, At k p fun q => W q l h a) → (∀ h a, At k p fun q => b q h a) →
      ∀ (j : Fin N) (h : Fin H) (a : Fin m'),
      ContDiffAt ℝ k (fun q => (∑ k, x q j k * W q k h a) + b q h a) p := fun W b hW hb j h a =>
    (ContDiffAt.sum fun l _ => (hx j l).mul (hW l h a)).add (hb h a)
  unfold attentionValue
  have hw : ∀ h j, ContDiffAt ℝ k (fun q => Real.exp ((∑ a,
      ((∑ k, x q i k * (A q).qKernel k h a) + (A q).qBias h a) *
        ((∑ k, x q j k * (A q).kKernel k h a) + (A q).kBias h a)) / Real.sqrt m')) p := fun h j =>
    ((ContDiffAt.sum fun a _ => (hproj _ _ hA.qKernel hA.qBias i h a).mul
      (hproj _ _ hA.kKernel hA.kBias j h a)).div_const _).exp
  refine ContDiffAt.add (hA.oBias c) (ContDiffAt.sum fun h _ => ContDiffAt.sum fun a _ =>
    ContDiffAt.mul (hA.oKernel h a c) (ContDiffAt.div (ContDiffAt.sum fun j _ =>
      (hw h j).mul (hproj _ _ hA.vKernel hA.vBias j h a)) (ContDiffAt.sum fun j _ => hw h j) ?_))
  exact (Finset.sum_pos (fun _ _ => Real.exp_pos _) ⟨i, Finset.mem_univ i⟩).ne'

theorem one_smooth {m₁ m₂ m H : ℕ} (c : BackflowCfg) {P : E → OneParams (K + 1) m₁ m₂ m H}
    (hP : OneEntries (At k p) P)
    {x : E → Stream1 n m₁} {y : Option (E → Stream2 n m₂)}
    (hx : ∀ e a, ContDiffAt ℝ k (fun q => x q e a) p)
    (hy : ∀ f, y = some f → ∀ e e' a, ContDiffAt ℝ k (fun q => f q e e' a) p) (e : Elec n)
    (j : Fin m) : ContDiffAt ℝ k (fun q => oneValue c (P q) (x q) (y.map fun f => f q) e j) p := by
  unfold oneValue
  refine skipped_smooth _ _ (hx e) (fun j => activation_smooth _ (((?_ : ContDiffAt ℝ k _ p).add
    (?_ : ContDiffAt ℝ k _ p)).add (?_ : ContDiffAt ℝ k _ p))) j
  · refine (ContDiffAt.sum fun a _ => (hx e a).mul (hP.unmixedKernel a j)).add ?_
    split
    · exact hP.bias j
    · exact contDiffAt_const
  · split
    · exact attention_smooth hP.attention (fun i a => hx ⟨e.1, i⟩ a) e.2 j
    · exact ContDiffAt.sum fun _ _ => ContDiffAt.sum fun _ _ =>
        (mean_smooth hx _ _).mul (hP.mixedKernel _ j)
  · cases y with
    | none => exact contDiffAt_const
    | some f =>
      exact ContDiffAt.sum fun _ _ => ContDiffAt.sum fun _ _ =>
        (mean_smooth (x := fun q => f q e) (fun e' a => hy f rfl e e' a) _ _).mul (hP.kernel2e _ j)

theorem two_smooth {m₂ m : ℕ} (c : BackflowCfg) {P : E → DenseParams m₂ m}
    (hP : DenseEntries (At k p) P) {y : E → Stream2 n m₂}
    (hy : ∀ e e' a, ContDiffAt ℝ k (fun q => y q e e' a) p) (e e' : Elec n) (j : Fin m) :
    ContDiffAt ℝ k (fun q => twoValue c (P q) (y q) e e' j) p :=
  skipped_smooth _ _ (hy e e') (fun j => activation_smooth _ (affine_smooth _ hP (hy e e') j)) j

/-! ### Backflows -/

theorem backflow_smooth (c : BackflowCfg) {P : E → BackflowParams (K + 1)}
    (hP : BackflowEntries (At k p) P) (ws : List (List ℕ)) :
    ∀ {i m₁ m₂ m : ℕ} (x : E → Stream1 n m₁) (y : Option (E → Stream2 n m₂)) (z : E → Stream1 n m),
      (∀ q, BackflowValue c (P q) i ws (x q) (y.map fun f => f q) (z q)) →
      (∀ e a, ContDiffAt ℝ k (fun q => x q e a) p) →
      (∀ f, y = some f → ∀ e e' a, ContDiffAt ℝ k (fun q => f q e e' a) p) →
      ∀ e a, ContDiffAt ℝ k (fun q => z q e a) p := by
  induction ws with
  | nil =>
    intro i m₁ m₂ m x y z h hx _ e a
    obtain rfl : m = m₁ := congrArg Sigma.fst (backflow_inv_nil (h p))
    have : z = x := funext fun q => eq_of_heq (Sigma.mk.inj (backflow_inv_nil (h q))).2
    rw [this]
    exact hx e a
  | cons t ws ih =>
    intro i m₁ m₂ m x y z h hx hy
    match t, h with
    | [], h => cases h p
    | [u], h =>
      exact ih _ y z (fun q => backflow_inv_one (h q)) (one_smooth c (hP.one _ _ _ _ _) hx hy) hy
    | u :: v :: rest, h =>
      have h1 := one_smooth c (hP.one i m₁ m₂ u c.numHeads) hx hy
      cases y with
      | none =>
        refine ih (i := i + 1) (m₂ := v) _ none z (fun q => ?_) h1 (fun _ h => by cases h)
        exact backflow_inv_two (h q)
      | some g =>
        refine ih (i := i + 1) (m₂ := v) _ (some fun q => twoValue c ((P q).two i m₂ v) (g q)) z
          (fun q => ?_) h1 ?_
        · exact backflow_inv_two (h q)
        · intro f hf
          obtain rfl := Option.some.inj hf
          exact two_smooth c (hP.two _ _ _) (hy g rfl)

variable {ions : Fin nion → Fin d → ℝ} {pos : E → Stream1 n d}

theorem features_smooth (h : ParticlesApart ions (pos p))
    (hp : ∀ e a, ContDiffAt ℝ k (fun q => pos q e a) p) {s : StreamsCfg} {c : BackflowCfg}
    {P : E → BackflowParams (K + 1)} (hP : BackflowEntries (At k p) P) {m : ℕ}
    {z : E → Stream1 n m}
    (hz : ∀ q, Features s c (P q) ions (pos q) (z q)) (e : Elec n) (a : Fin m) :
    ContDiffAt ℝ k (fun q => z q e a) p := by
  choose x y hx hy hz using hz
  obtain ⟨y', h1, h2⟩ := two_input_smooth (k := k) h hp hy
  refine backflow_smooth c hP c.ndenseList (i := 0) x y' z (fun q => ?_)
    (one_input_smooth h hp hx) h2 e a
  rw [← h1]
  exact hz q

/-- The features of a family of positions and parameters, with one width. -/
theorem features_family (h : ParticlesApart ions (pos p))
    (hp : ∀ e a, ContDiffAt ℝ k (fun q => pos q e a) p) {s : StreamsCfg} {c : BackflowCfg}
    {P : E → BackflowParams (K + 1)} (hP : BackflowEntries (At k p) P)
    {Q : E → ∀ m, Stream1 n m → Prop}
    (hQ : ∀ q, ∃ m z, Features s c (P q) ions (pos q) z ∧ Q q m z) :
    ∃ m, ∃ z : E → Stream1 n m, (∀ q, Features s c (P q) ions (pos q) (z q)) ∧
      (∀ e a, ContDiffAt ℝ k (fun q => z q e a) p) ∧ ∀ q, Q q m (z q) := by
  have : ∀ q, ∃ z : Stream1 n (featureWidth c.ndenseList (nion * (d + 1))),
      Features s c (P q) ions (pos q) z ∧ Q q _ z := by
    intro q
    obtain ⟨m, z, h1, h2⟩ := hQ q
    obtain rfl := features_width h1
    exact ⟨z, h1, h2⟩
  choose z hz using this
  exact ⟨_, z, fun q => (hz q).1, features_smooth h hp hP fun q => (hz q).1, fun q => (hz q).2⟩

/-! ### Orbitals and determinants -/

/-- An envelope which has no kink as a function of positions and decays: its lengths are softened, or
it decays. -/
def EnvelopeSmooth (softening : ℝ) (isotropic : Bool) (isoK : ℝ)
    (anisoK : Fin nion → Fin d → Fin d → ℝ) : Prop :=
  softening ≠ 0 ∨ EnvelopeDecays isotropic isoK anisoK

theorem envelope_smooth (h : ParticlesApart ions (pos p))
    (hp : ∀ e a, ContDiffAt ℝ k (fun q => pos q e a) p) (isotropic : Bool) (softening : ℝ)
    {isoK : E → ℝ} {anisoK : E → Fin nion → Fin d → Fin d → ℝ} {ionK : E → Fin nion → ℝ}
    (h1 : At k p isoK) (h2 : ∀ j l l', At k p fun q => anisoK q j l l')
    (h3 : ∀ j, At k p fun q => ionK q j)
    (hr : EnvelopeSmooth softening isotropic (isoK p) (anisoK p)) (e : Elec n) :
    ContDiffAt ℝ k (fun q =>
      envelopeValue isotropic softening (isoK q) (anisoK q) (ionK q) ions (pos q e)) p := by
  unfold envelopeValue
  refine ContDiffAt.sum fun j _ => ContDiffAt.mul (h3 j) (contDiffAt_const.sub ?_).exp
  have hs : ContDiffAt ℝ k (fun q => softening ^ 2 + ∑ l',
      (if isotropic = true then isoK q * (pos q e l' - ions j l')
        else ∑ l, (pos q e l - ions j l) * anisoK q j l l') ^ 2) p := by
    refine contDiffAt_const.add (ContDiffAt.sum fun l' _ => ContDiffAt.pow ?_ 2)
    split
    · exact ContDiffAt.mul h1 ((hp e l').sub contDiffAt_const)
    · exact ContDiffAt.sum fun l _ => ((hp e l).sub contDiffAt_const).mul (h2 j l l')
  have hpos : ∀ f : Fin d → ℝ, (softening ≠ 0 ∨ ∃ l', f l' ≠ 0) →
      softening ^ 2 + ∑ l', f l' ^ 2 ≠ 0 := by
    intro f hf
    have h0 : 0 ≤ ∑ l', f l' ^ 2 := Finset.sum_nonneg fun _ _ => sq_nonneg _
    rcases hf with hf | ⟨l', hl⟩
    · positivity
    · have : 0 < ∑ l', f l' ^ 2 :=
        Finset.sum_pos' (fun _ _ => sq_nonneg _) ⟨l', Finset.mem_univ l', by positivity⟩
      positivity
  obtain ⟨l₀, hl₀⟩ := Function.ne_iff.mp (h.ions e j)
  refine hs.sqrt (hpos _ (hr.imp_right fun hr => ?_))
  unfold EnvelopeDecays at hr
  cases isotropic with
  | true =>
    refine ⟨l₀, ?_⟩
    simp only [if_true] at hr ⊢
    exact mul_ne_zero hr (sub_ne_zero.mpr hl₀)
  | false =>
    by_contra hc
    push Not at hc
    have : (fun l => pos p e l - ions j l) = 0 := hr j _ fun l' => by
      have := hc l'
      simpa using this
    exact hl₀ (sub_eq_zero.mp (congrFun this l₀))

/-- All envelopes of a layer of orbitals are softened or decay. -/
def LayerSmooth (softening : ℝ) (isotropic : Bool) {S m : ℕ} {norb : Fin S → ℕ}
    (L : OrbitalLayer S m nion d norb) : Prop :=
  ∀ s o, EnvelopeSmooth softening isotropic (L.isoKernel s o) fun j l l' => L.anisoKernel s j l l' o

theorem orbital_smooth (h : ParticlesApart ions (pos p))
    (hp : ∀ e a, ContDiffAt ℝ k (fun q => pos q e a) p) {m : ℕ} {norb : Fin (K + 1) → ℕ}
    {useBias isotropic : Bool} {softening : ℝ} {L : E → OrbitalLayer (K + 1) m nion d norb}
    (hL : OrbitalEntries (At k p) L)
    (hr : LayerSmooth softening isotropic (L p)) {z : E → Stream1 n m}
    (hz : ∀ e a, ContDiffAt ℝ k (fun q => z q e a) p) (s : Fin (K + 1)) (i : Fin (n s))
    (o : Fin (norb s)) :
    ContDiffAt ℝ k
      (fun q => orbitalValue useBias isotropic softening (L q) ions (pos q) (z q) s i o) p := by
  unfold orbitalValue
  refine ContDiffAt.mul (ContDiffAt.add
    (ContDiffAt.sum fun a _ => ContDiffAt.mul (hL.kernel s a o) (hz _ a)) ?_)
    (envelope_smooth h hp _ _ (hL.isoKernel s o) (fun j l l' => hL.anisoKernel s j l l' o)
      (fun j => hL.ionKernel s o j) (hr s o) ⟨s, i⟩)
  split
  · exact hL.bias s o
  · exact contDiffAt_const

theorem fermi_dets_smooth {c : ModelCfg} {P : E → Params (K + 1) nion d}
    (hP : Entries (At k p) P)
    (h : ParticlesApart ions (pos p)) (hp : ∀ e a, ContDiffAt ℝ k (fun q => pos q e a) p)
    (hr : ∀ m norb, LayerSmooth c.envelopeSoftening c.isotropicDecay ((P p).orbitals m norb)) {N : ℕ}
    {D : E → Fin (N + 1) → Fin c.ndeterminants → ℝ}
    (hD : ∀ q, FermiDets c (P q) ions (pos q) (D q)) (s : Fin (N + 1)) (i : Fin c.ndeterminants) :
    ContDiffAt ℝ k (fun q => D q s i) p := by
  cases hf : c.fullDet with
  | false =>
    obtain ⟨m, z, -, hz', hz⟩ := features_family h hp hP.backflow fun q => by
      obtain ⟨-, m, z, h1, h2⟩ | ⟨h, -⟩ := fermi_dets_inv (hD q)
      · exact ⟨m, z, h1, h2⟩
      · rw [hf] at h; cases h
    obtain rfl : N = K := congrArg Sigma.fst (hz p)
    have : ∀ q, D q = _ := fun q => eq_of_heq (Sigma.mk.inj (hz q)).2
    simp only [this]
    exact det_smooth fun a o => orbital_smooth h hp (hP.orbitals _ _) (hr _ _) hz' s a _
  | true =>
    obtain ⟨m, z, -, hz', hz⟩ := features_family h hp hP.backflow (Q := fun q m z =>
      ∃ M : Fin c.ndeterminants → Matrix (Fin (∑ s, n s)) (Fin (∑ s, n s)) ℝ,
        (∀ i, Stacked (fun s a o => orbitalValue c.orbitalsUseBias c.isotropicDecay
          c.envelopeSoftening ((P q).orbitals m fun _ => c.ndeterminants * ∑ s, n s) ions (pos q) z
          s a (blockEntry i o)) (M i)) ∧
        (⟨N, D q⟩ : Σ N, Fin (N + 1) → Fin c.ndeterminants → ℝ) = ⟨0, fun _ i => (M i).det⟩)
      fun q => by
        obtain ⟨h, -⟩ | ⟨-, m, z, h1, h2⟩ := fermi_dets_inv (hD q)
        · rw [hf] at h; cases h
        · exact ⟨m, z, h1, h2⟩
    choose M hM hDM using hz
    obtain rfl : N = 0 := congrArg Sigma.fst (hDM p)
    have : ∀ q, D q = _ := fun q => eq_of_heq (Sigma.mk.inj (hDM q)).2
    simp only [this]
    exact det_smooth (stacked_smooth (fun q => hM q i) fun s' b o =>
      orbital_smooth h hp (hP.orbitals _ _) (hr _ _) hz' s' b _)

theorem det_resnet_smooth {N N' : ℕ} (c : DetResnetCfg) {P : E → ResNetParams}
    (hP : ResNetEntries (At k p) P) (out : ℕ)
    {D : E → Fin N → Fin N' → ℝ} (hD : ∀ s i, ContDiffAt ℝ k (fun q => D q s i) p) (e : Fin N → ℝ)
    (j : Fin out) : ContDiffAt ℝ k (fun q => detResnetValue c (P q) out (D q) e j) p :=
  resnet_smooth _ _ _ _ hP _ (fun _ => contDiffAt_const.mul (hD _ _)) j

theorem combined_smooth {c : ModelCfg} {P : E → ResNetParams} (hP : ResNetEntries (At k p) P) {N : ℕ}
    {D : E → Fin (N + 1) → Fin c.ndeterminants → ℝ} {r : E → ℝ}
    (h : ∀ q, Combined c (P q) (D q) (r q))
    (hD : ∀ s i, ContDiffAt ℝ k (fun q => D q s i) p) : ContDiffAt ℝ k r p := by
  cases hu : c.useDetResnet with
  | false =>
    have : r = fun q => ∑ i, ∏ s, D q s i := funext fun q => by
      rcases combined_inv (h q) with ⟨-, h⟩ | ⟨h, -⟩ | ⟨h, -⟩ | ⟨h, -⟩
      · exact h
      all_goals rw [hu] at h; cases h
    rw [this]
    exact ContDiffAt.sum fun i _ => contDiffAt_prod fun s _ => hD s i
  | true =>
    rcases combined_inv (h p) with ⟨h0, -⟩ | ⟨-, hm, -⟩ | ⟨-, hm, -⟩ | ⟨-, hm, D', hN, -⟩
    · rw [hu] at h0; cases h0
    · have : r = fun q => sumOverSigns (N + 1) fun e =>
          (∏ s, e s) * detResnetValue c.detResnet (P q) 1 (D q) e 0 := funext fun q => by
        rcases combined_inv (h q) with ⟨h, -⟩ | ⟨-, -, h⟩ | ⟨-, h, -⟩ | ⟨-, h, -⟩
        · rw [hu] at h; cases h
        · exact h
        all_goals rw [hm] at h; simp at h
      rw [this]
      exact ContDiffAt.sum fun e _ => contDiffAt_const.mul (det_resnet_smooth _ hP _ hD _ _)
    · have : r = fun q => ∑ i, (∏ s, D q s i) * sumOverSigns (N + 1) fun e =>
          detResnetValue c.detResnet (P q) c.ndeterminants (D q) e i := funext fun q => by
        rcases combined_inv (h q) with ⟨h, -⟩ | ⟨-, h, -⟩ | ⟨-, -, h⟩ | ⟨-, h, -⟩
        · rw [hu] at h; cases h
        · rw [hm] at h; simp at h
        · exact h
        · rw [hm] at h; simp at h
      rw [this]
      exact ContDiffAt.sum fun i _ => (contDiffAt_prod fun s _ => hD s i).mul
        (ContDiffAt.sum fun e _ => det_resnet_smooth _ hP _ hD _ _)
    · obtain rfl : N = 1 := congrArg Sigma.fst hN
      have : r = fun q => ∑ i, ∑ j, D q 0 i * D q 1 j * sumOverSigns 2 fun e =>
          detResnetValue c.detResnet (P q) (c.ndeterminants * c.ndeterminants) (D q) e
            (blockEntry i j) := funext fun q => by
        rcases combined_inv (h q) with ⟨h, -⟩ | ⟨-, h, -⟩ | ⟨-, h, -⟩ | ⟨-, -, D', hD', h⟩
        · rw [hu] at h; cases h
        · rw [hm] at h; simp at h
        · rw [hm] at h; simp at h
        · obtain rfl : D q = D' := eq_of_heq (Sigma.mk.inj hD').2
          exact h
      rw [this]
      exact ContDiffAt.sum fun i _ => ContDiffAt.sum fun j _ => ((hD 0 i).mul (hD 1 j)).mul
        (ContDiffAt.sum fun e _ => det_resnet_smooth _ hP _ hD _ _)

theorem fermi_smooth {c : ModelCfg} {P : E → Params (K + 1) nion d} (hP : Entries (At k p) P)
    (h : ParticlesApart ions (pos p)) (hp : ∀ e a, ContDiffAt ℝ k (fun q => pos q e a) p)
    (hr : ∀ m norb, LayerSmooth c.envelopeSoftening c.isotropicDecay ((P p).orbitals m norb))
    {r : E → ℝ} (hD : ∀ q, ∃ N, ∃ D : Fin (N + 1) → Fin c.ndeterminants → ℝ,
      FermiDets c (P q) ions (pos q) D ∧ Combined c (P q).detFn D (r q)) : ContDiffAt ℝ k r p := by
  have : ∀ q, ∃ D : Fin ((if c.fullDet = true then 0 else K) + 1) → Fin c.ndeterminants → ℝ,
      FermiDets c (P q) ions (pos q) D ∧ Combined c (P q).detFn D (r q) := by
    intro q
    obtain ⟨N, D, h1, h2⟩ := hD q
    obtain rfl := fermi_dets_size h1
    exact ⟨D, h1, h2⟩
  choose D h1 h2 using this
  exact combined_smooth hP.detFn h2 (fermi_dets_smooth hP h hp hr h1)

/-! ### Hidden fermions -/

theorem invariant_smooth {m : ℕ} {rows cols : Fin (K + 1) → ℕ} (useBias : Bool)
    {I : E → InvariantDense (K + 1) m rows cols} (hI : InvariantEntries (At k p) I)
    {z : E → Stream1 n m}
    (hz : ∀ e a, ContDiffAt ℝ k (fun q => z q e a) p) (s : Fin (K + 1)) (a : Fin (rows s))
    (b : Fin (cols s)) : ContDiffAt ℝ k (fun q => invariantValue useBias (I q) (z q) s a b) p := by
  unfold invariantValue
  refine (ContDiffAt.sum fun _ _ => ContDiffAt.mul (hI.kernel _ _ _) (mean_smooth hz _ _)).add ?_
  split
  · exact hI.bias _ _
  · exact contDiffAt_const

theorem hidden_positions_smooth {c : ModelCfg} {P : E → Params (K + 1) nion d}
    (hP : Entries (At k p) P)
    (h : ParticlesApart ions (pos p)) (hp : ∀ e a, ContDiffAt ℝ k (fun q => pos q e a) p)
    {x : E → Stream1 (fun s => n s + hiddenCount K c s) d}
    (hx : ∀ q, HiddenPositions c (P q) ions (pos q) (x q))
    (e : Elec fun s => n s + hiddenCount K c s) (a : Fin d) :
    ContDiffAt ℝ k (fun q => x q e a) p := by
  obtain ⟨m, z, -, hz', hz⟩ := features_family h hp hP.invBackflow hx
  obtain ⟨s, b⟩ := e
  obtain ⟨i, hi⟩ | ⟨i, hi⟩ := visible_or_hidden b
  · simp only [fun q => (hz q).visible s i b hi]
    exact hp _ a
  · simp only [fun q => (hz q).hidden s i b hi]
    exact invariant_smooth (cols := fun _ => d) _ (hP.invariance _ _ _) hz' s i a

/-- The features of orbitals and additional rows of a family of positions. -/
theorem row_features_family {c : ModelCfg} {P : E → Params (K + 1) nion d} (hP : Entries (At k p) P)
    (h : ParticlesApart ions (pos p)) (hp : ∀ e a, ContDiffAt ℝ k (fun q => pos q e a) p)
    {Q : E → ∀ m m', Stream1 n m → Stream1 n m' → Prop}
    (hQ : ∀ q, ∃ m m', ∃ z : Stream1 n m, ∃ y : Stream1 n m',
      Features c.inputStreams c.backflow (P q).backflow ions (pos q) z ∧
      RowFeatures c (P q) ions (pos q) z y ∧ Q q m m' z y) :
    ∃ m m', ∃ z : E → Stream1 n m, ∃ y : E → Stream1 n m',
      (∀ e a, ContDiffAt ℝ k (fun q => z q e a) p) ∧
      (∀ e a, ContDiffAt ℝ k (fun q => y q e a) p) ∧ ∀ q, Q q m m' (z q) (y q) := by
  cases hs : c.useSeparateInvarianceBackflow with
  | true =>
    obtain ⟨m, z, -, hz, hQ⟩ := features_family h hp hP.backflow (Q := fun q m z =>
      ∃ m', ∃ y : Stream1 n m', Features c.inputStreams c.invariance.backflow (P q).invBackflow ions
        (pos q) y ∧ Q q m m' z y)
      fun q => by
        obtain ⟨m, m', z, y, h1, h2, h3⟩ := hQ q
        rw [RowFeatures, if_pos hs] at h2
        exact ⟨m, z, h1, m', y, h2, h3⟩
    obtain ⟨m', y, -, hy, hQ⟩ := features_family h hp hP.invBackflow hQ
    exact ⟨m, m', z, y, hz, hy, hQ⟩
  | false =>
    obtain ⟨m, z, -, hz, hQ⟩ := features_family h hp hP.backflow (Q := fun q m z => Q q m m z z)
      fun q => by
        obtain ⟨m, m', z, y, h1, h2, h3⟩ := hQ q
        rw [RowFeatures, if_neg (by simp [hs])] at h2
        obtain ⟨rfl, h2⟩ := h2
        obtain rfl : y = z := funext fun e => funext fun j => h2 e j
        exact ⟨_, _, h1, h3⟩
    exact ⟨m, m, z, z, hz, hz, hQ⟩

theorem extended_rows_smooth {c : ModelCfg} {P : E → Params (K + 1) nion d}
    (hP : Entries (At k p) P)
    (h : ParticlesApart ions (pos p)) (hp : ∀ e a, ContDiffAt ℝ k (fun q => pos q e a) p)
    (hr : ∀ m norb, LayerSmooth c.envelopeSoftening c.isotropicDecay ((P p).orbitals m norb))
    {m m' : ℕ} {z : E → Stream1 n m} {y : E → Stream1 n m'} {norb : Fin (K + 1) → ℕ}
    {i : Fin c.ndeterminants} {s : Fin (K + 1)}
    {R : E → Fin (n s + hiddenCount K c s) → Fin (norb s) → ℝ}
    (hz : ∀ e a, ContDiffAt ℝ k (fun q => z q e a) p)
    (hy : ∀ e a, ContDiffAt ℝ k (fun q => y q e a) p)
    (hR : ∀ q, ExtendedRows c (P q) ions (pos q) (z q) (y q) norb i s (R q))
    (b : Fin (n s + hiddenCount K c s)) (o : Fin (norb s)) :
    ContDiffAt ℝ k (fun q => R q b o) p := by
  obtain ⟨a, ha⟩ | ⟨a, ha⟩ := visible_or_hidden b
  · simp only [fun q => (hR q).visible a b ha o]
    exact orbital_smooth h hp (hP.orbitals _ _) (hr _ _) hz s a _
  · simp only [fun q => (hR q).hidden a b ha o]
    exact invariant_smooth _ (hP.invariance _ _ _) hy s a _

theorem extended_dets_smooth {c : ModelCfg} {P : E → Params (K + 1) nion d}
    (hP : Entries (At k p) P)
    (h : ParticlesApart ions (pos p)) (hp : ∀ e a, ContDiffAt ℝ k (fun q => pos q e a) p)
    (hr : ∀ m norb, LayerSmooth c.envelopeSoftening c.isotropicDecay ((P p).orbitals m norb)) {N : ℕ}
    {D : E → Fin (N + 1) → Fin c.ndeterminants → ℝ}
    (hD : ∀ q, ExtendedDets c (P q) ions (pos q) (D q)) (s : Fin (N + 1))
    (i : Fin c.ndeterminants) : ContDiffAt ℝ k (fun q => D q s i) p := by
  cases hf : c.fullDet with
  | false =>
    obtain ⟨m, m', z, y, hz, hy, hM⟩ := row_features_family hP h hp fun q => by
      obtain ⟨-, m, m', z, y, h1, h2, h3⟩ | ⟨h, -⟩ := extended_dets_inv (hD q)
      · exact ⟨m, m', z, y, h1, h2, h3⟩
      · rw [hf] at h; cases h
    choose M hM hDM using hM
    obtain rfl : N = K := congrArg Sigma.fst (hDM p)
    have : ∀ q, D q = _ := fun q => eq_of_heq (Sigma.mk.inj (hDM q)).2
    simp only [this]
    exact det_smooth (extended_rows_smooth (norb := fun s => n s + hiddenCount _ c s) hP h hp hr hz
      hy fun q => hM q i s)
  | true =>
    obtain ⟨m, m', z, y, hz, hy, hM⟩ := row_features_family hP h hp fun q => by
      obtain ⟨h, -⟩ | ⟨-, m, m', z, y, h1, h2, h3⟩ := extended_dets_inv (hD q)
      · rw [hf] at h; cases h
      · exact ⟨m, m', z, y, h1, h2, h3⟩
    choose R M hR hM hDM using hM
    obtain rfl : N = 0 := congrArg Sigma.fst (hDM p)
    have : ∀ q, D q = _ := fun q => eq_of_heq (Sigma.mk.inj (hDM q)).2
    simp only [this]
    exact det_smooth (stacked_smooth (n := fun s => n s + hiddenCount K c s) (fun q => hM q i)
      fun s => extended_rows_smooth (norb := fun _ => ∑ s, (n s + hiddenCount K c s)) hP h hp hr hz
        hy fun q => hR q i s)

theorem extended_smooth {c : ModelCfg} {P : E → Params (K + 1) nion d} (hP : Entries (At k p) P)
    (h : ParticlesApart ions (pos p)) (hp : ∀ e a, ContDiffAt ℝ k (fun q => pos q e a) p)
    (hr : ∀ m norb, LayerSmooth c.envelopeSoftening c.isotropicDecay ((P p).orbitals m norb))
    {r : E → ℝ} (hD : ∀ q, ∃ N, ∃ D : Fin (N + 1) → Fin c.ndeterminants → ℝ,
      ExtendedDets c (P q) ions (pos q) D ∧ Combined c (P q).detFn D (r q)) :
    ContDiffAt ℝ k r p := by
  have : ∀ q, ∃ D : Fin ((if c.fullDet = true then 0 else K) + 1) → Fin c.ndeterminants → ℝ,
      ExtendedDets c (P q) ions (pos q) D ∧ Combined c (P q).detFn D (r q) := by
    intro q
    obtain ⟨N, D, h1, h2⟩ := hD q
    obtain rfl := extended_dets_size h1
    exact ⟨D, h1, h2⟩
  choose D h1 h2 using this
  exact combined_smooth hP.detFn h2 (extended_dets_smooth hP h hp hr h1)

/-! ### Antiequivariance networks -/

/-- All envelopes which matter for antiequivariant values are softened or decay; cofactors get the
options of C50. -/
def AntiSmooth (c : ModelCfg) (P : Params (K + 1) nion d) (n : Fin (K + 1) → ℕ) : Prop :=
  if c.type = "per_particle_dets_net" then
    ∀ m s o, EnvelopeSmooth 0 c.isotropicDecay ((P.doubly m n).envelopes.isoKernel s o)
      fun j l l' => (P.doubly m n).envelopes.anisoKernel s j l l' o
  else ∀ m, LayerSmooth (if c.orbitalsUseBias = true then 1 else 0) false (P.orbitals m n)

theorem anti_value_smooth {c : ModelCfg} {P : E → Params (K + 1) nion d} (hP : Entries (At k p) P)
    (h : ParticlesApart ions (pos p)) (hp : ∀ e a, ContDiffAt ℝ k (fun q => pos q e a) p)
    (hr : AntiSmooth c (P p) n) {m : ℕ} {z : E → Stream1 n m}
    (hz : ∀ e a, ContDiffAt ℝ k (fun q => z q e a) p) (s : Fin (K + 1)) (i : Fin (n s)) :
    ContDiffAt ℝ k (fun q => antiValue c (P q) ions (pos q) (z q) s i) p := by
  unfold antiValue
  unfold AntiSmooth at hr
  split
  · rename_i ht
    rw [if_pos ht] at hr
    have hL := hP.doubly m n
    refine det_smooth fun a o => ContDiffAt.mul (((ContDiffAt.sum fun _ _ =>
      ContDiffAt.mul (hL.kernel _ _ _) (hz _ _)).add (ContDiffAt.sum fun _ _ =>
      ContDiffAt.mul (hL.kernel _ _ _) (hz _ _))).add ?_) ?_
    · split
      · exact hL.bias s o
      · exact contDiffAt_const
    · exact envelope_smooth h hp _ _ (hL.envelopes.isoKernel s o)
        (fun j l l' => hL.envelopes.anisoKernel s j l l' o)
        (fun j => hL.envelopes.ionKernel s o j) (hr m s o) ⟨s, a⟩
  · rename_i ht
    rw [if_neg ht] at hr
    refine det_smooth fun a o => ?_
    simp only [Matrix.of_apply]
    split
    · exact contDiffAt_const
    · exact orbital_smooth h hp (hP.orbitals _ _) (hr m) hz s a o

theorem paired_smooth {c : ModelCfg} {P : E → Params (K + 1) nion d} (hP : Entries (At k p) P)
    {m : ℕ} {a : E → Stream1 n m} {r : E → ℝ} (h : ∀ q, Paired c (P q) (a q) (r q))
    (ha : ∀ e j, ContDiffAt ℝ k (fun q => a q e j) p) : ContDiffAt ℝ k r p := by
  cases hc : c.useProductsCovariance with
  | true =>
    cases hw : c.productsUseWeights with
    | false =>
      obtain ⟨hK, -, -, -⟩ | ⟨-, -, h, -⟩ | ⟨h, -⟩ := paired_inv (h p)
      · have : r = fun q => ∑ i, ∑ j, ∑ k, a q ⟨⟨0, by omega⟩, i⟩ k * a q ⟨⟨1, by omega⟩, j⟩ k :=
          funext fun q => by
            obtain ⟨_, -, -, h⟩ | ⟨-, -, h, -⟩ | ⟨h, -⟩ := paired_inv (h q)
            · exact h
            · rw [hw] at h; cases h
            · rw [hc] at h; cases h
        rw [this]
        exact ContDiffAt.sum fun i _ => ContDiffAt.sum fun j _ => ContDiffAt.sum fun l _ =>
          (ha _ _).mul (ha _ _)
      · rw [hw] at h; cases h
      · rw [hc] at h; cases h
    | true =>
      obtain ⟨-, -, h, -⟩ | ⟨hK, -, -, -⟩ | ⟨h, -⟩ := paired_inv (h p)
      · rw [hw] at h; cases h
      · have : r = fun q => ∑ i : Fin (n ⟨0, by omega⟩), ∑ j : Fin (n ⟨1, by omega⟩),
            (∑ k, a q ⟨⟨0, by omega⟩, i⟩ k * a q ⟨⟨1, by omega⟩, j⟩ k) *
            (P q).productsKernel i.val j.val := funext fun q => by
          obtain ⟨-, -, h, -⟩ | ⟨_, -, -, h⟩ | ⟨h, -⟩ := paired_inv (h q)
          · rw [hw] at h; cases h
          · exact h
          · rw [hc] at h; cases h
        rw [this]
        exact ContDiffAt.sum fun i _ => ContDiffAt.sum fun j _ => (ContDiffAt.sum fun l _ =>
          (ha _ _).mul (ha _ _)).mul (hP.productsKernel _ _)
      · rw [hc] at h; cases h
  | false =>
    have : ∀ q, ∃ B : (Fin (K + 1) → ℝ) →
        Stream1 n (featureWidth c.invarianceBackflow.ndenseList m),
        (∀ e, BackflowValue c.invarianceBackflow (P q).covBackflow 0 c.invarianceBackflow.ndenseList
          (fun i k => e i.1 * a q i k) (none : Option (Stream2 n 0)) (B e)) ∧
        r q = sumOverSigns (K + 1) fun e => (∏ s, e s) * ∑ i, ∑ k, B e i k := by
      intro q
      obtain ⟨-, h, -, -⟩ | ⟨-, h, -, -⟩ | ⟨-, m', B, h1, h2⟩ := paired_inv (h q)
      · rw [hc] at h; cases h
      · rw [hc] at h; cases h
      · obtain rfl := backflow_width (h1 0)
        exact ⟨B, h1, h2⟩
    choose B hB hr using this
    rw [funext hr]
    refine ContDiffAt.sum fun e _ => contDiffAt_const.mul (ContDiffAt.sum fun i _ =>
      ContDiffAt.sum fun l _ => ?_)
    exact backflow_smooth c.invarianceBackflow hP.covBackflow c.invarianceBackflow.ndenseList
      (i := 0) _ none (fun q => B q _) (fun q => hB q _) (fun _ _ => contDiffAt_const.mul (ha _ _))
      (fun _ h => by cases h) i l

theorem antiequivariance_smooth {c : ModelCfg} {P : E → Params (K + 1) nion d}
    (hP : Entries (At k p) P)
    (h : ParticlesApart ions (pos p)) (hp : ∀ e a, ContDiffAt ℝ k (fun q => pos q e a) p)
    (hr : AntiSmooth c (P p) n) {r : E → ℝ}
    (hQ : ∀ q, ∃ m m', ∃ z : Stream1 n m, ∃ a : Stream1 n m',
      Features c.inputStreams c.backflow (P q).backflow ions (pos q) z ∧
      AntiFeatures c z (antiValue c (P q) ions (pos q) z) a ∧ Paired c (P q) a (r q)) :
    ContDiffAt ℝ k r p := by
  obtain ⟨m, z, -, hz, hQ⟩ := features_family h hp hP.backflow (Q := fun q m z =>
    ∃ m', ∃ a : Stream1 n m',
      AntiFeatures c z (antiValue c (P q) ions (pos q) z) a ∧ Paired c (P q) a (r q)) fun q => by
      obtain ⟨m, m', z, a, h1, h2⟩ := hQ q
      exact ⟨m, z, h1, m', a, h2⟩
  have hv := anti_value_smooth hP h hp hr hz
  cases hc : c.multiplyByEqFeatures with
  | true =>
    refine paired_smooth (c := c) hP
      (a := fun q e j => antiValue c (P q) ions (pos q) (z q) e.1 e.2 * z q e j)
      (fun q => ?_) fun e j => (hv _ _).mul (hz _ _)
    obtain ⟨m', a, h1, h2⟩ := hQ q
    have h1 := anti_features_inv h1
    rw [if_pos hc] at h1
    cases h1
    exact h2
  | false =>
    refine paired_smooth (c := c) hP
      (a := fun q e (_ : Fin 1) => antiValue c (P q) ions (pos q) (z q) e.1 e.2)
      (fun q => ?_) fun e j => hv _ _
    obtain ⟨m', a, h1, h2⟩ := hQ q
    have h1 := anti_features_inv h1
    rw [if_neg (by simp [hc])] at h1
    cases h1
    exact h2

/-! ### Explicit antisymmetrization -/

theorem antisym_resnet_smooth (c : ModelCfg) {P : E → Params (K + 1) nion d}
    (hP : Entries (At k p) P) (s r : ℕ)
    {l : E → List ℝ} (hl : SmoothList k p l) :
    ContDiffAt ℝ k (fun q => antisymResnet c (P q) s r (l q)) p := by
  obtain ⟨L, h1, h2⟩ := hl
  unfold antisymResnet
  have : ∀ q, resnetValue c.activationFnResnet c.resnetUseBias c.ndenseResnet c.nlayersResnet
      ((P q).resnets s r) 1 (l q).get = resnetValue c.activationFnResnet c.resnetUseBias
      c.ndenseResnet c.nlayersResnet ((P q).resnets s r) 1 fun a : Fin L.length => L.get a q :=
    fun q => resnet_cast _ _ _ _ _ _ (by rw [h2]; simp) _ _ fun a => by
      have := h2 q
      simp only [List.get_eq_getElem, this, List.getElem_map]
      rfl
  simp only [this]
  exact resnet_smooth _ _ _ _ (hP.resnets s r) _ (fun a => h1 _ (List.get_mem L a)) 0

theorem antisymmetrized_smooth {c : ModelCfg} {P : E → Params (K + 1) nion d}
    (hP : Entries (At k p) P) {m : ℕ}
    {z : E → Stream1 n m} (hz : ∀ e a, ContDiffAt ℝ k (fun q => z q e a) p) {r : E → ℝ}
    (h : ∀ q, ∃ N, ∃ t : Fin N → ℝ, Antisymmetrized c (P q) (z q) t ∧ r q = ∑ i, t i) :
    ContDiffAt ℝ k r p := by
  choose N t h1 h2 using h
  have h' := fun q => antisymmetrized_inv (h1 q)
  rcases h' p with ⟨ht, -⟩ | ⟨ht, -⟩
  · rw [funext fun q => (h2 q).trans ((h' q).resolve_right fun h => by simp [ht] at h).2]
    exact ContDiffAt.sum fun r _ => contDiffAt_prod fun s _ => ContDiffAt.sum fun σ _ =>
      contDiffAt_const.mul (antisym_resnet_smooth c hP s r (reordered_smooth hz s σ))
  · rw [funext fun q => (h2 q).trans ((h' q).resolve_left fun h => by simp [ht] at h).2]
    exact ContDiffAt.sum fun σ _ => contDiffAt_const.mul (antisym_resnet_smooth c hP 0 0
      (smoothList_flatten fun s => reordered_smooth hz s (σ s)))

theorem backflow_exponent_smooth {c : ModelCfg} {P : E → Params (K + 1) nion d}
    (hP : Entries (At k p) P)
    (h : ParticlesApart ions (pos p)) (hp : ∀ e a, ContDiffAt ℝ k (fun q => pos q e a) p)
    (hl : LengthsRegular c (P p) ions (pos p)) {m : ℕ} {z : E → Stream1 n m}
    (hz : ∀ q, Features c.inputStreams c.backflow (P q).backflow ions (pos q) (z q)) {r : E → ℝ}
    (hr : ∀ q, BackflowExponent c (P q) ions (pos q) (z q) (r q)) : ContDiffAt ℝ k r p := by
  unfold LengthsRegular at hl
  unfold BackflowExponent at hr
  split at hl
  · rename_i hc
    simp only [if_pos hc] at hr
    obtain ⟨m', y, hy, hy', hr⟩ := features_family h hp hP.jastrowBackflow
      (Q := fun q m y => r q = lengthValue y) hr
    rw [funext hr]
    exact length_smooth hy' (hl m' _ (hy p))
  · rename_i hc
    simp only [if_neg hc] at hr
    rw [funext hr]
    exact length_smooth (features_smooth h hp hP.backflow hz) (hl m _ (hz p))

theorem two_body_smooth {w : E → Fin nion → ℝ} {g : E → ℝ} (hw : ∀ j, At k p fun q => w q j)
    (hg : At k p g) (charges : Fin nion → ℝ)
    (h : ParticlesApart ions (pos p)) (hp : ∀ e a, ContDiffAt ℝ k (fun q => pos q e a) p) :
    ContDiffAt ℝ k (fun q => twoBodyValue (w q) (g q) ions charges (pos q)) p := by
  unfold twoBodyValue
  exact ((ContDiffAt.mul hg (ContDiffAt.div_const (ContDiffAt.sum fun e _ =>
    ContDiffAt.sum fun e' _ => pair_distance_smooth h hp e e') _)).sub
    (ContDiffAt.sum fun e _ => ContDiffAt.sum fun j _ =>
      ContDiffAt.mul (hw j) (ion_distance_smooth h hp e j))).add contDiffAt_const

theorem abs_smooth {f : E → ℝ} (hf : At k p f) (h0 : f p ≠ 0) :
    ContDiffAt ℝ k (fun q => |f q|) p := by
  have hc : ContinuousAt f p := ContDiffAt.continuousAt hf
  rcases h0.lt_or_gt with h | h
  · exact (ContDiffAt.neg hf).congr_of_eventuallyEq
      ((hc.eventually_lt_const h).mono fun q hq => abs_of_neg hq)
  · exact ContDiffAt.congr_of_eventuallyEq hf
      ((hc.eventually_const_lt h).mono fun q hq => abs_of_pos hq)

theorem exponent_smooth {c : ModelCfg} {P : E → Params (K + 1) nion d} (hP : Entries (At k p) P)
    {charges : Fin nion → ℝ}
    (h : ParticlesApart ions (pos p)) (hp : ∀ e a, ContDiffAt ℝ k (fun q => pos q e a) p)
    (hl : c.jastrow.type = "backflow_based" ∨ c.jastrow.type = "two_body_decay_and_backflow_based" →
      LengthsRegular c (P p) ions (pos p))
    (ho : c.jastrow.type = "one_body_decay" → (P p).oneBodyKernel 0 ≠ 0) {m : ℕ}
    {z : E → Stream1 n m}
    (hz : ∀ q, Features c.inputStreams c.backflow (P q).backflow ions (pos q) (z q)) {r : E → ℝ}
    (hr : ∀ q, Exponent c (P q) ions charges (pos q) (z q) (r q)) : ContDiffAt ℝ k r p := by
  have hr' := hr p
  unfold Exponent at hr hr'
  have hw : ∀ j, At k p fun q =>
      (if c.jastrow.trainable = true then (P q).eiStrength else charges) j := fun j => by
    split
    · exact hP.eiStrength j
    · exact contDiffAt_const
  have hg : At k p fun q =>
      if c.jastrow.trainable = true then (P q).eeStrength else c.jastrow.initEeStrength := by
    split
    · exact hP.eeStrength
    · exact contDiffAt_const
  rcases hr' with ⟨ht, -⟩ | ⟨ht, -⟩ | ⟨ht, -⟩ | ⟨ht, -⟩
  · simp only [ht, String.reduceEq, false_and, or_false, true_and] at hr
    rw [funext hr]
    exact ((abs_smooth (hP.oneBodyKernel 0) (ho ht)).mul (ContDiffAt.sum fun e _ =>
      ContDiffAt.sum fun j _ => ion_distance_smooth h hp e j)).neg
  · simp only [ht, String.reduceEq, false_and, or_false, false_or, true_and] at hr
    rw [funext hr]
    exact two_body_smooth hw hg _ h hp
  · simp only [ht, String.reduceEq, false_and, or_false, false_or, true_and] at hr
    exact backflow_exponent_smooth hP h hp (hl (.inl ht)) hz hr
  · simp only [ht, String.reduceEq, false_and, false_or, true_and] at hr
    choose b hb hr using hr
    rw [funext hr]
    exact (two_body_smooth hw hg _ h hp).add
      (backflow_exponent_smooth hP h hp (hl (.inr ht)) hz hb)

/-! ### Models -/

/-- Positions and parameters at which the wave function of a configuration has no kink: particles
are apart, also hidden ones; envelopes are softened or decay; features whose lengths are used do not
vanish; and neither does the strength of a Jastrow factor of one body. -/
structure SmoothPoint (c : ModelCfg) (P : Params (K + 1) nion d) (ions : Fin nion → Fin d → ℝ)
    (pos : Stream1 n d) : Prop where
  apart : ParticlesApart ions pos
  hidden : c.type = "embedded_particle_ferminet" →
    ∀ x, HiddenPositions c P ions pos x → ParticlesApart ions x
  envelopes : c.type = "ferminet" ∨ c.type = "embedded_particle_ferminet" ∨
    c.type = "extended_orbital_matrix_ferminet" →
    ∀ m norb, LayerSmooth c.envelopeSoftening c.isotropicDecay (P.orbitals m norb)
  anti : c.type = "orbital_cofactor_net" ∨ c.type = "per_particle_dets_net" → AntiSmooth c P n
  lengths : c.type = "explicit_antisym" → c.jastrow.type = "backflow_based" ∨
    c.jastrow.type = "two_body_decay_and_backflow_based" → LengthsRegular c P ions pos
  strength : c.type = "explicit_antisym" → c.jastrow.type = "one_body_decay" →
    P.oneBodyKernel 0 ≠ 0

/-- The wave function of a configuration is smooth, and even analytic (`k = ω`), if positions and
parameters are, wherever no kink is built in. -/
theorem configured_value_smooth {c : ModelCfg} {P : E → Params (K + 1) nion d}
    (hP : Entries (At k p) P) {charges : Fin nion → ℝ} {nonzero : E → Prop} {ψ : E → ℝ}
    (hp : ∀ e a, ContDiffAt ℝ k (fun q => pos q e a) p)
    (hψ : ∀ q, ModelValue c (P q) ions charges (pos q) (nonzero q) (ψ q))
    (h : SmoothPoint c (P p) ions (pos p)) : ContDiffAt ℝ k ψ p := by
  have hinv := fun q => model_value_inv (hψ q)
  rcases hinv p with ⟨ht, -⟩ | ⟨ht, -⟩ | ⟨ht, -⟩ | ⟨ht, -⟩ | ⟨ht, -⟩
  · simp only [ht, String.reduceEq, false_and, or_false, true_and] at hinv
    exact fermi_smooth hP h.apart hp (h.envelopes (.inl ht)) hinv
  · simp only [ht, String.reduceEq, false_and, or_false, true_and, false_or] at hinv
    choose y hy hD using hinv
    exact fermi_smooth hP (pos := y) (h.hidden ht _ (hy p))
      (hidden_positions_smooth hP h.apart hp hy) (h.envelopes (.inr (.inl ht))) hD
  · simp only [ht, String.reduceEq, false_and, or_false, true_and, false_or] at hinv
    exact extended_smooth hP h.apart hp (h.envelopes (.inr (.inr ht))) hinv
  · have hinv : ∀ q, _ := fun q => (((((hinv q).resolve_left fun h => by simp [h.1] at ht)
      ).resolve_left fun h => by simp [h.1] at ht).resolve_left fun h => by simp [h.1] at ht
      ).resolve_right fun h => by simp [h.1] at ht
    exact antiequivariance_smooth hP h.apart hp (h.anti ht) fun q => (hinv q).2
  · simp only [ht, String.reduceEq, false_and, or_false, true_and, false_or] at hinv
    obtain ⟨m, z, hz, hz', h2⟩ := features_family h.apart hp hP.backflow hinv
    choose j hj t ht' hψ using h2
    rw [funext hψ]
    exact (exponent_smooth hP h.apart hp (h.lengths ht) (h.strength ht) hz hj).exp.mul
      (antisymmetrized_smooth hP hz' ht')

/-- Wave functions which decay have no kink, unless particles coincide. -/
theorem decays_smooth {c : ModelCfg} {P : Params (K + 1) nion d} {charges : Fin nion → ℝ}
    (hc : Decays c P charges n) {x : Stream1 n d} (hx : ParticlesApart ions x) :
    SmoothPoint c P ions x where
  apart := hx
  hidden ht := by simp [Decays, ht] at hc
  envelopes ht m norb s o := .inr (by
    rcases hc with ⟨-, h⟩ | ⟨h, -⟩ | ⟨h, -⟩
    · exact h m norb s o
    · rcases ht with ht | ht | ht <;> simp [ht] at h
    · rcases ht with ht | ht | ht <;> simp [ht] at h)
  anti ht := by
    rcases hc with ⟨h, -⟩ | ⟨-, h, -⟩ | ⟨h, -⟩
    · rcases ht with ht | ht <;> simp [ht] at h
    · unfold AntiDecays at h
      unfold AntiSmooth
      split at h
      · rename_i h'
        rw [if_pos h']
        exact fun m s o => .inr (h m s o)
      · rename_i h'
        rw [if_neg h']
        exact fun m s o => .inr (h m s o)
    · rcases ht with ht | ht <;> simp [ht] at h
  lengths ht hj := by
    rcases hc with ⟨h, -⟩ | ⟨h, -⟩ | ⟨-, h⟩
    · simp [ht] at h
    · simp [ht] at h
    · rcases h with ⟨h, -⟩ | ⟨h, -⟩ <;> rcases hj with hj | hj <;> simp [hj] at h
  strength ht hj := by
    rcases hc with ⟨h, -⟩ | ⟨h, -⟩ | ⟨-, h⟩
    · simp [ht] at h
    · simp [ht] at h
    · rcases h with ⟨-, h, -⟩ | ⟨h, -⟩
      · exact h
      · simp [hj] at h

end Verif.Joint
