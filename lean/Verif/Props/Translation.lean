import Verif.Props.ConstructEval
import Verif.Props.ConstructOptions

/-! C82: moving the electrons together with the ions leaves the wave function unchanged. -/

namespace Verif.Props
open Verif.Net Verif.Slog Verif.Construct

variable {K nion d : ℕ} {n : Fin (K + 1) → ℕ}

/-- All points of an array of points moved by `v`. -/
def movedBy {α : Type*} (v : Fin d → ℝ) (x : α → Fin d → ℝ) : α → Fin d → ℝ := fun i k => x i k + v k

theorem displacements_movedBy {α β : Type*} (v : Fin d → ℝ) (x : α → Fin d → ℝ)
    (y : β → Fin d → ℝ) :
    displacements (movedBy v x) (movedBy v y) = displacements x y := by
  funext i j k
  simp [displacements, movedBy]

theorem ee_input_movedBy {S : ℕ} {n : Fin S → ℕ} (v : Fin d → ℝ) (ie : Bool) (c : ℝ)
    (pos : Stream1 n d) :
    computeElectronElectron (movedBy v pos) ie c = computeElectronElectron pos ie c := by
  cases ie
  · simp [computeElectronElectron, displacements_movedBy]
  · simp only [computeElectronElectron, displacements_movedBy, Prod.mk.injEq, and_true]
    funext e e'
    simp only [eeInputWithNorm, displacements_movedBy]

theorem ion_streams_movedBy {S : ℕ} {n : Fin S → ℕ} (v : Fin d → ℝ) (ions : Fin nion → Fin d → ℝ)
    (i2 : Bool) (c : ℝ) (ie : Bool) (c' : ℝ) (pos : Stream1 n d) :
    ionStreams (movedBy v ions) i2 c ie c' (movedBy v pos) = ionStreams ions i2 c ie c' pos := by
  simp [ionStreams, displacements_movedBy, ee_input_movedBy]

theorem ee_displacements_movedBy {S : ℕ} {n : Fin S → ℕ} (v : Fin d → ℝ) (i2 : Bool)
    (pos : Stream1 n d) : eeDisplacements i2 (movedBy v pos) = eeDisplacements i2 pos := by
  simp [eeDisplacements, displacements_movedBy]

theorem scale_factor_movedBy (v : Fin d → ℝ) (ions : Fin nion → Fin d → ℝ)
    (charges : Fin nion → ℝ) :
    Jastrow.chargelessScaleFactor (movedBy v ions) charges =
      Jastrow.chargelessScaleFactor ions charges := by
  simp [Jastrow.chargelessScaleFactor, displacements_movedBy]

/-- The construction does not depend on where the molecule is. -/
theorem construction_movedBy (cfg : ModelCfg) (nelec : List ℤ) (v : Fin d → ℝ)
    (ions : Fin nion → Fin d → ℝ) (charges : Fin nion → ℝ) (dtype : ℕ) :
    getModelFromConfig cfg nelec (movedBy v ions) charges dtype =
      getModelFromConfig cfg nelec ions charges dtype := by
  unfold getModelFromConfig getJastrow
  simp only [scale_factor_movedBy]

/-- The model is an embedded-particle FermiNet. -/
def Model.IsEmbedded : Model nion → Prop
  | .embedded .. => True
  | _ => False

theorem model_movedBy (m : Model nion) (hm : ¬ Model.IsEmbedded m) (P : Params (K + 1) nion d)
    (v : Fin d → ℝ) (ions : Fin nion → Fin d → ℝ) (pos : Stream1 n d) :
    m.apply P (movedBy v ions) (movedBy v pos) = m.apply P ions pos := by
  unfold Model.apply
  split
  · rfl
  split
  · rfl
  cases m with
  | fermiNet f =>
    simp only [FermiDesc.apply, fermiNet, fermiNetFull, ion_streams_movedBy]
  | embedded => exact absurd trivial hm
  | extended f nh ib inv =>
    simp only [applyExtended, extendedFermiNet, extendedFermiNetFull, ion_streams_movedBy]
  | antiequivariance sp s bs pp ls o c mul =>
    simp only [applyAntiequivariance, antiequivarianceNet, ion_streams_movedBy]
  | explicit sp s bs j a r =>
    simp only [applyExplicit, factorizedNet, genericNet, ion_streams_movedBy,
      ee_displacements_movedBy]

/-- C82: when the whole molecule and all electrons are moved by the same vector, the wave
function of a configured model has the same sign and the same logarithm, for all parameters.
Partial: without embedded-particle FermiNets, for which it is false
(`embedded_not_translation_invariant`). -/
theorem translation_invariant_partial (cfg : ModelCfg) (v : Fin d → ℝ)
    (ions : Fin nion → Fin d → ℝ) (charges : Fin nion → ℝ) (dtype : ℕ) (m m' : Model nion)
    (ht : cfg.type ≠ "embedded_particle_ferminet")
    (hm : getModelFromConfig cfg (counts n) ions charges dtype = .ok m)
    (hm' : getModelFromConfig cfg (counts n) (movedBy v ions) charges dtype = .ok m')
    (P : Params (K + 1) nion d) (pos : Stream1 n d) :
    m'.apply P (movedBy v ions) (movedBy v pos) = m.apply P ions pos := by
  rw [construction_movedBy, hm] at hm'
  cases hm'
  refine model_movedBy m ?_ P v ions pos
  have h := configured_model_means_partial _ _ _ _ _ m hm
  intro he
  cases h with
  | embedded _ _ _ _ _ _ h => exact ht h
  | fermiNet => exact he
  | extended => exact he
  | antiequivariance => exact he
  | explicit => exact he

/-- The default FermiNet for a molecule and for the same molecule moved by one unit. -/
example (P : Params 2 1 3) (pos : Stream1 (![2, 1] : Fin 2 → ℕ) 3) :
    ∃ m m' : Model 1,
      getModelFromConfig {} (counts (![2, 1] : Fin 2 → ℕ)) (fun _ (_ : Fin 3) => 0) (fun _ => 3) 32
        = .ok m ∧
      getModelFromConfig {} (counts (![2, 1] : Fin 2 → ℕ)) (movedBy (d := 3) (fun _ => 1) fun _ _ => 0)
        (fun _ => 3) 32 = .ok m' ∧
      m'.apply P (movedBy (d := 3) (fun _ => 1) fun _ _ => 0) (movedBy (fun _ => 1) pos) =
        m.apply P (fun _ _ => 0) pos := by
  obtain ⟨m, hm⟩ := (model_config_accepted_iff {} (counts (![2, 1] : Fin 2 → ℕ))
    (fun (_ : Fin 1) (_ : Fin 3) => (0 : ℝ)) (fun _ => 3) 32).mpr
    (by rw [counts_length]; exact default_acceptable "ferminet" (by simp))
  have hm' := hm
  rw [← construction_movedBy _ _ fun _ => 1] at hm'
  exact ⟨m, m, hm, hm', translation_invariant_partial {} _ _ _ _ m m (by simp) hm hm' P pos⟩

/-! ### Embedded particles -/

/-- One hidden fermion next to one of two electrons, without backflow. -/
noncomputable def hiddenOneCfg : ModelCfg where
  type := "embedded_particle_ferminet"
  backflow := { ndenseList := [] }
  nhiddenFermionsPerSpin := [1, 0]
  invariance := { backflow := { ndenseList := [] } }

/-- The first orbital is constant, and the second one is the distance to the ion with its sign.
The hidden fermion is at the origin. -/
noncomputable def hiddenOneParams : Params 2 1 1 where
  backflow := ⟨fun _ _ _ _ _ => ⟨0, 0, ⟨0, 0, 0, 0, 0, 0, 0, 0⟩, 0, 0⟩, fun _ _ _ => ⟨0, 0⟩⟩
  invBackflow := ⟨fun _ _ _ _ _ => ⟨0, 0, ⟨0, 0, 0, 0, 0, 0, 0, 0⟩, 0, 0⟩, fun _ _ _ => ⟨0, 0⟩⟩
  jastrowBackflow := ⟨fun _ _ _ _ _ => ⟨0, 0, ⟨0, 0, 0, 0, 0, 0, 0, 0⟩, 0, 0⟩, fun _ _ _ => ⟨0, 0⟩⟩
  covBackflow := ⟨fun _ _ _ _ _ => ⟨0, 0, ⟨0, 0, 0, 0, 0, 0, 0, 0⟩, 0, 0⟩, fun _ _ _ => ⟨0, 0⟩⟩
  orbitals _ _ := ⟨fun _ i o => if i.val = 0 ∧ o.val = 1 then 1 else 0,
    fun _ o => if o.val = 0 then 1 else 0, 0, 0, fun _ _ _ => 1, 0, true, true⟩
  doubly _ _ := ⟨0, 0, ⟨0, 0, 0, 0, 0, 0, true, true⟩, true, true⟩
  invariance _ _ _ := ⟨0, 0, true⟩
  detFn := ⟨fun _ _ _ => ⟨0, 0⟩, fun _ _ => ⟨0, 0⟩⟩
  productsKernel := 0
  oneBodyKernel := 0
  eiStrength := 0
  eeStrength := 0
  resnets _ _ := ⟨fun _ _ _ => ⟨0, 0⟩, fun _ _ => ⟨0, 0⟩⟩

/-- The electron of the first kind. -/
def firstElectron : Elec (fun _ : Fin 2 => 1) := ⟨0, ⟨0, Nat.one_pos⟩⟩

theorem ei_input_first {S : ℕ} {n : Fin S → ℕ} (c : ℝ) (r : Elec n → Fin 1 → Fin 1 → ℝ)
    (e : Elec n) (a : Fin (1 * (1 + 1))) (ha : a.val = 0) : eiInput c r e a = r e 0 0 := by
  have h : a = finProdFinEquiv (0, 0) := by
    apply Fin.ext
    rw [ha]
    rfl
  subst h
  simp only [eiInput, Equiv.symm_apply_apply]
  exact Fin.snoc_castSucc (α := fun _ => ℝ) _ _ (0 : Fin 1)

theorem hidden_one_entry {n : Fin 2 → ℕ} (ions : Fin 1 → Fin 1 → ℝ) (i2 : Bool) (c : ℝ) (ie : Bool)
    (c' : ℝ) (f : FermiDesc) (hu : f.orbitals.useBias = true) (hi : f.orbitals.isotropicDecay = true)
    (hs : f.envelopeSoftening = 0) (norb : Fin 2 → ℕ) (q : Stream1 n 1) (s : Fin 2)
    (a : Fin (n s)) (o : Fin (norb s)) :
    (f.orbitalLayer (hiddenOneParams.orbitals (outWidths [] (inWidths 1 1 ie)).1 norb)).apply
      ((blocks hiddenOneParams.backflow 0 [] (inWidths 1 1 ie)).backflow
        (ionStreams ions i2 c ie c' q).1) (ionStreams ions i2 c ie c' q).2 s a o =
      if o.val = 0 then 1 else if o.val = 1 then q ⟨s, a⟩ 0 - ions 0 0 else 0 := by
  have henv : envelope (f.orbitalLayer
      (hiddenOneParams.orbitals (outWidths [] (inWidths 1 1 ie)).1 norb)) s
      (displacements q ions ⟨s, a⟩) o = 1 := by
    simp [envelope, FermiDesc.orbitalLayer, hiddenOneParams, hi, hs, isotropyOnLeaf, norm2,
      softened]
  simp only [OrbitalLayer.apply, ionStreams, henv, mul_one]
  simp only [dense, FermiDesc.orbitalLayer, hu, hiddenOneParams, if_true]
  rw [Finset.sum_eq_single (⟨0, by show 0 < 1 * (1 + 1); norm_num⟩ : Fin (outWidths [] (inWidths 1 1 ie)).1)]
  · have := ei_input_first c (displacements q ions) ⟨s, a⟩ ⟨0, by norm_num⟩ rfl
    change eiInput c (displacements q ions) ⟨s, a⟩ ⟨0, _⟩ * _ + _ = _
    rw [this]
    by_cases h0 : o.val = 0
    · simp [h0]
    · by_cases h1 : o.val = 1 <;> simp [h0, h1, displacements]
  · intro b _ hb
    have : b.val ≠ 0 := fun h => hb (Fin.ext h)
    simp [this]
  · simp

theorem embed_visible {S d : ℕ} {n h : Fin S → ℕ} (pos : Stream1 n d)
    (hidden : ∀ s, Fin (h s) → Fin d → ℝ) (s : Fin S) (i : Fin (n s)) :
    embedParticles pos hidden ⟨s, Fin.castAdd (h s) i⟩ = pos ⟨s, i⟩ :=
  Fin.append_left _ _ _

theorem embed_hidden {S d : ℕ} {n h : Fin S → ℕ} (pos : Stream1 n d)
    (hidden : ∀ s, Fin (h s) → Fin d → ℝ) (s : Fin S) (i : Fin (h s)) :
    embedParticles pos hidden ⟨s, Fin.natAdd (n s) i⟩ = hidden s i :=
  Fin.append_right _ _ _

/-- Without a determinant function, the value is the sum of the products of the determinants
if these products are not all zero. -/
theorem combine_none_represents {ndet : ℕ} {m : Fin (K + 1) → ℕ}
    (M : Fin ndet → ∀ s, Matrix (Fin (m s)) (Fin (m s)) ℝ) (hne : ∃ i, ∏ s, (M i s).det ≠ 0) :
    ∃ p, combine none M = .ok p ∧ Verif.Spec.Represents p (∑ i, ∏ s, (M i s).det) :=
  ⟨_, rfl, slog_sum_over_axis_represents _ _ (fun i => Antisym.reduceLeaves_represents
    (fun s => Antisym.slogdet (M i s)) (fun s => (M i s).det) fun s => slog_of_array _) hne⟩

theorem hidden_one_invariance {n : Fin 2 → ℕ} {d1 : ℕ} {rows cols : Fin 2 → ℕ}
    (i : InvarianceDesc) (x : Stream1 n d1) (s : Fin 2) (a : Fin (rows s)) (b : Fin (cols s)) :
    (i.layers (hiddenOneParams.invariance d1 rows cols)).apply x s a b = 0 := by
  obtain ⟨_, _, u⟩ := i
  cases u <;>
    simp [InvariantDense.apply, splitMeanDense, dense, InvarianceDesc.layers, hiddenOneParams]

theorem hidden_one_combine (M : Fin 1 → ∀ s, Matrix (Fin (1 + hiddenOf 1 [1, 0] s))
    (Fin (1 + hiddenOf 1 [1, 0] s)) ℝ) (q : Stream1 (fun s => 1 + hiddenOf 1 [1, 0] s) 1) (c x : ℝ)
    (hM : ∀ i s a o, M i s a o = if o.val = 0 then 1 else if o.val = 1 then q ⟨s, a⟩ 0 - c else 0)
    (q0 : q ⟨0, Fin.castAdd 1 ⟨0, Nat.one_pos⟩⟩ 0 = x)
    (q1 : q ⟨0, Fin.natAdd 1 ⟨0, Nat.one_pos⟩⟩ 0 = 0) (h0 : x ≠ 0) :
    ∃ p, combine none M = .ok p ∧ Verif.Spec.Represents p (-x) := by
  have d0 : (M 0 0).det = -x := by
    have h := Matrix.det_fin_two (M 0 0 : Matrix (Fin 2) (Fin 2) ℝ)
    have e00 := hM 0 0 (0 : Fin 2) (0 : Fin 2)
    have e01 := hM 0 0 (0 : Fin 2) (1 : Fin 2)
    have e10 := hM 0 0 (1 : Fin 2) (0 : Fin 2)
    have e11 := hM 0 0 (1 : Fin 2) (1 : Fin 2)
    have f01 : M 0 0 (0 : Fin 2) (1 : Fin 2) = x - c := e01.trans (by rw [← q0]; rfl)
    have f11 : M 0 0 (1 : Fin 2) (1 : Fin 2) = 0 - c := e11.trans (by rw [← q1]; rfl)
    have f00 : M 0 0 (0 : Fin 2) (0 : Fin 2) = 1 := e00.trans rfl
    have f10 : M 0 0 (1 : Fin 2) (0 : Fin 2) = 1 := e10.trans rfl
    refine h.trans ?_
    rw [f00, f01, f10, f11]
    ring
  have d1 : (M 0 1).det = 1 := by
    have h := Matrix.det_fin_one (M 0 1 : Matrix (Fin 1) (Fin 1) ℝ)
    exact h.trans ((hM 0 1 (0 : Fin 1) (0 : Fin 1)).trans rfl)
  have hs : ∏ s, (M 0 s).det = -x := by
    rw [Fin.prod_univ_two, d0, d1, mul_one]
  obtain ⟨p, hp, hr⟩ := combine_none_represents M ⟨0, by rw [hs]; exact neg_ne_zero.mpr h0⟩
  refine ⟨p, hp, ?_⟩
  rwa [Fin.sum_univ_one, hs] at hr

theorem hidden_one_value (ions : Fin 1 → Fin 1 → ℝ) (charges : Fin 1 → ℝ) (m : Model 1)
    (hm : getModelFromConfig hiddenOneCfg (counts (fun _ : Fin 2 => 1)) ions charges 32 = .ok m)
    (pos : Stream1 (fun _ : Fin 2 => 1) 1) (h0 : pos firstElectron 0 ≠ 0) :
    ∃ p, m.apply hiddenOneParams ions pos = .ok p ∧
      Verif.Spec.Represents p (-pos firstElectron 0) := by
  have hM := configured_model_splits_match _ _ ions charges _ m hm
  have hN := configured_model_norms _ _ ions charges _ m hm ⟨rfl, fun _ => rfl⟩
  have h := configured_model_means_partial _ _ _ _ _ m hm
  unfold Model.apply
  simp only [hM, hN, not_true, if_false]
  cases h with
  | fermiNet _ ht => simp [hiddenOneCfg] at ht
  | extended _ _ _ _ ht => simp [hiddenOneCfg] at ht
  | antiequivariance _ _ _ _ _ _ ht => simp [hiddenOneCfg] at ht
  | explicit _ _ _ _ _ ht => simp [hiddenOneCfg] at ht
  | embedded f hidden seen s bs i ht hh hs hf hst hb hi =>
    obtain ⟨sp, st, bf, nd, orb, soft, df, mode, full⟩ := f
    obtain ⟨h1, ⟨h21, h22, h23, h24, h25⟩, ⟨h3, -⟩, h4, h5, h6, -, h7, h8⟩ := hf
    obtain ⟨i1, i2, i3, i4, i5⟩ := hst
    obtain ⟨kl, kd, ki, bl, ub, iso⟩ := orb
    have h51 := h5.useBias
    have h52 := h5.isotropic
    obtain ⟨b1, -⟩ := hb
    simp only [hiddenOneCfg, List.length_nil, List.length_eq_zero_iff] at h3 b1 h4 h6 h7 h8 hh h51 h52 h21 h22 h23 h24 h25
    simp only [Bool.false_eq_true, if_false] at h8
    subst h3 b1 h4 h6 h7 h8 hh h51 h52 h1
    have hl : nelecPerSplit (Split.getSpinSplit (counts fun _ : Fin 2 => 1))
        (counts fun _ : Fin 2 => 1).sum = .ok [1, 1] := by rfl
    simp only [applyEmbedded, hl, bind, Except.bind, List.length_cons, List.length_nil, ne_eq,
      not_true, if_false, Bool.false_eq_true, detFnOf, Option.map_none]
    unfold embeddedFermiNet fermiNet fermiNetSplitDet
    simp only [embeddedPositions]
    generalize hH : InvariantDense.apply (n := fun _ : Fin 2 => 1) (i.layers (hiddenOneParams.invariance
      (outWidths [] (inWidths 1 1 s.includeEeNorm)).1 (hiddenOf 1 [1, 0]) fun x => 1)) _ = H
    have H0 : ∀ s a b, H s a b = 0 := by
      intro s a b
      rw [← hH]
      exact hidden_one_invariance i _ s a b
    have q0 := congrFun (embed_visible (h := hiddenOf 1 [1, 0]) pos H 0 ⟨0, Nat.one_pos⟩) 0
    have q1 := congrFun (embed_hidden (h := hiddenOf 1 [1, 0]) pos H 0 ⟨0, Nat.one_pos⟩) 0
    rw [H0] at q1
    generalize embedParticles pos H = q at q0 q1
    refine hidden_one_combine _ q (ions 0 0) _ (fun i s a o => ?_) q0 q1 h0
    simp only [Matrix.of_apply, reshapeRaw]
    rw [hidden_one_entry ions st.include2e st.eiSoftening st.includeEeNorm st.eeSoftening _ rfl rfl rfl]
    have hv : (finProdFinEquiv (i, o)).val = o.val := by
      simp [finProdFinEquiv, Subsingleton.elim i 0]
    simp only [hv]

/-- C82, violated for embedded-particle FermiNets: hidden particles are at absolute positions
which do not move with the molecule. -/
theorem embedded_not_translation_invariant :
    ∃ (cfg : ModelCfg) (ions : Fin 1 → Fin 1 → ℝ) (charges : Fin 1 → ℝ) (v : Fin 1 → ℝ)
      (m m' : Model 1) (P : Params 2 1 1) (pos : Stream1 (fun _ : Fin 2 => 1) 1) (p p' : SL),
      getModelFromConfig cfg (counts fun _ : Fin 2 => 1) ions charges 32 = .ok m ∧
      getModelFromConfig cfg (counts fun _ : Fin 2 => 1) (movedBy v ions) charges 32 = .ok m' ∧
      m.apply P ions pos = .ok p ∧ m'.apply P (movedBy v ions) (movedBy v pos) = .ok p' ∧
      Verif.Spec.Represents p (-1) ∧ Verif.Spec.Represents p' (-2) := by
  obtain ⟨m, hm⟩ := (model_config_accepted_iff hiddenOneCfg (counts fun _ : Fin 2 => 1)
    (fun _ _ => 0) (fun _ => 2) 32).mpr (by
      rw [counts_length]
      have hb : Spec.BackflowOk { ndenseList := [] } := by
        constructor <;> simp [Spec.KernelName, Spec.BiasName, Spec.ActivationName]
      have hf : Spec.FermiOk hiddenOneCfg := by
        refine ⟨by simp [Spec.OrbitalsOk, Spec.KernelName, Spec.BiasName, hiddenOneCfg], ?_,
          fun h => absurd h (by simp [hiddenOneCfg])⟩
        right; left
        show ("parallel_even" : String).toUpper = "PARALLEL_EVEN"
        decide +kernel
      refine ⟨hb, .inr (.inl ⟨rfl, hf, ?_, hb, .inl rfl⟩)⟩
      simp [Spec.InvarianceOk, Spec.KernelName, Spec.BiasName, hiddenOneCfg])
  have hm' := hm
  rw [← construction_movedBy _ _ fun _ => 1] at hm'
  obtain ⟨p, hp, hr⟩ := hidden_one_value (fun _ _ => 0) (fun _ => 2) m hm (fun _ _ => 1) (by simp)
  obtain ⟨p', hp', hr'⟩ := hidden_one_value _ (fun _ => 2) m hm' (movedBy (fun _ => 1) fun _ _ => 1)
    (by simp [movedBy])
  refine ⟨_, _, _, _, m, m, _, _, p, p', hm, hm', hp, hp', hr, ?_⟩
  convert hr' using 1
  simp [movedBy]; norm_num

end Verif.Props
