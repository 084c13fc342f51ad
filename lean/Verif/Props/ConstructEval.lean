import Verif.Props.Construct
import Verif.Props.Split

/-! C77, C79: antisymmetry of configured models, and which of them can be called. -/

namespace Verif.Props
open Verif.Net Verif.Slog Verif.Construct Equiv

variable {K nion d : ℕ} {n : Fin (K + 1) → ℕ}

/-- C77: every model made from a configuration changes by the parity when electrons are
permuted within species, for all parameters and positions, and all its layers split the
electrons at the boundaries of the species.  Partial: products covariances with weights are
left out (they are not antisymmetric, C63), and for `include_ei_norm=False` both sides are the
error `notModelled`. -/
theorem configured_model_antisymmetric_partial (cfg : ModelCfg) (ionPos : Fin nion → Fin d → ℝ)
    (charges : Fin nion → ℝ) (dtype : ℕ) (m : Model nion)
    (hm : getModelFromConfig cfg (counts n) ionPos charges dtype = .ok m)
    (hw : ¬ Spec.WeightedProducts cfg) (P : Params (K + 1) nion d)
    (π : ∀ s, Perm (Fin (n s))) (pos : Stream1 n d) :
    m.apply P ionPos (permute1 π pos) =
        (m.apply P ionPos pos).map (signTimes (totalParity π)) ∧
      m.Matches (counts n) ∧ (Spec.UsesNorms cfg → m.EiNorms) :=
  ⟨model_antisymmetric m (configured_model_unweighted cfg _ ionPos charges dtype m hm hw) P ionPos
    π pos, configured_model_splits_match cfg _ ionPos charges dtype m hm,
    configured_model_norms cfg _ ionPos charges dtype m hm⟩

/-! ### Which models can be called -/

theorem combine_callable {ndet : ℕ} {m : Fin (K + 1) → ℕ}
    (detFn : Option (((dout : ℕ) → (Fin (K + 1) → Fin ndet → ℝ) → Fin dout → ℝ) × DetFnMode))
    (M : Fin ndet → ∀ s, Matrix (Fin (m s)) (Fin (m s)) ℝ) :
    (∃ p, combine detFn M = .ok p) ↔ (detFn.map Prod.snd = some .pairwiseEven → K = 1) := by
  unfold combine
  rcases detFn with _ | ⟨fn, mode⟩
  · simp
  · cases mode
    · simp
    · simp
    · by_cases h : K = 1
      · subst h
        simp
      · simp [h]

theorem detFnOf_mode {ndet : ℕ} (P : ResNetParams) (mode : DetFnMode) (r : Option ResNetDesc) :
    (detFnOf (K := K) (ndet := ndet) P mode r).map Prod.snd = some .pairwiseEven ↔
      r.isSome = true ∧ mode = .pairwiseEven := by
  cases r <;> simp [detFnOf]

theorem counts_length {S : ℕ} (n : Fin S → ℕ) : (counts n).length = S := by simp [counts]

theorem nelecPerSplit_counts (n : Fin (K + 1) → ℕ) :
    nelecPerSplit (Split.getSpinSplit (counts n)) (counts n).sum =
      if K = 0 then .error "IndexError: tuple index out of range" else .ok (counts n) := by
  by_cases h : K = 0
  · subst h
    have : counts n = [(n 0 : ℤ)] := by simp [counts]
    rw [if_pos rfl, this]
    unfold nelecPerSplit
    rw [single_species_raises]
  · rw [if_neg h]
    unfold nelecPerSplit
    rw [split_roundtrip_partial (counts n) (by rw [counts_length]; omega)]

theorem mode_pairwise {s : String} {mode : DetFnMode} (h : getMode s = .ok mode) :
    mode = .pairwiseEven ↔ s.toUpper = "PAIRWISE_EVEN" := by
  unfold getMode at h
  split at h
  · cases h; simp [*]
  split at h
  · cases h; simp [*]
  split at h
  · cases h; simp [*]
  · cases h

theorem detFn_isSome {cfg : ModelCfg} {dt : ℕ} {df : Option ResNetDesc}
    (h : getDetFn cfg dt = .ok df) : df.isSome = cfg.useDetResnet := by
  unfold getDetFn at h
  split at h
  · simp only [bind_eq_ok, pure_eq_ok] at h
    obtain ⟨_, -, _, -, _, -, rfl⟩ := h
    simp [*]
  · cases h
    simp [*]

theorem fermi_fields {cfg : ModelCfg} {sp : List ℤ} {st : StreamsDesc} {bs : List BlockDesc}
    {df : Option ResNetDesc} {dtype : ℕ} {f : FermiDesc}
    (h : getFermi cfg sp st bs df dtype = .ok f) :
    f.fullDet = cfg.fullDet ∧ f.detFn = df ∧ getMode cfg.detResnet.mode = .ok f.mode := by
  unfold getFermi at h
  simp only [bind_eq_ok, pure_eq_ok] at h
  obtain ⟨_, -, mode, hmode, rfl⟩ := h
  exact ⟨rfl, rfl, hmode⟩

theorem pairs_iff {cfg : ModelCfg} {sp : List ℤ} {st : StreamsDesc} {bs : List BlockDesc}
    {df : Option ResNetDesc} {dtype : ℕ} {f : FermiDesc}
    (h : getFermi cfg sp st bs df dtype = .ok f) (hd : getDetFn cfg dtype = .ok df) :
    (f.detFn.isSome = true ∧ f.mode = .pairwiseEven ↔
      cfg.useDetResnet = true ∧ cfg.detResnet.mode.toUpper = "PAIRWISE_EVEN") := by
  obtain ⟨-, h2, h3⟩ := fermi_fields h
  rw [h2, detFn_isSome hd, mode_pairwise h3]

theorem fermi_callable (f : FermiDesc) (hs : f.spinSplit = Split.getSpinSplit (counts n))
    (P : Params (K + 1) nion d) (ions : Fin nion → Fin d → ℝ) (pos : Stream1 n d) :
    (∃ p, f.apply P ions pos = .ok p) ↔ (f.fullDet = true ∨ K ≠ 0) ∧
      (f.detFn.isSome = true ∧ f.mode = .pairwiseEven → f.fullDet = false ∧ K = 1) := by
  unfold FermiDesc.apply
  rw [hs, nelecPerSplit_counts]
  by_cases hf : f.fullDet = true
  · simp only [hf, if_true]
    unfold fermiNetFull fermiNetFullDet
    rw [combine_callable, detFnOf_mode]
    simp
  · simp only [hf]
    by_cases hK : K = 0
    · simp [hK, bind, Except.bind]
    · simp only [hK, if_false, bind, Except.bind, Bool.false_eq_true]
      unfold fermiNet fermiNetSplitDet
      rw [combine_callable, detFnOf_mode]
      simp [hK]

theorem embedded_callable (f : FermiDesc) (hs : f.spinSplit = Split.getSpinSplit (counts n))
    (nh : List ℕ) (is : StreamsDesc) (ib : List BlockDesc) (inv : InvarianceDesc)
    (P : Params (K + 1) nion d) (ions : Fin nion → Fin d → ℝ) (pos : Stream1 n d) :
    (∃ p, applyEmbedded f nh is ib inv P ions pos = .ok p) ↔ K ≠ 0 ∧ nh.length = K + 1 ∧
      (f.detFn.isSome = true ∧ f.mode = .pairwiseEven → f.fullDet = false ∧ K = 1) := by
  unfold applyEmbedded
  rw [hs, nelecPerSplit_counts]
  by_cases hK : K = 0
  · simp [hK, bind, Except.bind]
  simp only [hK, if_false, bind, Except.bind, counts_length]
  by_cases hl : nh.length = K + 1
  swap
  · simp [hl]
  simp only [hl, ne_eq, not_true, if_false]
  by_cases hf : f.fullDet = true
  · simp only [hf, if_true]
    unfold embeddedFermiNetFull fermiNetFull fermiNetFullDet
    rw [combine_callable, detFnOf_mode]
    simp [hK]
  · simp only [hf]
    unfold embeddedFermiNet fermiNet fermiNetSplitDet
    have := combine_callable (K := K) (ndet := f.ndeterminants)
      (m := fun s => n s + hiddenOf K nh s) (detFnOf P.detFn f.mode f.detFn)
    simp only [detFnOf_mode] at this
    simpa [hK] using this _

theorem extended_callable (f : FermiDesc) (hs : f.spinSplit = Split.getSpinSplit (counts n))
    (nh : List ℕ) (ib : Option (List BlockDesc)) (inv : InvarianceDesc)
    (P : Params (K + 1) nion d) (ions : Fin nion → Fin d → ℝ) (pos : Stream1 n d) :
    (∃ p, applyExtended f nh ib inv P ions pos = .ok p) ↔ (f.fullDet = true ∨ K ≠ 0) ∧
      nh.length = K + 1 ∧
      (f.detFn.isSome = true ∧ f.mode = .pairwiseEven → f.fullDet = false ∧ K = 1) := by
  unfold applyExtended
  rw [hs, nelecPerSplit_counts, nsplits_of_spin_split _ (by
    intro h; have := counts_length n; rw [h] at this; simp at this), counts_length]
  by_cases hf : f.fullDet = true
  · simp only [hf, if_true]
    by_cases hl : nh.length = K + 1
    swap
    · simp [hl]
    simp only [hl, ne_eq, not_true, if_false]
    unfold extendedFermiNetFull
    rw [combine_callable, detFnOf_mode]
    simp
  · simp only [hf]
    by_cases hK : K = 0
    · simp [hK, bind, Except.bind]
    simp only [hK, if_false, bind, Except.bind, counts_length]
    by_cases hl : nh.length = K + 1
    swap
    · simp [hl]
    simp only [hl, ne_eq, not_true, if_false]
    unfold extendedFermiNet
    have := combine_callable (K := K) (ndet := f.ndeterminants)
      (m := fun s => n s + hiddenOf K nh s) (detFnOf P.detFn f.mode f.detFn)
    simp only [detFnOf_mode] at this
    simpa [hK] using this _

/-- Whether a covariance is made of products. -/
def _root_.Verif.Construct.CovarianceDesc.IsProducts : CovarianceDesc → Prop
  | .products .. => True
  | .backflow .. => False

/-- Whether the configuration in a covariance can be parsed. -/
def _root_.Verif.Construct.CovarianceDesc.Parses : CovarianceDesc → Prop
  | .products .. => True
  | .backflow cfg _ _ => Spec.BackflowOk cfg

theorem covariance_build (c : CovarianceDesc) (P : Params (K + 1) nion d) (da : ℕ) :
    (∃ C, c.build P da = .ok C) ↔ c.Parses := by
  cases c with
  | products k u => simp [CovarianceDesc.build, CovarianceDesc.Parses]
  | backflow cfg sp dt =>
    simp only [CovarianceDesc.build, exists_map_ok, backflow_accepted, CovarianceDesc.Parses]

theorem covariance_callable {c : CovarianceDesc} {P : Params (K + 1) nion d} {da : ℕ}
    {C : Covariance (K + 1) da} (h : c.build P da = .ok C) (x : ∀ s, Fin (n s) → Fin da → ℝ) :
    (∃ r, C.apply x = .ok r) ↔ (c.IsProducts → K = 1) := by
  cases c with
  | products k u =>
    simp only [CovarianceDesc.build] at h
    cases h
    unfold Covariance.apply
    cases u <;> by_cases hK : K = 1 <;> simp [hK, CovarianceDesc.IsProducts]
  | backflow cfg sp dt =>
    simp only [CovarianceDesc.build, map_eq_ok] at h
    obtain ⟨bs, -, rfl⟩ := h
    simp [Covariance.apply, CovarianceDesc.IsProducts]

theorem antieq_net_callable {da : ℕ} {w w' : ℕ × ℕ}
    (streams : Stream1 n d → Streams n w × Option (Elec n → Fin nion → Fin d → ℝ))
    (backflow : Blocks (K + 1) w w')
    (layer : Stream1 n w'.1 → Option (Elec n → Fin nion → Fin d → ℝ) →
      ∀ s, Except String (Fin (n s) → Fin 1 → ℝ))
    (hl : ∀ x r, ∀ s, ∃ g, layer x r s = .ok g)
    (multiply : Multiply w'.1 da) {c : CovarianceDesc} {P : Params (K + 1) nion d}
    {C : Covariance (K + 1) da} (h : c.build P da = .ok C) (pos : Stream1 n d) :
    (∃ p, antiequivarianceNet streams backflow layer multiply C pos = .ok p) ↔
      (c.IsProducts → K = 1) := by
  unfold antiequivarianceNet
  choose g hg using hl (backflow.backflow (streams pos).1) (streams pos).2
  simp only []
  rw [sequence_ok _ g hg, ← covariance_callable h (multiply.apply g (backflow.backflow
    (streams pos).1))]
  exact exists_map_ok _ _

theorem antiequivariance_callable (hn : ∀ s, 0 < n s) (s : StreamsDesc) (bs : List BlockDesc)
    (pp : Bool) (o : OrbitalDesc) (c : CovarianceDesc) (mult : Bool) (P : Params (K + 1) nion d)
    (ions : Fin nion → Fin d → ℝ) (pos : Stream1 n d) :
    (∃ p, applyAntiequivariance (Split.getSpinSplit (counts n)) s bs pp o c mult P ions pos
      = .ok p) ↔ K ≠ 0 ∧ (c.IsProducts → K = 1) ∧ c.Parses := by
  unfold applyAntiequivariance
  rw [nelecPerSplit_counts]
  by_cases hK : K = 0
  · simp [hK, bind, Except.bind]
  simp only [hK, if_false, exists_bind_ok, Except.ok.injEq, exists_eq_left', not_false_eq_true,
    ne_eq, true_and]
  rw [← covariance_build c P
    (multiplyWidth mult (outWidths bs (inWidths nion d s.includeEeNorm)).1)]
  rw [and_comm, ← exists_and_right]
  refine exists_congr fun C => and_congr_right fun hC => ?_
  split
  · exact antieq_net_callable _ _ _ (fun x r s => ⟨_, rfl⟩) _ hC _
  · refine antieq_net_callable _ _ _ (fun x r s => ?_) _ hC _
    unfold cofactorNetLayer Antieq.cofactorLayer
    rw [exists_map_ok]
    generalize (Antieq.cofactorOrbitalLayer _ _ _).apply x r s = y
    have h := cofactor_rejects_non_square y
    have := hn s
    rcases hy : Antieq.cofactorAntieq y with e | v
    · have := h.mp ⟨e, hy⟩
      omega
    · exact ⟨v, rfl⟩

/-- Whether a Jastrow factor uses the displacements of the electrons from each other. -/
def _root_.Verif.Construct.JastrowDesc.NeedsEe : JastrowDesc nion → Prop
  | .oneBody _ => False
  | .twoBody .. => True
  | .backflow _ => False
  | .added a b => a.NeedsEe ∨ b.NeedsEe

theorem jastrow_callable (j : JastrowDesc nion) (P : Params (K + 1) nion d) {w : ℕ × ℕ} {d1 : ℕ}
    (inputs : Streams n w) (stream : Stream1 n d1) (rei : Elec n → Fin nion → Fin d → ℝ)
    (ree : Option (Stream2 n d)) :
    (∃ r, (j.build P w).apply inputs stream (some rei) ree = .ok r) ↔
      (j.NeedsEe → ree.isSome = true) := by
  induction j with
  | oneBody k => simp [JastrowDesc.build, JastrowModel.apply, JastrowDesc.NeedsEe]
  | twoBody z q c t =>
    cases t <;> cases ree <;> simp [JastrowDesc.build, JastrowModel.apply, JastrowDesc.NeedsEe]
  | backflow b =>
    cases b <;> simp [JastrowDesc.build, JastrowModel.apply, JastrowDesc.NeedsEe]
  | added a b iha ihb =>
    simp only [JastrowDesc.build, JastrowModel.apply, JastrowDesc.NeedsEe, or_imp]
    rw [← iha, ← ihb]
    rcases (a.build P w).apply inputs stream (some rei) ree with e | x <;>
      rcases (b.build P w).apply inputs stream (some rei) ree with e' | y <;> simp

theorem jastrow_needs {cfg : JastrowCfg} {sp : List ℤ} {ionPos : Fin nion → Fin d → ℝ}
    {charges : Fin nion → ℝ} {dtype : ℕ} {j : JastrowDesc nion}
    (h : getJastrow cfg sp ionPos charges dtype = .ok j) :
    j.NeedsEe ↔ cfg.type = "two_body_decay" ∨ cfg.type = "two_body_decay_and_backflow_based" := by
  have hb : ∀ b : JastrowDesc nion, getBackflowJastrow cfg sp dtype = .ok b → ¬ b.NeedsEe := by
    intro b hb
    unfold getBackflowJastrow at hb
    split at hb
    · simp only [map_eq_ok] at hb
      obtain ⟨bs, -, rfl⟩ := hb
      simp [JastrowDesc.NeedsEe]
    · cases hb
      simp [JastrowDesc.NeedsEe]
  unfold getJastrow at h
  split at h
  · simp only [map_eq_ok] at h
    obtain ⟨k, -, rfl⟩ := h
    simp [*, JastrowDesc.NeedsEe]
  split at h
  · cases h
    simp [*, JastrowDesc.NeedsEe]
  split at h
  · simp [*, hb _ h]
  split at h
  · simp only [map_eq_ok] at h
    obtain ⟨k, -, rfl⟩ := h
    simp [*, JastrowDesc.NeedsEe]
  · cases h

theorem explicit_callable (s : StreamsDesc) (bs : List BlockDesc) (j : JastrowDesc nion)
    (a : AntisymDesc) (r : ResNetDesc) (P : Params (K + 1) nion d) (ions : Fin nion → Fin d → ℝ)
    (pos : Stream1 n d) : (∃ p, applyExplicit s bs j a r P ions pos = .ok p) ↔
      a ≠ .factorized 0 ∧ (j.NeedsEe → s.include2e = true) := by
  have he : (eeDisplacements s.include2e pos).isSome = s.include2e := by
    unfold eeDisplacements; split <;> simp [*]
  unfold applyExplicit
  cases a with
  | factorized rank =>
    by_cases hr : rank = 0
    · simp [hr]
    simp only [hr, if_false]
    unfold factorizedNet ionStreams
    simp only [exists_map_ok]
    rw [jastrow_callable, he]
    simp [hr]
  | generic =>
    unfold genericNet ionStreams
    simp only [exists_map_ok]
    rw [jastrow_callable, he]
    simp

/-- C79: a model made from a configuration whose streams have norms can be called, with at
least one electron of each kind, exactly if the configuration is callable: whether a call raises
depends neither on the parameters nor on the positions. -/
theorem configured_model_callable_iff (cfg : ModelCfg) (ionPos : Fin nion → Fin d → ℝ)
    (charges : Fin nion → ℝ) (dtype : ℕ) (m : Model nion)
    (hm : getModelFromConfig cfg (counts n) ionPos charges dtype = .ok m)
    (hu : Spec.UsesNorms cfg) (hn : ∀ s, 0 < n s) (P : Params (K + 1) nion d)
    (pos : Stream1 n d) :
    (∃ p, m.apply P ionPos pos = .ok p) ↔ Spec.Callable cfg (K + 1) := by
  have hM := configured_model_splits_match cfg _ ionPos charges dtype m hm
  have hN := configured_model_norms cfg _ ionPos charges dtype m hm hu
  unfold Model.apply
  simp only [hM, hN, not_true, if_false]
  unfold Spec.Callable Spec.PairsWithoutTwo
  unfold getModelFromConfig at hm
  simp only [bind_eq_ok] at hm
  obtain ⟨bs, -, hm⟩ := hm
  split at hm
  · rename_i ht
    simp only [bind_eq_ok, pure_eq_ok] at hm
    obtain ⟨df, hd, f, hf, rfl⟩ := hm
    rw [show (∃ p, _) ↔ _ from fermi_callable f hM.1 P ionPos pos, pairs_iff hf hd, (fermi_fields hf).1]
    simp only [ht]
    cases cfg.fullDet <;> simp
  split at hm
  · rename_i ht
    simp only [bind_eq_ok, pure_eq_ok] at hm
    obtain ⟨df, hd, tot, -, tb, -, ib, -, f, hf, inv, -, rfl⟩ := hm
    rw [show (∃ p, _) ↔ _ from embedded_callable f hM.1 _ _ _ _ P ionPos pos, pairs_iff hf hd, (fermi_fields hf).1]
    simp only [ht]
    cases cfg.fullDet <;> simp <;> tauto
  split at hm
  · rename_i ht
    simp only [bind_eq_ok, pure_eq_ok] at hm
    obtain ⟨df, hd, ib, -, f, hf, inv, -, rfl⟩ := hm
    rw [show (∃ p, _) ↔ _ from extended_callable f hM.1 _ _ _ P ionPos pos, pairs_iff hf hd, (fermi_fields hf).1]
    simp only [ht]
    cases cfg.fullDet <;> simp <;> tauto
  split at hm
  · rename_i ht
    simp only [bind_eq_ok, pure_eq_ok] at hm
    obtain ⟨o, -, c, hc, rfl⟩ := hm
    rw [show (∃ p, _) ↔ _ from antiequivariance_callable hn _ _ _ _ _ _ P ionPos pos]
    unfold getCovariance at hc
    split at hc
    · rename_i hp
      simp only [map_eq_ok] at hc
      obtain ⟨k, -, rfl⟩ := hc
      simp [CovarianceDesc.IsProducts, CovarianceDesc.Parses, hp]
      rcases ht with ht | ht <;> simp [ht]
    · rename_i hp
      cases hc
      simp [CovarianceDesc.IsProducts, CovarianceDesc.Parses, hp]
      rcases ht with ht | ht <;> simp [ht]
  split at hm
  · rename_i ht
    simp only [bind_eq_ok] at hm
    obtain ⟨j, hj, hm⟩ := hm
    have hne := jastrow_needs hj
    split at hm
    · rename_i ha
      simp only [bind_eq_ok, pure_eq_ok] at hm
      obtain ⟨r, -, rfl⟩ := hm
      rw [show (∃ p, _) ↔ _ from explicit_callable _ _ _ _ _ P ionPos pos, hne]
      simp [ht, ha, getStreams]
    split at hm
    · rename_i ha
      simp only [bind_eq_ok, pure_eq_ok] at hm
      obtain ⟨r, -, rfl⟩ := hm
      rw [show (∃ p, _) ↔ _ from explicit_callable _ _ _ _ _ P ionPos pos, hne]
      simp [ht, ha, getStreams]
    · cases hm
  · cases hm

/-! ### Examples -/

/-- The default FermiNet for three electrons around one ion is antisymmetric and can be called. -/
example (P : Params 2 1 3) (π : ∀ s, Perm (Fin ((![2, 1] : Fin 2 → ℕ) s)))
    (pos : Stream1 (![2, 1] : Fin 2 → ℕ) 3) :
    ∃ m : Model 1, getModelFromConfig {} (counts (![2, 1] : Fin 2 → ℕ))
        (fun (_ : Fin 1) (_ : Fin 3) => (0 : ℝ)) (fun _ => 3) 32 = .ok m ∧
      ∃ p, m.apply P (fun _ _ => 0) pos = .ok p ∧
        m.apply P (fun _ _ => 0) (permute1 π pos) = .ok (signTimes (totalParity π) p) := by
  obtain ⟨m, hm⟩ := (model_config_accepted_iff {} (counts (![2, 1] : Fin 2 → ℕ))
    (fun (_ : Fin 1) (_ : Fin 3) => (0 : ℝ)) (fun _ => 3) 32).mpr
    (by rw [counts_length]; exact default_acceptable "ferminet" (by simp))
  obtain ⟨p, hp⟩ := (configured_model_callable_iff {} _ _ _ m hm ⟨rfl, fun _ => rfl⟩
    (by intro s; fin_cases s <;> simp) P pos).mpr (by
      left
      refine ⟨rfl, .inr (by simp), ?_⟩
      simp [Spec.PairsWithoutTwo])
  refine ⟨m, hm, p, hp, ?_⟩
  rw [(configured_model_antisymmetric_partial {} _ _ _ m hm (by simp [Spec.WeightedProducts]) P π
    pos).1, hp]
  rfl

/-- The same model cannot be called with one kind of electrons. -/
example (P : Params 1 1 3) (pos : Stream1 (![3] : Fin 1 → ℕ) 3) :
    ∃ m : Model 1, getModelFromConfig {} (counts (![3] : Fin 1 → ℕ))
        (fun (_ : Fin 1) (_ : Fin 3) => (0 : ℝ)) (fun _ => 3) 32 = .ok m ∧
      ¬ ∃ p, m.apply P (fun _ _ => 0) pos = .ok p := by
  obtain ⟨m, hm⟩ := (model_config_accepted_iff {} (counts (![3] : Fin 1 → ℕ))
    (fun (_ : Fin 1) (_ : Fin 3) => (0 : ℝ)) (fun _ => 3) 32).mpr (by
      have h := default_acceptable "ferminet" (by simp)
      rw [counts_length]
      simpa [Spec.Acceptable] using h)
  refine ⟨m, hm, ?_⟩
  rw [configured_model_callable_iff {} _ _ _ m hm ⟨rfl, fun _ => rfl⟩
    (by intro s; fin_cases s; simp) P pos]
  simp [Spec.Callable]

/-- Two hidden fermions for each of two kinds, given as a single number, are accepted but fail
when the model is called. -/
example (P : Params 2 1 3) (pos : Stream1 (![2, 1] : Fin 2 → ℕ) 3) :
    ∃ m : Model 1, getModelFromConfig
        { type := "embedded_particle_ferminet", nhiddenFermionsPerSpin := [2] } (counts (![2, 1] : Fin 2 → ℕ))
        (fun (_ : Fin 1) (_ : Fin 3) => (0 : ℝ)) (fun _ => 3) 32 = .ok m ∧
      ¬ ∃ p, m.apply P (fun _ _ => 0) pos = .ok p := by
  obtain ⟨m, hm⟩ := (model_config_accepted_iff
    { type := "embedded_particle_ferminet", nhiddenFermionsPerSpin := [2] } (counts (![2, 1] : Fin 2 → ℕ))
    (fun (_ : Fin 1) (_ : Fin 3) => (0 : ℝ)) (fun _ => 3) 32).mpr (by
      have h := default_acceptable "embedded_particle_ferminet" (by simp)
      rw [counts_length]
      simpa [Spec.Acceptable, Spec.FermiOk, Spec.OrbitalsOk] using h)
  refine ⟨m, hm, ?_⟩
  rw [configured_model_callable_iff _ _ _ _ m hm ⟨rfl, fun _ => rfl⟩
    (by intro s; fin_cases s <;> simp) P pos]
  simp [Spec.Callable]

end Verif.Props
