import Verif.Props.Construct

/-! C80: options of a configuration reach the layers they are meant for. -/

namespace Verif.Props
open Verif.Net Verif.Slog Verif.Construct Equiv

variable {nion d : ℕ}

theorem lookup_named {s : String} {k : InitKind} (h : initializerConstructors.lookup s = some k) :
    Spec.Named s k := by
  simp only [initializerConstructors, List.lookup_cons, List.lookup_nil] at h
  repeat' split at h
  all_goals first
    | (rename_i hs; simp only [beq_iff_eq] at hs; subst hs; cases h; constructor)
    | cases h

theorem named_orthogonal {s : String} {k : InitKind} (h : Spec.Named s k) :
    (s = "orthogonal" ∨ s = "delta_orthogonal") ↔ (k = .orthogonal ∨ k = .deltaOrthogonal) := by
  cases h <;> simp

theorem kernel_means {dt : ℕ} {c : InitCfg} {i : Initializer} (h : getKernelInit dt c = .ok i) :
    Spec.KernelMeans c dt i := by
  unfold getKernelInit at h
  split at h
  · cases h
  rename_i kind hk
  have hk := lookup_named hk
  split at h <;> rename_i ho <;> rw [named_orthogonal hk] at ho <;> cases h <;>
    refine ⟨hk, ?_, rfl⟩
  · rw [if_pos ho]
    cases c.scale <;> rfl
  · rw [if_neg ho]

theorem bias_means {dt : ℕ} {c : InitCfg} {i : Initializer} (h : getBiasInit dt c = .ok i) :
    Spec.BiasMeans c dt i := by
  unfold getBiasInit at h
  split at h
  swap
  · cases h
  split at h
  · cases h
  rename_i kind hk
  cases h
  exact ⟨lookup_named hk, rfl, rfl⟩

theorem activation_means {s : String} {a : Activation} (h : getNamedActivationFn s = .ok a) :
    Spec.ActivationMeans s a := by
  unfold getNamedActivationFn at h
  split at h
  · cases h; subst s; constructor
  split at h
  · cases h; subst s; constructor
  · cases h

theorem mapM_get {α β : Type} {f : α → Except String β} {l : List α} {r : List β}
    (h : l.mapM f = .ok r) : r.length = l.length ∧ ∀ (i : ℕ) a b, l[i]? = some a → r[i]? = some b →
      f a = .ok b := by
  induction l generalizing r with
  | nil =>
    simp only [List.mapM_nil, pure_eq_ok] at h
    subst h
    simp
  | cons x l ih =>
    simp only [List.mapM_cons, bind_eq_ok, pure_eq_ok] at h
    obtain ⟨y, hy, r', hr, rfl⟩ := h
    obtain ⟨h1, h2⟩ := ih hr
    refine ⟨by simp [h1], fun i a b ha hb => ?_⟩
    cases i with
    | zero => simp at ha hb; subst ha hb; exact hy
    | succ i => exact h2 i a b (by simpa using ha) (by simpa using hb)

theorem backflow_means {c : BackflowCfg} {sp : List ℤ} {dt : ℕ} {bs : List BlockDesc}
    (h : getBackflow c sp dt = .ok bs) : Spec.BackflowMeans c sp dt bs := by
  unfold getBackflow at h
  simp only [bind_eq_ok] at h
  obtain ⟨kt, hkt, ku, hku, km, hkm, k21, hk21, k22, hk22, bt, hbt, b1, hb1, b2, hb2, a, ha, h⟩ := h
  obtain ⟨hl, hi⟩ := mapM_get h
  refine ⟨hl, fun i t b ht hb => ?_⟩
  have h := hi i t b ht hb
  have h1 : ∀ w, Spec.OneMeans c sp dt w ⟨sp, w, kt, ku, km, k21, b1, bt, a, c.useBias,
      c.oneElectronSkip, c.oneElectronSkipScale, c.cyclicSpins, c.useTransformer, c.numHeads⟩ :=
    fun w => ⟨rfl, rfl, kernel_means hkt, kernel_means hku, kernel_means hkm, kernel_means hk21,
      bias_means hb1, bias_means hbt, activation_means ha, rfl, rfl, rfl, rfl, rfl, rfl⟩
  have h2 : ∀ w, Spec.TwoMeans c dt w ⟨w, k22, b2, a, c.useBias, c.twoElectronSkip,
      c.twoElectronSkipScale⟩ :=
    fun w => ⟨rfl, kernel_means hk22, bias_means hb2, activation_means ha, rfl, rfl, rfl⟩
  rcases t with _ | ⟨w, _ | ⟨w', t⟩⟩
  · cases h
  · cases h
    exact ⟨⟨w, rfl, h1 w⟩, rfl⟩
  · cases h
    exact ⟨⟨w, rfl, h1 w⟩, _, rfl, h2 w'⟩

theorem streams_mean (c : StreamsCfg) : Spec.StreamsMeans c (getStreams c) :=
  ⟨rfl, rfl, rfl, rfl, rfl⟩

theorem orbitals_mean {c : ModelCfg} {dt : ℕ} {o : OrbitalDesc} (h : getOrbitals c dt = .ok o) :
    Spec.OrbitalsMean c dt o := by
  unfold getOrbitals at h
  simp only [bind_eq_ok, pure_eq_ok] at h
  obtain ⟨k1, h1, k2, h2, k3, h3, b, hb, rfl⟩ := h
  exact ⟨kernel_means h1, kernel_means h2, kernel_means h3, bias_means hb, rfl, rfl⟩

theorem mode_means {s : String} {m : DetFnMode} (h : getMode s = .ok m) :
    m = (if s.toUpper = "SIGN_COVARIANCE" then .signCovariance
      else if s.toUpper = "PARALLEL_EVEN" then .parallelEven else .pairwiseEven) := by
  unfold getMode at h
  split at h
  · cases h; simp [*]
  split at h
  · cases h; simp [*]
  split at h
  · cases h; simp [*]
  · cases h

theorem fermi_means {c : ModelCfg} {nelec seen : List ℤ} {dt : ℕ} {bs : List BlockDesc}
    {df : Option ResNetDesc} {f : FermiDesc}
    (hb : getBackflow c.backflow (Split.getSpinSplit seen) dt = .ok bs)
    (hd : getDetFn c dt = .ok df)
    (h : getFermi c (Split.getSpinSplit nelec) (getStreams c.inputStreams) bs df dt = .ok f) :
    Spec.FermiMeans c nelec seen dt f := by
  unfold getFermi at h
  simp only [bind_eq_ok, pure_eq_ok] at h
  obtain ⟨o, ho, m, hm, rfl⟩ := h
  refine ⟨rfl, streams_mean _, backflow_means hb, rfl, orbitals_mean ho, rfl, mode_means hm, rfl, ?_⟩
  unfold getDetFn at hd
  split at hd
  · simp only [bind_eq_ok, pure_eq_ok] at hd
    obtain ⟨a, ha, k, hk, b, hb, rfl⟩ := hd
    simp only [*, if_true]
    exact ⟨_, rfl, rfl, rfl, activation_means ha, kernel_means hk, bias_means hb, rfl⟩
  · cases hd
    simp [*]

theorem invariance_means {c : InvarianceCfg} {dt : ℕ} {i : InvarianceDesc}
    (h : getInvariance c dt = .ok i) : Spec.InvarianceMeans c dt i := by
  unfold getInvariance at h
  simp only [bind_eq_ok, pure_eq_ok] at h
  obtain ⟨k, hk, b, hb, rfl⟩ := h
  exact ⟨kernel_means hk, bias_means hb, rfl⟩

theorem resnet_means {c : ModelCfg} {dt : ℕ} {r : ResNetDesc} (h : getAntisymResnet c dt = .ok r) :
    Spec.ResnetMeans c dt r := by
  unfold getAntisymResnet at h
  simp only [bind_eq_ok, pure_eq_ok] at h
  obtain ⟨k, hk, b, hb, a, ha, rfl⟩ := h
  exact ⟨rfl, rfl, activation_means ha, kernel_means hk, bias_means hb, rfl⟩

theorem jastrow_means {c : JastrowCfg} {sp : List ℤ} {ionPos : Fin nion → Fin d → ℝ}
    {charges : Fin nion → ℝ} {dt : ℕ} {j : JastrowDesc nion}
    (h : getJastrow c sp ionPos charges dt = .ok j) :
    Spec.JastrowMeans c sp ionPos charges dt j := by
  have hb : ∀ b : JastrowDesc nion, getBackflowJastrow c sp dt = .ok b →
      Spec.BackflowJastrowMeans c sp dt b := by
    intro b hb
    unfold getBackflowJastrow at hb
    unfold Spec.BackflowJastrowMeans
    split at hb
    · simp only [map_eq_ok] at hb
      obtain ⟨bs, hbs, rfl⟩ := hb
      simp only [*, if_true]
      exact ⟨bs, rfl, backflow_means hbs⟩
    · cases hb
      simp [*]
  unfold getJastrow at h
  split at h
  · simp only [map_eq_ok] at h
    obtain ⟨k, hk, rfl⟩ := h
    exact .one _ ‹_› (kernel_means hk)
  split at h
  · cases h
    exact .two _ ‹_› rfl
  split at h
  · exact .backflow _ ‹_› (hb _ h)
  split at h
  · simp only [map_eq_ok] at h
    obtain ⟨k, hk, rfl⟩ := h
    exact .both _ _ ‹_› rfl (hb _ hk)
  · cases h

theorem covariance_means {c : ModelCfg} {sp : List ℤ} {dt : ℕ} {v : CovarianceDesc}
    (h : getCovariance c sp dt = .ok v) : Spec.CovarianceMeans c sp dt v := by
  unfold getCovariance at h
  unfold Spec.CovarianceMeans
  split at h
  · simp only [map_eq_ok] at h
    obtain ⟨k, hk, rfl⟩ := h
    simp only [*, if_true]
    exact ⟨k, rfl, kernel_means hk⟩
  · cases h
    simp [*]

theorem broadcast_means {a b l : List ℤ} (h : broadcastAdd a b = .ok l) (hl : a.length = b.length) :
    l.length = b.length ∧ ∀ (k : ℕ) x y, a[k]? = some x → b[k]? = some y →
      l[k]? = some (y + x) := by
  unfold broadcastAdd at h
  rw [if_pos hl] at h
  cases h
  refine ⟨by simp [hl], fun k x y hx hy => ?_⟩
  simp [List.getElem?_zipWith, hx, hy, add_comm]

/-- C80: the model made from a configuration is the one the configuration stands for: every
option reaches its layer and no other.  Partial: the softenings of the norms in the input
streams are replaced by 0 (`StreamsMeans`), scales of initializers count only for orthogonal
kernels, and `determinant_fn_mode` is not read. -/
theorem configured_model_means_partial (cfg : ModelCfg) (nelec : List ℤ)
    (ionPos : Fin nion → Fin d → ℝ) (charges : Fin nion → ℝ) (dtype : ℕ) (m : Model nion)
    (hm : getModelFromConfig cfg nelec ionPos charges dtype = .ok m) :
    Spec.ModelMeans cfg nelec ionPos charges dtype m := by
  unfold getModelFromConfig at hm
  simp only [bind_eq_ok] at hm
  obtain ⟨bs, hbs, hm⟩ := hm
  split at hm
  · simp only [bind_eq_ok, pure_eq_ok] at hm
    obtain ⟨df, hd, f, hf, rfl⟩ := hm
    exact .fermiNet _ ‹_› (fermi_means hbs hd hf)
  split at hm
  · simp only [bind_eq_ok, pure_eq_ok] at hm
    obtain ⟨df, hd, tot, ht, tb, htb, ib, hib, f, hf, inv, hi, rfl⟩ := hm
    refine .embedded _ _ tot _ _ _ ‹_› rfl ?_ (fermi_means htb hd hf) (streams_mean _)
      (backflow_means hib) (invariance_means hi)
    intro hl
    obtain ⟨h1, h2⟩ := broadcast_means ht (by simpa using hl)
    exact ⟨h1, fun k h e hh he => h2 k h e (by simp [hh]) he⟩
  split at hm
  · simp only [bind_eq_ok, pure_eq_ok] at hm
    obtain ⟨df, hd, ib, hib, f, hf, inv, hi, rfl⟩ := hm
    refine .extended _ _ _ _ ‹_› rfl (fermi_means hbs hd hf) ?_ (invariance_means hi)
    unfold getSeparateBackflow at hib
    split at hib
    · simp only [map_eq_ok] at hib
      obtain ⟨b, hb, rfl⟩ := hib
      simp only [*, if_true]
      exact ⟨b, rfl, backflow_means hb⟩
    · cases hib
      simp [*]
  split at hm
  · rename_i ht
    simp only [bind_eq_ok, pure_eq_ok] at hm
    obtain ⟨o, ho, c, hc, rfl⟩ := hm
    refine .antiequivariance _ _ _ _ _ _ ?_ (streams_mean _) (backflow_means hbs) (orbitals_mean ho)
      (covariance_means hc) rfl
    rcases ht with ht | ht <;> simp [ht]
  split at hm
  · simp only [bind_eq_ok] at hm
    obtain ⟨j, hj, hm⟩ := hm
    split at hm
    · simp only [bind_eq_ok, pure_eq_ok] at hm
      obtain ⟨r, hr, rfl⟩ := hm
      exact .explicit _ _ _ _ _ ‹_› (.inl ⟨‹_›, rfl⟩) (streams_mean _) (backflow_means hbs)
        (jastrow_means hj) (resnet_means hr)
    split at hm
    · simp only [bind_eq_ok, pure_eq_ok] at hm
      obtain ⟨r, hr, rfl⟩ := hm
      exact .explicit _ _ _ _ _ ‹_› (.inr ⟨‹_›, rfl⟩) (streams_mean _) (backflow_means hbs)
        (jastrow_means hj) (resnet_means hr)
    · cases hm
  · cases hm

/-! ### Options which do nothing -/

/-- C80, violated for `ei_norm_softening` and `ee_norm_softening`: the model does not depend on
them. -/
theorem softenings_ignored (cfg : ModelCfg) (x y : ℝ) (nelec : List ℤ)
    (ionPos : Fin nion → Fin d → ℝ) (charges : Fin nion → ℝ) (dtype : ℕ) :
    getModelFromConfig { cfg with inputStreams := { cfg.inputStreams with
        eiNormSoftening := x, eeNormSoftening := y } } nelec ionPos charges dtype =
      getModelFromConfig cfg nelec ionPos charges dtype := rfl

/-- C80, violated for `determinant_fn_mode`: the model does not depend on it. -/
theorem determinant_fn_mode_ignored (cfg : ModelCfg) (s : String) (nelec : List ℤ)
    (ionPos : Fin nion → Fin d → ℝ) (charges : Fin nion → ℝ) (dtype : ℕ) :
    getModelFromConfig { cfg with determinantFnMode := s } nelec ionPos charges dtype =
      getModelFromConfig cfg nelec ionPos charges dtype := rfl

/-- C80, violated for scales of bias initializers. -/
theorem bias_scale_ignored (dt : ℕ) (c : InitCfg) (r : Option ℝ) :
    getBiasInit dt { c with scale := r } = getBiasInit dt c := rfl

/-- C80, violated for scales of kernel initializers which are not orthogonal, although a
documentation comment says that they are passed to the constructor (models/weights.py:75-79). -/
theorem kernel_scale_ignored_iff (dt : ℕ) (t : String) (ht : Spec.KernelName t) :
    (∀ r r', getKernelInit dt ⟨t, r⟩ = getKernelInit dt ⟨t, r'⟩) ↔
      t ≠ "orthogonal" ∧ t ≠ "delta_orthogonal" := by
  obtain ⟨i, hi⟩ := (kernel_accepted dt ⟨t, none⟩).mpr ht
  unfold getKernelInit at hi ⊢
  simp only at hi ⊢
  split at hi
  · cases hi
  by_cases h : t = "orthogonal" ∨ t = "delta_orthogonal"
  · simp only [if_pos h]
    constructor
    · intro h1
      have := h1 (some 1) (some 2)
      simp at this
    · intro h1
      exact absurd h (by tauto)
  · simp only [if_neg h, forall_const]
    exact iff_of_true trivial (by tauto)

/-! ### Precision of the parameters -/

theorem means_call {dt : ℕ} {i : Initializer} (h : i.dtype = dt) :
    i.callDtype none = .ok dt := by
  unfold Initializer.callDtype
  cases i.kind <;> simp [h]

theorem call_third {s : String} {i : Initializer} (h : Spec.Named s i.kind) (t : ℕ) :
    i.callDtype (some t) = if s = "zeros" ∨ s = "ones" then
      .error "TypeError: multiple values for argument 'dtype'" else .ok t := by
  unfold Initializer.callDtype
  generalize i.kind = k at h
  cases h <;> simp

theorem dense_dtypes {k b : Initializer} {dt : ℕ} (hk : k.dtype = dt) (hb : b.dtype = dt)
    (u : Bool) : denseDtypes k b u = .ok (List.replicate (if u = true then 2 else 1) dt) := by
  unfold denseDtypes
  rw [means_call hk, means_call hb]
  cases u <;> rfl

theorem attention_dtypes {s s' : String} {k b : Initializer} (hk : Spec.Named s k.kind)
    (hb : Spec.Named s' b.kind) :
    (Spec.ConstantName s ∨ Spec.ConstantName s' → ∃ e, attentionDtypes k b = .error e) ∧
    (¬ (Spec.ConstantName s ∨ Spec.ConstantName s') →
      attentionDtypes k b = .ok (List.replicate 8 32)) := by
  unfold attentionDtypes Spec.ConstantName
  rw [call_third hk, call_third hb]
  by_cases h1 : s = "zeros" ∨ s = "ones" <;> by_cases h2 : s' = "zeros" ∨ s' = "ones" <;>
    simp [h1, h2, bind, Except.bind, pure, Except.pure, List.replicate]

/-- The precisions for one block. -/
theorem block_dtypes {c : BackflowCfg} {sp : List ℤ} {dt : ℕ} {t : List ℕ} {b : BlockDesc}
    (h : Spec.BlockMeans c sp dt t b) (pairs : Bool) :
    (c.useTransformer = true → Spec.ConstantName c.kernelInitTransformer.type ∨
      Spec.ConstantName c.biasInitTransformer.type → ∃ e, b.initDtypes pairs = .error e) ∧
    (c.useTransformer = true → ¬ (Spec.ConstantName c.kernelInitTransformer.type ∨
      Spec.ConstantName c.biasInitTransformer.type) → ∃ l, b.initDtypes pairs = .ok l ∧
        l.Perm (List.replicate (Spec.ownParams c pairs t) dt ++ List.replicate 8 32)) ∧
    (c.useTransformer = false → b.initDtypes pairs =
        .ok (List.replicate (Spec.ownParams c pairs t + 1) dt)) := by
  obtain ⟨⟨w, hw, h1⟩, h2⟩ := h
  obtain ⟨ha, hb⟩ := attention_dtypes h1.transformer.kind h1.biasTransformer.kind
  have hlen : (1 < t.length) ↔ t[1]?.isSome = true := by simp
  have two : twoDtypes b.two pairs = .ok (List.replicate (if pairs = true ∧ 1 < t.length then
        (if c.useBias = true then 2 else 1) else 0) dt) := by
    cases ht : t[1]? with
    | none =>
      rw [ht] at h2
      simp only at h2
      rw [h2]
      simp [hlen, ht, twoDtypes]
    | some w' =>
      rw [ht] at h2
      obtain ⟨l, hl, hm⟩ := h2
      rw [hl]
      cases pairs
      · simp [twoDtypes]
      · simp [twoDtypes, dense_dtypes hm.kernel.dtype hm.bias.dtype, hm.useBias, hlen, ht]
  unfold BlockDesc.initDtypes OneDesc.initDtypes
  simp only [two, dense_dtypes h1.unmixed.dtype h1.bias.dtype, h1.useBias,
    dense_dtypes h1.mixed.dtype h1.bias.dtype, dense_dtypes h1.fromTwo.dtype h1.bias.dtype,
    h1.useTransformer]
  refine ⟨fun hu hc => ?_, fun hu hc => ?_, fun hu => ?_⟩
  · obtain ⟨e, he⟩ := ha hc
    exact ⟨e, by simp [hu, he, bind, Except.bind]⟩
  · rw [hb hc]
    unfold Spec.ownParams
    cases c.useBias <;> cases pairs <;> by_cases hl : 1 < t.length <;>
      simp [hu, bind, Except.bind, pure, Except.pure, hl, List.perm_iff_count,
        List.count_cons] <;>
      intro a <;> split_ifs <;> omega
  · unfold Spec.ownParams
    cases c.useBias <;> cases pairs <;> by_cases hl : 1 < t.length <;>
      simp [hu, bind, Except.bind, pure, Except.pure, hl, List.replicate]

theorem blocks_dtypes {c : BackflowCfg} {sp : List ℤ} {dt : ℕ} (pairs : Bool) (ts : List (List ℕ))
    (bs : List BlockDesc) (hl : bs.length = ts.length)
    (h : ∀ (i : ℕ) t b, ts[i]? = some t → bs[i]? = some b → Spec.BlockMeans c sp dt t b) :
    (c.useTransformer = true → Spec.ConstantName c.kernelInitTransformer.type ∨
      Spec.ConstantName c.biasInitTransformer.type → ts ≠ [] →
      ∃ e, backflowDtypes pairs bs = .error e) ∧
    (c.useTransformer = true → ¬ (Spec.ConstantName c.kernelInitTransformer.type ∨
      Spec.ConstantName c.biasInitTransformer.type) → ∃ l, backflowDtypes pairs bs = .ok l ∧
        l.Perm (List.replicate (ts.map (Spec.ownParams c pairs)).sum dt ++
          List.replicate (8 * ts.length) 32)) ∧
    (c.useTransformer = false → backflowDtypes pairs bs =
        .ok (List.replicate (ts.map fun t => Spec.ownParams c pairs t + 1).sum dt)) := by
  induction ts generalizing bs with
  | nil =>
    rw [List.length_nil, List.length_eq_zero_iff] at hl
    subst hl
    exact ⟨fun _ _ h => absurd rfl h, fun _ _ => ⟨[], rfl, by simp⟩, fun _ => rfl⟩
  | cons t ts ih =>
    rcases bs with _ | ⟨b, bs⟩
    · simp at hl
    obtain ⟨h1, h2, h3⟩ := block_dtypes (h 0 t b rfl rfl) pairs
    obtain ⟨i1, i2, i3⟩ := ih bs (by simpa using hl) fun i t b ht hb => h (i + 1) t b
      (by simpa using ht) (by simpa using hb)
    refine ⟨fun hu hc _ => ?_, fun hu hc => ?_, fun hu => ?_⟩
    · obtain ⟨e, he⟩ := h1 hu hc
      exact ⟨e, by simp [backflowDtypes, he, bind, Except.bind]⟩
    · obtain ⟨l, hl, hp⟩ := h2 hu hc
      obtain ⟨l', hl', hp'⟩ := i2 hu hc
      refine ⟨l ++ l', by simp [backflowDtypes, hl, hl', bind, Except.bind, pure, Except.pure], ?_⟩
      rw [List.perm_iff_count] at hp hp' ⊢
      intro a
      have e1 := hp a
      have e2 := hp' a
      simp only [List.count_append, List.count_replicate, List.map_cons, List.sum_cons,
        List.length_cons] at e1 e2 ⊢
      rw [e1, e2]
      split_ifs <;> omega
    · simp [backflowDtypes, h3 hu, i3 hu, bind, Except.bind, pure, Except.pure]

/-- C81: all parameters of a backflow are initialized with the configured precision.  Partial:
without the transformer. -/
theorem backflow_precision_partial (c : BackflowCfg) (sp : List ℤ) (dt : ℕ) (bs : List BlockDesc)
    (h : getBackflow c sp dt = .ok bs) (hu : c.useTransformer = false) (pairs : Bool) :
    backflowDtypes pairs bs =
      .ok (List.replicate (c.ndenseList.map fun t => Spec.ownParams c pairs t + 1).sum dt) :=
  (blocks_dtypes pairs _ _ (backflow_means h).1 (backflow_means h).2).2.2 hu

/-- C81, violated with the transformer: the eight parameters of each attention layer have 32
bits, whatever the configured precision. -/
theorem transformer_precision (c : BackflowCfg) (sp : List ℤ) (dt : ℕ) (bs : List BlockDesc)
    (h : getBackflow c sp dt = .ok bs) (hu : c.useTransformer = true)
    (hk : ¬ Spec.ConstantName c.kernelInitTransformer.type)
    (hb : ¬ Spec.ConstantName c.biasInitTransformer.type) (pairs : Bool) :
    ∃ l, backflowDtypes pairs bs = .ok l ∧
      l.Perm (List.replicate (c.ndenseList.map (Spec.ownParams c pairs)).sum dt ++
          List.replicate (8 * c.ndenseList.length) 32) :=
  (blocks_dtypes pairs _ _ (backflow_means h).1 (backflow_means h).2).2.1 hu (by tauto)

/-- C81: constants as initial values of the transformer are accepted, but their use raises. -/
theorem transformer_constants_raise (c : BackflowCfg) (sp : List ℤ) (dt : ℕ) (bs : List BlockDesc)
    (h : getBackflow c sp dt = .ok bs) (hu : c.useTransformer = true) (hne : c.ndenseList ≠ [])
    (pairs : Bool) : (∃ e, backflowDtypes pairs bs = .error e) ↔
      Spec.ConstantName c.kernelInitTransformer.type ∨
        Spec.ConstantName c.biasInitTransformer.type := by
  obtain ⟨h1, h2, -⟩ := blocks_dtypes pairs _ _ (backflow_means h).1 (backflow_means h).2
  constructor
  · rintro ⟨e, he⟩
    by_contra hc
    obtain ⟨l, hl, -⟩ := h2 hu hc
    rw [he] at hl
    cases hl
  · exact fun hc => h1 hu hc hne

/-! ### Examples -/

/-- A model with two kinds of electrons, of the default FermiNet but for a softening. -/
example : ∃ m, getModelFromConfig { inputStreams := { eiNormSoftening := 3 } } [2, 1]
    (fun (_ : Fin 1) (_ : Fin 3) => (0 : ℝ)) (fun _ => 3) 64 = .ok m ∧
    Spec.ModelMeans { inputStreams := { eiNormSoftening := 3 } } [2, 1]
      (fun (_ : Fin 1) (_ : Fin 3) => (0 : ℝ)) (fun _ => 3) 64 m ∧
    ∃ f, m = .fermiNet f ∧ f.streams.eiSoftening = 0 := by
  obtain ⟨m, hm⟩ := (model_config_accepted_iff {} [2, 1] (fun (_ : Fin 1) (_ : Fin 3) => (0 : ℝ))
    (fun _ => 3) 64).mpr (default_acceptable "ferminet" (by simp))
  rw [← softenings_ignored {} 3 0] at hm
  have h := configured_model_means_partial _ _ _ _ _ m hm
  refine ⟨m, hm, h, ?_⟩
  cases h with
  | fermiNet f _ hf => exact ⟨f, rfl, hf.streams.eiSoftening⟩
  | embedded _ _ _ _ _ _ ht => simp at ht
  | extended _ _ _ _ ht => simp at ht
  | antiequivariance _ _ _ _ _ _ ht => simp at ht
  | explicit _ _ _ _ _ ht => simp at ht

example : Spec.KernelName "lecun_normal" ∧ "lecun_normal" ≠ "orthogonal" := by
  simp [Spec.KernelName]

theorem transformer_ok (k b : InitCfg) (hk : Spec.KernelName k.type) (hb : Spec.BiasName b.type) :
    Spec.BackflowOk { useTransformer := true, kernelInitTransformer := k,
                      biasInitTransformer := b } := by
  constructor <;> first
    | exact hk
    | exact hb
    | simp [Spec.KernelName, Spec.BiasName, Spec.ActivationName]

/-- Without the transformer: 4 blocks, of which three have a two-electron layer. -/
example : ∃ bs, getBackflow {} [1] 64 = .ok bs ∧
    backflowDtypes true bs = .ok (List.replicate 22 64) := by
  obtain ⟨bs, hbs⟩ := (backflow_accepted {} [1] 64).mpr default_backflow_ok
  refine ⟨bs, hbs, ?_⟩
  rw [backflow_precision_partial {} [1] 64 bs hbs rfl true]
  rfl

/-- With the transformer, 32 of the 50 parameters have 32 bits instead of 64. -/
example : ∃ bs l, getBackflow { useTransformer := true } [1] 64 = .ok bs ∧
    backflowDtypes true bs = .ok l ∧ l.count 32 = 32 ∧ l.count 64 = 18 := by
  obtain ⟨bs, hbs⟩ := (backflow_accepted { useTransformer := true } [1] 64).mpr
    (transformer_ok ⟨"orthogonal", some 1⟩ ⟨"normal", none⟩ (by simp [Spec.KernelName])
      (by simp [Spec.BiasName]))
  obtain ⟨l, hl, hp⟩ := transformer_precision _ [1] 64 bs hbs rfl (by simp [Spec.ConstantName])
    (by simp [Spec.ConstantName]) true
  refine ⟨bs, l, hbs, hl, ?_, ?_⟩
  · rw [hp.count_eq]; rfl
  · rw [hp.count_eq]; rfl

/-- Biases of the transformer which start at zero. -/
example : ∃ bs e, getBackflow { useTransformer := true, biasInitTransformer := ⟨"zeros", none⟩ }
    [1] 32 = .ok bs ∧ backflowDtypes true bs = .error e := by
  obtain ⟨bs, hbs⟩ := (backflow_accepted
    { useTransformer := true, biasInitTransformer := ⟨"zeros", none⟩ } [1] 32).mpr
    (transformer_ok ⟨"orthogonal", some 1⟩ ⟨"zeros", none⟩ (by simp [Spec.KernelName])
      (by simp [Spec.BiasName]))
  obtain ⟨e, he⟩ := (transformer_constants_raise _ [1] 32 bs hbs rfl (by simp) true).mpr
    (by simp [Spec.ConstantName])
  exact ⟨bs, e, hbs, he⟩

end Verif.Props
