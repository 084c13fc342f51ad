import Verif.Model.Construct
import Verif.Spec.Construct
import Verif.Props.Nets
import Mathlib.Tactic

/-! C77: every model which can be configured is antisymmetric. -/

namespace Verif.Props
open Verif.Net Verif.Slog Verif.Construct Equiv

variable {K nion d : ℕ} {n : Fin (K + 1) → ℕ}

/-! ### Evaluation is antisymmetric -/

theorem fermi_desc_antisymmetric (f : FermiDesc) (P : Params (K + 1) nion d)
    (ions : Fin nion → Fin d → ℝ) (π : ∀ s, Perm (Fin (n s))) (pos : Stream1 n d) :
    f.apply P ions (permute1 π pos) = (f.apply P ions pos).map (signTimes (totalParity π)) := by
  unfold FermiDesc.apply
  by_cases h : f.fullDet = true
  · simp only [h, if_true]
    exact ferminet_full_det_antisymmetric _ (ion_streams_equivariant _ _ _ _ _) _ _ _ π pos
  · simp only [h]
    cases nelecPerSplit f.spinSplit (counts n).sum with
    | error e => rfl
    | ok l => exact ferminet_antisymmetric _ (ion_streams_equivariant _ _ _ _ _) _ _ _ π pos

theorem embedded_desc_antisymmetric (f : FermiDesc) (nhidden : List ℕ) (is : StreamsDesc)
    (ib : List BlockDesc) (inv : InvarianceDesc) (P : Params (K + 1) nion d)
    (ions : Fin nion → Fin d → ℝ) (π : ∀ s, Perm (Fin (n s))) (pos : Stream1 n d) :
    applyEmbedded f nhidden is ib inv P ions (permute1 π pos) =
      (applyEmbedded f nhidden is ib inv P ions pos).map (signTimes (totalParity π)) := by
  unfold applyEmbedded
  cases nelecPerSplit f.spinSplit (counts n).sum with
  | error e => rfl
  | ok l =>
    by_cases hl : nhidden.length ≠ l.length
    · simp [bind, Except.bind, hl]; rfl
    · simp only [bind, Except.bind, hl, if_false]
      by_cases h : f.fullDet = true
      · simp only [h, if_true]
        exact embedded_ferminet_full_antisymmetric _ (ion_streams_equivariant _ _ _ _ _) _ _ _
          (ion_streams_equivariant _ _ _ _ _) _ _ _ π pos
      · simp only [h]
        exact embedded_ferminet_antisymmetric _ (ion_streams_equivariant _ _ _ _ _) _ _ _
          (ion_streams_equivariant _ _ _ _ _) _ _ _ π pos

theorem extended_desc_antisymmetric (f : FermiDesc) (nhidden : List ℕ)
    (ib : Option (List BlockDesc)) (inv : InvarianceDesc) (P : Params (K + 1) nion d)
    (ions : Fin nion → Fin d → ℝ) (π : ∀ s, Perm (Fin (n s))) (pos : Stream1 n d) :
    applyExtended f nhidden ib inv P ions (permute1 π pos) =
      (applyExtended f nhidden ib inv P ions pos).map (signTimes (totalParity π)) := by
  unfold applyExtended
  by_cases h : f.fullDet = true
  · simp only [h, if_true]
    split
    · rfl
    · exact extended_ferminet_full_antisymmetric _ (ion_streams_equivariant _ _ _ _ _) _ _ _ _
        π pos
  · simp only [h]
    cases nelecPerSplit f.spinSplit (counts n).sum with
    | error e => rfl
    | ok l =>
      by_cases hl : nhidden.length ≠ l.length
      · simp [bind, Except.bind, hl]; rfl
      · simp only [bind, Except.bind, hl, if_false]
        exact extended_ferminet_antisymmetric _ (ion_streams_equivariant _ _ _ _ _) _ _ _ _ π pos

/-- no weights for single pairs of electrons -/
def CovarianceDesc.Unweighted : CovarianceDesc → Prop
  | .products _ useWeights => useWeights = false
  | .backflow .. => True

theorem covariance_build_unweighted {S : ℕ} (c : CovarianceDesc) (hc : CovarianceDesc.Unweighted c)
    (P : Params S nion d) (da : ℕ) (C : Covariance S da) (h : c.build P da = .ok C) :
    Covariance.Unweighted C := by
  cases c with
  | products k u =>
    simp only [CovarianceDesc.Unweighted] at hc
    simp only [CovarianceDesc.build, hc] at h
    cases h
    trivial
  | backflow cfg sp dt =>
    simp only [CovarianceDesc.build] at h
    cases hb : getBackflow cfg sp dt with
    | error e => simp [hb, Except.map] at h
    | ok bs =>
      simp only [hb, Except.map, Except.ok.injEq] at h
      subst h
      trivial

theorem antiequivariance_desc_antisymmetric (sp : List ℤ) (s : StreamsDesc) (bs : List BlockDesc)
    (pp : Bool) (o : OrbitalDesc) (c : CovarianceDesc) (hc : CovarianceDesc.Unweighted c)
    (mul : Bool) (P : Params (K + 1) nion d) (ions : Fin nion → Fin d → ℝ)
    (π : ∀ s, Perm (Fin (n s))) (pos : Stream1 n d) :
    applyAntiequivariance sp s bs pp o c mul P ions (permute1 π pos) =
      (applyAntiequivariance sp s bs pp o c mul P ions pos).map
        (signTimes (totalParity π)) := by
  unfold applyAntiequivariance
  cases nelecPerSplit sp (counts n).sum with
  | error e => rfl
  | ok l =>
    cases hC : c.build P (multiplyWidth mul
        (outWidths bs (inWidths nion d s.includeEeNorm)).1) with
    | error e => simp only [bind, Except.bind, hC]; rfl
    | ok C =>
      simp only [bind, Except.bind, hC]
      have hu := covariance_build_unweighted c hc P _ C hC
      cases pp
      · exact antiequivariance_net_antisymmetric_partial _ (ion_streams_equivariant _ _ _ _ _) _ _
          (cofactor_net_layer_antiequivariant _ _ _) _ C hu π pos
      · exact antiequivariance_net_antisymmetric_partial _ (ion_streams_equivariant _ _ _ _ _) _ _
          (per_particle_net_layer_antiequivariant _ _ _) _ C hu π pos

theorem explicit_desc_antisymmetric (s : StreamsDesc) (bs : List BlockDesc)
    (j : JastrowDesc nion) (a : AntisymDesc) (r : ResNetDesc) (P : Params (K + 1) nion d)
    (ions : Fin nion → Fin d → ℝ) (π : ∀ s, Perm (Fin (n s))) (pos : Stream1 n d) :
    applyExplicit s bs j a r P ions (permute1 π pos) =
      (applyExplicit s bs j a r P ions pos).map (signTimes (totalParity π)) := by
  unfold applyExplicit
  cases a with
  | factorized rank =>
    simp only
    split
    · rfl
    · exact factorized_net_antisymmetric _ _ _ _ _ _ _ _ π pos
  | generic => exact generic_net_antisymmetric _ _ _ _ _ _ _ _ π pos

/-- the sign covariance of a model, if it has one, is unweighted -/
def Model.Unweighted : Model nion → Prop
  | .antiequivariance _ _ _ _ _ _ c _ => CovarianceDesc.Unweighted c
  | _ => True

theorem model_antisymmetric (m : Model nion) (hu : Model.Unweighted m) (P : Params (K + 1) nion d)
    (ions : Fin nion → Fin d → ℝ) (π : ∀ s, Perm (Fin (n s))) (pos : Stream1 n d) :
    m.apply P ions (permute1 π pos) = (m.apply P ions pos).map (signTimes (totalParity π)) := by
  unfold Model.apply
  by_cases h1 : m.Matches (counts n)
  swap
  · simp only [h1]; rfl
  by_cases h2 : m.EiNorms
  swap
  · simp only [h1, h2]; rfl
  simp only [h1, h2, not_true, if_false]
  cases m with
  | fermiNet f => exact fermi_desc_antisymmetric f P ions π pos
  | embedded f nh is ib inv => exact embedded_desc_antisymmetric f nh is ib inv P ions π pos
  | extended f nh ib inv => exact extended_desc_antisymmetric f nh ib inv P ions π pos
  | antiequivariance sp s bs pp ls o c mul =>
    exact antiequivariance_desc_antisymmetric sp s bs pp o c hu mul P ions π pos
  | explicit sp s bs j a r => exact explicit_desc_antisymmetric s bs j a r P ions π pos

/-! ### Construction -/

theorem bind_eq_ok {A B : Type} (e : Except String A) (f : A → Except String B) (b : B) :
    (e >>= f) = .ok b ↔ ∃ a, e = .ok a ∧ f a = .ok b := by
  cases e with
  | error m => simp [bind, Except.bind]
  | ok a => simp [bind, Except.bind]

theorem map_eq_ok {A B : Type} (e : Except String A) (f : A → B) (b : B) :
    e.map f = .ok b ↔ ∃ a, e = .ok a ∧ f a = b := by
  cases e with
  | error m => simp [Except.map]
  | ok a => simp [Except.map]

theorem pure_eq_ok {A : Type} (a b : A) : (pure a : Except String A) = .ok b ↔ a = b := by
  simp [pure, Except.pure]

theorem mapM_eq_ok {A B : Type} (f : A → Except String B) (l : List A) (bs : List B) :
    l.mapM f = .ok bs ↔ List.Forall₂ (fun a b => f a = .ok b) l bs := by
  induction l generalizing bs with
  | nil => cases bs <;> simp [List.mapM_nil, pure_eq_ok]
  | cons a l ih =>
    simp only [List.mapM_cons, bind_eq_ok, pure_eq_ok, ih]
    constructor
    · rintro ⟨b, hb, bs', hbs, rfl⟩
      exact .cons hb hbs
    · rintro (_ | ⟨hb, hbs⟩)
      exact ⟨_, hb, _, hbs, rfl⟩

theorem blocks_match_of_get (cfg : BackflowCfg) (counts : List ℤ) (dtype : ℕ)
    (bs : List BlockDesc) (h : getBackflow cfg (Split.getSpinSplit counts) dtype = .ok bs) :
    BlocksMatch counts bs := by
  unfold getBackflow at h
  simp only [bind_eq_ok, mapM_eq_ok] at h
  obtain ⟨_, -, _, -, _, -, _, -, _, -, _, -, _, -, _, -, _, -, h⟩ := h
  intro b hb
  generalize cfg.ndenseList = ts at h
  induction h with
  | nil => simp at hb
  | cons hab _ ih =>
    rcases List.mem_cons.mp hb with rfl | hb
    · revert hab
      rename_i t _ _ _
      rcases t with _ | ⟨_, _ | ⟨_, _⟩⟩ <;> simp only [residualBlock, reduceCtorEq, false_implies,
        Except.ok.injEq] <;> rintro rfl <;> rfl
    · exact ih hb

theorem fermi_spinSplit {cfg : ModelCfg} {sp : List ℤ} {st : StreamsDesc} {bs : List BlockDesc}
    {df : Option ResNetDesc} {dtype : ℕ} {f : FermiDesc}
    (h : getFermi cfg sp st bs df dtype = .ok f) :
    f.spinSplit = sp ∧ f.backflow = bs ∧ f.streams = st := by
  unfold getFermi at h
  simp only [bind_eq_ok, pure_eq_ok] at h
  obtain ⟨_, -, _, -, rfl⟩ := h
  exact ⟨rfl, rfl, rfl⟩

theorem jastrow_matches {cfg : JastrowCfg} {counts : List ℤ} {ionPos : Fin nion → Fin d → ℝ}
    {charges : Fin nion → ℝ} {dtype : ℕ} {j : JastrowDesc nion}
    (h : getJastrow cfg (Split.getSpinSplit counts) ionPos charges dtype = .ok j) :
    j.Matches counts := by
  have hb : ∀ b : JastrowDesc nion, getBackflowJastrow cfg (Split.getSpinSplit counts) dtype = .ok b →
      b.Matches counts := by
    intro b hb
    unfold getBackflowJastrow at hb
    split at hb
    · rw [map_eq_ok] at hb
      obtain ⟨bs, hbs, rfl⟩ := hb
      exact blocks_match_of_get _ _ _ _ hbs
    · cases hb
      trivial
  unfold getJastrow at h
  simp only at h
  split at h
  · rw [map_eq_ok] at h
    obtain ⟨_, -, rfl⟩ := h
    trivial
  split at h
  · cases h
    trivial
  split at h
  · exact hb _ h
  split at h
  · rw [map_eq_ok] at h
    obtain ⟨b, hb', rfl⟩ := h
    exact ⟨trivial, hb b hb'⟩
  · cases h

/-- The splits in a configured model are at the boundaries of the species. -/
theorem configured_model_splits_match (cfg : ModelCfg) (counts : List ℤ)
    (ionPos : Fin nion → Fin d → ℝ) (charges : Fin nion → ℝ) (dtype : ℕ) (m : Model nion)
    (hm : getModelFromConfig cfg counts ionPos charges dtype = .ok m) : m.Matches counts := by
  unfold getModelFromConfig at hm
  simp only [bind_eq_ok] at hm
  obtain ⟨bs, hbs, hm⟩ := hm
  have hbs' := blocks_match_of_get _ _ _ _ hbs
  split at hm
  · simp only [bind_eq_ok, pure_eq_ok] at hm
    obtain ⟨_, -, f, hf, rfl⟩ := hm
    obtain ⟨h1, h2, -⟩ := fermi_spinSplit hf
    exact ⟨h1, h2 ▸ hbs'⟩
  split at hm
  · simp only [bind_eq_ok, pure_eq_ok] at hm
    obtain ⟨_, -, total, ht, tb, htb, ib, hib, f, hf, inv, -, rfl⟩ := hm
    obtain ⟨h1, h2, -⟩ := fermi_spinSplit hf
    refine ⟨h1, fun hl => ?_, blocks_match_of_get _ _ _ _ hib⟩
    rw [h2]
    unfold broadcastAdd at ht
    rw [if_pos (by simpa using hl)] at ht
    cases ht
    exact blocks_match_of_get _ _ _ _ htb
  split at hm
  · simp only [bind_eq_ok, pure_eq_ok] at hm
    obtain ⟨_, -, ib, hib, f, hf, inv, -, rfl⟩ := hm
    obtain ⟨h1, h2, -⟩ := fermi_spinSplit hf
    refine ⟨h1, h2 ▸ hbs', fun bs' hbs2 => ?_⟩
    unfold getSeparateBackflow at hib
    split at hib
    · rw [map_eq_ok] at hib
      obtain ⟨b, hb, rfl⟩ := hib
      cases hbs2
      exact blocks_match_of_get _ _ _ _ hb
    · cases hib
      cases hbs2
  split at hm
  · simp only [bind_eq_ok, pure_eq_ok] at hm
    obtain ⟨o, -, c, hc, rfl⟩ := hm
    refine ⟨rfl, rfl, hbs', ?_⟩
    unfold getCovariance at hc
    split at hc
    · rw [map_eq_ok] at hc
      obtain ⟨_, -, rfl⟩ := hc
      trivial
    · cases hc
      rfl
  split at hm
  · simp only [bind_eq_ok] at hm
    obtain ⟨j, hj, hm⟩ := hm
    have hj' := jastrow_matches hj
    split at hm
    · simp only [bind_eq_ok, pure_eq_ok] at hm
      obtain ⟨_, -, rfl⟩ := hm
      exact ⟨rfl, hbs', hj'⟩
    split at hm
    · simp only [bind_eq_ok, pure_eq_ok] at hm
      obtain ⟨_, -, rfl⟩ := hm
      exact ⟨rfl, hbs', hj'⟩
    · cases hm
  · cases hm

theorem configured_model_norms (cfg : ModelCfg) (counts : List ℤ)
    (ionPos : Fin nion → Fin d → ℝ) (charges : Fin nion → ℝ) (dtype : ℕ) (m : Model nion)
    (hm : getModelFromConfig cfg counts ionPos charges dtype = .ok m)
    (hn : Spec.UsesNorms cfg) : m.EiNorms := by
  unfold getModelFromConfig at hm
  simp only [bind_eq_ok] at hm
  obtain ⟨bs, -, hm⟩ := hm
  split at hm
  · simp only [bind_eq_ok, pure_eq_ok] at hm
    obtain ⟨_, -, f, hf, rfl⟩ := hm
    obtain ⟨-, -, h⟩ := fermi_spinSplit hf
    simp only [Model.EiNorms, h]
    exact hn.1
  split at hm
  · rename_i hty
    simp only [bind_eq_ok, pure_eq_ok] at hm
    obtain ⟨_, -, total, -, tb, -, ib, -, f, hf, inv, -, rfl⟩ := hm
    obtain ⟨-, -, h⟩ := fermi_spinSplit hf
    simp only [Model.EiNorms, h]
    exact ⟨hn.1, hn.2 hty⟩
  split at hm
  · simp only [bind_eq_ok, pure_eq_ok] at hm
    obtain ⟨_, -, ib, -, f, hf, inv, -, rfl⟩ := hm
    obtain ⟨-, -, h⟩ := fermi_spinSplit hf
    simp only [Model.EiNorms, h]
    exact hn.1
  split at hm
  · simp only [bind_eq_ok, pure_eq_ok] at hm
    obtain ⟨o, -, c, -, rfl⟩ := hm
    exact hn.1
  split at hm
  · simp only [bind_eq_ok] at hm
    obtain ⟨j, -, hm⟩ := hm
    split at hm
    · simp only [bind_eq_ok, pure_eq_ok] at hm
      obtain ⟨_, -, rfl⟩ := hm
      exact hn.1
    split at hm
    · simp only [bind_eq_ok, pure_eq_ok] at hm
      obtain ⟨_, -, rfl⟩ := hm
      exact hn.1
    · cases hm
  · cases hm

theorem configured_model_unweighted (cfg : ModelCfg) (counts : List ℤ)
    (ionPos : Fin nion → Fin d → ℝ) (charges : Fin nion → ℝ) (dtype : ℕ) (m : Model nion)
    (hm : getModelFromConfig cfg counts ionPos charges dtype = .ok m)
    (hw : ¬ Spec.WeightedProducts cfg) : Model.Unweighted m := by
  unfold getModelFromConfig at hm
  simp only [bind_eq_ok] at hm
  obtain ⟨bs, -, hm⟩ := hm
  split at hm
  · simp only [bind_eq_ok, pure_eq_ok] at hm
    obtain ⟨_, -, f, hf, rfl⟩ := hm
    trivial
  split at hm
  · simp only [bind_eq_ok, pure_eq_ok] at hm
    obtain ⟨_, -, total, -, tb, -, ib, -, f, hf, inv, -, rfl⟩ := hm
    trivial
  split at hm
  · simp only [bind_eq_ok, pure_eq_ok] at hm
    obtain ⟨_, -, ib, -, f, hf, inv, -, rfl⟩ := hm
    trivial
  split at hm
  · rename_i hty
    simp only [bind_eq_ok, pure_eq_ok] at hm
    obtain ⟨o, -, c, hc, rfl⟩ := hm
    unfold getCovariance at hc
    split at hc
    · rename_i hp
      rw [map_eq_ok] at hc
      obtain ⟨_, -, rfl⟩ := hc
      simp only [Model.Unweighted, CovarianceDesc.Unweighted]
      by_contra hu
      exact hw ⟨hty, hp, by simpa using hu⟩
    · cases hc
      trivial
  split at hm
  · simp only [bind_eq_ok] at hm
    obtain ⟨j, -, hm⟩ := hm
    split at hm
    · simp only [bind_eq_ok, pure_eq_ok] at hm
      obtain ⟨_, -, rfl⟩ := hm
      trivial
    split at hm
    · simp only [bind_eq_ok, pure_eq_ok] at hm
      obtain ⟨_, -, rfl⟩ := hm
      trivial
    · cases hm
  · cases hm

/-! ### Which configurations are accepted -/

theorem exists_bind_ok {A B : Type} (e : Except String A) (f : A → Except String B) :
    (∃ b, (e >>= f) = .ok b) ↔ ∃ a, e = .ok a ∧ ∃ b, f a = .ok b := by
  simp only [bind_eq_ok]
  exact ⟨fun ⟨b, a, h, hb⟩ => ⟨a, h, b, hb⟩, fun ⟨a, h, b, hb⟩ => ⟨b, a, h, hb⟩⟩

theorem exists_map_ok {A B : Type} (e : Except String A) (f : A → B) :
    (∃ b, e.map f = .ok b) ↔ ∃ a, e = .ok a := by
  simp only [map_eq_ok]
  exact ⟨fun ⟨_, a, h, _⟩ => ⟨a, h⟩, fun ⟨a, h⟩ => ⟨_, a, h, rfl⟩⟩

theorem exists_pure_ok {A : Type} (a : A) : (∃ b, (pure a : Except String A) = .ok b) ↔ True :=
  iff_true_intro ⟨a, rfl⟩

theorem kernel_accepted (dt : ℕ) (c : InitCfg) :
    (∃ i, getKernelInit dt c = .ok i) ↔ Spec.KernelName c.type := by
  unfold getKernelInit
  cases h : initializerConstructors.lookup c.type with
  | none =>
    rw [List.lookup_eq_none_iff] at h
    simp only [reduceCtorEq, exists_false, false_iff]
    intro hn
    simp only [initializerConstructors, List.forall_mem_cons, bne_iff_ne, ne_eq] at h
    simp only [Spec.KernelName, List.mem_cons, List.not_mem_nil, or_false] at hn
    tauto
  | some k =>
    have hk : Spec.KernelName c.type := by
      by_contra hn
      have : initializerConstructors.lookup c.type = none := by
        rw [List.lookup_eq_none_iff]
        simp only [initializerConstructors, List.forall_mem_cons, bne_iff_ne, ne_eq]
        simp only [Spec.KernelName, List.mem_cons, List.not_mem_nil, or_false, not_or] at hn
        simp only [List.not_mem_nil, false_implies, implies_true, and_true]
        tauto
      rw [this] at h
      cases h
    simp only [hk, iff_true]
    split <;> exact ⟨_, rfl⟩

theorem bias_accepted (dt : ℕ) (c : InitCfg) :
    (∃ i, getBiasInit dt c = .ok i) ↔ Spec.BiasName c.type := by
  unfold getBiasInit
  simp only [validBiasInitializers, List.mem_cons, List.not_mem_nil, or_false, Spec.BiasName]
  constructor
  · rintro ⟨i, h⟩
    by_contra hn
    rw [if_neg hn] at h
    cases h
  · intro h
    rw [if_pos h]
    rcases h with h | h | h | h <;> rw [h] <;> exact ⟨_, rfl⟩

theorem activation_accepted (s : String) :
    (∃ a, getNamedActivationFn s = .ok a) ↔ Spec.ActivationName s := by
  unfold getNamedActivationFn Spec.ActivationName
  split
  · simp [*]
  split <;> simp [*]

theorem mode_accepted (s : String) : (∃ a, getMode s = .ok a) ↔ Spec.ModeName s := by
  unfold getMode Spec.ModeName
  split
  · simp [*]
  split
  · simp [*]
  split <;> simp [*]

theorem blocks_accepted (one : ℕ → OneDesc) (two : ℕ → TwoDesc) (l : List (List ℕ)) :
    (∃ bs, l.mapM (residualBlock one two) = .ok bs) ↔ ∀ t ∈ l, t ≠ [] := by
  induction l with
  | nil => simp [List.mapM_nil, exists_pure_ok]
  | cons t l ih =>
    simp only [List.mapM_cons, exists_bind_ok, exists_pure_ok, and_true, ih,
      List.forall_mem_cons, exists_and_right]
    rcases t with _ | ⟨_, _ | ⟨_, _⟩⟩ <;> simp [residualBlock]

theorem backflow_accepted (c : BackflowCfg) (sp : List ℤ) (dt : ℕ) :
    (∃ bs, getBackflow c sp dt = .ok bs) ↔ Spec.BackflowOk c := by
  unfold getBackflow
  simp only [exists_bind_ok, blocks_accepted, exists_and_right, kernel_accepted, bias_accepted,
    activation_accepted]
  constructor
  · rintro ⟨h1, h2, h3, h4, h5, h6, h7, h8, h9, h10⟩
    exact ⟨h2, h3, h1, h4, h5, h7, h8, h6, h9, h10⟩
  · rintro ⟨h2, h3, h1, h4, h5, h7, h8, h6, h9, h10⟩
    exact ⟨h1, h2, h3, h4, h5, h6, h7, h8, h9, h10⟩

theorem orbitals_accepted (c : ModelCfg) (dt : ℕ) :
    (∃ o, getOrbitals c dt = .ok o) ↔ Spec.OrbitalsOk c := by
  unfold getOrbitals Spec.OrbitalsOk
  simp only [exists_bind_ok, exists_pure_ok, and_true, exists_and_right, kernel_accepted,
    bias_accepted]

theorem fermi_accepted (c : ModelCfg) (sp : List ℤ) (st : StreamsDesc) (bs : List BlockDesc)
    (df : Option ResNetDesc) (dt : ℕ) : (∃ f, getFermi c sp st bs df dt = .ok f) ↔
      Spec.OrbitalsOk c ∧ Spec.ModeName c.detResnet.mode := by
  unfold getFermi
  simp only [exists_bind_ok, exists_pure_ok, and_true, exists_and_right, orbitals_accepted,
    mode_accepted]

theorem detFn_accepted (c : ModelCfg) (dt : ℕ) : (∃ f, getDetFn c dt = .ok f) ↔
    (c.useDetResnet = true → Spec.ActivationName c.detResnet.activation ∧
      Spec.KernelName c.detResnet.kernelInit.type ∧
      Spec.BiasName c.detResnet.biasInit.type) := by
  unfold getDetFn
  split
  · simp only [exists_bind_ok, exists_pure_ok, and_true, exists_and_right, kernel_accepted,
      bias_accepted, activation_accepted, *, forall_const]
  · simp [*]

theorem invariance_accepted (c : InvarianceCfg) (dt : ℕ) :
    (∃ i, getInvariance c dt = .ok i) ↔ Spec.InvarianceOk c := by
  unfold getInvariance Spec.InvarianceOk
  simp only [exists_bind_ok, exists_pure_ok, and_true, exists_and_right, kernel_accepted,
    bias_accepted]

theorem separate_accepted (c : ModelCfg) (sp : List ℤ) (dt : ℕ) :
    (∃ b, getSeparateBackflow c sp dt = .ok b) ↔
      (c.useSeparateInvarianceBackflow = true → Spec.BackflowOk c.invariance.backflow) := by
  unfold getSeparateBackflow
  split
  · simp only [exists_map_ok, backflow_accepted, *, forall_const]
  · simp [*]

theorem jastrow_accepted (c : JastrowCfg) (sp : List ℤ) (ionPos : Fin nion → Fin d → ℝ)
    (charges : Fin nion → ℝ) (dt : ℕ) :
    (∃ j, getJastrow c sp ionPos charges dt = .ok j) ↔ Spec.JastrowOk c := by
  have hb : (∃ b : JastrowDesc nion, getBackflowJastrow c sp dt = .ok b) ↔
      (c.useSeparateJastrowBackflow = true → Spec.BackflowOk c.backflow) := by
    unfold getBackflowJastrow
    split
    · simp only [exists_map_ok, backflow_accepted, *, forall_const]
    · simp [*]
  unfold getJastrow Spec.JastrowOk
  simp only
  split
  · simp [exists_map_ok, kernel_accepted, *]
  split
  · simp [*]
  split
  · simp [hb, *]
  split
  · simp [exists_map_ok, hb, *]
  · simp [*]

theorem covariance_accepted (c : ModelCfg) (sp : List ℤ) (dt : ℕ) :
    (∃ b, getCovariance c sp dt = .ok b) ↔
      (c.useProductsCovariance = true → Spec.KernelName c.productsKernelInit.type) := by
  unfold getCovariance
  split
  · simp only [exists_map_ok, kernel_accepted, *, forall_const]
  · simp [*]

theorem resnet_accepted (c : ModelCfg) (dt : ℕ) : (∃ b, getAntisymResnet c dt = .ok b) ↔
    Spec.KernelName c.kernelInitResnet.type ∧ Spec.BiasName c.biasInitResnet.type ∧
      Spec.ActivationName c.activationFnResnet := by
  unfold getAntisymResnet
  simp only [exists_bind_ok, exists_pure_ok, and_true, exists_and_right, kernel_accepted,
    bias_accepted, activation_accepted]

theorem broadcast_accepted (a b : List ℤ) :
    (∃ l, broadcastAdd a b = .ok l) ↔ a.length = b.length ∨ a.length = 1 ∨ b.length = 1 := by
  unfold broadcastAdd
  split
  · simp [*]
  · rename_i h
    rcases a with _ | ⟨x, _ | ⟨y, a⟩⟩ <;> rcases b with _ | ⟨z, _ | ⟨w, b⟩⟩ <;> simp_all

/-- C78: exactly the acceptable configurations are accepted. -/
theorem model_config_accepted_iff (cfg : ModelCfg) (nelec : List ℤ)
    (ionPos : Fin nion → Fin d → ℝ) (charges : Fin nion → ℝ) (dtype : ℕ) :
    (∃ m, getModelFromConfig cfg nelec ionPos charges dtype = .ok m) ↔
      Spec.Acceptable cfg nelec.length := by
  unfold getModelFromConfig Spec.Acceptable
  simp only [exists_bind_ok]
  split
  · rename_i h
    simp only [exists_bind_ok, exists_pure_ok, and_true, exists_and_right, fermi_accepted,
      backflow_accepted, detFn_accepted, h, Spec.FermiOk]
    simp
    tauto
  split
  · rename_i h
    simp only [exists_bind_ok, exists_pure_ok, and_true, exists_and_right, fermi_accepted,
      backflow_accepted, detFn_accepted, invariance_accepted, broadcast_accepted, h, Spec.FermiOk]
    simp
    tauto
  split
  · rename_i h
    simp only [exists_bind_ok, exists_pure_ok, and_true, exists_and_right, fermi_accepted,
      backflow_accepted, detFn_accepted, invariance_accepted, separate_accepted, h, Spec.FermiOk]
    simp
    tauto
  split
  · rename_i h1 h2 h3 h
    simp only [exists_bind_ok, exists_pure_ok, and_true, exists_and_right, orbitals_accepted,
      backflow_accepted, covariance_accepted]
    rcases h with h | h <;> simp [h] <;> tauto
  split
  · rename_i h
    simp only [exists_bind_ok, h]
    split
    · rename_i h
      simp only [exists_bind_ok, exists_pure_ok, and_true, resnet_accepted, h, exists_and_right,
        backflow_accepted, jastrow_accepted]
      simp
    split
    · rename_i h
      simp only [exists_bind_ok, exists_pure_ok, and_true, resnet_accepted, h, exists_and_right,
        backflow_accepted, jastrow_accepted]
      simp
    · simp [*]
  · simp_all

theorem default_backflow_ok : Spec.BackflowOk {} := by
  constructor <;> simp [Spec.KernelName, Spec.BiasName, Spec.ActivationName]

/-- The default configurations can be used, for two kinds of electrons, with all six types. -/
theorem default_acceptable (t : String) (ht : t ∈ ["ferminet", "embedded_particle_ferminet",
    "extended_orbital_matrix_ferminet", "orbital_cofactor_net", "per_particle_dets_net",
    "explicit_antisym"]) : Spec.Acceptable { type := t } 2 := by
  have hb := default_backflow_ok
  have hj : Spec.BackflowOk ({} : JastrowCfg).backflow := by
    constructor <;> simp [Spec.KernelName, Spec.BiasName, Spec.ActivationName]
  have ho : Spec.OrbitalsOk { type := t } := by
    simp [Spec.OrbitalsOk, Spec.KernelName, Spec.BiasName]
  have hf : Spec.FermiOk { type := t } := by
    refine ⟨ho, ?_, fun h => absurd h (by simp)⟩
    right; left
    show ("parallel_even" : String).toUpper = "PARALLEL_EVEN"
    decide +kernel
  have hi : Spec.InvarianceOk {} := by simp [Spec.InvarianceOk, Spec.KernelName, Spec.BiasName]
  refine ⟨hb, ?_⟩
  simp only [List.mem_cons, List.not_mem_nil, or_false] at ht
  rcases ht with rfl | rfl | rfl | rfl | rfl | rfl <;>
    simp [hf, hi, hb, ho, Spec.KernelName, Spec.JastrowOk, hj, Spec.BiasName, Spec.ActivationName]


/-- A mode of the determinant function which does not exist is rejected although no such
function is used. -/
example (ionPos : Fin nion → Fin d → ℝ) (charges : Fin nion → ℝ) :
    ¬ ∃ m, getModelFromConfig { detResnet := { mode := "sum" } } [1, 1] ionPos charges 32
      = .ok m := by
  rw [model_config_accepted_iff]
  have h : ¬ Spec.ModeName "sum" := by
    have : ("sum" : String).toUpper = "SUM" := by decide +kernel
    simp [Spec.ModeName, this]
  simp [Spec.Acceptable, Spec.FermiOk, h]

end Verif.Props
