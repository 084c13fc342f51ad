import Verif.Props.BatchedExplicit

/-!
What a model built from any configuration returns for a batch of walkers.
-/

namespace Verif.Construct
open Verif.Arrays Verif.Slog Verif.Net

variable {K M d : ℕ}

/-- Calling a model on an array of positions: the `__call__` of the class which `get_model_from_config` returns,
with the parameters `P`.
models/construct.py:854-1022 (FermiNet), 1065-1130 (EmbeddedParticleFermiNet), 1133-1240
(ExtendedOrbitalMatrixFermiNet), 1293-1324 (AntiequivarianceNet), 1397-1456 (FactorizedAntisymmetry), 1527-1590
(GenericAntisymmetry) -/
noncomputable def Model.onBatch (n : Fin (K + 1) → ℕ) (m : Model (M + 1)) (P : Params (K + 1) (M + 1) d)
    (ions : Fin (M + 1) → Fin d → ℝ) (X : Arr ℝ) : Except String (Arr SL) :=
  match m with
  | .fermiNet f => fermiNetA f (fermiA f P n) (A2 ions) X
  | .embedded f nh s bs inv =>
    embeddedA f nh s bs inv (fermiA f P fun s => n s + hiddenOf K nh s)
      (embeddedInvarianceA (hiddenOf K nh) s bs P) (A2 ions) X
  | .extended f nh ib inv =>
    extendedA f nh ib inv (fermiA f P fun s => n s + hiddenOf K nh s)
      (extendedInvarianceA f (hiddenOf K nh) (extendedCols f n (hiddenOf K nh)) ib P) (A2 ions) X
  | .antiequivariance ss s bs pp ls o v m =>
    antiequivarianceA ss s bs pp ls o v m (blocksA P.backflow 0 bs (inWidths (M + 1) d s.includeEeNorm))
      (antieqLayerParams pp P (outWidths bs (inWidths (M + 1) d s.includeEeNorm)).1 n)
      (covarianceParams P (multiplyWidth m (outWidths bs (inWidths (M + 1) d s.includeEeNorm)).1) n)
      (A2 ions) X
  | .explicit ss s bs j a r => explicitA ss s bs j a r (explicitParams s bs a r P n) (A2 ions) X

end Verif.Construct

namespace Verif.Spec
open Verif.Arrays Verif.Slog Verif.Net

/-- Calling `F` on an array of walkers returns exactly if `g` returns for each of them, and then the result has
the shape of the batch and the entry of each walker is its value of `g`.  (The exceptions may be different.) -/
def Agrees {S d : ℕ} {n : Fin S → ℕ} (F : Arr ℝ → Except String (Arr SL))
    (g : Stream1 n d → Except String SL) : Prop :=
  ∀ (B : List ℕ) (X : Arr ℝ), X.shape = d :: (∑ s, n s) :: B → ∀ b, Ix b B →
    (∀ Y, F X = .ok Y → Y.shape = B ∧ g (walkerOf X b) = .ok (Y.get b)) ∧
    ∀ p, g (walkerOf X b) = .ok p → ∃ Y, F X = .ok Y

end Verif.Spec

namespace Verif.Props
open Verif.Arrays Verif.Slog Verif.Construct Verif.Net Equiv

variable {K M d : ℕ} {n : Fin (K + 1) → ℕ}

theorem agrees_of_computes {F : Arr ℝ → Except String (Arr SL)} {g : Stream1 n d → Except String SL}
    (h : Spec.ComputesPerWalker F g) : Spec.Agrees F g := by
  intro B X hX b hb
  obtain ⟨e, h1, h2⟩ | ⟨Y, h1, h2, h3⟩ := h B X hX b hb
  · rw [h1, h2]
    exact ⟨fun Y h => (by cases h), fun p h => (by cases h)⟩
  · rw [h1, h3]
    refine ⟨fun Z h4 => ?_, fun p _ => ⟨Y, rfl⟩⟩
    cases h4
    exact ⟨h2, rfl⟩

theorem agrees_of_raises {F : Arr ℝ → Except String (Arr SL)} {g : Stream1 n d → Except String SL}
    (hF : ∀ X Y, F X ≠ .ok Y) (hg : ∀ pos p, g pos ≠ .ok p) : Spec.Agrees F g :=
  fun _ X _ _ _ => ⟨fun Y h => absurd h (hF X Y), fun p h => absurd h (hg _ p)⟩

/-- C112: calling the model made from a configuration on a batch returns exactly if the per-walker model
returns, and then the entry of each walker is its value. -/
theorem configured_model_agrees (c : ModelCfg) (ions : Fin (M + 1) → Fin d → ℝ) (charges : Fin (M + 1) → ℝ)
    (dtype : ℕ) (m : Model (M + 1)) (hm : getModelFromConfig c (counts n) ions charges dtype = .ok m)
    (hu : Spec.UsesNorms c) (hdet : c.ndeterminants ≠ 0) (hn : ∀ s, 0 < n s)
    (P : Params (K + 1) (M + 1) d) :
    Spec.Agrees (n := n) (m.onBatch n P ions) (m.apply P ions) := by
  have hmatch := configured_model_splits_match c _ ions charges dtype _ hm
  have hnorm := configured_model_norms c _ ions charges dtype _ hm hu
  have hmeans := configured_model_means_partial c _ ions charges dtype _ hm
  have hN : ∑ s, n s ≠ 0 := by
    have := Finset.single_le_sum (f := n) (fun _ _ => Nat.zero_le _) (Finset.mem_univ (0 : Fin (K + 1)))
    have := hn 0
    omega
  have hap : ∀ g : Stream1 n d → Except String SL,
      (∀ pos, m.apply P ions pos = g pos) → Spec.Agrees (m.onBatch n P ions) g →
      Spec.Agrees (n := n) (m.onBatch n P ions) (m.apply P ions) := fun g h1 h2 => by
    rwa [show m.apply P ions = g from funext h1]
  cases hmeans with
  | fermiNet f ht h =>
    exact hap (f.apply P ions) (fun pos => by
      unfold Model.apply
      rw [if_neg (by simpa using hmatch), if_neg (by simpa using hnorm)]) (agrees_of_computes (ferminet_computes_per_walker f P hmatch.1 hmatch.2 hnorm
      (by rw [h.determinants]; exact hdet) hN ions))
  | embedded f nh seen s bs inv ht _ _ h _ _ _ =>
    have hb' : nh.length = K + 1 → BlocksMatch (counts fun s => n s + hiddenOf K nh s) f.backflow := by
      intro hl
      have h1 := hmatch.2.1 (by rw [counts_length, hl])
      rwa [show List.zipWith (· + ·) (nh.map Int.ofNat) (counts n) =
        counts fun s => n s + hiddenOf K nh s from ?_] at h1
      conv_lhs => rw [hidden_ofFn nh hl]
      unfold counts
      refine List.ext_getElem (by simp) fun i h1 h2 => ?_
      simp only [List.getElem_zipWith, List.getElem_map, List.getElem_ofFn, Int.ofNat_eq_natCast]
      push_cast
      exact add_comm _ _
    exact hap (applyEmbedded f nh s bs inv P ions) (fun pos => by
      unfold Model.apply
      rw [if_neg (by simpa using hmatch), if_neg (by simpa using hnorm)]) (agrees_of_computes (embedded_computes_per_walker f nh s bs inv P hmatch.1 hmatch.2.2 hb' hnorm.2
      hnorm.1 (by rw [h.determinants]; exact hdet) hN ions))
  | extended f nh ib inv ht _ h _ _ =>
    refine hap (applyExtended f nh ib inv P ions) (fun pos => by
      unfold Model.apply
      rw [if_neg (by simpa using hmatch), if_neg (by simpa using hnorm)]) ?_
    by_cases hl : nh.length = K + 1
    · exact agrees_of_computes (extended_computes_per_walker f nh ib inv P hl hmatch.1 hmatch.2.1 hmatch.2.2
        hnorm (by rw [h.determinants]; exact hdet) hN ions)
    · refine agrees_of_raises (fun X Y h1 => absurd ?_ hl)
        fun pos p h1 => absurd ((extended_callable f hmatch.1 nh ib inv P ions _).mp ⟨p, h1⟩).2.1 hl
      rw [extended_returns_length h1]
      have := congrArg List.length (places_counts (n := n))
      rw [← hmatch.1] at this
      simpa [places, ends] using this
  | antiequivariance s bs pp o v mult ht hstr _ _ _ _ =>
    have hks : ∀ cfg ks dt bs', v = .backflow cfg ks dt → getBackflow cfg ks dt = .ok bs' →
        BlocksMatch (counts n) bs' := by
      rintro cfg ks dt bs' rfl h
      have h4 : ks = Split.getSpinSplit (counts n) := hmatch.2.2.2
      subst h4
      exact blocks_match_of_get _ _ _ _ h
    refine hap (applyAntiequivariance _ s bs pp o v mult P ions) (fun pos => by
      unfold Model.apply
      rw [if_neg (by simpa using hmatch), if_neg (by simpa using hnorm)]) ?_
    by_cases hv : ∀ cfg ks dt, v = .backflow cfg ks dt → ∃ bs, getBackflow cfg ks dt = .ok bs
    · exact agrees_of_computes (antiequivariance_computes_per_walker _ s bs pp o v mult P hmatch.1
        hmatch.2.2.1 (fun cfg ks dt hc => by
          obtain ⟨bs', h⟩ := hv cfg ks dt hc
          exact ⟨bs', h, hks cfg ks dt bs' hc h⟩) hnorm hN ions)
    · refine agrees_of_raises (fun X Y h1 => absurd ?_ hv) fun pos p h1 => absurd ?_ hv
      swap
      · have := ((antiequivariance_callable hn s bs pp o v mult P ions _).mp ⟨p, h1⟩).2.2
        rintro cfg ks dt rfl
        exact (backflow_accepted _ _ _).mpr this
      · rintro cfg ks dt rfl
        exact antiequivariance_returns_parsed h1
  | explicit s bs j a r ht _ hstr _ _ _ =>
    exact hap (applyExplicit s bs j a r P ions) (fun pos => by
      unfold Model.apply
      rw [if_neg (by simpa using hmatch), if_neg (by simpa using hnorm)]) (agrees_of_computes (explicit_computes_per_walker _ s bs j a r P hmatch.1 hmatch.2.1 hmatch.2.2
      hnorm (fun s => (hn s).ne') ions))

theorem exists_walker {B : List ℕ} (hB : 0 ∉ B) : ∃ b, Ix b B := by
  induction B with
  | nil => exact ⟨[], .nil⟩
  | cons a l ih =>
    simp only [List.mem_cons, not_or] at hB
    obtain ⟨b, hb⟩ := ih hB.2
    exact ⟨0 :: b, .cons (Nat.pos_of_ne_zero (Ne.symm hB.1)) hb⟩

/-- C112: with at least one electron of each species, calling the model made from a configuration on a batch
with at least one walker returns exactly if the configuration is callable, whatever the parameters, the positions
and the shape of the batch. -/
theorem configured_batch_returns_iff (c : ModelCfg) (ions : Fin (M + 1) → Fin d → ℝ)
    (charges : Fin (M + 1) → ℝ) (dtype : ℕ) (m : Model (M + 1))
    (hm : getModelFromConfig c (counts n) ions charges dtype = .ok m) (hu : Spec.UsesNorms c)
    (hdet : c.ndeterminants ≠ 0) (hn : ∀ s, 0 < n s) (P : Params (K + 1) (M + 1) d) {B : List ℕ} {X : Arr ℝ}
    (hX : X.shape = d :: (∑ s, n s) :: B) (hB : 0 ∉ B) :
    (∃ Y, m.onBatch n P ions X = .ok Y) ↔ Spec.Callable c (K + 1) := by
  obtain ⟨b, hb⟩ := exists_walker hB
  rw [← configured_model_callable_iff c ions charges dtype m hm hu hn P (Spec.walkerOf X b)]
  have h := configured_model_agrees c ions charges dtype m hm hu hdet hn P B X hX b hb
  exact ⟨fun ⟨Y, hY⟩ => ⟨_, (h.1 Y hY).2⟩, fun ⟨p, hp⟩ => h.2 p hp⟩

/-- The entries of a batch are the values which the configuration stands for (unless all terms of a sum in the
log domain vanish). -/
theorem configured_batch_value (c : ModelCfg) (ions : Fin (M + 1) → Fin d → ℝ)
    (charges : Fin (M + 1) → ℝ) (dtype : ℕ) (m : Model (M + 1))
    (hm : getModelFromConfig c (counts n) ions charges dtype = .ok m) (hu : Spec.UsesNorms c)
    (hdet : c.ndeterminants ≠ 0) (hn : ∀ s, 0 < n s) (P : Params (K + 1) (M + 1) d) {B : List ℕ} {X : Arr ℝ}
    (hX : X.shape = d :: (∑ s, n s) :: B) {Y : Arr SL} (hY : m.onBatch n P ions X = .ok Y) {b : List ℕ}
    (hb : Ix b B) :
    Y.shape = B ∧ ∃ (nonzero : Prop) (r : ℝ),
      Spec.ModelValue c P ions charges (Spec.walkerOf X b : Stream1 n d) nonzero r ∧
        (nonzero → Spec.Represents (Y.get b) r) := by
  have h := (configured_model_agrees c ions charges dtype m hm hu hdet hn P B X hX b hb).1 Y hY
  exact ⟨h.1, configured_model_value c ions charges dtype m hm P _ _ h.2⟩

/-- Permuting the electrons of each walker within the species, each walker in its own way. -/
theorem configured_batches_antisymmetric_partial (c : ModelCfg) (ions : Fin (M + 1) → Fin d → ℝ)
    (charges : Fin (M + 1) → ℝ) (dtype : ℕ) (m : Model (M + 1))
    (hm : getModelFromConfig c (counts n) ions charges dtype = .ok m) (hw : ¬ Spec.WeightedProducts c)
    (hu : Spec.UsesNorms c) (hdet : c.ndeterminants ≠ 0) (hn : ∀ s, 0 < n s)
    (P : Params (K + 1) (M + 1) d) {B : List ℕ} {X X' : Arr ℝ} (hX : X.shape = d :: (∑ s, n s) :: B)
    (hX' : X'.shape = d :: (∑ s, n s) :: B) (π : List ℕ → ∀ s, Perm (Fin (n s)))
    (hp : ∀ b, Ix b B → (Spec.walkerOf X' b : Stream1 n d) = permute1 (π b) (Spec.walkerOf X b))
    {Y : Arr SL} (hY : m.onBatch n P ions X = .ok Y) (hB : 0 ∉ B) :
    ∃ Y', m.onBatch n P ions X' = .ok Y' ∧ Y'.shape = B ∧
      ∀ b, Ix b B → Y'.get b = signTimes (totalParity (π b)) (Y.get b) := by
  have h := configured_model_agrees c ions charges dtype m hm hu hdet hn P
  have ha := fun π pos => (configured_model_antisymmetric_partial c ions charges dtype m hm hw P π pos).1
  have hc := (configured_batch_returns_iff c ions charges dtype m hm hu hdet hn P hX hB).mp ⟨Y, hY⟩
  obtain ⟨Y', hY'⟩ := (configured_batch_returns_iff c ions charges dtype m hm hu hdet hn P hX' hB).mpr hc
  obtain ⟨b₀, hb₀⟩ := exists_walker hB
  refine ⟨Y', hY', ((h B X' hX' b₀ hb₀).1 Y' hY').1, fun b hb => ?_⟩
  have h1 := ((h B X' hX' b hb).1 Y' hY').2
  rw [hp b hb, ha, ((h B X hX b hb).1 Y hY).2] at h1
  exact (Except.ok.inj h1).symm

/-! ### Examples -/

/-- The default configuration of every model type, for three electrons around one nucleus, called on four times
five walkers: twenty numbers, each of which is the value of the configuration for its walker. -/
example (t : String) (ht : t ∈ ["ferminet", "embedded_particle_ferminet", "extended_orbital_matrix_ferminet",
      "orbital_cofactor_net", "per_particle_dets_net", "explicit_antisym"])
    (P : Params 2 1 3) (X : Arr ℝ) (hX : X.shape = [3, 3, 5, 4]) :
    ∃ m, getModelFromConfig { type := t } (counts (![2, 1] : Fin 2 → ℕ)) (fun (_ : Fin 1) (_ : Fin 3) => (0 : ℝ))
        (fun _ => 3) 32 = .ok m ∧
      ∃ Y, m.onBatch ![2, 1] P (fun _ _ => 0) X = .ok Y ∧
        ∀ b, Ix b [5, 4] → Y.shape = [5, 4] ∧ ∃ (nonzero : Prop) (r : ℝ),
          Spec.ModelValue { type := t } P (fun _ _ => 0) (fun _ => 3)
            (Spec.walkerOf X b : Stream1 (![2, 1] : Fin 2 → ℕ) 3) nonzero r ∧
            (nonzero → Spec.Represents (Y.get b) r) := by
  have hX' : X.shape = 3 :: (∑ s, (![2, 1] : Fin 2 → ℕ) s) :: [5, 4] := hX
  have hn : ∀ s, 0 < (![2, 1] : Fin 2 → ℕ) s := by intro s; fin_cases s <;> simp
  have hbf : Spec.BackflowOk ({} : JastrowCfg).backflow := by
    constructor <;> simp [Spec.KernelName, Spec.BiasName, Spec.ActivationName]
  have hbi : Spec.BackflowOk ({} : InvarianceCfg).backflow := by
    constructor <;> simp [Spec.KernelName, Spec.BiasName, Spec.ActivationName]
  have hup : ("parallel_even" : String).toUpper = "PARALLEL_EVEN" := by decide +kernel
  obtain ⟨m, hm⟩ := (model_config_accepted_iff { type := t }
    (counts (![2, 1] : Fin 2 → ℕ)) (fun (_ : Fin 1) (_ : Fin 3) => (0 : ℝ)) (fun _ => 3) 32).mpr (by
      rw [counts_length]
      refine ⟨default_backflow_ok, ?_⟩
      simp only [List.mem_cons, List.not_mem_nil, or_false] at ht
      rcases ht with rfl | rfl | rfl | rfl | rfl | rfl <;>
        simp [Spec.FermiOk, Spec.OrbitalsOk, Spec.ModeName, Spec.InvarianceOk, Spec.JastrowOk, Spec.KernelName,
          Spec.BiasName, Spec.ActivationName, hbf, hbi, hup])
  have hu : Spec.UsesNorms { type := t } := ⟨rfl, fun _ => rfl⟩
  have hdet : ({ type := t } : ModelCfg).ndeterminants ≠ 0 := by simp
  obtain ⟨Y, hY⟩ := (configured_batch_returns_iff { type := t } _ _ 32 m hm hu hdet hn P hX' (by simp)).mpr (by
    simp only [List.mem_cons, List.not_mem_nil, or_false] at ht
    rcases ht with rfl | rfl | rfl | rfl | rfl | rfl <;>
      simp [Spec.Callable, Spec.PairsWithoutTwo])
  exact ⟨m, hm, Y, hY, fun b hb => configured_batch_value { type := t } _ _ 32 m hm hu hdet hn P hX' hY hb⟩

end Verif.Props
