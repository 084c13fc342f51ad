import Verif.Lemmas.ArrayViewsExplicit
import Verif.Props.BatchedNets
import Verif.Props.BatchedAntieq

/-!
What the array code of the explicitly antisymmetrized networks returns for a batch of walkers.
-/

namespace Verif.Props
open Verif.Arrays Verif.Slog Verif.Construct Verif.Net Equiv

variable {K M d : ℕ} {n : Fin (K + 1) → ℕ}

/-- The array code of an explicitly antisymmetrized network with the parameters `P`. -/
noncomputable abbrev explicitOf (n : Fin (K + 1) → ℕ) (ss : List ℤ) (s : StreamsDesc) (bs : List BlockDesc)
    (j : JastrowDesc (M + 1)) (a : AntisymDesc) (r : ResNetDesc) (P : Params (K + 1) (M + 1) d)
    (ions : Fin (M + 1) → Fin d → ℝ) (X : Arr ℝ) : Except String (Arr SL) :=
  explicitA ss s bs j a r (explicitParams s bs a r P n) (A2 ions) X

/-- C111: the array code of the explicitly antisymmetrized networks, with all Jastrow factors, computes the
function of the per-walker model for every walker of every batch. -/
theorem explicit_computes_per_walker (ss : List ℤ) (s : StreamsDesc) (bs : List BlockDesc)
    (j : JastrowDesc (M + 1)) (a : AntisymDesc) (r : ResNetDesc) (P : Params (K + 1) (M + 1) d)
    (hs : ss = Split.getSpinSplit (counts n)) (hb : BlocksMatch (counts n) bs) (hj : j.Matches (counts n))
    (hei : s.includeEiNorm = true) (hn : ∀ s, n s ≠ 0) (ions : Fin (M + 1) → Fin d → ℝ) :
    Spec.ComputesPerWalker (n := n) (explicitOf n ss s bs j a r P ions) (applyExplicit s bs j a r P ions) :=
  computes_of_on (fun _ _ _ _ h => on_explicit (ions := A2 ions) rfl ss s hei bs j a r _ h)
    (explicit_one ss s bs j a r P hs hb hj hei hn ions)

/-- An explicitly antisymmetrized network built from a configuration returns, for every walker of a batch, a
representation of the value which the configuration stands for. -/
theorem configured_explicit_on_batches (c : ModelCfg) (ions : Fin (M + 1) → Fin d → ℝ)
    (charges : Fin (M + 1) → ℝ) (dtype : ℕ) (ss : List ℤ) (s : StreamsDesc) (bs : List BlockDesc)
    (j : JastrowDesc (M + 1)) (a : AntisymDesc) (r : ResNetDesc)
    (hm : getModelFromConfig c (counts n) ions charges dtype = .ok (.explicit ss s bs j a r))
    (hei : c.inputStreams.includeEiNorm = true) (hn : ∀ s, n s ≠ 0)
    (P : Params (K + 1) (M + 1) d) {B : List ℕ} {X : Arr ℝ} (hX : X.shape = d :: (∑ s, n s) :: B)
    {Y : Arr SL} (hY : explicitOf n ss s bs j a r P ions X = .ok Y) {b : List ℕ} (hb : Ix b B) :
    Y.shape = B ∧ ∃ (nonzero : Prop) (v : ℝ),
      Spec.ModelValue c P ions charges (Spec.walkerOf X b : Stream1 n d) nonzero v ∧
        (nonzero → Spec.Represents (Y.get b) v) := by
  have hmatch := configured_model_splits_match c _ ions charges dtype _ hm
  have hmeans := configured_model_means_partial c _ ions charges dtype _ hm
  cases hmeans with
  | explicit _ _ _ _ _ ht _ hstr _ _ _ =>
    have he : s.includeEiNorm = true := by rw [hstr.ei, hei]
    obtain ⟨e, h3, _⟩ | ⟨Z, h3, h4, h5⟩ :=
      explicit_computes_per_walker _ s bs j a r P hmatch.1 hmatch.2.1 hmatch.2.2 he hn ions B X hX b hb
    · rw [hY] at h3; cases h3
    · rw [hY] at h3
      cases h3
      refine ⟨h4, configured_model_value c ions charges dtype _ hm P _ _ ?_⟩
      unfold Model.apply
      rw [if_neg (by simpa using hmatch), if_neg (by simpa [Model.EiNorms] using he)]
      exact h5

/-- Permuting the electrons of each walker in its own way. -/
theorem explicit_batches_antisymmetric (ss : List ℤ) (s : StreamsDesc) (bs : List BlockDesc)
    (j : JastrowDesc (M + 1)) (a : AntisymDesc) (r : ResNetDesc) (P : Params (K + 1) (M + 1) d)
    (hs : ss = Split.getSpinSplit (counts n)) (hb : BlocksMatch (counts n) bs) (hj : j.Matches (counts n))
    (hei : s.includeEiNorm = true) (hn : ∀ s, n s ≠ 0) (ions : Fin (M + 1) → Fin d → ℝ)
    {B : List ℕ} {X X' : Arr ℝ} (hX : X.shape = d :: (∑ s, n s) :: B)
    (hX' : X'.shape = d :: (∑ s, n s) :: B) (π : List ℕ → ∀ s, Perm (Fin (n s)))
    (hp : ∀ b, Ix b B → (Spec.walkerOf X' b : Stream1 n d) = permute1 (π b) (Spec.walkerOf X b))
    {Y : Arr SL} (hY : explicitOf n ss s bs j a r P ions X = .ok Y) (hB : 0 ∉ B) :
    ∃ Y', explicitOf n ss s bs j a r P ions X' = .ok Y' ∧ Y'.shape = B ∧
      ∀ b, Ix b B → Y'.get b = signTimes (totalParity (π b)) (Y.get b) :=
  batches_antisymmetric (explicit_computes_per_walker ss s bs j a r P hs hb hj hei hn ions)
    (explicit_desc_antisymmetric s bs j a r P ions) hX hX' π hp hY hB

/-- A species without electrons: the list of its permutations is an array of floats, so that every call
raises. -/
theorem explicit_empty_species_raises (s : StreamsDesc) (bs : List BlockDesc)
    (j : JastrowDesc (M + 1)) (r : ResNetDesc) (P : Params (K + 1) (M + 1) d)
    (hb : BlocksMatch (counts n) bs) (hei : s.includeEiNorm = true) (hN : ∑ s, n s ≠ 0)
    (hn : ∃ s, n s = 0) (ions : Fin (M + 1) → Fin d → ℝ) (pos : Stream1 n d) :
    explicitOf n (Split.getSpinSplit (counts n)) s bs j .generic r P ions (S1 pos) =
      .error "take requires integer indices" := by
  have hmapM : ∀ {S : ℕ} (m : Fin S → ℕ) {d1 : ℕ} (x : ∀ s, Fin (m s) → Fin d1 → ℝ), (∃ s, m s = 0) →
      (List.ofFn fun s => A2 (x s)).mapM takePerms =
        (.error "take requires integer indices" : Except String (List (Arr ℝ))) := by
    intro S m d1 x h
    induction S with
    | zero => exact h.choose.elim0
    | succ S ih =>
      rw [List.ofFn_succ, List.mapM_cons]
      by_cases h0 : m 0 = 0
      · have : takePerms (A2 (x 0)) = .error "take requires integer indices" := by
          simp only [takePerms, A2_shape]
          rw [if_pos h0]
        rw [this]
        rfl
      · have h' : ∃ s : Fin S, m s.succ = 0 := by
          obtain ⟨s, hs⟩ := h
          revert hs
          refine Fin.cases (fun hs => absurd hs h0) (fun s hs => ⟨s, hs⟩) s
        rw [takePerms_A2 h0, ok_bind, ih (fun s => m s.succ) (fun s => x s.succ) h']
        rfl
  unfold explicitOf explicitA
  rw [inputStreams_ree s hei hN, ok_bind]
  simp only
  rw [backflow_S P.backflow (explicitParams s bs .generic r P n).backflow 0 bs
    (inWidths (M + 1) d s.includeEeNorm) (fun _ _ => rfl)
    (fun b hb' => by rw [hb b hb', places_counts]), ok_bind, places_counts, split_rows2, ok_bind]
  unfold antisymA genericA
  simp only
  rw [hmapM n _ hn]
  rfl

/-! ### Examples -/

/-- The default explicitly antisymmetrized networks of both kinds, with a Jastrow factor of every kind, for three
electrons around one nucleus, called on four times five walkers: they return twenty numbers, each of which is the
value of the configuration for its walker. -/
example (t : String) (ht : t = "factorized" ∨ t = "generic") (jt : String)
    (hjt : jt = "one_body_decay" ∨ jt = "two_body_decay" ∨ jt = "backflow_based" ∨
      jt = "two_body_decay_and_backflow_based")
    (P : Params 2 1 3) (X : Arr ℝ) (hX : X.shape = [3, 3, 5, 4]) :
    ∃ ss s bs j a r, getModelFromConfig
        { type := "explicit_antisym", antisymType := t, jastrow := { type := jt } }
        (counts (![2, 1] : Fin 2 → ℕ)) (fun (_ : Fin 1) (_ : Fin 3) => (0 : ℝ)) (fun _ => 3) 32 =
          .ok (.explicit ss s bs j a r) ∧
      ∃ Y, explicitOf ![2, 1] ss s bs j a r P (fun _ _ => 0) X = .ok Y ∧ Y.shape = [5, 4] ∧
        ∀ b, Ix b [5, 4] → ∃ (nonzero : Prop) (v : ℝ),
          Spec.ModelValue { type := "explicit_antisym", antisymType := t, jastrow := { type := jt } } P
            (fun _ _ => 0) (fun _ => 3) (Spec.walkerOf X b : Stream1 (![2, 1] : Fin 2 → ℕ) 3) nonzero v ∧
            (nonzero → Spec.Represents (Y.get b) v) := by
  obtain ⟨m, hm⟩ := (model_config_accepted_iff
    { type := "explicit_antisym", antisymType := t, jastrow := { type := jt } }
    (counts (![2, 1] : Fin 2 → ℕ)) (fun (_ : Fin 1) (_ : Fin 3) => (0 : ℝ)) (fun _ => 3) 32).mpr (by
      rw [counts_length]
      refine ⟨default_backflow_ok, ?_⟩
      right; right; right; right
      refine ⟨rfl, ?_, ht, by simp [Spec.KernelName], by simp [Spec.BiasName], by simp [Spec.ActivationName]⟩
      have hbf : Spec.BackflowOk ({} : JastrowCfg).backflow := by
        constructor <;> simp [Spec.KernelName, Spec.BiasName, Spec.ActivationName]
      rcases hjt with rfl | rfl | rfl | rfl <;> simp [Spec.JastrowOk, Spec.KernelName] <;> exact hbf)
  have hX' : X.shape = 3 :: (∑ s, (![2, 1] : Fin 2 → ℕ) s) :: [5, 4] := hX
  obtain ⟨p, hp⟩ := (configured_model_callable_iff _ _ _ _ m hm
    ⟨rfl, fun h => absurd h (by simp)⟩
    (by intro s; fin_cases s <;> simp) P (Spec.walkerOf X [0, 0])).mpr (by
      right; right; right; right
      exact ⟨rfl, fun _ => by simp, fun _ => rfl⟩)
  have hmatch := configured_model_splits_match _ _ _ _ _ _ hm
  cases configured_model_means_partial _ _ _ _ _ _ hm with
  | fermiNet _ h => exact absurd h (by simp)
  | embedded _ _ _ _ _ _ h => exact absurd h (by simp)
  | extended _ _ _ _ h => exact absurd h (by simp)
  | antiequivariance _ _ _ _ _ _ h => simp at h
  | explicit s bs j a r _ _ hstr =>
    have he : s.includeEiNorm = true := by rw [hstr.ei]
    have h0 : Ix [0, 0] [5, 4] := .cons (by decide) (.cons (by decide) .nil)
    have hn : ∀ s, (![2, 1] : Fin 2 → ℕ) s ≠ 0 := by intro s; fin_cases s <;> simp
    unfold Model.apply at hp
    rw [if_neg (by simpa using hmatch), if_neg (by simpa [Model.EiNorms] using he)] at hp
    obtain ⟨e, _, h2⟩ | ⟨Y, h1, h2, _⟩ := explicit_computes_per_walker _ s bs j a r P hmatch.1
      hmatch.2.1 hmatch.2.2 he hn (fun _ _ => 0) [5, 4] X hX' [0, 0] h0
    · rw [show applyExplicit s bs j a r P (fun _ _ => 0) (Spec.walkerOf X [0, 0]) = .ok p from hp] at h2
      cases h2
    · exact ⟨_, s, bs, j, a, r, hm, Y, h1, h2, fun b hb =>
        (configured_explicit_on_batches _ _ _ 32 _ s bs j a r hm rfl hn P hX' h1 hb).2⟩

/-- A lithium ion in its lowest triplet state has no electrons of one species. -/
example (s : StreamsDesc) (j : JastrowDesc 1) (r : ResNetDesc) (P : Params 2 1 3)
    (hei : s.includeEiNorm = true) (pos : Stream1 (![2, 0] : Fin 2 → ℕ) 3) :
    explicitOf ![2, 0] (Split.getSpinSplit (counts (![2, 0] : Fin 2 → ℕ))) s [] j .generic r P (fun _ _ => 0)
      (S1 pos) = .error "take requires integer indices" :=
  explicit_empty_species_raises s [] j r P (fun _ h => by simp at h) hei (by decide) ⟨1, rfl⟩ _ pos

end Verif.Props
